import Verif.Tac.Model
import Mathlib.Data.List.Nodup
import Mathlib.Logic.Relation

/-
The bookkeeping of src/vm2tac.c (Verif/Tac/Model.lean) as an invariant `W`, and the small steps
`Mic` of which loadStk, outStk, outStkAll and clearFlg consist.
-/
namespace Cmm.Tac

/-- The accumulator an entry uses. -/
def acc1 (e : Ent) : List Int := if isAcc e then [e.aux] else []

/-- The accumulators the entries use. -/
def accs : List Ent → List Int
  | [] => []
  | e :: es => acc1 e ++ accs es

/-- Below an entry on the hardware stack no entry uses an accumulator. -/
def Low : List Ent → Prop
  | [] => True
  | e :: es => (e.sta = .STK → accs es = []) ∧ Low es

/-- An entry in the flags is the one flgPtr points to. -/
def FlagOk (f : Option Nat) : List Ent → Prop
  | [] => True
  | e :: es => (e.sta = .FLAG → f = some es.length) ∧ FlagOk f es

/-- Registers that are not accumulators are register variables. -/
def RegOk (e : Ent) : Prop :=
  (e.sta = .RVAR → 3 ≤ e.aux ∧ e.aux ≤ 11) ∧
    (e.sta = .WINDR ∨ e.sta = .BINDR → 0 ≤ e.aux ∧ e.aux ≤ 11)

/-- The invariant. -/
structure W (t : T) : Prop where
  own : ∀ r, t.bsy r = true ↔ r ∈ accs t.stk
  nodup : (accs t.stk).Nodup
  rng : ∀ r ∈ accs t.stk, 0 ≤ r ∧ r < 3
  cnt : t.cnt = (accs t.stk).length
  low : Low t.stk
  flag : FlagOk t.flg t.stk
  flt : ∀ p, t.flg = some p → p < t.stk.length
  regs : ∀ e ∈ t.stk, RegOk e
  jcc : t.jcc < 6

/-! ### Lists -/

theorem accs_append (a b : List Ent) : accs (a ++ b) = accs a ++ accs b := by
  induction a with
  | nil => rfl
  | cons e a ih => simp [accs, ih]

theorem accs_cons (e : Ent) (es : List Ent) : accs (e :: es) = acc1 e ++ accs es := rfl

theorem accs_split (hi : List Ent) (e : Ent) (lo : List Ent) :
    accs (hi ++ e :: lo) = accs hi ++ (acc1 e ++ accs lo) := by
  rw [accs_append]; rfl

theorem acc1_acc {e : Ent} (h : isAcc e = true) : acc1 e = [e.aux] := by simp [acc1, h]

theorem acc1_not {e : Ent} (h : isAcc e = false) : acc1 e = [] := by simp [acc1, h]

theorem acc1_ACC (a : Int) : acc1 ⟨.ACC, a⟩ = [a] := rfl

theorem acc1_FLAG (a : Int) : acc1 ⟨.FLAG, a⟩ = [a] := rfl

theorem acc1_STK (a : Int) : acc1 ⟨.STK, a⟩ = [] := rfl

theorem get_split (hi : List Ent) (e : Ent) (lo : List Ent) :
    get (hi ++ e :: lo) lo.length = some e := by
  induction hi with
  | nil => simp [get]
  | cons x hi ih =>
    show get (x :: (hi ++ e :: lo)) lo.length = _
    unfold get
    rw [if_neg (by simp only [List.length_append, List.length_cons]; omega)]
    exact ih

theorem put_split (hi : List Ent) (e : Ent) (lo : List Ent) (x : Ent) :
    put (hi ++ e :: lo) lo.length x = hi ++ x :: lo := by
  induction hi with
  | nil => simp [put]
  | cons y hi ih =>
    show put (y :: (hi ++ e :: lo)) lo.length x = _
    unfold put
    rw [if_neg (by simp only [List.length_append, List.length_cons]; omega), ih]
    rfl

/-- The entry at an index. -/
theorem get_some {es : List Ent} {p : Nat} {e : Ent} (h : get es p = some e) :
    ∃ hi lo, es = hi ++ e :: lo ∧ lo.length = p := by
  induction es with
  | nil => cases h
  | cons x es ih =>
    unfold get at h
    split at h
    · cases h; exact ⟨[], es, rfl, by omega⟩
    · obtain ⟨hi, lo, h1, h2⟩ := ih h
      exact ⟨x :: hi, lo, by rw [h1]; rfl, h2⟩

theorem get_lt {es : List Ent} {p : Nat} (h : p < es.length) : ∃ e, get es p = some e := by
  induction es with
  | nil => simp at h
  | cons x es ih =>
    unfold get
    split
    · exact ⟨_, rfl⟩
    · exact ih (by simp only [List.length_cons] at h; omega)

theorem srch_none {es : List Ent} (h : srchAcc es = none) : accs es = [] := by
  induction es with
  | nil => rfl
  | cons e es ih =>
    unfold srchAcc at h
    cases h1 : srchAcc es with
    | some p => rw [h1] at h; cases h
    | none =>
      rw [h1] at h
      simp only at h
      split at h
      · cases h
      · rename_i h2
        rw [accs_cons, ih h1, acc1_not (by simpa using h2)]; rfl

theorem srch_some {es : List Ent} {p : Nat} (h : srchAcc es = some p) :
    ∃ hi e lo, es = hi ++ e :: lo ∧ isAcc e = true ∧ accs lo = [] ∧ p = lo.length := by
  induction es with
  | nil => cases h
  | cons e es ih =>
    unfold srchAcc at h
    cases h1 : srchAcc es with
    | some q =>
      rw [h1] at h
      cases h
      obtain ⟨hi, x, lo, h2, h3, h4, h5⟩ := ih h1
      exact ⟨e :: hi, x, lo, by rw [h2]; rfl, h3, h4, h5⟩
    | none =>
      rw [h1] at h
      simp only at h
      split at h
      · rename_i h2
        cases h
        exact ⟨[], e, es, rfl, h2, srch_none h1, rfl⟩
      · cases h

theorem low_split {hi : List Ent} {e : Ent} {lo : List Ent} (h : Low (hi ++ e :: lo)) :
    Low lo ∧ (e.sta = .STK → accs lo = []) ∧ (isAcc e = true → ∀ x ∈ hi, x.sta ≠ .STK) := by
  induction hi with
  | nil => exact ⟨h.2, h.1, fun _ x hx => by simp at hx⟩
  | cons y hi ih =>
    obtain ⟨a, b, c⟩ := ih h.2
    refine ⟨a, b, fun he x hx hs => ?_⟩
    rcases List.mem_cons.1 hx with rfl | hx
    · have : accs (hi ++ e :: lo) = [] := h.1 hs
      rw [accs_split, acc1_acc he] at this
      simp at this
    · exact c he x hx hs

theorem low_replace {hi : List Ent} {e e' : Ent} {lo : List Ent} (h : Low (hi ++ e :: lo))
    (h1 : e'.sta = .STK → accs lo = [])
    (h2 : (∀ x ∈ hi, x.sta ≠ .STK) ∨ acc1 e' = [] ∨ isAcc e = true) : Low (hi ++ e' :: lo) := by
  induction hi with
  | nil => exact ⟨h1, h.2⟩
  | cons y hi ih =>
    refine ⟨fun hs => ?_, ih h.2 ?_⟩
    · have h3 : accs (hi ++ e :: lo) = [] := h.1 hs
      show accs (hi ++ e' :: lo) = []
      rw [accs_split] at h3 ⊢
      rcases h2 with h2 | h2 | h2
      · exact absurd hs (h2 y (by simp))
      · rw [h2]; simp at h3 ⊢; exact ⟨h3.1, h3.2.2⟩
      · rw [acc1_acc h2] at h3; simp at h3
    · rcases h2 with h2 | h2 | h2
      · exact .inl fun x hx => h2 x (List.mem_cons_of_mem _ hx)
      · exact .inr (.inl h2)
      · exact .inr (.inr h2)

theorem flag_split {f : Option Nat} {hi : List Ent} {e : Ent} {lo : List Ent}
    (h : FlagOk f (hi ++ e :: lo)) : (e.sta = .FLAG → f = some lo.length) ∧ FlagOk f lo := by
  induction hi with
  | nil => exact h
  | cons y hi ih => exact ih h.2

theorem flag_replace {f : Option Nat} {hi : List Ent} {e e' : Ent} {lo : List Ent}
    (h : FlagOk f (hi ++ e :: lo)) (h1 : e'.sta = .FLAG → f = some lo.length) :
    FlagOk f (hi ++ e' :: lo) := by
  induction hi with
  | nil => exact ⟨h1, h.2⟩
  | cons y hi ih =>
    refine ⟨fun hs => ?_, ih h.2⟩
    have := h.1 hs
    simpa using this

/-- If flgPtr is not at an entry in the flags there is none. -/
theorem flag_free {f f' : Option Nat} {es : List Ent} (h : FlagOk f es)
    (h1 : ∀ e ∈ es, e.sta ≠ .FLAG) : FlagOk f' es := by
  induction es with
  | nil => trivial
  | cons e es ih =>
    exact ⟨fun hs => absurd hs (h1 e (by simp)), ih h.2 fun x hx => h1 x (List.mem_cons_of_mem _ hx)⟩

theorem flag_mem {f : Option Nat} {es : List Ent} (h : FlagOk f es) {e : Ent} (he : e ∈ es)
    (hs : e.sta = .FLAG) : ∃ hi lo, es = hi ++ e :: lo ∧ f = some lo.length := by
  obtain ⟨hi, lo, rfl⟩ := List.append_of_mem he
  exact ⟨hi, lo, rfl, (flag_split h).1 hs⟩

/-! ### Small steps -/

/-- The lines loadFlg prints (vm2tac.c:155-163). -/
def flgCode (r : Int) (j n : Nat) : List Line :=
  [.op .LD (.g r) (.imm 1), .jcc j (.T n), .op .LD (.g r) (.imm 0), .lab (.T n)]

/-- Small steps: entries are moved; none of the lines printed changes the flags. Only the `κ` upper
entries are moved into accumulators. -/
inductive Mic (κ : Nat) : T → T → Prop
  /-- flgPtr is forgotten. -/
  | clr {t : T} (h : ∀ e ∈ t.stk, e.sta ≠ .FLAG) : Mic κ t { t with flg := none }
  /-- From the flags to the accumulator. -/
  | unflag {t : T} {hi : List Ent} {a : Int} {lo : List Ent} (h : t.stk = hi ++ ⟨.FLAG, a⟩ :: lo) :
      Mic κ t { t with
        stk := hi ++ ⟨.ACC, a⟩ :: lo
        out := t.out ++ flgCode a t.jcc t.tlab
        tlab := t.tlab + 1 }
  /-- From the memory the accumulator points to, to the accumulator. -/
  | reload {t : T} {hi : List Ent} {e : Ent} {lo : List Ent} {s : Src} (h : t.stk = hi ++ e :: lo)
      (ha : isAcc e = true) (hw : e.sta = .WINDR ∨ e.sta = .BINDR) (ho : operand e = some s) :
      Mic κ t { t with
        stk := hi ++ ⟨.ACC, e.aux⟩ :: lo
        out := t.out ++ [.op .LD (.g e.aux) s] }
  /-- From the accumulator to the hardware stack. -/
  | spill {t : T} {hi : List Ent} {a : Int} {lo : List Ent} (h : t.stk = hi ++ ⟨.ACC, a⟩ :: lo)
      (hl : accs lo = []) :
      Mic κ t { t with
        stk := hi ++ ⟨.STK, a⟩ :: lo
        bsy := upd t.bsy a false
        cnt := t.cnt - 1
        out := t.out ++ [.push (.g a)] }
  /-- Into a free accumulator. -/
  | load {t : T} {hi : List Ent} {e : Ent} {lo : List Ent} {s : Src} {a : Int}
      (h : t.stk = hi ++ e :: lo) (hh : ∀ x ∈ hi, x.sta ≠ .STK) (h1 : hi.length < κ)
      (ha : isAcc e = false) (ho : operand e = some s) (hb : t.bsy a = false) (h0 : 0 ≤ a ∧ a < 3) :
      Mic κ t { t with
        stk := hi ++ ⟨.ACC, a⟩ :: lo
        bsy := upd t.bsy a true
        cnt := t.cnt + 1
        out := t.out ++ [.op .LD (.g a) s] }
  /-- From the hardware stack into a free accumulator. -/
  | pop {t : T} {hi : List Ent} {b : Int} {lo : List Ent} {a : Int}
      (h : t.stk = hi ++ ⟨.STK, b⟩ :: lo) (hh : ∀ x ∈ hi, x.sta ≠ .STK) (h1 : hi.length < κ)
      (hb : t.bsy a = false) (h0 : 0 ≤ a ∧ a < 3) :
      Mic κ t { t with
        stk := hi ++ ⟨.ACC, a⟩ :: lo
        bsy := upd t.bsy a true
        cnt := t.cnt + 1
        out := t.out ++ [.pop (.g a)] }

abbrev Mics (κ : Nat) := Relation.ReflTransGen (Mic κ)

theorem upd_true {f : Int → Bool} {i r : Int} : upd f i true r = true ↔ r = i ∨ f r = true := by
  unfold upd
  split <;> simp_all

theorem upd_false {f : Int → Bool} {i r : Int} : upd f i false r = true ↔ r ≠ i ∧ f r = true := by
  unfold upd
  split <;> simp_all

theorem W.replace {t t' : T} (w : W t) {hi lo : List Ent} {e e' : Ent} (h : t.stk = hi ++ e :: lo)
    (h' : t'.stk = hi ++ e' :: lo) (ha : acc1 e' = acc1 e) (hb : t'.bsy = t.bsy)
    (hc : t'.cnt = t.cnt) (hj : t'.jcc = t.jcc) (hf : t'.flg = t.flg)
    (h1 : e'.sta ≠ .STK) (h2 : e'.sta = .FLAG → e.sta = .FLAG) (h3 : RegOk e')
    (h4 : acc1 e' = [] ∨ isAcc e = true) : W t' := by
  have hacc : accs t'.stk = accs t.stk := by rw [h, h', accs_split, accs_split, ha]
  have hl : t'.stk.length = t.stk.length := by rw [h, h']; simp
  refine ⟨by rw [hb, hacc]; exact w.own, by rw [hacc]; exact w.nodup, by rw [hacc]; exact w.rng,
    by rw [hc, hacc]; exact w.cnt, ?_, ?_, by rw [hf, hl]; exact w.flt, ?_, by rw [hj]; exact w.jcc⟩
  · rw [h']
    exact low_replace (h ▸ w.low) (fun hs => absurd hs h1) (.inr h4)
  · rw [h', hf]
    have := w.flag
    rw [h] at this
    exact flag_replace this fun hs => (flag_split this).1 (h2 hs)
  · intro x hx
    rw [h'] at hx
    rcases List.mem_append.1 hx with hx | hx
    · exact w.regs x (by rw [h]; exact List.mem_append_left _ hx)
    · rcases List.mem_cons.1 hx with rfl | hx
      · exact h3
      · exact w.regs x (by rw [h]; exact List.mem_append_right _ (List.mem_cons_of_mem _ hx))

theorem regOk_acc (a : Int) : RegOk ⟨.ACC, a⟩ := ⟨fun h => (by cases h), fun h => by simp at h⟩

theorem regOk_stk (a : Int) : RegOk ⟨.STK, a⟩ := ⟨fun h => (by cases h), fun h => by simp at h⟩

theorem regOk_flag (a : Int) : RegOk ⟨.FLAG, a⟩ := ⟨fun h => (by cases h), fun h => by simp at h⟩

theorem regs_replace {hi lo : List Ent} {e e' : Ent} (h : ∀ x ∈ hi ++ e :: lo, RegOk x)
    (h' : RegOk e') : ∀ x ∈ hi ++ e' :: lo, RegOk x := by
  intro x hx
  rcases List.mem_append.1 hx with hx | hx
  · exact h x (List.mem_append_left _ hx)
  · rcases List.mem_cons.1 hx with rfl | hx
    · exact h'
    · exact h x (List.mem_append_right _ (List.mem_cons_of_mem _ hx))

/-- Taking a free accumulator for an entry. -/
theorem W.take {t t' : T} (w : W t) {hi lo : List Ent} {e e' : Ent} {a : Int}
    (h : t.stk = hi ++ e :: lo) (h' : t'.stk = hi ++ e' :: lo) (hn : acc1 e = [])
    (ha : acc1 e' = [a]) (hb : t.bsy a = false) (h0 : 0 ≤ a ∧ a < 3)
    (hb' : t'.bsy = upd t.bsy a true)
    (hc : t'.cnt = t.cnt + 1) (hj : t'.jcc = t.jcc) (hf : t'.flg = t.flg)
    (h1 : e'.sta ≠ .STK) (h2 : e'.sta ≠ .FLAG) (h3 : RegOk e')
    (h4 : ∀ x ∈ hi, x.sta ≠ .STK) : W t' := by
  have e1 : accs t.stk = accs hi ++ accs lo := by rw [h, accs_split, hn]; rfl
  have e2 : accs t'.stk = accs hi ++ a :: accs lo := by rw [h', accs_split, ha]; rfl
  have hnot : a ∉ accs t.stk := by
    intro hm
    have := (w.own a).2 hm
    rw [hb] at this; cases this
  have hl : t'.stk.length = t.stk.length := by rw [h, h']; simp
  have hmem : ∀ r, r ∈ accs t'.stk ↔ r = a ∨ r ∈ accs t.stk := by
    intro r
    rw [e1, e2]; simp only [List.mem_append, List.mem_cons]; tauto
  refine ⟨?_, ?_, ?_, ?_, ?_, ?_, by rw [hf, hl]; exact w.flt, ?_, by rw [hj]; exact w.jcc⟩
  · intro r
    rw [hb', upd_true, hmem, w.own]
  · rw [e2]
    have := w.nodup
    rw [e1] at this hnot
    exact List.nodup_middle.2 (List.nodup_cons.2 ⟨hnot, this⟩)
  · intro r hr
    rcases (hmem r).1 hr with rfl | hr
    · exact h0
    · exact w.rng r hr
  · rw [hc, w.cnt, e1, e2]; simp; omega
  · rw [h']
    exact low_replace (h ▸ w.low) (fun hs => absurd hs h1) (.inl h4)
  · rw [h', hf]
    have := w.flag
    rw [h] at this
    exact flag_replace this fun hs => absurd hs h2
  · rw [h']; exact regs_replace (h ▸ w.regs) h3

/-- Giving up the accumulator of an entry. -/
theorem W.give {t t' : T} (w : W t) {hi lo : List Ent} {e e' : Ent} {a : Int}
    (h : t.stk = hi ++ e :: lo) (h' : t'.stk = hi ++ e' :: lo) (hn : acc1 e = [a])
    (ha : acc1 e' = []) (hb' : t'.bsy = upd t.bsy a false)
    (hc : t'.cnt = t.cnt - 1) (hj : t'.jcc = t.jcc) (hf : t'.flg = t.flg)
    (h1 : e'.sta = .STK → accs lo = []) (h2 : e'.sta ≠ .FLAG) (h3 : RegOk e') : W t' := by
  have e1 : accs t.stk = accs hi ++ a :: accs lo := by rw [h, accs_split, hn]; rfl
  have e2 : accs t'.stk = accs hi ++ accs lo := by rw [h', accs_split, ha]; rfl
  have hl : t'.stk.length = t.stk.length := by rw [h, h']; simp
  have hnd := w.nodup
  rw [e1] at hnd
  obtain ⟨hnot, hnd'⟩ := List.nodup_cons.1 (List.nodup_middle.1 hnd)
  have hmem : ∀ r, r ∈ accs t'.stk ↔ r ≠ a ∧ r ∈ accs t.stk := by
    intro r
    rw [e1, e2]
    constructor
    · intro hr
      refine ⟨fun he => hnot (he ▸ hr), ?_⟩
      simp only [List.mem_append, List.mem_cons] at hr ⊢; tauto
    · rintro ⟨hne, hr⟩
      simp only [List.mem_append, List.mem_cons] at hr ⊢; tauto
  refine ⟨?_, ?_, ?_, ?_, ?_, ?_, by rw [hf, hl]; exact w.flt, ?_, by rw [hj]; exact w.jcc⟩
  · intro r
    rw [hb', upd_false, hmem, w.own]
  · rw [e2]; exact hnd'
  · intro r hr
    exact w.rng r ((hmem r).1 hr).2
  · rw [hc, w.cnt, e1, e2]; simp; omega
  · rw [h']
    exact low_replace (h ▸ w.low) h1 (.inr (.inl ha))
  · rw [h', hf]
    have := w.flag
    rw [h] at this
    exact flag_replace this fun hs => absurd hs h2
  · rw [h']; exact regs_replace (h ▸ w.regs) h3

/-- Small steps keep the invariant. -/
theorem Mic.W {κ : Nat} {t t' : T} (h : Mic κ t t') (w : W t) : W t' := by
  cases h with
  | clr h =>
    exact ⟨w.own, w.nodup, w.rng, w.cnt, w.low, flag_free w.flag h, fun p hp => (by cases hp), w.regs,
      w.jcc⟩
  | unflag h =>
    exact w.replace h rfl rfl rfl rfl rfl rfl (by simp) (by simp) (regOk_acc _) (.inr rfl)
  | reload h ha hw ho =>
    exact w.replace h rfl (by rw [acc1_acc ha]; rfl) rfl rfl rfl rfl (by simp) (by simp)
      (regOk_acc _) (.inr ha)
  | spill h hl =>
    exact w.give h rfl (acc1_ACC _) (acc1_STK _) rfl rfl rfl rfl (fun _ => hl) (by simp)
      (regOk_stk _)
  | load h hh h1 ha ho hb h0 =>
    exact w.take h rfl (acc1_not ha) (acc1_ACC _) hb h0 rfl rfl rfl rfl (by simp) (by simp)
      (regOk_acc _) hh
  | pop h hh h1 hb h0 =>
    exact w.take h rfl (acc1_STK _) (acc1_ACC _) hb h0 rfl rfl rfl rfl (by simp) (by simp)
      (regOk_acc _) hh

theorem Mics.W {κ : Nat} {t t' : T} (h : Mics κ t t') (w : W t) : W t' := by
  induction h with
  | refl => exact w
  | tail _ h ih => exact h.W ih

/-! ### What the small steps leave alone -/

theorem Mic.same {κ : Nat} {t t' : T} (h : Mic κ t t') :
    t'.stk.length = t.stk.length ∧ t'.jcc = t.jcc ∧ t'.rvCnt = t.rvCnt ∧ t'.frSize = t.frSize := by
  cases h <;> simp_all

theorem Mics.same {κ : Nat} {t t' : T} (h : Mics κ t t') :
    t'.stk.length = t.stk.length ∧ t'.jcc = t.jcc ∧ t'.rvCnt = t.rvCnt ∧ t'.frSize = t.frSize := by
  induction h with
  | refl => exact ⟨rfl, rfl, rfl, rfl⟩
  | tail _ h ih =>
    have := h.same
    exact ⟨this.1.trans ih.1, this.2.1.trans ih.2.1, this.2.2.1.trans ih.2.2.1,
      this.2.2.2.trans ih.2.2.2⟩

theorem Mic.out {κ : Nat} {t t' : T} (h : Mic κ t t') : ∃ c, t'.out = t.out ++ c := by
  cases h
  case clr => exact ⟨[], by simp⟩
  all_goals exact ⟨_, rfl⟩

theorem Mics.out {κ : Nat} {t t' : T} (h : Mics κ t t') : ∃ c, t'.out = t.out ++ c := by
  induction h with
  | refl => exact ⟨[], by simp⟩
  | tail _ h ih =>
    obtain ⟨a, ha⟩ := ih
    obtain ⟨b, hb⟩ := h.out
    exact ⟨a ++ b, by rw [hb, ha, List.append_assoc]⟩

/-! ### The functions as small steps -/

theorem split_eq {hi lo hi' lo' : List Ent} {e e' : Ent} (h : hi ++ e :: lo = hi' ++ e' :: lo')
    (hl : lo.length = lo'.length) : hi = hi' ∧ e = e' ∧ lo = lo' := by
  have := List.append_inj' h (by simp [hl])
  simp at this
  exact ⟨this.1, this.2.1, this.2.2⟩

theorem clearFlg_mics {κ : Nat} {t t' : T} (w : W t) (h : clearFlg t = some t') :
    Mics κ t t' ∧ t'.flg = none ∧ t'.stk = t.stk.map fun e => if e.sta = .FLAG then ⟨.ACC, e.aux⟩ else e := by
  have hmap : ∀ l : List Ent, (∀ e ∈ l, e.sta ≠ .FLAG) →
      l.map (fun e => if e.sta = .FLAG then ⟨.ACC, e.aux⟩ else e) = l := by
    intro l hl
    induction l with
    | nil => rfl
    | cons e l ih =>
      rw [List.map_cons, if_neg (hl e (by simp)), ih fun x hx => hl x (List.mem_cons_of_mem _ hx)]
  have hfree : ∀ {hi lo : List Ent} {e : Ent}, t.stk = hi ++ e :: lo → t.flg = some lo.length →
      (∀ x ∈ hi, x.sta ≠ .FLAG) ∧ (∀ x ∈ lo, x.sta ≠ .FLAG) := by
    intro hi lo e h1 h2
    constructor
    · intro x hx hs
      obtain ⟨a, b, rfl⟩ := List.append_of_mem hx
      have := w.flag
      rw [h1] at this
      rw [List.append_assoc] at this
      have := (flag_split this).1 hs
      rw [h2] at this; simp at this; omega
    · intro x hx hs
      obtain ⟨a, b, rfl⟩ := List.append_of_mem hx
      have := w.flag
      rw [h1, show hi ++ e :: (a ++ x :: b) = (hi ++ e :: a) ++ x :: b by simp] at this
      have := (flag_split this).1 hs
      rw [h2] at this; simp at this; omega
  unfold clearFlg at h
  cases hf : t.flg with
  | none =>
    rw [hf] at h
    cases h
    refine ⟨.refl, hf, (hmap _ ?_).symm⟩
    intro e he hs
    obtain ⟨hi, lo, _, h2⟩ := flag_mem w.flag he hs
    rw [hf] at h2; cases h2
  | some p =>
    rw [hf] at h
    simp only [Option.bind_eq_bind] at h
    obtain ⟨e, he⟩ := get_lt (w.flt p hf)
    obtain ⟨hi, lo, hst, rfl⟩ := get_some he
    obtain ⟨hhi, hlo⟩ := hfree hst hf
    rw [he] at h
    simp only [Option.bind_some] at h
    by_cases hs : e.sta = .FLAG
    · rw [if_pos hs] at h
      obtain ⟨sta, aux⟩ := e
      simp only at hs
      subst hs
      have hl : loadFlg aux lo.length t = some { t with
          out := t.out ++ flgCode aux t.jcc t.tlab, tlab := t.tlab + 1 } := by
        unfold loadFlg
        rw [he]
        simp [hf, flgCode, T.print]
      rw [hl] at h
      simp only [Option.bind_some, Option.some.injEq] at h
      rw [hst, put_split] at h
      refine ⟨?_, by rw [← h], ?_⟩
      · refine (Relation.ReflTransGen.single (Mic.unflag hst)).tail ?_
        rw [← h]
        exact Mic.clr (t := { t with
          stk := hi ++ ⟨.ACC, aux⟩ :: lo
          out := t.out ++ flgCode aux t.jcc t.tlab
          tlab := t.tlab + 1 }) (by
            intro x hx
            rcases List.mem_append.1 hx with hx | hx
            · exact hhi x hx
            · rcases List.mem_cons.1 hx with rfl | hx
              · simp
              · exact hlo x hx)
      · rw [← h, hst, List.map_append, List.map_cons, hmap _ hhi, hmap _ hlo]
        rfl
    · rw [if_neg hs] at h
      cases h
      have hno : ∀ x ∈ t.stk, x.sta ≠ .FLAG := by
        intro x hx
        rw [hst] at hx
        rcases List.mem_append.1 hx with hx | hx
        · exact hhi x hx
        · rcases List.mem_cons.1 hx with rfl | hx
          · exact hs
          · exact hlo x hx
      exact ⟨.single (Mic.clr hno), rfl, (hmap _ hno).symm⟩

theorem Mics.flg {κ : Nat} {t t' : T} (h : Mics κ t t') : t'.flg = t.flg ∨ t'.flg = none := by
  induction h with
  | refl => exact .inl rfl
  | tail _ h ih => cases h <;> first | exact .inr rfl | exact ih

/-- outStk moves the lowest entry that uses an accumulator. -/
theorem outStk_mics {κ : Nat} {t t' : T} (w : W t) (h : outStk t = some t') :
    ∃ hi e lo, t.stk = hi ++ e :: lo ∧ isAcc e = true ∧ accs lo = [] ∧ Mics κ t t' ∧
      t'.stk = hi ++ ⟨.STK, e.aux⟩ :: lo ∧ t'.flg = t.flg ∧ t'.bsy = upd t.bsy e.aux false ∧
      t'.cnt = t.cnt - 1 := by
  unfold outStk at h
  cases h1 : srchAcc t.stk with
  | none => rw [h1] at h; cases h
  | some p =>
    obtain ⟨hi, e, lo, hst, ha, hlo, rfl⟩ := srch_some h1
    refine ⟨hi, e, lo, hst, ha, hlo, ?_⟩
    rw [h1] at h
    have hg : get t.stk lo.length = some e := by rw [hst, get_split]
    simp only [Option.bind_eq_bind, Option.bind_some, hg] at h
    obtain ⟨sta, aux⟩ := e
    -- after the entry is in its accumulator
    have key : ∀ t1 : T, Mics κ t t1 → t1.stk = hi ++ ⟨.ACC, aux⟩ :: lo → t1.flg = t.flg →
        t1.bsy = t.bsy → t1.cnt = t.cnt →
        (relAcc aux (({ t1 with stk := t.stk } : T).print (.push (.g aux)))).bind (fun t =>
            some { t with stk := put t.stk lo.length ⟨.STK, aux⟩ }) = some t' →
        Mics κ t t' ∧ t'.stk = hi ++ ⟨.STK, aux⟩ :: lo ∧ t'.flg = t.flg ∧
          t'.bsy = upd t.bsy aux false ∧ t'.cnt = t.cnt - 1 := by
      intro t1 hm hs1 hf1 hb1 hc1 hk
      unfold relAcc at hk
      split at hk
      · cases hk
      · simp only [T.print, Option.bind_some, Option.some.injEq] at hk
        rw [hst, put_split] at hk
        rw [← hk]
        refine ⟨hm.tail ?_, rfl, hf1, by rw [← hb1], by rw [← hc1]⟩
        exact Mic.spill hs1 hlo
    by_cases hs : sta = .ACC
    · subst hs
      simp only [ne_eq, not_true_eq_false, if_false] at h
      exact key t .refl hst rfl rfl rfl h
    · simp only [ne_eq, hs, not_false_eq_true, if_true] at h
      by_cases hf : sta = .FLAG
      · subst hf
        have hfl : t.flg = some lo.length := by
          have := w.flag
          rw [hst] at this
          exact (flag_split this).1 rfl
        have hl : loadReg aux lo.length t = some { t with
            out := t.out ++ flgCode aux t.jcc t.tlab, tlab := t.tlab + 1 } := by
          unfold loadReg loadFlg
          rw [hg]
          simp [hfl, flgCode, T.print]
        rw [hl] at h
        simp only [Option.bind_some] at h
        exact key _ (.single (Mic.unflag hst)) rfl rfl rfl rfl h
      · -- WINDR, BINDR
        have hw : sta = .WINDR ∨ sta = .BINDR := by
          simp only [isAcc] at ha
          cases sta <;> simp_all
        have hl : ∃ s, operand ⟨sta, aux⟩ = some s ∧ loadReg aux lo.length t =
            some { t with out := t.out ++ [.op .LD (.g aux) s] } := by
          unfold loadReg calReg
          rw [hg]
          rcases hw with rfl | rfl
          · exact ⟨.ind aux, rfl, by simp [operand, T.print]⟩
          · exact ⟨.byt aux, rfl, by simp [operand, T.print]⟩
        obtain ⟨s, ho, hl⟩ := hl
        rw [hl] at h
        simp only [Option.bind_some] at h
        exact key _ (.single (Mic.reload hst ha hw ho)) rfl rfl rfl rfl h

theorem accs_pos {t : T} (w : W t) (h : t.cnt > 0) : accs t.stk ≠ [] := by
  intro e
  have := w.cnt
  rw [e] at this
  simp at this; omega

/-- outStkAll: no entry uses an accumulator any more. -/
theorem outStkN_mics {κ : Nat} {n : Nat} {t t' : T} (w : W t) (hn : t.cnt ≤ n) (h : outStkN n t = some t') :
    Mics κ t t' ∧ accs t'.stk = [] ∧ t'.flg = t.flg ∧ t'.stk = t.stk.map fun e =>
      if isAcc e then ⟨.STK, e.aux⟩ else e := by
  induction n generalizing t with
  | zero =>
    obtain rfl : t' = t := by simpa [outStkN] using h.symm
    have h0 : accs t'.stk = [] := by
      have := w.cnt
      cases h1 : accs t'.stk with
      | nil => rfl
      | cons a l => rw [h1] at this; simp at this; omega
    refine ⟨.refl, h0, rfl, ?_⟩
    have : ∀ l : List Ent, accs l = [] → l = l.map fun e => if isAcc e then ⟨.STK, e.aux⟩ else e := by
      intro l hl
      induction l with
      | nil => rfl
      | cons e l ih =>
        rw [accs_cons] at hl
        simp at hl
        rw [List.map_cons, ← ih hl.2]
        have : isAcc e = false := by
          cases h : isAcc e with
          | false => rfl
          | true => rw [acc1_acc h] at hl; simp at hl
        simp [this]
    exact this _ h0
  | succ n ih =>
    unfold outStkN at h
    split at h
    · rename_i hc
      cases h1 : outStk t with
      | none => rw [h1] at h; cases h
      | some t1 =>
        rw [h1] at h
        obtain ⟨hi, e, lo, hst, ha, hlo, hm, hs1, hf1, _, hc1⟩ := outStk_mics w h1
        obtain ⟨hm2, h0, hf2, hs2⟩ := ih (hm.W w) (by rw [hc1]; omega) h
        refine ⟨hm.trans hm2, h0, hf2.trans hf1, ?_⟩
        rw [hs2, hs1, hst]
        simp only [List.map_append, List.map_cons, ha, if_true]
        rfl
    · rename_i hc
      exact ih w (by
        have := w.cnt
        omega) (by
        have : t.cnt = 0 := by have := w.cnt; omega
        cases n with
        | zero => exact h
        | succ n => unfold outStkN; rw [if_neg (by omega)]; exact h)

theorem outStkAll_mics {κ : Nat} {t t' : T} (w : W t) (h : outStkAll t = some t') :
    Mics κ t t' ∧ accs t'.stk = [] ∧ t'.flg = t.flg ∧ t'.stk = t.stk.map fun e =>
      if isAcc e then ⟨.STK, e.aux⟩ else e :=
  outStkN_mics w (by have := w.cnt; omega) h

theorem allocAcc_some {t : T} {x : Int × T} (h : allocAcc t = some x) :
    t.bsy x.1 = false ∧ (0 ≤ x.1 ∧ x.1 < 3) ∧
      x.2 = { t with bsy := upd t.bsy x.1 true, cnt := t.cnt + 1 } := by
  unfold allocAcc at h
  split at h
  · rename_i h1; cases h; exact ⟨h1, ⟨by simp, by simp⟩, rfl⟩
  · split at h
    · rename_i h1; cases h; exact ⟨h1, ⟨by simp, by simp⟩, rfl⟩
    · split at h
      · rename_i h1; cases h; exact ⟨h1, ⟨by simp, by simp⟩, rfl⟩
      · cases h

/-- loadStk of one of the two upper entries; the entry above it is not on the hardware stack. -/
theorem loadStk_mics {hi lo : List Ent} {e : Ent} {t t' : T} (w : W t) (hst : t.stk = hi ++ e :: lo)
    (h1 : hi.length ≤ 1) (hh : ∀ x ∈ hi, x.sta ≠ .STK) (h : loadStk hi.length t = some t') :
    ∃ a lo', Mics (hi.length + 1) t t' ∧ t'.stk = hi ++ ⟨.ACC, a⟩ :: lo' ∧ lo'.length = lo.length ∧
      t'.flg = t.flg := by
  unfold loadStk at h
  have hp : t.stk.length - 1 - hi.length = lo.length := by
    rw [hst, List.length_append, List.length_cons]; omega
  rw [if_neg (by rw [hst]; simp)] at h
  simp only [Option.bind_eq_bind, hp] at h
  have hg : get t.stk lo.length = some e := by rw [hst, get_split]
  rw [hg] at h
  simp only [Option.bind_some] at h
  obtain ⟨sta, aux⟩ := e
  by_cases hA : sta = .ACC
  · subst hA
    simp only [if_true, Option.some.injEq] at h
    subst h
    exact ⟨aux, lo, .refl, hst, rfl, rfl⟩
  · simp only [hA, if_false] at h
    by_cases ha : isAcc ⟨sta, aux⟩ = true
    · simp only [ha, if_true] at h
      refine ⟨aux, lo, ?_⟩
      by_cases hf : sta = .FLAG
      · subst hf
        have hfl : t.flg = some lo.length := by
          have := w.flag
          rw [hst] at this
          exact (flag_split this).1 rfl
        have hl : loadReg aux lo.length t = some { t with
            out := t.out ++ flgCode aux t.jcc t.tlab, tlab := t.tlab + 1 } := by
          unfold loadReg loadFlg
          rw [hg]
          simp [hfl, flgCode, T.print]
        rw [hl] at h
        simp only [Option.bind_some, Option.some.injEq] at h
        rw [hst, put_split] at h
        rw [← h]
        exact ⟨.single (Mic.unflag hst), rfl, rfl, rfl⟩
      · have hw : sta = .WINDR ∨ sta = .BINDR := by
          simp only [isAcc] at ha
          cases sta <;> simp_all
        have hl : ∃ s, operand ⟨sta, aux⟩ = some s ∧ loadReg aux lo.length t =
            some { t with out := t.out ++ [.op .LD (.g aux) s] } := by
          unfold loadReg calReg
          rw [hg]
          rcases hw with rfl | rfl
          · exact ⟨.ind aux, rfl, by simp [operand, T.print]⟩
          · exact ⟨.byt aux, rfl, by simp [operand, T.print]⟩
        obtain ⟨s, ho, hl⟩ := hl
        rw [hl] at h
        simp only [Option.bind_some, Option.some.injEq] at h
        rw [hst, put_split] at h
        rw [← h]
        exact ⟨.single (Mic.reload hst ha hw ho), rfl, rfl, rfl⟩
    · have ha : isAcc ⟨sta, aux⟩ = false := by simpa using ha
      simp only [ha, Bool.false_eq_true, if_false] at h
      -- make room
      cases h2 : (if t.cnt ≥ AccSIZ then outStk t else some t) with
      | none => rw [h2] at h; cases h
      | some t1 =>
        rw [h2] at h
        simp only [Option.bind_some] at h
        have room : ∃ lo', Mics (hi.length + 1) t t1 ∧ t1.stk = hi ++ ⟨sta, aux⟩ :: lo' ∧ lo'.length = lo.length ∧
            t1.flg = t.flg := by
          split at h2
          · rename_i hc
            obtain ⟨hi2, e2, lo2, hst2, ha2, hlo2, hm, hs1, hf1, _, _⟩ := outStk_mics w h2
            have hc3 : (accs t.stk).length ≥ 3 := by
              have := w.cnt
              have : AccSIZ = 3 := rfl
              omega
            -- the entry is below
            have hx : ∃ q, hi2 = hi ++ ⟨sta, aux⟩ :: q := by
              rcases List.append_eq_append_iff.1 (hst.symm.trans hst2) with ⟨r, hr1, hr2⟩ | ⟨r, hr1, hr2⟩
              · cases r with
                | nil =>
                  simp at hr2
                  rw [← hr2.1, ha] at ha2; cases ha2
                | cons y q =>
                  simp at hr2
                  exact ⟨q, by rw [hr1, hr2.1]⟩
              · -- it cannot be above
                exfalso
                rw [hst2, accs_split, hlo2, acc1_acc ha2] at hc3
                have hl1 : hi2.length ≤ 1 := by
                  have := congrArg List.length hr1
                  simp at this; omega
                have : ∀ l : List Ent, (accs l).length ≤ l.length := by
                  intro l
                  induction l with
                  | nil => simp [accs]
                  | cons z l ih =>
                    rw [accs_cons]
                    unfold acc1
                    split <;> simp <;> omega
                have := this hi2
                simp at hc3; omega
            obtain ⟨q, hq⟩ := hx
            have hlo : lo = q ++ e2 :: lo2 := by
              rw [hst2, hq] at hst
              simpa using hst.symm
            exact ⟨q ++ ⟨.STK, e2.aux⟩ :: lo2, hm, by rw [hs1, hq]; simp, by rw [hlo]; simp, hf1⟩
          · cases h2; exact ⟨lo, .refl, hst, rfl, rfl⟩
        obtain ⟨lo', hm, hst1, hlen, hf1⟩ := room
        cases h3 : allocAcc t1 with
        | none => rw [h3] at h; cases h
        | some x =>
          obtain ⟨hb, h0, hx⟩ := allocAcc_some h3
          obtain ⟨acc, t2⟩ := x
          rw [h3] at h
          simp only at hb h0 hx
          subst hx
          simp only [Option.bind_some] at h
          have hg1 : get t1.stk lo.length = some ⟨sta, aux⟩ := by rw [hst1, ← hlen, get_split]
          refine ⟨acc, lo', ?_⟩
          by_cases hS : sta = .STK
          · subst hS
            simp only [loadReg, hg1, Option.bind_eq_bind, Option.bind_some, if_true, T.print,
              Option.some.injEq] at h
            rw [hst1, ← hlen, put_split] at h
            rw [← h]
            exact ⟨hm.tail (Mic.pop hst1 hh (Nat.lt_succ_self _) hb h0), rfl, hlen, hf1⟩
          · have hF : sta ≠ .FLAG := by rintro rfl; simp [isAcc] at ha
            simp only [loadReg, calReg, hg1, Option.bind_eq_bind, Option.bind_some, hS, if_false, hF,
              hA, false_or] at h
            split at h
            · cases h
            · cases ho : operand ⟨sta, aux⟩ with
              | none => rw [ho] at h; cases h
              | some s =>
                rw [ho] at h
                simp only [T.print, Option.bind_some, Option.some.injEq] at h
                rw [hst1, ← hlen, put_split] at h
                rw [← h]
                exact ⟨hm.tail (Mic.load hst1 hh (Nat.lt_succ_self _) ha ho hb h0), rfl, hlen, hf1⟩

end Cmm.Tac
