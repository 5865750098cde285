import Verif.Tac.Forms2

/-
C49: the bookkeeping of the accumulators in src/vm2tac.c.

Stack discipline: an instruction that uses the value on top of the stack comes right after the
instruction that produced that value (labels, jumps and macro instructions may stand between).
That is how src/vmCode.c calls vm2tac.c: every expression leaves its value on top and the value
is used by the next instruction or covered by the operand that is computed next.
-/
namespace Cmm.Tac
open Cmm.Gen (Instr A1 A2)

/-! ### Specification -/

/-- The entry holds its value, or the address of its value, in accumulator `r`. -/
def Owns (e : Ent) (r : Int) : Prop :=
  (0 ≤ r ∧ r < 3) ∧ e.aux = r ∧
    (e.sta = .ACC ∨ e.sta = .FLAG ∨ e.sta = .WINDR ∨ e.sta = .BINDR)

/-- The claim about a state of vm2tac.c. Positions count from the top. -/
structure Books (t : T) : Prop where
  /-- Every accumulator is free and unused, or busy and used by exactly one entry. -/
  one : ∀ r : Int, 0 ≤ r → r < 3 →
    (t.bsy r = false ∧ ∀ e ∈ t.stk, ¬ Owns e r) ∨
    (t.bsy r = true ∧ ∃ (i : Nat) (e : Ent), t.stk[i]? = some e ∧ Owns e r ∧
      ∀ (j : Nat) (e' : Ent), t.stk[j]? = some e' → Owns e' r → j = i)
  /-- accCnt is the number of busy accumulators. -/
  count : t.cnt = (([0, 1, 2] : List Int).filter t.bsy).length
  /-- An entry on the hardware stack is below every entry held in an accumulator. -/
  low : ∀ (i j : Nat) (e e' : Ent) (r : Int), t.stk[i]? = some e → t.stk[j]? = some e' → e.sta = .STK → Owns e' r → j < i

/-- The instruction uses the value on top of the stack. -/
def uses : Vm → Bool
  | .boolOR .. | .boolAND .. => true
  | .i i =>
    match i with
    | .jt _ | .jf _ | .ldW | .ldB | .stG _ | .stL _ | .stP _ | .stW | .stB | .a1 _ | .a2 _ | .pop
    | .arg | .mreg => true
    | _ => false

/-- Whether the value on top was just produced, after the instruction. -/
def fresh : Vm → Bool → Bool
  | .boolOR .., _ | .boolAND .., _ => true
  | .i i, b =>
    match i with
    | .ldC _ | .ldG _ | .ldL _ | .ldP _ | .ldLab _ | .ldNam _ | .ldW | .ldB | .stG _ | .stL _
    | .stP _ | .stW | .stB | .a1 _ | .a2 _ | .callF _ _ => true
    | .jt _ | .jf _ | .pop | .arg | .mreg | .callP _ _ => false
    | _ => b

/-- The stack discipline. -/
def Disc : Bool → List Vm → Prop
  | _, [] => True
  | b, v :: vs => (uses v = true → b = true) ∧ Disc (fresh v b) vs

/-- Variables held in registers are numbered from 1 (sytree.c counts locals from 1). -/
def Counted (cnt : Int → Int) (p : List Vm) : Prop :=
  ∀ n, Vm.i (.ldL n) ∈ p ∨ Vm.i (.stL n) ∈ p → 1 ≤ cnt n

/-! ### The invariant `W` implies the claim -/

theorem owns_acc {e : Ent} {r : Int} : Owns e r ↔ (0 ≤ r ∧ r < 3) ∧ r ∈ acc1 e := by
  obtain ⟨sta, a⟩ := e
  unfold Owns acc1 isAcc AccSIZ
  cases sta <;> simp
  all_goals
    intro h0 h3
    first
    | exact eq_comm
    | exact ⟨fun h => ⟨by omega, h.symm⟩, fun h => h.2.symm⟩

theorem mem_accs {es : List Ent} {r : Int} : r ∈ accs es ↔ ∃ e ∈ es, r ∈ acc1 e := by
  induction es with
  | nil => simp [accs]
  | cons e es ih => rw [accs_cons, List.mem_append, ih]; simp

theorem low_get {es : List Ent} (h : Low es) : ∀ (i j : Nat) (e e' : Ent), es[i]? = some e → es[j]? = some e' →
    e.sta = .STK → acc1 e' ≠ [] → j < i := by
  induction es with
  | nil => intro i j e e' h1; simp at h1
  | cons x es ih =>
    intro i j e e' h1 h2 hs ha
    cases i with
    | zero =>
      simp only [List.getElem?_cons_zero, Option.some.injEq] at h1
      subst h1
      have := h.1 hs
      cases j with
      | zero =>
        simp only [List.getElem?_cons_zero, Option.some.injEq] at h2
        subst h2
        exact absurd (acc1_not (by unfold isAcc; simp [hs])) ha
      | succ j =>
        rw [List.getElem?_cons_succ] at h2
        exfalso
        obtain ⟨r, hr⟩ := List.exists_mem_of_ne_nil _ ha
        have : r ∈ accs es := mem_accs.2 ⟨e', List.mem_of_getElem? h2, hr⟩
        rw [h.1 hs] at this
        simp at this
    | succ i =>
      cases j with
      | zero => omega
      | succ j =>
        rw [List.getElem?_cons_succ] at h1 h2
        have := ih h.2 i j e e' h1 h2 hs ha
        omega

theorem nodup_pos {es : List Ent} (h : (accs es).Nodup) : ∀ (i j : Nat) (e e' : Ent) (r : Int), es[i]? = some e →
    es[j]? = some e' → r ∈ acc1 e → r ∈ acc1 e' → j = i := by
  induction es with
  | nil => intro i j e e' r h1; simp at h1
  | cons x es ih =>
    intro i j e e' r h1 h2 hr hr'
    rw [accs_cons] at h
    obtain ⟨-, hn, hd⟩ := List.nodup_append.1 h
    cases i with
    | zero =>
      simp only [List.getElem?_cons_zero, Option.some.injEq] at h1
      subst h1
      cases j with
      | zero => rfl
      | succ j =>
        rw [List.getElem?_cons_succ] at h2
        exact absurd rfl (hd r hr r (mem_accs.2 ⟨e', List.mem_of_getElem? h2, hr'⟩))
    | succ i =>
      rw [List.getElem?_cons_succ] at h1
      cases j with
      | zero =>
        simp only [List.getElem?_cons_zero, Option.some.injEq] at h2
        subst h2
        exact absurd rfl (hd r hr' r (mem_accs.2 ⟨e, List.mem_of_getElem? h1, hr⟩))
      | succ j =>
        rw [List.getElem?_cons_succ] at h2
        rw [ih hn i j e e' r h1 h2 hr hr']

theorem W.books {t : T} (w : W t) : Books t := by
  refine ⟨?_, ?_, ?_⟩
  · intro r h0 h3
    cases hb : t.bsy r with
    | false =>
      refine .inl ⟨rfl, fun e he ho => ?_⟩
      have := (w.own r).2 (mem_accs.2 ⟨e, he, (owns_acc.1 ho).2⟩)
      rw [hb] at this; cases this
    | true =>
      obtain ⟨e, he, hr⟩ := mem_accs.1 ((w.own r).1 hb)
      obtain ⟨i, hi⟩ := List.mem_iff_getElem?.1 he
      exact .inr ⟨rfl, i, e, hi, owns_acc.2 ⟨⟨h0, h3⟩, hr⟩,
        fun j e' hj ho => nodup_pos w.nodup i j e e' r hi hj hr (owns_acc.1 ho).2⟩
  · rw [w.cnt]
    congr 1
    have hsub : (([0, 1, 2] : List Int).filter t.bsy).Perm (accs t.stk) := by
      apply (List.perm_ext_iff_of_nodup (List.Nodup.filter _ (by decide)) w.nodup).2
      intro r
      rw [List.mem_filter, w.own]
      constructor
      · exact fun h => h.2
      · intro h
        refine ⟨?_, h⟩
        have := w.rng r h
        simp only [List.mem_cons, List.not_mem_nil, or_false]
        omega
    exact hsub.length_eq.symm
  · intro i j e e' r h1 h2 hs ho
    refine low_get w.low i j e e' h1 h2 hs ?_
    intro hn
    have := (owns_acc.1 ho).2
    rw [hn] at this; simp at this

/-! ### Changes of the state -/

theorem W.push {t : T} (w : W t) {e : Ent} (ha : isAcc e = false) (h1 : e.sta ≠ .STK)
    (h2 : e.sta ≠ .FLAG) (h3 : RegOk e) : W { t with stk := e :: t.stk } := by
  have hacc : accs (e :: t.stk) = accs t.stk := by rw [accs_cons, acc1_not ha]; rfl
  refine ⟨by rw [hacc]; exact w.own, by rw [hacc]; exact w.nodup, by rw [hacc]; exact w.rng,
    by rw [hacc]; exact w.cnt, ⟨fun h => absurd h h1, w.low⟩, ⟨fun h => absurd h h2, w.flag⟩, ?_, ?_, w.jcc⟩
  · intro p hp
    have := w.flt p hp
    simp only [List.length_cons]; omega
  · intro x hx
    rcases List.mem_cons.1 hx with rfl | hx
    · exact h3
    · exact w.regs x hx

theorem W.pushAcc {t : T} (w : W t) {a : Int} (hb : t.bsy a = false) (h0 : 0 ≤ a ∧ a < 3) :
    W { t with bsy := upd t.bsy a true, cnt := t.cnt + 1, stk := ⟨.ACC, a⟩ :: t.stk } := by
  have hacc : accs (⟨.ACC, a⟩ :: t.stk) = a :: accs t.stk := rfl
  have hnot : a ∉ accs t.stk := by
    intro hm; have := (w.own a).2 hm; rw [hb] at this; cases this
  refine ⟨?_, ?_, ?_, ?_, ⟨fun h => (by cases h), w.low⟩, ⟨fun h => (by cases h), w.flag⟩, ?_, ?_, w.jcc⟩
  · intro r
    rw [upd_true, hacc, List.mem_cons, w.own]
  · rw [hacc]; exact List.nodup_cons.2 ⟨hnot, w.nodup⟩
  · intro r hr
    rw [hacc] at hr
    rcases List.mem_cons.1 hr with rfl | hr
    · exact h0
    · exact w.rng r hr
  · rw [hacc, List.length_cons]
    show t.cnt + 1 = _
    rw [w.cnt]; push_cast; rfl
  · intro p hp
    have := w.flt p hp
    simp only [List.length_cons]; omega
  · intro x hx
    rcases List.mem_cons.1 hx with rfl | hx
    · exact regOk_acc _
    · exact w.regs x hx

/-- Without a value in the flags flgPtr may point anywhere. -/
theorem W.setFlg {t : T} (w : W t) (h : ∀ e ∈ t.stk, e.sta ≠ .FLAG) {f : Option Nat}
    (hf : ∀ p, f = some p → p < t.stk.length) : W { t with flg := f } :=
  ⟨w.own, w.nodup, w.rng, w.cnt, w.low, flag_free w.flag h, hf, w.regs, w.jcc⟩

theorem W.noFlag {t : T} (w : W t) (h : t.flg = none) : ∀ e ∈ t.stk, e.sta ≠ .FLAG := by
  intro e he hs
  obtain ⟨_, _, _, hh⟩ := flag_mem w.flag he hs
  rw [h] at hh; cases hh

theorem flag_lt {f : Option Nat} {es : List Ent} (h : FlagOk f es) {e : Ent} (he : e ∈ es)
    (hs : e.sta = .FLAG) : ∃ p, f = some p ∧ p < es.length := by
  obtain ⟨hi, lo, rfl, hh⟩ := flag_mem h he hs
  exact ⟨_, hh, by simp; omega⟩

theorem W.pushFlag {t : T} (w : W t) {a : Int} {j : Nat} (hj : j < 6) (hb : t.bsy a = false)
    (h0 : 0 ≤ a ∧ a < 3) (hf : ∀ e ∈ t.stk, e.sta ≠ .FLAG) : W (pushFlag j a t) := by
  have wp := (w.pushAcc hb h0)
  have hacc : accs (⟨.FLAG, a⟩ :: t.stk) = accs (⟨.ACC, a⟩ :: t.stk) := rfl
  refine ⟨?_, ?_, ?_, ?_, ⟨fun h => (by cases h), w.low⟩,
    ⟨fun _ => rfl, flag_free w.flag hf⟩, ?_, ?_, hj⟩
  · exact fun r => by rw [show (Tac.pushFlag j a t).stk = ⟨.FLAG, a⟩ :: t.stk from rfl, hacc]; exact wp.own r
  · exact wp.nodup
  · exact wp.rng
  · exact wp.cnt
  · intro p hp
    cases hp
    simp [Tac.pushFlag]
  · intro x hx
    rcases List.mem_cons.1 hx with rfl | hx
    · exact regOk_flag _
    · exact w.regs x hx

/-- The entry on top changes its kind. -/
theorem W.retop {t t' : T} {e e' : Ent} {es : List Ent} (w : W t) (hs : t.stk = e :: es)
    (ht : t' = { t with stk := e' :: es, out := t'.out })
    (ha : acc1 e' = acc1 e) (h1 : e'.sta ≠ .STK) (h2 : e'.sta ≠ .FLAG) (h3 : RegOk e')
    (h4 : acc1 e' = [] ∨ isAcc e = true) : W t' := by
  have hst : t'.stk = e' :: es := by rw [ht]
  have hb : t'.bsy = t.bsy := by rw [ht]
  have hc : t'.cnt = t.cnt := by rw [ht]
  have hj : t'.jcc = t.jcc := by rw [ht]
  have hf : t'.flg = t.flg := by rw [ht]
  exact w.replace (hi := []) hs hst ha hb hc hj hf h1 (fun h => absurd h h2) h3 h4

/-! ### The instructions keep the invariant -/

/-- The value on top was just produced. -/
def Hot (t : T) : Prop := ∃ e es, t.stk = e :: es ∧ e.sta ≠ .STK

theorem Mics.noFlag {κ : Nat} {t t' : T} (h : Mics κ t t') (hf : ∀ e ∈ t.stk, e.sta ≠ .FLAG) :
    ∀ e ∈ t'.stk, e.sta ≠ .FLAG := by
  induction h with
  | refl => exact hf
  | tail _ h ih =>
    have rep : ∀ {hi lo : List Ent} {x y : Ent}, (∀ e ∈ hi ++ x :: lo, e.sta ≠ .FLAG) → y.sta ≠ .FLAG →
        ∀ e ∈ hi ++ y :: lo, e.sta ≠ .FLAG := by
      intro hi lo x y h hy e he
      rcases List.mem_append.1 he with he | he
      · exact h e (List.mem_append_left _ he)
      · rcases List.mem_cons.1 he with rfl | he
        · exact hy
        · exact h e (List.mem_append_right _ (List.mem_cons_of_mem _ he))
    cases h with
    | clr _ => exact ih
    | unflag hs => rw [hs] at ih; exact rep ih (by simp)
    | reload hs => rw [hs] at ih; exact rep ih (by simp)
    | spill hs => rw [hs] at ih; exact rep ih (by simp)
    | load hs => rw [hs] at ih; exact rep ih (by simp)
    | pop hs => rw [hs] at ih; exact rep ih (by simp)

theorem pushStk_form {e : Ent} {t t' : T} (h : pushStk e t = some t') :
    t' = { t with stk := e :: t.stk } := by
  unfold pushStk at h
  split at h
  · cases h
  · cases h; rfl

theorem push_step {e : Ent} {t t' : T} (w : W t) (h : pushStk e t = some t') (ha : isAcc e = false)
    (h1 : e.sta ≠ .STK) (h2 : e.sta ≠ .FLAG) (h3 : RegOk e) : W t' ∧ Hot t' := by
  have := pushStk_form h
  subst this
  exact ⟨w.push ha h1 h2 h3, e, t.stk, rfl, h1⟩

theorem two_cal {o : TOp} {t t' : T} (w : W t) (h : cal o t = some t') :
    ∃ e0 e1 es, t.stk = e0 :: e1 :: es := by
  match hs : t.stk with
  | e0 :: e1 :: es => exact ⟨e0, e1, es, rfl⟩
  | [] | [_] =>
    exfalso
    unfold cal at h
    simp only [Option.bind_eq_bind] at h
    cases h1 : clearFlg t with
    | none => rw [h1] at h; cases h
    | some ta =>
      rw [h1] at h
      obtain ⟨m1, hf1, hs1⟩ := clearFlg_form (κ := 0) w h1
      have : loadStk 1 ta = none := by
        unfold loadStk
        rw [hs1, hs]
        simp
      simp only [Option.bind_some, this, Option.bind_none] at h
      cases h

theorem cal_step {o : TOp} {t t' : T} {e0 e1 : Ent} {es : List Ent} (w : W t)
    (hs : t.stk = e0 :: e1 :: es) (h0 : e0.sta ≠ .STK) (h : cal o t = some t') : W t' ∧ Hot t' := by
  obtain ⟨t1, a, es', s, m, hs1, hl, ho, hf, ht⟩ := cal_form w hs h0 h
  have w1 := m.W w
  have w2 := (w1.out (t1.out ++ [.op o (.g a) s])).relDrop (e := unflag e0)
    (es := ⟨.ACC, a⟩ :: es') hs1
  have hst : (relDrop (unflag e0) { t1 with out := t1.out ++ [.op o (.g a) s] }).stk = ⟨.ACC, a⟩ :: es' := by
    simp [relDrop, hs1]
  refine ⟨?_, ?_⟩
  · rw [ht]
    refine w2.setFlg ?_ ?_
    · rw [hst]
      intro e he
      exact w1.noFlag hf e (by rw [hs1]; exact List.mem_cons_of_mem _ he)
    · rw [hst]
      intro p hp; cases hp; simp
  · exact ⟨⟨.ACC, a⟩, es', by rw [ht]; exact hst, by simp⟩

theorem rcal_step {o : TOp} {t t' : T} {e0 e1 : Ent} {es : List Ent} (w : W t)
    (hs : t.stk = e0 :: e1 :: es) (h0 : e0.sta ≠ .STK) (h : rcal o t = some t') : W t' ∧ Hot t' := by
  rcases rcal_form hs h with h | ⟨ha, h1, h2, h⟩
  · exact cal_step w hs h0 h
  · exact cal_step (w.swap hs ⟨h0, by rw [ha]; simp⟩ ⟨h1, h2⟩) (e0 := e1) (e1 := e0) (es := es)
      (by simp [setTwo, hs]) h1 h

theorem W.setCst' {t : T} {e0 : Ent} {es : List Ent} {c : Int} (w : W t) (hs : t.stk = e0 :: es)
    (h : e0.sta = .CNST) : W (setTop ⟨.CNST, c⟩ t) := by
  obtain ⟨sta, a⟩ := e0
  simp only at h
  subst h
  exact w.setCst hs

theorem mul_left_swap {t : T} {e0 e1 : Ent} {es : List Ent} {c : Int} (w : W t)
    (hs : t.stk = e0 :: e1 :: es) (h : e1.sta = .CNST) (h0 : e0.sta ≠ .STK) (hf : e0.sta ≠ .FLAG) :
    W (setTwo ⟨.CNST, c⟩ e0 t) := by
  have w1 := w.swap hs ⟨h0, hf⟩ (by rw [h]; simp)
  have := w1.setCst' (c := c) (e0 := e1) (es := e0 :: es) (by simp [setTwo, hs]) h
  have he : setTop ⟨.CNST, c⟩ (setTwo e1 e0 t) = setTwo ⟨.CNST, c⟩ e0 t := by
    simp [setTop, setTwo]
  rw [he] at this
  exact this

theorem cmpEnd_step {j : Nat} {t t' : T} {e0 e1 : Ent} {es : List Ent} (w : W t) (hj : j < 6)
    (hs : t.stk = e0 :: e1 :: es) (hf : ∀ e ∈ es, e.sta ≠ .FLAG) (h : cmpEnd j t = some t') :
    W t' ∧ Hot t' := by
  obtain ⟨t2, a, m, hb, h0, hl, hfl, ht⟩ := cmpEnd_form w hs h
  have w0 := w.relDrop hs
  have hs0 : (relDrop e0 t).stk = e1 :: es := by simp [relDrop, hs]
  have w1 := w0.relDrop hs0
  have hs1 : (relDrop e1 (relDrop e0 t)).stk = es := by simp [relDrop, hs]
  have w2 := m.W w1
  refine ⟨?_, ⟨.FLAG, a⟩, t2.stk, by rw [ht]; rfl, by simp⟩
  rw [ht]
  exact w2.pushFlag hj hb h0 (m.noFlag (by rw [hs1]; exact hf))

theorem swapJcc_lt {j : Nat} (h : j < 6) : swapJcc j < 6 := by
  unfold swapJcc
  repeat' split
  all_goals first | exact h | decide

theorem cmp_step {j : Nat} {t t' : T} {e0 e1 : Ent} {es : List Ent} (w : W t) (hj : j < 6)
    (hs : t.stk = e0 :: e1 :: es) (h0 : e0.sta ≠ .STK) (h : cmp j t = some t') : W t' ∧ Hot t' := by
  rw [cmp_eq j hs] at h
  have hflag := w.flag
  rw [hs] at hflag
  -- the flags belong to one of the two operands
  have below : ∀ p, t.flg = some p → es.length ≤ p → ∀ e ∈ es, e.sta ≠ .FLAG := by
    intro p hp hle e he hh
    obtain ⟨q, hq, hlt⟩ := flag_lt hflag.2.2 he hh
    rw [hp] at hq
    cases hq
    omega
  split at h
  · rename_i hc
    exact cmpEnd_step w hj hs (below _ hc.2 (by omega)) h
  · split at h
    · rename_i hc
      exact cmpEnd_step w (swapJcc_lt hj) hs (below _ hc.2 (by omega)) h
    · cases hx : cmpCode j t with
      | none => rw [hx] at h; cases h
      | some x =>
        rw [hx] at h
        simp only [Option.bind_some] at h
        obtain ⟨sw, f0, f1, t1, r, es', s, hsw, hf, m, hst, hl, ho, hfl, rfl⟩ := cmpCode_form w hs h0 hx
        have w1 : W t1 := by
          cases sw with
          | false => exact m.W w
          | true =>
            have hsw := hsw rfl
            refine m.W (w.swap hs ⟨h0, ?_⟩ ⟨hsw.2.1, hsw.2.2⟩)
            rcases hsw.1 with h | h <;> rw [h] <;> simp
        have hst' : ∃ y, t1.stk = unflag f0 :: y :: es' := by
          rcases hst with ⟨_, _, h⟩ | h
          · exact ⟨_, h⟩
          · exact ⟨_, h⟩
        obtain ⟨y, hy⟩ := hst'
        refine cmpEnd_step (e0 := unflag f0) (e1 := y) (es := es') (w1.out (t1.out ++ [.op .CMP (.g r) s])) ?_ hy ?_ h
        · show (if sw then swapJcc j else j) < 6
          split
          · exact swapJcc_lt hj
          · exact hj
        · intro e he
          exact w1.noFlag hfl e (by rw [hy]; simp [he])

theorem two_of_sec {t : T} {β : Type} {F : Ent → Ent → Option β} {b : β}
    (h : ((top t).bind fun e0 => (sec t).bind fun e1 => F e0 e1) = some b) :
    ∃ e0 e1 es, t.stk = e0 :: e1 :: es := by
  match hs : t.stk with
  | e0 :: e1 :: es => exact ⟨e0, e1, es, rfl⟩
  | [] => simp [top, hs] at h
  | [_] => simp [top, sec, hs] at h

theorem binary_two {o : A2} {t t' : T} (w : W t) (hot : Hot t) (h : binary o t = some t') :
    ∃ e0 e1 es, t.stk = e0 :: e1 :: es := by
  obtain ⟨e, l, hs, h0⟩ := hot
  have hcal : ∀ o, cal o t = some t' → ∃ e0 e1 es, t.stk = e0 :: e1 :: es := fun o => two_cal w
  have hset : ∀ o c, e.sta = .CNST → cal o (setTop ⟨.CNST, c⟩ t) = some t' →
      ∃ e0 e1 es, t.stk = e0 :: e1 :: es := by
    intro o c hc hk
    obtain ⟨e0, e1, es, h2⟩ := two_cal (w.setCst' (c := c) hs hc) hk
    have : l = e1 :: es := by
      simp only [setTop, hs, List.drop_succ_cons, List.drop_zero, List.cons.injEq] at h2
      exact h2.2
    exact ⟨e, e1, es, by rw [hs, this]⟩
  cases o with
  | SUB => exact hcal _ h
  | SHL => exact hcal _ h
  | SHR => exact hcal _ h
  | DIV =>
    rcases vmDiv_form hs h with ⟨h1, h2, h3⟩ | h1
    · exact hset _ _ h1 h3
    · exact hcal _ h1
  | MOD =>
    have h : vmMod t = some t' := h
    unfold vmMod at h
    simp only [top, hs, List.head?_cons, Option.bind_eq_bind, Option.bind_some] at h
    split at h
    · rename_i hc
      unfold rcal at h
      simp only [Option.bind_eq_bind] at h
      obtain ⟨e0, e1, es, h2⟩ := two_of_sec h
      have : l = e1 :: es := by
        simp only [setTop, hs, List.drop_succ_cons, List.drop_zero, List.cons.injEq] at h2
        exact h2.2
      exact ⟨e, e1, es, by rw [hs, this]⟩
    · exact hcal _ h
  | ADD => exact two_of_sec h
  | BAND => exact two_of_sec h
  | BXOR => exact two_of_sec h
  | BOR => exact two_of_sec h
  | MUL => exact two_of_sec h
  | GT => exact two_of_sec h
  | GE => exact two_of_sec h
  | LT => exact two_of_sec h
  | LE => exact two_of_sec h
  | EQ => exact two_of_sec h
  | NE => exact two_of_sec h

theorem binary_step {o : A2} {t t' : T} (w : W t) (hot : Hot t) (h : binary o t = some t') :
    W t' ∧ Hot t' := by
  have two := binary_two w hot h
  obtain ⟨e, l, hs, h0⟩ := hot
  obtain ⟨e0, e1, es, hs2⟩ := two
  rw [hs] at hs2
  cases hs2
  have setTwo2 : ∀ c, (setTop ⟨.CNST, c⟩ t).stk = ⟨.CNST, c⟩ :: e1 :: es := by
    intro c; simp [setTop, hs]
  cases o with
  | ADD => exact rcal_step w hs h0 h
  | SUB => exact cal_step w hs h0 h
  | SHL => exact cal_step w hs h0 h
  | SHR => exact cal_step w hs h0 h
  | BAND => exact rcal_step w hs h0 h
  | BXOR => exact rcal_step w hs h0 h
  | BOR => exact rcal_step w hs h0 h
  | MUL =>
    rcases vmMul_form w hs h with ⟨h1, h2, h3⟩ | ⟨h1, h2, h3, h4⟩ | h1
    · exact cal_step (w.setCst' hs h1) (setTwo2 _) (by simp) h3
    · exact cal_step (mul_left_swap w hs h1 h0 h3) (e0 := ⟨.CNST, isPower2 e1.aux⟩) (e1 := e) (es := es)
        (by simp [setTwo, hs]) (by simp) h4
    · exact rcal_step w hs h0 h1
  | DIV =>
    rcases vmDiv_form hs h with ⟨h1, h2, h3⟩ | h1
    · exact cal_step (w.setCst' hs h1) (setTwo2 _) (by simp) h3
    · exact cal_step w hs h0 h1
  | MOD =>
    rcases vmMod_form hs h with ⟨h1, h2, h3⟩ | h1
    · exact cal_step (w.setCst' hs h1) (setTwo2 _) (by simp) h3
    · exact cal_step w hs h0 h1
  | GT => exact cmp_step w (by decide) hs h0 h
  | GE => exact cmp_step w (by decide) hs h0 h
  | LT => exact cmp_step w (by decide) hs h0 h
  | LE => exact cmp_step w (by decide) hs h0 h
  | EQ => exact cmp_step w (by decide) hs h0 h
  | NE => exact cmp_step w (by decide) hs h0 h

theorem boolJmp_step {tf : Bool} {l : Nat} {t t' : T} (w : W t) (hot : Hot t)
    (h : boolJmp tf l t = some t') : W t' := by
  obtain ⟨e, es, hs, h0⟩ := hot
  rcases boolJmp_form w hs h0 h with ⟨_, _, rfl⟩ | ⟨_, _, rfl⟩ | ⟨t1, e', es', m, hs1, _, _, _, rfl⟩
  · exact (w.out _).relDrop (es := es) hs
  · exact (w.out _).relDrop (es := es) hs
  · exact ((m.W w).out _).relDrop (es := es') hs1

/-- An accumulator with an address. -/
theorem W.indir {t : T} {e0 : Ent} {a : Int} {es : List Ent} {k : Sta} (w : W t)
    (hs : t.stk = e0 :: ⟨.ACC, a⟩ :: es) (hk : k = .WINDR ∨ k = .BINDR) :
    W { Tac.relDrop e0 t with stk := ⟨k, a⟩ :: es } := by
  have w1 := w.relDrop hs
  have hs1 : (Tac.relDrop e0 t).stk = ⟨.ACC, a⟩ :: es := by simp [Tac.relDrop, hs]
  have hr := w1.rng a (by rw [hs1]; simp [accs, acc1_ACC])
  have ha : isAcc ⟨k, a⟩ = true := by
    unfold isAcc AccSIZ; rcases hk with rfl | rfl <;> simp [hr.2]
  exact w1.retop hs1 (e' := ⟨k, a⟩) rfl (by rw [acc1_acc ha]; rfl) (by rcases hk with rfl | rfl <;> simp)
    (by rcases hk with rfl | rfl <;> simp)
    ⟨fun h => (by rcases hk with rfl | rfl <;> cases h), fun _ => ⟨hr.1, by have := hr.2; show a ≤ 11; omega⟩⟩
    (.inr rfl)

theorem ldForm_step {o : TOp} {k : Sta} {t t' : T} {e0 e1 : Ent} {es : List Ent} (w : W t)
    (hs : t.stk = e0 :: e1 :: es) (hk : k = .WINDR ∨ k = .BINDR) (h : LdForm o k t t' e0 e1 es) :
    W t' ∧ ∃ r es', t'.stk = ⟨k, r⟩ :: es' := by
  rcases h with ⟨hc, hr, rfl⟩ | ⟨hc, t1, a, es', m, hs1, hl, rfl⟩ | ⟨t1, a, es', s, m, hs1, hl, ho, _, rfl⟩
  · refine ⟨?_, _, _, rfl⟩
    have w1 := w.relDrop hs
    have hs1 : (relDrop e0 t).stk = e1 :: es := by simp [relDrop, hs]
    have hreg := (w1.regs e1 (by rw [hs1]; simp)).1 hr
    have ha : isAcc ⟨k, e1.aux⟩ = false := by
      unfold isAcc AccSIZ; rcases hk with rfl | rfl <;> simp <;> omega
    have ha1 : isAcc e1 = false := by unfold isAcc; simp [hr]
    exact w1.retop hs1 (e' := ⟨k, e1.aux⟩) rfl (by rw [acc1_not ha, acc1_not ha1])
      (by rcases hk with rfl | rfl <;> simp) (by rcases hk with rfl | rfl <;> simp)
      ⟨fun h => (by rcases hk with rfl | rfl <;> cases h), fun _ => ⟨by show 0 ≤ e1.aux; omega, hreg.2⟩⟩
      (.inl (acc1_not ha))
  · exact ⟨(m.W w).indir hs1 hk, _, _, rfl⟩
  · exact ⟨((m.W w).out (t1.out ++ [.op o (.g a) s])).indir (e0 := unflag e0) hs1 hk, _, _, rfl⟩

theorem vmLdWrd_step {t t' : T} (w : W t) (hot : Hot t) (h : vmLdWrd t = some t') :
    W t' ∧ ∃ r es', t'.stk = ⟨.WINDR, r⟩ :: es' := by
  obtain ⟨e, l, hs, h0⟩ := hot
  obtain ⟨e0, e1, es, hs2⟩ : ∃ e0 e1 es, t.stk = e0 :: e1 :: es := two_of_sec h
  rw [hs] at hs2
  cases hs2
  exact ldForm_step w hs (.inl rfl) (vmLdWrd_form w hs h0 h)

theorem vmLdByt_step {t t' : T} (w : W t) (hot : Hot t) (h : vmLdByt t = some t') :
    W t' ∧ ∃ r es', t'.stk = ⟨.BINDR, r⟩ :: es' := by
  obtain ⟨e, l, hs, h0⟩ := hot
  obtain ⟨e0, e1, es, hs2⟩ : ∃ e0 e1 es, t.stk = e0 :: e1 :: es := two_of_sec h
  rw [hs] at hs2
  cases hs2
  rcases vmLdByt_form w hs h0 h with h | ⟨hA, hS, t1, s, es', m, hs1, hl, ho, _, rfl⟩
  · exact ldForm_step w hs (.inr rfl) h
  · refine ⟨?_, _, _, rfl⟩
    obtain ⟨sta, a⟩ := e
    simp only at hA
    subst hA
    have w1 := ((m.W w).out (t1.out ++ [.op .ADD (.g a) s])).swap (e0 := ⟨.ACC, a⟩) (e1 := unflag e1)
      (es := es') hs1 (by simp) ⟨unflag_stk hS, unflag_sta _⟩
    exact w1.indir (e0 := unflag e1) (a := a) (es := es') (by simp [setTwo, hs1]) (.inr rfl)

theorem storeInd_step {d : Int → Src} {t t' : T} {k : Sta} {r : Int} {es : List Ent} (w : W t)
    (hs : t.stk = ⟨k, r⟩ :: es) (hk : k = .WINDR ∨ k = .BINDR) (h : storeInd d t = some t') :
    W t' ∧ Hot t' := by
  have : ∃ e1 es1, es = e1 :: es1 := by
    cases es with
    | cons e1 es1 => exact ⟨e1, es1, rfl⟩
    | nil => unfold storeInd at h; simp [sec, hs] at h
  obtain ⟨e1, es1, rfl⟩ := this
  obtain ⟨t1, e', es', m, hs1, hr, hl, rfl⟩ := storeInd_form w hs hk h
  refine ⟨((m.W w).out _).relDrop (es := e' :: es') hs1, e', es', by simp [relDrop, hs1], ?_⟩
  rcases hr with h | h <;> rw [h] <;> simp

theorem stForm_step {d : Src} {t t' : T} {es : List Ent} (w : W t) (h : StForm d t t' es) :
    W t' ∧ Hot t' := by
  obtain ⟨t1, e', es', m, hs1, hr, hl, rfl⟩ := h
  refine ⟨(m.W w).out _, e', es', hs1, ?_⟩
  rcases hr with h | h <;> rw [h] <;> simp

theorem flag_top {t : T} {e : Ent} {es : List Ent} (w : W t) (hs : t.stk = e :: es)
    (he : e.sta = .FLAG) : ∀ x ∈ es, x.sta ≠ .FLAG := by
  intro x hx hh
  have hf := w.flag
  rw [hs] at hf
  obtain ⟨p, hp, hlt⟩ := flag_lt hf.2 hx hh
  rw [hf.1 he] at hp
  cases hp; omega

/-- A register variable takes the place of the entry on top. -/
theorem W.toReg {t : T} {e : Ent} {es : List Ent} {r : Int} (w : W t) (hs : t.stk = e :: es)
    (hr : 3 ≤ r ∧ r ≤ 11) :
    W { Tac.relDrop e t with stk := ⟨.RVAR, r⟩ :: es, flg := t.flg } := by
  have w1 := w.relDrop hs
  have hs1 : (Tac.relDrop e t).stk = es := by simp [Tac.relDrop, hs]
  have w2 := w1.push (e := ⟨.RVAR, r⟩) rfl (by simp) (by simp)
    ⟨fun _ => hr, fun h => by simp at h⟩
  have hfl := w.flag
  rw [hs] at hfl
  refine ⟨?_, ?_, ?_, ?_, ?_, ?_, ?_, ?_, w.jcc⟩
  · have := w2.own; rw [hs1] at this; exact this
  · have := w2.nodup; rw [hs1] at this; exact this
  · have := w2.rng; rw [hs1] at this; exact this
  · have := w2.cnt; rw [hs1] at this; exact this
  · have := w2.low; rw [hs1] at this; exact this
  · exact ⟨fun h => (by cases h), hfl.2⟩
  · intro p hp
    have := w.flt p hp
    rw [hs] at this
    exact this
  · have := w2.regs; rw [hs1] at this; exact this

theorem vmStLoc_step {n : Int} {t t' : T} (w : W t) (hot : Hot t) (hn : 1 ≤ n)
    (h : vmStLoc n t = some t') : W t' ∧ Hot t' := by
  obtain ⟨e, es, hs, h0⟩ := hot
  rcases vmStLoc_form w hs h0 h with ⟨_, h⟩ | ⟨_, _, rfl⟩ | ⟨_, _, _, rfl⟩ | ⟨hn', hF, rfl⟩ |
    ⟨hn', _, _, _, s, ho, rfl⟩
  · exact stForm_step w h
  · exact ⟨w, e, es, hs, h0⟩
  · exact ⟨w.out _, e, es, hs, h0⟩
  · unfold RVarSIZ at hn'
    refine ⟨?_, ⟨.RVAR, n + 2⟩, es, rfl, by simp⟩
    have w' : W { t with out := t.out ++ flgCode (n + 2) t.jcc t.tlab, tlab := t.tlab + 1 } :=
      ⟨w.own, w.nodup, w.rng, w.cnt, w.low, w.flag, w.flt, w.regs, w.jcc⟩
    exact w'.toReg (e := e) (es := es) (r := n + 2) hs
      ⟨by omega, by omega⟩
  · unfold RVarSIZ at hn'
    refine ⟨?_, ⟨.RVAR, n + 2⟩, es, rfl, by simp⟩
    exact (w.out (t.out ++ [.op .LD (.g (n + 2)) s])).toReg (e := e) (es := es) (r := n + 2) hs
      ⟨by omega, by omega⟩

theorem unary_step {o : A1} {t t' : T} (w : W t) (hot : Hot t) (h : unary o t = some t') :
    W t' ∧ Hot t' := by
  obtain ⟨e, es, hs, h0⟩ := hot
  obtain ⟨t1, a, es', m, hs1, hl, hf, rfl⟩ := unary_form w hs h
  have w1 := m.W w
  refine ⟨(w1.out (t1.out ++ (unLines o).map fun (l : TOp × Int) => Line.op l.1 (.g a) (.imm l.2))).setFlg (w1.noFlag hf) ?_, ⟨.ACC, a⟩, es', hs1, by simp⟩
  intro p hp; cases hp
  show es'.length < t1.stk.length
  rw [hs1]; simp

theorem vmArg_step {t t' : T} (w : W t) (hot : Hot t) (h : vmArg t = some t') : W t' := by
  obtain ⟨e, es, hs, h0⟩ := hot
  rcases vmArg_form w hs h with ⟨hr, t1, es', m, hs1, hl, ha, rfl⟩ | ⟨t1, a, es', m, hs1, hl, ha, rfl⟩
  · exact ((m.W w).out _).relDrop (es := es') hs1
  · exact (m.W w).relDrop hs1

theorem vmMReg_step {t t' : T} (w : W t) (hot : Hot t) (h : vmMReg t = some t') : W t' := by
  obtain ⟨e, es, hs, h0⟩ := hot
  rcases vmMReg_form w hs h0 h with ⟨_, rfl⟩ | ⟨_, rfl⟩ | ⟨s, _, _, rfl⟩
  · exact w.relDrop hs
  · have w' : W { t with out := t.out ++ flgCode 0 t.jcc t.tlab, tlab := t.tlab + 1 } :=
      ⟨w.own, w.nodup, w.rng, w.cnt, w.low, w.flag, w.flt, w.regs, w.jcc⟩
    exact w'.relDrop (es := es) hs
  · exact (w.out _).relDrop (es := es) hs

theorem vmCallF_step {n : Nat} {f : Int} {t t' : T} (w : W t) (h : vmCallF n f t = some t') :
    W t' ∧ Hot t' := by
  obtain ⟨t1, m, ha, hf, hs, rfl⟩ := vmCallF_form w h
  have w1 := m.W w
  have hb : t1.bsy 0 = false := by
    cases hb : t1.bsy 0 with
    | false => rfl
    | true => have := (w1.own 0).1 hb; rw [ha] at this; simp at this
  exact ⟨(w1.out (t1.out ++ callLines n f)).pushAcc (a := 0) hb (by omega), _, _, rfl, by simp⟩

theorem bool_step {κ : Nat} {t t' t1 : T} {a : Int} {es' : List Ent} {o : List Line} (w : W t) (m : Mics κ t t1)
    (hs : t1.stk = ⟨.ACC, a⟩ :: es' ∨ t1.stk = ⟨.FLAG, a⟩ :: es')
    (ht : t' = { t1 with stk := ⟨.ACC, a⟩ :: es', out := o }) : W t' ∧ Hot t' := by
  have w1 := m.W w
  refine ⟨?_, ⟨.ACC, a⟩, es', by rw [ht], by simp⟩
  rcases hs with hs | hs
  · refine w1.retop hs (e' := ⟨.ACC, a⟩) (by rw [ht]) rfl (by simp) (by simp) (regOk_acc _) (.inr rfl)
  · refine w1.retop hs (e' := ⟨.ACC, a⟩) (by rw [ht]) rfl (by simp) (by simp) (regOk_acc _) (.inr rfl)

theorem W.frame {t : T} (w : W t) {a b : Int} {o : List Line} :
    W { t with rvCnt := a, frSize := b, out := o } :=
  ⟨w.own, w.nodup, w.rng, w.cnt, w.low, w.flag, w.flt, w.regs, w.jcc⟩

theorem emitV_step {cnt : Int → Int} {v : Vm} {b : Bool} {t t' : T} (w : W t)
    (hot : b = true → Hot t) (hu : uses v = true → b = true) (hc : Counted cnt [v])
    (h : emitV cnt v t = some t') : W t' ∧ (fresh v b = true → Hot t') := by
  cases v with
  | boolOR l1 l2 l3 =>
    obtain ⟨e, es, hs, h0⟩ := hot (hu rfl)
    obtain ⟨t1, a, es', o, m, hl, hs1, ht⟩ := vmBoolOR_form w hs h
    have := bool_step w m hs1 ht
    exact ⟨this.1, fun _ => this.2⟩
  | boolAND l1 l2 l3 =>
    obtain ⟨e, es, hs, h0⟩ := hot (hu rfl)
    obtain ⟨t1, a, es', o, m, hl, hs1, ht⟩ := vmBoolAND_form w hs h
    have := bool_step w m hs1 ht
    exact ⟨this.1, fun _ => this.2⟩
  | i i =>
    have both : W t' ∧ Hot t' → W t' ∧ (fresh (.i i) b = true → Hot t') := fun h => ⟨h.1, fun _ => h.2⟩
    have nr : ∀ k : Sta, ∀ a : Int, k ≠ .RVAR → k ≠ .WINDR → k ≠ .BINDR → RegOk ⟨k, a⟩ := by
      intro k a h1 h2 h3
      exact ⟨fun h => absurd h h1, fun h => h.elim (fun h => absurd h h2) (fun h => absurd h h3)⟩
    have keep : W t' → t'.stk = t.stk → fresh (.i i) b = b → W t' ∧ (fresh (.i i) b = true → Hot t') := by
      intro w' hs hf
      refine ⟨w', fun hh => ?_⟩
      obtain ⟨e, es, h1, h2⟩ := hot (by rw [← hf]; exact hh)
      exact ⟨e, es, by rw [hs]; exact h1, h2⟩
    cases i with
    | lab n => cases h; exact keep (w.out _) rfl rfl
    | jmp n => cases h; exact keep (w.out _) rfl rfl
    | jt n => exact ⟨boolJmp_step w (hot (hu rfl)) h, fun hh => (by cases hh)⟩
    | jf n => exact ⟨boolJmp_step w (hot (hu rfl)) h, fun hh => (by cases hh)⟩
    | ldC v => exact both (push_step w h rfl (by simp) (by simp) (nr _ _ (by simp) (by simp) (by simp)))
    | ldG v => exact both (push_step w h rfl (by simp) (by simp) (nr _ _ (by simp) (by simp) (by simp)))
    | ldL n =>
      have hn := hc n (.inl (by simp))
      have h : vmLdLoc (cnt n) t = some t' := h
      unfold vmLdLoc RVarSIZ AccSIZ at h
      split at h
      · exact both (push_step w h rfl (by simp) (by simp)
          ⟨fun _ => ⟨by show 3 ≤ cnt n - 1 + 3; omega, by show cnt n - 1 + 3 ≤ 11; omega⟩, fun h => by simp at h⟩)
      · exact both (push_step w h rfl (by simp) (by simp) (nr _ _ (by simp) (by simp) (by simp)))
    | ldP n => exact both (push_step w h rfl (by simp) (by simp) (nr _ _ (by simp) (by simp) (by simp)))
    | ldLab n => exact both (push_step w h rfl (by simp) (by simp) (nr _ _ (by simp) (by simp) (by simp)))
    | ldNam n => exact both (push_step w h rfl (by simp) (by simp) (nr _ _ (by simp) (by simp) (by simp)))
    | ldW =>
      obtain ⟨w', r, es', hs'⟩ := vmLdWrd_step w (hot (hu rfl)) h
      exact ⟨w', fun _ => ⟨_, _, hs', by simp⟩⟩
    | ldB =>
      obtain ⟨w', r, es', hs'⟩ := vmLdByt_step w (hot (hu rfl)) h
      exact ⟨w', fun _ => ⟨_, _, hs', by simp⟩⟩
    | stG n =>
      obtain ⟨e, es, hs, h0⟩ := hot (hu rfl)
      exact both (stForm_step w (vmStGlb_form w hs h))
    | stL n => exact both (vmStLoc_step w (hot (hu rfl)) (hc n (.inr (by simp))) h)
    | stP n =>
      obtain ⟨e, es, hs, h0⟩ := hot (hu rfl)
      exact both (stForm_step w (vmStPrm_form w hs h))
    | stW =>
      have h : (vmLdWrd t).bind (storeInd .ind) = some t' := h
      cases h1 : vmLdWrd t with
      | none => rw [h1] at h; cases h
      | some t1 =>
        rw [h1] at h
        obtain ⟨w', r, es', hs'⟩ := vmLdWrd_step w (hot (hu rfl)) h1
        exact both (storeInd_step w' hs' (.inl rfl) h)
    | stB =>
      have h : (vmLdByt t).bind (storeInd .byt) = some t' := h
      cases h1 : vmLdByt t with
      | none => rw [h1] at h; cases h
      | some t1 =>
        rw [h1] at h
        obtain ⟨w', r, es', hs'⟩ := vmLdByt_step w (hot (hu rfl)) h1
        exact both (storeInd_step w' hs' (.inr rfl) h)
    | a1 o => exact both (unary_step w (hot (hu rfl)) h)
    | a2 o => exact both (binary_step w (hot (hu rfl)) h)
    | pop =>
      obtain ⟨e, es, hs, h0⟩ := hot (hu rfl)
      have := vmPop_form hs h
      rw [this]
      exact ⟨w.relDrop hs, fun hh => (by cases hh)⟩
    | arg => exact ⟨vmArg_step w (hot (hu rfl)) h, fun hh => (by cases hh)⟩
    | callF n f => exact both (vmCallF_step w h)
    | callP n f =>
      obtain ⟨t1, m, ha, hf, hs, ht⟩ := call_form w h
      rw [ht]
      exact ⟨(m.W w).out _, fun hh => (by cases hh)⟩
    | mreg => exact ⟨vmMReg_step w (hot (hu rfl)) h, fun hh => (by cases hh)⟩
    | nam f => cases h; exact keep (w.out _) rfl rfl
    | entry d => cases h; exact keep w.frame rfl rfl
    | entryK d => cases h; exact keep w.frame rfl rfl
    | entryI d => cases h; exact keep w.frame rfl rfl
    | ret =>
      have h : vmRet t = some t' := h
      unfold vmRet cancelFrame at h
      split at h
      · cases h
      · split at h
        · cases h
        · cases h; exact keep w.frame rfl rfl
    | retI =>
      have h : vmRetI t = some t' := h
      unfold vmRetI cancelFrame at h
      split at h
      · cases h
      · split at h
        · cases h
        · cases h; exact keep w.frame rfl rfl
    | bug => cases h

theorem emits_step {cnt : Int → Int} {p : List Vm} : ∀ {b : Bool} {t t' : T}, W t → (b = true → Hot t) →
    Disc b p → Counted cnt p → emits cnt p t = some t' → W t' := by
  induction p with
  | nil => intro b t t' w _ _ _ h; cases h; exact w
  | cons v vs ih =>
    intro b t t' w hot hd hc h
    simp only [emits] at h
    cases h1 : emitV cnt v t with
    | none => rw [h1] at h; cases h
    | some t1 =>
      rw [h1] at h
      have := emitV_step w hot hd.1 (fun n hn => hc n (by simp only [List.mem_singleton] at hn; rcases hn with hn | hn <;> simp [hn])) h1
      exact ih this.1 this.2 hd.2 (fun n hn => hc n (hn.imp (List.mem_cons_of_mem _) (List.mem_cons_of_mem _))) h

theorem W.init : W T.init :=
  ⟨fun r => by simp [T.init, accs], by simp [T.init, accs], by simp [T.init, accs], rfl, trivial, trivial,
    fun p hp => (by cases hp), by simp [T.init], by decide⟩

/-! ### The claim -/

/-- After any sequence of calls that respects the stack discipline the books are right. -/
theorem C49_books (cnt : Int → Int) (p : List Vm) (t : T) (hd : Disc false p) (hc : Counted cnt p)
    (h : emits cnt p T.init = some t) : Books t :=
  (emits_step W.init (fun hb => (by cases hb)) hd hc h).books

theorem outStk_total {t : T} (w : W t) (h : t.cnt > 0) : ∃ t', outStk t = some t' := by
  have hne := accs_pos w h
  unfold outStk
  cases hsr : srchAcc t.stk with
  | none => exact absurd (srch_none hsr) hne
  | some p =>
    obtain ⟨hi, e, lo, hst, ha, hlo, hp⟩ := srch_some hsr
    have hg : get t.stk p = some e := by rw [hst, hp]; exact get_split _ _ _
    simp only [hg, Option.bind_eq_bind, Option.bind_some]
    have hb : t.bsy e.aux = true := (w.own _).2 (by rw [hst, accs_split, acc1_acc ha]; simp)
    have hr := w.rng e.aux (by rw [hst, accs_split, acc1_acc ha]; simp)
    have hld : ∃ t1, (if e.sta ≠ .ACC then loadReg e.aux p t else some t) = some t1 ∧ t1.bsy = t.bsy := by
      split
      · rename_i hA
        unfold loadReg
        simp only [hg, Option.bind_eq_bind, Option.bind_some]
        obtain ⟨sta, a⟩ := e
        cases sta <;> simp [isAcc] at ha hA ⊢
        · simp [calReg, hg, operand, T.print]
        · simp [calReg, hg, operand, T.print]
        · have hfl := w.flag
          rw [hst] at hfl
          have := (flag_split hfl).1 rfl
          rw [hp] at hg ⊢
          simp [loadFlg, hg, this, T.print]
      · exact ⟨t, rfl, rfl⟩
    obtain ⟨t1, h1, h2⟩ := hld
    have e1 : (if e.sta ≠ .ACC then loadReg e.aux p t else some t) = some t1 := h1
    split at e1
    · rename_i hA
      rw [if_pos hA, e1]
      simp only [Option.bind_some, relAcc, T.print, h2, hb]
      rw [if_neg (by unfold AccSIZ; simp; omega)]
      exact ⟨_, rfl⟩
    · rename_i hA
      rw [if_neg hA]
      simp only [Option.bind_some, relAcc, T.print, hb]
      rw [if_neg (by unfold AccSIZ; simp; omega)]
      exact ⟨_, rfl⟩

theorem outStkN_total {n : Nat} : ∀ {t : T}, W t → t.cnt ≤ n → ∃ t', outStkN n t = some t' := by
  induction n with
  | zero => intro t _ _; exact ⟨t, rfl⟩
  | succ n ih =>
    intro t w hn
    unfold outStkN
    split
    · rename_i hc
      obtain ⟨t1, h1⟩ := outStk_total w hc
      rw [h1]
      obtain ⟨_, _, _, _, _, _, m, _, _, _, h2⟩ := outStk_mics (κ := 0) w h1
      exact ih (m.W w) (by rw [h2]; push_cast at hn; omega)
    · exact ⟨t, rfl⟩

/-- A function result is always delivered in G0: after any disciplined sequence vmCallF succeeds
unless the stack of 20 entries is full, the result is described as being in G0, no other entry
uses G0, and after the CALL nothing is printed but the removal of the arguments from SP. -/
theorem C49_result (cnt : Int → Int) (p : List Vm) (t : T) (hd : Disc false p) (hc : Counted cnt p)
    (h : emits cnt p T.init = some t) (hl : t.stk.length < 20) (n : Nat) (f : Int) :
    ∃ t' pre, vmCallF n f t = some t' ∧ t'.stk.head? = some ⟨.ACC, 0⟩ ∧
      (∀ e ∈ t'.stk.tail, ∀ r, ¬ Owns e r) ∧
      t'.out = t.out ++ pre ++ (if n = 0 then [.call f] else [.call f, .op .ADD .sp (.imm (n * 2))]) := by
  have w := emits_step W.init (fun hb => (by cases hb)) hd hc h
  obtain ⟨t1, h1⟩ := outStkN_total (n := t.cnt.toNat) w (by have := w.cnt; omega)
  obtain ⟨m, ha, hf, hs⟩ := outStkAll_mics (κ := 0) w h1
  have w1 := m.W w
  obtain ⟨pre, hpre⟩ := m.out
  have hb : t1.bsy 0 = false := by
    cases hb : t1.bsy 0 with
    | false => rfl
    | true => have := (w1.own 0).1 hb; rw [ha] at this; simp at this
  have hcall : call n f t = some { t1 with out := t1.out ++ callLines n f } := by
    unfold call
    rw [show outStkAll t = some t1 from h1]
    unfold callLines
    simp only [Option.bind_eq_bind, Option.bind_some, T.print]
    split <;> simp
  refine ⟨{ t1 with
      out := t1.out ++ callLines n f, bsy := upd t1.bsy 0 true, cnt := t1.cnt + 1
      stk := ⟨.ACC, 0⟩ :: t1.stk }, pre, ?_, rfl, ?_, ?_⟩
  · unfold vmCallF
    rw [hcall]
    simp only [Option.bind_eq_bind, Option.bind_some, allocAcc, hb, if_true, ne_eq, not_true_eq_false,
      if_false, pushStk]
    rw [if_neg (by rw [m.same.1]; unfold StkSIZ; omega)]
  · intro e he r ho
    have : r ∈ accs t1.stk := mem_accs.2 ⟨e, he, (owns_acc.1 ho).2⟩
    rw [ha] at this; simp at this
  · show t1.out ++ callLines n f = _
    rw [hpre]
    unfold callLines
    by_cases hn : n = 0 <;> simp [hn]

/-! ### Examples -/

/-- `f(a+1, b[i]) * 2 + ((a < b) - 1)` with a spill, a comparison and a call. -/
def sample : List Vm :=
  [.i (.ldL 1), .i (.ldC 1), .i (.a2 .ADD), .i .arg, .i (.ldG 3), .i (.ldL 2), .i .ldW, .i .arg,
   .i (.callF 2 9), .i (.ldC 2), .i (.a2 .MUL), .i (.ldL 1), .i (.ldL 2), .i (.a2 .LT), .i (.ldC 1),
   .i (.a2 .SUB), .i (.callF 0 8)]

example : Disc false sample ∧ Counted (fun n => n) sample ∧ ∃ t, emits (fun n => n) sample T.init = some t ∧
    t.stk = [⟨.ACC, 0⟩, ⟨.STK, 1⟩, ⟨.STK, 0⟩] ∧ t.cnt = 1 := by
  refine ⟨by simp [sample, Disc, uses, fresh], ?_, _, rfl, rfl, rfl⟩
  intro n hn
  simp [sample] at hn
  show 1 ≤ n
  omega

end Cmm.Tac
