import Verif.Tac.Rel2
import Verif.Props.C49
import Verif.Props.C52
import Verif.Props.C53

/-
The operations of src/vm2tac.c (Verif/Tac/Forms.lean, Forms2.lean) keep the relation `Rel`.
-/
namespace Cmm.Tac
open Cmm.Tree (World ofB)
open Cmm.Gen (Instr A1 A2 Data)

/-- What a step of the translator and the machine do. -/
def Goes (E : Env) (F : Fr) (g : Gh) (t t' : T) (its' : List It) (s' : Sto) (m : M) : Prop :=
  ∃ m' c, t'.out = t.out ++ c ∧ Runs E c m m' ∧ Rel E F g t' its' s' m'

/-- Small steps before. -/
theorem Goes.after {E : Env} {F : Fr} {g g' : Gh} {κ : Nat} {t t1 t' : T} {its its' : List It} {s s' : Sto}
    {m : M} (h : Mics κ t t1) (w : W t) (hr : Rel E F g t its s m)
    (hv : ∀ i ∈ its.take κ, i.isVal = true)
    (hk : ∀ m1, Rel E F g t1 its s m1 → Same F m m1 → Goes E F g' t1 t' its' s' m1) :
    Goes E F g' t t' its' s' m := by
  obtain ⟨m1, c1, o1, r1, k1, s1⟩ := mics_rel h w hr hv
  obtain ⟨m2, c2, o2, r2, k2⟩ := hk m1 k1 s1
  exact ⟨m2, c1 ++ c2, by rw [o2, o1, List.append_assoc], r1.append r2, k2⟩

theorem Rel.weaken {E : Env} {F : Fr} {g : Gh} {t : T} {its : List It} {s : Sto} {m : M}
    (h : Rel E F g t its s m) : Rel E F .no t its s m := by
  obtain ⟨hw, h⟩ := h
  exact ⟨hw, h.repr, h.hwm, h.sp, h.fp, h.room, h.lim, h.mem, h.reg, fun hg => absurd rfl hg⟩

theorem val_cons {V : Ent → Word → Word → Prop} {v p : Word} {its : List It} {e : Ent} {es : List Ent}
    {hw : List Word} (h : Repr V (.val v p :: its) (e :: es) hw) (he : e.sta ≠ .STK) :
    V e v p ∧ Repr V its es hw := by
  cases h with
  | val _ h2 h3 => exact ⟨h2, h3⟩
  | stk => exact absurd rfl he

theorem take2 {v p v' p' : Word} {l : List It} :
    ∀ i ∈ (It.val v p :: .val v' p' :: l).take 2, i.isVal = true := by
  intro i hi
  simp only [List.take_succ_cons, List.take_zero, List.mem_cons, List.not_mem_nil, or_false] at hi
  rcases hi with rfl | rfl <;> rfl

theorem take1 {v p : Word} {l : List It} :
    ∀ i ∈ (It.val v p :: l).take 1, i.isVal = true := by
  intro i hi
  simp only [List.take_succ_cons, List.take_zero, List.mem_cons, List.not_mem_nil, or_false] at hi
  rcases hi with rfl; rfl

theorem take0 {l : List It} : ∀ i ∈ l.take 0, i.isVal = true := by simp

theorem rev_top {its : List It} {v p : Word} {n : Nat} (h : (vals its).length = n) :
    (vals (.val v p :: its)).reverse[n]? = some v := by
  subst h
  simp [vals]

theorem rev_low {its : List It} {v p : Word} {n : Nat} (h : n < (vals its).length) :
    (vals (.val v p :: its)).reverse[n]? = (vals its).reverse[n]? := by
  simp only [vals, List.reverse_cons]
  rw [List.getElem?_append_left (by simpa using h)]

/-! ### Arithmetic -/

/-- The flags after an operation with a result. -/
theorem flags_arith (E : Env) (m : M) {o : TOp} (h1 : o ≠ .LD) (h2 : o ≠ .CMP) (x y : Word) :
    flags E m o x y = ((alu E o x y).msb ^^ ovf E o x y, alu E o x y == 0) := by
  cases o <;> first | rfl | exact absurd rfl h1 | exact absurd rfl h2

/-- The machine after an operation on an accumulator: the other entries are as before. -/
theorem op_rest {E : Env} {F : Fr} {j : Nat} {its : List It} {hi : List Ent} {a : Int} {es : List Ent}
    {hw : List Word} {m m' : M} (hn : (accs (hi ++ ⟨.ACC, a⟩ :: es)).Nodup) (h3 : a < 3)
    (hr : ∀ e ∈ es, RegOk e) (hf : ∀ e ∈ es, e.sta ≠ .FLAG) (h : Repr (Val E F j m) its es hw)
    (hg : ∀ r, r ≠ a → m'.g r = m.g r) (hm : m'.mem = m.mem) : Repr (Val E F j m') its es hw :=
  h.acc h3 (nodup_split (a := a) hn (by simp [acc1_ACC])).2 hr hg (fun _ _ => by rw [hm])
    fun e he hs => absurd hs (hf e he)

theorem cal_rel {E : Env} {F : Fr} {g g' : Gh} {o : TOp} {t t' : T} {its : List It} {s : Sto} {m : M}
    {x y p q : Word} {e0 e1 : Ent} {es : List Ent} (w : W t) (hs : t.stk = e0 :: e1 :: es)
    (h0 : e0.sta ≠ .STK) (h1 : o ≠ .LD) (h2 : o ≠ .CMP)
    (hr : Rel E F g t (.val y q :: .val x p :: its) s m)
    (hg : g' = .all → ovf E o x y = false) (h : cal o t = some t') :
    Goes E F g' t t' (.val (alu E o x y) 0 :: its) s m := by
  obtain ⟨t1, a, es', sr, mi, hs1, hl, ho, hf, rfl⟩ := cal_form w hs h0 h
  refine Goes.after mi w hr take2 fun m1 hr1 _ => ?_
  have w1 := mi.W w
  obtain ⟨hw, hr1⟩ := hr1
  have hrepr := hr1.repr
  have hn := w1.nodup
  have hrg := w1.rng a (by rw [hs1]; simp [accs, acc1_ACC])
  have hregs := w1.regs
  have hnf := w1.noFlag hf
  rw [hs1] at hrepr hn hregs hnf
  obtain ⟨hy, hrepr⟩ := val_cons hrepr (unflag_stk h0)
  obtain ⟨hx, hrest⟩ := val_cons hrepr (by simp)
  have hyv := hy.src ho hr1.fp
  have hxv : m1.g a = x := hx
  have hflag : flags E m1 o x y = ((alu E o x y).msb ^^ ovf E o x y, alu E o x y == 0) :=
    flags_arith E m1 h1 h2 x y
  refine ⟨_, _, rfl, runs_op m1 o (.g a) sr, hw, ?_, hr1.hwm, hr1.sp, hr1.fp, ?_, hr1.lim, hr1.mem, ?_, ?_⟩
  · show Repr _ _ (relDrop (unflag e0) { t1 with out := _ }).stk hw
    simp only [relDrop, hs1, List.tail_cons]
    refine .val (by simp) ?_ (op_rest (hi := [unflag e0]) hn hrg.2 (fun e he => hregs e (by simp [he]))
      (fun e he => hnf e (by simp [he])) hrest (fun r hne => setG_ne _ _ hne) rfl)
    show setG m1.g a (alu E o (m1.g a) (srcVal E m1 sr)) a = _
    rw [setG_same, hyv, hxv]
  · have := hr1.room
    simp only [List.length_cons] at this ⊢
    omega
  · intro r k1 k2
    show setG m1.g a _ r = _
    rw [setG_ne _ _ (by omega)]
    exact hr1.reg r k1 k2
  · intro hgn
    refine ⟨?_, ?_⟩
    · show ∀ e ∈ (relDrop (unflag e0) { t1 with out := _ }).stk, _
      simp only [relDrop, hs1, List.tail_cons]
      intro e he
      exact hnf e (by simp only [List.mem_cons] at he ⊢; tauto)
    · intro pp v hp hv
      cases hp
      rw [rev_top (by rw [hrest.vals_length])] at hv
      cases hv
      show (flags E m1 o (m1.g a) (srcVal E m1 sr)).2 = _ ∧ (_ → (flags E m1 o (m1.g a) (srcVal E m1 sr)).1 = _)
      rw [hyv, hxv, hflag]
      refine ⟨rfl, fun hgg => ?_⟩
      rw [hg hgg]
      simp

/-- The two upper entries exchanged. -/
theorem Rel.swap {E : Env} {F : Fr} {g : Gh} {t : T} {its : List It} {s : Sto} {m : M}
    {x y p q : Word} {e0 e1 : Ent} {es : List Ent} (hs : t.stk = e0 :: e1 :: es)
    (h0 : e0.sta ≠ .STK) (h1 : e1.sta ≠ .STK)
    (hr : Rel E F g t (.val y q :: .val x p :: its) s m) :
    Rel E F .no (setTwo e1 e0 t) (.val x p :: .val y q :: its) s m := by
  obtain ⟨hw, hr⟩ := hr
  have hrepr := hr.repr
  rw [hs] at hrepr
  obtain ⟨hy, hrepr⟩ := val_cons hrepr h0
  obtain ⟨hx, hrest⟩ := val_cons hrepr h1
  refine ⟨hw, ?_, hr.hwm, hr.sp, hr.fp, hr.room, hr.lim, hr.mem, hr.reg, fun hg => absurd rfl hg⟩
  show Repr _ _ (e1 :: e0 :: t.stk.drop 2) hw
  rw [hs]
  exact .val h1 hx (.val h0 hy hrest)

/-- Another constant on top. -/
theorem Rel.setCst {E : Env} {F : Fr} {g : Gh} {t : T} {its : List It} {s : Sto} {m : M}
    {y q : Word} {e0 : Ent} {es : List Ent} (c : Int) (hs : t.stk = e0 :: es) (h0 : e0.sta ≠ .STK)
    (hr : Rel E F g t (.val y q :: its) s m) :
    Rel E F .no (setTop ⟨.CNST, c⟩ t) (.val (BitVec.ofInt 16 c) q :: its) s m := by
  obtain ⟨hw, hr⟩ := hr
  have hrepr := hr.repr
  rw [hs] at hrepr
  obtain ⟨hy, hrest⟩ := val_cons hrepr h0
  refine ⟨hw, ?_, hr.hwm, hr.sp, hr.fp, hr.room, hr.lim, hr.mem, hr.reg, fun hg => absurd rfl hg⟩
  show Repr _ _ (⟨.CNST, c⟩ :: t.stk.drop 1) hw
  rw [hs]
  exact .val (by simp) rfl hrest

theorem rcal_rel {E : Env} {F : Fr} {g g' : Gh} {o : TOp} {t t' : T} {its : List It} {s : Sto} {m : M}
    {x y p q : Word} {e0 e1 : Ent} {es : List Ent} (w : W t) (hs : t.stk = e0 :: e1 :: es)
    (h0 : e0.sta ≠ .STK) (h1 : o ≠ .LD) (h2 : o ≠ .CMP) (hc : alu E o y x = alu E o x y)
    (hr : Rel E F g t (.val y q :: .val x p :: its) s m)
    (hg : g' = .all → ovf E o x y = false ∧ ovf E o y x = false) (h : rcal o t = some t') :
    Goes E F g' t t' (.val (alu E o x y) 0 :: its) s m := by
  rcases rcal_form hs h with h | ⟨ha, k1, k2, h⟩
  · exact cal_rel w hs h0 h1 h2 hr (fun hgg => (hg hgg).1) h
  · have := cal_rel (w.swap hs ⟨h0, by rw [ha]; simp⟩ ⟨k1, k2⟩) (e0 := e1) (e1 := e0) (es := es)
      (by simp [setTwo, hs]) k1 h1 h2 (hr.swap hs h0 k1) (g' := g') (fun hgg => (hg hgg).2) h
    rw [hc] at this
    exact this

/-! ### Multiplication, division and remainder -/

/-- The value on top is a constant that vmMul, vmDiv and vmMod treat as a power of two. -/
def PowTop (t : T) : Prop := ∃ e es, t.stk = e :: es ∧ e.sta = .CNST ∧ isPower2 e.aux > 0

theorem vmMul_rel {E : Env} {F : Fr} {g g' : Gh} {t t' : T} {its : List It} {s : Sto} {m : M}
    {x y p q : Word} {e0 e1 : Ent} {es : List Ent} (w : W t) (hs : t.stk = e0 :: e1 :: es)
    (h0 : e0.sta ≠ .STK) (hr : Rel E F g t (.val y q :: .val x p :: its) s m)
    (hg : g' = .all → ovf E .MUL x y = false ∧ ovf E .MUL y x = false ∧
      ∀ k, E.v .SHLA x k = false ∧ E.v .SHLA y k = false) (h : vmMul t = some t') :
    Goes E F g' t t' (.val (x * y) 0 :: its) s m := by
  have cval : ∀ {e : Ent} {v r : Word}, e.sta = .CNST → Val E F t.jcc m e v r → v = BitVec.ofInt 16 e.aux := by
    intro e v r he hv
    obtain ⟨sta, c⟩ := e
    simp only at he
    subst he
    exact hv.symm
  have hr' := hr
  obtain ⟨hw, hr1⟩ := hr'
  have hrepr := hr1.repr
  rw [hs] at hrepr
  obtain ⟨hy, hrepr⟩ := val_cons hrepr h0
  rcases vmMul_form w hs h with ⟨hc, hp, h⟩ | ⟨hc, hp, hnf, h⟩ | h
  · obtain ⟨k, hk1, hk2, hk3, hk4⟩ := isPower2_pos hp
    have := cal_rel (o := .SHLA) (g' := g') (w.setCst' hs hc) (e0 := ⟨.CNST, isPower2 e0.aux⟩) (e1 := e1) (es := es)
      (by simp [setTop, hs]) (by simp) (by simp) (by simp) (hr.setCst _ hs h0)
      (fun hgg => ((hg hgg).2.2 _).1) h
    rw [hk4, C52_mul E x hk2] at this
    rw [cval hc hy, hk3]
    exact this
  · obtain ⟨k, hk1, hk2, hk3, hk4⟩ := isPower2_pos hp
    have h1 : e1.sta ≠ .STK := by rw [hc]; simp
    obtain ⟨hx, _⟩ := val_cons hrepr h1
    have hw1 := mul_left_swap (c := isPower2 e1.aux) w hs hc h0 hnf
    have he : setTop ⟨.CNST, isPower2 e1.aux⟩ (setTwo e1 e0 t) = setTwo ⟨.CNST, isPower2 e1.aux⟩ e0 t := by
      simp [setTop, setTwo]
    have hr2 := (hr.swap hs h0 h1).setCst (isPower2 e1.aux) (es := e0 :: es) (by simp [setTwo, hs]) h1
    rw [he] at hr2
    have := cal_rel (o := .SHLA) (g' := g') hw1 (e0 := ⟨.CNST, isPower2 e1.aux⟩) (e1 := e0) (es := es)
      (by simp [setTwo, hs]) (by simp) (by simp) (by simp) hr2 (fun hgg => ((hg hgg).2.2 _).2) h
    rw [hk4, C52_mul E y hk2] at this
    rw [cval hc hx, hk3, BitVec.mul_comm]
    exact this
  · exact rcal_rel (o := .MUL) w hs h0 (by simp) (by simp) (BitVec.mul_comm y x) hr (fun hgg => ⟨(hg hgg).1, (hg hgg).2.1⟩) h

theorem cnst_val {E : Env} {F : Fr} {j : Nat} {m : M} {e : Ent} {v r : Word} (he : e.sta = .CNST)
    (hv : Val E F j m e v r) : v = BitVec.ofInt 16 e.aux := by
  obtain ⟨sta, c⟩ := e
  simp only at he
  subst he
  exact hv.symm

theorem Rel.top {E : Env} {F : Fr} {g : Gh} {t : T} {its : List It} {s : Sto} {m : M} {y q : Word} {e0 : Ent}
    {es : List Ent} (hr : Rel E F g t (.val y q :: its) s m) (hs : t.stk = e0 :: es)
    (h0 : e0.sta ≠ .STK) : Val E F t.jcc m e0 y q := by
  obtain ⟨hw, hr⟩ := hr
  have := hr.repr
  rw [hs] at this
  exact (val_cons this h0).1

theorem vmDiv_rel {E : Env} {F : Fr} {g g' : Gh} {t t' : T} {its : List It} {s : Sto} {m : M}
    {x y p q : Word} {e0 e1 : Ent} {es : List Ent} (w : W t) (hs : t.stk = e0 :: e1 :: es)
    (h0 : e0.sta ≠ .STK) (hr : Rel E F g t (.val y q :: .val x p :: its) s m)
    (hp : PowTop t → 0 ≤ x.toInt ∨ y.toInt ∣ x.toInt) (hd : ¬ PowTop t → y ≠ 0 → E.div x y = x.sdiv y)
    (hg : g' = .all → E.v .DIV x y = false ∧ ∀ k, E.v .SHRA x k = false) (h : vmDiv t = some t') :
    Goes E F g' t t' (.val (if y = 0 then E.div x 0 else x.sdiv y) 0 :: its) s m := by
  have hy := hr.top hs h0
  unfold vmDiv at h
  simp only [Tac.top, hs, List.head?_cons, Option.bind_eq_bind, Option.bind_some] at h
  split at h
  · rename_i hc
    have hpt : PowTop t := ⟨e0, _, hs, hc.1, hc.2⟩
    obtain ⟨k, hk1, hk2, hk3, hk4⟩ := isPower2_pos hc.2
    have := cal_rel (o := .SHRA) (g' := g') (w.setCst' hs hc.1) (e0 := ⟨.CNST, isPower2 e0.aux⟩) (e1 := e1)
      (es := es) (by simp [setTop, hs]) (by simp) (by simp) (by simp) (hr.setCst _ hs h0)
      (fun hgg => ((hg hgg).2 _)) h
    have hyv : y = BitVec.ofInt 16 (2 ^ k) := by rw [cnst_val hc.1 hy, hk3]
    have hyi : y.toInt = 2 ^ k := by rw [hyv, toInt_pow hk2]
    have hne : y ≠ 0 := by
      intro h0
      rw [h0] at hyi
      have : (0 : Int) < 2 ^ k := Int.pow_pos (by omega)
      rw [← hyi] at this
      simp at this
    rw [hk4, (C52_div_partial E x hk1 hk2).2 (by rw [← hyi]; exact hp hpt), ← hyv] at this
    rw [if_neg hne]
    exact this
  · rename_i hc
    have hpt : ¬ PowTop t := by
      rintro ⟨e, l, he, h1, h2⟩
      rw [hs] at he
      cases he
      exact hc ⟨h1, h2⟩
    have := cal_rel (o := .DIV) (g' := g') w hs h0 (by simp) (by simp) hr (fun hgg => (hg hgg).1) h
    have he : alu E .DIV x y = if y = 0 then E.div x 0 else x.sdiv y := by
      show E.div x y = _
      split
      · rename_i hh; rw [hh]
      · rename_i hh; exact hd hpt hh
    rw [he] at this
    exact this

theorem vmMod_rel {E : Env} {F : Fr} {g g' : Gh} {t t' : T} {its : List It} {s : Sto} {m : M}
    {x y p q : Word} {e0 e1 : Ent} {es : List Ent} (w : W t) (hs : t.stk = e0 :: e1 :: es)
    (h0 : e0.sta ≠ .STK) (hr : Rel E F g t (.val y q :: .val x p :: its) s m)
    (hp : PowTop t → 0 ≤ x.toInt ∨ y.toInt ∣ x.toInt) (hd : ¬ PowTop t → y ≠ 0 → E.mod x y = x.srem y)
    (hg : g' = .all → E.v .MOD x y = false) (h : vmMod t = some t') :
    Goes E F g' t t' (.val (if y = 0 then E.mod x 0 else x.srem y) 0 :: its) s m := by
  have hy := hr.top hs h0
  unfold vmMod at h
  simp only [Tac.top, hs, List.head?_cons, Option.bind_eq_bind, Option.bind_some] at h
  split at h
  · rename_i hc
    have hpt : PowTop t := ⟨e0, _, hs, hc.1, hc.2⟩
    obtain ⟨k, hk1, hk2, hk3, hk4⟩ := isPower2_pos hc.2
    have := rcal_rel (o := .AND) (g' := g') (w.setCst' hs hc.1)
      (e0 := ⟨.CNST, 2 ^ (isPower2 e0.aux).toNat - 1⟩) (e1 := e1)
      (es := es) (by simp [setTop, hs]) (by simp) (by simp) (by simp) (BitVec.and_comm _ _) (hr.setCst _ hs h0)
      (fun hgg => ⟨rfl, rfl⟩) h
    have hyv : y = BitVec.ofInt 16 (2 ^ k) := by rw [cnst_val hc.1 hy, hk3]
    have hyi : y.toInt = 2 ^ k := by rw [hyv, toInt_pow hk2]
    have hne : y ≠ 0 := by
      intro h0
      rw [h0] at hyi
      have : (0 : Int) < 2 ^ k := Int.pow_pos (by omega)
      rw [← hyi] at this
      simp at this
    rw [hk4, Int.toNat_natCast, (C52_mod_partial E x hk2).2 (by rw [← hyi]; exact hp hpt), ← hyv] at this
    rw [if_neg hne]
    exact this
  · rename_i hc
    have hpt : ¬ PowTop t := by
      rintro ⟨e, l, he, h1, h2⟩
      rw [hs] at he
      cases he
      exact hc ⟨h1, h2⟩
    have := cal_rel (o := .MOD) (g' := g') w hs h0 (by simp) (by simp) hr (fun hgg => hg hgg) h
    have he : alu E .MOD x y = if y = 0 then E.mod x 0 else x.srem y := by
      show E.mod x y = _
      split
      · rename_i hh; rw [hh]
      · rename_i hh; exact hd hpt hh
    rw [he] at this
    exact this

/-! ### Comparisons -/

theorem Val.jcc {E : Env} {F : Fr} {j j' : Nat} {m : M} {e : Ent} {v p : Word} (h : Val E F j m e v p)
    (hf : e.sta ≠ .FLAG) : Val E F j' m e v p := by
  obtain ⟨sta, a⟩ := e
  cases sta <;> first | exact h | exact absurd rfl hf

/-- Two values on top dropped. -/
theorem Rel.drop2 {E : Env} {F : Fr} {g : Gh} {t : T} {its : List It} {s : Sto} {m : M}
    {x y p q : Word} {e0 e1 : Ent} {es : List Ent} (hs : t.stk = e0 :: e1 :: es)
    (h0 : e0.sta ≠ .STK) (h1 : e1.sta ≠ .STK)
    (hr : Rel E F g t (.val y q :: .val x p :: its) s m) :
    Rel E F .no (relDrop e1 (relDrop e0 t)) its s m := by
  obtain ⟨hw, hr⟩ := hr
  have hrepr := hr.repr
  rw [hs] at hrepr
  obtain ⟨hy, hrepr⟩ := val_cons hrepr h0
  obtain ⟨hx, hrest⟩ := val_cons hrepr h1
  refine ⟨hw, ?_, hr.hwm, hr.sp, hr.fp, ?_, hr.lim, hr.mem, hr.reg, fun hg => absurd rfl hg⟩
  · show Repr _ _ t.stk.tail.tail hw
    rw [hs]
    exact hrest
  · have := hr.room
    simp only [List.length_cons] at this
    omega

theorem cmpEnd_rel {E : Env} {F : Fr} {g : Gh} {j : Nat} {b : Bool} {t t' : T} {its : List It} {s : Sto} {m : M}
    {x y p q : Word} {e0 e1 : Ent} {es : List Ent} (w : W t) (hs : t.stk = e0 :: e1 :: es)
    (h0 : e0.sta ≠ .STK) (h1 : e1.sta ≠ .STK) (hf : ∀ e ∈ es, e.sta ≠ .FLAG)
    (hr : Rel E F g t (.val y q :: .val x p :: its) s m) (hb : holds j m.lt m.z = b)
    (h : cmpEnd j t = some t') : Goes E F .no t t' (.val (ofB b) 0 :: its) s m := by
  obtain ⟨t2, a, mi, hba, ha, hl, _, rfl⟩ := cmpEnd_form w hs h
  have hs0 : (relDrop e0 t).stk = e1 :: es := by simp [relDrop, hs]
  have w2 := ((w.relDrop hs).relDrop hs0)
  have hs2 : (relDrop e1 (relDrop e0 t)).stk = es := by simp [relDrop, hs]
  have hout : (relDrop e1 (relDrop e0 t)).out = t.out := rfl
  have main : Goes E F .no (relDrop e1 (relDrop e0 t)) (pushFlag j a t2) (.val (ofB b) 0 :: its) s m := by
    refine Goes.after mi w2 (hr.drop2 hs h0 h1) take0 fun m1 hr1 hsm => ?_
    obtain ⟨hw, hr1⟩ := hr1
    have hnf := Mics.noFlag mi (by rw [hs2]; exact hf)
    refine ⟨m1, [], by simp [pushFlag], Runs.nil E m1, hw, ?_, hr1.hwm, hr1.sp, hr1.fp, ?_, hr1.lim, hr1.mem, hr1.reg,
      fun hg => absurd rfl hg⟩
    · refine .val (by simp) ?_ (hr1.repr.mono fun e he v p hv => hv.jcc (hnf e he))
      show ofB (holds j m1.lt m1.z) = _
      rw [hsm.lt, hsm.z, hb]
    · obtain ⟨_, hr⟩ := hr
      have := hr.room
      simp only [List.length_cons] at this ⊢
      omega
  exact main

theorem holds_swap {j : Nat} (hj : j < 6) (x y : Word) :
    holds (swapJcc j) (y.slt x) (y == x) = holds j (x.slt y) (x == y) := by
  rw [Bool.eq_iff_iff, holds_cmp, holds_cmp]
  exact C53_swap j hj y x

/-- The comparison is left out. -/
def Elided (t : T) : Prop :=
  ∃ e0 e1 es, t.stk = e0 :: e1 :: es ∧
    ((isCnst0 e0 = true ∧ t.flg = some es.length) ∨ (isCnst0 e1 = true ∧ t.flg = some (es.length + 1)))

theorem slt_zero (x : Word) : x.slt 0 = x.msb := by
  rw [BitVec.slt, BitVec.msb_eq_toInt]; rfl

theorem cmp_rel {E : Env} {F : Fr} {g : Gh} {j : Nat} {t t' : T} {its : List It} {s : Sto} {m : M}
    {x y p q : Word} {e0 e1 : Ent} {es : List Ent} (w : W t) (hj : j < 6) (hs : t.stk = e0 :: e1 :: es)
    (h0 : e0.sta ≠ .STK) (hr : Rel E F g t (.val y q :: .val x p :: its) s m)
    (he : Elided t → e1.sta ≠ .STK ∧ (g = .all ∨ (g = .z ∧ (j = 2 ∨ j = 5)))) (h : cmp j t = some t') :
    Goes E F .no t t' (.val (ofB (holds j (x.slt y) (x == y))) 0 :: its) s m := by
  rw [cmp_eq j hs] at h
  have hfl : ∀ {v : Word} {n : Nat} {k : Nat}, Elided t → t.flg = some n →
      (vals (.val y q :: .val x p :: its)).reverse[n]? = some v → k < 6 → (j = 2 ∨ j = 5 → k = j) →
      holds k m.lt m.z = holds k (v.slt 0) (v == 0) := by
    intro v n k hel hn hv hk hjk
    obtain ⟨hw, hr⟩ := hr
    obtain ⟨_, hg⟩ := he hel
    have hne : g ≠ .no := by rcases hg with rfl | ⟨rfl, _⟩ <;> simp
    obtain ⟨_, hfl⟩ := hr.fl hne
    obtain ⟨hz, hlt⟩ := hfl n v hn hv
    rcases hg with hg | ⟨_, hg⟩
    · rw [hlt hg, hz, slt_zero]
    · rw [hjk hg, hz]
      rcases hg with rfl | rfl <;> rfl
  have hnof : Elided t → ∀ e ∈ es, e.sta ≠ .FLAG := by
    intro hel
    obtain ⟨hw, hr⟩ := hr
    obtain ⟨_, hg⟩ := he hel
    have hne : g ≠ .no := by rcases hg with rfl | ⟨rfl, _⟩ <;> simp
    have := (hr.fl hne).1
    rw [hs] at this
    exact fun e he => this e (by simp [he])
  have hlen : (vals its).length = es.length := by
    obtain ⟨hw, hr⟩ := hr
    have := hr.repr.vals_length
    rw [hs] at this
    simpa [vals] using this
  by_cases c1 : isCnst0 e0 = true ∧ t.flg = some es.length
  · rw [if_pos c1] at h
    have hel : Elided t := ⟨e0, e1, es, hs, .inl c1⟩
    have hc0 := c1.1
    simp only [isCnst0, Bool.and_eq_true, decide_eq_true_eq] at hc0
    have hy0 : y = 0 := by
      have := cnst_val hc0.1 (hr.top hs h0)
      rw [this, hc0.2]; rfl
    refine cmpEnd_rel w hs h0 (he hel).1 (hnof hel) hr ?_ h
    rw [hy0]
    refine hfl hel c1.2 ?_ hj fun _ => rfl
    rw [rev_low (by simp [vals, hlen])]
    exact rev_top hlen
  · rw [if_neg c1] at h
    by_cases c2 : isCnst0 e1 = true ∧ t.flg = some (es.length + 1)
    · rw [if_pos c2] at h
      have hel : Elided t := ⟨e0, e1, es, hs, .inr c2⟩
      have hc1 := c2.1
      simp only [isCnst0, Bool.and_eq_true, decide_eq_true_eq] at hc1
      have h1 : e1.sta ≠ .STK := by rw [hc1.1]; simp
      have hx0 : x = 0 := by
        obtain ⟨hw, hr'⟩ := hr
        have hrepr := hr'.repr
        rw [hs] at hrepr
        have := cnst_val hc1.1 (val_cons (val_cons hrepr h0).2 h1).1
        rw [this, hc1.2]; rfl
      refine cmpEnd_rel w hs h0 h1 (hnof hel) hr ?_ h
      rw [hx0, ← holds_swap hj]
      refine hfl hel c2.2 ?_ (swapJcc_lt hj) ?_
      · exact rev_top (by simp [vals, hlen])
      · rintro (rfl | rfl) <;> rfl
    · rw [if_neg c2] at h
      cases h1 : cmpCode j t with
      | none => rw [h1] at h; cases h
      | some xx =>
        rw [h1] at h
        simp only [Option.bind_some] at h
        obtain ⟨sw, f0, f1, t1, r, es', sr, hsw, hff, mi, hst, hl, ho, hf, rfl⟩ := cmpCode_form w hs h0 h1
        -- with the operands in the order in which they are compared
        have key : ∀ (k : Nat) (tt : T) (vy vx q p : Word) (f0 f1 : Ent), W tt → f0.sta ≠ .STK →
            Rel E F .no tt (.val vy q :: .val vx p :: its) s m → Mics 2 tt t1 →
            (f1.sta = .RVAR ∧ f1.aux = r ∧ t1.stk = unflag f0 :: f1 :: es' ∨
              t1.stk = unflag f0 :: ⟨.ACC, r⟩ :: es') → operand (unflag f0) = some sr →
            cmpEnd k { t1 with out := t1.out ++ [.op .CMP (.g r) sr] } = some t' →
            Goes E F .no tt t' (.val (ofB (holds k (vx.slt vy) (vx == vy))) 0 :: its) s m := by
          intro k tt vy vx q p f0 f1 wt hf0 hrt mi hst ho hce
          refine Goes.after mi wt hrt take2 fun m1 hr1 _ => ?_
          have w1 := mi.W wt
          obtain ⟨y1, hst1, hyr, hy1, hval⟩ : ∃ y1, t1.stk = unflag f0 :: y1 :: es' ∧ y1.aux = r ∧ y1.sta ≠ .STK ∧
              (y1.sta = .RVAR ∨ y1.sta = .ACC) := by
            rcases hst with ⟨k1, k2, k3⟩ | k3
            · exact ⟨f1, k3, k2, by rw [k1]; simp, .inl k1⟩
            · exact ⟨_, k3, rfl, by simp, .inr rfl⟩
          obtain ⟨hw, hr1⟩ := hr1
          have hrepr := hr1.repr
          have hnf := w1.noFlag hf
          rw [hst1] at hrepr hnf
          obtain ⟨vy1, hrepr1⟩ := val_cons hrepr (unflag_stk hf0)
          obtain ⟨vx1, hrest⟩ := val_cons hrepr1 hy1
          have hyv := vy1.src ho hr1.fp
          have hxv : m1.g r = vx := by
            obtain ⟨sta, a⟩ := y1
            simp only at hyr hval
            subst hyr
            rcases hval with rfl | rfl <;> exact vx1
          -- the comparison
          have hrun := runs_op (E := E) m1 .CMP (.g r) sr
          have hgg : ∀ i, (m1.doOp E .CMP (.g r) sr).g i = m1.g i := by
            intro i
            show setG m1.g r (m1.g r) i = _
            unfold setG; split
            · rename_i h; rw [h]
            · rfl
          have hr2 : Rel E F .no { t1 with out := t1.out ++ [.op .CMP (.g r) sr] }
              (.val vy q :: .val vx p :: its) s (m1.doOp E .CMP (.g r) sr) := by
            refine ⟨hw, ?_, hr1.hwm, hr1.sp, hr1.fp, hr1.room, hr1.lim, hr1.mem, fun i k1 k2 => ?_,
              fun hg => absurd rfl hg⟩
            · show Repr _ _ t1.stk hw
              rw [hst1]
              exact hrepr.keep hgg (fun _ _ => rfl) fun e he hs => absurd hs (hnf e he)
            · rw [hgg]; exact hr1.reg i k1 k2
          have hfl2 : (m1.doOp E .CMP (.g r) sr).lt = vx.slt vy ∧ (m1.doOp E .CMP (.g r) sr).z = (vx == vy) := by
            show (m1.g r).slt (srcVal E m1 sr) = _ ∧ (m1.g r == srcVal E m1 sr) = _
            rw [hyv, hxv]
            exact ⟨rfl, rfl⟩
          obtain ⟨m2, c2, o2, r2, k2⟩ := cmpEnd_rel (w1.out (t1.out ++ [.op .CMP (.g r) sr])) hst1 (unflag_stk hf0)
            hy1 (fun e he => hnf e (by simp [he])) hr2 rfl hce
          rw [hfl2.1, hfl2.2] at k2
          exact ⟨m2, [.op .CMP (.g r) sr] ++ c2, by rw [o2, List.append_assoc], hrun.append r2, k2⟩
        cases sw with
        | false =>
          simp only [Bool.false_eq_true, if_false, Prod.mk.injEq] at hff mi h
          obtain ⟨rfl, rfl⟩ := hff
          exact key j t y x q p f0 f1 w h0 hr.weaken mi hst ho h
        | true =>
          simp only [if_true, Prod.mk.injEq] at hff mi h
          obtain ⟨rfl, rfl⟩ := hff
          obtain ⟨ha, k1, k2⟩ := hsw rfl
          have hf1 : f1.sta ≠ .FLAG := by rcases ha with h | h <;> rw [h] <;> simp
          have := key (swapJcc j) (setTwo f0 f1 t) x y p q f0 f1 (w.swap hs ⟨h0, hf1⟩ ⟨k1, k2⟩) k1
            (hr.swap hs h0 k1) mi hst ho h
          rw [holds_swap hj] at this
          exact this

end Cmm.Tac
