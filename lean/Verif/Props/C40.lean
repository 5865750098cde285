import Verif.Opt.Trace

/-
C40: optimising a side-effect free expression does not change its value.

The full statement is false of the code: `moveCnst` turns `x/c1/c2` into `x/(c1*c2)` with the
product taken modulo 65536 (optree.c:490) and `(x/y)/c` into `(x/c)/y` (optree.c:474-482).
Proved for all expressions in which no dividend contains a division (`ChainFree`).
-/
namespace Cmm.Opt
open Cmm.Tree

variable {σ : Type}

/-- No argument list occurs (argument lists belong to calls). -/
def NoSemi : Expr → Prop
  | .cnst _ | .leaf _ _ | .func0 _ => True
  | .func _ a => NoSemi a
  | .un _ e => NoSemi e
  | .bin op l r => op ≠ .semi ∧ NoSemi l ∧ NoSemi r
  | .assV _ _ r => NoSemi r
  | .assM _ a i r => NoSemi a ∧ NoSemi i ∧ NoSemi r

/-- Operands of `&&`, `||` and `!` are truth values. -/
def BoolOk (w : World σ) : Expr → Prop
  | .cnst _ | .leaf _ _ | .func0 _ => True
  | .func _ a => BoolOk w a
  | .un op e => BoolOk w e ∧ (op = .not → IsB (eval w e))
  | .bin op l r => BoolOk w l ∧ BoolOk w r ∧
      (op = .and ∨ op = .or → IsB (eval w l) ∧ IsB (eval w r))
  | .assV _ _ r => BoolOk w r
  | .assM _ a i r => BoolOk w a ∧ BoolOk w i ∧ BoolOk w r

/-- No dividend contains a division. -/
def ChainFree : Expr → Prop
  | .cnst _ | .leaf _ _ | .func0 _ => True
  | .func _ a => ChainFree a
  | .un _ e => ChainFree e
  | .bin op l r => ChainFree l ∧ ChainFree r ∧ (op = .div → NoDiv l)
  | .assV _ _ r => ChainFree r
  | .assM _ a i r => ChainFree a ∧ ChainFree i ∧ ChainFree r

theorem single_eval (w : World σ) {e : Expr} (h : NoSemi e) : Single (eval w e) := by
  cases e with
  | cnst v => exact single_const (const_cnst w v)
  | leaf k n => intro s vs s' h; simp [eval] at h; exact ⟨_, h.1.symm⟩
  | func0 f =>
    intro s vs s' h
    simp only [eval, callD] at h
    split at h
    · simp at h
    · simp at h; exact ⟨_, h.1.symm⟩
  | func f a =>
    intro s vs s' h
    simp only [eval, callD] at h
    split at h
    · simp at h
    · split at h
      · simp at h
      · simp at h; exact ⟨_, h.1.symm⟩
  | un op e => exact single_un _ _
  | bin op l r => exact single_bin w h.1 _ _
  | assV k n r =>
    intro s vs s' h
    simp only [eval, assVD] at h
    obtain ⟨us, s1, h1, h2⟩ := bind1_eq_some h
    simp at h2
    exact ⟨_, h2.1.symm⟩
  | assM op a i r =>
    intro s vs s' h
    simp only [eval, assMD] at h
    obtain ⟨us, s1, h1, h2⟩ := bind1_eq_some h
    obtain ⟨us, s1, h1, h2⟩ := bind1_eq_some h2
    obtain ⟨us, s1, h1, h2⟩ := bind1_eq_some h2
    simp at h2
    exact ⟨_, h2.1.symm⟩

theorem isB_traced {w : World σ} {e : Expr} (h : IsB (eval w e)) : IsB (eval (traced w) e) := by
  rintro ⟨s, t⟩ vs ⟨s', t'⟩ he
  have := proj_eval w e s t
  rw [he] at this
  exact h _ _ _ this.symm

theorem good_of_pure (w : World σ) {e : Expr} (hp : Pure e) (hs : NoSemi e) (hb : BoolOk w e)
    (hc : ChainFree e) : Good (traced w) False e := by
  induction e with
  | cnst v => trivial
  | leaf k n => trivial
  | func0 f => trivial
  | func f a ih => exact hp.elim
  | un op e ih => exact ⟨ih hp hs hb.1 hc, fun h => isB_traced (hb.2 h)⟩
  | bin op l r ihl ihr =>
    refine ⟨ihl hp.1 hs.2.1 hb.1 hc.1, ihr hp.2 hs.2.2 hb.2.1 hc.2.1, ?_, hc.2.2⟩
    refine ⟨fun _ => ⟨single_eval _ hs.2.1, single_eval _ hs.2.2⟩,
      fun h => ⟨isB_traced (hb.2.2 h).1, isB_traced (hb.2.2 h).2⟩, ?_, fun h => h.elim,
      fun h => h.elim⟩
    intro z _ hA
    exact const_of_always hA (still_of_pure (traced w) (e := .bin op l r) hp)
  | assV k n r ih => exact hp.elim
  | assM op a i r iha ihi ihr => exact hp.elim

/-- Every side-effect free expression without division chains keeps its value in every state,
whatever memory, the variables and a division by zero mean. -/
theorem C40_partial (w : World σ) (e e' : Expr) (hp : Pure e) (hs : NoSemi e) (hb : BoolOk w e)
    (hc : ChainFree e) (h : optExp e = some e') (s : σ) : eval w e' s = eval w e s := by
  have := optExp_ok (traced_traced w) e (good_of_pure w hp hs hb hc)
  rw [h] at this
  rw [eval_of_traced this.1.eq]

/-- A world for examples: three variables, flat memory, functions that add one to variable 0. -/
def exW : World (Int → Word) where
  read _ n s := s n
  write _ n v s := fun m => if m = n then v else s m
  load _ x y s := s (x.toNat + y.toNat)
  store _ x y v s := fun m => if m = x.toNat + y.toNat then v else s m
  call _ _ s := some (7, fun m => if m = 0 then s 0 + 1 else s m)
  div0 _ := 0
  mod0 _ := 0

/-- `(x + 3) - (y - 5) / 2 && z == 0 * x`-like case. -/
example :
    let x := Expr.leaf .loc 1
    let y := Expr.leaf .loc 2
    let e := Expr.bin .and
      (.bin .lt (.bin .add (.bin .add x (.cnst 3)) (.bin .sub y (.cnst 5))) (.cnst 10))
      (.bin .equ (.bin .mul y (.cnst 0)) (.bin .div (.bin .mul (.cnst 4) x) (.cnst 2)))
    (Pure e ∧ NoSemi e ∧ BoolOk exW e ∧ ChainFree e) ∧
    optExp e = some (.bin .and
      (.bin .lt (.bin .add (.bin .add x (.cnst 65534)) y) (.cnst 10))
      (.bin .equ (.cnst 0) (.bin .div (.bin .mul (.cnst 4) x) (.cnst 2)))) := by
  have hb : ∀ (op : Bin) (l r : Expr), op = .lt ∨ op = .equ → IsB (eval exW (.bin op l r)) := by
    intro op l r h s vs s' e
    rcases h with rfl | rfl
    all_goals
      simp only [eval, binD, strictD] at e
      obtain ⟨us, s1, h1, h2⟩ := bind1_eq_some e
      obtain ⟨us2, s2, h3, h4⟩ := bind1_eq_some h2
      simp only [binVal, Option.some.injEq, Prod.mk.injEq] at h4
      rw [← h4.1]
      rcases ofB_cases _ with h | h <;> rw [h] <;> simp
  refine ⟨⟨?_, ?_, ?_, ?_⟩, by decide⟩
  · simp [Pure]
  · simp [NoSemi]
  · simp only [BoolOk, and_true, reduceCtorEq, or_self, false_imp_iff, true_or, true_imp_iff,
      true_and]
    exact ⟨hb _ _ _ (.inl rfl), hb _ _ _ (.inr rfl)⟩
  · simp [ChainFree, NoDiv]

def exS (x y : Word) : Int → Word := fun n => if n = 1 then x else if n = 2 then y else 0

/-- `x/300/300` becomes `x/24464`; for `x = 30000` the value changes from 0 to 1. -/
theorem C40_false :
    ∃ e e' : Expr, Pure e ∧ NoSemi e ∧ BoolOk exW e ∧ optExp e = some e' ∧
      ∃ s, eval exW e s = some ([0], s) ∧ eval exW e' s = some ([1], s) := by
  refine ⟨.bin .div (.bin .div (.leaf .loc 1) (.cnst 300)) (.cnst 300),
    .bin .div (.leaf .loc 1) (.cnst 24464), by simp [Pure], by simp [NoSemi], by simp [BoolOk],
    by decide, exS 30000 0, ?_, ?_⟩
  · simp only [eval, binD, strictD, bind1, binVal, exW, exS]; congr 2
  · simp only [eval, binD, strictD, bind1, binVal, exW, exS]; congr 2

/-- `(x/y)/2` becomes `(x/2)/y`; for `x = -32768`, `y = -1` the value changes. -/
theorem C40_swap_false :
    ∃ e e' : Expr, Pure e ∧ NoSemi e ∧ BoolOk exW e ∧ optExp e = some e' ∧
      ∃ s v v', eval exW e s = some ([v], s) ∧ eval exW e' s = some ([v'], s) ∧ v ≠ v' := by
  refine ⟨.bin .div (.bin .div (.leaf .loc 1) (.leaf .loc 2)) (.cnst 2),
    .bin .div (.bin .div (.leaf .loc 1) (.cnst 2)) (.leaf .loc 2), by simp [Pure], by simp [NoSemi],
    by simp [BoolOk], by decide, exS 32768 65535, 49152, 16384, ?_, ?_, by decide⟩
  · simp only [eval, binD, strictD, bind1, binVal, exW, exS]; congr 2
  · simp only [eval, binD, strictD, bind1, binVal, exW, exS]; congr 2

end Cmm.Opt
