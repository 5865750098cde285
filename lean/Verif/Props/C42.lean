import Verif.Props.C41

/-
C42: the optimizer does not reject valid programs.

False of the code: `x/256/256` becomes `x/(256*256)`, the product is 0 modulo 65536 and the
compiler stops with "division by 0" (optree.c:261). Proved for expressions satisfying the
conditions of C41, without division chains.
-/
namespace Cmm.Opt
open Cmm.Tree

variable {σ : Type}

/-- If no divisor is constantly 0 and no shift width is constantly outside 0..15 (`Good` with
`st = True`), the optimizer does not stop. -/
theorem C42_partial (w : World σ) (e : Expr) (hg : Good (traced w) True e) :
    ∃ e', optExp e = some e' := by
  have := optExp_ok (traced_traced w) e hg
  rcases h : optExp e with _ | e'
  · rw [h] at this; exact absurd trivial this
  · exact ⟨e', rfl⟩

/-- `x / (y + 0)`, `x << y`: divisor and width are not constant. -/
example :
    let e := Expr.bin .div (.bin .shl (.leaf .loc 1) (.leaf .loc 2))
      (.bin .add (.leaf .loc 2) (.cnst 0))
    Good (traced exW) True e ∧ optExp e =
      some (.bin .div (.bin .shl (.leaf .loc 1) (.leaf .loc 2)) (.leaf .loc 2)) := by
  have sl : ∀ n, Single (eval (traced exW) (.leaf .loc n)) := fun n => single_eval _ trivial
  have sc : ∀ v, Single (eval (traced exW) (.cnst v)) := fun v => single_eval _ trivial
  refine ⟨⟨⟨trivial, trivial, ⟨fun _ => ⟨sl _, sl _⟩, by simp, by simp [zeroOf], by simp, ?_⟩,
    by simp⟩, ⟨trivial, trivial, local_addsub _ (.inl rfl) (sl _) (sc _), by simp⟩,
    ⟨fun _ => ⟨single_bin _ (by decide) _ _, single_bin _ (by decide) _ _⟩, by simp,
      by simp [zeroOf], ?_, by simp⟩, fun _ => by simp [NoDiv]⟩, by decide⟩
  · intro _ _ n hn hc
    have h0 := hc (exS 0 0, [])
    have h1 := hc (exS 0 1, [])
    have a : (0 : Word) = n := by simpa [eval, traced, exW, exS] using h0
    have b : (1 : Word) = n := by simpa [eval, traced, exW, exS] using h1
    exact absurd (a.trans b.symm) (by decide)
  · intro _ _ hc
    have h1 := hc (exS 0 1, [])
    have : ((1 : Word) + I 0) = 0 := by
      simpa [eval, binD, strictD, bind1, binVal, traced, exW, exS] using h1
    exact absurd this (by decide)

/-- The divisors of `x/256/256` are the constants 256, yet the optimizer stops. -/
theorem C42_false :
    optExp (.bin .div (.bin .div (.leaf .loc 1) (.cnst 256)) (.cnst 256)) = none := by decide

end Cmm.Opt
