import Verif.Props.C40

/-
C41: optimising an expression does not lose or reorder side effects.

False of the code: an annihilating constant removes the other operand even if it calls a
function or assigns (optree.c:208, 220, 246, 274, 328, 338). Proved for expressions in which a
product, bitwise and/or, remainder, conjunction or disjunction that constantly has the
annihilator as value has no effect (`Good`), again without division chains.
-/
namespace Cmm.Opt
open Cmm.Tree

variable {σ : Type}

/-- The optimized expression gives the same values, ends in the same state and performs the same
calls (with the same arguments) and assignments in the same order. -/
theorem C41_partial (w : World σ) (st : Prop) (e e' : Expr) (hg : Good (traced w) st e)
    (h : optExp e = some e') (s : σ) (t : List Event) :
    eval (traced w) e' (s, t) = eval (traced w) e (s, t) := by
  have := optExp_ok (traced_traced w) e hg
  rw [h] at this
  rw [this.1.eq]

/-- The log is only an observation: without it the meaning is the plain one. -/
theorem C41_log (w : World σ) (e : Expr) (s : σ) (t : List Event) :
    (eval (traced w) e (s, t)).map (fun r => (r.1, r.2.1)) = eval w e s := proj_eval w e s t

/-- `(f() + 3) + ((y = 2) - 5)`: two effects, reassociated and folded. -/
example :
    let e := Expr.bin .add (.bin .add (.func0 1) (.cnst 3))
      (.bin .sub (.assV .loc 2 (.cnst 2)) (.cnst 5))
    let e' := Expr.bin .add (.bin .add (.func0 1) (.cnst 65534)) (.assV .loc 2 (.cnst 2))
    Good (traced exW) True e ∧ optExp e = some e' ∧
      (eval (traced exW) e' (exS 0 0, [])).map (fun r => r.2.2) =
        some [.call 1 [], .write .loc 2 2] := by
  refine ⟨?_, by decide, ?_⟩
  · have s1 : Single (eval (traced exW) (.func0 1)) := single_eval _ trivial
    have s2 : Single (eval (traced exW) (.assV .loc 2 (.cnst 2))) := single_eval _ trivial
    have sc : ∀ v, Single (eval (traced exW) (.cnst v)) := fun v => single_eval _ trivial
    refine ⟨⟨trivial, trivial, local_addsub _ (.inl rfl) s1 (sc _), by simp⟩,
      ⟨trivial, trivial, local_addsub _ (.inr rfl) s2 (sc _), by simp⟩,
      local_addsub _ (.inl rfl) (single_bin _ (by decide) _ _) (single_bin _ (by decide) _ _),
      by simp⟩
  · rfl

/-- `f() * 0`, `f() & 0`, `f() | 0xffff`, `f() % 1`, `f() && false` and `f() || true` lose the
call of `f`. -/
theorem C41_false (op : Bin) (v : Int)
    (h : (op, v) ∈ [(Bin.mul, (0 : Int)), (.band, 0), (.bor, 65535), (.mod, 1), (.and, 0), (.or, 1)])
    : ∃ e', optExp (.bin op (.func0 1) (.cnst v)) = some e' ∧
      (eval (traced exW) (.bin op (.func0 1) (.cnst v)) (exS 0 0, [])).map (fun r => r.2.2) =
        some [.call 1 []] ∧
      (eval (traced exW) e' (exS 0 0, [])).map (fun r => r.2.2) = some [] := by
  simp only [List.mem_cons, Prod.mk.injEq, List.not_mem_nil, or_false] at h
  rcases h with ⟨rfl, rfl⟩ | ⟨rfl, rfl⟩ | ⟨rfl, rfl⟩ | ⟨rfl, rfl⟩ | ⟨rfl, rfl⟩ | ⟨rfl, rfl⟩
  · exact ⟨.cnst 0, by decide, rfl, rfl⟩
  · exact ⟨.cnst 0, by decide, rfl, rfl⟩
  · exact ⟨.cnst 65535, by decide, rfl, rfl⟩
  · exact ⟨.cnst 0, by decide, rfl, rfl⟩
  · exact ⟨.cnst 0, by decide, rfl, rfl⟩
  · exact ⟨.cnst 1, by decide, rfl, rfl⟩

end Cmm.Opt
