import Verif.Opt.Sound

/- C56: every constant left by the optimizer is a 16-bit number. -/
namespace Cmm.Opt
open Cmm.Tree

/-- The constants of an expression. -/
def consts : Expr → List Int
  | .cnst v => [v]
  | .leaf _ _ | .func0 _ => []
  | .func _ a => consts a
  | .un _ e => consts e
  | .bin _ l r => consts l ++ consts r
  | .assV _ _ r => consts r
  | .assM _ a i r => consts a ++ consts i ++ consts r

theorem rng_iff (e : Expr) : Rng e ↔ ∀ v ∈ consts e, 0 ≤ v ∧ v < 65536 := by
  induction e with
  | cnst v => simp [Rng, consts]
  | leaf k n => simp [Rng, consts]
  | func0 f => simp [Rng, consts]
  | func f a ih => simpa [Rng, consts] using ih
  | un op e ih => simpa [Rng, consts] using ih
  | bin op l r ihl ihr =>
    simp only [Rng, consts, List.mem_append, ihl, ihr]
    constructor
    · rintro ⟨a, b⟩ v (h | h)
      · exact a v h
      · exact b v h
    · intro h; exact ⟨fun v hv => h v (.inl hv), fun v hv => h v (.inr hv)⟩
  | assV k n r ih => simpa [Rng, consts] using ih
  | assM op a i r iha ihi ihr =>
    simp only [Rng, consts, List.mem_append, iha, ihi, ihr]
    constructor
    · rintro ⟨a, b, c⟩ v ((h | h) | h)
      · exact a v h
      · exact b v h
      · exact c v h
    · intro h
      exact ⟨fun v hv => h v (.inl (.inl hv)), fun v hv => h v (.inl (.inr hv)),
        fun v hv => h v (.inr hv)⟩

theorem fix_rng' {e : Expr} (h : isCnst e = true ∨ Rng e) : Rng (fix e) := by
  rcases h with h | h
  · obtain ⟨v, rfl⟩ := isCnst_iff.1 h; exact rng_fix_cnst v
  · rw [fix_rng h]; exact h

theorem optUn_rng {op : Un} {e : Expr} (h : Rng e) : Rng (fix (optUn op e)) := by
  apply fix_rng'
  unfold optUn
  split
  · left; cases op <;> simp [isCnst, cB]
  · right; exact h

theorem optBin_rng {op : Bin} {l r e : Expr} (hl : Rng l) (hr : Rng r)
    (h : optBin op l r = some e) : Rng (fix e) := by
  apply fix_rng'
  cases op <;> simp only [optBin, Option.some.injEq] at h
  case shl =>
    unfold optShl at h
    split at h
    · split at h
      · simp at h
      · split at h
        · simp only [Option.some.injEq] at h; subst h; exact .inr hl
        · split at h <;> simp only [Option.some.injEq] at h <;> subst h
          · exact .inl rfl
          · exact .inr ⟨hl, hr⟩
    · simp only [Option.some.injEq] at h; subst h; exact .inr ⟨hl, hr⟩
  case shr =>
    unfold optShr at h
    split at h
    · split at h
      · simp at h
      · split at h
        · simp only [Option.some.injEq] at h; subst h; exact .inr hl
        · split at h <;> simp only [Option.some.injEq] at h <;> subst h
          · exact .inl rfl
          · exact .inr ⟨hl, hr⟩
    · simp only [Option.some.injEq] at h; subst h; exact .inr ⟨hl, hr⟩
  case div =>
    unfold optDiv at h
    split at h
    · simp at h
    · split at h
      · simp only [Option.some.injEq] at h; subst h; exact .inl rfl
      · split at h <;> simp only [Option.some.injEq] at h <;> subst h
        · exact .inr hl
        · exact .inr ⟨hl, hr⟩
  case mod =>
    unfold optMod at h
    split at h
    · simp at h
    · split at h
      · simp only [Option.some.injEq] at h; subst h; exact .inl rfl
      · split at h <;> simp only [Option.some.injEq] at h <;> subst h
        · exact .inl rfl
        · exact .inr ⟨hl, hr⟩
  all_goals subst h
  all_goals first
    | exact .inr ⟨hl, hr⟩
    | (first
        | unfold optAdd
        | unfold optSub
        | unfold optBAnd
        | unfold optBOr
        | unfold optBXor
        | unfold optMul
        | unfold optOr
        | unfold optAnd
        | unfold optCmp
       repeat' split
       all_goals first
        | exact .inl rfl
        | exact .inr ⟨hl, hr⟩
        | exact .inr hl
        | exact .inr hr)

theorem calExp_rng {e e' : Expr} (h : calExp e = some e') : Rng e' := by
  induction e generalizing e' with
  | cnst v => simp only [calExp, Option.some.injEq] at h; subst h; exact rng_fix_cnst v
  | leaf k n => simp only [calExp, Option.some.injEq] at h; subst h; trivial
  | func0 f => simp only [calExp, Option.some.injEq] at h; subst h; trivial
  | func f a ih =>
    simp only [calExp, Option.map_eq_some_iff] at h
    obtain ⟨a', h1, rfl⟩ := h
    have := ih h1
    exact this
  | un op e ih =>
    simp only [calExp, Option.map_eq_some_iff] at h
    obtain ⟨a', h1, rfl⟩ := h
    exact optUn_rng (ih h1)
  | bin op l r ihl ihr =>
    simp only [calExp, Option.bind_eq_bind, Option.bind_eq_some_iff, Option.map_eq_some_iff] at h
    obtain ⟨l', hl, r', hr, b, hb, rfl⟩ := h
    exact optBin_rng (ihl hl) (ihr hr) hb
  | assV k n r ih =>
    simp only [calExp, Option.map_eq_some_iff] at h
    obtain ⟨a', h1, rfl⟩ := h
    have := ih h1
    exact this
  | assM op a i r iha ihi ihr =>
    simp only [calExp, Option.bind_eq_bind, Option.bind_eq_some_iff, Option.some.injEq] at h
    obtain ⟨a', ha, i', hi, r', hr, rfl⟩ := h
    exact ⟨iha ha, ihi hi, ihr hr⟩

theorem arrExp_rng {e e' : Expr} (h : arrExp e = some e') : Rng e' := by
  cases e with
  | cnst v => exact calExp_rng h
  | leaf k n => exact calExp_rng h
  | func0 f => exact calExp_rng h
  | func f a =>
    simp only [arrExp, Option.bind_eq_bind, Option.bind_eq_some_iff] at h
    obtain ⟨_, _, h⟩ := h; exact calExp_rng h
  | un op e =>
    simp only [arrExp, Option.bind_eq_bind, Option.bind_eq_some_iff] at h
    obtain ⟨_, _, h⟩ := h; exact calExp_rng h
  | bin op l r =>
    simp only [arrExp, Option.bind_eq_bind, Option.bind_eq_some_iff] at h
    obtain ⟨_, _, _, _, h⟩ := h; exact calExp_rng h
  | assV k n r =>
    simp only [arrExp, Option.bind_eq_bind, Option.bind_eq_some_iff] at h
    obtain ⟨_, _, h⟩ := h; exact calExp_rng h
  | assM op a i r =>
    simp only [arrExp, Option.bind_eq_bind, Option.bind_eq_some_iff] at h
    obtain ⟨_, _, _, _, _, _, h⟩ := h; exact calExp_rng h

/-- For every expression, with no side condition. -/
theorem C56_range (e e' : Expr) (h : optExp e = some e') :
    ∀ v ∈ consts e', 0 ≤ v ∧ v < 65536 := (rng_iff e').1 (arrExp_rng h)

/-- `x - 70000 + -3`: constants outside the range, one negative intermediate result. -/
example :
    let e := Expr.bin .add (.bin .sub (.leaf .loc 1) (.cnst 70000)) (.un .neg (.cnst 3))
    optExp e = some (.bin .add (.leaf .loc 1) (.cnst 61069)) ∧ (70000 : Int) ∈ consts e := by
  refine ⟨by decide, by simp [consts]⟩

end Cmm.Opt
