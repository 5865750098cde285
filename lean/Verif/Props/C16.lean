import Verif.Lib.Crt0Lemmas

/-! C16: _uCmp and _aCmp compare unsigned. -/
namespace Cmm.Crt0

theorem C16_uCmp (a b : Word) : (uCmp a b).toInt =
    if a.toNat > b.toNat then 1 else if a.toNat = b.toNat then 0 else -1 := by
  have hz : a - b = 0 ↔ a.toNat = b.toNat := by
    have := a.isLt; have := b.isLt
    constructor
    · intro h
      have := congrArg BitVec.toNat h
      have z : (0 : Word).toNat = 0 := rfl
      rw [BitVec.toNat_sub, z] at this
      omega
    · intro h; rw [BitVec.eq_of_toNat_eq h]; simp
  unfold uCmp carrySub
  simp only [hz, ne_eq, decide_eq_true_eq]
  rcases Nat.lt_trichotomy a.toNat b.toNat with h | h | h
  · rw [if_neg (by omega), if_neg (by omega), if_neg (by omega), if_neg (by omega)]; decide
  · rw [if_neg (by omega), if_pos h, if_neg (by omega), if_pos h]; decide
  · rw [if_pos (by omega), if_pos (by omega)]; decide

/-- Consequences used by the allocator. -/
theorem C16_uCmp_lt (a b : Word) : (uCmp a b).toInt < 0 ↔ a.toNat < b.toNat := by
  rw [C16_uCmp]; split <;> (try split) <;> omega
theorem C16_uCmp_le (a b : Word) : (uCmp a b).toInt ≤ 0 ↔ a.toNat ≤ b.toNat := by
  rw [C16_uCmp]; split <;> (try split) <;> omega

-- a case where signed and unsigned comparison differ
example : (uCmp 0x8000#16 1#16).toInt = 1 := by decide

end Cmm.Crt0
