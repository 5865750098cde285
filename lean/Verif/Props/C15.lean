import Verif.Props.C14

/-! C15: _div32 and _mod32. False in general; correct when the divisor is at most 32768 and
the high word is small enough. -/
namespace Cmm.Crt0

theorem divLoop_spec (src hi lo : Word) (hs : src.toNat ≤ 32768) (hh : hi.toNat < 2 * src.toNat) :
    (divLoop src (hi, lo, 0#16)).1.toNat = (hi.toNat * 65536 + lo.toNat) % src.toNat ∧
    (divLoop src (hi, lo, 0#16)).2.2.toNat =
      ((hi.toNat * 65536 + lo.toNat) / src.toNat) % 65536 := by
  have hl := lo.isLt
  have hpos : 0 < src.toNat := by omega
  unfold divLoop divSub carrySub
  by_cases c : hi.toNat < src.toNat
  · simp only [c, decide_true, if_true]
    have := div_rounds src hs 16 lo.toNat hi lo 0#16 (by omega) (by omega) c (by simp)
    simpa [divSub, carrySub] using this
  · simp only [c, decide_false, if_false, Bool.false_eq_true]
    have hsub : (hi - src).toNat = hi.toNat - src.toNat := sub_toNat' _ _ (by omega)
    have := div_rounds src hs 16 lo.toNat (hi - src) lo (0#16 + 1) (by omega) (by omega)
      (by rw [hsub]; omega) (by simp)
    rw [hsub] at this
    have e : hi.toNat * 65536 + lo.toNat =
        src.toNat * 65536 + ((hi.toNat - src.toNat) * 65536 + lo.toNat) := by omega
    constructor
    · rw [e, Nat.mul_add_mod]; simpa [divSub, carrySub] using this.1
    · rw [e, Nat.mul_add_div hpos, Nat.add_mod_left]
      have h2 := this.2
      have o1 : (0#16 + 1 : Word).toNat = 1 := rfl
      rw [o1] at h2
      simp only [Nat.one_mul] at h2
      rw [show (2:Nat)^16 = 65536 from rfl, Nat.add_mod_left] at h2
      simpa [divSub, carrySub] using h2

/-- _mod32 returns the remainder when `src ≤ 32768` and the high word is below `2*src`.
Missing for the full claim: larger divisors and dividends, where it is false (below). -/
theorem C15_mod32_partial (m : Mem) (dst src : Word) (hs : src.toNat ≤ 32768)
    (hh : (m.lw dst).toNat < 2 * src.toNat) :
    (mod32 m dst src).toNat = val32 m dst % src.toNat :=
  (divLoop_spec src _ _ hs hh).1

/-- _div32 leaves the remainder in the high word and the low 16 bits of the quotient in the
low word when `src ≤ 32768` and the high word is below `2*src`. -/
theorem C15_div32_partial (m : Mem) (dst src : Word) (hs : src.toNat ≤ 32768)
    (hh : (m.lw dst).toNat < 2 * src.toNat) :
    (div32 m dst src).1 = dst ∧
    ((div32 m dst src).2.lw (dst + 2)).toNat = val32 m dst / src.toNat % 65536 ∧
    ((div32 m dst src).2.lw dst).toNat = val32 m dst % src.toNat ∧
    Same4 m (div32 m dst src).2 dst := by
  have h := divLoop_spec src (m.lw dst) (m.lw (dst+2)) hs hh
  refine ⟨rfl, ?_, ?_, same4_sw2' _ _ _ _⟩
  · unfold div32; simp only []; rw [Mem.lw_sw_same]; exact h.2
  · unfold div32; simp only []
    rw [Mem.lw_sw_ne _ _ (wordApart_self2 dst), Mem.lw_sw_same]; exact h.1

/-- Consequence: _div32 is the 32-bit division exactly when the remainder is 0 (and the
quotient fits a word). -/
theorem C15_div32_exact_iff (m : Mem) (dst src : Word) (hs : src.toNat ≤ 32768)
    (hh : (m.lw dst).toNat < src.toNat) :
    val32 (div32 m dst src).2 dst = val32 m dst / src.toNat ↔ val32 m dst % src.toNat = 0 := by
  have h := C15_div32_partial m dst src hs (by omega)
  have hq : val32 m dst / src.toNat < 65536 := by
    have := (m.lw (dst+2)).isLt
    apply Nat.div_lt_of_lt_mul
    have : ((m.lw dst).toNat + 1) * 65536 ≤ src.toNat * 65536 := Nat.mul_le_mul_right _ hh
    unfold val32; omega
  have : val32 (div32 m dst src).2 dst =
      (val32 m dst % src.toNat) * 65536 + val32 m dst / src.toNat % 65536 := by
    rw [← h.2.2.1, ← h.2.1]; rfl
  rw [this, Nat.mod_eq_of_lt hq]
  omega

/-- A memory holding the 32-bit number (hi,lo) at address 0. -/
def mem32 (hi lo : Word) : Mem := Mem.sw (Mem.sw (fun _ => 0#8) 0 hi) 2 lo

/-- "dst = dst / src" fails: 7 / 2 leaves 65539, not 3. -/
theorem C15_div32_false : ∃ m dst src, (src : Word) ≠ 0 ∧
    val32 (div32 m dst src).2 dst ≠ val32 m dst / src.toNat :=
  ⟨mem32 0#16 7#16, 0#16, 2#16, by decide, by decide +kernel⟩

/-- The quotient also loses its high bits: 0x20000 / 1 gives low word 0 and high word 1
instead of the quotient 0x20000. -/
theorem C15_div32_false_large : ∃ m dst, val32 m dst = 131072 ∧
    val32 (div32 m dst 1#16).2 dst ≠ 131072 :=
  ⟨mem32 2#16 0#16, 0#16, by decide, by decide +kernel⟩

/-- _mod32 fails for divisors above 32768: 0x80000000 mod 32769. -/
theorem C15_mod32_false : ∃ m dst src, (src : Word) ≠ 0 ∧
    (mod32 m dst src).toNat ≠ val32 m dst % src.toNat :=
  ⟨mem32 0x8000#16 0#16, 0#16, 32769#16, by decide, by decide +kernel⟩

/-- _mod32 fails for large dividends even with small divisors: 0x30000 mod 1 ≠ 0. -/
theorem C15_mod32_false_large : ∃ m dst, (mod32 m dst 1#16).toNat ≠ val32 m dst % 1 :=
  ⟨mem32 3#16 0#16, 0#16, by decide +kernel⟩

-- hypotheses met: 1000000 / 100
example : (100#16 : Word).toNat ≤ 32768 ∧ ((mem32 15#16 16960#16).lw 0).toNat < 2 * (100#16 : Word).toNat ∧
    val32 (mem32 15#16 16960#16) 0 = 1000000 := by decide

end Cmm.Crt0
