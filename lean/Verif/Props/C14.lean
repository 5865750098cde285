import Verif.Lib.Crt0Lemmas

/-! C14: 32-bit addition, subtraction and multiplication. Numbers are two words in memory,
high word first. -/
namespace Cmm.Crt0

/-- Specification: the unsigned 32-bit number stored in the two words at `a`. -/
def val32 (m : Mem) (a : Word) : Nat := (m.lw a).toNat * 65536 + (m.lw (a + 2)).toNat

/-- Specification: `m'` differs from `m` only in the four bytes of the number at `a`. -/
def Same4 (m m' : Mem) (a : Word) : Prop :=
  ∀ x, x ≠ a → x ≠ a + 1 → x ≠ a + 2 → x ≠ a + 3 → m' x = m x

/-- Specification: the numbers at `a` and `b` share no word half (equal numbers allowed
separately). -/
structure Apart32 (a b : Word) : Prop where
  p00 : WordApart a b
  p02 : WordApart a (b + 2)
  p20 : WordApart (a + 2) b
  p22 : WordApart (a + 2) (b + 2)

theorem wordApart_self2 (a : Word) : WordApart a (a + 2) := by
  refine ⟨?_, ?_, ?_⟩ <;> intro h <;> have := congrArg BitVec.toNat h <;>
    have h2 : (2 : Word).toNat = 2 := rfl <;> have h1 : (1 : Word).toNat = 1 := rfl <;>
    simp only [BitVec.toNat_add, h1, h2] at this <;> omega

theorem _root_.Cmm.WordApart.symm {a b : Word} (h : WordApart a b) : WordApart b a :=
  ⟨h.1.symm, h.2.2.symm, h.2.1.symm⟩

theorem same4_sw2 (m : Mem) (a x y : Word) : Same4 m ((m.sw (a+2) x).sw a y) a := by
  intro z h0 h1 h2 h3
  rw [Mem.sw_ne _ _ h0 h1, Mem.sw_ne _ _ h2]
  rw [show a + 2 + 1 = a + 3 by rw [BitVec.add_assoc]; rfl]; exact h3

theorem same4_sw2' (m : Mem) (a x y : Word) : Same4 m ((m.sw a x).sw (a+2) y) a := by
  intro z h0 h1 h2 h3
  rw [Mem.sw_ne _ _ h2, Mem.sw_ne _ _ h0 h1]
  rw [show a + 2 + 1 = a + 3 by rw [BitVec.add_assoc]; rfl]; exact h3

/-- _add32: sum modulo 2^32, result address, source and all other memory unchanged. -/
theorem C14_add32 (m : Mem) (dst src : Word) (h : Apart32 dst src) :
    (add32 m dst src).1 = dst ∧
    val32 (add32 m dst src).2 dst = (val32 m dst + val32 m src) % 4294967296 ∧
    val32 (add32 m dst src).2 src = val32 m src ∧
    Same4 m (add32 m dst src).2 dst := by
  refine ⟨rfl, ?_, ?_, same4_sw2 _ _ _ _⟩
  · unfold val32 add32
    simp only [Mem.lw_sw_same]
    rw [Mem.lw_sw_ne _ _ (WordApart.symm (wordApart_self2 dst)), Mem.lw_sw_same,
      Mem.lw_sw_ne _ _ (wordApart_self2 dst), Mem.lw_sw_ne _ _ (WordApart.symm h.p20)]
    have := (m.lw dst).isLt
    have := (m.lw (dst+2)).isLt
    have := (m.lw src).isLt
    have := (m.lw (src+2)).isLt
    unfold carryAdd
    split <;> rename_i hc <;> simp only [decide_eq_true_eq] at hc <;>
      simp only [BitVec.toNat_add, one_toNat] <;> omega
  · unfold val32 add32
    simp only []
    rw [Mem.lw_sw_ne _ _ (WordApart.symm h.p00), Mem.lw_sw_ne _ _ (WordApart.symm h.p20),
      Mem.lw_sw_ne _ _ (WordApart.symm h.p02), Mem.lw_sw_ne _ _ (WordApart.symm h.p22)]

/-- _add32 with both arguments the same number doubles it. -/
theorem C14_add32_self (m : Mem) (dst : Word) :
    (add32 m dst dst).1 = dst ∧
    val32 (add32 m dst dst).2 dst = (2 * val32 m dst) % 4294967296 ∧
    Same4 m (add32 m dst dst).2 dst := by
  refine ⟨rfl, ?_, same4_sw2 _ _ _ _⟩
  unfold val32 add32
  simp only [Mem.lw_sw_same]
  rw [Mem.lw_sw_ne _ _ (WordApart.symm (wordApart_self2 dst)), Mem.lw_sw_same,
    Mem.lw_sw_ne _ _ (wordApart_self2 dst)]
  have := (m.lw dst).isLt
  have := (m.lw (dst+2)).isLt
  unfold carryAdd
  split <;> rename_i hc <;> simp only [decide_eq_true_eq] at hc <;>
    simp only [BitVec.toNat_add, one_toNat] <;> omega

/-- _sub32: difference modulo 2^32. -/
theorem C14_sub32 (m : Mem) (dst src : Word) (h : Apart32 dst src) :
    (sub32 m dst src).1 = dst ∧
    val32 (sub32 m dst src).2 dst = (val32 m dst + (4294967296 - val32 m src)) % 4294967296 ∧
    val32 (sub32 m dst src).2 src = val32 m src ∧
    Same4 m (sub32 m dst src).2 dst := by
  refine ⟨rfl, ?_, ?_, same4_sw2 _ _ _ _⟩
  · unfold val32 sub32
    simp only [Mem.lw_sw_same]
    rw [Mem.lw_sw_ne _ _ (WordApart.symm (wordApart_self2 dst)), Mem.lw_sw_same,
      Mem.lw_sw_ne _ _ (wordApart_self2 dst), Mem.lw_sw_ne _ _ (WordApart.symm h.p20)]
    have := (m.lw dst).isLt
    have := (m.lw (dst+2)).isLt
    have := (m.lw src).isLt
    have := (m.lw (src+2)).isLt
    unfold carrySub
    split <;> rename_i hc <;> simp only [decide_eq_true_eq] at hc <;>
      simp only [BitVec.toNat_sub, one_toNat] <;> omega
  · unfold val32 sub32
    simp only []
    rw [Mem.lw_sw_ne _ _ (WordApart.symm h.p00), Mem.lw_sw_ne _ _ (WordApart.symm h.p20),
      Mem.lw_sw_ne _ _ (WordApart.symm h.p02), Mem.lw_sw_ne _ _ (WordApart.symm h.p22)]

/-- _add32 and _sub32 undo each other. -/
theorem C14_add_sub (m : Mem) (dst src : Word) (h : Apart32 dst src) :
    val32 (sub32 (add32 m dst src).2 dst src).2 dst = val32 m dst := by
  have h1 := C14_add32 m dst src h
  have h2 := C14_sub32 (add32 m dst src).2 dst src h
  rw [h2.2.1, h1.2.1, h1.2.2.1]
  have : val32 m dst < 4294967296 := by
    have := (m.lw dst).isLt; have := (m.lw (dst+2)).isLt; unfold val32; omega
  have : val32 m src < 4294967296 := by
    have := (m.lw src).isLt; have := (m.lw (src+2)).isLt; unfold val32; omega
  omega

/-- _mul32: the exact 32-bit product of the low word of dst and src. -/
theorem C14_mul32 (m : Mem) (dst src : Word) :
    (mul32 m dst src).1 = dst ∧
    val32 (mul32 m dst src).2 dst = (m.lw (dst + 2)).toNat * src.toNat ∧
    Same4 m (mul32 m dst src).2 dst := by
  refine ⟨rfl, ?_, same4_sw2' _ _ _ _⟩
  have := mul_rounds src 16 (m.lw (dst+2)).toNat 0 (m.lw (dst+2)) 0#16 (by omega)
    (by have := (m.lw (dst+2)).isLt; omega) (by have := src.isLt; omega) (by simp [pair])
  unfold val32 mul32
  simp only []
  rw [Mem.lw_sw_same, Mem.lw_sw_ne _ _ (wordApart_self2 dst), Mem.lw_sw_same]
  simpa [pair] using this

-- two numbers at 1000 and 2000 satisfy the hypothesis
example : Apart32 1000#16 2000#16 := by
  constructor <;> (refine ⟨?_, ?_, ?_⟩ <;> decide)

end Cmm.Crt0
