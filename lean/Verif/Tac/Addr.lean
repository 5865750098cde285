import Verif.Lib.Mem

/- Addresses relative to a base: `ad b k` is `k` bytes above `b`, for negative `k` below. -/
namespace Cmm.Tac

def ad (b : Word) (k : Int) : Word := b + BitVec.ofInt 16 k

theorem ad_zero (b : Word) : ad b 0 = b := by simp [ad]

theorem ad_ad (b : Word) (j k : Int) : ad (ad b j) k = ad b (j + k) := by
  simp only [ad, BitVec.ofInt_add, BitVec.add_assoc]

theorem ofInt_neg16 (k : Int) : BitVec.ofInt 16 (-k) = - BitVec.ofInt 16 k := by
  have h : BitVec.ofInt 16 (-k) + BitVec.ofInt 16 k = 0 := by
    rw [← BitVec.ofInt_add, show -k + k = 0 by omega]; rfl
  rw [BitVec.eq_sub_iff_add_eq.2 h]; simp

theorem add_eq_ad (b : Word) (k : Nat) : b + BitVec.ofNat 16 k = ad b k := by
  simp [ad, BitVec.ofInt_natCast]

theorem add_one_eq_ad (b : Word) : b + 1 = ad b 1 := rfl

theorem add_two_eq_ad (b : Word) : b + 2 = ad b 2 := rfl

theorem sub_eq_ad (b : Word) (k : Nat) : b - BitVec.ofNat 16 k = ad b (-k) := by
  rw [ad, ofInt_neg16, BitVec.ofInt_natCast, BitVec.sub_eq_add_neg]

theorem sub_one_eq_ad (b : Word) : b - 1 = ad b (-1) := sub_eq_ad b 1

theorem sub_two_eq_ad (b : Word) : b - 2 = ad b (-2) := sub_eq_ad b 2

theorem ad_inj {b : Word} {j k : Int} (h : ad b j = ad b k) (h1 : j - k < 65536)
    (h2 : k - j < 65536) : j = k := by
  unfold ad at h
  have h := (BitVec.add_right_inj b).1 h
  have h := congrArg BitVec.toNat h
  simp only [BitVec.toNat_ofInt] at h
  omega

theorem ad_ne {b : Word} {j k : Int} (h : j ≠ k) (h1 : j - k < 65536) (h2 : k - j < 65536) :
    ad b j ≠ ad b k := fun e => h (ad_inj e h1 h2)

/-- Words at different places. -/
theorem ad_apart {b : Word} {j k : Int} (h : j + 1 < k ∨ k + 1 < j) (h1 : j - k < 65535)
    (h2 : k - j < 65535) : WordApart (ad b j) (ad b k) := by
  refine ⟨ad_ne (by omega) (by omega) (by omega), ?_, ?_⟩
  · rw [add_one_eq_ad, ad_ad]; exact ad_ne (by omega) (by omega) (by omega)
  · rw [add_one_eq_ad, ad_ad]; exact ad_ne (by omega) (by omega) (by omega)

theorem lw_congr {m m' : Mem} {a : Word} (h1 : m' a = m a) (h2 : m' (a + 1) = m (a + 1)) :
    m'.lw a = m.lw a := by
  unfold Mem.lw; rw [h1, h2]

end Cmm.Tac
