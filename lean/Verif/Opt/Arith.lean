import Verif.Opt.Optree
import Mathlib.Tactic.NormNum
import Mathlib.Logic.Basic

/- Constant arithmetic of optree.c agrees with 16-bit arithmetic. -/
namespace Cmm.Opt
open Cmm.Tree

abbrev I (v : Int) : Word := BitVec.ofInt 16 v

theorem ofInt_congr {a b : Int} (h : a % 65536 = b % 65536) : I a = I b := by
  apply BitVec.eq_of_toNat_eq
  simp only [I, BitVec.toNat_ofInt]
  norm_num
  omega

theorem ofInt_msk (v : Int) : I (msk v) = I v := ofInt_congr (by unfold msk; omega)

theorem ofInt_sInt (v : Int) : I (sInt v) = I v :=
  ofInt_congr (by unfold sInt msk; split <;> omega)

theorem toInt_I {v : Int} (h0 : 0 ≤ v) (h1 : v < 65536) : (I v).toInt = sInt v := by
  have : msk v = v := by unfold msk; omega
  rw [I, BitVec.toInt_ofInt, sInt, this, Int.bmod_def]
  split <;> split <;> omega

theorem toNat_I {v : Int} (h0 : 0 ≤ v) (h1 : v < 65536) : (I v).toNat = v.toNat := by
  rw [I, BitVec.toNat_ofInt]; norm_num; omega

theorem I_inj {a b : Int} (ha : 0 ≤ a ∧ a < 65536) (hb : 0 ≤ b ∧ b < 65536) (h : I a = I b) :
    a = b := by
  have := congrArg BitVec.toNat h
  rw [toNat_I ha.1 ha.2, toNat_I hb.1 hb.2] at this
  omega

theorem I_add (a b : Int) : I (sInt a + sInt b) = I a + I b := by
  rw [I, BitVec.ofInt_add]; exact congrArg₂ _ (ofInt_sInt a) (ofInt_sInt b)

theorem I_mul (a b : Int) : I (sInt a * sInt b) = I a * I b := by
  rw [I, BitVec.ofInt_mul]; exact congrArg₂ _ (ofInt_sInt a) (ofInt_sInt b)

theorem I_neg (a : Int) : I (-sInt a) = -I a := by
  rw [I, BitVec.ofInt_neg]; exact congrArg _ (ofInt_sInt a)

theorem I_sub (a b : Int) : I (sInt a - sInt b) = I a - I b := by
  rw [Int.sub_eq_add_neg, I, BitVec.ofInt_add, BitVec.ofInt_neg, BitVec.sub_eq_add_neg]
  exact congrArg₂ _ (ofInt_sInt a) (congrArg _ (ofInt_sInt b))

theorem I_bnot (v : Int) : I (-v - 1) = ~~~I v := by
  rw [BitVec.not_eq_neg_add, Int.sub_eq_add_neg, I, BitVec.ofInt_add, BitVec.ofInt_neg, BitVec.sub_eq_add_neg, BitVec.ofInt_neg]
  rfl

theorem I_nat {v : Int} (h0 : 0 ≤ v) : I v = BitVec.ofNat 16 v.toNat := by
  obtain ⟨n, rfl⟩ := Int.eq_ofNat_of_zero_le h0
  exact BitVec.ofInt_natCast 16 n

theorem I_and {a b : Int} (ha : 0 ≤ a) (hb : 0 ≤ b) :
    I (nat2 (· &&& ·) a b) = I a &&& I b := by
  rw [I_nat ha, I_nat hb, nat2, I, BitVec.ofInt_natCast, BitVec.ofNat_and]

theorem I_or {a b : Int} (ha : 0 ≤ a) (hb : 0 ≤ b) :
    I (nat2 (· ||| ·) a b) = I a ||| I b := by
  rw [I_nat ha, I_nat hb, nat2, I, BitVec.ofInt_natCast, BitVec.ofNat_or]

theorem I_xor {a b : Int} (ha : 0 ≤ a) (hb : 0 ≤ b) :
    I (nat2 (· ^^^ ·) a b) = I a ^^^ I b := by
  rw [I_nat ha, I_nat hb, nat2, I, BitVec.ofInt_natCast, BitVec.ofNat_xor]

theorem I_chr {v : Int} (h0 : 0 ≤ v) : I (v % 256) = I v &&& 0xff := by
  rw [I_nat h0, I_nat (by omega)]
  apply BitVec.eq_of_toNat_eq
  simp only [BitVec.toNat_ofNat, BitVec.toNat_and]
  rw [show (255 : Word).toNat = 2 ^ 8 - 1 from rfl, Nat.and_two_pow_sub_one_eq_mod]
  omega

theorem I_bit {v : Int} (h0 : 0 ≤ v) : I v &&& 1 = ofB (getB v) := by
  rw [I_nat h0]
  apply BitVec.eq_of_toNat_eq
  simp only [BitVec.toNat_ofNat, BitVec.toNat_and]
  rw [show (1 : Word).toNat = 2 ^ 1 - 1 from rfl, Nat.and_two_pow_sub_one_eq_mod]
  unfold getB ofB
  split <;> rename_i h <;> simp at h ⊢ <;> omega

theorem I_shl (a n : Int) (h0 : 0 ≤ n) (h1 : n < 16) :
    I (sInt a * 2 ^ n.toNat) = I a <<< (I n).toNat := by
  rw [toNat_I h0 (by omega), I, BitVec.ofInt_mul, ← BitVec.mul_twoPow_eq_shiftLeft]
  refine congrArg₂ _ (ofInt_sInt a) ?_
  rw [show (2 : Int) ^ n.toNat = ((2 ^ n.toNat : Nat) : Int) by push_cast; rfl,
    BitVec.ofInt_natCast]
  apply BitVec.eq_of_toNat_eq
  rw [BitVec.toNat_ofNat, BitVec.toNat_twoPow]

theorem I_shr (a n : Int) (ha : 0 ≤ a ∧ a < 65536) (h0 : 0 ≤ n) (h1 : n < 16) :
    I (sInt a / 2 ^ n.toNat) = (I a).sshiftRight (I n).toNat := by
  rw [toNat_I h0 (by omega), ← BitVec.ofInt_toInt (x := (I a).sshiftRight _),
    BitVec.toInt_sshiftRight, toInt_I ha.1 ha.2, Int.shiftRight_eq_div_pow]
  push_cast; rfl

theorem I_div (a b : Int) (ha : 0 ≤ a ∧ a < 65536) (hb : 0 ≤ b ∧ b < 65536) :
    I ((sInt a).tdiv (sInt b)) = (I a).sdiv (I b) := by
  apply BitVec.eq_of_toInt_eq
  rw [I, BitVec.toInt_ofInt, BitVec.toInt_sdiv, toInt_I ha.1 ha.2, toInt_I hb.1 hb.2]

theorem I_mod (a b : Int) (ha : 0 ≤ a ∧ a < 65536) (hb : 0 ≤ b ∧ b < 65536) :
    I ((sInt a).tmod (sInt b)) = (I a).srem (I b) := by
  rw [← BitVec.ofInt_toInt (x := (I a).srem _), BitVec.toInt_srem, toInt_I ha.1 ha.2,
    toInt_I hb.1 hb.2]

theorem sdiv_one (a : Word) : a.sdiv 1 = a := by
  apply BitVec.eq_of_toInt_eq
  rw [BitVec.toInt_sdiv, show (1 : Word).toInt = 1 from rfl, Int.tdiv_one]
  have := BitVec.toInt_lt (x := a); have := BitVec.le_toInt (x := a)
  rw [Int.bmod_def]; split <;> omega

theorem srem_one (a : Word) : a.srem 1 = 0 := by
  apply BitVec.eq_of_toInt_eq
  rw [BitVec.toInt_srem, show (1 : Word).toInt = 1 from rfl, Int.tmod_one]; rfl

end Cmm.Opt
