import Verif.Lib.CArray

/-
C88: run-time checks of translated programs: what passes the check is in the memory allocated.
-/
namespace Cmm.CLib

/-- Specification: an array of `n` elements of `size` bytes: exactly the indices from 0 to n-1 can be used, each element is in the
allocated memory behind the length, and different elements share no byte. -/
def Safe (a : Arr) (n size : Nat) (at_ : BitVec 32 → Option Int) : Prop :=
  (∀ i, (at_ i).isSome ↔ 0 ≤ i.toInt ∧ i.toInt < n) ∧
  (∀ i x, at_ i = some x → (a.base : Int) + 4 ≤ x ∧ x + size ≤ a.base + a.room) ∧
  ∀ i j x y, at_ i = some x → at_ j = some y → i ≠ j → x + size ≤ y ∨ y + size ≤ x

theorem elemAt_some (k : Kind) (a : Arr) (i : BitVec 32) (x : Int) :
    elemAt k (some a) i = some x ↔ 0 ≤ i.toInt ∧ i.toInt < a.l.toInt ∧ x = a.base + k.hdr + k.elem * i.toInt := by
  unfold elemAt
  have z : (0 : BitVec 32).toInt = 0 := by decide
  have hc : (i.slt 0 || a.l.sle i) = true ↔ i.toInt < 0 ∨ a.l.toInt ≤ i.toInt := by
    simp only [BitVec.slt, BitVec.sle, z, Bool.or_eq_true, decide_eq_true_eq]
  by_cases h : i.toInt < 0 ∨ a.l.toInt ≤ i.toInt
  · simp only [hc.2 h, if_true]
    constructor
    · intro e; simp at e
    · rintro ⟨h1, h2, _⟩; omega
  · have hf : (i.slt 0 || a.l.sle i) = false := by
      rw [← Bool.not_eq_true]; exact fun e => h (hc.1 e)
    simp only [hf, Bool.false_eq_true, if_false, Option.some.injEq]
    constructor
    · intro e; exact ⟨by omega, by omega, e.symm⟩
    · rintro ⟨_, _, e⟩; exact e.symm

/-- The size that reaches malloc. -/
theorem size_spec (k : Kind) (n : Nat) (hk : k.hdr + k.elem * n < 2147483648) (hn : n < 2147483648) :
    (((BitVec.ofNat 64 k.hdr + BitVec.ofNat 64 k.elem * (BitVec.ofNat 32 n).signExtend 64).setWidth 32).signExtend 64 : BitVec 64).toNat =
      k.hdr + k.elem * n := by
  have h1 : ((BitVec.ofNat 32 n).signExtend 64 : BitVec 64) = BitVec.ofNat 64 n := by
    rw [BitVec.signExtend_eq_setWidth_of_msb_false (by rw [BitVec.msb_eq_false_iff_two_mul_lt]; simp; omega)]
    apply BitVec.eq_of_toNat_eq; simp; omega
  have h2 : ((BitVec.ofNat 64 k.hdr + BitVec.ofNat 64 k.elem * BitVec.ofNat 64 n).setWidth 32 : BitVec 32) =
      BitVec.ofNat 32 (k.hdr + k.elem * n) := by
    rw [← BitVec.ofNat_mul, ← BitVec.ofNat_add]
    apply BitVec.eq_of_toNat_eq; simp
  rw [h1, h2, BitVec.signExtend_eq_setWidth_of_msb_false (by rw [BitVec.msb_eq_false_iff_two_mul_lt]; simp; omega)]
  simp; omega

/-- C88: arrays of int, of char and of references with `n` elements, if header and elements have less than 2^31 bytes: the allocation
ends the program if there is no memory, else gives an array that is safe. -/
theorem C88_partial (malloc : BitVec 64 → Option Nat) (k : Kind) (size : Nat) (hk : (k, size) ∈ [(ia, 4), (caKind, 1), (ra, 8)]) (n : Nat)
    (hn : k.hdr + size * n < 2147483648) :
    (malloc (BitVec.ofNat 64 (k.hdr + size * n)) = none ∧ newArr malloc k (BitVec.ofNat 32 n) = .exit) ∨
    ∃ a, malloc (BitVec.ofNat 64 (k.hdr + size * n)) = some a.base ∧ a.room = k.hdr + size * n ∧
      newArr malloc k (BitVec.ofNat 32 n) = .ok a ∧ Safe a n size (elemAt k (some a)) := by
  have hsz : k.elem = size ∧ 4 ≤ k.hdr ∧ 1 ≤ size := by
    simp only [List.mem_cons, List.not_mem_nil, or_false, Prod.mk.injEq] at hk
    rcases hk with ⟨rfl, rfl⟩ | ⟨rfl, rfl⟩ | ⟨rfl, rfl⟩ <;> decide
  obtain ⟨rfl, h4, h1⟩ := hsz
  have hn' : n < 2147483648 := by
    have := Nat.le_mul_of_pos_left n h1
    omega
  have hs := size_spec k n hn hn'
  have hsb : (((BitVec.ofNat 64 k.hdr + BitVec.ofNat 64 k.elem * (BitVec.ofNat 32 n).signExtend 64).setWidth 32).signExtend 64 : BitVec 64) =
      BitVec.ofNat 64 (k.hdr + k.elem * n) := by
    apply BitVec.eq_of_toNat_eq
    rw [hs, BitVec.toNat_ofNat, Nat.mod_eq_of_lt (by omega)]
  unfold newArr
  simp only
  rw [hsb] at hs ⊢
  cases hm : malloc (BitVec.ofNat 64 (k.hdr + k.elem * n)) with
  | none => exact .inl ⟨rfl, rfl⟩
  | some p =>
    refine .inr ⟨⟨p, k.hdr + k.elem * n, BitVec.ofNat 32 n⟩, rfl, rfl, ?_, ?_⟩
    · simp only [hs]
      rw [if_pos (by omega)]
    have hl : (BitVec.ofNat 32 n).toInt = n := by
      rw [BitVec.toInt_eq_toNat_of_lt (by simp; omega)]; simp; omega
    refine ⟨?_, ?_, ?_⟩
    · intro i
      rw [Option.isSome_iff_exists]
      simp only [elemAt_some, hl]
      constructor
      · rintro ⟨_, a, b, _⟩; exact ⟨a, b⟩
      · rintro ⟨a, b⟩; exact ⟨_, a, b, rfl⟩
    · intro i x h
      obtain ⟨a, b, rfl⟩ := (elemAt_some _ _ _ _).1 h
      rw [hl] at b
      have c1 : (0 : Int) ≤ k.elem * i.toInt := Int.mul_nonneg (by omega) a
      have c2 : (k.elem : Int) * (i.toInt + 1) ≤ k.elem * n := Int.mul_le_mul_of_nonneg_left (by omega) (by omega)
      rw [Int.mul_add, Int.mul_one] at c2
      have c3 : ((k.hdr + k.elem * n : Nat) : Int) = k.hdr + k.elem * n := by simp
      simp only [c3]
      omega
    · intro i j x y h h' hne
      obtain ⟨a, b, rfl⟩ := (elemAt_some _ _ _ _).1 h
      obtain ⟨a', b', rfl⟩ := (elemAt_some _ _ _ _).1 h'
      have hne' : i.toInt ≠ j.toInt := fun e => hne (BitVec.eq_of_toInt_eq e)
      rcases Int.lt_or_gt_of_ne hne' with g | g
      · left
        have c2 : (k.elem : Int) * (i.toInt + 1) ≤ k.elem * j.toInt := Int.mul_le_mul_of_nonneg_left (by omega) (by omega)
        rw [Int.mul_add, Int.mul_one] at c2
        omega
      · right
        have c2 : (k.elem : Int) * (j.toInt + 1) ≤ k.elem * i.toInt := Int.mul_le_mul_of_nonneg_left (by omega) (by omega)
        rw [Int.mul_add, Int.mul_one] at c2
        omega

/-- A NULL pointer never passes the check. -/
theorem C88_null (k : Kind) (i : BitVec 32) : elemAt k none i = none := rfl

/-- The full claim is false: the size of an array of 2^30 ints does not fit into the int parameter of _mAlloc; 4 bytes are allocated, and
the check lets element 0 pass, which is behind them. -/
theorem C88_size_false (p : Nat) : ∃ a, newArr (fun _ => some p) ia 0x40000000#32 = .ok a ∧ a.room = 4 ∧
    elemAt ia (some a) 0 = some ((a.base : Int) + a.room) := by
  refine ⟨⟨p, 4, 0x40000000#32⟩, ?_, rfl, ?_⟩
  · have : ((BitVec.ofNat 64 ia.hdr + BitVec.ofNat 64 ia.elem * (0x40000000#32).signExtend 64).setWidth 32 : BitVec 32) = 4#32 := by
      decide +kernel
    simp only [newArr, this]
    rfl
  · rw [elemAt_some]
    exact ⟨by decide, by show (0#32).toInt < (0x40000000#32).toInt; decide +kernel, by simp [ia]⟩

/-- An array of -1 ints: nothing is allocated, and the length is stored behind it. -/
theorem C88_negative_false (p : Nat) : newArr (fun _ => some p) ia (-1) = .undef := by
  have : ((BitVec.ofNat 64 ia.hdr + BitVec.ofNat 64 ia.elem * (-1 : BitVec 32).signExtend 64).setWidth 32 : BitVec 32) = 0#32 := by
    decide +kernel
  simp only [newArr, this]
  rfl

/-! An array of three references at 1000. -/

example : ∃ a, newArr (fun _ => some 1000) ra 3#32 = .ok a ∧ a.room = 32 ∧ Safe a 3 8 (elemAt ra (some a)) := by
  rcases C88_partial (fun _ => some 1000) ra 8 (by simp) 3 (by decide) with ⟨h, _⟩ | ⟨a, _, h1, h2, h3⟩
  · simp at h
  · exact ⟨a, h2, h1, h3⟩

end Cmm.CLib
