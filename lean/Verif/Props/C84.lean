import Verif.Lib.CLib

/-
C84: numbers and offsets in the C library of translated programs.
-/
namespace Cmm.CLib

/-- Specification: a field of at least `w` characters: on the left, or on the right after the character `p`. -/
def cfield (w : Int) (lf : Bool) (p : Char) (s : List Char) : List Char :=
  let k := (w - s.length).toNat
  if lf then s ++ List.replicate k ' ' else List.replicate k p ++ s

theorem table_digit : ∀ d : Nat, d < 16 → table.getD d '?' = Nat.digitChar d := by decide

theorem putNum_spec {b : Nat} (h2 : 2 ≤ b) (h16 : b ≤ 16) : ∀ x, x ≠ 0 → putNum b x = Nat.toDigits b x := by
  intro x
  induction x using Nat.strongRecOn with
  | ind x ih =>
    intro h0
    have hm : x % b < b := Nat.mod_lt _ (by omega)
    rw [putNum, dif_neg (by omega), table_digit _ (by omega)]
    by_cases hlt : x < b
    · rw [Nat.div_eq_of_lt hlt, putNum, dif_pos (.inl rfl), Nat.mod_eq_of_lt hlt, Nat.toDigits_of_lt_base hlt]; rfl
    · have hd : x / b ≠ 0 := by
        have := Nat.div_pos (a := x) (b := b) (by omega) (by omega); omega
      rw [Nat.toDigits_of_base_le (show 1 < b by omega) (show b ≤ x by omega), ih _ (Nat.div_lt_self (by omega) (by omega)) hd]

theorem lenLoop_spec {b : Nat} (h2 : 2 ≤ b) : ∀ x : Nat, x ≠ 0 → lenLoop b x = (Nat.toDigits b x).length := by
  intro x
  induction x using Nat.strongRecOn with
  | ind x ih =>
    intro h0
    rw [lenLoop, dif_neg (by omega), show ((x : Int).tdiv b) = ((x / b : Nat) : Int) from rfl]
    by_cases hlt : x < b
    · rw [Nat.div_eq_of_lt hlt, lenLoop, dif_pos (.inl rfl), Nat.toDigits_of_lt_base hlt]; rfl
    · have hd : x / b ≠ 0 := by
        have := Nat.div_pos (a := x) (b := b) (by omega) (by omega); omega
      rw [Nat.toDigits_of_base_le (show 1 < b by omega) (show b ≤ x by omega), ih _ (Nat.div_lt_self (by omega) (by omega)) hd]
      simp

theorem numLen_spec {b : Nat} (h2 : 2 ≤ b) (x : Nat) : numLen x b = (Nat.toDigits b x).length := by
  unfold numLen
  by_cases h : x = 0
  · subst h; rw [lenLoop, dif_pos (.inl rfl)]; simp [Nat.toDigits_zero]
  · rw [lenLoop_spec h2 x h]
    have := Nat.length_toDigits_pos (b := b) (n := x)
    rw [if_neg (by omega)]

theorem body_spec {b : Nat} (h2 : 2 ≤ b) (h16 : b ≤ 16) (x : Nat) (hx : x < 4294967296) :
    (if (x : Int) ≠ 0 then putNum b (toU x) else ['0']) = Nat.toDigits b x := by
  by_cases h : x = 0
  · subst h; simp [Nat.toDigits_zero]
  · rw [if_pos (by omega), show toU x = x by unfold toU; omega, putNum_spec h2 h16 x h]

/-- C84: unsigned conversions of an int that is not negative: the standard notation of the number in a field. -/
theorem C84_unsigned_partial {b : Nat} (h2 : 2 ≤ b) (h16 : b ≤ 16) (x : Nat) (hx : x < 2147483648) (w : Int) (lf : Bool) (p : Char) :
    uPutNum x w lf p b = cfield w lf p (Nat.toDigits b x) := by
  unfold uPutNum cfield putN
  simp only [body_spec h2 h16 x (by omega), numLen_spec h2]
  cases lf <;> simp

/-- The full claim is false: for ints from 2^31 on the length is that of a small number; `%8x` of 0xffffffff is 15 characters wide. -/
theorem C84_unsigned_false : uPutNum (-1) 8 false ' ' 16 = List.replicate 7 ' ' ++ List.replicate 8 'f' ∧
    uPutNum (-1) 8 false ' ' 16 ≠ cfield 8 false ' ' (Nat.toDigits 16 4294967295) := by
  have e : uPutNum (-1) 8 false ' ' 16 = List.replicate 7 ' ' ++ List.replicate 8 'f' := by decide +kernel
  refine ⟨e, ?_⟩
  rw [e]; decide +kernel

/-- C84: all digits are right even then: without a width the number `n` of the 32 bits is printed, whichever sign the int has. -/
theorem C84_digits {b : Nat} (h2 : 2 ≤ b) (h16 : b ≤ 16) (x : Int) (n : Nat) (hn : n < 4294967296) (hi : -2147483648 ≤ x)
    (hx : x = n ∨ x = (n : Int) - 4294967296) (lf : Bool) (p : Char) : uPutNum x 0 lf p b = Nat.toDigits b n := by
  have hu : toU x = n := by unfold toU; omega
  unfold uPutNum putN
  have hl : (0 - (numLen x b : Int)).toNat = 0 := by omega
  simp only [hl, List.replicate_zero]
  have : (if x ≠ 0 then putNum b (toU x) else ['0']) = Nat.toDigits b n := by
    by_cases h : x = 0
    · have : n = 0 := by omega
      subst this; simp [h, Nat.toDigits_zero]
    · rw [if_pos h, hu]; exact putNum_spec h2 h16 n (by omega)
  rw [this]; cases lf <;> simp

theorem lenLoop_neg {b : Nat} (h2 : 2 ≤ b) : ∀ m : Nat, lenLoop b (-(m : Int)) = lenLoop b m := by
  intro m
  induction m using Nat.strongRecOn with
  | ind m ih =>
    by_cases h : m = 0
    · subst h; rfl
    · rw [lenLoop, dif_neg (by omega), Int.neg_tdiv, show ((m : Int).tdiv b) = ((m / b : Nat) : Int) from rfl,
        ih (m / b) (Nat.div_lt_self (by omega) (by omega))]
      have e : lenLoop b (m : Int) = lenLoop b ((m / b : Nat) : Int) + 1 := by
        rw [lenLoop, dif_neg (by omega)]; rfl
      rw [e]

/-- C84: what exactly is printed for ints from 2^31 on, that is for negative ones: the digits are right, but the field is that of the digits
of the absolute value. -/
theorem C84_unsigned_negative {b : Nat} (h2 : 2 ≤ b) (h16 : b ≤ 16) (m : Nat) (h1 : 1 ≤ m) (hm : m ≤ 2147483648) (w : Int) (lf : Bool) (p : Char) :
    uPutNum (-(m : Int)) w lf p b =
      (let k := (w - (Nat.toDigits b m).length).toNat
       if lf then Nat.toDigits b (4294967296 - m) ++ List.replicate k ' ' else List.replicate k p ++ Nat.toDigits b (4294967296 - m)) := by
  have hu : toU (-(m : Int)) = 4294967296 - m := by unfold toU; omega
  have hl : numLen (-(m : Int)) b = (Nat.toDigits b m).length := by
    rw [← numLen_spec h2]; unfold numLen; rw [lenLoop_neg h2]
  have hb : (if -(m : Int) ≠ 0 then putNum b (toU (-(m : Int))) else ['0']) = Nat.toDigits b (4294967296 - m) := by
    rw [if_pos (show -(m : Int) ≠ 0 by omega), hu, putNum_spec h2 h16 _ (by omega)]
  unfold uPutNum putN
  simp only [hl, hb]
  cases lf <;> simp

/-- C84: `%d` of every int but the smallest: the sign before the digits, and a field as wide as asked for; filled with zeros the sign comes
after them. -/
theorem C84_signed (x : Int) (h1 : -2147483648 < x) (hx : x < 2147483648) (w : Int) (lf : Bool) (p : Char) :
    sPutNum x w lf p 10 = some (cfield w lf p ((if x < 0 then ['-'] else []) ++ Nat.toDigits 10 x.natAbs)) := by
  unfold sPutNum
  rw [if_neg (by omega)]
  by_cases hn : x < 0
  · have e : -x = (x.natAbs : Int) := by omega
    simp only [hn, decide_true, if_true, e, body_spec (b := 10) (by omega) (by omega) x.natAbs (by omega), numLen_spec (b := 10) (by omega)]
    unfold cfield putN
    cases lf <;> simp <;> congr 1 <;> omega
  · have e : x = (x.natAbs : Int) := by omega
    simp only [hn, decide_false, Bool.false_eq_true, if_false]
    generalize hk : x.natAbs = k at e
    subst e
    simp only [body_spec (b := 10) (by omega) (by omega) k (by omega), numLen_spec (b := 10) (by omega)]
    unfold cfield putN
    cases lf <;> simp

/-- For the smallest int the negation overflows. -/
theorem C84_min_false (w : Int) (lf : Bool) (p : Char) (b : Nat) : sPutNum (-2147483648) w lf p b = none := rfl

/-- The last `k` digits of a number. -/
def lastDigits : Nat → Nat → List Char
  | 0, _ => []
  | k + 1, x => lastDigits k (x / 10) ++ [Nat.digitChar (x % 10)]

theorem toDigits_last (k : Nat) : ∀ x, x < 10 ^ k → ∀ y, y ≠ 0 → Nat.toDigits 10 (y * 10 ^ k + x) = Nat.toDigits 10 y ++ lastDigits k x := by
  induction k with
  | zero =>
    intro x hx y hy
    have : x = 0 := by simpa using hx
    subst this
    simp [lastDigits]
  | succ k ih =>
    intro x hx y hy
    have hp : y * 10 ^ (k + 1) = 10 * (y * 10 ^ k) := by rw [Nat.pow_succ, ← Nat.mul_assoc, Nat.mul_comm]
    have h1 : 1 ≤ y * 10 ^ k := Nat.mul_pos (by omega) (Nat.pow_pos (by omega))
    have hx' : x / 10 < 10 ^ k := by rw [Nat.pow_succ] at hx; omega
    rw [hp]
    generalize he : y * 10 ^ k = q at h1
    have hdiv : (10 * q + x) / 10 = q + x / 10 := by omega
    have hmod : (10 * q + x) % 10 = x % 10 := by omega
    rw [Nat.toDigits_of_base_le (show 1 < 10 by omega) (show 10 ≤ 10 * q + x by omega), hdiv, hmod, ← he, ih _ hx' y hy, lastDigits,
      List.append_assoc]

theorem lastDigits_zero (k : Nat) : lastDigits k 0 = List.replicate k '0' := by
  induction k with
  | zero => rfl
  | succ k ih => rw [lastDigits, Nat.zero_div, ih, List.replicate_succ']; rfl

theorem cfield_last (k : Nat) : ∀ x, x < 10 ^ (k + 1) → cfield ((k + 1 : Nat) : Int) false '0' (Nat.toDigits 10 x) = lastDigits (k + 1) x := by
  induction k with
  | zero =>
    intro x hx
    have hx : x < 10 := by simpa using hx
    rw [Nat.toDigits_of_lt_base hx]
    simp [cfield, lastDigits, Nat.mod_eq_of_lt hx]
  | succ k ih =>
    intro x hx
    by_cases hx10 : x < 10
    · rw [Nat.toDigits_of_lt_base hx10, lastDigits, Nat.div_eq_of_lt hx10, lastDigits_zero, Nat.mod_eq_of_lt hx10]
      have e2 : (((k + 1 + 1 : Nat) : Int) - (([Nat.digitChar x] : List Char).length : Nat)).toNat = k + 1 := by
        simp only [List.length_singleton]; omega
      simp only [cfield, Bool.false_eq_true, if_false, e2]
    · have := ih (x / 10) (by rw [Nat.pow_succ] at hx; omega)
      rw [lastDigits, ← this, Nat.toDigits_of_base_le (show 1 < 10 by omega) (show 10 ≤ x by omega)]
      simp only [cfield, Bool.false_eq_true, if_false, List.length_append, List.length_singleton, ← List.append_assoc]
      congr 3
      omega

/-- C84: `%ld` of every long, on the right: the number in a field. -/
theorem C84_long_partial (h l : BitVec 32) (w : Int) (p : Char) :
    putLong h l w false p = cfield w false p (Nat.toDigits 10 (h.toNat * 4294967296 + l.toNat)) := by
  show putLong h l w false p = cfield w false p (Nat.toDigits 10 (lToL h l))
  have hb : lToL h l < 18446744073709551616 := by unfold lToL; have := h.isLt; have := l.isLt; omega
  unfold putLong
  generalize lToL h l = n at hb
  simp only
  have hlow : n % 100000000 < 10 ^ 8 := by omega
  have low : ∀ x : Nat, x < 10 ^ 8 → uPutNum x 8 false '0' 10 = cfield (8 : Nat) false '0' (Nat.toDigits 10 x) := fun x hx =>
    C84_unsigned_partial (by omega) (by omega) x (by omega) 8 false '0'
  have len8 : ∀ x : Nat, x < 10 ^ 8 → (cfield (8 : Nat) false '0' (Nat.toDigits 10 x)).length = 8 := by
    intro x hx
    have := (Nat.length_toDigits_le_iff (b := 10) (k := 8) (n := x) (by omega) (by omega)).2 hx
    simp [cfield]; omega
  have split : ∀ x y : Nat, x < 10 ^ 8 → y ≠ 0 → Nat.toDigits 10 (y * 10 ^ 8 + x) =
      Nat.toDigits 10 y ++ cfield (8 : Nat) false '0' (Nat.toDigits 10 x) := fun x y hx hy => by
    rw [cfield_last 7 x hx]; exact toDigits_last 8 x hx y hy
  by_cases hh : n / 100000000 / 100000000 % 100000000 = 0
  · by_cases hm : n / 100000000 % 100000000 = 0
    · rw [if_neg (by omega), if_neg (by omega), C84_unsigned_partial (by omega) (by omega) _ (by omega)]
      congr 2; omega
    · rw [if_neg (by omega), if_pos (by omega), C84_unsigned_partial (by omega) (by omega) _ (by omega), low _ hlow]
      have e : n = n / 100000000 % 100000000 * 10 ^ 8 + n % 100000000 := by omega
      have key := split (n % 100000000) (n / 100000000 % 100000000) hlow hm
      rw [← e] at key
      rw [key]
      have l1 := len8 (n % 100000000) hlow
      generalize cfield (8 : Nat) false '0' (Nat.toDigits 10 (n % 100000000)) = a at *
      unfold cfield
      simp only [Bool.false_eq_true, if_false, List.append_assoc, List.length_append]
      congr 2
      omega
  · have hm8 : n / 100000000 % 100000000 < 10 ^ 8 := by omega
    rw [if_pos (by omega), C84_unsigned_partial (by omega) (by omega) _ (by omega), low _ hlow, low _ hm8]
    have e : n = (n / 100000000 / 100000000 % 100000000 * 10 ^ 8 + n / 100000000 % 100000000) * 10 ^ 8 + n % 100000000 := by omega
    have k1 := split (n / 100000000 % 100000000) (n / 100000000 / 100000000 % 100000000) hm8 hh
    have k2 := split (n % 100000000) (n / 100000000 / 100000000 % 100000000 * 10 ^ 8 + n / 100000000 % 100000000) hlow (by omega)
    rw [← e, k1] at k2
    rw [k2]
    have l1 := len8 (n % 100000000) hlow
    have l2 := len8 (n / 100000000 % 100000000) hm8
    generalize cfield (8 : Nat) false '0' (Nat.toDigits 10 (n % 100000000)) = a at *
    generalize cfield (8 : Nat) false '0' (Nat.toDigits 10 (n / 100000000 % 100000000)) = c at *
    unfold cfield
    simp only [Bool.false_eq_true, if_false, List.append_assoc, List.length_append]
    congr 2
    omega

/-- The full claim is false on the left: the zeros inside the number are missing; `%-ld` of 100000005 prints 15 and blanks. -/
theorem C84_long_false : putLong 0#32 100000005#32 0 true ' ' = ['1', '5', ' ', ' ', ' ', ' ', ' ', ' ', ' '] := by decide +kernel

/-- printf should return the number of characters; the claim is false: a text without NUL characters counts as 0. -/
theorem C84_count_false (s : List Char) (h : ∀ c ∈ s, c.toNat ≠ 0) : count s = 0 ∧ (s ≠ [] → count s ≠ s.length) := by
  have e : count s = 0 := by
   induction s with
   | nil => rfl
   | cons c s ih => simp [count, h c (by simp), ih fun x hx => h x (by simp [hx])]
  refine ⟨e, fun hne => ?_⟩
  rw [e]
  have := List.length_pos_iff.2 hne
  omega

/-- C84: going to the end of a file with the words of fsize, for sizes whose lower word is less than 2^31. -/
theorem C84_seek_partial (s : BitVec 64) (h : s.getLsbD 31 = false) : seekOff (fsizeOf s).1 (fsizeOf s).2 = s := by
  apply BitVec.eq_of_getLsbD_eq
  intro i hi
  have hf : ∀ j, (0xffffffff#64).getLsbD j = decide (j < 32) := by
    intro j
    by_cases hj : j < 64
    · have : ∀ j < 64, (0xffffffff#64).getLsbD j = decide (j < 32) := by decide +kernel
      exact this j hj
    · rw [BitVec.getLsbD_of_ge _ _ (by omega)]; simp; omega
  simp only [seekOff, fsizeOf, BitVec.getLsbD_or, BitVec.getLsbD_shiftLeft, BitVec.getLsbD_signExtend, BitVec.getLsbD_setWidth, BitVec.getLsbD_and,
    BitVec.msb_eq_getLsbD_last, BitVec.getLsbD_sshiftRight, hf, hi]
  by_cases h32 : i < 32
  · simp [h32]
  · have a : i - 32 < 32 := by omega
    have b : i - 32 < 64 := by omega
    have c : 32 + (i - 32) = i := by omega
    have d : i < 64 := hi
    have g : s[31] = false := by simpa using h
    simp [h32, a, b, c, d, g]

/-- The full claim is false: for a file of 2^31 bytes the offset is negative. -/
theorem C84_seek_false : (seekOff (fsizeOf 0x80000000#64).1 (fsizeOf 0x80000000#64).2).toInt = -2147483648 := by decide +kernel

/-- Some numbers. -/
example : uPutNum 255 5 false '0' 16 = ['0', '0', '0', 'f', 'f'] ∧ sPutNum (-42) 5 true ' ' 10 = some ['-', '4', '2', ' ', ' '] ∧
    putLong 1#32 0#32 11 false ' ' = [' ', '4', '2', '9', '4', '9', '6', '7', '2', '9', '6'] ∧
    seekOff (fsizeOf 0x312345678#64).1 (fsizeOf 0x312345678#64).2 = 0x312345678#64 := by decide +kernel

/-! `%10x` of -2: 9 blanks instead of 2. -/

example : uPutNum (-2) 10 false ' ' 16 = List.replicate 9 ' ' ++ Nat.toDigits 16 4294967294 :=
  C84_unsigned_negative (b := 16) (by decide) (by decide) 2 (by decide) (by decide) 10 false ' '

end Cmm.CLib
