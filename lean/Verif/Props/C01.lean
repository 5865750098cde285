import Verif.Lib.Ctype

/-! C01: character classification and case conversion, for every char.
The specification side speaks only of character codes as natural numbers. -/
namespace Cmm.Ctype

theorem ile_ord_ord (a b : Byte) : ile (ord a) (ord b) = decide (a.toNat ≤ b.toNat) := by
  have ha := a.isLt
  have hb := b.isLt
  rw [Bool.eq_iff_iff]
  simp only [ile, ord, BitVec.sle_eq_decide, decide_eq_true_eq]
  rw [BitVec.toInt_eq_toNat_of_lt, BitVec.toInt_eq_toNat_of_lt]
  · simp; omega
  · simp; omega
  · simp; omega

theorem C01_isDigit (c : Byte) : isDigit c = true ↔ 48 ≤ c.toNat ∧ c.toNat ≤ 57 := by
  simp [isDigit, ile_ord_ord]

theorem C01_isUpper (c : Byte) : isUpper c = true ↔ 65 ≤ c.toNat ∧ c.toNat ≤ 90 := by
  simp [isUpper, ile_ord_ord]

theorem C01_isLower (c : Byte) : isLower c = true ↔ 97 ≤ c.toNat ∧ c.toNat ≤ 122 := by
  simp [isLower, ile_ord_ord]

theorem C01_isXdigit (c : Byte) : isXdigit c = true ↔
    (48 ≤ c.toNat ∧ c.toNat ≤ 57) ∨ (65 ≤ c.toNat ∧ c.toNat ≤ 70) ∨
    (97 ≤ c.toNat ∧ c.toNat ≤ 102) := by
  simp [isXdigit, C01_isDigit, ile_ord_ord, or_assoc]

theorem C01_isAlpha (c : Byte) : isAlpha c = true ↔
    (65 ≤ c.toNat ∧ c.toNat ≤ 90) ∨ (97 ≤ c.toNat ∧ c.toNat ≤ 122) := by
  simp [isAlpha, C01_isUpper, C01_isLower]

theorem C01_isAlnum (c : Byte) : isAlnum c = true ↔
    (48 ≤ c.toNat ∧ c.toNat ≤ 57) ∨ (65 ≤ c.toNat ∧ c.toNat ≤ 90) ∨
    (97 ≤ c.toNat ∧ c.toNat ≤ 122) := by
  simp [isAlnum, C01_isDigit, C01_isAlpha]

theorem C01_isPrint (c : Byte) : isPrint c = true ↔ 32 ≤ c.toNat := by
  have : isPrint c = ile (ord 0x20#8) (ord c) := rfl
  rw [this, ile_ord_ord]; simp

/-- White space: tab, newline, VT, FF, CR and blank. -/
theorem C01_isSpace (c : Byte) : isSpace c = true ↔
    (9 ≤ c.toNat ∧ c.toNat ≤ 13) ∨ c.toNat = 32 := by
  have h (k : Byte) : (k == c) = true ↔ k.toNat = c.toNat := by
    rw [beq_iff_eq]; exact BitVec.toNat_inj.symm
  simp only [isSpace, Bool.or_eq_true, h]
  simp; omega

/-- `toLower` adds 32 to the codes 65..90 and changes nothing else. -/
theorem C01_toLower (c : Byte) : (toLower c).toNat =
    if 65 ≤ c.toNat ∧ c.toNat ≤ 90 then c.toNat + 32 else c.toNat := by
  have := c.isLt
  unfold toLower
  by_cases h : isUpper c = true
  · have h' := (C01_isUpper c).1 h
    simp [h, h', chr, ord]; omega
  · have h' := mt (C01_isUpper c).2 h
    simp [h, h']

/-- `toUpper` subtracts 32 from the codes 97..122 and changes nothing else. -/
theorem C01_toUpper (c : Byte) : (toUpper c).toNat =
    if 97 ≤ c.toNat ∧ c.toNat ≤ 122 then c.toNat - 32 else c.toNat := by
  have := c.isLt
  unfold toUpper
  by_cases h : isLower c = true
  · have h' := (C01_isLower c).1 h
    simp [h, h', chr, ord]; omega
  · have h' := mt (C01_isLower c).2 h
    simp [h, h']

theorem C01_toLower_idem (c : Byte) : toLower (toLower c) = toLower c := by
  apply BitVec.eq_of_toNat_eq
  rw [C01_toLower (toLower c), C01_toLower c]; grind

theorem C01_toUpper_idem (c : Byte) : toUpper (toUpper c) = toUpper c := by
  apply BitVec.eq_of_toNat_eq
  rw [C01_toUpper (toUpper c), C01_toUpper c]; grind

/-- The two conversions are inverse to each other on letters. -/
theorem C01_case_roundtrip (c : Byte) :
    (isUpper c = true → toUpper (toLower c) = c) ∧
    (isLower c = true → toLower (toUpper c) = c) := by
  rw [C01_isUpper, C01_isLower]
  refine ⟨fun h => ?_, fun h => ?_⟩ <;> apply BitVec.eq_of_toNat_eq
  · rw [C01_toUpper, C01_toLower]; grind
  · rw [C01_toLower, C01_toUpper]; grind

/-- Case conversion keeps the other classifications. -/
theorem C01_toLower_alpha (c : Byte) : isAlpha (toLower c) = isAlpha c ∧
    isUpper (toLower c) = false := by
  constructor
  · rw [Bool.eq_iff_iff, C01_isAlpha, C01_isAlpha, C01_toLower]; split <;> omega
  · rw [Bool.eq_false_iff, ne_eq, C01_isUpper, C01_toLower]; split <;> omega

-- hypotheses are met by concrete characters
example : isUpper 0x51#8 = true := by decide
example : isLower 0x71#8 = true := by decide
example : isPrint 0xe3#8 = true ∧ isDigit 0xb5#8 = false := by decide

end Cmm.Ctype
