import Verif.Props.C01
import Verif.Lib.StringLemmas
import Verif.Lib.Stdlib

/-! C12: atoi and htoi. -/
namespace Cmm.Stdlib
open Cmm.Ctype Cmm.Str

/-- Specification: value of a decimal digit character. -/
def decDigit? (c : Byte) : Option Nat :=
  if 48 ≤ c.toNat ∧ c.toNat ≤ 57 then some (c.toNat - 48) else none

/-- Specification: value of a hexadecimal digit character. -/
def hexDigit? (c : Byte) : Option Nat :=
  if 48 ≤ c.toNat ∧ c.toNat ≤ 57 then some (c.toNat - 48)
  else if 65 ≤ c.toNat ∧ c.toNat ≤ 70 then some (c.toNat - 55)
  else if 97 ≤ c.toNat ∧ c.toNat ≤ 102 then some (c.toNat - 87) else none

/-- Specification: the number denoted by digits in base `b`, most significant first. -/
def positional (b : Nat) (ds : List Nat) : Nat := ds.foldl (fun v d => v * b + d) 0

/-- Specification: the hexadecimal digits at the start of a string. -/
def hexPrefix : List Byte → List Nat
  | [] => []
  | c :: s => match hexDigit? c with
    | some d => d :: hexPrefix s
    | none => []

theorem foldl_mod (b : Nat) (ds : List Nat) (v : Nat) :
    ds.foldl (fun v d => v * b + d) (v % 65536) % 65536 =
      ds.foldl (fun v d => v * b + d) v % 65536 := by
  induction ds generalizing v with
  | nil => simp
  | cons d ds ih =>
    simp only [List.foldl_cons]
    rw [← ih (v % 65536 * b + d), ← ih (v * b + d)]
    congr 2
    rw [Nat.add_mod, Nat.mul_mod, Nat.mod_mod, ← Nat.mul_mod, ← Nat.add_mod]

theorem atoiLoop_spec {m : Mem} {a : Word} : ∀ (s : List Byte) (k : Nat) (v : Word),
    IsStr m (off a k) s →
    ∃ r, atoiLoop m a v (BitVec.ofNat 16 k) = some r ∧
      r.toNat = (s.filterMap decDigit?).foldl (fun v d => v * 10 + d) v.toNat % 65536 := by
  intro s
  induction s with
  | nil =>
    intro k v h
    have h0 : m (off a k) = 0#8 := by simpa using h.nul
    refine ⟨v, ?_, by have := v.isLt; simp; omega⟩
    rw [atoiLoop, add_ofNat]; simp [h0]
  | cons c s ih =>
    intro k v h
    have hb := h.bytes 0 (by simp)
    rw [off_zero] at hb
    have hb : m (off a k) = c := hb
    have hc0 : c ≠ 0#8 := h.nz c (by simp)
    have ht : IsStr m (off a (k+1)) s := by
      refine ⟨?_, fun x hx => h.nz x (by simp [hx]), ?_, ?_⟩
      · intro j hj
        have := h.bytes (j+1) (by simpa using hj)
        rw [off_off] at this ⊢
        rw [show k + 1 + j = k + (j+1) by omega, this]; rfl
      · have := h.nul
        rw [off_off] at this ⊢
        rw [show k + 1 + s.length = k + (c :: s).length by simp; omega]; exact this
      · have := h.fits; simp at this; omega
    rw [atoiLoop, add_ofNat, hb, if_pos hc0, add_ofNat_succ]
    obtain ⟨r, e, f⟩ := ih (k+1) (if isDigit c then v * 10 + ord c - ord 0x30#8 else v) ht
    refine ⟨r, e, ?_⟩
    rw [f]
    by_cases hd : isDigit c = true
    · have hd' := (C01_isDigit c).1 hd
      have e1 : decDigit? c = some (c.toNat - 48) := by simp [decDigit?, hd']
      simp only [hd, if_true, List.filterMap_cons, e1, List.foldl_cons]
      have : (v * 10 + ord c - ord 0x30#8).toNat = (v.toNat * 10 + (c.toNat - 48)) % 65536 := by
        have e10 : (10 : Word).toNat = 10 := rfl
        have := c.isLt
        simp only [ord, BitVec.toNat_sub, BitVec.toNat_add, BitVec.toNat_mul, e10,
          BitVec.truncate_eq_setWidth, BitVec.toNat_setWidth, BitVec.toNat_ofNat]
        omega
      rw [this, foldl_mod]
    · have hd' := mt (C01_isDigit c).2 hd
      have e1 : decDigit? c = none := by simp [decDigit?, hd']
      simp only [hd, List.filterMap_cons, e1]
      rfl

/-- atoi: the value of the decimal digits of the string, modulo 2^16; all other characters
are ignored. -/
theorem C12_atoi (m : Mem) (a : Word) (s : List Byte) (h : IsStr m a s) :
    ∃ r, atoi m a = some r ∧ r.toNat = positional 10 (s.filterMap decDigit?) % 65536 := by
  have := atoiLoop_spec s 0 0 (by simpa using h)
  simpa [atoi, positional] using this

theorem htoiLoop_spec {m : Mem} {a : Word} : ∀ (s : List Byte) (k : Nat) (v : Word),
    IsStr m (off a k) s →
    ∃ r, htoiLoop m a v (BitVec.ofNat 16 k) = some r ∧
      r.toNat = (hexPrefix s).foldl (fun v d => v * 16 + d) v.toNat % 65536 := by
  intro s
  induction s with
  | nil =>
    intro k v h
    have h0 : m (off a k) = 0#8 := by simpa using h.nul
    refine ⟨v, ?_, by have := v.isLt; simp [hexPrefix]; omega⟩
    rw [htoiLoop, add_ofNat, h0]
    have : isXdigit 0#8 = false := by decide
    simp [this]
  | cons c s ih =>
    intro k v h
    have hb := h.bytes 0 (by simp)
    rw [off_zero] at hb
    have hb : m (off a k) = c := hb
    have ht : IsStr m (off a (k+1)) s := by
      refine ⟨?_, fun x hx => h.nz x (by simp [hx]), ?_, ?_⟩
      · intro j hj
        have := h.bytes (j+1) (by simpa using hj)
        rw [off_off] at this ⊢
        rw [show k + 1 + j = k + (j+1) by omega, this]; rfl
      · have := h.nul
        rw [off_off] at this ⊢
        rw [show k + 1 + s.length = k + (c :: s).length by simp; omega]; exact this
      · have := h.fits; simp at this; omega
    rw [htoiLoop, add_ofNat, hb]
    by_cases hx : isXdigit c = true
    · have hx' := (C01_isXdigit c).1 hx
      simp only [hx, if_true, add_ofNat_succ]
      obtain ⟨d, hd, hval⟩ : ∃ d, hexDigit? c = some d ∧
          ((if isDigit c then v * 16 + (ord c - ord 0x30#8)
             else v * 16 + (10 + ord (toUpper c) - ord 0x41#8)) : Word).toNat =
            (v.toNat * 16 + d) % 65536 := by
        have hlt := c.isLt
        have e16 : (16 : Word).toNat = 16 := rfl
        have e10 : (10 : Word).toNat = 10 := rfl
        by_cases hd : isDigit c = true
        · have hd' := (C01_isDigit c).1 hd
          refine ⟨c.toNat - 48, by simp [hexDigit?, hd'], ?_⟩
          rw [if_pos hd]
          simp only [ord, BitVec.toNat_sub, BitVec.toNat_add, BitVec.toNat_mul, e16,
            BitVec.truncate_eq_setWidth, BitVec.toNat_setWidth, BitVec.toNat_ofNat]
          omega
        · have hd' := mt (C01_isDigit c).2 hd
          rw [if_neg hd]
          have hu := C01_toUpper c
          simp only [ord, BitVec.toNat_sub, BitVec.toNat_add, BitVec.toNat_mul, e16, e10,
            BitVec.truncate_eq_setWidth, BitVec.toNat_setWidth, BitVec.toNat_ofNat, hu]
          rcases hx' with h1 | h1 | h1
          · exact absurd h1 hd'
          · refine ⟨c.toNat - 55, by unfold hexDigit?; rw [if_neg hd', if_pos h1], ?_⟩
            rw [if_neg (by omega)]; omega
          · refine ⟨c.toNat - 87, by unfold hexDigit?; rw [if_neg hd', if_neg (by omega), if_pos h1], ?_⟩
            rw [if_pos (by omega)]; omega
      obtain ⟨r, e, f⟩ := ih (k+1) _ ht
      refine ⟨r, e, ?_⟩
      rw [f, hval]
      simp only [hexPrefix, hd, List.foldl_cons]
      rw [foldl_mod]
    · have hx' := mt (C01_isXdigit c).2 hx
      refine ⟨v, by simp [hx], ?_⟩
      have : hexDigit? c = none := by
        unfold hexDigit?
        rw [if_neg (by omega), if_neg (by omega), if_neg (by omega)]
      have := v.isLt
      simp [hexPrefix, *]
      omega

/-- htoi: the value of the hexadecimal digits at the start of the string, modulo 2^16. -/
theorem C12_htoi (m : Mem) (a : Word) (s : List Byte) (h : IsStr m a s) :
    ∃ r, htoi m a = some r ∧ r.toNat = positional 16 (hexPrefix s) % 65536 := by
  have := htoiLoop_spec s 0 0 (by simpa using h)
  simpa [htoi, positional] using this

/-- Specification: decimal notation of a number (most significant digit first). -/
def decimal (n : Nat) : List Nat :=
  if n < 10 then [n] else decimal (n / 10) ++ [n % 10]
termination_by n
decreasing_by omega

theorem decimal_val (n : Nat) : positional 10 (decimal n) = n := by
  fun_induction decimal with
  | case1 n h => simp [positional]
  | case2 n h ih =>
    unfold positional at ih ⊢
    rw [List.foldl_append, ih]
    simp; omega

/-- The character of a decimal digit. -/
def digitChar (d : Nat) : Byte := BitVec.ofNat 8 (48 + d)

theorem decimal_lt (n : Nat) : ∀ d ∈ decimal n, d < 10 := by
  fun_induction decimal with
  | case1 n h => simpa using h
  | case2 n h ih =>
    intro d hd
    rcases List.mem_append.1 hd with hd | hd
    · exact ih d hd
    · simp at hd; omega

/-- Round trip: reading the decimal notation of any 16-bit number gives the number back. -/
theorem C12_atoi_decimal (m : Mem) (a : Word) (n : Word)
    (h : IsStr m a ((decimal n.toNat).map digitChar)) : atoi m a = some n := by
  obtain ⟨r, e, f⟩ := C12_atoi m a _ h
  have hd : ((decimal n.toNat).map digitChar).filterMap decDigit? = decimal n.toNat := by
    have hlt := decimal_lt n.toNat
    generalize decimal n.toNat = ds at hlt ⊢
    induction ds with
    | nil => rfl
    | cons d ds ih =>
      have hd := hlt d (by simp)
      have : decDigit? (digitChar d) = some d := by
        simp [decDigit?, digitChar]; omega
      simp [this, ih (fun x hx => hlt x (by simp [hx]))]
  rw [hd, decimal_val, Nat.mod_eq_of_lt n.isLt] at f
  rw [e, BitVec.eq_of_toNat_eq f]

-- "407" denotes 407; the notation of 407 is "407"
example : positional 10 ([52#8, 48#8, 55#8].filterMap decDigit?) = 407 := by decide
example : positional 16 (hexPrefix [70#8, 102#8, 103#8]) = 255 := by decide

end Cmm.Stdlib
