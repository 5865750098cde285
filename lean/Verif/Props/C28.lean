import Mathlib.Data.Nat.Digits.Lemmas
import Verif.Lex.Run

/-
C28 Integer literals denote their value.

`numVal base ds` (Verif/Lex/Spec.lean) is the number written by the digits `ds`. The literal ends where
the text has no further digit; what follows is arbitrary. `00`, `08` and `09`: the octal literal
ends before the first digit which is not octal.
-/
namespace Cmm.Lex

/-- Decimal literals. -/
theorem C28_dec (s : LS) (d : Nat) (ds r : List Nat) (hi : s.inp = d :: ds ++ r)
    (hd : ∀ c ∈ d :: ds, 48 ≤ c ∧ c ≤ 57) (h0 : d ≠ 48)
    (hr : ∀ c, r.head? = some c → ¬ (48 ≤ c ∧ c ≤ 57)) (hv : numVal 10 (d :: ds) < 2 ^ 31) :
    lxGetTok s = .ok (201, ⟨r, numVal 10 (d :: ds), s.str⟩) := by
  have h := lxGetTok_run s (g := []) (p := d :: ds) hi .nil (.dec hd h0)
    (sep_dec (hd d (by simp)) h0 hr) (by simp)
  rw [h, wrap_fits hv]
  rfl

/-- Octal literals. -/
theorem C28_oct (s : LS) (ds r : List Nat) (hi : s.inp = 48 :: ds ++ r)
    (hd : ∀ c ∈ ds, 48 ≤ c ∧ c ≤ 55) (hr : ∀ c, r.head? = some c → ¬ (48 ≤ c ∧ c ≤ 55))
    (hx : ds = [] → ∀ c, r.head? = some c → c ≠ 120 ∧ c ≠ 88) (hv : numVal 8 ds < 2 ^ 31) :
    lxGetTok s = .ok (201, ⟨r, numVal 8 ds, s.str⟩) := by
  have h := lxGetTok_run s (g := []) (p := 48 :: ds) hi .nil (.oct hd) (sep_oct hd hr hx) (by simp)
  rw [h, wrap_fits hv]
  rfl

/-- Hexadecimal literals. -/
theorem C28_hex (s : LS) (x : Nat) (ds r : List Nat) (hi : s.inp = 48 :: x :: ds ++ r)
    (hx : x = 120 ∨ x = 88) (hne : ds ≠ [])
    (hd : ∀ c ∈ ds, (48 ≤ c ∧ c ≤ 57) ∨ (65 ≤ c ∧ c ≤ 70) ∨ (97 ≤ c ∧ c ≤ 102))
    (hr : ∀ c, r.head? = some c → ¬ ((48 ≤ c ∧ c ≤ 57) ∨ (65 ≤ c ∧ c ≤ 70) ∨ (97 ≤ c ∧ c ≤ 102)))
    (hv : numVal 16 ds < 2 ^ 31) : lxGetTok s = .ok (201, ⟨r, numVal 16 ds, s.str⟩) := by
  have h := lxGetTok_run s (g := []) (p := 48 :: x :: ds) hi .nil (.hex hx hne hd) (sep_hex hx hr) (by simp)
  rw [h, wrap_fits hv]
  rfl

/-- All numbers below 2^31 can be written: the decimal digits of `n` are read as `n`. -/
theorem numVal_digits (n : Nat) :
    numVal 10 ((Nat.digits 10 n).reverse.map (· + 48)) = n := by
  unfold numVal
  rw [← List.map_reverse, List.reverse_reverse, List.map_map]
  have : (Nat.digits 10 n).map (digitVal ∘ (· + 48)) = Nat.digits 10 n := by
    conv_rhs => rw [← List.map_id (Nat.digits 10 n)]
    apply List.map_congr_left
    intro d hd
    have := Nat.digits_lt_base (by omega) hd
    simp only [Function.comp, digitVal, id]
    rw [if_pos (by omega)]
    omega
  rw [this, Nat.ofDigits_digits]

/-- The value of a decimal numeral. -/
theorem C28_decimal (s : LS) (n : Nat) (r : List Nat) (hn : 0 < n) (hv : n < 2 ^ 31)
    (hi : s.inp = (Nat.digits 10 n).reverse.map (· + 48) ++ r)
    (hr : ∀ c, r.head? = some c → ¬ (48 ≤ c ∧ c ≤ 57)) :
    lxGetTok s = .ok (201, ⟨r, n, s.str⟩) := by
  have hnd := numVal_digits n
  have hne : Nat.digits 10 n ≠ [] := Nat.digits_ne_nil_iff_ne_zero.2 (by omega)
  have hlast := Nat.getLast_digit_ne_zero 10 (m := n) (by omega)
  cases hx : (Nat.digits 10 n).reverse.map (· + 48) with
  | nil => simp [hne] at hx
  | cons d ds =>
    rw [hx] at hi hnd
    have hd : ∀ c ∈ d :: ds, 48 ≤ c ∧ c ≤ 57 := by
      rw [← hx]
      intro c hc
      simp only [List.mem_map, List.mem_reverse] at hc
      obtain ⟨e, he, rfl⟩ := hc
      have := Nat.digits_lt_base (by omega) he
      omega
    have h0 : d ≠ 48 := by
      have h1 : ((Nat.digits 10 n).reverse.map (· + 48)).head? = some d := by rw [hx]; rfl
      rw [List.head?_map, List.head?_reverse, List.getLast?_eq_some_getLast hne] at h1
      simp at h1
      omega
    have := C28_dec s d ds r hi hd h0 hr (by rw [hnd]; exact hv)
    rw [hnd] at this
    exact this

/-! `0x7fFF+1`, `0177;`, `08` (0, then 8), `2147483647` -/

example : lxGetTok ⟨bytes "0x7fFF+1", 0, []⟩ = .ok (201, ⟨bytes "+1", 32767, []⟩) :=
  C28_hex _ 120 (bytes "7fFF") (bytes "+1") (by decide +kernel) (by decide) (by decide +kernel)
    (by decide +kernel) (by decide +kernel) (by decide +kernel)

example : lxGetTok ⟨bytes "0177;", 0, []⟩ = .ok (201, ⟨bytes ";", 127, []⟩) :=
  C28_oct _ (bytes "177") (bytes ";") (by decide +kernel) (by decide +kernel) (by decide +kernel)
    (by decide +kernel) (by decide +kernel)

example : lxGetTok ⟨bytes "08", 0, []⟩ = .ok (201, ⟨bytes "8", 0, []⟩) :=
  C28_oct _ [] (bytes "8") (by decide +kernel) (by decide +kernel) (by decide +kernel)
    (by decide +kernel) (by decide +kernel)

example : lxGetTok ⟨bytes "2147483647", 0, []⟩ = .ok (201, ⟨[], 2147483647, []⟩) :=
  C28_dec _ 50 (bytes "147483647") [] (by decide +kernel) (by decide +kernel) (by decide)
    (by simp) (by decide +kernel)

end Cmm.Lex
