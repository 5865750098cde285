import Verif.Lib.CMain

/-
C87: main of translated programs with run-time checks hands all arguments and the environment to the program, in arrays whose checked
lengths are those of the memory allocated; htoi reads hexadecimal numbers.
-/
namespace Cmm.CLib

/-- Specification: an array of strings as the program sees it: its checked length is that of its elements, which are the strings in order
and a NULL; each string has a checked length of all its bytes and the NUL. -/
def Sees (r : RA) (ss : List (List Nat)) : Prop :=
  r.l = ss.length + 1 ∧ r.a.length = r.l ∧
  (∀ i (h : i < ss.length), ∃ c, r.a[i]? = some (.ca c) ∧ c.a = ss[i] ++ [0] ∧ c.l = c.a.length) ∧
  r.a[ss.length]? = some .null

/-- What the system hands over: the strings and a NULL. -/
def given (ss : List (List Nat)) : List (Option (List Nat)) := ss.map some ++ [none]

theorem newCA_spec (s : List Nat) : newCA s = some ⟨s.length + 1, s ++ [0]⟩ := by
  simp [newCA, strcpyTo]

theorem fill_spec (ss : List (List Nat)) (more : List (Option (List Nat))) : ∀ k i (a : List Cell), i + k = ss.length → ss.length < a.length →
    ∃ b, fill (ss.map some ++ more) ss.length i a = some b ∧ b.length = a.length ∧
      (∀ j, j < i ∨ ss.length ≤ j → b[j]? = a[j]?) ∧
      ∀ j (h : j < ss.length), i ≤ j → b[j]? = some (.ca ⟨ss[j].length + 1, ss[j] ++ [0]⟩) := by
  intro k
  induction k with
  | zero =>
    intro i a hi ha
    rw [fill, if_neg (by omega)]
    exact ⟨a, rfl, rfl, fun _ _ => rfl, fun j h h' => by omega⟩
  | succ k ih =>
    intro i a hi ha
    have hlt : i < ss.length := by omega
    obtain ⟨b, e1, e2, e3, e4⟩ := ih (i + 1) (a.set i (.ca ⟨ss[i].length + 1, ss[i] ++ [0]⟩)) (by omega) (by simpa using ha)
    have hget : (ss.map some ++ more)[i]? = some (some ss[i]) := by
      rw [List.getElem?_append_left (by simpa using hlt)]; simp [hlt]
    refine ⟨b, ?_, by simpa using e2, ?_, ?_⟩
    · rw [fill, if_pos hlt]
      simp only [hget, Option.bind_eq_bind, Option.bind_some, newCA_spec, write]
      rw [if_pos (by omega)]
      exact e1
    · intro j hj
      rw [e3 j (by omega), List.getElem?_set_ne (by omega)]
    · intro j h hj
      by_cases e : j = i
      · subst e
        rw [e3 j (by omega), List.getElem?_set_self (by omega)]
      · exact e4 j h (by omega)

theorem newRA_spec (ss : List (List Nat)) (more : List (Option (List Nat))) :
    ∃ r, newRA (ss.map some ++ more) ss.length = some r ∧ Sees r ss := by
  obtain ⟨b, e1, e2, e3, e4⟩ := fill_spec ss more ss.length 0 ((List.replicate (ss.length + 1) Cell.junk).set ss.length .null) (by omega)
    (by simp)
  refine ⟨⟨ss.length + 1, b⟩, ?_, rfl, by simpa using e2, ?_, ?_⟩
  · simp only [newRA, write, List.length_replicate, Nat.lt_succ_self, if_true, Option.bind_eq_bind, Option.bind_some, e1]
    rfl
  · intro i h
    exact ⟨_, e4 i h (by omega), rfl, by simp⟩
  · show b[ss.length]? = _
    rw [e3 _ (.inr (Nat.le_refl _)), List.getElem?_set_self (by simp)]

theorem countEnv_spec (ss : List (List Nat)) (more : List (Option (List Nat))) : ∀ k i, i + k = ss.length →
    countEnv (ss.map some ++ none :: more) i = some ss.length := by
  intro k
  induction k with
  | zero =>
    intro i hi
    have h : (ss.map some ++ none :: more)[i]? = some none := by
      rw [List.getElem?_append_right (by simp; omega)]; simp [show i - ss.length = 0 by omega]
    rw [countEnv]
    split
    · next h' => rw [h] at h'; simp at h'
    · simp; omega
    · next h' => rw [h] at h'; simp at h'
  | succ k ih =>
    intro i hi
    have hlt : i < ss.length := by omega
    have h : (ss.map some ++ none :: more)[i]? = some (some ss[i]) := by
      rw [List.getElem?_append_left (by simpa using hlt)]; simp [hlt]
    rw [countEnv]
    split
    · next h' => rw [h] at h'; simp at h'
    · next h' => rw [h] at h'; simp at h'
    · exact ih (i + 1) (by omega)

/-- C87: for all arguments and environments main does nothing undefined, and the program sees them. -/
theorem C87 (args envs : List (List Nat)) :
    ∃ r s, mainArgs args.length (given args) (given envs) = some (args.length, r, s) ∧ Sees r args ∧ Sees s envs := by
  obtain ⟨r, h1, h2⟩ := newRA_spec args [none]
  obtain ⟨s, h3, h4⟩ := newRA_spec envs [none]
  refine ⟨r, s, ?_, h2, h4⟩
  simp [mainArgs, given, h1, countEnv_spec envs [] envs.length 0 (by omega), h3]

/-- Specification: the value of a hexadecimal digit. -/
def hexVal (c : Char) : Option Nat := (['0', '1', '2', '3', '4', '5', '6', '7', '8', '9', 'a', 'b', 'c', 'd', 'e', 'f'].findIdx? (· = c)).or
  ((['A', 'B', 'C', 'D', 'E', 'F'].findIdx? (· = c)).map (· + 10))

/-- The values of the digits a text begins with. -/
def hexDigits : List Char → List Nat
  | [] => []
  | c :: s => match hexVal c with
    | some d => d :: hexDigits s
    | none => []

/-- The number of hexadecimal digits, the last of which is worth one. -/
def hexNum : List Nat → Nat
  | [] => 0
  | d :: ds => d * 16 ^ ds.length + hexNum ds

theorem hexVal_small : ∀ n, n < 128 → (isxdigit (Char.ofNat n) = true ∧ hexVal (Char.ofNat n) =
      some (if (Char.ofNat n).isDigit then (Char.ofNat n).toNat - 48 else 10 + toupper (Char.ofNat n) - 65)) ∨
    (isxdigit (Char.ofNat n) = false ∧ hexVal (Char.ofNat n) = none) := by decide +kernel

theorem hexVal_spec (c : Char) : (isxdigit c = true ∧ hexVal c = some (if c.isDigit then c.toNat - 48 else 10 + toupper c - 65)) ∨
    (isxdigit c = false ∧ hexVal c = none) := by
  by_cases h : c.toNat < 128
  · have := hexVal_small c.toNat h
    rwa [Char.ofNat_toNat] at this
  · right
    have ne : ∀ d : Char, d.toNat < 128 → d ≠ c := fun d hd e => h (e ▸ hd)
    constructor
    · have h1 : c.isDigit = false := by
        unfold Char.isDigit
        have : ¬ c.val ≤ 57 := by
          intro e
          have : c.toNat ≤ 57 := e
          omega
        simp [this]
      simp only [isxdigit, h1, Bool.false_or, Bool.or_eq_false_iff, Bool.and_eq_false_iff, decide_eq_false_iff_not]
      constructor <;> right <;> omega
    · have k1 : ∀ l : List Char, (∀ d ∈ l, d.toNat < 128) → l.findIdx? (· = c) = none := by
        intro l hl
        rw [List.findIdx?_eq_none_iff]
        intro d hd
        simpa using ne d (hl d hd)
      unfold hexVal
      rw [k1 _ (by decide), k1 _ (by decide)]
      rfl

theorem htoiLoop_spec (s : List Char) : ∀ v, v < 2147483648 →
    htoiLoop v s = if v * 16 ^ (hexDigits s).length + hexNum (hexDigits s) < 2147483648 then
      some (v * 16 ^ (hexDigits s).length + hexNum (hexDigits s)) else none := by
  induction s with
  | nil => intro v hv; simp [htoiLoop, hexDigits, hexNum, hv]
  | cons c s ih =>
    intro v hv
    rcases hexVal_spec c with ⟨h1, h2⟩ | ⟨h1, h2⟩
    · generalize hd : (if c.isDigit then c.toNat - 48 else 10 + toupper c - 65) = d at h2
      have e : (if c.isDigit then v * 16 + (c.toNat - 48) else v * 16 + (10 + toupper c - 65)) = v * 16 + d := by
        rw [← hd]; split <;> rfl
      have e2 : v * 16 ^ ((hexDigits s).length + 1) + (d * 16 ^ (hexDigits s).length + hexNum (hexDigits s)) =
          (v * 16 + d) * 16 ^ (hexDigits s).length + hexNum (hexDigits s) := by
        rw [Nat.pow_succ, Nat.add_mul, Nat.mul_assoc v 16, Nat.mul_comm 16 (16 ^ _)]; omega
      simp only [htoiLoop, h1, if_true, e, hexDigits, h2, List.length_cons, hexNum, e2]
      by_cases hb : v * 16 + d < 2147483648
      · rw [if_pos hb, ih _ hb]
      · rw [if_neg hb, if_neg]
        have : 0 < 16 ^ (hexDigits s).length := Nat.pow_pos (by omega)
        have := Nat.le_mul_of_pos_right (v * 16 + d) this
        omega
    · simp [htoiLoop, h1, hexDigits, h2, hexNum, hv]

/-- C87: htoi gives the number of the hexadecimal digits (of both cases) a text begins with, if it is an int; else the result is undefined
in C. -/
theorem C87_htoi (s : List Char) : htoi s = if hexNum (hexDigits s) < 2147483648 then some (hexNum (hexDigits s)) else none := by
  rw [htoi, htoiLoop_spec s 0 (by omega)]; simp

theorem hexNum_snoc (ds : List Nat) (d : Nat) : hexNum (ds ++ [d]) = hexNum ds * 16 + d := by
  induction ds with
  | nil => simp [hexNum]
  | cons e ds ih =>
    rw [List.cons_append, hexNum, hexNum, ih, List.length_append, List.length_singleton, Nat.pow_succ, Nat.add_mul, Nat.mul_assoc]
    omega

theorem hexVal_digit : ∀ d, d < 16 → hexVal (Nat.digitChar d) = some d := by decide +kernel

theorem toDigits_hex (n : Nat) : ∃ ds, hexNum ds = n ∧ ∀ r, hexDigits (Nat.toDigits 16 n ++ r) = ds ++ hexDigits r := by
  induction n using Nat.strongRecOn with
  | ind n ih =>
    have one : ∀ d r, d < 16 → hexDigits (Nat.digitChar d :: r) = d :: hexDigits r := by
      intro d r hd
      rw [hexDigits, hexVal_digit d hd]
    by_cases h : n < 16
    · exact ⟨[n], by simp [hexNum], fun r => by rw [Nat.toDigits_of_lt_base h]; exact one n r h⟩
    · obtain ⟨ds, h1, h2⟩ := ih (n / 16) (by omega)
      refine ⟨ds ++ [n % 16], by rw [hexNum_snoc, h1]; omega, fun r => ?_⟩
      rw [Nat.toDigits_of_base_le (show 1 < 16 by omega) (show 16 ≤ n by omega), List.append_assoc, h2, List.append_assoc]
      congr 1
      exact one _ r (by omega)

/-- C87: the hexadecimal notation of an int that is not negative, which is what %x prints (C84), is read back, whatever other text
follows. -/
theorem C87_round (n : Nat) (h : n < 2147483648) (r : List Char) (hr : ∀ c, r.head? = some c → hexVal c = none) :
    htoi (Nat.toDigits 16 n ++ r) = some n := by
  obtain ⟨ds, h1, h2⟩ := toDigits_hex n
  have : hexDigits r = [] := by
    cases r with
    | nil => rfl
    | cons c r => rw [hexDigits, hr c rfl]
  rw [C87_htoi, h2, this, List.append_nil, h1, if_pos h]

/-- "Numbers printed with %x are read back" is false from 2^31 on: the int overflows. On TaC (C12) the value is taken modulo 2^16. -/
theorem C87_overflow_false : htoi ['8', '0', '0', '0', '0', '0', '0', '0'] = none ∧ hexNum (hexDigits ['8', '0', '0', '0', '0', '0', '0', '0']) =
    2147483648 := by
  constructor <;> decide +kernel

/-! A program called with "ls" and "-l" and one variable; htoi of "7fZ". -/

example : ∃ r s, mainArgs 2 [some [108, 115], some [45, 108], none] [some [65, 61, 66], none] = some (2, r, s) ∧
    Sees r [[108, 115], [45, 108]] ∧ Sees s [[65, 61, 66]] := C87 [[108, 115], [45, 108]] [[65, 61, 66]]

example : htoi ['7', 'f', 'A', 'Z', '1'] = some 2042 := by
  rw [C87_htoi]; decide +kernel

example : htoi (Nat.toDigits 16 1048575 ++ [' ', '1']) = some 1048575 :=
  C87_round _ (by decide) _ (fun c h => by simp at h; subst h; decide +kernel)

end Cmm.CLib
