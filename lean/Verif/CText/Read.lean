import Verif.CText.LexPrint

/-
The C expression an expression tree stands for, and the proof that the tokens printed for the tree
are this C expression.
-/
namespace Cmm.CText

/-- An argument list. -/
def CE.ofList : List CE → CE
  | [] => .nil
  | a :: as => .cons a (CE.ofList as)

mutual
/-- The C expression: chr() and bool() are masks, addrof() is a cast of an address, `a.x` is `a->x`. -/
def tr : Exp → CE
  | .cnst v => if v < 0 then .un .minus (.num v.natAbs) else .num v.natAbs
  | .str n => .id (strLab n)
  | .var x => .id x
  | .addr x => .cast [t!"int"] 0 (.un .amp (.id x))
  | .func f as => .call (.id f) (CE.ofList (trA as))
  | .idx a i => .idx (tr a) (tr i)
  | .dot a x => .mem .arrow (tr a) x
  | .chr e => .bin .amp (.num 255) (tr e)
  | .bool e => .bin .amp (.num 1) (tr e)
  | .size t dim => .szT [t.word] (stars t dim true)
  | .un o e => .un o.p (tr e)
  | .bin o l r => .bin o.p (tr l) (tr r)
def trA : Args → List CE
  | .nil => []
  | .one e => [tr e]
  | .semi a b => trA a ++ trA b
end

/-- The text is a postfix expression: every expression but a negative constant and sizeof. -/
def Exp.post : Exp → Bool
  | .cnst v => decide (0 ≤ v)
  | .size _ _ => false
  | _ => true

mutual
/-- Names of variables and functions are identifiers of C and not names of types, the left operand of
`[]` and `.` is not a negative constant or sizeof, an argument list has no empty place. -/
def GOk (ty : Text → Bool) : Exp → Prop
  | .cnst _ => True
  | .str n => Ident ty (strLab n)
  | .var x => Ident ty x
  | .addr x => Ident ty x
  | .func f as => Ident ty f ∧ (as = .nil ∨ GOkA ty as)
  | .idx a i => GOk ty a ∧ GOk ty i ∧ a.post = true
  | .dot a x => GOk ty a ∧ x ∉ keywords ∧ a.post = true
  | .chr e => GOk ty e
  | .bool e => GOk ty e
  | .size t _ => ty t.word = true
  | .un _ e => GOk ty e
  | .bin _ l r => GOk ty l ∧ GOk ty r
def GOkA (ty : Text → Bool) : Args → Prop
  | .nil => False
  | .one e => GOk ty e
  | .semi a b => GOkA ty a ∧ GOkA ty b
end

/-! Numerals. -/

theorem readNum_append (b a : Nat) (s t : Text) :
    readNum b a (s ++ t) = (readNum b a s).bind fun a' => readNum b a' t := by
  induction s generalizing a with
  | nil => rfl
  | cons c s ih =>
    simp only [List.cons_append, readNum]
    split
    · exact ih _
    · rfl

theorem digVal_of {n : Nat} (h : n < 10) :
    (Char.ofNat (48 + n)).isAlphanum = true ∧ digVal (Char.ofNat (48 + n)) = n := by
  have : n = 0 ∨ n = 1 ∨ n = 2 ∨ n = 3 ∨ n = 4 ∨ n = 5 ∨ n = 6 ∨ n = 7 ∨ n = 8 ∨ n = 9 := by omega
  rcases this with rfl | rfl | rfl | rfl | rfl | rfl | rfl | rfl | rfl | rfl <;> decide

theorem readNum_dec (n : Nat) : readNum 10 0 (dec n) = some n := by
  induction n using Nat.strongRecOn with
  | ind n ih =>
    rw [dec]
    split
    · rename_i h
      obtain ⟨h1, h2⟩ := digVal_of h
      simp [readNum, h1, h2, h]
    · obtain ⟨h1, h2⟩ := digVal_of (n := n % 10) (by omega)
      rw [readNum_append, ih (n / 10) (by omega)]
      simp only [Option.bind_some, readNum, h1, h2]
      rw [if_pos ⟨trivial, by omega⟩]
      congr 1
      omega

theorem dec_first {n : Nat} (h : 0 < n) : ∃ c cs, dec n = c :: cs ∧ c ≠ '0' := by
  induction n using Nat.strongRecOn with
  | ind n ih =>
    rw [dec]
    split
    · rename_i h9
      refine ⟨_, _, rfl, fun h0 => ?_⟩
      have := (digit_of h9).2
      rw [h0] at this
      have e : '0'.toNat = 48 := rfl
      omega
    · obtain ⟨c, cs, h1, h2⟩ := ih (n / 10) (by omega) (by omega)
      exact ⟨c, cs ++ [Char.ofNat (48 + n % 10)], by rw [h1]; rfl, h2⟩

/-- The decimal numeral of n is a C constant of value n. -/
theorem numVal_dec (n : Nat) : numVal (dec n) = some n := by
  rcases Nat.eq_zero_or_pos n with rfl | h
  · rw [dec]; rfl
  · obtain ⟨c, cs, h1, h2⟩ := dec_first h
    have h3 := readNum_dec n
    rw [h1] at h3 ⊢
    unfold numVal
    split
    · rename_i h; cases h; exact absurd rfl h2
    · rename_i h; cases h; exact absurd rfl h2
    · exact h3

/-! Derivations. -/

theorem D.lower {ty : Text → Bool} {l : Nat} {ts : List Tok} {e : CE} (h : D ty l ts e) (k : Nat) (hk : k ≤ l)
    (hl : l ≤ 16) : D ty k ts e := by
  induction l with
  | zero => obtain rfl : k = 0 := by omega
            exact h
  | succ l ih =>
    rcases Nat.eq_or_lt_of_le hk with rfl | hk
    · exact h
    · exact ih (.up (by omega) h) (by omega) (by omega)

/-- The level of a binary operator other than assignment. -/
theorem Bi.lev (o : Bi) (h : o ≠ .ass) : ∃ l, binLev o.p = some l ∧ l ≤ 12 := by
  cases o <;> first | exact ⟨_, rfl, by decide⟩ | exact absurd rfl h

theorem D.args {ty : Text → Bool} {ts us : List Tok} {as bs : List CE} (h : D ty 17 ts (CE.ofList as))
    (h' : D ty 17 us (CE.ofList bs)) : D ty 17 (ts ++ .pun .comma :: us) (CE.ofList (as ++ bs)) := by
  generalize hl : 17 = l at h
  generalize he : CE.ofList as = e at h
  induction h generalizing as with
  | arg1 h1 =>
    cases as with
    | nil => cases he
    | cons a as =>
      simp only [CE.ofList, CE.cons.injEq] at he
      obtain ⟨rfl, he⟩ := he
      cases as with
      | nil => exact .arg h1 h'
      | cons => cases he
  | arg h1 h2 _ ih =>
    cases as with
    | nil => cases he
    | cons a as =>
      simp only [CE.ofList, CE.cons.injEq] at he
      obtain ⟨rfl, he⟩ := he
      rw [List.append_assoc]
      exact .arg h1 (ih hl he)
  | bin h => have := (binLev_le h).hi; omega
  | _ => omega

mutual
/-- The tokens of an expression are the C expression it stands for: a unary expression, and a postfix
expression unless it is a negative constant or sizeof. -/
theorem read_exp (ty : Text → Bool) (hi : ty t!"int" = true) (e : Exp) (h : GOk ty e) :
    D ty 14 (toks e) (tr e) ∧ (e.post = true → D ty 15 (toks e) (tr e)) := by
  have fin : ∀ {ts : List Tok} {e : CE} {b : Bool}, D ty 16 ts e →
      D ty 14 ts e ∧ (b = true → D ty 15 ts e) :=
    fun h => ⟨h.lower 14 (by omega) (by omega), fun _ => h.lower 15 (by omega) (by omega)⟩
  have fin15 : ∀ {ts : List Tok} {e : CE} {b : Bool}, D ty 15 ts e →
      D ty 14 ts e ∧ (b = true → D ty 15 ts e) := fun h => ⟨h.lower 14 (by omega) (by omega), fun _ => h⟩
  have par : ∀ {ts : List Tok} {e : CE} {l : Nat} {b : Bool}, l ≤ 14 → D ty l ts e →
      D ty 14 (.pun .lpar :: (ts ++ [.pun .rpar])) e ∧ (b = true → D ty 15 (.pun .lpar :: (ts ++ [.pun .rpar])) e) :=
    fun hl h => fin (.paren (h.lower 0 (by omega) (by omega)))
  cases e with
  | cnst v =>
    simp only [toks, tr]
    split
    · rename_i hv
      refine ⟨.un rfl ((D.num (numVal_dec _)).lower 13 (by omega) (by omega)), fun hn => ?_⟩
      simp [Exp.post] at hn
      omega
    · exact fin (.num (numVal_dec _))
  | str n => exact fin (.id h)
  | var x => exact fin (.id h)
  | addr x =>
    have h1 : D ty 13 _ _ := .cast (n := 0) (t := [t!"int"]) ⟨by simp, by simpa using hi⟩
      ((D.un (o := .amp) rfl ((D.id h).lower 13 (by omega) (by omega))).lower 13 (by omega) (by omega))
    exact par (l := 13) (by omega) h1
  | func f as =>
    obtain ⟨hf, ha⟩ := h
    rcases ha with rfl | ha
    · exact fin15 (.call0 ((D.id hf).lower 15 (by omega) (by omega)))
    · exact fin15 (.call ((D.id hf).lower 15 (by omega) (by omega)) (read_args ty hi as ha))
  | idx a i =>
    obtain ⟨h1, h2, h3⟩ := h
    exact fin15 (.idx ((read_exp ty hi a h1).2 h3) ((read_exp ty hi i h2).1.lower 0 (by omega) (by omega)))
  | dot a x =>
    obtain ⟨h1, h2, h3⟩ := h
    exact fin15 (.mem rfl ((read_exp ty hi a h1).2 h3) h2)
  | chr e =>
    have h1 := (read_exp ty hi e h).1
    have h2 : D ty 7 [.num t!"0xff"] (.num 255) := (D.num (by decide)).lower 7 (by omega) (by omega)
    exact par (l := 7) (by omega) (.bin (o := .amp) rfl h2 (h1.lower 8 (by omega) (by omega)))
  | bool e =>
    have h1 := (read_exp ty hi e h).1
    have h2 : D ty 7 [.num t!"0x01"] (.num 1) := (D.num (by decide)).lower 7 (by omega) (by omega)
    exact par (l := 7) (by omega) (.bin (o := .amp) rfl h2 (h1.lower 8 (by omega) (by omega)))
  | size t dim =>
    have h' : ty t.word = true := h
    exact ⟨.szT (n := stars t dim true) (t := [t.word]) ⟨by simp, by simpa using h'⟩, fun hn => by cases hn⟩
  | un o e =>
    have h1 := (read_exp ty hi e h).1
    exact par (l := 14) (by omega) (.un (by cases o <;> rfl) (h1.lower 13 (by omega) (by omega)))
  | bin o l r =>
    have h1 := (read_exp ty hi l h.1).1
    have h2 := (read_exp ty hi r h.2).1
    have key : ∃ k, k ≤ 14 ∧ D ty k (toks l ++ .pun o.p :: toks r) (.bin o.p (tr l) (tr r)) := by
      by_cases ho : o = .ass
      · subst ho
        exact ⟨1, by omega, .asg rfl h1 (h2.lower 1 (by omega) (by omega))⟩
      · obtain ⟨k, hk, hk2⟩ := o.lev ho
        exact ⟨k, by omega, .bin hk (h1.lower k (by omega) (by omega)) (h2.lower _ (by omega) (by omega))⟩
    obtain ⟨k, hk, hd⟩ := key
    have := par (b := Exp.post (.bin o l r)) hk hd
    simpa [toks, tr] using this
theorem read_args (ty : Text → Bool) (hi : ty t!"int" = true) (a : Args) (h : GOkA ty a) :
    D ty 17 (atoks a) (CE.ofList (trA a)) := by
  cases a with
  | nil => cases h
  | one e => exact .arg1 ((read_exp ty hi e h).1.lower 1 (by omega) (by omega))
  | semi a b => exact (read_args ty hi a h.1).args (read_args ty hi b h.2)
end

end Cmm.CText
