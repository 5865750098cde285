import Mathlib.Tactic.Tauto
/-
Specification: the tokens of a C text (ISO C 6.4: identifiers, preprocessing numbers, punctuators;
the longest match is taken). Character constants, string literals and universal character names are
left out: the translator prints none of them in a function body. A text with a comment has no tokens
here.
-/
namespace Cmm.CText

abbrev Text := List Char

/-- A string as the list of its characters. -/
macro:max "t!" s:str : term => do
  let cs := (s.getString.toList.map Lean.Syntax.mkCharLit).toArray
  `([$cs,*])

/-- Letters and the underscore. -/
def isIdStart (c : Char) : Bool := c.isAlpha || c == '_'
/-- Letters, digits and the underscore. -/
def isIdChar (c : Char) : Bool := c.isAlphanum || c == '_'
def isWs (c : Char) : Bool := c == ' ' || c == '\n' || c == '\t'

/-- The punctuators of C (6.4.6), without the digraphs, and the two comment openers. -/
inductive P
  | lbr | rbr | lpar | rpar | lcur | rcur | dot | arrow | inc | dec | amp | star | plus | minus
  | tilde | bang | slash | pct | shl | shr | lt | gt | le | ge | eq | ne | hat | bar | andand | barbar
  | quest | colon | semi | dots | ass | mulA | divA | modA | addA | subA | shlA | shrA | andA | xorA
  | orA | comma | hash | hashhash | line | comment
deriving DecidableEq, Repr

def P.txt : P → Text
  | .lbr => ['['] | .rbr => [']'] | .lpar => ['('] | .rpar => [')'] | .lcur => ['{'] | .rcur => ['}']
  | .dot => ['.'] | .arrow => ['-', '>'] | .inc => ['+', '+'] | .dec => ['-', '-'] | .amp => ['&']
  | .star => ['*'] | .plus => ['+'] | .minus => ['-'] | .tilde => ['~'] | .bang => ['!']
  | .slash => ['/'] | .pct => ['%'] | .shl => ['<', '<'] | .shr => ['>', '>'] | .lt => ['<']
  | .gt => ['>'] | .le => ['<', '='] | .ge => ['>', '='] | .eq => ['=', '='] | .ne => ['!', '=']
  | .hat => ['^'] | .bar => ['|'] | .andand => ['&', '&'] | .barbar => ['|', '|'] | .quest => ['?']
  | .colon => [':'] | .semi => [';'] | .dots => ['.', '.', '.'] | .ass => ['='] | .mulA => ['*', '=']
  | .divA => ['/', '='] | .modA => ['%', '='] | .addA => ['+', '='] | .subA => ['-', '=']
  | .shlA => ['<', '<', '='] | .shrA => ['>', '>', '='] | .andA => ['&', '='] | .xorA => ['^', '=']
  | .orA => ['|', '='] | .comma => [','] | .hash => ['#'] | .hashhash => ['#', '#']
  | .line => ['/', '/'] | .comment => ['/', '*']

inductive Tok
  | word (s : Text)
  | num (s : Text)
  | pun (p : P)
deriving DecidableEq, Repr

/-- Identifiers and keywords (6.4.2). -/
def IsWord : Text → Prop
  | [] => False
  | c :: cs => isIdStart c = true ∧ ∀ x ∈ cs, isIdChar x = true

/-- Preprocessing numbers (6.4.8) that begin with a digit and have no sign: a digit, then digits,
letters, underscores and points. -/
def IsNum : Text → Prop
  | [] => False
  | c :: cs => c.isDigit = true ∧ ∀ x ∈ cs, isIdChar x = true ∨ x = '.'

/-- A number that ends with e, E, p or P takes a sign that follows. -/
def signed (s : Text) : Bool := s.getLast? ∈ [some 'e', some 'E', some 'p', some 'P']

/-- The tokens of a text. -/
inductive Lex : Text → List Tok → Prop
  | nil : Lex [] []
  | ws {c cs ts} : isWs c = true → Lex cs ts → Lex (c :: cs) ts
  | word {s r ts} : IsWord s → (∀ c, r.head? = some c → isIdChar c = false) → Lex r ts →
      Lex (s ++ r) (.word s :: ts)
  | num {s r ts} : IsNum s → (∀ c, r.head? = some c → isIdChar c = false ∧ c ≠ '.') →
      (signed s = true → r.head? ≠ some '+' ∧ r.head? ≠ some '-') → Lex r ts →
      Lex (s ++ r) (.num s :: ts)
  | pun {p r ts} : p ≠ .line → p ≠ .comment →
      (∀ q : P, q.txt.isPrefixOf (p.txt ++ r) = true → q.txt.length ≤ p.txt.length) →
      (p = .dot → ∀ c, r.head? = some c → c.isDigit = false) → Lex r ts →
      Lex (p.txt ++ r) (.pun p :: ts)

/-! A text has at most one list of tokens. -/

theorem alpha_alnum {c : Char} (h : isIdStart c = true) : isIdChar c = true := by
  simp only [isIdStart, isIdChar, Bool.or_eq_true, Char.isAlphanum] at *
  tauto

theorem digit_id {c : Char} (h : c.isDigit = true) : isIdChar c = true := by
  simp [isIdChar, Char.isAlphanum, h]

theorem digit_start {c : Char} (h : c.isDigit = true) : isIdStart c = false := by
  simp only [Char.isDigit, Bool.and_eq_true, decide_eq_true_eq] at h
  obtain ⟨h1, h2⟩ := h
  have e1 : '0'.val ≤ c.val := h1
  have e2 : c.val ≤ '9'.val := h2
  have a1 : (48 : Nat) ≤ c.val.toNat := e1
  have a2 : c.val.toNat ≤ 57 := e2
  simp only [isIdStart, Bool.or_eq_false_iff, Char.isAlpha, Char.isUpper, Char.isLower,
    beq_eq_false_iff_ne]
  refine ⟨⟨?_, ?_⟩, ?_⟩
  · simp only [decide_eq_false_iff_not, ge_iff_le]
    rintro ⟨h, _⟩
    have : (65 : Nat) ≤ c.val.toNat := h
    omega
  · simp only [Bool.and_eq_false_iff, decide_eq_false_iff_not, ge_iff_le]
    left
    intro h
    have : (97 : Nat) ≤ c.val.toNat := h
    omega
  · rintro rfl
    revert a2
    decide

/-- The longest prefix with a property is unique. -/
theorem longest {f : Char → Bool} {s s' r r' : Text} (hs : ∀ x ∈ s, f x = true) (hs' : ∀ x ∈ s', f x = true)
    (hr : ∀ c, r.head? = some c → f c = false) (hr' : ∀ c, r'.head? = some c → f c = false)
    (h : s ++ r = s' ++ r') : s = s' ∧ r = r' := by
  induction s generalizing s' with
  | nil =>
    cases s' with
    | nil => exact ⟨rfl, h⟩
    | cons c s' =>
      simp only [List.nil_append] at h
      have := hr c (by rw [h]; rfl)
      rw [hs' c (by simp)] at this
      cases this
  | cons c s ih =>
    cases s' with
    | nil =>
      simp only [List.nil_append] at h
      have := hr' c (by rw [← h]; rfl)
      rw [hs c (by simp)] at this
      cases this
    | cons c' s' =>
      simp only [List.cons_append, List.cons.injEq] at h
      obtain ⟨e1, e2⟩ := ih (s' := s') (fun x hx => hs x (by simp [hx])) (fun x hx => hs' x (by simp [hx])) h.2
      exact ⟨by rw [h.1, e1], e2⟩

theorem P.txt_inj {p q : P} (h : p.txt = q.txt) : p = q := by
  cases p <;> cases q <;> first | rfl | (exfalso; revert h; decide)

/-- The first character of a punctuator. -/
theorem P.first (p : P) : ∃ c cs, p.txt = c :: cs ∧ isIdChar c = false ∧ isWs c = false := by
  cases p <;> exact ⟨_, _, rfl, by decide, by decide⟩

theorem ws_id {c : Char} (h : isWs c = true) : isIdChar c = false := by
  simp only [isWs, Bool.or_eq_true, beq_iff_eq] at h
  rcases h with (rfl | rfl) | rfl <;> decide

theorem IsWord.all {s : Text} (h : IsWord s) : ∀ x ∈ s, isIdChar x = true := by
  cases s with
  | nil => cases h
  | cons c cs =>
    intro x hx
    rcases List.mem_cons.mp hx with rfl | hx
    · exact alpha_alnum h.1
    · exact h.2 x hx

theorem IsNum.all {s : Text} (h : IsNum s) : ∀ x ∈ s, (isIdChar x || x == '.') = true := by
  cases s with
  | nil => cases h
  | cons c cs =>
    intro x hx
    rcases List.mem_cons.mp hx with rfl | hx
    · simp [digit_id h.1]
    · rcases h.2 x hx with h | h <;> simp [h]

/-- What a text begins with decides the kind of its first token. -/
inductive Kind' | ws | word | num | pun
deriving DecidableEq

def kind (c : Char) : Kind' :=
  if isWs c then .ws else if isIdStart c then .word else if c.isDigit then .num else .pun

theorem kind_word {s r : Text} (h : IsWord s) : (s ++ r).head?.map kind = some .word := by
  cases s with
  | nil => cases h
  | cons c cs =>
    have : isWs c = false := by
      cases hw : isWs c with
      | false => rfl
      | true => have := ws_id hw; rw [alpha_alnum h.1] at this; cases this
    simp [kind, this, h.1]

theorem kind_num {s r : Text} (h : IsNum s) : (s ++ r).head?.map kind = some .num := by
  cases s with
  | nil => cases h
  | cons c cs =>
    have : isWs c = false := by
      cases hw : isWs c with
      | false => rfl
      | true => have := ws_id hw; rw [digit_id h.1] at this; cases this
    simp [kind, this, h.1, digit_start h.1]

theorem kind_pun (p : P) (r : Text) : (p.txt ++ r).head?.map kind = some .pun := by
  obtain ⟨c, cs, h1, h2, h3⟩ := p.first
  rw [h1]
  have : isIdStart c = false := by
    cases hw : isIdStart c with
    | false => rfl
    | true => rw [alpha_alnum hw] at h2; cases h2
  have : c.isDigit = false := by
    cases hw : c.isDigit with
    | false => rfl
    | true => rw [digit_id hw] at h2; cases h2
  simp [kind, *]

theorem kind_ws {c : Char} {cs : Text} (h : isWs c = true) : (c :: cs).head?.map kind = some .ws := by
  simp [kind, h]

theorem Lex.nil_inv {ts : List Tok} (h : Lex [] ts) : ts = [] := by
  generalize hc : ([] : Text) = cs at h
  cases h with
  | nil => rfl
  | ws => cases hc
  | @word s r _ h1 _ _ => have := kind_word (r := r) h1; rw [← hc] at this; cases this
  | @num s r _ h1 _ _ => have := kind_num (r := r) h1; rw [← hc] at this; cases this
  | @pun p r => have := kind_pun p r; rw [← hc] at this; cases this

theorem Lex.unique {cs : Text} {ts ts' : List Tok} (h : Lex cs ts) (h' : Lex cs ts') : ts = ts' := by
  induction h generalizing ts' with
  | nil => exact h'.nil_inv.symm
  | @ws c cs ts hc _ ih =>
    have k := kind_ws (cs := cs) hc
    generalize hx : c :: cs = x at h' k
    cases h' with
    | nil => cases hx
    | ws _ h2 => cases hx; exact ih h2
    | word h1 => rw [kind_word h1] at k; cases k
    | num h1 => rw [kind_num h1] at k; cases k
    | pun => rw [kind_pun] at k; cases k
  | @word s r ts h1 h2 _ ih =>
    have k := kind_word (r := r) h1
    generalize hx : s ++ r = x at h' k
    cases h' with
    | nil => cases k
    | ws h3 => rw [kind_ws h3] at k; cases k
    | num h3 => rw [kind_num h3] at k; cases k
    | pun => rw [kind_pun] at k; cases k
    | word h3 h4 h5 =>
      obtain ⟨rfl, rfl⟩ := longest h1.all h3.all h2 h4 hx
      rw [ih h5]
  | @num s r ts h1 h2 _ _ ih =>
    have k := kind_num (r := r) h1
    generalize hx : s ++ r = x at h' k
    cases h' with
    | nil => cases k
    | ws h3 => rw [kind_ws h3] at k; cases k
    | word h3 => rw [kind_word h3] at k; cases k
    | pun => rw [kind_pun] at k; cases k
    | num h3 h4 _ h5 =>
      obtain ⟨rfl, rfl⟩ := longest h1.all h3.all (fun c hc => by simp [h2 c hc]) (fun c hc => by simp [h4 c hc]) hx
      rw [ih h5]
  | @pun p r ts _ _ h2 _ _ ih =>
    have k := kind_pun p r
    generalize hx : p.txt ++ r = x at h' k
    cases h' with
    | nil => cases k
    | ws h3 => rw [kind_ws h3] at k; cases k
    | word h3 => rw [kind_word h3] at k; cases k
    | num h3 => rw [kind_num h3] at k; cases k
    | @pun q r' ts' _ _ h4 _ h5 =>
      have l1 := h2 q (by rw [hx]; simp)
      have l2 := h4 p (by rw [← hx]; simp)
      obtain ⟨e1, e2⟩ := List.append_inj hx (by omega)
      have := P.txt_inj e1
      subst this
      subst e2
      rw [ih h5]

end Cmm.CText
