import Mathlib.Data.List.Basic
import Mathlib.Data.Nat.Digits.Defs
import Verif.Lex.Lex

/-
The lexical grammar of C--, written down without reference to the functions of the lexer: gaps
(white space and comments), lexemes with the tokens they denote, and texts made of them.
-/
namespace Cmm.Lex

/-- Blank, tabulator, newline, vertical tabulator, form feed and carriage return. -/
def Blank (c : Nat) : Prop := c = 32 ∨ (9 ≤ c ∧ c ≤ 13)

/-- White space and complete comments. The body of a block comment ends at the first `*/`. -/
inductive Gap : List Nat → Prop
  | nil : Gap []
  | blank {c : Nat} {w : List Nat} : Blank c → Gap w → Gap (c :: w)
  | block {b w : List Nat} : ¬ [42, 47] <:+: b → Gap w → Gap (47 :: 42 :: (b ++ 42 :: 47 :: w))
  | line {b w : List Nat} : 10 ∉ b → Gap w → Gap (47 :: 47 :: (b ++ 10 :: w))

/-- At the end of the file, or before a directive (which begins with a newline), the last line
comment may lack its newline. -/
def EndGap (g : List Nat) : Prop :=
  Gap g ∨ ∃ w b, Gap w ∧ 10 ∉ b ∧ g = w ++ 47 :: 47 :: b

def Digit (c : Nat) : Prop := 48 ≤ c ∧ c ≤ 57
def OctDigit (c : Nat) : Prop := 48 ≤ c ∧ c ≤ 55
def HexDigit (c : Nat) : Prop := Digit c ∨ (65 ≤ c ∧ c ≤ 70) ∨ (97 ≤ c ∧ c ≤ 102)
def Letter (c : Nat) : Prop := (65 ≤ c ∧ c ≤ 90) ∨ (97 ≤ c ∧ c ≤ 122) ∨ c = 95
def WordChar (c : Nat) : Prop := Letter c ∨ Digit c

instance : DecidablePred Blank := fun c => inferInstanceAs (Decidable (_ ∨ _))
instance : DecidablePred Digit := fun c => inferInstanceAs (Decidable (_ ∧ _))
instance : DecidablePred OctDigit := fun c => inferInstanceAs (Decidable (_ ∧ _))
instance : DecidablePred HexDigit := fun c => inferInstanceAs (Decidable (_ ∨ _))
instance : DecidablePred Letter := fun c => inferInstanceAs (Decidable (_ ∨ _))
instance : DecidablePred WordChar := fun c => inferInstanceAs (Decidable (_ ∨ _))

/-- The value of a digit in any of the three bases. -/
def digitVal (c : Nat) : Nat :=
  if c ≤ 57 then c - 48 else if c ≤ 70 then c - 55 else c - 87

/-- The number written by a string of digits, most significant digit first. -/
def numVal (base : Nat) (ds : List Nat) : Nat := Nat.ofDigits base (ds.reverse.map digitVal)

/-- The reserved words of the language and their codes (lexer.h:43-68); `true` and `false` are
logical constants. -/
def keywords : List (String × Nat) := [
  ("void", 1), ("int", 2), ("char", 3), ("interrupt", 4), ("struct", 5), ("array", 6),
  ("if", 7), ("else", 8), ("while", 9), ("for", 10), ("return", 11), ("break", 12),
  ("continue", 13), ("do", 14), ("null", 15), ("boolean", 16), ("sizeof", 19), ("addrof", 20),
  ("public", 21), ("ord", 22), ("chr", 23), ("bool", 24), ("typedef", 25)]

/-- The operators of more than one character and their codes (lexer.h:71-82). -/
def operators : List (String × Nat) := [
  ("||", 101), ("&&", 102), ("==", 103), ("!=", 104), ("<=", 105), (">=", 106), ("<<", 107),
  (">>", 108), ("..", 109), ("...", 110), ("++", 111), ("--", 112)]

/-- Tokens. -/
inductive Tk
  | int (v : Int)
  | chr (v : Nat)
  | log (v : Nat) (w : List Nat)
  | name (w : List Nat)
  | kw (c : Nat) (w : List Nat)
  | str (n : Nat) (w : List Nat)
  | op (c : Nat)
  | file (v : Int) (w : List Nat)
deriving DecidableEq, Repr

/-- What the parser sees of a token: the result of lxGetTok, lxGetVal and lxGetStr. The
last two keep their old values if the token has none. -/
def Tk.out : Tk → Int × List Nat → Int × Int × List Nat
  | .int v, (_, s) => (201, v, s)
  | .chr v, (_, s) => (204, v, s)
  | .log v w, _ => (200, v, w)
  | .name w, (v, _) => (202, v, w)
  | .kw c w, (v, _) => (c, v, w)
  | .str n w, _ => (203, n, w)
  | .op c, (v, s) => (c, v, s)
  | .file v w, _ => (205, v, w)

/-! String and character literals (doc/chap3.tex:134-147) -/

/-- The parts of a string literal: a character, `\x` with hexadecimal digits, `\` with octal
digits, `\` with another character. -/
inductive Item
  | plain (c : Nat)
  | hex (ds : List Nat)
  | oct (ds : List Nat)
  | esc (c : Nat)
deriving DecidableEq, Repr

/-- How it is written. -/
def Item.text : Item → List Nat
  | .plain c => [c]
  | .hex ds => 92 :: 120 :: ds
  | .oct ds => 92 :: ds
  | .esc c => [92, c]

/-- The byte it denotes: `\n`, `\r` and `\t` are control characters, any other `\c` is `c`. -/
def Item.byte : Item → Nat
  | .plain c => c
  | .hex ds => numVal 16 ds
  | .oct ds => numVal 8 ds
  | .esc c => if c = 110 then 10 else if c = 114 then 13 else if c = 116 then 9 else c

/-- Which parts are well-formed before a text `r`: numeric escapes are as long as possible (at
most three octal digits) and denote a byte. -/
def Item.Ok (r : List Nat) : Item → Prop
  | .plain c => 32 ≤ c ∧ c ≠ 127 ∧ c ≠ 34 ∧ c ≠ 92
  | .hex ds => ds ≠ [] ∧ (∀ d ∈ ds, HexDigit d) ∧ numVal 16 ds ≤ 255 ∧
      ∀ c, r.head? = some c → ¬ HexDigit c
  | .oct ds => ds ≠ [] ∧ ds.length ≤ 3 ∧ (∀ d ∈ ds, OctDigit d) ∧ numVal 8 ds ≤ 255 ∧
      (ds.length = 3 ∨ ∀ c, r.head? = some c → ¬ OctDigit c)
  | .esc c => c ≠ 120 ∧ ¬ OctDigit c

/-- The text of a string literal without its quotes. -/
def textOf (is : List Item) : List Nat := is.flatMap Item.text

/-- A string literal before the text `r`. -/
def BodyOk (r : List Nat) : List Item → Prop
  | [] => True
  | i :: is => i.Ok (textOf is ++ r) ∧ BodyOk r is

/-- The three octal digits of a byte. -/
def oct3 (v : Nat) : List Nat := [v / 64 % 8 + 48, v / 8 % 8 + 48, v % 8 + 48]

/-- The part as it is handed on: numeric escapes with exactly three octal digits. -/
def Item.norm : Item → Item
  | .hex ds => .oct (oct3 (numVal 16 ds))
  | .oct ds => .oct (oct3 (numVal 8 ds))
  | i => i

/-- The text handed on. -/
def stored (is : List Item) : List Nat := textOf (is.map Item.norm)

/-- The stored text fits the buffer from position `p` on: 128 characters, and a numeric escape ends
before position 128. -/
def Fits (p : Nat) : List Item → Prop
  | [] => p ≤ 128
  | .plain _ :: is => Fits (p + 1) is
  | .esc _ :: is => Fits (p + 2) is
  | .hex _ :: is => p + 4 < 128 ∧ Fits (p + 4) is
  | .oct _ :: is => p + 4 < 128 ∧ Fits (p + 4) is

/-- The character of a character constant: one byte, or an escape; after `\` only printable
characters, `\X` is the same as `\x`. -/
inductive ChrBody : List Nat → Nat → Prop
  | plain {c : Nat} : c ≠ 92 → ChrBody [c] c
  | hex {x : Nat} {ds : List Nat} : x = 120 ∨ x = 88 → (Item.hex ds).Ok [39] →
      ChrBody (92 :: x :: ds) (numVal 16 ds)
  | oct {ds : List Nat} : (Item.oct ds).Ok [39] → ChrBody (92 :: ds) (numVal 8 ds)
  | esc {c : Nat} : 32 ≤ c → c ≤ 126 → c ≠ 120 → c ≠ 88 → ¬ OctDigit c →
      ChrBody [92, c] (Item.esc c).byte

/-- Lexemes and their tokens. A value of an integer literal which does not fit int wraps around.
`op` covers the operators of one character and all bytes without a meaning. -/
inductive Lexeme : List Nat → Tk → Prop
  | dec {d : Nat} {ds : List Nat} : (∀ c ∈ d :: ds, Digit c) → d ≠ 48 →
      Lexeme (d :: ds) (.int (wrap (numVal 10 (d :: ds))))
  | oct {ds : List Nat} : (∀ c ∈ ds, OctDigit c) → Lexeme (48 :: ds) (.int (wrap (numVal 8 ds)))
  | hex {x : Nat} {ds : List Nat} : x = 120 ∨ x = 88 → ds ≠ [] → (∀ c ∈ ds, HexDigit c) →
      Lexeme (48 :: x :: ds) (.int (wrap (numVal 16 ds)))
  | true : Lexeme (bytes "true") (.log 1 (bytes "true"))
  | false : Lexeme (bytes "false") (.log 0 (bytes "false"))
  | kw {w : String} {c : Nat} : (w, c) ∈ keywords → Lexeme (bytes w) (.kw c (bytes w))
  | name {c : Nat} {w : List Nat} : Letter c → (∀ d ∈ w, WordChar d) → (c :: w).length ≤ 128 →
      (∀ k, k ∈ keywords → bytes k.1 ≠ c :: w) → bytes "true" ≠ c :: w → bytes "false" ≠ c :: w →
      Lexeme (c :: w) (.name (c :: w))
  | str {is : List Item} : BodyOk [34] is → Fits 0 is →
      Lexeme (34 :: (textOf is ++ [34])) (.str (is.length + 1) (stored is))
  | chr {b : List Nat} {v : Nat} : ChrBody b v → Lexeme (39 :: (b ++ [39])) (.chr v)
  | opr {w : String} {c : Nat} : (w, c) ∈ operators → Lexeme (bytes w) (.op c)
  | op {c : Nat} : c ≠ 0 → ¬ Blank c → ¬ WordChar c → c ≠ 34 → c ≠ 39 → Lexeme [c] (.op c)
  | file {a b w t ds : List Nat} : (∀ c ∈ a, Blank c ∧ c ≠ 10) → (∀ c ∈ b, Blank c ∧ c ≠ 10) →
      ds ≠ [] → (∀ c ∈ ds, Digit c) → 34 ∉ w → 10 ∉ w → w.length ≤ 128 → 10 ∉ t →
      Lexeme (10 :: 35 :: (a ++ ds ++ b ++ 34 :: (w ++ 34 :: t))) (.file (wrap (numVal 10 ds)) w)

/-- May the text `r` follow the lexeme directly? Otherwise the boundary is elsewhere: words and
numbers must not go on, an operator with the next character must not begin a longer operator or
a comment, and a directive ends with its line. -/
def Sep (p : List Nat) (r : List Nat) : Prop :=
  (∀ d ds, p = d :: ds → Letter d → ∀ c, r.head? = some c → ¬ WordChar c) ∧
  (∀ d ds, p = d :: ds → Digit d → d ≠ 48 → ∀ c, r.head? = some c → ¬ Digit c) ∧
  (∀ d ds, p = 48 :: d :: ds → (d = 120 ∨ d = 88) → ∀ c, r.head? = some c → ¬ HexDigit c) ∧
  (∀ ds, p = 48 :: ds → (∀ d ∈ ds, OctDigit d) → ∀ c, r.head? = some c → ¬ OctDigit c) ∧
  (p = [48] → ∀ c, r.head? = some c → c ≠ 120 ∧ c ≠ 88) ∧
  (∀ w ∈ operators, ∀ c, r.head? = some c → ¬ p ++ [c] <+: bytes w.1) ∧
  (p = [47] → ∀ c, r.head? = some c → c ≠ 47 ∧ c ≠ 42) ∧
  (∀ ds, p = 10 :: ds → ∀ c, r.head? = some c → c = 10)

/-- `Laid l ps` : the text `l` consists of the lexemes `ps` in this order, with gaps
before, between and after them. A line beginning with `#` is a directive. -/
inductive Laid : List Nat → List (List Nat × Tk) → Prop
  | nil {g : List Nat} : EndGap g → Laid g []
  | cons {g p r : List Nat} {t : Tk} {ps : List (List Nat × Tk)} :
      Gap g ∨ (p.head? = some 10 ∧ EndGap g) → Lexeme p t → Sep p r →
      (p.head? = some 35 → g.getLast? ≠ some 10) → Laid r ps → Laid (g ++ (p ++ r)) ((p, t) :: ps)

/-- The results of the calls for the tokens of a text. -/
def outs (v : Int × List Nat) : List Tk → List (Int × Int × List Nat)
  | [] => []
  | t :: ts => t.out v :: outs (t.out v).2 ts

end Cmm.Lex
