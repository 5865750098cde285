/-
Model of the lexer (src/lexer.c, src/lexer.h, isDelim and isOdigit of src/util.c).

The static variables ch and nextch and the rest of the file are one list of bytes: ch is its first
element, nextch the second one; where the list ends both are EOF. getCh() (lexer.c:88-96) takes
the first element away. Initially ch is 0 and nextch is a newline (lexer.c:79-80), so the
list begins with these two bytes, see `start`.

Simplifications:
* The line numbers ln and ln2 are not modelled.
* All messages of error() are `Fault.err`; a write outside of `str` is `Fault.oob`, the program
  stops there in the model.
* `str` is the list of the bytes written since its beginning; all functions write it from index 0
  on and end it by a zero byte.
* Bytes are natural numbers below 256. The functions of ctype.h are those of the C locale (the
  program does not call setlocale).
* An overflow of int wraps around (undefined in C).
-/
namespace Cmm.Lex

/-- error() and writes outside of the buffer. -/
inductive Fault
  | err
  | oob
deriving DecidableEq, Repr

abbrev Res := Except Fault

/-- util.h:41 -/
abbrev StrMAX : Nat := 128

/-! ctype.h in the C locale -/

def isdigit (c : Nat) : Bool := decide (48 ≤ c) && decide (c ≤ 57)
def isalpha (c : Nat) : Bool :=
  (decide (65 ≤ c) && decide (c ≤ 90)) || (decide (97 ≤ c) && decide (c ≤ 122))
def isxdigit (c : Nat) : Bool :=
  isdigit c || (decide (65 ≤ c) && decide (c ≤ 70)) || (decide (97 ≤ c) && decide (c ≤ 102))
def isspace (c : Nat) : Bool := c == 32 || (decide (9 ≤ c) && decide (c ≤ 13))
def isprint (c : Nat) : Bool := decide (32 ≤ c) && decide (c ≤ 126)
def iscntrl (c : Nat) : Bool := decide (c < 32) || c == 127
def toupper (c : Nat) : Nat := if 97 ≤ c ∧ c ≤ 122 then c - 32 else c

/-- util.c:93-95 isDelim -/
def isDelim (c : Nat) : Bool := !(isalpha c || isdigit c) && c != 95

/-- util.c:98-100 isOdigit -/
def isOdigit (c : Nat) : Bool := decide (48 ≤ c) && decide (c ≤ 55)

/-- Arithmetic of int. -/
def wrap (x : Int) : Int := Int.bmod x (2 ^ 32)

/-- lexer.c:102-108 The loop of skipCom and the two calls of getCh() after it. -/
def comLoop : List Nat → Res (List Nat)
  | [] => .error .err
  | [_] => .error .err
  | c :: d :: l => if c = 42 ∧ d = 47 then .ok l else comLoop (d :: l)

/-- lexer.c:112-115 skipSpc -/
def skipSpc : List Nat → List Nat
  | [] => []
  | c :: l => if c ≠ 10 ∧ isspace c then skipSpc l else c :: l

/-- lexer.c:118-121 skipToEol -/
def skipToEol : List Nat → List Nat
  | [] => []
  | c :: l => if c ≠ 10 then skipToEol l else c :: l

theorem comLoop_len {l r : List Nat} (h : comLoop l = .ok r) : r.length < l.length := by
  induction l with
  | nil => cases h
  | cons c l ih =>
    cases l with
    | nil => cases h
    | cons d l =>
      unfold comLoop at h
      split at h
      · cases h
        simp
        omega
      · have := ih h
        simp at this ⊢
        omega

theorem skipSpc_len (l : List Nat) : (skipSpc l).length ≤ l.length := by
  induction l with
  | nil => exact Nat.le_refl _
  | cons c l ih =>
    unfold skipSpc
    split
    · simp; omega
    · exact Nat.le_refl _

theorem skipToEol_len (l : List Nat) : (skipToEol l).length ≤ l.length := by
  induction l with
  | nil => exact Nat.le_refl _
  | cons c l ih =>
    unfold skipToEol
    split
    · simp; omega
    · exact Nat.le_refl _

/-- lexer.c:129-140 skipSpace (skipCom 99-109, skipCppCom 124-126) -/
def skipSpace (l : List Nat) : Res (List Nat) :=
  match h : skipSpc l with
  | 47 :: 42 :: r =>
    match h' : comLoop r with
    | .ok r' => skipSpace r'
    | .error e => .error e
  | 47 :: 47 :: r => skipSpace (skipToEol r)
  | 10 :: r => if r.head? ≠ some 35 then skipSpace r else .ok (10 :: r)
  | l' => .ok l'
termination_by l.length
decreasing_by
  · have h1 := skipSpc_len l
    have h2 := comLoop_len h'
    rw [h] at h1
    simp at h1
    omega
  · have h1 := skipSpc_len l
    have h2 := skipToEol_len r
    rw [h] at h1
    simp at h1
    omega
  · have h1 := skipSpc_len l
    rw [h] at h1
    simp at h1
    omega

/-- lexer.c:143-147 hex -/
def hex (c : Nat) : Nat := if isdigit c then c - 48 else toupper c - 65 + 10

/-- lexer.c:153-157 The loop of getHex. -/
def hexLoop (v : Int) : List Nat → Int × List Nat
  | [] => (v, [])
  | c :: l => if isxdigit c then hexLoop (wrap (v * 16 + hex c)) l else (v, c :: l)

/-- lexer.c:150-158 getHex -/
def getHex (l : List Nat) : Res (Int × List Nat) :=
  match l with
  | c :: _ => if isxdigit c then .ok (hexLoop 0 l) else .error .err
  | [] => .error .err

/-- lexer.c:161-168 getOct -/
def getOct (v : Int) : List Nat → Int × List Nat
  | [] => (v, [])
  | c :: l => if isOdigit c then getOct (wrap (v * 8 + c - 48)) l else (v, c :: l)

/-- lexer.c:171-178 getDec -/
def getDec (v : Int) : List Nat → Int × List Nat
  | [] => (v, [])
  | c :: l => if isdigit c then getDec (wrap (v * 10 + c - 48)) l else (v, c :: l)

/-- lexer.c:181-194 getDigit -/
def getDigit (l : List Nat) : Res (Int × List Nat) :=
  match l with
  | 48 :: d :: r => if d = 120 ∨ d = 88 then getHex r else .ok (getOct 0 (48 :: d :: r))
  | 48 :: [] => .ok (getOct 0 [48])
  | l => .ok (getDec 0 l)

/-- `str[i] = c` where `i` is the number of bytes written. -/
def put (buf : List Nat) (c : Nat) : Res (List Nat) :=
  if buf.length ≤ StrMAX then .ok (buf ++ [c]) else .error .oob

/-- `str[i] = '\0'` at the end. -/
def finish (buf : List Nat) : Res (List Nat) :=
  if buf.length ≤ StrMAX then .ok buf else .error .oob

/-- lexer.c:207-211 The loop of getSharp: the file name. -/
def fnLoop (buf : List Nat) : List Nat → List Nat × List Nat
  | [] => (buf, [])
  | c :: l =>
    if buf.length ≤ StrMAX then
      if c = 34 ∨ c = 10 then (buf, c :: l) else fnLoop (buf ++ [c]) l
    else (buf, c :: l)

/-- lexer.c:197-217 getSharp; `l` are the bytes after the newline and the `#`. -/
def getSharp (l : List Nat) : Res (Int × List Nat × List Nat) :=
  let l := skipSpc l
  match l with
  | [] => .error .err
  | c :: _ =>
    if isdigit c = false then .error .err
    else
      let (v, l) := getDec 0 l
      match skipSpc l with
      | 34 :: l => do
        let (buf, l) := fnLoop [] l
        let buf ← finish buf
        match l with
        | 34 :: l => .ok (v, buf, skipToEol l)
        | _ => .error .err
      | _ => .error .err

/-- lexer.c:222-225 The loop of getWord. -/
def wordLoop (buf : List Nat) : List Nat → List Nat × List Nat
  | [] => (buf, [])
  | c :: l =>
    if isDelim c = false ∧ buf.length ≤ StrMAX then wordLoop (buf ++ [c]) l else (buf, c :: l)

/-- A C string without its zero byte: the bytes of an ASCII string. -/
def bytes (s : String) : List Nat := s.toList.map Char.toNat

/-- lexer.c:63-77 The reserved words with their codes (lexer.h:43-68). -/
def rsvWord : List (String × Nat) := [
  ("void", 1), ("int", 2), ("char", 3), ("interrupt", 4), ("array", 6), ("if", 7),
  ("else", 8), ("while", 9), ("for", 10), ("return", 11), ("break", 12), ("continue", 13),
  ("struct", 5), ("do", 14), ("null", 15), ("boolean", 16), ("true", 17), ("false", 18),
  ("sizeof", 19), ("addrof", 20), ("public", 21), ("ord", 22), ("chr", 23), ("bool", 24),
  ("typedef", 25)]

theorem bind_ok {α β : Type} {x : Res α} {f : α → Res β} {y : β} :
    (x >>= f) = .ok y ↔ ∃ a, x = .ok a ∧ f a = .ok y := by
  cases x with
  | error e => simp [bind, Except.bind]
  | ok a => simp [bind, Except.bind]

/-- lexer.c:231-234 The search in the table; LxNAME is 202. -/
def srchWord (buf : List Nat) : List (String × Nat) → Nat
  | [] => 202
  | (w, t) :: r => if bytes w = buf then t else srchWord buf r

/-- lexer.c:220-235 getWord: the token, `str` and the rest. -/
def getWord (l : List Nat) : Res (Nat × List Nat × List Nat) :=
  let (buf, l) := wordLoop [] l
  if l.head?.all isDelim then do
    let buf ← finish buf
    .ok (srchWord buf rsvWord, buf, l)
  else .error .err

/-- lexer.c:241-247 The loop of getHexStr; the list begins with nextch. -/
def hexStr (v : Nat) : List Nat → Res (Nat × List Nat)
  | [] => .ok (v, [])
  | c :: l =>
    if isxdigit c then
      if v * 16 + hex c > 255 then .error .err else hexStr (v * 16 + hex c) l
    else .ok (v, c :: l)

/-- lexer.c:239-248 getHexStr; the list begins with nextch, as does the result. -/
def getHexStr (l : List Nat) : Res (Nat × List Nat) :=
  match l with
  | c :: _ => if isxdigit c then hexStr 0 l else .error .err
  | [] => .error .err

/-- lexer.c:251-263 getOctStr from the digit `c` on, `i` digits having been read; the list
begins with nextch, as does the result. -/
def octStr (i v c : Nat) : List Nat → Res (Nat × List Nat)
  | [] => if v * 8 + c - 48 > 255 then .error .err else .ok (v * 8 + c - 48, [])
  | d :: l =>
    if v * 8 + c - 48 > 255 then .error .err
    else if isOdigit d = false then .ok (v * 8 + c - 48, d :: l)
    else if i + 1 ≥ 3 then .ok (v * 8 + c - 48, d :: l)
    else octStr (i + 1) (v * 8 + c - 48) d l

/-- lexer.c:265-288 getEsc, the `\` being read. -/
def getEsc : List Nat → Res (Nat × List Nat)
  | [] => .error .err
  | c :: l =>
    if c = 110 then .ok (10, l)
    else if c = 116 then .ok (9, l)
    else if c = 114 then .ok (13, l)
    else if c = 120 ∨ c = 88 then getHexStr l
    else if isOdigit c then octStr 0 0 c l
    else if isprint c then .ok (c, l)
    else .error .err

/-- lexer.c:291-298 putOctStr -/
def putOctStr (v : Nat) (buf : List Nat) : Res (List Nat) :=
  if buf.length + 4 ≥ StrMAX then .error .err
  else .ok (buf ++ [92, v / 64 % 8 + 48, v / 8 % 8 + 48, v % 8 + 48])

/-- lexer.c:309-325 A `\` in a string: the list begins with the character after it. At the end
of the input `ch` is EOF, which is stored; then the string is not closed. -/
def strEsc (buf : List Nat) : List Nat → Res (List Nat × List Nat)
  | [] => do
    let buf ← put buf 92
    let _ ← put buf 255
    .error .err
  | c :: l =>
    if c = 120 then do
      let (v, l) ← getHexStr l
      let buf ← putOctStr v buf
      .ok (buf, l)
    else if isOdigit c then do
      let (v, l) ← octStr 0 0 c l
      let buf ← putOctStr v buf
      .ok (buf, l)
    else do
      let buf ← put buf 92
      let buf ← put buf c
      .ok (buf, l)

/-- lexer.c:304-327 One round of the loop of getStr for the character `c` (not `"`). -/
def strItem (buf : List Nat) (c : Nat) (l : List Nat) : Res (List Nat × List Nat) :=
  if iscntrl c then .error .err
  else if c ≠ 92 then do
    let buf ← put buf c
    .ok (buf, l)
  else strEsc buf l

theorem hexStr_len {v : Nat} {l : List Nat} {x : Nat} {r : List Nat} (h : hexStr v l = .ok (x, r)) :
    r.length ≤ l.length := by
  induction l generalizing v with
  | nil => cases h; exact Nat.le_refl _
  | cons c l ih =>
    unfold hexStr at h
    split at h
    · split at h
      · cases h
      · have := ih h
        simp
        omega
    · cases h
      exact Nat.le_refl _

theorem getHexStr_len {l : List Nat} {x : Nat} {r : List Nat} (h : getHexStr l = .ok (x, r)) :
    r.length ≤ l.length := by
  unfold getHexStr at h
  split at h
  · split at h
    · exact hexStr_len h
    · cases h
  · cases h

theorem octStr_len {i v c : Nat} {l : List Nat} {x : Nat} {r : List Nat}
    (h : octStr i v c l = .ok (x, r)) : r.length ≤ l.length := by
  induction l generalizing i v c with
  | nil =>
    unfold octStr at h
    split at h
    · cases h
    · cases h; exact Nat.le_refl _
  | cons d l ih =>
    unfold octStr at h
    split at h
    · cases h
    · split at h
      · cases h; exact Nat.le_refl _
      · split at h
        · cases h; exact Nat.le_refl _
        · have := ih h
          simp
          omega

theorem strEsc_len {buf l b r : List Nat} (h : strEsc buf l = .ok (b, r)) : r.length ≤ l.length := by
  cases l with
  | nil =>
    simp only [strEsc, bind_ok] at h
    obtain ⟨_, _, _, _, h⟩ := h
    cases h
  | cons c l =>
    simp only [strEsc] at h
    split at h
    · simp only [bind_ok] at h
      obtain ⟨⟨x, r'⟩, h1, _, _, h2⟩ := h
      have := getHexStr_len h1
      cases h2
      simp
      omega
    · split at h
      · simp only [bind_ok] at h
        obtain ⟨⟨x, r'⟩, h1, _, _, h2⟩ := h
        have := octStr_len h1
        cases h2
        simp
        omega
      · simp only [bind_ok] at h
        obtain ⟨_, _, _, _, h2⟩ := h
        cases h2
        simp

theorem strItem_len {buf : List Nat} {c : Nat} {l b r : List Nat} (h : strItem buf c l = .ok (b, r)) :
    r.length ≤ l.length := by
  unfold strItem at h
  split at h
  · cases h
  · split at h
    · simp only [bind_ok] at h
      obtain ⟨_, _, h⟩ := h
      cases h
      exact Nat.le_refl _
    · exact strEsc_len h

/-- lexer.c:304-335 The loop of getStr and what follows it; the list begins with nextch. The
results are val, `str` and the rest. -/
def strLoop (buf : List Nat) (cnt : Nat) (l : List Nat) : Res (Nat × List Nat × List Nat) :=
  match l with
  | [] => .error .err
  | c :: l =>
    if c = 34 then
      match finish buf with
      | .ok b => .ok (cnt, b, l)
      | .error e => .error e
    else if buf.length ≤ StrMAX then
      match h : strItem buf c l with
      | .ok (buf, r) => strLoop buf (cnt + 1) r
      | .error e => .error e
    else .error .err
termination_by l.length
decreasing_by
  have := strItem_len h
  simp
  omega

/-- lexer.c:301-335 getStr, the `"` being read. -/
def getStr (l : List Nat) : Res (Nat × List Nat × List Nat) := strLoop [] 1 l

/-- lexer.c:340-345 The character of a character constant. -/
def chrVal (l : List Nat) : Res (Nat × List Nat) :=
  match l with
  | 92 :: l => getEsc l
  | c :: l => .ok (c, l)
  | [] => .error .err

/-- lexer.c:338-350 getChar, the `'` being read. -/
def getChar (l : List Nat) : Res (Nat × List Nat) := do
  let (v, l) ← chrVal l
  match l with
  | 39 :: l => .ok (v, l)
  | _ => .error .err

/-- lexer.c:353-396 getSign (not at the end of the input). -/
def getSign : List Nat → Nat × List Nat
  | 61 :: 61 :: l => (103, l)
  | 124 :: 124 :: l => (101, l)
  | 38 :: 38 :: l => (102, l)
  | 33 :: 61 :: l => (104, l)
  | 60 :: 61 :: l => (105, l)
  | 62 :: 61 :: l => (106, l)
  | 60 :: 60 :: l => (107, l)
  | 62 :: 62 :: l => (108, l)
  | 43 :: 43 :: l => (111, l)
  | 45 :: 45 :: l => (112, l)
  | 46 :: 46 :: 46 :: l => (110, l)
  | 46 :: 46 :: l => (109, l)
  | c :: l => (c, l)
  | [] => (256, [])

/-- The state of the lexer: the input, val and str. -/
structure LS where
  inp : List Nat
  val : Int
  str : List Nat
deriving DecidableEq, Repr

/-- lexer.c:401-425 lxGetTok after skipSpace: the code of the token. EOF is -1; LxFILE is 205,
LxINTEGER 201, LxLOGICAL 200, LxSTRING 203, LxCHARACTER 204. -/
def getTok1 (s : LS) (l : List Nat) : Res (Int × LS) :=
  match l with
  | [] => .ok (-1, { s with inp := [] })
  | c :: r =>
    if c = 10 ∧ r.head? = some 35 then do
      let (v, b, l) ← getSharp r.tail
      .ok (205, ⟨l, v, b⟩)
    else if isdigit c then do
      let (v, l) ← getDigit (c :: r)
      .ok (201, { s with inp := l, val := v })
    else if isalpha c ∨ c = 95 then do
      let (t, b, l) ← getWord (c :: r)
      if t = 17 then .ok (200, ⟨l, 1, b⟩)
      else if t = 18 then .ok (200, ⟨l, 0, b⟩)
      else .ok (t, { s with inp := l, str := b })
    else if c = 34 then do
      let (v, b, l) ← getStr r
      .ok (203, ⟨l, v, b⟩)
    else if c = 39 then do
      let (v, l) ← getChar r
      .ok (204, { s with inp := l, val := v })
    else
      let (t, l) := getSign (c :: r)
      .ok (t, { s with inp := l })

/-- lexer.c:404-405 On the first call ch is 0; the same happens at a zero byte. -/
def first (l : List Nat) : List Nat := if l.head? = some 0 then l.tail else l

/-- lexer.c:401-425 lxGetTok -/
def lxGetTok (s : LS) : Res (Int × LS) := do
  let l ← skipSpace (first s.inp)
  getTok1 s l

/-- lexer.c:79-85 The state before the first call for a source file. -/
def start (src : List Nat) : LS := ⟨0 :: 10 :: src, 0, []⟩

end Cmm.Lex
