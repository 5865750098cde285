/-
Model of lib/SrcCmm/ctype.cmm (character classification and case conversion).

C-- `char` is an unsigned 8-bit value, `int` a signed 16-bit value (doc/chap3.tex).
-/
namespace Cmm

/-- A 16-bit machine word: C-- `int`, references, code addresses (NWORD = 16). -/
abbrev Word := BitVec 16
/-- C-- `char` and memory bytes (NBYTE = 8). -/
abbrev Byte := BitVec 8

/-- `ord(c)`: a char widened to an int without sign (doc/chap3.tex; parser.c keeps the
value unchanged, a char variable already holds the zero-extended value). -/
def ord (c : Byte) : Word := c.zeroExtend 16

/-- `chr(i)`: the low 8 bits of an int (vm2tac.c:622 `vmChr`, AND 0xff). -/
def chr (i : Word) : Byte := i.truncate 8

/-- `a <= b` on ints, signed. -/
def ile (a b : Word) : Bool := a.sle b
/-- `a < b` on ints, signed. -/
def ilt (a b : Word) : Bool := a.slt b

namespace Ctype

/-- ctype.cmm:32-35 -/
def isSpace (c : Byte) : Bool :=
  0x09#8 == c || 0x0a#8 == c || 0x0b#8 == c || 0x0c#8 == c || 0x0d#8 == c || 0x20#8 == c

/-- ctype.cmm:38-40 -/
def isDigit (c : Byte) : Bool := ile (ord 0x30#8) (ord c) && ile (ord c) (ord 0x39#8)

/-- ctype.cmm:43-47 -/
def isXdigit (c : Byte) : Bool :=
  isDigit c ||
  (ile (ord 0x41#8) (ord c) && ile (ord c) (ord 0x46#8)) ||
  (ile (ord 0x61#8) (ord c) && ile (ord c) (ord 0x66#8))

/-- ctype.cmm:50-52 -/
def isPrint (c : Byte) : Bool := ile 0x20#16 (ord c)

/-- ctype.cmm:55-57 -/
def isLower (c : Byte) : Bool := ile (ord 0x61#8) (ord c) && ile (ord c) (ord 0x7a#8)

/-- ctype.cmm:60-62 -/
def isUpper (c : Byte) : Bool := ile (ord 0x41#8) (ord c) && ile (ord c) (ord 0x5a#8)

/-- ctype.cmm:65-67 -/
def isAlpha (c : Byte) : Bool := isUpper c || isLower c

/-- ctype.cmm:70-72 -/
def isAlnum (c : Byte) : Bool := isDigit c || isAlpha c

/-- ctype.cmm:75-78 -/
def toLower (c : Byte) : Byte := if isUpper c then chr (ord c + 0x20#16) else c

/-- ctype.cmm:81-84 -/
def toUpper (c : Byte) : Byte := if isLower c then chr (ord c - 0x20#16) else c

end Ctype
end Cmm
