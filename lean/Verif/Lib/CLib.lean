/-
Model of the C library of translated programs (lib/SrcC/printf.c, wrapper.c, wrapper.h): numbers, the count of printf, and offsets.
An int has 32 bits, a long 64. The text that is printed is the result; the stream reports no error.
-/
namespace Cmm.CLib

/-- printf.c:48-50 putC for all characters of a text: the number by which `cnt` grows. The fputc of C returns the character (or EOF, which is
not zero either). -/
def count : List Char → Nat
  | [] => 0
  | c :: s => (if c.toNat = 0 then 1 else 0) + count s

/-- printf.c:52-55 putN -/
def putN (c : Char) (n : Int) : List Char := List.replicate n.toNat c

/-- The table of printf.c:78. -/
def table : List Char := ['0', '1', '2', '3', '4', '5', '6', '7', '8', '9', 'a', 'b', 'c', 'd', 'e', 'f']

/-- printf.c:75-80 putNum; the base is 8, 10 or 16 (for 0 and 1, which never occur, nothing is printed). -/
def putNum (b : Nat) (x : Nat) : List Char :=
  if h : x = 0 ∨ b < 2 then [] else putNum b (x / b) ++ [table.getD (x % b) '?']
termination_by x
decreasing_by exact Nat.div_lt_self (by omega) (by omega)

/-- printf.c:85-86 the loop of numLen: `x` is an int, the division of C goes towards zero. -/
def lenLoop (b : Nat) (x : Int) : Nat :=
  if h : x = 0 ∨ b < 2 then 0 else lenLoop b (x.tdiv b) + 1
termination_by x.natAbs
decreasing_by
  rw [Int.natAbs_tdiv]
  exact Nat.div_lt_self (by omega) (by simpa using (by omega : 1 < b))

/-- printf.c:83-89 numLen -/
def numLen (x : Int) (b : Nat) : Nat := if lenLoop b x = 0 then 1 else lenLoop b x

/-- An int as an unsigned int. -/
def toU (x : Int) : Nat := (x % 4294967296).toNat

/-- printf.c:92-98 uPutNum -/
def uPutNum (x : Int) (w : Int) (lf : Bool) (p : Char) (b : Nat) : List Char :=
  let l := w - numLen x b
  (if lf then [] else putN p l) ++ (if x ≠ 0 then putNum b (toU x) else ['0']) ++ (if lf then putN ' ' l else [])

/-- printf.c:101-115 sPutNum; `none`: the negation overflows, which is undefined in C. -/
def sPutNum (x : Int) (w : Int) (lf : Bool) (p : Char) (b : Nat) : Option (List Char) :=
  if x = -2147483648 then none
  else
    let minus := decide (x < 0)
    let x := if minus then -x else x
    let w := if minus then w - 1 else w
    let l := w - numLen x b
    some ((if lf then [] else putN p l) ++ (if minus then ['-'] else []) ++ (if x ≠ 0 then putNum b (toU x) else ['0']) ++
      (if lf then putN ' ' l else []))

/-- wrapper.h:148-150 lToL, as the unsigned long of conv32 (printf.c:152); the words are unsigned. -/
def lToL (h l : BitVec 32) : Nat := h.toNat * 4294967296 + l.toNat

/-- printf.c:151-167, `%ld` -/
def putLong (h l : BitVec 32) (w : Int) (lf : Bool) (p : Char) : List Char :=
  let n := lToL h l
  let l := n % 100000000
  let n := n / 100000000
  let m := n % 100000000
  let n := n / 100000000
  let h := n % 100000000
  if h ≠ 0 then uPutNum h (w - 16) lf p 10 ++ uPutNum m 8 lf '0' 10 ++ uPutNum l 8 lf '0' 10
  else if m ≠ 0 then uPutNum m (w - 8) lf p 10 ++ uPutNum l 8 lf '0' 10
  else uPutNum l w lf p 10

/-- wrapper.c:114-116 The offset of _fseek. -/
def seekOff (offsh offsl : BitVec 32) : BitVec 64 := (offsh.signExtend 64 <<< 32) ||| offsl.signExtend 64

/-- wrapper.c:122-123 The words fsize stores. -/
def fsizeOf (size : BitVec 64) : BitVec 32 × BitVec 32 :=
  (((size.sshiftRight 32) &&& 0xffffffff#64).setWidth 32, (size &&& 0xffffffff#64).setWidth 32)

end Cmm.CLib
