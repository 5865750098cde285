import Verif.Lib.Stdio

/-
Model of readDir (lib/SrcTac/stdio.cmm:397-423).
-/
namespace Cmm.Stdio
open Cmm.Ctype Cmm.Str

/-- stdio.hmm:63-68 struct Dir: the fields readDir stores; `name` are the 12 bytes of the array. -/
structure Dir where
  name : List Byte
  attr : Word
  clst : Word
  lenH : Word
  lenL : Word
deriving DecidableEq, Repr

/-- stdio.cmm:398 the macro wordLE. -/
def wordLE (b : Nat → Byte) (i : Nat) : Word := ((b (i + 1)).zeroExtend 16 <<< 8) ||| (b i).zeroExtend 16

/-- Bytes put at the beginning of the buffer. -/
def dirFill (b : Nat → Byte) (bs : List Byte) : Nat → Byte := fun i => bs.getD i (b i)

/-- stdio.cmm:408-419: what is stored for an entry. -/
def dirOf (b : Nat → Byte) : Dir where
  name := (if b 0 = 0x05#8 then 0xe5#8 else b 0) :: ((List.range 10).map fun i => b (i + 1)) ++ [0#8]
  attr := (b 11).zeroExtend 16
  clst := wordLE b 26
  lenH := wordLE b 30
  lenL := wordLE b 28

/-- stdio.cmm:401-423 readDir. `rs` are the results of the reads that are to come, with the bytes stored (no more results: the end of the
directory); `b` is the buffer, which keeps its bytes between calls. The result: the value, what is stored in `dir` if anything, the reads
left, and the buffer. -/
def readDir : List (Word × List Byte) → (Nat → Byte) → Word × Option Dir × List (Word × List Byte) × (Nat → Byte)
  | [], b => (0, none, [], b)
  | (r, bs) :: rs, b =>
    let b := dirFill b bs
    if ilt 0 r then
      let attr := (b 11).zeroExtend 16
      if b 0 = 0#8 then (0, none, rs, b)
      else if b 0 ≠ 0xe5#8 ∧ attr &&& 0x0a#16 = 0#16 then (1, some (dirOf b), rs, b)
      else readDir rs b
    else (r, none, rs, b)

end Cmm.Stdio
