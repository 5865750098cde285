/-
Model of absPath, getenv with run-time checks (lib/SrcC/wrapper.h) and feof (lib/SrcC/wrapper.c) of translated programs. Strings are the
lists of their bytes before the NUL, bytes are numbers below 256.
-/
namespace Cmm.CLib

/-- strncpy of C: exactly `n` bytes of the array are written, the string and NULs, or the beginning of the string. -/
def strncpy (buf : List Nat) (s : List Nat) (n : Nat) : List Nat := (s ++ List.replicate n 0).take n ++ buf.drop n

/-- wrapper.h:169-175 absPath: result and array; `abs` is what realpath gives. -/
def cAbsPath (abs : Option (List Nat)) (buf : List Nat) (bufSiz : Nat) : Nat × List Nat :=
  match abs with
  | none => (1, buf)
  | some s => (0, strncpy buf s bufSiz)

/-- A block of memory with a string in it, and its checked length. -/
structure Block where
  id : Nat
  l : Nat
  text : List Nat

/-- The variable __cmm_getenv, the blocks in use, and the number of the next block. -/
structure GState where
  last : Option Nat
  live : List Block
  next : Nat

/-- wrapper.h:225-235 __getenv; `val` is what the getenv of C gives. The result is the number of a block, or NULL; the outer `none` is a
free of a block that is not in use. malloc gives new blocks (that it can fail is not modelled; the code does not test it). -/
def cGetenv (g : GState) (val : Option (List Nat)) : Option (Option Nat × GState) :=
  match val with
  | none => some (none, g)
  | some s => do
    let live ← match g.last with
      | none => some g.live
      | some b => if g.live.any (·.id = b) then some (g.live.filter (·.id ≠ b)) else none
    return (some g.next, ⟨some g.next, ⟨g.next, s.length + 1, s⟩ :: live, g.next + 1⟩)

/-- A stream for reading: the bytes to come and the end flag of C. -/
structure Stream where
  rest : List Nat
  eof : Bool

/-- fgetc of C; EOF is -1. -/
def fgetc (f : Stream) : Int × Stream :=
  match f.rest with
  | [] => (-1, { f with eof := true })
  | c :: r => (c, { f with rest := r })

/-- ungetc of C. -/
def ungetc (c : Int) (f : Stream) : Stream := ⟨c.toNat :: f.rest, false⟩

/-- wrapper.c:106-111 _feof -/
def cFeof (f : Stream) : Bool × Stream :=
  let (c, f) := fgetc f
  if c = -1 then (true, f) else (false, ungetc c f)

/-- `while (!feof(fp)) ... fgetc(fp)` of a program, for at most `n` rounds: what it reads. -/
def readAll : Nat → Stream → List Int
  | 0, _ => []
  | n + 1, f =>
    let (e, f) := cFeof f
    if e then [] else
      let (c, f) := fgetc f
      c :: readAll n f

end Cmm.CLib
