import Verif.Lib.String
import Verif.Lib.Crt0

/-
Model of lib/SrcTac/printf.cmm. The output stream is a parameter: a state and the effect of
`fputc` on it, which may also end the program (stdio.cmm:115-130 is one instance, see
Verif/Lib/Stdio.lean). The global variables `cnt`, `args`, `pos`, the memory and the stream state are
one record. `none` means that a loop never ends.
Simplifications: the buffer of the stream is not part of the memory from which formats, arguments
and strings are read; the constant string of the digits sits at the address `tab` of memory;
the signedness of the TaC instructions DIV and MOD is a parameter.
-/
namespace Cmm.Printf
open Cmm.Ctype Cmm.Str Cmm.Crt0

/-- The `/` and `%` operators on ints. -/
structure Arith where
  div : Word → Word → Word
  mod : Word → Word → Word

/-- A stream: `fputc` returns its result (`true` is an error) and the new state, or ends the
program with `_exit(e)`. -/
structure Strm (σ : Type) where
  fputc : Byte → σ → Except Word (Bool × σ)

/-- The ways the program can end: `_exit(e)` inside the stream, or `exit(e)` (which flushes all
streams first). -/
inductive Stop where
  | raw (e : Word)
  | exit (e : Word)
deriving DecidableEq

/-- printf.cmm:40-41, 112-113: global variables, memory, and the state of the stream `out`. -/
structure PS (σ : Type) where
  mem : Mem
  cnt : Word
  args : Word
  pos : Word
  out : σ

/-- Result of a function that always returns or ends the program. -/
abbrev E (σ : Type) := Except (Stop × PS σ) (PS σ)
/-- Result of a function that may also loop for ever. -/
abbrev R (σ : Type) := Option (E σ)

/-- One statement after the other. -/
def seq {σ : Type} (x : R σ) (f : PS σ → R σ) : R σ :=
  x.bind fun r => match r with
    | .error e => some (.error e)
    | .ok s => f s

/-- errno.hmm:75 -/
def EUFMT : Word := -32

section
variable {σ : Type} (A : Arith) (S : Strm σ) (tab : Word)

/-- printf.cmm:43-45 -/
def putC (c : Byte) (s : PS σ) : E σ :=
  match S.fputc c s.out with
  | .error e => .error (.raw e, s)
  | .ok (b, o) => if !b then .ok { s with out := o, cnt := s.cnt + 1 } else .ok { s with out := o }

/-- printf.cmm:48-49, loop of putN. -/
def putNLoop (c : Byte) (n i : Word) (s : PS σ) : R σ :=
  if ilt i n then
    match putC S c s with
    | .error e => some (.error e)
    | .ok s => putNLoop c n (i + 1) s
  else some (.ok s)
partial_fixpoint

/-- printf.cmm:47-50 -/
def putN (c : Byte) (n : Word) (s : PS σ) : R σ := putNLoop S c n 0 s

/-- printf.cmm:53-58 -/
def putCW (c : Byte) (w : Word) (lf : Bool) (s : PS σ) : R σ :=
  let l := w - 1
  seq (if !lf then putN S 0x20#8 l s else some (.ok s)) fun s =>
  seq (some (putC S c s)) fun s =>
  if lf then putN S 0x20#8 l s else some (.ok s)

/-- printf.cmm:64-65, loop of putS. -/
def putSLoop (a i : Word) (s : PS σ) : R σ :=
  if s.mem (a + i) ≠ 0#8 then
    match putC S (s.mem (a + i)) s with
    | .error e => some (.error e)
    | .ok s => putSLoop a (i + 1) s
  else some (.ok s)
partial_fixpoint

/-- printf.cmm:61-67 -/
def putS (a w : Word) (lf : Bool) (s : PS σ) : R σ :=
  (strLen s.mem a).bind fun n =>
  let l := w - n
  seq (if !lf then putN S 0x20#8 l s else some (.ok s)) fun s =>
  seq (putSLoop S a 0 s) fun s =>
  if lf then putN S 0x20#8 l s else some (.ok s)

/-- printf.cmm:70-75 -/
def putNum (x b : Word) (s : PS σ) : Option (E σ) :=
  if x ≠ 0 then do
    let r ← putNum (A.div x b) b s
    match r with
    | .error e => some (.error e)
    | .ok s => some (putC S (s.mem (tab + A.mod x b)) s)
  else some (.ok s)
partial_fixpoint

/-- printf.cmm:80-81, loop of numLen. -/
def numLenLoop (x b l : Word) : Option Word :=
  if x ≠ 0 then numLenLoop (A.div x b) b (l + 1) else some l
partial_fixpoint

/-- printf.cmm:78-84 -/
def numLen (x b : Word) : Option Word :=
  (numLenLoop A x b 0).bind fun l => some (if l = 0 then 1 else l)

/-- printf.cmm:87-93 -/
def uPutNum (x w : Word) (lf : Bool) (p : Byte) (b : Word) (s : PS σ) : R σ :=
  (numLen A x b).bind fun n =>
  let l := w - n
  seq (if !lf then putN S p l s else some (.ok s)) fun s =>
  seq (if x ≠ 0 then putNum A S tab x b s else some (putC S 0x30#8 s)) fun s =>
  if lf then putN S 0x20#8 l s else some (.ok s)

/-- printf.cmm:96-109 -/
def sPutNum (x w : Word) (lf : Bool) (p : Byte) (b : Word) (s : PS σ) : R σ :=
  let minus := ilt x 0
  let x := if minus then -x else x
  let w := if minus then w - 1 else w
  (numLen A x b).bind fun n =>
  let l := w - n
  seq (if !lf then putN S p l s else some (.ok s)) fun s =>
  seq (if minus then some (putC S 0x2d#8 s) else some (.ok s)) fun s =>
  seq (if x ≠ 0 then putNum A S tab x b s else some (putC S 0x30#8 s)) fun s =>
  if lf then putN S 0x20#8 l s else some (.ok s)

/-- printf.cmm:115-119. `args[pos]` is the word at `args + 2*pos`. -/
def getArg (s : PS σ) : Word × PS σ :=
  (s.mem.lw (s.args + s.pos * 2), { s with pos := s.pos + 1 })

/-- printf.cmm:127-141 -/
def conv16 (c : Byte) (w : Word) (lf : Bool) (p : Byte) (s : PS σ) : R σ :=
  if c = 0x6f#8 then let (a, s) := getArg s; uPutNum A S tab a w lf p 8 s
  else if c = 0x64#8 then let (a, s) := getArg s; sPutNum A S tab a w lf p 10 s
  else if c = 0x78#8 then let (a, s) := getArg s; uPutNum A S tab a w lf p 16 s
  else if c = 0x63#8 then let (a, s) := getArg s; putCW S (chr a) w lf s
  else if c = 0x73#8 then let (a, s) := getArg s; putS S a w lf s
  else if c = 0x25#8 then some (putC S 0x25#8 s)
  else some (.error (.exit EUFMT, s))

/-- printf.cmm:144-165. `_div32` and `_mod32` are the routines of crt0.s. -/
def conv32 (c : Byte) (w : Word) (lf : Bool) (p : Byte) (s : PS σ) : R σ :=
  let (arg, s) := getArg s
  if c = 0x64#8 then
    let l := mod32 s.mem arg 10000
    let s := { s with mem := (div32 s.mem arg 10000).2 }
    let s := { s with mem := s.mem.sw arg 0 }
    let m := mod32 s.mem arg 10000
    let s := { s with mem := (div32 s.mem arg 10000).2 }
    let s := { s with mem := s.mem.sw arg 0 }
    let h := mod32 s.mem arg 10000
    if h ≠ 0 then
      seq (uPutNum A S tab h (w - 8) lf p 10 s) fun s =>
      seq (uPutNum A S tab m 4 lf 0x30#8 10 s) fun s =>
      uPutNum A S tab l 4 lf 0x30#8 10 s
    else if m ≠ 0 then
      seq (uPutNum A S tab m (w - 4) lf p 10 s) fun s =>
      uPutNum A S tab l 4 lf 0x30#8 10 s
    else uPutNum A S tab l w lf p 10 s
  else some (.error (.exit EUFMT, s))

/-- printf.cmm:183-186: the width; result is `w`, `c` and `i` after the loop. -/
def widthLoop (m : Mem) (fmt : Word) (w : Word) (c : Byte) (i : Word) : Option (Word × Byte × Word) :=
  if isDigit c then
    widthLoop m fmt (w * 10 + (ord c - ord 0x30#8)) (m (fmt + (i + 1))) (i + 1)
  else some (w, c, i)
partial_fixpoint

/-- printf.cmm:171-195, main loop of print. -/
def printLoop (fmt i : Word) (s : PS σ) : R σ :=
  if s.mem (fmt + i) ≠ 0#8 then
    let c := s.mem (fmt + i)
    if c = 0x25#8 then
      let i := i + 1
      let c := s.mem (fmt + i)
      let lf := c = 0x2d#8
      let i := if lf then i + 1 else i
      let c := s.mem (fmt + i)
      let p := if c = 0x30#8 then 0x30#8 else 0x20#8
      match widthLoop s.mem fmt 0 c i with
      | none => none
      | some (w, c, i) =>
        if c = 0x6c#8 then
          let i := i + 1
          let c := s.mem (fmt + i)
          match conv32 A S tab c w lf p s with
          | none => none
          | some (.error e) => some (.error e)
          | some (.ok s) => printLoop fmt (i + 1) s
        else
          match conv16 A S tab c w lf p s with
          | none => none
          | some (.error e) => some (.error e)
          | some (.ok s) => printLoop fmt (i + 1) s
    else
      match putC S c s with
      | .error e => some (.error e)
      | .ok s => printLoop fmt (i + 1) s
  else some (.ok s)
partial_fixpoint

/-- printf.cmm:167-197 and 121-124. `arg` is the address of the argument array, `offs` the index of the
format in it. The result of print is `cnt` of the final state. -/
def print (m : Mem) (arg offs : Word) (o : σ) : R σ :=
  let s : PS σ := { mem := m, cnt := 0, args := arg, pos := offs, out := o }
  let (fmt, s) := getArg s
  printLoop A S tab fmt 0 s

/-- printf.cmm:200-203: `arg` is what `_args()` returns, the address of the first argument (fp). -/
def fprintf (m : Mem) (arg : Word) (o : σ) : R σ := print A S tab m arg 1 o

/-- printf.cmm:205-208, with `o` the state of stdout. -/
def printf (m : Mem) (arg : Word) (o : σ) : R σ := print A S tab m arg 0 o
end

end Cmm.Printf
