import Verif.Lib.Stdio
import Verif.Lib.StringLemmas
import Mathlib.Tactic.IntervalCases

/-
Vocabulary for the properties of the streams: calls, steps of a program, and the invariant of the table of open files.
-/
namespace Cmm.Stdio
open Cmm.Ctype Cmm.Str

/-- A call of a library function. -/
inductive Call where
  | putc (c : Byte) (fp : Word)
  | puts (a fp : Word)
  | flush (fp : Word)
  | eof (fp : Word)
  | getc (fp : Word)
  | gets (str n fp : Word)
  | seek (fp h l : Word)
  | opn (name : Word) (md : List Byte)
  | cls (fp : Word)
  | err (fp : Word)

/-- The stream given to the call. -/
def Call.target : Call → Option Word
  | .putc _ fp | .puts _ fp | .flush fp | .eof fp | .getc fp | .gets _ _ fp | .seek fp _ _ | .cls fp | .err fp => some fp
  | .opn .. => none

/-- A boolean result as a word. -/
def asWord : X Bool → X Word
  | .error e => .error e
  | .ok (b, st) => .ok (if b then 1 else 0, st)

/-- A byte result as a word. -/
def chWord : X Byte → X Word
  | .error e => .error e
  | .ok (b, st) => .ok (b.setWidth 16, st)

/-- The call made in a state. -/
def Call.run (S : Sys) : Call → St → Option (X Word)
  | .putc c fp, st => some (asWord (fputc S c fp st))
  | .puts a fp, st => (fputs S a fp st).map asWord
  | .flush fp, st => some (asWord (fflush S fp st))
  | .eof fp, st => some (asWord (feof S fp st))
  | .getc fp, st => some (chWord (fgetc S fp st))
  | .gets s n fp, st => fgets S s n fp st
  | .seek fp h l, st => some (asWord (fseek S fp h l st))
  | .opn name md, st => some (fopen S name md st)
  | .cls fp, st => some (asWord (fclose S fp st))
  | .err fp, st => some (asWord (ferror fp st))

/-- The blocks allocated and not freed. -/
def live : List Ev → List Word → List Word
  | [], l => l
  | .alloc a :: tr, l => live tr (a :: l)
  | .free a :: tr, l => live tr (l.filter (· ≠ a))
  | _ :: tr, l => live tr l

/-- The addresses of the library's own variables, and null. -/
def Std.addrs (d : Std) : List Word := [0, d.stdin, d.stdout, d.stderr, d.inBuf, d.outBuf]

/-- The allocator never gives an address in use. -/
def HeapOk (S : Sys) (d : Std) : Prop := ∀ tr a, S.alloc tr = some a → a ∉ live tr [] ∧ a ∉ d.addrs

/-- `a` is the address of an open stream or of its buffer. -/
def InUse (st : St) (a : Word) : Prop := ∃ i : Nat, i < 8 ∧ st.all (BitVec.ofNat 16 i) ≠ 0 ∧
  (a = st.all (BitVec.ofNat 16 i) ∨ a = (st.file (st.all (BitVec.ofNat 16 i))).buf)

/-- What a program may do between two calls of the stream functions. -/
inductive Act where
  | call (c : Call) (r : Word)
  | alloc
  | free (a : Word)
  | store (m : Mem)
  | scribble (x : Word) (f : FRec)
  | errno (e : Word)

/-- One step of a program. A call that ends the program or never returns has no step. -/
inductive Step (S : Sys) : St → Act → St → Prop
  | call {st c r st'} : c.run S st = some (.ok (r, st')) → Step S st (.call c r) st'
  | alloc {st a} : S.alloc st.tr = some a → Step S st .alloc (st.log (.alloc a))
  | free {st a} : ¬InUse st a → Step S st (.free a) (st.log (.free a))
  | store {st} (m : Mem) : Step S st (.store m) { st with mem := m }
  | scribble {st x f} : ¬InUse st x → Step S st (.scribble x f) (st.upd x fun _ => f)
  | errno {st} (e : Word) : Step S st (.errno e) { st with errno := e }

/-- Several steps. -/
inductive Steps (S : Sys) : St → List Act → St → Prop
  | nil {st} : Steps S st [] st
  | cons {st a st' as st''} : Step S st a st' → Steps S st' as st'' → Steps S st (a :: as) st''

/-- Entry `i` of allFiles. -/
abbrev St.at (st : St) (i : Nat) : Word := st.all (BitVec.ofNat 16 i)

/-- The invariant of the table of open files. -/
structure Inv (d : Std) (st : St) : Prop where
  std0 : st.at 0 = d.stdin
  std1 : st.at 1 = d.stdout
  std2 : st.at 2 = d.stderr
  slot : ∀ i < 8, st.at i ≠ 0 → (st.file (st.at i)).slot = BitVec.ofNat 16 i
  own : ∀ i < 8, 3 ≤ i → st.at i ≠ 0 → st.at i ∈ live st.tr [] ∧ (st.file (st.at i)).buf ∈ live st.tr [] ∧ st.at i ∉ d.addrs ∧
    (st.file (st.at i)).buf ∉ d.addrs
  apart : ∀ i < 8, ∀ j < 8, 3 ≤ i → 3 ≤ j → st.at i ≠ 0 → st.at j ≠ 0 → st.at i ≠ (st.file (st.at j)).buf ∧
    (i ≠ j → (st.file (st.at i)).buf ≠ (st.file (st.at j)).buf)
  inBuf : (st.file d.stdin).buf = d.inBuf
  outBuf : (st.file d.stdout).buf = d.outBuf
  errBuf : (st.file d.stderr).buf = 0

end Cmm.Stdio
