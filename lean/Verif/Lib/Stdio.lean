import Verif.Lib.Printf
import Verif.Lib.Errno

/-
Model of lib/SrcTac/stdio.cmm:51-340 (streams). The kernel is a parameter `Sys`: the result of every system call is an arbitrary
function of all that happened before (the list of events), so that every behaviour of the kernel is covered. The allocator is
treated in the same way (its properties are C07 and C11).
Simplifications: the FILE structures are a map from addresses to records (references are addresses, 0 is null); the buffer of a stream is
part of its record (`data`), so different buffers do not overlap and an index outside of the buffer would go unnoticed: the
theorems state the bounds on the indices. The mode string of fopen is given by its characters. Result `.error (e, st)` is
`_exit(e)` in the state `st`. Every event carries the stream that caused it; this mark is not in the program.
-/
namespace Cmm.Stdio
open Cmm.Ctype Cmm.Str

/-- syslib.hmm:43-45 -/
def O_RDONLY : Word := 0
def O_WRONLY : Word := 1
def O_APPEND : Word := 2

/-- errno.hmm:70-74 -/
def EUMODE : Word := -27
def EUBADF : Word := -28
def EUEOF : Word := -29
def EUNFILE : Word := -30
def EUSTDIO : Word := -31
/-- errno.hmm:76 -/
def EUNOMEM : Word := -33
/-- errno.hmm:41 -/
def ENOENT : Word := -2

/-- System calls (and calls of the allocator) with their results. -/
inductive Ev where
  | ttyWrite (fp : Word) (bs : List Byte)
  | write (fp fd : Word) (bs : List Byte) (r : Word)
  | ttyRead (fp : Word) (n : Word) (r : Word) (bs : List Byte)
  | read (fp fd n : Word) (r : Word) (bs : List Byte)
  | opened (name mode : Word) (r : Word)
  | creat (name : Word) (r : Word)
  | close (fp fd : Word) (r : Word)
  | seek (fp fd h l : Word) (r : Word)
  | alloc (r : Word)
  | free (a : Word)

/-- The kernel and the allocator. A read gives a result and the bytes put into the buffer. `none` of an allocation is the end of the
program with EUNOMEM. -/
structure Sys where
  write : List Ev → Word → List Byte → Word
  ttyRead : List Ev → Word → Word × List Byte
  read : List Ev → Word → Word → Word × List Byte
  opn : List Ev → Word → Word → Word
  creat : List Ev → Word → Word
  close : List Ev → Word → Word
  seek : List Ev → Word → Word → Word → Word
  alloc : List Ev → Option Word

/-- stdio.hmm, struct FILE, with the contents of the buffer. -/
structure FRec where
  fd : Word
  mode : Word
  buf : Word
  size : Word
  len : Word
  cnt : Word
  tty : Bool
  eof : Bool
  err : Bool
  slot : Word
  data : Word → Byte

/-- The state: events so far, FILE structures, allFiles, errno, and the memory of the client. -/
structure St where
  tr : List Ev
  file : Word → FRec
  all : Word → Word
  errno : Word
  mem : Mem

/-- Result of a library function. -/
abbrev X (α : Type) := Except (Word × St) (α × St)

def St.upd (st : St) (fp : Word) (f : FRec → FRec) : St :=
  { st with file := fun a => if a = fp then f (st.file a) else st.file a }

def St.log (st : St) (e : Ev) : St := { st with tr := st.tr ++ [e] }

/-- Negative results of system calls are stored in errno (syslib.s:109-110). -/
def St.sysret (st : St) (r : Word) : St := if ilt r 0 then { st with errno := r } else st

/-- The first `n` bytes of the buffer. -/
def FRec.bytes (f : FRec) (n : Nat) : List Byte := (List.range n).map fun i => f.data (BitVec.ofNat 16 i)

/-- Number of slots: 3+FMAX (stdio.cmm:51-55). -/
def NSLOT : Word := 8

/-- stdio.cmm:78-82: the stream is refused. -/
def badFp (st : St) (fp : Word) : Bool :=
  fp = 0 || ilt (st.file fp).slot 0 || ile NSLOT (st.file fp).slot || st.all (st.file fp).slot ≠ fp

/-- stdio.cmm:86-103 -/
def fflush (S : Sys) (fp : Word) (st : St) : X Bool :=
  if badFp st fp then .error (EUBADF, st)
  else if (st.file fp).mode = O_RDONLY then .error (EUMODE, st)
  else if (st.file fp).err then .ok (true, st)
  else if (st.file fp).buf = 0 then .ok (false, st)
  else if (st.file fp).cnt = 0 then .ok (false, st)
  else
    let bs := (st.file fp).bytes (st.file fp).cnt.toNat
    let st :=
      if (st.file fp).tty then
        (st.log (.ttyWrite fp bs)).upd fp fun f => { f with cnt := 0 }
      else
        let fd := (st.file fp).fd
        let l := S.write st.tr fd bs
        let st := (st.log (.write fp fd bs l)).sysret l
        if ilt 0 l then st.upd fp fun f => { f with cnt := f.cnt - l } else st
    let st := st.upd fp fun f => { f with err := decide (f.cnt ≠ 0), eof := decide (f.cnt ≠ 0) }
    .ok ((st.file fp).err, st)

/-- stdio.cmm:107-110, loop of _flushAll with `n` slots left. -/
def flushLoop (S : Sys) : Nat → Word → St → Except (Word × St) St
  | 0, _, st => .ok st
  | n + 1, i, st =>
    let fp := st.all i
    if fp ≠ 0 ∧ (st.file fp).mode ≠ O_RDONLY then
      match fflush S fp st with
      | .error e => .error e
      | .ok (_, st) => flushLoop S n (i + 1) st
    else flushLoop S n (i + 1) st

/-- stdio.cmm:106-111 -/
def flushAll (S : Sys) (st : St) : Except (Word × St) St := flushLoop S 8 0 st

/-- stdio.cmm:115-129 -/
def fputc (S : Sys) (c : Byte) (fp : Word) (st : St) : X Bool :=
  if badFp st fp then .error (EUBADF, st)
  else if (st.file fp).mode = O_RDONLY then .error (EUMODE, st)
  else if (st.file fp).err then .ok (true, st)
  else if (st.file fp).buf = 0 then
    let st := st.log (.ttyWrite fp [c])
    .ok ((st.file fp).err, st)
  else
    let st := st.upd fp fun f => { f with data := fun x => if x = f.cnt then c else f.data x }
    let st := st.upd fp fun f => { f with cnt := f.cnt + 1 }
    if ile (st.file fp).size (st.file fp).cnt || (st.file fp).tty && c = 0x0a#8 then
      match fflush S fp st with
      | .error e => .error e
      | .ok (_, st) => .ok ((st.file fp).err, st)
    else .ok ((st.file fp).err, st)

/-- stdio.cmm:137-138, loop of fputs. `none` is an endless loop. -/
def fputsLoop (S : Sys) (a fp : Word) (i : Word) (st : St) : Option (X Bool) :=
  if st.mem (a + i) ≠ 0#8 then
    match fputc S (st.mem (a + i)) fp st with
    | .error e => some (.error e)
    | .ok (true, st) => some (.ok (true, st))
    | .ok (false, st) => fputsLoop S a fp (i + 1) st
  else some (.ok (false, st))
partial_fixpoint

/-- stdio.cmm:136-140 -/
def fputs (S : Sys) (a fp : Word) (st : St) : Option (X Bool) := fputsLoop S a fp 0 st

/-- Bytes put at the beginning of the buffer. -/
def FRec.fill (f : FRec) (bs : List Byte) : FRec :=
  { f with data := fun x => bs.getD x.toNat (f.data x) }

/-- stdio.cmm:148-165 -/
def fillBuf (S : Sys) (fp : Word) (st : St) : St :=
  let st :=
    if (st.file fp).tty then
      let n := (st.file fp).size
      let (l, bs) := S.ttyRead st.tr n
      let st := ((st.log (.ttyRead fp n l bs)).sysret l).upd fp fun f => f.fill bs
      st.upd fp fun f => { f with len := l }
    else
      let n := (st.file fp).size
      let fd := (st.file fp).fd
      let (l, bs) := S.read st.tr fd n
      let st := ((st.log (.read fp fd n l bs)).sysret l).upd fp fun f => f.fill bs
      if ilt l 0 then (st.upd fp fun f => { f with eof := true, err := true }).upd fp fun f => { f with len := 0 }
      else if l = 0 then (st.upd fp fun f => { f with eof := true }).upd fp fun f => { f with len := l }
      else (st.upd fp fun f => { f with eof := false }).upd fp fun f => { f with len := l }
  st.upd fp fun f => { f with cnt := 0 }

/-- stdio.cmm:168-173 -/
def feof (S : Sys) (fp : Word) (st : St) : X Bool :=
  if badFp st fp then .error (EUBADF, st)
  else if (st.file fp).mode ≠ O_RDONLY then .error (EUMODE, st)
  else
    let st := if ile (st.file fp).len (st.file fp).cnt then fillBuf S fp st else st
    .ok ((st.file fp).eof, st)

/-- stdio.cmm:176-186 -/
def fgetc (S : Sys) (fp : Word) (st : St) : X Byte :=
  if badFp st fp then .error (EUBADF, st)
  else if (st.file fp).mode ≠ O_RDONLY then .error (EUMODE, st)
  else
    let st := if ile (st.file fp).len (st.file fp).cnt then fillBuf S fp st else st
    if (st.file fp).eof then .error (EUEOF, st)
    else
      let c := (st.file fp).data (st.file fp).cnt
      .ok (c, st.upd fp fun f => { f with cnt := f.cnt + 1 })

/-- stdio.cmm:196-200, loop of fgets; the result is `i`. -/
def fgetsLoop (S : Sys) (str n fp : Word) (i : Word) (st : St) : Option (X Word) :=
  if ilt i n then
    match feof S fp st with
    | .error e => some (.error e)
    | .ok (true, st) => some (.ok (i, st))
    | .ok (false, st) =>
      match fgetc S fp st with
      | .error e => some (.error e)
      | .ok (c, st) =>
        let st := { st with mem := st.mem.set (str + i) c }
        if c = 0x0a#8 then some (.ok (i + 1, st)) else fgetsLoop S str n fp (i + 1) st
  else some (.ok (i, st))
partial_fixpoint

/-- stdio.cmm:193-205 -/
def fgets (S : Sys) (str n fp : Word) (st : St) : Option (X Word) :=
  (fgetsLoop S str (n - 1) fp 0 st).map fun r => match r with
    | .error e => .error e
    | .ok (i, st) =>
      let st := { st with mem := st.mem.set (str + i) 0#8 }
      .ok (if i = 0 then 0 else str, st)

/-- stdio.cmm:208-217 -/
def fseek (S : Sys) (fp offsh offsl : Word) (st : St) : X Bool :=
  if badFp st fp then .error (EUBADF, st)
  else
    match (if (st.file fp).mode ≠ O_RDONLY then fflush S fp st else .ok (false, st)) with
    | .error e => .error e
    | .ok (_, st) =>
      let fd := (st.file fp).fd
      let r := S.seek st.tr fd offsh offsl
      let st := (st.log (.seek fp fd offsh offsl r)).sysret r
      if r ≠ 0 then .error (r, st)
      else
        let st := if (st.file fp).mode = O_RDONLY then fillBuf S fp st else st
        .ok (false, st)

/-- stdio.cmm:260-265, loop of srchSlot with `n` slots left: the first free slot or -1. -/
def srchLoop (st : St) : Nat → Word → Word
  | 0, _ => -1
  | n + 1, i => if st.all i = 0 then i else srchLoop st n (i + 1)

/-- stdio.cmm:258-268 -/
def srchSlot (st : St) : X Word :=
  let n := srchLoop st 8 0
  if ilt n 0 then .error (EUNFILE, st) else .ok (n, st)

/-- stdio.cmm:271-281. DSIZ is 128. -/
def allocFile (S : Sys) (fd mode siz : Word) (st : St) : X Word :=
  match srchSlot st with
  | .error e => .error e
  | .ok (slot, st) =>
    match S.alloc st.tr with
    | none => .error (EUNOMEM, st)
    | some fp =>
      let st := st.log (.alloc fp)
      let st := st.upd fp fun f => { fd := 0, mode := 0, buf := 0, size := 0, len := 0, cnt := 0, tty := false, eof := false, err := false,
                                     slot := 0, data := f.data }
      let st := st.upd fp fun f => { f with fd := fd }
      let st := st.upd fp fun f => { f with mode := mode }
      match S.alloc st.tr with
      | none => .error (EUNOMEM, st)
      | some b =>
        let st := st.log (.alloc b)
        let st := st.upd fp fun f => { f with buf := b }
        let st := st.upd fp fun f => { f with size := siz }
        let st := { st with all := fun i => if i = slot then fp else st.all i }
        let st := st.upd fp fun f => { f with slot := slot }
        .ok (fp, st)

/-- One call of open. -/
def doOpen (S : Sys) (name mode : Word) (st : St) : Word × St :=
  let r := S.opn st.tr name mode
  (r, (st.log (.opened name mode r)).sysret r)

/-- One call of creat. -/
def doCreat (S : Sys) (name : Word) (st : St) : Word × St :=
  let r := S.creat st.tr name
  (r, (st.log (.creat name r)).sysret r)

/-- stdio.cmm:284-289 -/
def rdOpen (S : Sys) (name : Word) (st : St) : X Word :=
  let (fd, st) := doOpen S name O_RDONLY st
  if ilt fd 0 then .ok (0, st) else allocFile S fd O_RDONLY 128 st

/-- stdio.cmm:292-300 -/
def awOpen (S : Sys) (name mode : Word) (st : St) : X Word :=
  let (fd, st) := doOpen S name mode st
  if ilt fd 0 then
    if st.errno = ENOENT then
      let (r, st) := doCreat S name st
      if ile 0 r then
        let (fd, st) := doOpen S name mode st
        if ilt fd 0 then .ok (0, st) else allocFile S fd mode 128 st
      else .ok (0, st)
    else .ok (0, st)
  else allocFile S fd mode 128 st

/-- stdio.cmm:303-313; `md` are the characters of the mode string (strCmp is C04). -/
def fopen (S : Sys) (name : Word) (md : List Byte) (st : St) : X Word :=
  if md = [0x72#8] then rdOpen S name st
  else if md = [0x77#8] then awOpen S name O_WRONLY st
  else if md = [0x61#8] then awOpen S name O_APPEND st
  else .error (EUMODE, st)

/-- stdio.cmm:322-331: the part of fclose after the flush. -/
def fcloseRest (S : Sys) (fp : Word) (st : St) : X Bool :=
  let fd := (st.file fp).fd
  let r := S.close st.tr fd
  let st := (st.log (.close fp fd r)).sysret r
  if ilt r 0 then .ok (true, st.upd fp fun f => { f with err := true, eof := true })
  else
    let st := if (st.file fp).buf ≠ 0 then st.log (.free (st.file fp).buf) else st
    let slot := (st.file fp).slot
    let st := { st with all := fun i => if i = slot then 0 else st.all i }
    .ok (false, st.log (.free fp))

/-- stdio.cmm:316-332 -/
def fclose (S : Sys) (fp : Word) (st : St) : X Bool :=
  if badFp st fp then .error (EUBADF, st)
  else if ilt (st.file fp).slot 3 then .error (EUSTDIO, st)
  else if (st.file fp).mode ≠ O_RDONLY then
    match fflush S fp st with
    | .error e => .error e
    | .ok (true, st) => .ok (true, st)
    | .ok (false, st) => fcloseRest S fp st
  else fcloseRest S fp st

/-- stdio.cmm:335-338 -/
def ferror (fp : Word) (st : St) : X Bool :=
  if badFp st fp then .error (EUBADF, st) else .ok ((st.file fp).err, st)

/-- The addresses of the three standard streams and of two of their buffers. -/
structure Std where
  stdin : Word
  stdout : Word
  stderr : Word
  inBuf : Word
  outBuf : Word

/-- stdio.cmm:55-66: the variables before _stdioInit (allFiles is all null: an uninitialised global array is 0). -/
def start (d : Std) (f : Word → FRec) (m : Mem) : St :=
  { tr := [], errno := 0, mem := m, all := fun _ => 0
    file := fun a =>
      if a = d.stdin then ⟨-1, O_RDONLY, 0, 80, 0, 0, true, false, false, 0, (f a).data⟩
      else if a = d.stdout then ⟨-2, O_WRONLY, 0, 80, 0, 0, true, false, false, 1, (f a).data⟩
      else if a = d.stderr then ⟨-3, O_WRONLY, 0, 0, 0, 0, true, false, false, 2, (f a).data⟩
      else f a }

/-- stdio.cmm:69-75 -/
def stdioInit (d : Std) (st : St) : St :=
  let st := st.upd d.stdin fun f => { f with buf := d.inBuf }
  let st := { st with all := fun i => if i = 0 then d.stdin else st.all i }
  let st := st.upd d.stdout fun f => { f with buf := d.outBuf }
  let st := { st with all := fun i => if i = 1 then d.stdout else st.all i }
  { st with all := fun i => if i = 2 then d.stderr else st.all i }

end Cmm.Stdio
