import Verif.Lib.Crt0
import Verif.Lib.Errno

/-
Model of the allocator of lib/SrcTac/stdlib.cmm (malloc, free, calloc, _stdlibInit).
A `MemBlk` reference is an address; its field `next` is the word at the address and `size`
the word 2 bytes above (sizeof(MemBlk) = 4). Results: `none` is an endless loop,
`some (.error e)` is `_exit(e)`, `some (.ok r)` a normal return. The value of the stack
pointer, which `malloc` reads through `_sp()`, is a parameter of each call.
-/
namespace Cmm.Heap
open Cmm.Crt0 Cmm.Err

/-- Data of the allocator: memory and the variable `_alcAddr`. -/
structure St where
  mem : Mem
  alc : Word

/-- Outcome of a library call that may not return. -/
abbrev Res (α : Type) := Option (Except Word α)

/-- stdlib.cmm:38 MBSIZE = sizeof(MemBlk) -/
def MBSIZE : Word := 4

/-- field `next` -/
def next (m : Mem) (p : Word) : Word := m.lw p
/-- field `size` -/
def size (m : Mem) (p : Word) : Word := m.lw (p + 2)
/-- assignment to field `next` -/
def setNext (m : Mem) (p v : Word) : Mem := m.sw p v
/-- assignment to field `size` -/
def setSize (m : Mem) (p v : Word) : Mem := m.sw (p + 2) v

/-- stdlib.cmm:56-61 `_stdlibInit`; `pool` is the address of memPool (whose initialiser sets
size 0), `hEnd` is addrof(_end). -/
def init (pool hEnd sp : Word) (m : Mem) : St :=
  let m := setNext m pool hEnd
  let m := setSize m (next m pool) (sp - hEnd)
  let m := setNext m (next m pool) 0
  ⟨m, hEnd⟩

/-- stdlib.cmm:71-75, search loop of malloc. -/
def mallocLoop (m : Mem) (s : Word) (p b : Word) : Res (Word × Word) :=
  if ilt (uCmp (size m b) s) 0 then
    let p := b
    let b := next m b
    if b = 0 then some (.error EUNOMEM) else mallocLoop m s p b
  else some (.ok (p, b))
partial_fixpoint

/-- stdlib.cmm:67: `(siz + MBSIZE + 1) & ~1` -/
def roundSize (siz : Word) : Word := (siz + MBSIZE + 1) &&& ~~~1#16

/-- stdlib.cmm:66-98 -/
def malloc (pool sp : Word) (st : St) (siz : Word) : Res (Word × St) :=
  let s := roundSize siz
  match mallocLoop st.mem s pool (next st.mem pool) with
  | none => none
  | some (.error e) => some (.error e)
  | some (.ok (p, b)) =>
    let m := st.mem
    -- 77-80
    let small := ile (uCmp (size m b) (s + MBSIZE + 2)) 0
    if small && next m b == 0 then some (.error EUNOMEM)
    else
      let s := if small then size m b else s
      let n := addrAdd b s
      -- 82-84
      if ile 0 (uCmp n (sp - 10)) then some (.error EUNOMEM)
      else
        let m :=
          if s = size m b then setNext m p (next m b)
          else
            let m := setNext m n (next m b)
            let m := setSize m n (size m b - s)
            let m := setNext m p n
            setSize m b s
        let m := setNext m b pool
        let alc := if ilt 0 (uCmp n st.alc) then n else st.alc
        some (.ok (addrAdd b MBSIZE, ⟨m, alc⟩))

/-- stdlib.cmm:120-124, search loop of free. -/
def freeLoop (m : Mem) (q : Word) (p b : Word) : Option (Word × Word) :=
  if ilt (uCmp b q) 0 then
    let p := b
    let b := next m b
    if b = 0 then some (p, b) else freeLoop m q p b
  else some (p, b)
partial_fixpoint

/-- stdlib.cmm:114-146 -/
def free (pool : Word) (st : St) (mem : Word) : Res St :=
  let q := addrAdd mem (-MBSIZE)
  let m := st.mem
  if next m q ≠ pool then some (.error EUBADA)
  else
    match freeLoop m q pool (next m pool) with
    | none => none
    | some (p, b) =>
      let ql := addrAdd q (size m q)
      let pl := addrAdd p (size m p)
      if ilt (uCmp q pl) 0 || (b != 0 && ilt (uCmp b ql) 0) then some (.error EUBADA)
      else if pl = q then
        let m := setSize m p (size m p + size m q)
        if ql = b then
          let m := setSize m p (size m p + size m b)
          let m := setNext m p (next m b)
          some (.ok ⟨m, st.alc⟩)
        else some (.ok ⟨m, st.alc⟩)
      else if ql = b then
        let m := setSize m q (size m q + size m b)
        let m := setNext m q (next m b)
        let m := setNext m p q
        some (.ok ⟨m, st.alc⟩)
      else
        let m := setNext m p q
        let m := setNext m q b
        some (.ok ⟨m, st.alc⟩)

/-- stdlib.cmm:151-152, clearing loop of calloc. -/
def callocLoop (mem lim : Word) (m : Mem) (i : Word) : Option Mem :=
  if ilt i lim then callocLoop mem lim (m.set (mem + i) 0#8) (i + 1) else some m
partial_fixpoint

/-- stdlib.cmm:149-154 -/
def calloc (pool sp : Word) (st : St) (n s : Word) : Res (Word × St) :=
  match malloc pool sp st (n * s) with
  | none => none
  | some (.error e) => some (.error e)
  | some (.ok (a, st)) =>
    match callocLoop a (n * s) st.mem 0 with
    | none => none
    | some m => some (.ok (a, ⟨m, st.alc⟩))

/-- stdlib.cmm:100-102 iMalloc (sizeof(int) = 2); rMalloc 109-111 is the same. -/
def iMalloc (pool sp : Word) (st : St) (n : Word) : Res (Word × St) :=
  malloc pool sp st (2 * n)

end Cmm.Heap
