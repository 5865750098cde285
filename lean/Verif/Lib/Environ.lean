import Verif.Lib.Malloc
import Verif.Lib.String

/-
Model of lib/SrcTac/environ.cmm. The array `environ` and the strings in it are in the memory of the
model and are allocated by the model of malloc and free; `environ[i]` is the word at `environ + 2*i`.
The variables environ, capacity, errno and sta.attr are fields of the state (not bytes of the memory). String
constants are at addresses given by `Cst`. `none` is an endless loop, `some (.error e)` is
`_exit(e)` in malloc or free. `sp` is the value of the stack pointer which malloc reads; it is the same for
all calls of one library call.
-/
namespace Cmm.Environ
open Cmm.Crt0 Cmm.Err Cmm.Heap Cmm.Str

/-- Memory, allocator and the variables of environ.cmm. -/
structure ESt where
  heap : St
  environ : Word
  capacity : Word
  errno : Word
  attr : Word

/-- Addresses of constants: memPool, "=", "PWD" and "/". -/
structure Cst where
  pool : Word
  eq : Word
  pwd : Word
  slash : Word

def ESt.mem (e : ESt) : Mem := e.heap.mem

def ESt.setMem (e : ESt) (m : Mem) : ESt := { e with heap := ⟨m, e.heap.alc⟩ }

/-- A function without _exit and with an endless loop. -/
def lift {α : Type} (x : Option α) : Res α := x.map .ok

/-- Sequencing of calls. -/
def bnd {α β : Type} (x : Res α) (f : α → Res β) : Res β :=
  match x with
  | none => none
  | some (.error e) => some (.error e)
  | some (.ok a) => f a

/-- `environ[i]`, for an array at `a`. -/
def elem (m : Mem) (a i : Word) : Word := m.lw (a + 2 * i)

/-- environ.cmm:48-50 The number of elements before the null. -/
def countLoop (m : Mem) (a : Word) (i : Word) : Option Word :=
  if elem m a i ≠ 0 then countLoop m a (i + 1) else some i
partial_fixpoint

/-- environ.cmm:54-56 Copying one string. -/
def copyOne (c : Cst) (sp env a : Word) (h : St) (i : Word) : Res St :=
  bnd (lift (strLen h.mem (elem h.mem env i))) fun len =>
  bnd (malloc c.pool sp h (len + 1)) fun (p, h) =>
  bnd (lift (strCpy (h.mem.sw (a + 2 * i) p) p (elem (h.mem.sw (a + 2 * i) p) env i))) fun (_, m) =>
  some (.ok ⟨m, h.alc⟩)

/-- environ.cmm:53-57 Copying the strings. -/
def initLoop (c : Cst) (sp env a envs : Word) (h : St) (i : Word) : Res St :=
  if ilt i envs then
    match copyOne c sp env a h i with
    | none => none
    | some (.error e) => some (.error e)
    | some (.ok h) => initLoop c sp env a envs h (i + 1)
  else some (.ok h)
partial_fixpoint

/-- environ.cmm:46-59 _environInit -/
def environInit (c : Cst) (sp : Word) (e : ESt) (env : Word) : Res ESt :=
  bnd (lift (countLoop e.mem env 0)) fun envs =>
  bnd (iMalloc c.pool sp e.heap (envs + 1)) fun (a, h) =>
  bnd (initLoop c sp env a envs h 0) fun h =>
  some (.ok { e with heap := ⟨h.mem.sw (a + 2 * envs) 0, h.alc⟩, environ := a, capacity := envs + 1 })

/-- environ.cmm:65-70 The loop of envIndex. -/
def envIndexLoop (m : Mem) (a name len : Word) (i : Word) : Option Word :=
  if elem m a i ≠ 0 then
    match strChr m (elem m a i) 61#8 with
    | none => none
    | some nameLen =>
      if len = nameLen then
        match strNcmp m (elem m a i) name len with
        | none => none
        | some r => if r = 0 then some i else envIndexLoop m a name len (i + 1)
      else envIndexLoop m a name len (i + 1)
  else some i
partial_fixpoint

/-- environ.cmm:63-72 envIndex -/
def envIndex (e : ESt) (name len : Word) : Option Word := envIndexLoop e.mem e.environ name len 0

/-- environ.cmm:75-81 getEnv -/
def getEnv (e : ESt) (name : Word) : Option Word := do
  let len ← strLen e.mem name
  let index ← envIndex e name len
  if elem e.mem e.environ index = 0 then some 0
  else some (addrAdd (elem e.mem e.environ index) (len + 1))

/-- environ.cmm:87-89 Copying the references of the array `a` to `b`. -/
def copyLoop (a b : Word) (m : Mem) (i : Word) : Option (Mem × Word) :=
  if elem m a i ≠ 0 then copyLoop a b (m.sw (b + 2 * i) (elem m a i)) (i + 1) else some (m, i)
partial_fixpoint

/-- environ.cmm:84-94 reallocEnv -/
def reallocEnv (c : Cst) (sp : Word) (e : ESt) (newCap : Word) : Res ESt :=
  bnd (iMalloc c.pool sp e.heap newCap) fun (b, h) =>
  bnd (lift (copyLoop e.environ b h.mem 0)) fun (m, envs) =>
  bnd (free c.pool ⟨m.sw (b + 2 * envs) 0, h.alc⟩ e.environ) fun h =>
  some (.ok { e with heap := h, environ := b, capacity := newCap })

/-- environ.cmm:97-103 makeEnvStr -/
def makeEnvStr (c : Cst) (sp : Word) (h : St) (name nameLen value : Word) : Res (Word × St) :=
  bnd (lift (strLen h.mem value)) fun vl =>
  bnd (malloc c.pool sp h (nameLen + 1 + vl + 1)) fun (p, h) =>
  bnd (lift (strNcpy h.mem p name (nameLen + 1))) fun (_, m) =>
  bnd (lift (strCat m p c.eq)) fun (_, m) =>
  bnd (lift (strCat m p value)) fun (_, m) =>
  some (.ok (p, ⟨m, h.alc⟩))

/-- environ.cmm:112-120 The preparation of the array element. -/
def prepare (c : Cst) (sp : Word) (e : ESt) (index : Word) : Res ESt :=
  if elem e.mem e.environ index = 0 then
    bnd (if ilt e.capacity (index + 2) then reallocEnv c sp e (index + 2) else some (.ok e)) fun e =>
    some (.ok (e.setMem (e.mem.sw (e.environ + 2 * (index + 1)) 0)))
  else
    bnd (free c.pool e.heap (elem e.mem e.environ index)) fun h => some (.ok { e with heap := h })

/-- environ.cmm:106-123 setNEnv; the parameter overwrite is not used. -/
def setNEnv (c : Cst) (sp : Word) (e : ESt) (name nameLen value : Word) (_overwrite : Bool) :
    Res (Bool × ESt) :=
  if name = 0 ∨ ile nameLen 0 then some (.ok (true, { e with errno := EINVAL }))
  else
    bnd (lift (envIndex e name nameLen)) fun index =>
    bnd (prepare c sp e index) fun e =>
    bnd (makeEnvStr c sp e.heap name nameLen value) fun (p, h) =>
    some (.ok (false, { e with heap := ⟨h.mem.sw (e.environ + 2 * index) p, h.alc⟩ }))

/-- environ.cmm:126-130 putEnv -/
def putEnv (c : Cst) (sp : Word) (e : ESt) (string : Word) : Res (Bool × ESt) :=
  bnd (lift (strChr e.mem string 61#8)) fun nameLen =>
  setNEnv c sp e string nameLen (addrAdd string (nameLen + 1)) true

/-- environ.cmm:134-140 setEnv -/
def setEnv (c : Cst) (sp : Word) (e : ESt) (name value : Word) (overwrite : Bool) : Res (Bool × ESt) :=
  bnd (lift (strChr e.mem name 61#8)) fun i =>
  if ile 0 i then some (.ok (true, { e with errno := EINVAL }))
  else
    bnd (lift (strLen e.mem name)) fun len =>
    setNEnv c sp e name len value overwrite

/-- environ.cmm:149-151 Moving the later elements. -/
def closeLoop (a : Word) (m : Mem) (i : Word) : Option Mem :=
  if elem m a i ≠ 0 then closeLoop a (m.sw (a + 2 * i) (elem m a (i + 1))) (i + 1) else some m
partial_fixpoint

/-- environ.cmm:143-153 unsetEnv -/
def unsetEnv (c : Cst) (e : ESt) (name : Word) : Res (Bool × ESt) :=
  bnd (lift (strLen e.mem name)) fun len =>
  bnd (lift (envIndex e name len)) fun index =>
  if elem e.mem e.environ index = 0 then some (.ok (false, e))
  else
    bnd (free c.pool e.heap (elem e.mem e.environ index)) fun h =>
    bnd (lift (closeLoop e.environ h.mem index)) fun m =>
    some (.ok (false, { e with heap := ⟨m, h.alc⟩ }))

/-! Paths -/

/-- environ.cmm:158-165 The loop of delDotDir. -/
def delDotDirLoop (p : Word) (m : Mem) (l h : Word) : Option (Mem × Word) :=
  if m (p + h) ≠ 0#8 then
    let m := m.set (p + l) (m (p + h))
    if m (p + h) = 47#8 ∧ m (p + (h + 1)) = 46#8 ∧ (m (p + (h + 2)) = 47#8 ∨ m (p + (h + 2)) = 0#8) then
      delDotDirLoop p m (l + 1) (h + 1 + 1)
    else delDotDirLoop p m (l + 1) (h + 1)
  else some (m, l)
partial_fixpoint

/-- environ.cmm:156-167 delDotDir -/
def delDotDir (m : Mem) (p : Word) : Option Mem := do
  let (m, l) ← delDotDirLoop p m 0 0
  return m.set (p + l) 0#8

/-- environ.cmm:173-174 The inner loop of oneSlash. -/
def slashLoop (p : Word) (m : Mem) (h : Word) : Option Word :=
  if m (p + h) = 47#8 ∧ m (p + (h + 1)) = 47#8 then slashLoop p m (h + 1) else some h
partial_fixpoint

/-- environ.cmm:172-177 The loop of oneSlash. -/
def oneSlashLoop (p : Word) (m : Mem) (l h : Word) : Option (Mem × Word) :=
  if m (p + h) ≠ 0#8 then
    match slashLoop p m h with
    | none => none
    | some h => oneSlashLoop p (m.set (p + l) (m (p + h))) (l + 1) (h + 1)
  else some (m, l)
partial_fixpoint

/-- environ.cmm:170-180 oneSlash -/
def oneSlash (m : Mem) (p : Word) : Option Mem := do
  let (m, l) ← oneSlashLoop p m 0 0
  let l := if ilt 1 l ∧ m (p + (l - 1)) = 47#8 then l - 1 else l
  return m.set (p + l) 0#8

/-- environ.cmm:190-191 The inner loop of delDotDotDir. -/
def backLoop (p : Word) (m : Mem) (l : Word) : Option Word :=
  if ilt 0 l ∧ m (p + l) ≠ 47#8 then backLoop p m (l - 1) else some l
partial_fixpoint

/-- environ.cmm:185-199 The loop of delDotDotDir. -/
def delDotDotLoop (p : Word) (m : Mem) (l h : Word) : Option (Mem × Word) :=
  if m (p + h) ≠ 0#8 then
    if m (p + h) = 47#8 ∧ m (p + (h + 1)) = 46#8 ∧ m (p + (h + 2)) = 46#8 ∧
        (m (p + (h + 3)) = 47#8 ∨ m (p + (h + 3)) = 0#8) then
      if ilt 0 l then
        match backLoop p m (l - 1) with
        | none => none
        | some l => delDotDotLoop p m l (h + 2 + 1)
      else delDotDotLoop p m l (h + 2 + 1)
    else if m (p + h) = 47#8 ∧ m (p + (h + 1)) = 0#8 then some (m, l)
    else delDotDotLoop p (m.set (p + l) (m (p + h))) (l + 1) (h + 1)
  else some (m, l)
partial_fixpoint

/-- environ.cmm:183-201 delDotDotDir -/
def delDotDotDir (m : Mem) (p : Word) : Option Mem := do
  let (m, l) ← delDotDotLoop p m 0 0
  return m.set (p + l) 0#8

/-- environ.cmm:240-244 getWd -/
def getWd (c : Cst) (e : ESt) : Option Word := do
  let pwd ← getEnv e c.pwd
  if pwd = 0 then some c.slash else some pwd

/-- environ.cmm:206-216 The beginning of absPath: `buf` gets "/" or the working directory and "/".
`none` in the result is the error return. -/
def absStart (c : Cst) (e : ESt) (path buf bufSiz : Word) : Option (Option Mem) :=
  if e.mem path = 47#8 then do
    let (_, m) ← strCpy e.mem buf c.slash
    return some m
  else do
    let pwd ← getWd c e
    let n ← strLen e.mem pwd
    if ile (bufSiz - 2) n then return none
    else
      let (_, m) ← strCpy e.mem buf pwd
      let (_, m) ← strCat m buf c.slash
      return some m

/-- environ.cmm:235-236 The end of absPath. -/
def absEnd (c : Cst) (m : Mem) (buf : Word) : Option Mem := do
  let m ← delDotDotDir m buf
  if m buf = 0#8 then
    let (_, m) ← strCpy m buf c.slash
    return m
  else return m

/-- environ.cmm:205-238 absPath. `stat` is the system call _stat: its result and the field attr it
stores, for a memory and the address of a path. -/
def absPath (c : Cst) (stat : Mem → Word → Word × Word) (e : ESt) (path buf bufSiz : Word) :
    Option (Bool × ESt) := do
  match ← absStart c e path buf bufSiz with
  | none => return (true, { e with errno := EINVAL })
  | some m =>
    let n ← strLen m buf
    let k ← strLen m path
    if ile (bufSiz - 1) (n + k) then return (true, { e.setMem m with errno := EINVAL })
    else
      let (_, m) ← strCat m buf path
      let m ← delDotDir m buf
      let m ← oneSlash m buf
      let l ← strRchr m buf 47#8
      let l := l + 1
      if ilt 0 l then
        let ch := m (buf + l)
        let m := m.set (buf + l) 0#8
        let (r, attr) := stat m buf
        if ilt r 0 then return (true, { e.setMem m with attr := attr, errno := r })
        else if attr &&& 0x10#16 = 0 then return (true, { e.setMem m with attr := attr, errno := ENOENT })
        else
          let m := m.set (buf + l) ch
          let m ← absEnd c m buf
          return (false, { e.setMem m with attr := attr })
      else
        let m ← absEnd c m buf
        return (false, e.setMem m)

/-- environ.cmm:247-260 chDir; BUF is 80. -/
def chDir (c : Cst) (sp : Word) (stat : Mem → Word → Word × Word) (e : ESt) (path : Word) : Res (Bool × ESt) :=
  bnd (malloc c.pool sp e.heap 80#16) fun (buf, h) =>
  bnd (lift (absPath c stat { e with heap := h } path buf 80#16)) fun (r, e) =>
  bnd (if r then some (.ok (true, e))
    else if e.attr &&& 0x10#16 = 0 then some (.ok (true, { e with errno := EPATH }))
    else setEnv c sp e c.pwd buf true) fun (err, e) =>
  bnd (free c.pool e.heap buf) fun h =>
  some (.ok (err, { e with heap := h }))

end Cmm.Environ
