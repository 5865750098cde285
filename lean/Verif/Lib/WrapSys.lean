import Verif.Lib.Environ

/- The system calls with paths: lib/SrcTac/wrap-syslib.cmm. -/
namespace Cmm.WrapSys
open Cmm.Str Cmm.Err Cmm.Environ

/-- wrap-syslib.cmm:39-45: the system calls of syslib.s. -/
inductive Sys | exec | creat | remove | mkDir | rmDir | open_ | stat
deriving DecidableEq

/-- What a wrapper does that others can see: it gets and frees a buffer, and makes a system call with arguments in a memory. -/
inductive Ev
  | alloc (p : Word)
  | call (s : Sys) (args : List Word) (m : Mem)
  | free (p : Word)

/-- The surroundings of a call: constants, the _stat absPath uses, the system calls (result and new memory), and the address
`buf` cMalloc gives (wrap-syslib.cmm:49; cMalloc ends the program rather than return null). What malloc and free change in the heap
is not modelled here (see C01): both are events only. -/
structure World where
  c : Cst
  stat : Mem → Word → Word × Word
  sys : Sys → List Word → Mem → Word × Mem
  buf : Word

/-- wrap-syslib.cmm:48-55 newAbsPath; BUF is 80 (line 36). -/
def newAbsPath (w : World) (e : ESt) (path : Word) : Option (Word × ESt × List Ev) := do
  let buf := w.buf
  let (f, e) ← absPath w.c w.stat e path buf 80#16
  if f then return (0#16, e, [.alloc buf, .free buf])
  else return (buf, e, [.alloc buf])

/-- The body all wrappers share, e.g. wrap-syslib.cmm:59-65: `args` are those behind the path. -/
def wrap (s : Sys) (w : World) (e : ESt) (path : Word) (args : List Word) : Option (Word × ESt × List Ev) := do
  let (buf, e, t) ← newAbsPath w e path
  if buf = 0#16 then return (e.errno, e, t)
  else
    let (r, m) := w.sys s (buf :: args) e.mem
    return (r, e.setMem m, t ++ [.call s (buf :: args) e.mem, .free buf])

/-- wrap-syslib.cmm:59-65. -/
def exec (w : World) (e : ESt) (name argv envp : Word) := wrap .exec w e name [argv, envp]
/-- wrap-syslib.cmm:67-73. -/
def creat (w : World) (e : ESt) (path : Word) := wrap .creat w e path []
/-- wrap-syslib.cmm:75-81. -/
def remove (w : World) (e : ESt) (path : Word) := wrap .remove w e path []
/-- wrap-syslib.cmm:83-89. -/
def mkDir (w : World) (e : ESt) (path : Word) := wrap .mkDir w e path []
/-- wrap-syslib.cmm:92-98. -/
def rmDir (w : World) (e : ESt) (path : Word) := wrap .rmDir w e path []
/-- wrap-syslib.cmm:100-106. -/
def open_ (w : World) (e : ESt) (path mode : Word) := wrap .open_ w e path [mode]
/-- wrap-syslib.cmm:108-114. -/
def stat (w : World) (e : ESt) (path st : Word) := wrap .stat w e path [st]

end Cmm.WrapSys
