import Verif.Lex.Lex

/-
Model of main.c (the arguments) and of setFname (src/util.c).
-/
namespace Cmm.Lex

/-- What main() does: it prints the usage and ends with a status, or reads a source (no file: stdin) with the flags optFlag and krnFlag. -/
inductive Start
  | usage (status : Nat)
  | run (opt krn : Bool) (file : Option String)
deriving DecidableEq, Repr

/-- main.c:72-77 `-O` and `-O1`; before, optFlag is true (parser.c:119). -/
def argO : List String → List String
  | a :: r => if a = "-O" ∨ a = "-O1" then r else a :: r
  | [] => []

/-- main.c:79-83 `-O0` -/
def argO0 : List String → Bool × List String
  | a :: r => if a = "-O0" then (false, r) else (true, a :: r)
  | [] => (true, [])

/-- main.c:85-89 `-K`; before, krnFlag is false (parser.c:120). -/
def argK : List String → Bool × List String
  | a :: r => if a = "-K" then (true, r) else (false, a :: r)
  | [] => (false, [])

/-- main.c:91-100 The file. -/
def argFile (opt krn : Bool) : List String → Start
  | [] => .run opt krn none
  | [f] => .run opt krn (some f)
  | _ => .usage 1

/-- main.c:60-106 main, without reading the source; `args` are argv[1], ... . Whether the file can be opened is not modelled. -/
def mainArgs (args : List String) : Start :=
  match args with
  | "-v" :: _ | "-h" :: _ => .usage 0
  | _ =>
    let (opt, a) := argO0 (argO args)
    let (krn, a) := argK a
    argFile opt krn a

/-- util.c:54-57 The loop of setFname; `n` bytes of the name are stored in `buf` (of StrMAX + 1 bytes). The name ends with a zero byte, which
is where the list ends. -/
def nameLoop (buf : List Nat) : List Nat → Nat → List Nat × Bool
  | _, 0 => (buf, false)
  | [], _ + 1 => (buf, true)
  | c :: s, n + 1 => nameLoop (buf ++ [c]) s n

/-- util.c:51-59 setFname. If the loop does not find the end, `fname[i]` behind it is a byte behind the array: `Fault.oob`. -/
def setFname (s : List Nat) : Res (List Nat) :=
  match nameLoop [] s (StrMAX + 1) with
  | (buf, true) => .ok buf
  | (_, false) => .error .oob

end Cmm.Lex
