/-
Model of main and htoi in lib/SrcC/wrapper.c: the arrays of arguments for programs with run-time checks, and hexadecimal numbers.
`none` is undefined behaviour of C: access outside of an object, or overflow of an int of 32 bits.
-/
namespace Cmm.CLib

/-- wrapper.h: a `_CA`: the length that is checked at run time, and the bytes there is room for. -/
structure CA where
  l : Nat
  a : List Nat

/-- An element of the array of a `_RA`: not yet written, NULL, or a pointer to a `_CA`. -/
inductive Cell
  | junk
  | null
  | ca (c : CA)

/-- wrapper.h: a `_RA`. -/
structure RA where
  l : Nat
  a : List Cell

/-- A write to an array, with the bounds of what was allocated. -/
def write {α : Type} (a : List α) (i : Nat) (x : α) : Option (List α) := if i < a.length then some (a.set i x) else none

/-- strcpy to room for `n` bytes (a string is the list of its bytes before the NUL). -/
def strcpyTo (n : Nat) (s : List Nat) : Option (List Nat) :=
  if s.length + 1 ≤ n then some (s ++ [0] ++ List.replicate (n - s.length - 1) 0) else none

/-- wrapper.c:59-61 and 75-77 One string: room for strlen+1 bytes. -/
def newCA (s : List Nat) : Option CA := do
  let a ← strcpyTo (s.length + 1) s
  return ⟨s.length + 1, a⟩

/-- wrapper.c:58-62 and 74-78 The loop; `argv` is the array of the system, whose end is NULL (`none`). -/
def fill (argv : List (Option (List Nat))) (argc i : Nat) (a : List Cell) : Option (List Cell) :=
  if i < argc then do
    let s ← argv[i]?
    let s ← s
    let c ← newCA s
    let a ← write a i (.ca c)
    fill argv argc (i + 1) a
  else some a
termination_by argc - i

/-- wrapper.c:55-62 and 71-78: `sizeof(_RA)+sizeof(void*)*(argc+1)` bytes are room for argc+1 elements. -/
def newRA (argv : List (Option (List Nat))) (argc : Nat) : Option RA := do
  let a := List.replicate (argc + 1) Cell.junk
  let a ← write a argc .null
  let a ← fill argv argc 0 a
  return ⟨argc + 1, a⟩

/-- wrapper.c:65-68 The loop that counts envp. -/
def countEnv (envp : List (Option (List Nat))) (envc : Nat) : Option Nat :=
  match h : envp[envc]? with
  | none => none
  | some none => some envc
  | some (some _) => countEnv envp (envc + 1)
termination_by envp.length - envc
decreasing_by
  have := (List.getElem?_eq_some_iff.1 h).1
  omega

/-- wrapper.c:53-82 What main hands to the main function of the program: argc, the arguments, the environment. -/
def mainArgs (argc : Nat) (argv envp : List (Option (List Nat))) : Option (Nat × RA × RA) := do
  let args ← newRA argv argc
  let envc ← countEnv envp 0
  let envs ← newRA envp envc
  return (argc, args, envs)

/-- isxdigit of C in the standard locale. -/
def isxdigit (c : Char) : Bool := c.isDigit || (97 ≤ c.toNat && c.toNat ≤ 102) || (65 ≤ c.toNat && c.toNat ≤ 70)

/-- toupper of C, as a number. -/
def toupper (c : Char) : Nat := if 97 ≤ c.toNat ∧ c.toNat ≤ 122 then c.toNat - 32 else c.toNat

/-- wrapper.c:129-138 The loop of htoi on the characters before the NUL. -/
def htoiLoop (v : Nat) : List Char → Option Nat
  | [] => some v
  | c :: s =>
    if isxdigit c then
      let v := if c.isDigit then v * 16 + (c.toNat - 48) else v * 16 + (10 + toupper c - 65)
      if v < 2147483648 then htoiLoop v s else none
    else some v

/-- wrapper.c:128-139 -/
def htoi (s : List Char) : Option Nat := htoiLoop 0 s

end Cmm.CLib
