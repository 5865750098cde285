import Verif.Conf.Driver
import Verif.Tac.IcText

/-
The compiler with the back end vm2ic.c as one function from the bytes of a source file to the text of its output (as Driver.lean, which see).
The text has the indices of global names in the name table: a name is numbered by its entry in the name table.
-/
namespace Cmm.Conf
open Cmm.CText (Text)
open Cmm.Gen (genData genBss)
open Cmm.Parse (renD nameOf Opts Out Tok PS Ent Label srcFn tok TyVOID)
open Cmm.Tac (Call icText)

/-- The calls for the string constants before a declaration. -/
def icStrings : Nat → Nat → List String → Option (List Call × Nat × List String)
  | 0, n, xs => some ([], n, xs)
  | _ + 1, _, [] => none
  | k + 1, n, x :: xs => (icStrings k (n + 1) xs).map fun r => (.dir (.lab (n + 1)) :: .dir (.str x) :: r.1, r.2)

/-- One declaration: its text, the last label and the remaining strings. -/
def icOut (o : Opts) (id : Label → Int) (void : Int → Bool) (x : Out) (n : Nat) (xs : List String) : Option (Text × Nat × List String) := do
  let (ss, n, xs) ← icStrings (strsO x) n xs
  let a ← icText (fun n => n) ss
  match x with
  | .data idx d t _ =>
    let e ← t[idx]?
    let (c, n) := genData (id e.label) e.dim (renD (nameOf id t) d) n
    let b ← icText (fun n => n) (c.map .dir)
    some (a ++ b, n, xs)
  | .bss idx t =>
    let e ← t[idx]?
    let b ← icText (fun n => n) ((genBss (id e.label)).map .dir)
    some (a ++ b, n, xs)
  | .func f fr b c t p =>
    let fn ← srcFn id o (fun _ => 0) (.func f fr b c t p)
    let (g, n) := fn.comp void n
    let b ← icText fn.cnt ((calls g.code.length g.code).map .vm)
    some (a ++ b, n, xs)

/-- All declarations. -/
def icOuts (o : Opts) (id : Label → Int) (void : Int → Bool) : List Out → Nat → List String → Option Text
  | [], _, _ => some []
  | x :: os, n, xs => do
    let (a, n, xs) ← icOut o id void x n xs
    let b ← icOuts o id void os n xs
    some (a ++ b)

/-- The text for what the parser has handed to the code generator. -/
def icBack (o : Opts) (strs : List String) (s : PS) : Option Text :=
  let id : Label → Int := fun l => s.tab.findIdx fun e =>
    e.label == l && [Parse.ScPROT, Parse.ScFUNC, Parse.ScCOMM, Parse.ScGVAR].contains e.scope
  let void : Int → Bool := fun i => s.tab.any fun e =>
    id e.label == i && (e.scope == Parse.ScPROT || e.scope == Parse.ScFUNC) && e.type == TyVOID && e.dim == 0
  icOuts o id void s.out.reverse 0 strs

/-- The compiler with vm2ic.c. -/
def icAsm (o : Opts) (src : List Nat) : Option Text :=
  match Lex.lexAll (Lex.start src) with
  | .ok ts => (Parse.getSrc o (Parse.start (ts.filterMap tok))).bind (icBack o (strToks ts))
  | .error _ => none

/-- The same with a bound on the nesting of functions of the parser, to be evaluated. -/
def icAsmN (fu : Nat) (o : Opts) (src : List Nat) : Option Text :=
  match Lex.lexAll (Lex.start src) with
  | .ok ts => (Parse.getSrcN fu o (Parse.start (ts.filterMap tok))).bind (icBack o (strToks ts))
  | .error _ => none

theorem icAsm_of {fu : Nat} {o : Opts} {src : List Nat} {x : Text} (h : icAsmN fu o src = some x) : icAsm o src = some x := by
  unfold icAsmN at h
  unfold icAsm
  cases hl : Lex.lexAll (Lex.start src) with
  | error e => rw [hl] at h; cases h
  | ok ts =>
    rw [hl] at h
    obtain ⟨s, h1, h2⟩ := Option.bind_eq_some_iff.1 h
    obtain ⟨s', h3, h4⟩ := Parse.run_ok fu (fun s => s) (v := s) (by rw [h1]; rfl)
    simp only [h3, h4]
    exact h2

end Cmm.Conf
