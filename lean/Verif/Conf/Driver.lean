import Verif.Props.C69
import Verif.Tac.VmText

/-
The whole compiler as one function from the bytes of a source file to the text of its output. It joins the models of the
parts as main.c, parser.c and vmCode.c do and adds the data part of the text. Only the tests in Verif/Conf use it: they
compare its result with the output files that the project keeps for its own tests.

* Strings are printed when the parser reads them (parser.c:512, 1084, 1155); in this function all strings of a declaration come
  before its other lines, which is the same order.
* The constant of vmChr is printed as `255`, the C program prints `0x00ff` (see `Shown` in Verif/Tac/Text.lean).
-/
namespace Cmm.Conf
open Cmm.CText (Text dec decI)
open Cmm.Tree (Expr Stmt)
open Cmm.Gen (Instr Dir DT genData genBss)
open Cmm.Parse (renD nameOf Opts Out Tok PS Ent Label srcFn tok accept TyVOID)
open Cmm.Tac (dirVm dirTac printAll Vm T Sym emits namTxt vmText Line)

/-! ### Labels of strings -/

/-- The strings of an expression. -/
def strsE : Expr → Nat
  | .leaf .str _ => 1
  | .func _ a => strsE a
  | .un _ e => strsE e
  | .bin _ l r => strsE l + strsE r
  | .assV _ _ r => strsE r
  | .assM _ a i r => strsE a + strsE i + strsE r
  | _ => 0

/-- The strings of a statement. -/
def strsS : Stmt → Nat
  | .empty | .brk | .cnt => 0
  | .exp e => strsE e
  | .ifs c a => strsE c + strsS a
  | .els c a b => strsE c + strsS a + strsS b
  | .whl c a re => c.elim 0 strsE + strsS a + re.elim 0 strsE
  | .dos a c => strsS a + strsE c
  | .ret e => e.elim 0 strsE
  | .seq _ a b => strsS a + strsS b

/-- The strings of an initialisation. -/
def strsD : DT → Nat
  | .str _ => 1
  | .semi l r => strsD l + strsD r
  | .list b _ => strsD b
  | _ => 0

/-- The strings of a declaration. -/
def strsO : Out → Nat
  | .func _ _ b _ _ _ => strsS b
  | .data _ d _ _ => strsD d
  | .bss _ _ => 0

/-! ### Calls of the back end -/

/-- vmCode.c:446-449 The instructions of vmBoolOR and vmBoolAND, which the model of vmCode.c expands (`boolMacro`), as one call.
Nothing else that vmCode.c generates ends with a constant before a label. -/
def calls : Nat → List Instr → List Vm
  | 0, _ => []
  | fu + 1, .jmp a :: .lab b :: .ldC x :: .jmp a' :: .lab c :: .ldC y :: .lab a'' :: r =>
    if a = a' ∧ a = a'' then (if x = 1 then .boolOR b (some c) a else .boolAND b (some c) a) :: calls fu r
    else .i (.jmp a) :: calls fu (.lab b :: .ldC x :: .jmp a' :: .lab c :: .ldC y :: .lab a'' :: r)
  | fu + 1, .jmp a :: .lab b :: .ldC x :: .lab a' :: r =>
    if a = a' then (if x = 1 then .boolOR b none a else .boolAND b none a) :: calls fu r
    else .i (.jmp a) :: calls fu (.lab b :: .ldC x :: .lab a' :: r)
  | fu + 1, i :: r => .i i :: calls fu r
  | _, [] => []

/-- Texts one after the other. -/
def join : List (Option Text) → Option Text
  | [] => some []
  | x :: xs => x.bind fun a => (join xs).map (a ++ ·)

/-- vm2vm.c:352-379 The text of a call; macro instructions have comments around them. -/
def vmCall (N : Int → Option Sym) (cnt : Int → Int) : Vm → Option Text
  | .i i => vmText N cnt i
  | .boolOR a b c => mac (t!"OR") 1 a b c
  | .boolAND a b c => mac (t!"AND") 0 a b c
where
  mac (m : Text) (x : Int) (a : Nat) (b : Option Nat) (c : Nat) : Option Text :=
    (join ((Gen.boolMacro x (some a) b c).map (vmText N cnt))).map fun body =>
      t!"; BOOL" ++ m ++ t!" .L" ++ dec a ++ t!",.L" ++ decI (b.elim (-1) fun n => n) ++ t!",.L" ++ dec c ++ t!"\n" ++ body ++ t!"; ----\n"

/-! ### The compiler -/

/-- What is carried from one declaration to the next: the last label, the strings that are not printed, the state of vm2tac.c. -/
structure St where
  lab : Nat
  strs : List String
  tac : T

/-- A directive, by the back end chosen. -/
def dirText (vm : Bool) (N : Int → Option Sym) (s : St) : Dir → Option Text := if vm then dirVm N else dirTac N s.tac

/-- The string constants before a declaration. -/
def strings (vm : Bool) (N : Int → Option Sym) : Nat → St → Option (Text × St)
  | 0, s => some ([], s)
  | k + 1, s =>
    match s.strs with
    | [] => none
    | x :: xs => do
      let a ← printAll (dirText vm N s) [.lab (s.lab + 1), .str x]
      let (b, s) ← strings vm N k { s with lab := s.lab + 1, strs := xs }
      some (a ++ b, s)

/-- One declaration. -/
def outText (vm : Bool) (o : Opts) (id : Label → Int) (N : Int → Option Sym) (void : Int → Bool) (x : Out) (s : St) :
    Option (Text × St) := do
  let (a, s) ← strings vm N (strsO x) s
  match x with
  | .data idx d t _ =>
    let e ← t[idx]?
    let (c, n) := genData (id e.label) e.dim (renD (nameOf id t) d) s.lab
    let b ← printAll (dirText vm N s) c
    some (a ++ b, { s with lab := n })
  | .bss idx t =>
    let e ← t[idx]?
    let b ← printAll (dirText vm N s) (genBss (id e.label))
    some (a ++ b, s)
  | .func f fr b c t p =>
    let fn ← srcFn id o (fun _ => 0) (.func f fr b c t p)
    let (g, n) := fn.comp void s.lab
    let vs := calls g.code.length g.code
    if vm then
      let b ← join (vs.map (vmCall N fn.cnt))
      some (a ++ b, { s with lab := n })
    else
      let t ← emits fn.cnt vs { s.tac with out := [] }
      let b ← join (t.out.map (Line.text N))
      some (a ++ b, ⟨n, s.strs, t⟩)

/-- All declarations. -/
def outTexts (vm : Bool) (o : Opts) (id : Label → Int) (N : Int → Option Sym) (void : Int → Bool) : List Out → St → Option Text
  | [], _ => some []
  | x :: xs, s => do
    let (a, s) ← outText vm o id N void x s
    let b ← outTexts vm o id N void xs s
    some (a ++ b)

/-- The text for what the parser has handed to the code generator. Names are numbered in the order of the name tables. -/
def back (vm : Bool) (o : Opts) (strs : List String) (s : PS) : Option Text :=
  let labs : List Label := ((s.tab ++ s.out.flatMap fun | .func _ _ _ _ t _ => t | .data i _ t _ | .bss i t => t[i]?.toList).map Ent.label).eraseDups
  let id : Label → Int := fun l => labs.idxOf l
  let N : Int → Option Sym := fun i => labs[i.toNat]?.map fun l => (l.1, l.2.toList)
  let void : Int → Bool := fun i => s.tab.any fun e =>
    id e.label == i && (e.scope == Parse.ScPROT || e.scope == Parse.ScFUNC) && e.type == TyVOID && e.dim == 0
  outTexts vm o id N void s.out.reverse ⟨0, strs, T.init⟩

/-- The string constants of a list of tokens. -/
def strToks (ts : List (Int × Int × List Nat)) : List String :=
  ts.filterMap fun t => match tok t with | some (.str x) => some x | _ => none

/-- The compiler with vm2vm.c or vm2tac.c. -/
def asm (vm : Bool) (o : Opts) (src : List Nat) : Option Text :=
  match Lex.lexAll (Lex.start src) with
  | .ok ts => (Parse.getSrc o (Parse.start (ts.filterMap tok))).bind (back vm o (strToks ts))
  | .error _ => none

/-- The same with a bound on the nesting of functions of the parser, to be evaluated. -/
def asmN (fu : Nat) (vm : Bool) (o : Opts) (src : List Nat) : Option Text :=
  match Lex.lexAll (Lex.start src) with
  | .ok ts => (Parse.getSrcN fu o (Parse.start (ts.filterMap tok))).bind (back vm o (strToks ts))
  | .error _ => none

theorem asm_of {fu : Nat} {vm : Bool} {o : Opts} {src : List Nat} {x : Text} (h : asmN fu vm o src = some x) : asm vm o src = some x := by
  unfold asmN at h
  unfold asm
  cases hl : Lex.lexAll (Lex.start src) with
  | error e => rw [hl] at h; cases h
  | ok ts =>
    rw [hl] at h
    obtain ⟨s, h1, h2⟩ := Option.bind_eq_some_iff.1 h
    obtain ⟨s', h3, h4⟩ := Parse.run_ok fu (fun s => s) (v := s) (by rw [h1]; rfl)
    simp only [h3, h4]
    exact h2

theorem both (fu : Nat) {o : Opts} {src : List Nat} {x y : Text} (h : asmN fu false o src = some x ∧ asmN fu true o src = some y) :
    asm false o src = some x ∧ asm true o src = some y :=
  ⟨asm_of h.1, asm_of h.2⟩

end Cmm.Conf
