import Verif.Tac.Text
import Verif.Tac.Full

/-
src/vm2vm.c: the back end that prints the instructions of the stack machine as text; a reader of such text; and the machine
that executes it.

Simplifications:
* A name is looked up by `N`: whether it is public (ntGetPub) and its characters (ntGetName). `cnt` is ntGetCnt.
* vmBoolOR and vmBoolAND (vm2vm.c:352-379) call vmJmp, vmLab and vmLdCns, which are the instructions `boolMacro` of
  Verif/Gen/Code.lean, and print comment lines before and after. The text of a list of instructions may contain comment lines
  anywhere.
* The directives for data (vm2vm.c:384-419) are left out.
-/
namespace Cmm.Tac
open Cmm.CText (Text dec decI)
open Cmm.Gen (Instr A1 A2 Data Cfg Step Steps)

/-! ### vm2vm.c -/

/-- vm2vm.c:218-244 vmNeg … vmBool -/
def a1Text : A1 → Text
  | .NEG => t!"NEG" | .NOT => t!"NOT" | .BNOT => t!"BNOT" | .CHR => t!"CHR" | .BOOL => t!"BOOL"

/-- vm2vm.c:248-340 vmAdd … vmNe -/
def a2Text : A2 → Text
  | .ADD => t!"ADD" | .SUB => t!"SUB" | .SHL => t!"SHL" | .SHR => t!"SHR" | .BAND => t!"BAND" | .BXOR => t!"BXOR"
  | .BOR => t!"BOR" | .MUL => t!"MUL" | .DIV => t!"DIV" | .MOD => t!"MOD" | .GT => t!"GT" | .GE => t!"GE"
  | .LT => t!"LT" | .LE => t!"LE" | .EQ => t!"EQ" | .NE => t!"NE"

/-- `\tm\n` -/
def vm0 (m : Text) : Option Text := some ('\t' :: m ++ t!"\n")

/-- `\tm\tx\n` -/
def vm1 (m x : Text) : Option Text := some ('\t' :: (m ++ '\t' :: x) ++ t!"\n")

/-- `.L%d` (vm2vm.c:68-70 vmLab) -/
def vmLabel (n : Int) : Text := t!".L" ++ decI n

/-- vm2vm.c:61-345: what is printed for an instruction. -/
def vmText (N : Int → Option Sym) (cnt : Int → Int) : Instr → Option Text
  | .nam f => (namTxt N f).map (· ++ t!"\n")
  | .lab n => some (vmLabel n ++ t!"\n")
  | .entry d => vm1 t!"ENTRY" (decI d)
  | .entryK d => vm1 t!"ENTRYK" (decI d)
  | .ret => vm0 t!"RET"
  | .entryI d => vm1 t!"ENTRYI" (decI d)
  | .retI => vm0 t!"RETI"
  | .mreg => vm0 t!"MREG"
  | .arg => vm0 t!"ARG"
  | .callP n f => (namTxt N f).bind fun x => vm1 t!"CALLP" (decI n ++ t!"," ++ x)
  | .callF n f => (namTxt N f).bind fun x => vm1 t!"CALLF" (decI n ++ t!"," ++ x)
  | .jmp n => vm1 t!"JMP" (vmLabel n)
  | .jt n => vm1 t!"JT" (vmLabel n)
  | .jf n => vm1 t!"JF" (vmLabel n)
  | .ldC v => vm1 t!"LDC" (decI v)
  | .ldG n => (namTxt N n).bind (vm1 t!"LDG")
  | .ldL n => vm1 t!"LDL" (decI (cnt n))
  | .ldP n => vm1 t!"LDP" (decI (cnt n + 1))
  | .ldLab n => vm1 t!"LDC" (vmLabel n)
  | .ldW => vm0 t!"LDW"
  | .ldB => vm0 t!"LDB"
  | .ldNam n => (namTxt N n).bind (vm1 t!"LDC")
  | .stG n => (namTxt N n).bind (vm1 t!"STG")
  | .stL n => vm1 t!"STL" (decI (cnt n))
  | .stP n => vm1 t!"STP" (decI (cnt n + 1))
  | .stW => vm0 t!"STW"
  | .stB => vm0 t!"STB"
  | .a1 o => vm0 (a1Text o)
  | .a2 o => vm0 (a2Text o)
  | .pop => vm0 t!"POP"
  | .bug => none

/-- What may be printed for a list of instructions. -/
inductive VmPrinted (N : Int → Option Sym) (cnt : Int → Int) : List Instr → Text → Prop
  | nil : VmPrinted N cnt [] []
  | cons {i is x xs} : vmText N cnt i = some x → VmPrinted N cnt is xs → VmPrinted N cnt (i :: is) (x ++ xs)
  | comment {is c xs} : '\n' ∉ c → VmPrinted N cnt is xs → VmPrinted N cnt is (';' :: c ++ '\n' :: xs)

/-- The functions of a program. -/
inductive VmProg (N : Int → Option Sym) : List Fn → Text → Prop
  | nil : VmProg N [] []
  | cons {fn fns x xs} : VmPrinted N fn.cnt fn.code x → VmProg N fns xs → VmProg N (fn :: fns) (x ++ xs)

/-! ### Specification: reading the text

doc/vm.tex:32-40 and the forms of the instructions in doc/vm.tex:60-760. Lines are ended by newline characters. A line begins with
a label, or with a tabulator followed by a mnemonic, and possibly a second tabulator and operands separated by commas. Lines that
begin with `;` are comments. Symbols are read by `rdSym`; `id` are their numbers. Local variables are numbered as printed;
`LDP n` and `STP n` are for the n-th parameter (doc/vm.tex:349, 449), which is parameter `n - 1` here. -/

/-- Instructions without operands. -/
def rdVm0 : List (Text × Instr) :=
  [(t!"RET", .ret), (t!"RETI", .retI), (t!"MREG", .mreg), (t!"ARG", .arg), (t!"LDW", .ldW), (t!"LDB", .ldB), (t!"STW", .stW),
    (t!"STB", .stB), (t!"NEG", .a1 .NEG), (t!"NOT", .a1 .NOT), (t!"BNOT", .a1 .BNOT), (t!"CHR", .a1 .CHR), (t!"BOOL", .a1 .BOOL),
    (t!"ADD", .a2 .ADD), (t!"SUB", .a2 .SUB), (t!"SHL", .a2 .SHL), (t!"SHR", .a2 .SHR), (t!"BAND", .a2 .BAND),
    (t!"BXOR", .a2 .BXOR), (t!"BOR", .a2 .BOR), (t!"MUL", .a2 .MUL), (t!"DIV", .a2 .DIV), (t!"MOD", .a2 .MOD), (t!"GT", .a2 .GT),
    (t!"GE", .a2 .GE), (t!"LT", .a2 .LT), (t!"LE", .a2 .LE), (t!"EQ", .a2 .EQ), (t!"NE", .a2 .NE), (t!"POP", .pop)]

/-- A label of the compiler. -/
def rdL (x : Text) : Option Nat := (rdSym x).bind fun
  | .lbl (.L n) => some n
  | _ => none

/-- A name. -/
def rdN (id : Sym → Int) (x : Text) : Option Int := (rdSym x).bind fun
  | .sym s => some (id s)
  | _ => none

/-- The operand of `LDC`: the address of a label or of a name, or a number. -/
def rdC (id : Sym → Int) (x : Text) : Option Instr :=
  match rdSym x with
  | some (.lbl (.L n)) => some (.ldLab n)
  | some (.lbl (.T _)) => none
  | some (.sym s) => some (.ldNam (id s))
  | none => (rdInt x).map .ldC

/-- Instructions with one operand. -/
def rdVm1 (id : Sym → Int) (m x : Text) : Option Instr :=
  if m = t!"ENTRY" then (rdInt x).map .entry
  else if m = t!"ENTRYK" then (rdInt x).map .entryK
  else if m = t!"ENTRYI" then (rdInt x).map .entryI
  else if m = t!"JMP" then (rdL x).map .jmp
  else if m = t!"JT" then (rdL x).map .jt
  else if m = t!"JF" then (rdL x).map .jf
  else if m = t!"LDC" then rdC id x
  else if m = t!"LDG" then (rdN id x).map .ldG
  else if m = t!"LDL" then (rdInt x).map .ldL
  else if m = t!"LDP" then (rdInt x).map fun n => .ldP (n - 1)
  else if m = t!"STG" then (rdN id x).map .stG
  else if m = t!"STL" then (rdInt x).map .stL
  else if m = t!"STP" then (rdInt x).map fun n => .stP (n - 1)
  else none

/-- Instructions with two operands. -/
def rdVm2 (id : Sym → Int) (m x y : Text) : Option Instr :=
  if m = t!"CALLP" then (rdNat x).bind fun n => (rdN id y).map (.callP n)
  else if m = t!"CALLF" then (rdNat x).bind fun n => (rdN id y).map (.callF n)
  else none

/-- A line. -/
def rdVmLine (id : Sym → Int) : Text → Option (List Instr)
  | [] => some []
  | ';' :: _ => some []
  | '\t' :: z => Option.map (fun i => [i]) <|
    match split '\t' z with
    | [m] => rdVm0.lookup m
    | [m, ops] => match split ',' ops with
      | [x] => rdVm1 id m x
      | [x, y] => rdVm2 id m x y
      | _ => none
    | _ => none
  | x => (rdSym x).bind fun
    | .lbl (.L n) => some [.lab n]
    | .lbl (.T _) => none
    | .sym s => some [.nam (id s)]

def rdVmLines (id : Sym → Int) : List Text → Option (List Instr)
  | [] => some []
  | x :: xs => (rdVmLine id x).bind fun a => (rdVmLines id xs).map (a ++ ·)

/-- The instructions of a text. -/
def readVm (id : Sym → Int) (x : Text) : Option (List Instr) := rdVmLines id (split '\n' x)

/-! ### Specification: the machine

doc/vm.tex. There is one stack. The memory contains global variables and arrays only. Every activation of a function has its own local
variables, parameters and argument area. -/

/-- What is kept while a called function works: where to continue, whether the call is CALLF, the rest of the argument area, the local
variables and the parameters. -/
structure Saved where
  pc : Nat
  fn : Bool
  args : List Cmm.Word
  loc : Int → Cmm.Word
  prm : Int → Cmm.Word

structure VM where
  pc : Nat
  d : Data AS
  acts : List Saved

/-- Memory without a stack. -/
def noStack : Lay := ⟨0, 0⟩

/-- All but calls: the instructions of Verif/Gen/VM.lean. -/
def vworld (E : Env) : Tree.World AS := aworld E noStack (fun n => n) fun _ _ _ => none

/-- CALLF (`b`) or CALLP -/
def vcall (b : Bool) (n : Nat) (f : Int) : Instr := if b then .callF n f else .callP n f

/-- `k` is the first place where the name `f` is defined. -/
def Defined (P : List Instr) (f : Int) (k : Nat) : Prop := P[k]? = some (.nam f) ∧ ∀ j < k, P[j]? ≠ some (.nam f)

/-- A step. `new` are the values that local variables happen to have when a function begins, `ext` are the functions that are defined
elsewhere. -/
inductive VStep (E : Env) (ext : Int → List Cmm.Word → Mem → Option (Cmm.Word × Mem)) (new : VM → Int → Cmm.Word) (P : List Instr) :
    VM → VM → Prop
  | step {pc d acts pc' d'} : Step (vworld E) P ⟨pc, d⟩ ⟨pc', d'⟩ → VStep E ext new P ⟨pc, d, acts⟩ ⟨pc', d', acts⟩
  | nam {pc d acts f} : P[pc]? = some (.nam f) → VStep E ext new P ⟨pc, d, acts⟩ ⟨pc + 1, d, acts⟩
  | entry {pc d acts n} : P[pc]? = some (.entry n) ∨ P[pc]? = some (.entryK n) → VStep E ext new P ⟨pc, d, acts⟩ ⟨pc + 1, d, acts⟩
  | call {pc st ar rg mem loc prm acts b n f k} : P[pc]? = some (vcall b n f) → Defined P f k →
      VStep E ext new P ⟨pc, ⟨st, ar, rg, ⟨mem, loc, prm⟩⟩, acts⟩
        ⟨k, ⟨st, [], rg, ⟨mem, new ⟨pc, ⟨st, ar, rg, ⟨mem, loc, prm⟩⟩, acts⟩, fun i => (ar.take n).getD i.toNat 0⟩⟩,
          ⟨pc + 1, b, ar.drop n, loc, prm⟩ :: acts⟩
  | ext {pc st ar rg mem loc prm acts b n f v mem'} : P[pc]? = some (vcall b n f) → .nam f ∉ P →
      ext f (ar.take n) mem = some (v, mem') →
      VStep E ext new P ⟨pc, ⟨st, ar, rg, ⟨mem, loc, prm⟩⟩, acts⟩
        ⟨pc + 1, ⟨if b then v :: st else st, ar.drop n, rg, ⟨mem', loc, prm⟩⟩, acts⟩
  | ret {pc st ar rg mem loc prm a acts} : P[pc]? = some .ret →
      VStep E ext new P ⟨pc, ⟨st, ar, rg, ⟨mem, loc, prm⟩⟩, a :: acts⟩
        ⟨a.pc, ⟨if a.fn then rg :: st else st, a.args, rg, ⟨mem, a.loc, a.prm⟩⟩, acts⟩

/-- Any number of steps. -/
inductive VSteps (E : Env) (ext : Int → List Cmm.Word → Mem → Option (Cmm.Word × Mem)) (new : VM → Int → Cmm.Word) (P : List Instr) :
    VM → VM → Prop
  | refl {c} : VSteps E ext new P c c
  | head {a b c} : VStep E ext new P a b → VSteps E ext new P b c → VSteps E ext new P a c

/-- The function `f`, called with arguments `vs`, does its work and returns: the machine starts at the name of the function and gets to where
the topmost activation tells. -/
def Does (E : Env) (ext : Int → List Cmm.Word → Mem → Option (Cmm.Word × Mem)) (new : VM → Int → Cmm.Word) (P : List Instr) (f : Int)
    (vs : List Cmm.Word) (mem : Mem) (v : Cmm.Word) (mem' : Mem) : Prop :=
  ∃ k, Defined P f k ∧ ∀ (st : List Cmm.Word) (rg : Cmm.Word) (loc : Int → Cmm.Word) (a : Saved) (acts : List Saved), (a.fn = true → E.val f = true) →
    ∃ rg', VSteps E ext new P ⟨k, ⟨st, [], rg, ⟨mem, loc, fun i => vs.getD i.toNat 0⟩⟩, a :: acts⟩
      ⟨a.pc, ⟨if a.fn then v :: st else st, a.args, rg', ⟨mem', a.loc, a.prm⟩⟩, acts⟩

/-- Every call that returns does so on the machine. -/
def Calls (E : Env) (ext : Int → List Cmm.Word → Mem → Option (Cmm.Word × Mem)) (new : VM → Int → Cmm.Word) (P : List Instr)
    (call : Int → List Cmm.Word → Mem → Option (Cmm.Word × Mem)) : Prop :=
  ∀ f vs mem v mem', call f vs mem = some (v, mem') →
    (.nam f ∉ P ∧ ext f vs mem = some (v, mem')) ∨ Does E ext new P f vs mem v mem'

end Cmm.Tac
