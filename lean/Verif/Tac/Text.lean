import Verif.Tac.Model
import Verif.CText.Read

/-
The characters that src/vm2tac.c prints for its lines, and a reader of such text.

Simplifications:
* A name is looked up by `N`: whether it is public (ntGetPub) and its characters (ntGetName).
* Where C would read outside of `regs` or `jcc`, or of the name table, there is no text.
* vmLdLoc prints a negative offset as `-%d` of a positive number (vm2tac.c:185, 507); the number is never 0, so this is
  printf %d of the negative number.
* vmChr prints its constant as `0x00ff` (vm2tac.c:616), everything else prints decimal numbers: `chrText`.
* `inFunc`, which decides whether vmLab ends the line, is true inside of functions (genFunc, vmCode.c:662-682) and false
  in data: makeFrame and cancelFrame set it (vm2tac.c:314, 338).
-/
namespace Cmm.Tac
open Cmm.CText (Text dec decI)

/-- A name as it is known outside: public or not, and its characters. -/
abbrev Sym := Bool × Text

/-- vm2tac.c:65-69 regs -/
def regs : List Text :=
  [t!"G0", t!"G1", t!"G2", t!"G3", t!"G4", t!"G5", t!"G6", t!"G7", t!"G8", t!"G9", t!"G10", t!"G11"]

/-- `regs[i]` -/
def regTxt (i : Int) : Option Text := if i < 0 then none else regs[i.toNat]?

/-- Registers: `FP` and `SP` are written out in the formats (vm2tac.c:321-337, 399). -/
def Reg.text : Reg → Option Text
  | .g i => regTxt i
  | .fp => some t!"FP"
  | .sp => some t!"SP"

/-- vm2tac.c:113 jcc -/
def jccs : List Text := [t!"JLT", t!"JLE", t!"JZ", t!"JGE", t!"JGT", t!"JNZ"]

/-- The mnemonics (vm2tac.c:654-815 and the formats of 158-625). -/
def TOp.text : TOp → Text
  | .LD => t!"LD" | .ADD => t!"ADD" | .SUB => t!"SUB" | .CMP => t!"CMP" | .AND => t!"AND" | .OR => t!"OR"
  | .XOR => t!"XOR" | .ADDS => t!"ADDS" | .MUL => t!"MUL" | .DIV => t!"DIV" | .MOD => t!"MOD"
  | .SHLA => t!"SHLA" | .SHRA => t!"SHRA"

/-- vm2tac.c:102-105 getPref, and the name. -/
def symTxt (s : Sym) : Text := (if s.1 then '_' else '.') :: s.2

/-- `%c%s` with getPref(n) and ntGetName(n). -/
def namTxt (N : Int → Option Sym) (n : Int) : Option Text := (N n).map symTxt

/-- `.L%d`, `.T%d` -/
def Lbl.text : Lbl → Text
  | .L n => t!".L" ++ dec n
  | .T n => t!".T" ++ dec n

/-- vm2tac.c:175-203 The operands. -/
def Src.text (N : Int → Option Sym) : Src → Option Text
  | .imm n => some ('#' :: decI n)
  | .glb i => namTxt N i
  | .fp n => some (decI n ++ t!",FP")
  | .reg r => r.text
  | .lab n => some (t!"#.L" ++ decI n)
  | .nam i => (namTxt N i).map fun x => '#' :: x
  | .ind r => (regTxt r).map fun x => t!"0," ++ x
  | .byt r => (regTxt r).map fun x => '@' :: x

/-- The text of a line: vm2tac.c:158-161 and 175-203 (op), 489, 507, 516, 564, 576 (st), 265, 321, 326, 361, 388 (push),
209, 334, 337, 369 (pop), 417 and 831-856 (jmp, jcc), 308-309 (lab), 396 (call), 344, 355, 370, 303 (nam, without newline). -/
def Line.text (N : Int → Option Sym) : Line → Option Text
  | .op o r s => r.text.bind fun x => (s.text N).map fun y => '\t' :: o.text ++ '\t' :: x ++ ',' :: y ++ t!"\n"
  | .st r d => (regTxt r).bind fun x => (d.text N).map fun y => t!"\tST\t" ++ x ++ ',' :: y ++ t!"\n"
  | .push r => r.text.map fun x => t!"\tPUSH\t" ++ x ++ t!"\n"
  | .pop r => r.text.map fun x => t!"\tPOP\t" ++ x ++ t!"\n"
  | .jmp l => some (t!"\tJMP\t" ++ l.text ++ t!"\n")
  | .jcc j l => jccs[j]?.map fun x => '\t' :: x ++ '\t' :: l.text ++ t!"\n"
  | .lab l => some (l.text ++ t!"\n")
  | .call i => (namTxt N i).map fun x => t!"\tCALL\t" ++ x ++ t!"\n"
  | .stkChk => some t!"\tCALL\t__stkChk\n"
  | .ret => some t!"\tRET\n"
  | .reti => some t!"\tRETI\n"
  | .nam i => namTxt N i

/-- vm2tac.c:616 The line of vmChr. -/
def chrText (r : Int) : Option Text := (regTxt r).map fun x => t!"\tAND\t" ++ x ++ t!",#0x00ff\n"

/-- What may be printed for a line: a line `AND r,#255` comes from vmChr or from an operation with the constant 255. -/
def Shown (N : Int → Option Sym) (l : Line) (x : Text) : Prop :=
  l.text N = some x ∨ ∃ r, l = .op .AND (.g r) (.imm 255) ∧ chrText r = some x

/-- What may be printed for a list of lines. -/
inductive Printed (N : Int → Option Sym) : List Line → Text → Prop
  | nil : Printed N [] []
  | cons {l ls x xs} : Shown N l x → Printed N ls xs → Printed N (l :: ls) (x ++ xs)

/-! ### Specification: reading assembler text

Lines end with newline characters; a line has a label field, a mnemonic and a list of operands, separated by tabulators;
operands are separated by commas. A symbol beginning with `_` or `.` is a name; symbols `.Ln` and `.Tn` are labels. -/

/-- The parts of a text between characters `c`. -/
def split (c : Char) : Text → List Text
  | [] => [[]]
  | x :: xs =>
    if x = c then [] :: split c xs
    else match split c xs with
      | [] => [[x]]
      | y :: ys => (x :: y) :: ys

/-- A decimal number without leading zeros. -/
def rdNat (x : Text) : Option Nat :=
  (CText.readNum 10 0 x).bind fun n => if dec n = x then some n else none

/-- A number: decimal with a sign, or hexadecimal. -/
def rdInt : Text → Option Int
  | '-' :: x => (rdNat x).map fun n : Nat => -(n : Int)
  | '0' :: 'x' :: x => (CText.readNum 16 0 x).map fun n : Nat => (n : Int)
  | x => (rdNat x).map fun n : Nat => (n : Int)

/-- Symbols: labels and names. -/
inductive Word where
  | lbl (l : Lbl) | sym (s : Sym)

def rdSym : Text → Option Word
  | '_' :: x => some (.sym (true, x))
  | '.' :: 'L' :: x => match rdNat x with
    | some n => some (.lbl (.L n))
    | none => some (.sym (false, 'L' :: x))
  | '.' :: 'T' :: x => match rdNat x with
    | some n => some (.lbl (.T n))
    | none => some (.sym (false, 'T' :: x))
  | '.' :: x => some (.sym (false, x))
  | _ => none

/-- General registers. -/
def rdG : Text → Option Int
  | 'G' :: x => (rdNat x).bind fun n => if n ≤ 11 then some (n : Int) else none
  | _ => none

def rdReg (x : Text) : Option Reg :=
  if x = t!"FP" then some .fp else if x = t!"SP" then some .sp else (rdG x).map .g

section
variable (id : Sym → Int)

/-- An operand: immediate value, byte or word pointed to by a register, word in the frame, register, global variable. -/
def rdSrc : List Text → Option Src
  | ['#' :: x] => match rdSym x with
    | some (.lbl (.L n)) => some (.lab n)
    | some (.lbl (.T _)) => none
    | some (.sym s) => some (.nam (id s))
    | none => (rdInt x).map .imm
  | ['@' :: x] => (rdG x).map .byt
  | [x] => match rdReg x, rdSym x with
    | some r, _ => some (.reg r)
    | none, some (.sym s) => some (.glb (id s))
    | none, _ => none
  | [n, r] =>
    if r = t!"FP" then (rdInt n).map .fp
    else if n = t!"0" then (rdG r).map .ind
    else none
  | _ => none

def rdLbl (x : Text) : Option Lbl := (rdSym x).bind fun
  | .lbl l => some l
  | .sym _ => none

/-- Operations with a register and an operand. -/
def rdOp (m : Text) : Option TOp :=
  if m = t!"LD" then some .LD
  else if m = t!"ADD" then some .ADD
  else if m = t!"SUB" then some .SUB
  else if m = t!"CMP" then some .CMP
  else if m = t!"AND" then some .AND
  else if m = t!"OR" then some .OR
  else if m = t!"XOR" then some .XOR
  else if m = t!"ADDS" then some .ADDS
  else if m = t!"MUL" then some .MUL
  else if m = t!"DIV" then some .DIV
  else if m = t!"MOD" then some .MOD
  else if m = t!"SHLA" then some .SHLA
  else if m = t!"SHRA" then some .SHRA
  else none

/-- The conditional jumps; their numbers are those of vm2tac.c:114-119. -/
def rdJcc (m : Text) : Option Nat :=
  if m = t!"JLT" then some JLT else if m = t!"JLE" then some JLE else if m = t!"JZ" then some JEQ
  else if m = t!"JGE" then some JGE else if m = t!"JGT" then some JGT else if m = t!"JNZ" then some JNZ else none

/-- The symbol of the routine that checks the stack. -/
def chkSym : Sym := (true, t!"_stkChk")

/-- An instruction: mnemonic and operands. -/
def rdIns (m : Text) (ops : List Text) : Option Line :=
  match ops with
  | [] => if m = t!"RET" then some .ret else if m = t!"RETI" then some .reti else none
  | [x] =>
    if m = t!"PUSH" then (rdReg x).map .push
    else if m = t!"POP" then (rdReg x).map .pop
    else if m = t!"JMP" then (rdLbl x).map .jmp
    else if m = t!"CALL" then (rdSym x).bind fun
      | .lbl _ => none
      | .sym s => some (if s = chkSym then .stkChk else .call (id s))
    else (rdJcc m).bind fun j => (rdLbl x).map (.jcc j)
  | x :: xs =>
    if m = t!"ST" then (rdG x).bind fun r => (rdSrc id xs).map (.st r)
    else (rdOp m).bind fun o => (rdReg x).bind fun r => (rdSrc id xs).map (.op o r)

/-- The label field. -/
def rdField (x : Text) : Option (List Line) :=
  if x = [] then some []
  else (rdSym x).map fun
    | .lbl l => [.lab l]
    | .sym s => [.nam (id s)]

/-- A line. -/
def rdLine (x : Text) : Option (List Line) :=
  match split '\t' x with
  | [l] => rdField id l
  | [l, m] => (rdField id l).bind fun a => (rdIns id m []).map fun i => a ++ [i]
  | [l, m, ops] => (rdField id l).bind fun a => (rdIns id m (split ',' ops)).map fun i => a ++ [i]
  | _ => none

/-- A list of lines. -/
def rdLines : List Text → Option (List Line)
  | [] => some []
  | x :: xs => (rdLine id x).bind fun a => (rdLines xs).map fun b => a ++ b

/-- A text. -/
def assemble (x : Text) : Option (List Line) := rdLines id (split '\n' x)

end

end Cmm.Tac
