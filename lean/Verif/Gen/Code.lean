import Verif.Gen.VM

/-
Model of the code generator for expressions, src/vmCode.c:84-521.

Simplifications:
* The counter curLab (vmCode.c:85) is passed and returned explicitly; the output is a list of
  instructions; the label number -1 (not allocated) is `none`.
* `struct Expr` is the returned `Place`; `struct Label` (vmCode.c:376-387) is passed and
  returned. The label structures reachable at one time are different, so updating them one by
  one is faithful.
* The mutually recursive functions genBoolExpr, genArgs and genLogExpr are the three fields of
  one value `G` built by recursion over the tree.
* genLogExpr returns the last term to the caller when left = 1, and the caller (vmCode.c:444)
  generates its code at once. Here genLogExpr does it itself in that case.
* The optimizer and the parser never leave SySIZE in a tree for vmCode; genFactor ends in
  error() for it (`bug`).
-/
namespace Cmm.Gen
open Cmm.Tree

/-- What the code generator asks the name table: the offset of a field (ntGetCnt,
vmCode.c:331) and whether a function is void (vmCode.c:216). -/
structure NT where
  cnt : Int → Int
  void : Int → Bool

/-- vmCode.c:97-110 Where a value is. -/
inductive Place
  | inval | cnst (v : Int) | gvar (n : Int) | lvar (n : Int) | prm (n : Int) | str (n : Int)
  | stkd | stkw | stkb | labl (n : Int)
deriving DecidableEq, Repr

abbrev Code := List Instr

/-- vmCode.c:126-128 printLab. -/
def printLab : Option Nat → Code
  | some n => [.lab n]
  | none => []

/-- vmCode.c:131-146 load. -/
def load : Place → Code
  | .stkd => []
  | .cnst v => [.ldC v]
  | .gvar n => [.ldG n]
  | .lvar n => [.ldL n]
  | .prm n => [.ldP n]
  | .str n => [.ldLab n]
  | .labl n => [.ldNam n]
  | .stkw => [.ldW]
  | .stkb => [.ldB]
  | .inval => [.bug]

/-- vmCode.c:149-158 store. -/
def store : Place → Code
  | .gvar n => [.stG n]
  | .lvar n => [.stL n]
  | .prm n => [.stP n]
  | .stkw => [.stW]
  | .stkb => [.stB]
  | _ => [.bug]

/-- vmCode.c:161-167 pop. -/
def popP : Place → Code
  | .stkd => [.pop]
  | .stkw | .stkb => [.pop, .pop]
  | _ => []

/-- vmCode.c:376-387 A label number and the depth of the left subtree it belongs to. -/
structure Lab where
  no : Option Nat
  left : Nat

/-- Result of generating an expression: code, place of the value, label counter. -/
abbrev BRes := Code × Place × Nat

/-- The code for an expression as an operand (`bool`), as an argument list (`args`, which also
counts the arguments) and, for && and ||, as a jumping condition (`log`). -/
structure G where
  bool : Nat → BRes
  args : Nat → Code × Nat × Nat
  log : Nat → Lab → Lab → Nat → Code × Lab × Lab × Nat

/-- vmCode.c:489-492 genExpr: value always on the stack. -/
def genE (b : Nat → BRes) (n : Nat) : Code × Nat :=
  let (c, p, n) := b n
  (c ++ load p, n)

/-- vmCode.c:202-212 Places of factors (genFactor). -/
def leafPlace : Kind → Int → BRes → BRes
  | .glb, v, (c, _, n) => (c, .gvar v, n)
  | .addr, v, (c, _, n) => (c, .labl v, n)
  | .loc, v, (c, _, n) => (c, .lvar v, n)
  | .prm, v, (c, _, n) => (c, .prm v, n)
  | .str, v, (c, _, n) => (c, .str v, n)
  | .size, _, (c, _, n) => (c ++ [.bug], .inval, n)

/-- vmCode.c:214-222 Call of function `f` with `k` arguments (genFactor). -/
def callCode (nt : NT) (f : Int) (k : Nat) : Code × Place :=
  if nt.void f then ([.callP k f], .inval) else ([.callF k f], .stkd)

/-- vmCode.c:232-238 Instruction of a unary operator (gen1OpExpr). -/
def unInstr : Un → Instr
  | .neg => .a1 .NEG
  | .not => .a1 .NOT
  | .bnot => .a1 .BNOT
  | .chr => .a1 .CHR
  | .bool => .a1 .BOOL

/-- vmCode.c:241-247 isCommutativeOp. -/
def isCommutativeOp : Bin → Bool
  | .add | .band | .bxor | .bor | .mul | .gt | .ge | .lt | .le | .equ | .neq => true
  | _ => false

/-- vmCode.c:250-278 evalDepth. Assignments and the comma operator take the last branch. -/
def evalDepth : Expr → Nat
  | .func0 _ | .func _ _ => 100
  | .cnst _ | .leaf _ _ => 1
  | .un _ e => evalDepth e
  | .bin .or l r | .bin .and l r =>
    if evalDepth l > evalDepth r then evalDepth l else evalDepth r
  | .bin op l r =>
    if isCommutativeOp op then
      if evalDepth l = evalDepth r then evalDepth l + 1
      else if evalDepth l > evalDepth r then evalDepth l else evalDepth r
    else if evalDepth l > evalDepth r then evalDepth l else evalDepth r + 1
  | .assV _ _ r => if 1 > evalDepth r then 1 else evalDepth r + 1
  | .assM _ a i r =>
    let l := if evalDepth a > evalDepth i then evalDepth a else evalDepth i + 1
    if l > evalDepth r then l else evalDepth r + 1

/-- vmCode.c:297-308 Instruction of a numeric operator (gen2OpExpr). -/
def binInstr : Bin → Instr
  | .add => .a2 .ADD
  | .sub => .a2 .SUB
  | .shl => .a2 .SHL
  | .shr => .a2 .SHR
  | .band => .a2 .BAND
  | .bxor => .a2 .BXOR
  | .bor => .a2 .BOR
  | .mul => .a2 .MUL
  | .div => .a2 .DIV
  | .mod => .a2 .MOD
  | _ => .bug

/-- vmCode.c:354-370 Instruction of a comparison (genCmpExpr). -/
def cmpInstr (swap : Bool) : Bin → Instr
  | .gt => if swap then .a2 .LT else .a2 .GT
  | .ge => if swap then .a2 .LE else .a2 .GE
  | .lt => if swap then .a2 .GT else .a2 .LT
  | .le => if swap then .a2 .GE else .a2 .LE
  | .equ => .a2 .EQ
  | .neq => .a2 .NE
  | _ => .bug

/-- Both operands, then an instruction. -/
def genTwo (bl br : Nat → BRes) (i : Code) (p : Place) (n : Nat) : BRes :=
  let (c1, n) := genE bl n
  let (c2, n) := genE br n
  (c1 ++ c2 ++ i, p, n)

/-- vmCode.c:281-309 gen2OpExpr. -/
def gen2OpExpr (op : Bin) (swap : Bool) (bl br : Nat → BRes) : Nat → BRes :=
  if isCommutativeOp op && swap then genTwo br bl [binInstr op] .stkd
  else genTwo bl br [binInstr op] .stkd

/-- vmCode.c:337-370 genCmpExpr. -/
def genCmpExpr (op : Bin) (swap : Bool) (bl br : Nat → BRes) : Nat → BRes :=
  if swap then genTwo br bl [cmpInstr true op] .stkd
  else genTwo bl br [cmpInstr false op] .stkd

/-- vmCode.c:322-334 genDotExpr. The right operand is a constant node with the index of the
field. -/
def genDotExpr (nt : NT) (bl : Nat → BRes) (r : Expr) (n : Nat) : BRes :=
  let (c, n) := genE bl n
  match r with
  | .cnst idx => (c ++ [.ldC (nt.cnt idx)], .stkw, n)
  | _ => (c ++ [.bug], .stkw, n)

/-- vmCode.c:390-394 boolJmp. -/
def boolJmp (tf : Bool) (l : Lab) (n : Nat) : Code × Lab × Nat :=
  match l.no with
  | some k => ([if tf then .jt k else .jf k], l, n)
  | none => ([if tf then .jt (n + 1) else .jf (n + 1)], { l with no := some (n + 1) }, n + 1)

/-- The operator of a && or || node. -/
def logOp : Expr → Option Bin
  | .bin .or _ _ => some .or
  | .bin .and _ _ => some .and
  | _ => none

/-- vmCode.c:402-415 Left operand of genLogExpr. -/
def genLogL (op : Bin) (lOp : Option Bin) (gl : G) (left : Nat) (A : Lab) (n : Nat) :
    Code × Lab × Nat :=
  match lOp with
  | some lop =>
    if lop = op then
      let (c, A, N, n) := gl.log (left + 1) A ⟨none, left + 1⟩ n
      (c ++ printLab N.no, A, n)
    else
      let (c, N, A, n) := gl.log (left + 1) ⟨none, left + 1⟩ A n
      (c ++ printLab N.no, A, n)
  | none =>
    let (c, n) := genE gl.bool n
    let (j, A, n) := boolJmp (op = .or) A n
    (c ++ j, A, n)

/-- vmCode.c:418-434 Right operand of genLogExpr. -/
def genLogR (op : Bin) (rOp : Option Bin) (gr : G) (left : Nat) (A B : Lab) (n : Nat) :
    Code × Lab × Lab × Nat :=
  match rOp with
  | some rop =>
    if rop = op then gr.log left A B n
    else
      let (c, B, A, n) := gr.log left B A n
      (c, A, B, n)
  | none =>
    let (c, n) := genE gr.bool n
    if left ≥ 2 then
      if A.left = left then
        let (j, B, n) := boolJmp (op ≠ .or) B n
        (c ++ j, A, B, n)
      else
        let (j, A, n) := boolJmp (op = .or) A n
        (c ++ j, A, B, n)
    else (c, A, B, n)

/-- vmCode.c:397-434 genLogExpr. -/
def genLogExpr (op : Bin) (lOp rOp : Option Bin) (gl gr : G) (left : Nat) (A B : Lab) (n : Nat) :
    Code × Lab × Lab × Nat :=
  let (c1, A, n) := genLogL op lOp gl left A n
  let (c2, A, B, n) := genLogR op rOp gr left A B n
  (c1 ++ c2, A, B, n)

/-- vm.h:98-127 vmBoolOR (x = 1) and vmBoolAND (x = 0). The first label is printed without
testing for -1. -/
def boolMacro (x : Int) (l1 l2 : Option Nat) (l3 : Nat) : Code :=
  [.jmp l3] ++ (match l1 with | some k => [.lab k] | none => [.bug]) ++ [.ldC x] ++
  (match l2 with
   | some k => [.jmp l3, .lab k, .ldC (1 - x)]
   | none => []) ++ [.lab l3]

/-- vmCode.c:437-453 genLOpExpr. -/
def genLOpExpr (op : Bin) (log : Nat → Lab → Lab → Nat → Code × Lab × Lab × Nat) (n : Nat) :
    BRes :=
  let lab0 := n + 1
  let (c, lab2, lab1, n) := log 1 ⟨none, 1⟩ ⟨none, 0⟩ (n + 1)
  (c ++ boolMacro (if op = .or then 1 else 0) lab2.no lab1.no lab0, .stkd, n)

/-- vmCode.c:456-461 genAsExpr. -/
def genAsExpr (bl br : Nat → BRes) (n : Nat) : BRes :=
  let (c1, n) := genE br n
  let (c2, p, n) := bl n
  (c1 ++ c2 ++ store p, .stkd, n)

/-- vmCode.c:464-468 genCommExpr. -/
def genCommExpr (bl br : Nat → BRes) (n : Nat) : BRes :=
  let (c1, p1, n) := bl n
  let (c2, p2, n) := br n
  (c1 ++ popP p1 ++ c2, p2, n)

/-- vmCode.c:474-485 The binary operators of genBoolExpr. -/
def genBin (nt : NT) (op : Bin) (l r : Expr) (gl gr : G) : Nat → BRes :=
  match op with
  | .comm => genCommExpr gl.bool gr.bool
  | .idxr | .idxi => genTwo gl.bool gr.bool [] .stkw
  | .idxc | .idxb => genTwo gl.bool gr.bool [] .stkb
  | .dot => genDotExpr nt gl.bool r
  | .add | .sub | .shl | .shr | .band | .bxor | .bor | .mul | .div | .mod =>
    gen2OpExpr op (evalDepth l < evalDepth r) gl.bool gr.bool
  | .gt | .ge | .lt | .le | .equ | .neq =>
    genCmpExpr op (evalDepth l < evalDepth r) gl.bool gr.bool
  | .or | .and => genLOpExpr op (genLogExpr op (logOp l) (logOp r) gl gr)
  | .semi => fun n => ([.bug], .inval, n)

/-- vmCode.c:181-188 An argument that is not a list (genArgs). -/
def argOne (b : Nat → BRes) (n : Nat) : Code × Nat × Nat :=
  let (c, n) := genE b n
  (c ++ [.arg], 1, n)

/-- vmCode.c:174-190 A list of arguments (genArgs): the right one first. -/
def argMore (gl : G) (br : Nat → BRes) (n : Nat) : Code × Nat × Nat :=
  let (c1, n) := genE br n
  let (c2, k, n) := gl.args n
  (c1 ++ [.arg] ++ c2, k + 1, n)

/-- An expression that is neither a list nor && nor ||. -/
def G.plain (b : Nat → BRes) : G where
  bool := b
  args := argOne b
  log := fun _ A B n => ([.bug], A, B, n)

/-- vmCode.c:471-486 genBoolExpr together with genArgs and genLogExpr. -/
def gen (nt : NT) : Expr → G
  | .cnst v => .plain fun n => ([], .cnst v, n)
  | .leaf k v => .plain fun n => leafPlace k v ([], .inval, n)
  | .func0 f => .plain fun n => ((callCode nt f 0).1, (callCode nt f 0).2, n)
  | .func f a => .plain fun n =>
    let (c, k, n) := (gen nt a).args n
    (c ++ (callCode nt f k).1, (callCode nt f k).2, n)
  | .un op e => .plain fun n =>
    let (c, n) := genE (gen nt e).bool n
    (c ++ [unInstr op], .stkd, n)
  | .bin op l r =>
    { bool := genBin nt op l r (gen nt l) (gen nt r)
      args := match op with
        | .semi => argMore (gen nt l) (gen nt r).bool
        | _ => argOne (genBin nt op l r (gen nt l) (gen nt r))
      log := match op with
        | .or | .and => genLogExpr op (logOp l) (logOp r) (gen nt l) (gen nt r)
        | _ => fun _ A B n => ([.bug], A, B, n) }
  | .assV k v r => .plain (genAsExpr (fun n => leafPlace k v ([], .inval, n)) (gen nt r).bool)
  | .assM op a i r =>
    .plain (genAsExpr (genBin nt op a i (gen nt a) (gen nt i)) (gen nt r).bool)

/-- vmCode.c:498-521 genCnd: jump to `J` if the condition has the value `tf`. -/
def genCnd (nt : NT) (e : Expr) (tf : Bool) (J : Lab) (n : Nat) : Code × Lab × Nat :=
  let X : Lab := ⟨none, 2⟩
  match logOp e with
  | some op =>
    if decide (op = .or) == tf then
      let (c, J, X, n) := (gen nt e).log 2 J X n
      (c ++ printLab X.no, J, n)
    else
      let (c, X, J, n) := (gen nt e).log 2 X J n
      (c ++ printLab X.no, J, n)
  | none =>
    let (c, n) := genE (gen nt e).bool n
    let (j, J, n) := boolJmp tf J n
    (c ++ j, J, n)

end Cmm.Gen
