import Verif.Tree.Expr

/-
Model of the expression part of src/optree.c (NWORD = 16, WMSK = 0xffff, BMSK = 0xff).
The C code rewrites the tree tables in place; here each function returns the new tree.
`none` is a call of error(), which stops the compiler. C `int` values are `Int` (all
intermediate results fit into 32 bits: operands are at most 16 bits).
-/
namespace Cmm.Opt
open Cmm.Tree

/-- sysdep.h WMSK applied to a value: `v & 0xffff`. -/
def msk (v : Int) : Int := v % 65536

/-- optree.c:75-79 getSInt: `v | ~WMSK` if bit 15 is set. -/
def sInt (v : Int) : Int := if 32768 ≤ msk v then msk v - 65536 else v

/-- optree.c:81-87 bool, getBool: bit 0. -/
def getB (v : Int) : Bool := v % 2 == 1

/-- optree.c:93-97 setBool. -/
def cB (b : Bool) : Expr := .cnst (if b then 1 else 0)

/-- optree.c:100-103 isCnstN -/
def isCnstN (e : Expr) (n : Int) : Bool :=
  match e with
  | .cnst v => v == msk n
  | _ => false

/-- optree.c:128-156 optNeg, optNot, optBNot, optChr, optBool -/
def optUn (op : Un) (l : Expr) : Expr :=
  match l with
  | .cnst v =>
    match op with
    | .neg => .cnst (-sInt v)
    | .not => cB (!getB v)
    | .bnot => .cnst (-v - 1)
    | .chr => .cnst (v % 256)
    | .bool => cB (getB v)
  | _ => .un op l

/-- Bitwise operations of C on non-negative numbers. -/
def nat2 (f : Nat → Nat → Nat) (a b : Int) : Int := (f a.toNat b.toNat : Nat)

/-- optree.c:163-170 optAdd -/
def optAdd (l r : Expr) : Expr :=
  match l, r with
  | .cnst a, .cnst b => .cnst (sInt a + sInt b)
  | l, r => if isCnstN l 0 then r else if isCnstN r 0 then l else .bin .add l r

/-- optree.c:173-180 optSub -/
def optSub (l r : Expr) : Expr :=
  match l, r with
  | .cnst a, .cnst b => .cnst (sInt a - sInt b)
  | l, r => if isCnstN l 0 then .un .neg r else if isCnstN r 0 then l else .bin .sub l r

/-- optree.c:183-191 optShl -/
def optShl (l r : Expr) : Option Expr :=
  match r with
  | .cnst n =>
    if n < 0 ∨ 16 ≤ n then none
    else if isCnstN r 0 then some l
    else match l with
      | .cnst a => some (.cnst (sInt a * 2 ^ n.toNat))
      | l => some (.bin .shl l r)
  | r => some (.bin .shl l r)

/-- optree.c:194-202 optShr -/
def optShr (l r : Expr) : Option Expr :=
  match r with
  | .cnst n =>
    if n < 0 ∨ 16 ≤ n then none
    else if isCnstN r 0 then some l
    else match l with
      | .cnst a => some (.cnst (sInt a / 2 ^ n.toNat))
      | l => some (.bin .shr l r)
  | r => some (.bin .shr l r)

/-- optree.c:205-214 optBAnd -/
def optBAnd (l r : Expr) : Expr :=
  match l, r with
  | .cnst a, .cnst b => .cnst (nat2 (· &&& ·) a b)
  | l, r =>
    if isCnstN l 0 || isCnstN r 0 then .cnst 0
    else if isCnstN l 65535 then r
    else if isCnstN r 65535 then l
    else .bin .band l r

/-- optree.c:217-226 optBOr -/
def optBOr (l r : Expr) : Expr :=
  match l, r with
  | .cnst a, .cnst b => .cnst (nat2 (· ||| ·) a b)
  | l, r =>
    if isCnstN l 65535 || isCnstN r 65535 then .cnst 65535
    else if isCnstN l 0 then r
    else if isCnstN r 0 then l
    else .bin .bor l r

/-- optree.c:229-240 optBXor -/
def optBXor (l r : Expr) : Expr :=
  match l, r with
  | .cnst a, .cnst b => .cnst (nat2 (· ^^^ ·) a b)
  | l, r =>
    if isCnstN l 65535 then .un .bnot r
    else if isCnstN l 0 then r
    else if isCnstN r 65535 then .un .bnot l
    else if isCnstN r 0 then l
    else .bin .bxor l r

/-- optree.c:243-256 optMul -/
def optMul (l r : Expr) : Expr :=
  match l, r with
  | .cnst a, .cnst b => .cnst (sInt a * sInt b)
  | l, r =>
    if isCnstN l 0 || isCnstN r 0 then .cnst 0
    else if isCnstN l 1 then r
    else if isCnstN r 1 then l
    else if isCnstN l 65535 then .un .neg r
    else if isCnstN r 65535 then .un .neg l
    else .bin .mul l r

/-- optree.c:259-266 optDiv; C division truncates. -/
def optDiv (l r : Expr) : Option Expr :=
  if isCnstN r 0 then none
  else match l, r with
    | .cnst a, .cnst b => some (.cnst ((sInt a).tdiv (sInt b)))
    | l, r => if isCnstN r 1 then some l else some (.bin .div l r)

/-- optree.c:269-276 optMod -/
def optMod (l r : Expr) : Option Expr :=
  if isCnstN r 0 then none
  else match l, r with
    | .cnst a, .cnst b => some (.cnst ((sInt a).tmod (sInt b)))
    | l, r => if isCnstN r 1 then some (.cnst 0) else some (.bin .mod l r)

/-- optree.c:291-324 optGt, optGe, optLt, optLe, optEqu, optNeq -/
def optCmp (op : Bin) (l r : Expr) : Expr :=
  match l, r with
  | .cnst a, .cnst b =>
    match op with
    | .gt => cB (decide (sInt a > sInt b))
    | .ge => cB (decide (sInt a ≥ sInt b))
    | .lt => cB (decide (sInt a < sInt b))
    | .le => cB (decide (sInt a ≤ sInt b))
    | .equ => cB (decide (a = b))
    | .neq => cB (decide (a ≠ b))
    | op => .bin op l r
  | l, r => .bin op l r

/-- optree.c:327-334 optOr -/
def optOr (l r : Expr) : Expr :=
  if isCnstN l 1 || isCnstN r 1 then cB true
  else if isCnstN l 0 then r
  else if isCnstN r 0 then l
  else .bin .or l r

/-- optree.c:337-344 optAnd -/
def optAnd (l r : Expr) : Expr :=
  if isCnstN l 0 || isCnstN r 0 then cB false
  else if isCnstN l 1 then r
  else if isCnstN r 1 then l
  else .bin .and l r

/-- The dispatch of optree.c:363-383 for binary operators. -/
def optBin (op : Bin) (l r : Expr) : Option Expr :=
  match op with
  | .add => some (optAdd l r)
  | .sub => some (optSub l r)
  | .shl => optShl l r
  | .shr => optShr l r
  | .band => some (optBAnd l r)
  | .bor => some (optBOr l r)
  | .bxor => some (optBXor l r)
  | .mul => some (optMul l r)
  | .div => optDiv l r
  | .mod => optMod l r
  | .gt | .ge | .lt | .le | .equ | .neq => some (optCmp op l r)
  | .or => some (optOr l r)
  | .and => some (optAnd l r)
  | .dot | .idxr | .idxi | .idxc | .idxb | .comm | .semi => some (.bin op l r)

/-- optree.c:386-387, the correction at the end of calExp. -/
def fix : Expr → Expr
  | .cnst v => .cnst (msk v)
  | e => e

/-- optree.c:347-389 calExp -/
def calExp : Expr → Option Expr
  | .cnst v => some (fix (.cnst v))
  | .leaf k n => some (.leaf k n)
  | .func0 f => some (.func0 f)
  | .func f a => (calExp a).map (.func f)
  | .un op e => (calExp e).map fun e => fix (optUn op e)
  | .bin op l r => do
    let l ← calExp l
    let r ← calExp r
    (optBin op l r).map fix
  | .assV k n r => (calExp r).map (.assV k n)
  | .assM op a i r => do
    let a ← calExp a
    let i ← calExp i
    let r ← calExp r
    some (.assM op a i r)

/-- optree.c:395-405 canPull -/
def canPull (opL opR : Bin) : Bool :=
  ((opL == .add || opL == .sub) && (opR == .add || opR == .sub)) ||
  ((opL == .mul || opL == .band || opL == .bor || opL == .bxor || opL == .and || opL == .or) &&
    opL == opR)

/-- optree.c:425-432: operator of node `b` after pulling. -/
def pullB (opN opB : Bin) : Bin := if opN = .add ∨ opN = .sub then opN else opB
/-- optree.c:425-432: operator of the node itself after pulling. -/
def pullN (opN opB : Bin) : Bin :=
  if opN = .add ∨ opN = .sub then (if opN ≠ opB then .sub else .add) else opN

/-- optree.c:411-447: moveLeft(e) is `pull e none`; pullTree on a node with operator `op`, left
operand `a` (already processed) and right operand `e` is `pull e (some (op, a))`. -/
def pull : Expr → Option (Bin × Expr) → Expr
  | .bin o c d, none => pull d (some (o, pull c none))
  | .bin o c d, some (op, a) =>
    if canPull op o then pull d (some (pullN op o, pull c (some (pullB op o, a))))
    else .bin op a (pull d (some (o, pull c none)))
  | .un o e, none => .un o (pull e none)
  | .un o e, some (op, a) => .bin op a (.un o (pull e none))
  | .func f e, none => .func f (pull e none)
  | .func f e, some (op, a) => .bin op a (.func f (pull e none))
  | .assV k n r, none => .assV k n (pull r none)
  | .assV k n r, some (op, a) => .bin op a (.assV k n (pull r none))
  | .assM o x i r, none => .assM o (pull x none) (pull i none) (pull r none)
  | .assM o x i r, some (op, a) => .bin op a (.assM o (pull x none) (pull i none) (pull r none))
  | e, none => e
  | e, some (op, a) => .bin op a e

/-- optree.c:443-447 moveLeft -/
def moveLeft (e : Expr) : Expr := pull e none

def isCnst : Expr → Bool
  | .cnst _ => true
  | _ => false

/-- optree.c:450-457 normSub -/
def normSub : Expr → Expr
  | .bin .sub l (.cnst v) => .bin .add l (.cnst (-sInt v))
  | e => e

/-- optree.c:464-466, operators for which constants are moved. -/
def movable (op : Bin) : Bool :=
  op == .add || op == .mul || op == .div || op == .band || op == .bor || op == .bxor ||
  op == .and || op == .or

/-- optree.c:469-491: the loop and the final step of moveCnst for the node `l op c`. -/
def mc (op : Bin) : Expr → Expr → Expr
  | .bin lOp x a, c =>
    if (lOp = op ∨ (op = .add ∧ lOp = .sub)) ∧ isCnst a = false then .bin lOp (mc op x c) a
    else if lOp = op then .bin op x (.bin (if op = .div then .mul else op) a c)
    else .bin op (.bin lOp x a) c
  | l, c => .bin op l c

/-- optree.c:460-492 moveCnst -/
def moveCnst (e : Expr) : Expr :=
  match normSub e with
  | .bin op l r => if movable op && isCnst r then mc op l r else .bin op l r
  | e => e

/-- optree.c:495-503 arrExp -/
def arrExp : Expr → Option Expr
  | .cnst v => calExp (.cnst v)
  | .leaf k n => calExp (.leaf k n)
  | .func0 f => calExp (.func0 f)
  | .func f a => do
    let a ← arrExp a
    calExp (.func f a)
  | .un op e => do
    let e ← arrExp e
    calExp (moveCnst (.un op e))
  | .bin op l r => do
    let r ← arrExp r
    let l ← arrExp l
    calExp (moveCnst (.bin op l r))
  | .assV k n r => do
    let r ← arrExp r
    calExp (.assV k n r)
  | .assM op a i r => do
    let r ← arrExp r
    let i ← arrExp i
    let a ← arrExp a
    calExp (.assM op a i r)

/-- optree.c:506-510 optExp -/
def optExp (e : Expr) : Option Expr := arrExp (moveLeft e)

end Cmm.Opt
