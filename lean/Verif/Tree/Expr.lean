import Verif.Lib.Ctype

/-
Syntax trees of expressions (src/sytree.h) and their meaning.

The C tables syType/syLVal/syRVal hold the nodes of a tree by index; here a tree is an
inductive value. Simplifications:
* SyNULL children are represented by separate constructors (`func0`).
* SyASS(l, r): the parser admits only a variable, an index expression or a field access as
  `l` (parser.c:697-705, flag lhs), so the two cases are the constructors `assV` and `assM`.
* Nodes are not shared between trees (the parser builds each node once).
-/
namespace Cmm.Tree

/-- Factors without operands (sytree.h: SyLOC, SyPRM, SyGLB, SySTR, SyADDR, SySIZE). -/
inductive Kind | loc | prm | glb | str | addr | size
deriving DecidableEq, Repr

/-- Unary operators (sytree.h: 0x200-0x204). -/
inductive Un | neg | not | bnot | chr | bool
deriving DecidableEq, Repr

/-- Binary operators (sytree.h: 0x300-0x383, 0x404-0x409, SyCOMM, SyOR, SyAND, SySEMI). -/
inductive Bin
  | add | sub | shl | shr | band | bxor | bor | mul | div | mod
  | dot | idxr | idxi | idxc | idxb
  | gt | ge | lt | le | equ | neq
  | comm | or | and | semi
deriving DecidableEq, Repr

/-- Expressions. -/
inductive Expr
  | cnst (v : Int)
  | leaf (k : Kind) (n : Int)
  | func0 (f : Int)
  | func (f : Int) (args : Expr)
  | un (op : Un) (e : Expr)
  | bin (op : Bin) (l r : Expr)
  | assV (k : Kind) (n : Int) (r : Expr)
  | assM (op : Bin) (a i r : Expr)
deriving DecidableEq, Repr

/-- What an expression refers to: variables, memory behind references and functions. The
meaning of a division by zero is left open. `ok` says which accesses behind references (operator, reference,
index) and which divisions (operator, operands) are defined. `eval` does not look at it; the stack machine and
the order of evaluation of the code generator (Verif/Gen) stop at an undefined one. -/
structure World (σ : Type) where
  read : Kind → Int → σ → Word
  write : Kind → Int → Word → σ → σ
  load : Bin → Word → Word → σ → Word
  store : Bin → Word → Word → Word → σ → σ
  call : Int → List Word → σ → Option (Word × σ)
  div0 : Word → Word
  mod0 : Word → Word
  ok : Bin → Word → Word → Bool := fun _ _ _ => true

/-- Every access and every division is defined. -/
def World.Total {σ : Type} (w : World σ) : Prop := ∀ op x y, w.ok op x y = true

/-- A truth value as a word. -/
def ofB (b : Bool) : Word := if b then 1 else 0

/-- Meaning of the unary operators. -/
def unVal : Un → Word → Word
  | .neg, v => -v
  | .not, v => v ^^^ 1
  | .bnot, v => ~~~v
  | .chr, v => v &&& 0xff
  | .bool, v => v &&& 1

variable {σ : Type}

/-- Meaning of the binary operators that evaluate both operands. Arithmetic is that of 16-bit
two's complement numbers, division truncates, comparison is signed. -/
def binVal (w : World σ) : Bin → Word → Word → σ → Word
  | .add, a, b, _ => a + b
  | .sub, a, b, _ => a - b
  | .shl, a, b, _ => a <<< b.toNat
  | .shr, a, b, _ => a.sshiftRight b.toNat
  | .band, a, b, _ => a &&& b
  | .bxor, a, b, _ => a ^^^ b
  | .bor, a, b, _ => a ||| b
  | .mul, a, b, _ => a * b
  | .div, a, b, _ => if b = 0 then w.div0 a else a.sdiv b
  | .mod, a, b, _ => if b = 0 then w.mod0 a else a.srem b
  | .gt, a, b, _ => ofB (b.slt a)
  | .ge, a, b, _ => ofB (b.sle a)
  | .lt, a, b, _ => ofB (a.slt b)
  | .le, a, b, _ => ofB (a.sle b)
  | .equ, a, b, _ => ofB (a == b)
  | .neq, a, b, _ => ofB (a != b)
  | .dot, a, b, s => w.load .dot a b s
  | .idxr, a, b, s => w.load .idxr a b s
  | .idxi, a, b, s => w.load .idxi a b s
  | .idxc, a, b, s => w.load .idxc a b s
  | .idxb, a, b, s => w.load .idxb a b s
  | .comm, _, b, _ => b
  | .or, _, b, _ => b
  | .and, _, b, _ => b
  | .semi, _, b, _ => b

/-- Evaluation gives a list of values because argument lists are trees of `semi` nodes; an
operand is the first element. `none`: a called function does not return. Operands are
evaluated from left to right, arguments from right to left and the right side of an
assignment before the left (vmCode.c:175-190, 456-460). `&&` and `||` evaluate their right
operand only when needed. -/
abbrev Out (σ : Type) := Option (List Word × σ)

/-- Use of a result as an operand. -/
def bind1 (o : Out σ) (f : Word → σ → Out σ) : Out σ :=
  match o with
  | none => none
  | some (vs, s) => f (vs.headD 0) s

/-- What an expression does in a state. -/
abbrev Den (σ : Type) := σ → Out σ

/-- An operation on one evaluated operand. -/
def unD (f : Word → Word) (d : Den σ) : Den σ := fun s =>
  bind1 (d s) fun v s => some ([f v], s)

/-- An operation on two operands evaluated from left to right. -/
def strictD (f : Word → Word → σ → Word) (a b : Den σ) : Den σ := fun s =>
  bind1 (a s) fun x s => bind1 (b s) fun y s => some ([f x y s], s)

def andD (a b : Den σ) : Den σ := fun s =>
  bind1 (a s) fun x s =>
    if x = 0 then some ([0], s) else bind1 (b s) fun y s => some ([ofB (y != 0)], s)

def orD (a b : Den σ) : Den σ := fun s =>
  bind1 (a s) fun x s =>
    if x = 0 then bind1 (b s) fun y s => some ([ofB (y != 0)], s) else some ([1], s)

def semiD (a b : Den σ) : Den σ := fun s =>
  match b s with
  | none => none
  | some (vr, s) =>
    match a s with
    | none => none
    | some (vl, s) => some (vl ++ vr, s)

def binD (w : World σ) (op : Bin) (a b : Den σ) : Den σ :=
  match op with
  | .and => andD a b
  | .or => orD a b
  | .semi => semiD a b
  | op => strictD (binVal w op) a b

def callD (w : World σ) (f : Int) (d : Den σ) : Den σ := fun s =>
  match d s with
  | none => none
  | some (vs, s) =>
    match w.call f vs s with
    | none => none
    | some (v, s) => some ([v], s)

def assVD (w : World σ) (k : Kind) (n : Int) (r : Den σ) : Den σ := fun s =>
  bind1 (r s) fun v s => some ([v], w.write k n v s)

def assMD (w : World σ) (op : Bin) (a i r : Den σ) : Den σ := fun s =>
  bind1 (r s) fun v s => bind1 (a s) fun x s => bind1 (i s) fun y s =>
    some ([v], w.store op x y v s)

/-- The meaning of an expression. -/
def eval (w : World σ) : Expr → Den σ
  | .cnst v => fun s => some ([BitVec.ofInt 16 v], s)
  | .leaf k n => fun s => some ([w.read k n s], s)
  | .func0 f => callD w f fun s => some ([], s)
  | .func f a => callD w f (eval w a)
  | .un op e => unD (unVal op) (eval w e)
  | .bin op l r => binD w op (eval w l) (eval w r)
  | .assV k n r => assVD w k n (eval w r)
  | .assM op a i r => assMD w op (eval w a) (eval w i) (eval w r)

end Cmm.Tree
