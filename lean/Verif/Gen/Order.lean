import Verif.Gen.Code
import Verif.Opt.Trace

/-
The orders of evaluation that the language permits, and the order that the code generator
chooses (doc/chap3 leaves the order of the operands of an operator open).
-/
namespace Cmm.Gen
open Cmm.Tree

variable {σ : Type}

/-- Arithmetic and comparison operators. Their operands may be evaluated in either order. -/
def Free : Bin → Bool
  | .add | .sub | .shl | .shr | .band | .bxor | .bor | .mul | .div | .mod
  | .gt | .ge | .lt | .le | .equ | .neq => true
  | _ => false

/-- Operators that evaluate both operands to one value. -/
def Strict : Bin → Bool
  | .and | .or | .semi => false
  | _ => true

/-- The permitted results of an expression: operands of arithmetic and comparison operators
are evaluated in either order; && and || evaluate their right operand only if it decides; the
comma operator works from left to right; the right side of an assignment and the last argument
of a function are evaluated first. -/
inductive Ev (w : World σ) : Expr → σ → List Word → σ → Prop
  | cnst {v s} : Ev w (.cnst v) s [BitVec.ofInt 16 v] s
  | leaf {k n s} : Ev w (.leaf k n) s [w.read k n s] s
  | func0 {f s v s'} : w.call f [] s = some (v, s') → Ev w (.func0 f) s [v] s'
  | func {f a s vs s1 v s'} : Ev w a s vs s1 → w.call f vs s1 = some (v, s') →
      Ev w (.func f a) s [v] s'
  | un {op e s v s'} : Ev w e s [v] s' → Ev w (.un op e) s [unVal op v] s'
  | lr {op l r s x s1 y s2} : Strict op = true → Ev w l s [x] s1 → Ev w r s1 [y] s2 →
      Ev w (.bin op l r) s [binVal w op x y s2] s2
  | rl {op l r s x s1 y s2} : Free op = true → Ev w r s [y] s1 → Ev w l s1 [x] s2 →
      Ev w (.bin op l r) s [binVal w op x y s2] s2
  | andF {l r s s'} : Ev w l s [0] s' → Ev w (.bin .and l r) s [0] s'
  | andT {l r s x s1 y s2} : Ev w l s [x] s1 → x ≠ 0 → Ev w r s1 [y] s2 →
      Ev w (.bin .and l r) s [ofB (y != 0)] s2
  | orT {l r s x s'} : Ev w l s [x] s' → x ≠ 0 → Ev w (.bin .or l r) s [1] s'
  | orF {l r s s1 y s2} : Ev w l s [0] s1 → Ev w r s1 [y] s2 →
      Ev w (.bin .or l r) s [ofB (y != 0)] s2
  | semi {l r s us s1 vs s2} : Ev w r s vs s1 → Ev w l s1 us s2 →
      Ev w (.bin .semi l r) s (us ++ vs) s2
  | assV {k n r s v s'} : Ev w r s [v] s' → Ev w (.assV k n r) s [v] (w.write k n v s')
  | assM {op a i r s v s1 x s2 y s3} : Ev w r s [v] s1 → Ev w a s1 [x] s2 → Ev w i s2 [y] s3 →
      Ev w (.assM op a i r) s [v] (w.store op x y v s3)

/-- The operation is defined. -/
def okB (w : World σ) : Bin → Word → Word → Bool
  | .div, x, y => w.ok .div x y
  | .mod, x, y => w.ok .mod x y
  | .dot, x, y => w.ok .dot x y
  | .idxr, x, y => w.ok .idxr x y
  | .idxi, x, y => w.ok .idxi x y
  | .idxc, x, y => w.ok .idxc x y
  | .idxb, x, y => w.ok .idxb x y
  | _, _, _ => true

/-- Two operands evaluated from left to right, then an operation that is defined if `g` says so. -/
def strictG (g : Word → Word → Bool) (f : Word → Word → σ → Word) (a b : Den σ) : Den σ := fun s =>
  bind1 (a s) fun x s => bind1 (b s) fun y s => if g x y then some ([f x y s], s) else none

/-- Two operands evaluated from right to left. -/
def strictRL (g : Word → Word → Bool) (f : Word → Word → σ → Word) (a b : Den σ) : Den σ := fun s =>
  bind1 (b s) fun y s => bind1 (a s) fun x s => if g x y then some ([f x y s], s) else none

def binG (w : World σ) (op : Bin) (a b : Den σ) : Den σ :=
  match op with
  | .and => andD a b
  | .or => orD a b
  | .semi => semiD a b
  | op => strictG (okB w op) (binVal w op) a b

def assMG (w : World σ) (op : Bin) (a i r : Den σ) : Den σ := fun s =>
  bind1 (r s) fun v s => bind1 (a s) fun x s => bind1 (i s) fun y s =>
    if w.ok op x y then some ([v], w.store op x y v s) else none

/-- Evaluation with a chosen order: `sw op l r` says that `r` is evaluated first. It stops (`none`) at undefined
accesses and divisions. -/
def evalP (w : World σ) (sw : Bin → Expr → Expr → Bool) : Expr → Den σ
  | .cnst v => fun s => some ([BitVec.ofInt 16 v], s)
  | .leaf k n => fun s => some ([w.read k n s], s)
  | .func0 f => callD w f fun s => some ([], s)
  | .func f a => callD w f (evalP w sw a)
  | .un op e => unD (unVal op) (evalP w sw e)
  | .bin op l r =>
    if sw op l r then strictRL (okB w op) (binVal w op) (evalP w sw l) (evalP w sw r)
    else binG w op (evalP w sw l) (evalP w sw r)
  | .assV k n r => assVD w k n (evalP w sw r)
  | .assM op a i r => assMG w op (evalP w sw a) (evalP w sw i) (evalP w sw r)

/-- The order chosen by the code generator: an operator that may be commuted evaluates its
right operand first if that needs more stack (vmCode.c:286-291, 343-348). -/
def genSw (op : Bin) (l r : Expr) : Bool := isCommutativeOp op && decide (evalDepth l < evalDepth r)

/-- The meaning of an expression in the order chosen by the code generator. -/
abbrev evalG (w : World σ) : Expr → Den σ := evalP w genSw

/-- The meaning of an expression with operands evaluated from left to right; it stops at undefined accesses and
divisions. -/
abbrev evalLR (w : World σ) : Expr → Den σ := evalP w fun _ _ _ => false

theorem okB_total {w : World σ} (h : w.Total) (op : Bin) (x y : Word) : okB w op x y = true := by
  cases op <;> first | rfl | exact h _ _ _

theorem binG_total {w : World σ} (h : w.Total) (op : Bin) (a b : Den σ) : binG w op a b = binD w op a b := by
  cases op <;> first | rfl | (funext s; simp only [binG, strictG, okB_total h, if_true]; rfl)

theorem assMG_total {w : World σ} (h : w.Total) (op : Bin) (a i r : Den σ) : assMG w op a i r = assMD w op a i r := by
  funext s
  simp only [assMG, h op, if_true]
  rfl

/-- Without exchanges this is `eval`. -/
theorem evalP_false (w : World σ) (h : w.Total) (e : Expr) : evalP w (fun _ _ _ => false) e = eval w e := by
  induction e <;> simp_all [evalP, eval, binG_total h, assMG_total h]

end Cmm.Gen
