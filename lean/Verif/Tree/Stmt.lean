import Verif.Tree.Expr

/-
Syntax trees of statements (src/sytree.h:86-100, built by parser.c:745-943) and their meaning.

Simplifications: SyNULL and SySEMI(SyNULL,SyNULL) are both `empty`; `seq k` is SySEMI (`k = false`)
or SyBLK (`k = true`); SyVAR (a declaration, without effect) is `empty`, its initialisation being a separate
assignment (parser.c:735-739); SyWHL(c, SySEMI(body, reinit)) is `whl c body reinit`, used for
`while` and `for` (parser.c:784-787, 855-857).
-/
namespace Cmm.Tree

inductive Stmt
  | empty
  | exp (e : Expr)
  | ifs (c : Expr) (s : Stmt)
  | els (c : Expr) (s t : Stmt)
  | whl (c : Option Expr) (body : Stmt) (re : Option Expr)
  | dos (body : Stmt) (c : Expr)
  | brk
  | cnt
  | ret (e : Option Expr)
  | seq (k : Bool) (s t : Stmt)
deriving DecidableEq, Repr

/-- How a statement ends. -/
inductive Outcome | normal | brk | cnt | ret (v : Option Word)
deriving DecidableEq, Repr

/- The meaning of statements is given for any meaning `ev` of expressions. -/
variable {σ : Type}

/-- A condition ends in state `s'` with the truth value `b`. -/
def Cond (ev : Expr → Den σ) (c : Expr) (s : σ) (b : Bool) (s' : σ) : Prop :=
  ∃ vs, ev c s = some (vs, s') ∧ b = (vs.headD 0 != 0)

/-- A missing condition is true. -/
def CondO (ev : Expr → Den σ) : Option Expr → σ → Bool → σ → Prop
  | none, s, b, s' => b = true ∧ s' = s
  | some c, s, b, s' => Cond ev c s b s'

/-- An expression evaluated for its effects. -/
def Eff (ev : Expr → Den σ) : Option Expr → σ → σ → Prop
  | none, s, s' => s' = s
  | some e, s, s' => ∃ vs, ev e s = some (vs, s')

/-- Terminating executions of a statement. -/
inductive Exec (ev : Expr → Den σ) : Stmt → σ → Outcome → σ → Prop
  | empty {s} : Exec ev .empty s .normal s
  | exp {e s vs s'} : ev e s = some (vs, s') → Exec ev (.exp e) s .normal s'
  | ifT {c b s s1 o s2} : Cond ev c s true s1 → Exec ev b s1 o s2 → Exec ev (.ifs c b) s o s2
  | ifF {c b s s1} : Cond ev c s false s1 → Exec ev (.ifs c b) s .normal s1
  | elsT {c a b s s1 o s2} : Cond ev c s true s1 → Exec ev a s1 o s2 → Exec ev (.els c a b) s o s2
  | elsF {c a b s s1 o s2} : Cond ev c s false s1 → Exec ev b s1 o s2 → Exec ev (.els c a b) s o s2
  | whlF {c b r s s1} : CondO ev c s false s1 → Exec ev (.whl c b r) s .normal s1
  | whlB {c b r s s1 s2} : CondO ev c s true s1 → Exec ev b s1 .brk s2 →
      Exec ev (.whl c b r) s .normal s2
  | whlR {c b r s s1 v s2} : CondO ev c s true s1 → Exec ev b s1 (.ret v) s2 →
      Exec ev (.whl c b r) s (.ret v) s2
  | whlL {c b r s s1 o s2 s3 o' s4} : CondO ev c s true s1 → Exec ev b s1 o s2 →
      o = .normal ∨ o = .cnt → Eff ev r s2 s3 → Exec ev (.whl c b r) s3 o' s4 →
      Exec ev (.whl c b r) s o' s4
  | doB {b c s s1} : Exec ev b s .brk s1 → Exec ev (.dos b c) s .normal s1
  | doR {b c s v s1} : Exec ev b s (.ret v) s1 → Exec ev (.dos b c) s (.ret v) s1
  | doF {b c s o s1 s2} : Exec ev b s o s1 → o = .normal ∨ o = .cnt → Cond ev c s1 false s2 →
      Exec ev (.dos b c) s .normal s2
  | doL {b c s o s1 s2 o' s3} : Exec ev b s o s1 → o = .normal ∨ o = .cnt →
      Cond ev c s1 true s2 → Exec ev (.dos b c) s2 o' s3 → Exec ev (.dos b c) s o' s3
  | brk {s} : Exec ev .brk s .brk s
  | cnt {s} : Exec ev .cnt s .cnt s
  | ret0 {s} : Exec ev (.ret none) s (.ret none) s
  | ret {e s vs s'} : ev e s = some (vs, s') →
      Exec ev (.ret (some e)) s (.ret (some (vs.headD 0))) s'
  | seqN {k a b s s1 o s2} : Exec ev a s .normal s1 → Exec ev b s1 o s2 → Exec ev (.seq k a b) s o s2
  | seqX {k a b s o s1} : Exec ev a s o s1 → o ≠ .normal → Exec ev (.seq k a b) s o s1

end Cmm.Tree
