import Verif.CText.Scope

/-
Types of C and of the source, for Verif/Props/C77.lean.
-/
namespace Cmm.CText
open Cmm.Tree (Expr Stmt)
open Cmm.Parse (Tab Ent Sees Assignable IntLike Conform Field VarKind IsFun Elem manual TyVOID TyINT TyCHAR TyBOOL TyDOTDOTDOT)

/-! ### Specification: C (C11 6.5)

The types that occur in the text: a word and a number of stars. -/

abbrev CT := Text × Nat

def CT.int : CT := (t!"int", 0)

/-- int and char. -/
def Arith (t : CT) : Prop := t.2 = 0 ∧ (t.1 = t!"int" ∨ t.1 = t!"char")

def Pointer (t : CT) : Prop := 0 < t.2

def Scalar (t : CT) : Prop := Arith t ∨ Pointer t

/-- `void *` -/
def VoidPtr (t : CT) : Prop := t = (t!"void", 1)

/-- What a name is declared as: an object, or a function with its parameters and perhaps `...`. -/
inductive Dcl
  | obj (t : CT) | fn (t : CT) (ps : List CT) (dots : Bool)
deriving DecidableEq

/-- A value of type `t` that the expression `e` yields can be assigned to type `u` (6.5.16.1): arithmetic types, the same type, a pointer and
`void *`, a pointer and the null pointer constant 0. -/
def Gets (u : CT) (e : CE) (t : CT) : Prop :=
  (Arith u ∧ Arith t) ∨ (u = t ∧ u ≠ (t!"void", 0)) ∨ (Pointer u ∧ Pointer t ∧ (VoidPtr u ∨ VoidPtr t)) ∨ (Pointer u ∧ e = .num 0)

/-- Operands of == and != (6.5.9). -/
def Equal (a : CE) (t : CT) (b : CE) (u : CT) : Prop :=
  (Arith t ∧ Arith u) ∨ (t = u ∧ Pointer t) ∨ (Pointer t ∧ Pointer u ∧ (VoidPtr t ∨ VoidPtr u)) ∨ (Pointer t ∧ b = .num 0) ∨
    (a = .num 0 ∧ Pointer u)

/-- Operators with arithmetic operands and an int result (6.5.5-6.5.8, 6.5.10-6.5.12). -/
def intOps : List P := [.plus, .minus, .star, .slash, .pct, .shl, .shr, .lt, .gt, .le, .ge, .amp, .hat, .bar]

/-- Lvalues (6.5.16); arrays and functions do not occur here. -/
inductive LV : CE → Prop
  | id {x} : LV (.id x)
  | idx {a b} : LV (.idx a b)
  | mem {e x} : LV (.mem .arrow e x)

mutual
/-- `G`: declarations, `M`: members of structures by the name of the type. The expression has the type. -/
inductive HasTy (G : Text → Option Dcl) (M : Text → Text → Option CT) : CE → CT → Prop
  | num {v} : HasTy G M (.num v) .int
  | id {x t} : G x = some (.obj t) → HasTy G M (.id x) t
  | addr {x d} : G x = some d → HasTy G M (.cast [t!"int"] 0 (.un .amp (.id x))) .int
  | un {p e t} : p = .minus ∨ p = .tilde → HasTy G M e t → Arith t → HasTy G M (.un p e) .int
  | not {e t} : HasTy G M e t → Scalar t → HasTy G M (.un .bang e) .int
  | bin {p a t b u} : p ∈ intOps → HasTy G M a t → HasTy G M b u → Arith t → Arith u → HasTy G M (.bin p a b) .int
  | equ {p a t b u} : p = .eq ∨ p = .ne → HasTy G M a t → HasTy G M b u → Equal a t b u → HasTy G M (.bin p a b) .int
  | log {p a t b u} : p = .andand ∨ p = .barbar → HasTy G M a t → HasTy G M b u → Scalar t → Scalar u → HasTy G M (.bin p a b) .int
  | ass {a t b u} : LV a → HasTy G M a t → HasTy G M b u → Gets t b u → HasTy G M (.bin .ass a b) t
  | com {a t b u} : HasTy G M a t → HasTy G M b u → HasTy G M (.bin .comma a b) u
  | idx {a w s b u} : HasTy G M a (w, s + 1) → HasTy G M b u → Arith u → (0 < s ∨ Arith (w, s)) → HasTy G M (.idx a b) (w, s)
  | mem {e w x t} : HasTy G M e (w, 1) → M w x = some t → HasTy G M (.mem .arrow e x) t
  | call {f t ps d as} : G f = some (.fn t ps d) → Fits G M ps d as → HasTy G M (.call (.id f) as) t

/-- Arguments fit the parameters (6.5.2.2). -/
inductive Fits (G : Text → Option Dcl) (M : Text → Text → Option CT) : List CT → Bool → CE → Prop
  | nil {d} : Fits G M [] d .nil
  | cons {t ps d a u as} : HasTy G M a u → Gets t a u → Fits G M ps d as → Fits G M (t :: ps) d (.cons a as)
  | dots {a u as} : HasTy G M a u → u ≠ (t!"void", 0) → Fits G M [] true as → Fits G M [] true (.cons a as)
end

/-! ### The types of the source in C -/

/-- The C type with which a variable of this type is declared. -/
def declTy (N : Nat → Text) (t : Int × Nat) : CT := ((toTy N t.1).word, stars (toTy N t.1) t.2 false)

/-- The parameters of the function at `n`, as printFuncDcl prints them. -/
def prmsOf (N : Nat → Text) (T : Tab) (n cnt : Nat) : List CT :=
  (((T.drop (n + 1)).take cnt).takeWhile (fun e => e.type ≠ TyDOTDOTDOT)).map fun e => declTy N (e.type, e.dim)

/-- The declarations in C that are visible agree with the name table. -/
structure DeclsOk (N : Nat → Text) (G : Text → Option Dcl) (M : Text → Text → Option CT) (T : Tab) : Prop where
  var : ∀ x n e k, Sees T x n e → VarKind e.scope k → (k = .prm → x ≠ "") → G (N n) = some (.obj (declTy N (e.type, e.dim)))
  fn : ∀ x n e, Sees T x n e → IsFun e.scope →
    G (N n) = some (.fn (declTy N (e.type, e.dim)) (prmsOf N T n e.cnt) (((T.drop (n + 1)).take e.cnt).any fun e => e.type = TyDOTDOTDOT))
  str : ∀ l, G (strLab l) = some (.obj (t!"char", 1))
  mem : ∀ (i : Nat) d f n e, T[i]? = some d → d.type = Parse.TySTRUC → Field T i f n e → M (declTy N (-(i : Int), 0)).1 (N n) = some (declTy N (e.type, e.dim))

/-- No entry is an array of more than one dimension of void. -/
def NoVoids (T : Tab) : Prop := ∀ e ∈ T, e.type = TyVOID → e.dim ≤ 1

/-- Variables, parameters and fields are not void. -/
structure NotVoid (T : Tab) : Prop where
  var : ∀ e ∈ T, ∀ k, VarKind e.scope k → (e.type, e.dim) ≠ (TyVOID, 0)
  prm : ∀ x n e, Sees T x n e → IsFun e.scope → ∀ d ∈ (T.drop (n + 1)).take e.cnt, (d.type, d.dim) ≠ (TyVOID, 0)
  fld : ∀ (i : Nat) d f n e, T[i]? = some d → d.type = Parse.TySTRUC → Field T i f n e → (e.type, e.dim) ≠ (TyVOID, 0)

/-- Without parentheses. -/
def bare : Parse.SX → Parse.SX
  | .par e => bare e
  | e => e

/-- No comma expression ends with null; names are not empty (the lexer makes no others). -/
def NoNull : Parse.SX → Prop
  | .var x => x ≠ ""
  | .com l r => NoNull l ∧ NoNull r ∧ bare r ≠ Parse.SX.nul
  | .call _ a | .par a | .conv _ a | .fld a _ | .pre _ a => NoNull a
  | .args l r | .idx l r | .bin _ l r | .ass l r => NoNull l ∧ NoNull r
  | _ => True

end Cmm.CText
