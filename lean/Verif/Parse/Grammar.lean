import Verif.Parse.Expr

/-
Specification of expressions: concrete syntax, precedence table (doc/chap3.tex:913-937), type
system, and the tree an expression stands for. Nothing here refers to the functions of the parser
except the shape of trees and tables.
-/
namespace Cmm.Parse
open Cmm.Tree

/-- Expressions as written. A list of arguments is a left nested `args`. -/
inductive SX
  | int (v : Int) | chr (v : Int) | log (v : Int) | str (s : String) | nul
  | sizeof (ty : Tok) (d : Nat)
  | addrof (x : String)
  | var (x : String)
  | call0 (f : String)
  | call (f : String) (a : SX)
  | args (l r : SX)
  | par (e : SX)
  | conv (k : Tok) (e : SX)
  | idx (a i : SX)
  | fld (a : SX) (f : String)
  | pre (op : Tok) (e : SX)
  | bin (op : Tok) (l r : SX)
  | ass (l r : SX)
  | com (l r : SX)
deriving DecidableEq

/-- `[] [] ...` -/
def dimToks : Nat → List Tok
  | 0 => []
  | d + 1 => Lx.lbrk :: Lx.rbrk :: dimToks d

/-- The tokens of an expression. -/
def SX.toks : SX → List Tok
  | .int v => [.int v]
  | .chr v => [.chr v]
  | .log v => [.log v]
  | .str s => [.str s]
  | .nul => [Lx.NUL]
  | .sizeof ty d => Lx.SIZEOF :: Lx.lpar :: ty :: (dimToks d ++ [Lx.rpar])
  | .addrof x => [Lx.ADDROF, Lx.lpar, .name x, Lx.rpar]
  | .var x => [.name x]
  | .call0 f => [.name f, Lx.lpar, Lx.rpar]
  | .call f a => .name f :: Lx.lpar :: (a.toks ++ [Lx.rpar])
  | .args l r => l.toks ++ Lx.comma :: r.toks
  | .par e => Lx.lpar :: (e.toks ++ [Lx.rpar])
  | .conv k e => k :: Lx.lpar :: (e.toks ++ [Lx.rpar])
  | .idx a i => a.toks ++ Lx.lbrk :: (i.toks ++ [Lx.rbrk])
  | .fld a f => a.toks ++ [Lx.dot, .name f]
  | .pre op e => op :: e.toks
  | .bin op l r => l.toks ++ op :: r.toks
  | .ass l r => l.toks ++ Lx.eq :: r.toks
  | .com l r => l.toks ++ Lx.comma :: r.toks

/-- doc/chap3.tex:921-932 The rows of binary operators between prefix operators and
assignment, from tight to loose. All of them associate to the left. -/
def binRows : List (List (Tok × Bin)) :=
  [[(Lx.star, .mul), (Lx.slash, .div), (Lx.perc, .mod)],
   [(Lx.plus, .add), (Lx.minus, .sub)],
   [(Lx.SHL, .shl), (Lx.SHR, .shr)],
   [(Lx.gt, .gt), (Lx.GTE, .ge), (Lx.lt, .lt), (Lx.LTE, .le)],
   [(Lx.EQU, .equ), (Lx.NEQ, .neq)],
   [(Lx.amp, .band)],
   [(Lx.caret, .bxor)],
   [(Lx.bar, .bor)],
   [(Lx.AND, .and)],
   [(Lx.OR, .or)]]

/-- The token `t` is an operator of row `k` (counted from 2) and stands for `op`. -/
def IsBin (k : Nat) (t : Tok) (op : Bin) : Prop :=
  ∃ row, binRows[k - 2]? = some row ∧ 2 ≤ k ∧ (t, op) ∈ row

/-- doc/chap3.tex:920 Prefix operators. -/
def IsPre (t : Tok) : Prop := t = Lx.plus ∨ t = Lx.minus ∨ t = Lx.excl ∨ t = Lx.tilde

/-- `s.At k`: the expression is written with at least the parentheses the table requires and
its outermost operator is of row `k` or tighter (0 factors, 1 prefix, 2-11 binary, 12
assignment, 13 comma, 14 lists of arguments). Operators of one row associate as in the
table. -/
inductive SX.At : SX → Nat → Prop
  | up {s k} : SX.At s k → SX.At s (k + 1)
  | int {v} : SX.At (.int v) 0
  | chr {v} : SX.At (.chr v) 0
  | log {v} : SX.At (.log v) 0
  | str {v} : SX.At (.str v) 0
  | nul : SX.At .nul 0
  | sizeof {t d} : SX.At (.sizeof t d) 0
  | addrof {x} : SX.At (.addrof x) 0
  | var {x} : SX.At (.var x) 0
  | call0 {f} : SX.At (.call0 f) 0
  | call1 {f a} : SX.At a 12 → SX.At (.call f a) 0
  | calln {f l r} : SX.At (.args l r) 14 → SX.At (.call f (.args l r)) 0
  | args1 {l r} : SX.At l 12 → SX.At r 12 → SX.At (.args l r) 14
  | argsn {l l' r} : SX.At (.args l l') 14 → SX.At r 12 → SX.At (.args (.args l l') r) 14
  | par {e} : SX.At e 13 → SX.At (.par e) 0
  | conv {k e} : SX.At e 13 → SX.At (.conv k e) 0
  | idx {a i} : SX.At a 0 → SX.At i 12 → SX.At (.idx a i) 0
  | fld {a f} : SX.At a 0 → SX.At (.fld a f) 0
  | pre {t e} : IsPre t → SX.At e 1 → SX.At (.pre t e) 1
  | bin {k t op l r} : IsBin k t op → SX.At l k → SX.At r (k - 1) → SX.At (.bin t l r) k
  | ass {l r} : SX.At l 11 → SX.At r 12 → SX.At (.ass l r) 12
  | com {l r} : SX.At l 13 → SX.At r 12 → SX.At (.com l r) 13

/-- Number of strings (each takes a label). -/
def SX.strs : SX → Nat
  | .str _ => 1
  | .call _ a | .par a | .conv _ a | .fld a _ | .pre _ a => a.strs
  | .args l r | .idx l r | .bin _ l r | .ass l r | .com l r => l.strs + r.strs
  | _ => 0

/-- Variables, elements and fields, possibly in parentheses: what may be assigned to. -/
def SX.lv : SX → Bool
  | .var _ | .idx _ _ | .fld _ _ => true
  | .par e => e.lv
  | _ => false

/-- The name `x` means the entry `e` at `n`: the last visible declaration of `x`. -/
def Sees (T : Tab) (x : String) (n : Nat) (e : Ent) : Prop :=
  T[n]? = some e ∧ e.name = x ∧ 0 ≤ e.scope ∧
  ∀ m e', n < m → T[m]? = some e' → e'.name = x → e'.scope < 0

/-- The type name `x` is the structure or typedef at `n`: the first one. -/
def SeesType (T : Tab) (x : String) (n : Nat) : Prop :=
  (∃ e, T[n]? = some e ∧ e.name = x ∧ e.scope = ScSTRC) ∧
  ∀ m e', m < n → T[m]? = some e' → e'.name = x → e'.scope ≠ ScSTRC

/-- The type a token denotes. Structures are numbered by minus their index. -/
inductive TypeTok (T : Tab) : Tok → Int → Prop
  | int : TypeTok T Lx.INT TyINT
  | char : TypeTok T Lx.CHAR TyCHAR
  | void : TypeTok T Lx.VOID TyVOID
  | bool : TypeTok T Lx.BOOL TyBOOL
  | intr : TypeTok T Lx.INTR TyINTR
  | name {x n} : SeesType T x n → TypeTok T (.name x) (-(n : Int))

/-- `f` is the field at `n` of the structure entry at `i`: the first of the `cnt` entries
behind it with that name. -/
def Field (T : Tab) (i : Nat) (f : String) (n : Nat) (e : Ent) : Prop :=
  (∃ d, T[i]? = some d ∧ i < n ∧ n ≤ i + d.cnt) ∧ T[n]? = some e ∧ e.name = f ∧
  ∀ m e', i < m → m < n → T[m]? = some e' → e'.name ≠ f

/-- A value of the first type can be given to a variable of the second. Types are pairs of a
base type and a number of dimensions. -/
inductive Assignable : Int × Nat → Int × Nat → Prop
  | same {t} : Assignable t t
  | char : Assignable (TyCHAR, 0) (TyINT, 0)
  | fromVoid {d t d'} : 0 < d → 0 < d' → Assignable (TyVOID, d) (t, d')
  | toVoid {d t d'} : 0 < d → 0 < d' → Assignable (t, d) (TyVOID, d')
  | fromNull {t d} : t ≤ 0 → Assignable (TyVOID, 1) (t, d)
  | toNull {t d} : t ≤ 0 → Assignable (t, d) (TyVOID, 1)

/-- An integer, perhaps after conversion from char. -/
def IntLike (t : Int × Nat) : Prop := t = (TyINT, 0) ∨ t = (TyCHAR, 0)

/-- Points in which the type system of the manual and that of the compiler differ: what may be
compared, and which type entries have fields. -/
structure Rules where
  cmp : Int × Nat → Int × Nat → Prop
  hasFields : Ent → Prop

/-- The type system of the manual: values are comparable if one can be assigned to a variable
of the type of the other, `void` is not a value, and structures have fields. -/
def manual : Rules where
  cmp a b := a ≠ (TyVOID, 0) ∧ b ≠ (TyVOID, 0) ∧ (Assignable a b ∨ Assignable b a)
  hasFields e := e.type = TySTRUC

/-- What the compiler accepts: in addition `char` and `int` arrays can be compared, and so can
the results of void functions; fields of types declared by typedef are looked up. -/
def actual : Rules where
  cmp a b := manual.cmp a b ∨ (a = (TyVOID, 0) ∧ b = (TyVOID, 0)) ∨
    (0 < a.2 ∧ a.2 = b.2 ∧ (a.1 = TyCHAR ∧ b.1 = TyINT ∨ a.1 = TyINT ∧ b.1 = TyCHAR))
  hasFields _ := True

/-- The types of the arguments fit the parameters at `i`, ..., `last` of the table; `...`
admits any number of any values. -/
inductive Conform (T : Tab) : Nat → Nat → List (Int × Nat) → Prop
  | done {i last} : last < i → Conform T i last []
  | one {i last e t ts} : i ≤ last → T[i]? = some e → e.type ≠ TyDOTDOTDOT →
      Assignable t (e.type, e.dim) → Conform T (i + 1) last ts → Conform T i last (t :: ts)
  | dots {i last e ts} : i ≤ last → T[i]? = some e → e.type = TyDOTDOTDOT →
      (∀ t ∈ ts, t ≠ (TyVOID, 0)) → Conform T i last ts

/-- Variables by scope. -/
inductive VarKind : Int → Kind → Prop
  | comm : VarKind ScCOMM .glb
  | gvar : VarKind ScGVAR .glb
  | lvar : VarKind ScLVAR .loc
  | prm : VarKind ScPRM .prm

/-- Functions by scope. -/
def IsFun (s : Int) : Prop := s = ScPROT ∨ s = ScFUNC

/-- Conversions: token, types before and after, operator if any. -/
inductive Conv : Tok → Int → Int → (Expr → Expr) → Prop
  | ordC : Conv Lx.ORD TyCHAR TyINT id
  | ordB : Conv Lx.ORD TyBOOL TyINT id
  | chr : Conv Lx.CHR TyINT TyCHAR (.un .chr)
  | bool : Conv Lx.BOL TyINT TyBOOL (.un .bool)

/-- Kind of an element access by the type of the element. -/
inductive Elem : Int × Nat → Bin → Prop
  | ref {t d} : 0 < d ∨ t ≤ 0 → Elem (t, d) .idxr
  | int : Elem (TyINT, 0) .idxi
  | char : Elem (TyCHAR, 0) .idxc
  | bool : Elem (TyBOOL, 0) .idxb

/-- Size in bytes of a type. -/
inductive SizeOf (T : Tab) : Int × Nat → Int → Prop
  | arr {t d} : 0 < d → (∀ e, t ≤ 0 → T[(-t).toNat]? = some e → e.type ≠ TyREF) →
      (t ≤ 0 → (T[(-t).toNat]?).isSome) → SizeOf T (t, d) 2
  | struc {n : Nat} {e} : T[n]? = some e → e.type ≠ TyREF → SizeOf T (-(n : Int), 0) (2 * (e.cnt : Int))
  | char : SizeOf T (TyCHAR, 0) 1
  | bool : SizeOf T (TyBOOL, 0) 1
  | word {t} : 0 < t → t ≠ TyCHAR → t ≠ TyBOOL → SizeOf T (t, 0) 2

/-- The tree of an assignment to the variable, element or field with tree `l`. -/
inductive Store : Expr → Expr → Expr → Prop
  | var {k n r} : Store (.leaf k n) r (.assV k n r)
  | mem {op a i r} : Store (.bin op a i) r (.assM op a i r)

/-- The tree of a prefix operator, and its operand and result. -/
inductive Pre : Tok → Int × Nat → Int × Nat → (Expr → Expr) → Prop
  | plus {t} : IntLike t → Pre Lx.plus t (TyINT, 0) id
  | minus {t} : IntLike t → Pre Lx.minus t (TyINT, 0) (.un .neg)
  | tilde {t} : IntLike t → Pre Lx.tilde t (TyINT, 0) (.un .bnot)
  | excl : Pre Lx.excl (TyBOOL, 0) (TyBOOL, 0) (.un .not)

/-- Operands and result of the binary operators: rows 2-4 and 7-9 compute integers, row 5
compares integers, row 6 compares, rows 10 and 11 are logical. -/
inductive BinTy (R : Rules) : Nat → Int × Nat → Int × Nat → Int × Nat → Prop
  | arith {k a b} : (k ≤ 4 ∨ 7 ≤ k ∧ k ≤ 9) → IntLike a → IntLike b → BinTy R k a b (TyINT, 0)
  | order {a b} : IntLike a → IntLike b → BinTy R 5 a b (TyBOOL, 0)
  | equal {a b} : R.cmp a b → BinTy R 6 a b (TyBOOL, 0)
  | logic {k} : 10 ≤ k → BinTy R k (TyBOOL, 0) (TyBOOL, 0) (TyBOOL, 0)

/-- `Ty R T m s ts e`: the expression `s` is well typed with type `ts` (a list of one type;
several for a list of arguments) and stands for the tree `e`; its strings have the labels
from `m + 1` on, in the order of the text. -/
inductive Ty (R : Rules) (T : Tab) : Nat → SX → List (Int × Nat) → Expr → Prop
  | int {m v} : Ty R T m (.int v) [(TyINT, 0)] (.cnst v)
  | chr {m v} : Ty R T m (.chr v) [(TyCHAR, 0)] (.cnst v)
  | log {m v} : Ty R T m (.log v) [(TyBOOL, 0)] (.cnst v)
  | str {m v} : Ty R T m (.str v) [(TyCHAR, 1)] (.leaf .str ((m : Int) + 1))
  | nul {m} : Ty R T m .nul [(TyVOID, 1)] (.cnst 0)
  | sizeof {m k d t v} : TypeTok T k t → SizeOf T (t, d) v →
      Ty R T m (.sizeof k d) [(TyINT, 0)] (.cnst v)
  | addrof {m x n e} : Sees T x n e → (IsFun e.scope ∨ VarKind e.scope .glb) →
      Ty R T m (.addrof x) [(TyINT, 0)] (.leaf .addr n)
  | var {m x n e k} : Sees T x n e → VarKind e.scope k →
      Ty R T m (.var x) [(e.type, e.dim)] (.leaf k n)
  | call0 {m f n e} : Sees T f n e → IsFun e.scope → e.type ≠ TyINTR →
      Conform T (n + 1) (n + e.cnt) [] → Ty R T m (.call0 f) [(e.type, e.dim)] (.func0 n)
  | call {m f n e a ts ea} : Sees T f n e → IsFun e.scope → e.type ≠ TyINTR →
      Ty R T m a ts ea → Conform T (n + 1) (n + e.cnt) ts →
      Ty R T m (.call f a) [(e.type, e.dim)] (.func n ea)
  | args {m l ts el r t er} : Ty R T m l ts el → Ty R T (m + l.strs) r [t] er →
      Ty R T m (.args l r) (ts ++ [t]) (.bin .semi el er)
  | par {m s t e} : Ty R T m s [t] e → Ty R T m (.par s) [t] e
  | conv {m k s t t' f e} : Conv k t t' f → Ty R T m s [(t, 0)] e →
      Ty R T m (.conv k s) [(t', 0)] (f e)
  | idx {m a t d ea i ei op} : Ty R T m a [(t, d + 1)] ea → Ty R T (m + a.strs) i [(TyINT, 0)] ei →
      Elem (t, d) op → Ty R T m (.idx a i) [(t, d)] (.bin op ea ei)
  | fld {m a} {i : Nat} {d f n e ea} : Ty R T m a [(-(i : Int), 0)] ea → T[i]? = some d → R.hasFields d →
      Field T i f n e → Ty R T m (.fld a f) [(e.type, e.dim)] (.bin .dot ea (.cnst n))
  | pre {m k s t t' f e} : Pre k t t' f → Ty R T m s [t] e → Ty R T m (.pre k s) [t'] (f e)
  | bin {m k tok op l a el r b er c} : IsBin k tok op → BinTy R k a b c → Ty R T m l [a] el →
      Ty R T (m + l.strs) r [b] er → Ty R T m (.bin tok l r) [c] (.bin op el er)
  | ass {m l a el r b er e} : Ty R T m l [a] el → l.lv → Ty R T (m + l.strs) r [b] er →
      Assignable b a → Store el er e → Ty R T m (.ass l r) [a] e
  | com {m l a el r b er} : Ty R T m l [a] el → Ty R T (m + l.strs) r [b] er →
      Ty R T m (.com l r) [b] (.bin .comm el er)

end Cmm.Parse
