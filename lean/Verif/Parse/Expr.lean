import Verif.Parse.Tab
import Verif.Tree.Stmt
import Verif.Gen.Data

/-
Model of the parser for expressions (src/parser.c:278-718).

Simplifications:
* The token sequence is given in advance: lxGetTok, lxGetVal and lxGetStr belong to the token
  (that the C functions return the values of the right token is a separate matter, C33).
* A tree node carries no index; the type stored in a SyCNST node (rVal) is dropped. The limit
  SyMAX = 3000 nodes is not modelled.
* `none` stands for error(), which stops the compiler.
* The static functions getMulExpr ... getLogOrExpr have one shape; they are `lev k` and `binLoop k`
  for k = 2 .. 11 with the operators, operand types and result types of each level in tables.
* genStr (called for each string) is the counter of labels; its output is not recorded.
-/
namespace Cmm.Parse
open Cmm.Tree

/-- Tokens of the lexer; `c` holds the codes without value (lexer.h:47-95 and characters). -/
inductive Tok
  | name (s : String) | int (v : Int) | chr (v : Int) | log (v : Int) | str (s : String)
  | c (code : Nat)
deriving DecidableEq, Repr

namespace Lx
@[match_pattern] abbrev VOID : Tok := .c 1
@[match_pattern] abbrev INT : Tok := .c 2
@[match_pattern] abbrev CHAR : Tok := .c 3
@[match_pattern] abbrev INTR : Tok := .c 4
@[match_pattern] abbrev STRUCT : Tok := .c 5
@[match_pattern] abbrev ARRAY : Tok := .c 6
@[match_pattern] abbrev IF : Tok := .c 7
@[match_pattern] abbrev ELSE : Tok := .c 8
@[match_pattern] abbrev WHILE : Tok := .c 9
@[match_pattern] abbrev FOR : Tok := .c 10
@[match_pattern] abbrev RETURN : Tok := .c 11
@[match_pattern] abbrev BREAK : Tok := .c 12
@[match_pattern] abbrev CONTINUE : Tok := .c 13
@[match_pattern] abbrev DO : Tok := .c 14
@[match_pattern] abbrev NUL : Tok := .c 15
@[match_pattern] abbrev BOOL : Tok := .c 16
@[match_pattern] abbrev SIZEOF : Tok := .c 19
@[match_pattern] abbrev ADDROF : Tok := .c 20
@[match_pattern] abbrev PUBLIC : Tok := .c 21
@[match_pattern] abbrev ORD : Tok := .c 22
@[match_pattern] abbrev CHR : Tok := .c 23
@[match_pattern] abbrev BOL : Tok := .c 24
@[match_pattern] abbrev TYPEDEF : Tok := .c 25
@[match_pattern] abbrev OR : Tok := .c 101
@[match_pattern] abbrev AND : Tok := .c 102
@[match_pattern] abbrev EQU : Tok := .c 103
@[match_pattern] abbrev NEQ : Tok := .c 104
@[match_pattern] abbrev LTE : Tok := .c 105
@[match_pattern] abbrev GTE : Tok := .c 106
@[match_pattern] abbrev SHL : Tok := .c 107
@[match_pattern] abbrev SHR : Tok := .c 108
@[match_pattern] abbrev DOTDOTDOT : Tok := .c 110
@[match_pattern] abbrev excl : Tok := .c 33
@[match_pattern] abbrev perc : Tok := .c 37
@[match_pattern] abbrev amp : Tok := .c 38
@[match_pattern] abbrev lpar : Tok := .c 40
@[match_pattern] abbrev rpar : Tok := .c 41
@[match_pattern] abbrev star : Tok := .c 42
@[match_pattern] abbrev plus : Tok := .c 43
@[match_pattern] abbrev comma : Tok := .c 44
@[match_pattern] abbrev minus : Tok := .c 45
@[match_pattern] abbrev dot : Tok := .c 46
@[match_pattern] abbrev slash : Tok := .c 47
@[match_pattern] abbrev semi : Tok := .c 59
@[match_pattern] abbrev lt : Tok := .c 60
@[match_pattern] abbrev eq : Tok := .c 61
@[match_pattern] abbrev gt : Tok := .c 62
@[match_pattern] abbrev lbrk : Tok := .c 91
@[match_pattern] abbrev rbrk : Tok := .c 93
@[match_pattern] abbrev caret : Tok := .c 94
@[match_pattern] abbrev lbrc : Tok := .c 123
@[match_pattern] abbrev bar : Tok := .c 124
@[match_pattern] abbrev rbrc : Tok := .c 125
@[match_pattern] abbrev tilde : Tok := .c 126
end Lx

/-- What the parser hands to the code generator: genFunc(idx, cnt) with the tree `body` and the
name table at that time (parser.c:1012; not in the C program are `src`, the tree before it is
optimised, and `pts`, the name tables at the points of the function, see `PS.pts`), genData(idx) with its tree (1181), genBss(idx)
(1196). `tab` is the name table and `lab` the last label (vmCode.c:86) at that time. -/
inductive Out
  | func (idx cnt : Nat) (src body : Stmt) (tab : Tab) (pts : List Tab)
  | data (idx : Nat) (t : Gen.DT) (tab : Tab) (lab : Nat)
  | bss (idx : Nat) (tab : Tab)

/-- The state of the parser: remaining tokens, name table, label counter of vmCode.c and, for
statements and declarations, the static variables curCnt, maxCnt, depth, lastStat and curDim
(parser.c:113-127, 724, 757, 895). `out` is what has been handed to the code generator, latest
first. `pts` is not in the C program: it records the name table at the beginning of each statement
and after each declarator of the current function, latest first. -/
structure PS where
  toks : List Tok
  tab : Tab
  lab : Nat
  curCnt : Nat
  maxCnt : Nat
  depth : Nat
  lastStat : Option Tok
  curDim : Nat := 0
  out : List Out := []
  pts : List Tab := []

/-- parser.c:243-248 struct watch -/
structure W where
  type : Int
  dim : Nat
  lhs : Bool
  tree : Expr
deriving DecidableEq, Repr

/-- The state without the first token, which has been read. -/
def PS.next (s : PS) : PS := { s with toks := s.toks.tail }

/-- parser.c:174-177 chkTok (and isTok where the token is known to be next). -/
def chkTok (t : Tok) (s : PS) : Option PS := if s.toks.head? = some t then some s.next else none

/-- parser.c:278-292 autoCast -/
def autoCast (w : W) (type : Int) (dim : Nat) : W :=
  if w.dim ≠ 0 ∨ dim ≠ 0 then w
  else if w.type = TyCHAR ∧ type = TyINT then { w with type := TyINT, lhs := false }
  else w

/-- parser.c:294-302 chkType for `type` one of TyBOOL, TyINT, TyCHAR (all uses). -/
def chkType (w : W) (type : Int) : Option W :=
  if w.dim > 0 then none
  else
    let w := autoCast w type 0
    if w.type = TyVOID then none
    else if w.type ≠ type then none
    else some w

/-- parser.c:306-311: the types do not fit. -/
def misfit (wt : Int) (wd : Nat) (type : Int) (dim : Nat) : Bool :=
  !(wt == TyVOID && decide (wd > 0) && decide (dim > 0)) &&
  !(type == TyVOID && decide (dim > 0) && decide (wd > 0)) &&
  !(wt == TyVOID && wd == 1 && decide (type ≤ 0)) &&
  !(type == TyVOID && dim == 1 && decide (wt ≤ 0)) &&
  (wt != type || wd != dim)

/-- parser.c:305-312 chkCmpat -/
def chkCmpat (w : W) (type : Int) (dim : Nat) : Option W :=
  let w := autoCast w type dim
  if misfit w.type w.dim type dim then none else some w

/-- parser.c:180-191 isType: the type a token stands for. -/
def typeOf (t : Tab) : Tok → Int
  | Lx.INT => TyINT
  | Lx.CHAR => TyCHAR
  | Lx.VOID => TyVOID
  | Lx.BOOL => TyBOOL
  | Lx.INTR => TyINTR
  | .name s => srcStruct t s
  | _ => TyNON

/-- parser.c:198-199 The dimensions `[] [] ...`; `none` if a `]` is missing. -/
def getDims : List Tok → Option (Nat × List Tok)
  | Lx.lbrk :: Lx.rbrk :: r => (getDims r).map fun (d, r) => (d + 1, r)
  | Lx.lbrk :: _ => none
  | r => some (0, r)

/-- parser.c:194-200 getType: type and dimension. -/
def getType (s : PS) : Option (Int × Nat × PS) :=
  match s.toks with
  | t :: r =>
    if typeOf s.tab t = TyNON then none
    else (getDims r).map fun (d, r) => (typeOf s.tab t, d, { s with toks := r })
  | [] => none

/-- parser.c:328-339 Kind of an index operation; `type`, `dim` after lowering the dimension. -/
def idxOp (type : Int) (dim : Nat) : Option Bin :=
  if dim > 0 ∨ type ≤ 0 then some .idxr
  else if type = TyINT then some .idxi
  else if type = TyCHAR then some .idxc
  else if type = TyBOOL then some .idxb
  else none

/-- parser.c:319-345 getIdxOP after the index expression has been read. -/
def idxW (w w2 : W) : Option W :=
  if w2.type ≠ TyINT ∨ w2.dim ≠ 0 then none
  else (idxOp w.type (w.dim - 1)).map fun op =>
    ⟨w.type, w.dim - 1, true, .bin op w.tree w2.tree⟩

/-- parser.c:348-359 getDotOP for the field name `f`. -/
def dotW (t : Tab) (w : W) (f : String) : Option W :=
  if w.type > 0 ∨ w.dim > 0 then none
  else do
    let n ← srcField t w.type f
    let e ← t[n]?
    some ⟨e.type, e.dim, true, .bin .dot w.tree (.cnst n)⟩

/-- sytree.c:77-83 syCatNode -/
def cat : Option Expr → Expr → Expr
  | none, r => r
  | some l, r => .bin .semi l r

/-- parser.c:379-387 One argument of getArgs; the result is the next parameter. -/
def argOk (t : Tab) (w : W) (idx last : Nat) : Option Nat :=
  if idx > last then none
  else match t[idx]? with
    | none => none
    | some e =>
      if e.type ≠ TyDOTDOTDOT then (chkCmpat w e.type e.dim).map fun _ => idx + 1
      else if w.type = TyVOID ∧ w.dim = 0 then none
      else some idx

/-- parser.c:392-393 The number of arguments is sufficient. -/
def argsEnd (t : Tab) (idx last : Nat) : Bool :=
  !(decide (idx ≤ last) && (match t[idx]? with | some e => e.type != TyDOTDOTDOT | none => true))

/-- parser.c:398-405 getCall: the node. -/
def callTree (n : Nat) : Option Expr → Expr
  | none => .func0 n
  | some a => .func n a

/-- parser.c:413-423 The size computed by sizeof (the compiler version). -/
def sizeVal (t : Tab) (type : Int) (dim : Nat) : Option Int :=
  let def? := if type ≤ 0 then (match t[(-type).toNat]? with
    | some e => if e.type = TyREF then none else some e.cnt
    | none => none) else some 0
  def?.map fun cnt : Nat =>
    if dim = 0 then
      if type ≤ 0 then 2 * (cnt : Int)
      else if type = TyCHAR ∨ type = TyBOOL then 1
      else 2
    else 2

/-- parser.c:432-439 getAddrof for the name `n`. -/
def addrofW (t : Tab) (n : String) : Option W := do
  let i ← srcName t n
  let e ← t[i]?
  if e.scope = ScPROT ∨ e.scope = ScFUNC ∨ e.scope = ScCOMM ∨ e.scope = ScGVAR then
    some ⟨TyINT, 0, false, .leaf .addr i⟩
  else none

/-- parser.c:444-451 getOrd -/
def ordW (w : W) : Option W :=
  if (w.type ≠ TyBOOL ∧ w.type ≠ TyCHAR) ∨ w.dim ≠ 0 then none
  else some { w with type := TyINT, lhs := false }

/-- parser.c:454-473 getChr, getBool -/
def convW (op : Un) (ty : Int) (w : W) : Option W :=
  if w.dim ≠ 0 ∨ w.type ≠ TyINT then none
  else some ⟨ty, w.dim, false, .un op w.tree⟩

/-- parser.c:476-493 getIdent for a variable. -/
def varW (n : Nat) (e : Ent) : Option W :=
  if e.scope = ScCOMM ∨ e.scope = ScGVAR then some ⟨e.type, e.dim, true, .leaf .glb n⟩
  else if e.scope = ScLVAR then some ⟨e.type, e.dim, true, .leaf .loc n⟩
  else if e.scope = ScPRM then some ⟨e.type, e.dim, true, .leaf .prm n⟩
  else none

/-- The operator of a prefix token (getUniExpr): operand type and node. -/
def uniOp : Tok → Option (Int × (Expr → Expr))
  | Lx.plus => some (TyINT, id)
  | Lx.minus => some (TyINT, .un .neg)
  | Lx.excl => some (TyBOOL, .un .not)
  | Lx.tilde => some (TyINT, .un .bnot)
  | _ => none

/-- parser.c:531-554 getUniExpr: a prefix operator applied. -/
def uniW (o : Int × (Expr → Expr)) (w : W) : Option W :=
  (chkType w o.1).map fun w => { w with tree := o.2 w.tree, lhs := false }

/-- The binary operators of each level: 2 getMulExpr 567, 3 getAddExpr 582, 4 getSftExpr 596,
5 getCmpExpr 610, 6 getEquExpr 627, 7 getAndExpr 646, 8 getXorExpr 656, 9 getOrExpr 666,
10 getLogAndExpr 676, 11 getLogOrExpr 686. -/
def binOp : Nat → Tok → Option Bin
  | 2, Lx.star => some .mul
  | 2, Lx.slash => some .div
  | 2, Lx.perc => some .mod
  | 3, Lx.plus => some .add
  | 3, Lx.minus => some .sub
  | 4, Lx.SHL => some .shl
  | 4, Lx.SHR => some .shr
  | 5, Lx.lt => some .lt
  | 5, Lx.LTE => some .le
  | 5, Lx.gt => some .gt
  | 5, Lx.GTE => some .ge
  | 6, Lx.EQU => some .equ
  | 6, Lx.NEQ => some .neq
  | 7, Lx.amp => some .band
  | 8, Lx.caret => some .bxor
  | 9, Lx.bar => some .bor
  | 10, Lx.AND => some .and
  | 11, Lx.OR => some .or
  | _, _ => none

/-- parser.c:635-636 char counts as int in == and != (whatever the dimension). -/
def eqType (t : Int) : Int := if t = TyCHAR then TyINT else t

/-- parser.c:557-564 cal2, and lines 622, 635-640 for the comparisons. -/
def binW (k : Nat) (op : Bin) (w w2 : W) : Option W :=
  if k = 6 then
    (chkCmpat { w2 with type := eqType w2.type } (eqType w.type) w.dim).map fun _ =>
      ⟨TyBOOL, 0, false, .bin op w.tree w2.tree⟩
  else do
    let ty := if k ≥ 10 then TyBOOL else TyINT
    let w ← chkType w ty
    let w2 ← chkType w2 ty
    some ⟨if k = 5 then TyBOOL else w.type, w.dim, false, .bin op w.tree w2.tree⟩

/-- The node SyASS(l, r): only variables, elements and fields have lhs set. -/
def assTree : Expr → Expr → Option Expr
  | .leaf k n, r => some (.assV k n r)
  | .bin op a i, r => some (.assM op a i r)
  | _, _ => none

/-- parser.c:699-705 getAsExpr with both sides read. -/
def assW (w w2 : W) : Option W := do
  let w2 ← chkCmpat w2 w.type w.dim
  if w.lhs then
    let t ← assTree w.tree w2.tree
    some ⟨w.type, w.dim, false, t⟩
  else none

/-- parser.c:505-527 Factors that contain no expression. -/
def atomW (s : PS) : Option (W × PS) :=
  match s.toks with
  | .int v :: _ => some (⟨TyINT, 0, false, .cnst v⟩, s.next)
  | .chr v :: _ => some (⟨TyCHAR, 0, false, .cnst v⟩, s.next)
  | .log v :: _ => some (⟨TyBOOL, 0, false, .cnst v⟩, s.next)
  | .str _ :: _ => some (⟨TyCHAR, 1, false, .leaf .str (s.lab + 1)⟩, { s.next with lab := s.lab + 1 })
  | Lx.NUL :: _ => some (⟨TyVOID, 1, false, .cnst 0⟩, s.next)
  | Lx.SIZEOF :: _ => do
    let s ← chkTok Lx.lpar s.next
    let (ty, d, s) ← getType s
    let v ← sizeVal s.tab ty d
    let s ← chkTok Lx.rpar s
    some (⟨TyINT, 0, false, .cnst v⟩, s)
  | Lx.ADDROF :: Lx.lpar :: .name n :: Lx.rpar :: r => do
    let w ← addrofW s.tab n
    some (w, { s with toks := r })
  | _ => none

mutual

/-- The functions getUniExpr (1), getMulExpr (2) ... getLogOrExpr (11), getAsExpr (12) and
getExpr (13); 0 is getFactor. parser.c:497-718 -/
def lev (k : Nat) (s : PS) : Option (W × PS) :=
  match k with
  | 0 => do
    let (w, s) ← factor s
    postLoop w s
  | 1 =>
    match s.toks with
    | t :: _ =>
      match uniOp t with
      | some o => do
        let (w, s) ← lev 1 s.next
        let w ← uniW o w
        some (w, s)
      | none => lev 0 s
    | [] => none
  | 12 => do
    let (w, s) ← lev 11 s
    match s.toks with
    | Lx.eq :: _ =>
      let (w2, s) ← lev 12 s.next
      let w ← assW w w2
      some (w, s)
    | _ => some (w, s)
  | 13 => do
    let (w, s) ← lev 12 s
    commaLoop w s
  | k + 1 => do
    let (w, s) ← lev k s
    binLoop (k + 1) w s
partial_fixpoint

/-- The loops of parser.c:569-694. -/
def binLoop (k : Nat) (w : W) (s : PS) : Option (W × PS) :=
  match s.toks with
  | t :: _ =>
    match binOp k t with
    | some op => do
      let (w2, s) ← lev (k - 1) s.next
      let w ← binW k op w w2
      binLoop k w s
    | none => some (w, s)
  | [] => some (w, s)
partial_fixpoint

/-- parser.c:710-718 The loop of getExpr. -/
def commaLoop (w : W) (s : PS) : Option (W × PS) :=
  match s.toks with
  | Lx.comma :: _ => do
    let (w2, s) ← lev 12 s.next
    commaLoop { w2 with tree := .bin .comm w.tree w2.tree, lhs := false } s
  | _ => some (w, s)
partial_fixpoint

/-- parser.c:362-368 getPostOP with getIdxOP 319 and getDotOP 348. -/
def postLoop (w : W) (s : PS) : Option (W × PS) :=
  match s.toks with
  | Lx.lbrk :: _ =>
    if w.dim = 0 then none
    else do
      let (w2, s) ← lev 12 s.next
      let s ← chkTok Lx.rbrk s
      let w ← idxW w w2
      postLoop w s
  | Lx.dot :: .name f :: r => do
    let w ← dotW s.tab w f
    postLoop w { s with toks := r }
  | Lx.dot :: _ => none
  | _ => some (w, s)
partial_fixpoint

/-- parser.c:377-389 The loop of getArgs from an argument on. -/
def argsLoop (last : Nat) (idx : Nat) (list : Option Expr) (s : PS) :
    Option (Nat × Expr × PS) := do
  let (w, s) ← lev 12 s
  let idx ← argOk s.tab w idx last
  match s.toks with
  | Lx.comma :: _ => argsLoop last idx (some (cat list w.tree)) s.next
  | _ => some (idx, cat list w.tree, s)
partial_fixpoint

/-- parser.c:371-405 getArgs and getCall for the function at `n` (entry `e`); the `(` is
next. -/
def call (n : Nat) (e : Ent) (s : PS) : Option (W × PS) := do
  let s ← chkTok Lx.lpar s
  if e.type = TyINTR then none
  else
    let last := n + e.cnt
    match s.toks with
    | Lx.rpar :: _ =>
      if argsEnd s.tab (n + 1) last then some (⟨e.type, e.dim, false, callTree n none⟩, s.next)
      else none
    | _ =>
      let (idx, a, s) ← argsLoop last (n + 1) none s
      let s ← chkTok Lx.rpar s
      if argsEnd s.tab idx last then some (⟨e.type, e.dim, false, callTree n (some a)⟩, s) else none
partial_fixpoint

/-- parser.c:497-527 getFactor without the postfix operators, getIdent 476-493. -/
def factor (s : PS) : Option (W × PS) :=
  match s.toks with
  | Lx.lpar :: _ => do
    let (w, s) ← lev 13 s.next
    let s ← chkTok Lx.rpar s
    some (w, s)
  | .name x :: _ => do
    let n ← srcName s.tab x
    let e ← s.tab[n]?
    if e.scope = ScPROT ∨ e.scope = ScFUNC then call n e s.next
    else
      let w ← varW n e
      some (w, s.next)
  | Lx.ORD :: _ => do
    let s ← chkTok Lx.lpar s.next
    let (w, s) ← lev 13 s
    let s ← chkTok Lx.rpar s
    let w ← ordW w
    some (w, s)
  | Lx.CHR :: _ => do
    let s ← chkTok Lx.lpar s.next
    let (w, s) ← lev 13 s
    let s ← chkTok Lx.rpar s
    let w ← convW .chr TyCHAR w
    some (w, s)
  | Lx.BOL :: _ => do
    let s ← chkTok Lx.lpar s.next
    let (w, s) ← lev 13 s
    let s ← chkTok Lx.rpar s
    let w ← convW .bool TyBOOL w
    some (w, s)
  | _ => atomW s
partial_fixpoint

end

/-- parser.c:710 getExpr -/
def getExpr (s : PS) : Option (W × PS) := lev 13 s
/-- parser.c:696 getAsExpr -/
def getAsExpr (s : PS) : Option (W × PS) := lev 12 s

end Cmm.Parse
