import Verif.Parse.Expr
import Verif.Opt.OptStmt
import Verif.Gen.Stmt

/-
Model of the parser for declarations, statements and whole programs (src/parser.c:194-245 and
720-1265, compiler version).

Simplifications (besides those of Parse/Expr.lean):
* The static variables curType, curScope, funcIdx, pubFlag, krnFlag and optFlag are parameters;
  curName and curIdx are not used by the compiler version except as the index just entered.
* The trees of statements are `Tree.Stmt`; `none` is SyNULL and `some .empty` is SyVAR (a
  declaration). The root of the tree is the node created last (sytree.c:91-95); for every body
  this is the result of getBlock.
* The token that carries a name is the token itself: chkTok(LxNAME) reads the next token before
  lxGetStr() is called (parser.c:203-210). This makes a difference only if the next token is a
  name, too, or a string, and then all callers report an error (C33).
* optTree is `none` for the cases in which the C program divides by zero or shifts by a count
  outside 0..31; the parser is then `none`, too.
-/
namespace Cmm.Parse
open Cmm.Tree

/-- Options of the compiler: -O0 clears optFlag, -K sets krnFlag (parser.c:1236-1237). -/
structure Opts where
  opt : Bool
  krn : Bool

/-- parser.c:194-200 getType: curType and the state with curDim. -/
def getTy (s : PS) : Option (Int × PS) :=
  (getType s).map fun (ty, d, s) => (ty, { s with curDim := d })

/-- The next token begins a type: parser.c:180-191 isType. -/
def isType (s : PS) : Bool :=
  match s.toks with
  | t :: _ => typeOf s.tab t != TyNON
  | [] => false

/-- parser.c:202-215 getName; the new entry has the index `s.tab.length`. -/
def getName (o : Opts) (scope type : Int) (pub : Bool) (s : PS) : Option PS :=
  match s.toks with
  | .name x :: r =>
    if scope ≠ ScPROT ∧ type = TyVOID ∧ s.curDim = 0 then none
    else if scope ≠ ScPROT ∧ type = TyINTR then none
    else if type = TyINTR ∧ o.krn = false then none
    else (defName s.tab ⟨x, scope, type, s.curDim, s.curCnt, pub⟩).map fun t =>
      { s with toks := r, tab := t }
  | _ => none

/-- sytree.c:77-83 syCatNode for statements. -/
def catS : Option Stmt → Option Stmt → Option Stmt
  | some l, some r => some (.seq false l r)
  | some l, none => some l
  | none, r => r

/-- The point of the program has been reached (not in the C program, see `PS.pts`). -/
def PS.mark (s : PS) : PS := { s with pts := s.tab :: s.pts }

/-- parser.c:727-742 getLVar -/
def getLVar (o : Opts) (type : Int) (s : PS) : Option (Stmt × PS) := do
  let n := s.tab.length
  let s ← getName o ScLVAR type false { s with curCnt := s.curCnt + 1 }
  let s := s.mark
  match s.toks with
  | Lx.eq :: _ => do
    let (w, s) ← lev 12 s.next
    let w ← chkCmpat w type s.curDim
    some (.seq false .empty (.exp (.assV .loc n w.tree)), s)
  | _ => some (.empty, s)

/-- parser.c:748-749 The loop of getLVars. -/
def lvarLoop (o : Opts) (type : Int) (sta : Stmt) (s : PS) : Option (Stmt × PS) :=
  match s.toks with
  | Lx.comma :: _ => do
    let (d, s) ← getLVar o type s.next
    lvarLoop o type (.seq false sta d) s
  | _ => some (sta, s)
partial_fixpoint

/-- parser.c:745-752 getLVars -/
def getLVars (o : Opts) (s : PS) : Option (Stmt × PS) := do
  let (type, s) ← getTy s
  let (d, s) ← getLVar o type s
  let (d, s) ← lvarLoop o type d s
  some (d, { s with maxCnt := max s.maxCnt s.curCnt })

/-- A condition in parentheses: parser.c:763-767, 778-782, 797-801. -/
def getCond (s : PS) : Option (Expr × PS) := do
  let s ← chkTok Lx.lpar s
  let (w, s) ← lev 13 s
  let w ← chkType w TyBOOL
  let s ← chkTok Lx.rpar s
  some (w.tree, s)

/-- parser.c:814-824 The initialisation of a for statement. -/
def getIni0 (o : Opts) (s : PS) : Option (Option Stmt × PS) :=
  match s.toks with
  | Lx.semi :: _ => some (none, s)
  | _ =>
    if isType s then (getLVars o s).map fun (d, s) => (some d, s)
    else (lev 13 s).map fun (w, s) => (some (.exp w.tree), s)

/-- parser.c:814-825 The initialisation of a for statement with its `;`. -/
def getIni (o : Opts) (s : PS) : Option (Option Stmt × PS) := do
  let (i, s) ← getIni0 o s
  let s ← chkTok Lx.semi s
  some (i, s)

/-- parser.c:828-835 The condition of a for statement. -/
def getForCond0 (s : PS) : Option (Option Expr × PS) :=
  match s.toks with
  | Lx.semi :: _ => some (none, s)
  | _ => do
    let (w, s) ← lev 13 s
    let w ← chkType w TyBOOL
    some (some w.tree, s)

/-- parser.c:828-836 The condition of a for statement with its `;`. -/
def getForCond (s : PS) : Option (Option Expr × PS) := do
  let (c, s) ← getForCond0 s
  let s ← chkTok Lx.semi s
  some (c, s)

/-- parser.c:839-845 The re-initialisation of a for statement. -/
def getRini0 (s : PS) : Option (Option Expr × PS) :=
  match s.toks with
  | Lx.rpar :: _ => some (none, s)
  | _ => (lev 13 s).map fun (w, s) => (some w.tree, s)

/-- parser.c:839-846 The re-initialisation of a for statement with the `)`. -/
def getRini (s : PS) : Option (Option Expr × PS) := do
  let (c, s) ← getRini0 s
  let s ← chkTok Lx.rpar s
  some (c, s)

/-- parser.c:882-888 A function of this type returns a value. -/
def hasVal (ty : Int) (dim : Nat) : Bool := ty != TyINTR && (ty != TyVOID || dim != 0)

/-- parser.c:882-890 The value of a return statement. -/
def getRetVal (ty : Int) (dim : Nat) (s : PS) : Option (Option Expr × PS) :=
  if hasVal ty dim then do
    let (w, s) ← lev 13 s
    let w ← chkCmpat w ty dim
    some (some w.tree, s)
  else some (none, s)

/-- parser.c:881-893 getReturn in a function of type `ty`, `dim`. -/
def getReturn (ty : Int) (dim : Nat) (s : PS) : Option (Stmt × PS) := do
  let (e, s) ← getRetVal ty dim s
  let s ← chkTok Lx.semi s
  some (.ret e, s)

/-- The end of a scope: parser.c:861-862 and 937-938 (ntSetVoid, curCnt restored). -/
def PS.close (s : PS) (idx cnt : Nat) : PS := { s with tab := setVoid s.tab idx, curCnt := cnt }

/-- parser.c:939-940 A list becomes a block. -/
def toBlk : Option Stmt → Option Stmt
  | some (.seq false l r) => some (.seq true l r)
  | x => x

/-- SyNULL as a statement. -/
def orEmpty : Option Stmt → Stmt
  | some s => s
  | none => .empty

mutual

/-- parser.c:899-920 getStat in a function of type `ty`, `dim`. -/
def getStat (o : Opts) (ty : Int) (dim : Nat) (s : PS) : Option (Option Stmt × PS) := do
  let (r, t) ← getStat1 o ty dim s.mark
  some (r, { t with lastStat := s.toks.head? })
partial_fixpoint

/-- parser.c:902-917 The cases of getStat, with getIf 762, getWhile 777, getDoWhile 792,
getFor 809, getBreak 867 and getCont 874. -/
def getStat1 (o : Opts) (ty : Int) (dim : Nat) (s : PS) : Option (Option Stmt × PS) :=
  match s.toks with
  | Lx.IF :: _ => do
    let (c, s) ← getCond s.next
    let (a, s) ← getStat o ty dim s
    match s.toks with
    | Lx.ELSE :: _ => do
      let (b, s) ← getStat o ty dim s.next
      some (some (Stmt.els c (orEmpty a) (orEmpty b)), s)
    | _ => some (some (Stmt.ifs c (orEmpty a)), s)
  | Lx.WHILE :: _ => do
    let (c, s) ← getCond s.next
    let (a, s) ← getStat o ty dim { s with depth := s.depth + 1 }
    some (some (Stmt.whl (some c) (orEmpty a) none), { s with depth := s.depth - 1 })
  | Lx.DO :: _ => do
    let (a, s) ← getStat o ty dim { s.next with depth := s.depth + 1 }
    let s ← chkTok Lx.WHILE { s with depth := s.depth - 1 }
    let (c, s) ← getCond s
    let s ← chkTok Lx.semi s
    some (some (Stmt.dos (orEmpty a) c), s)
  | Lx.FOR :: _ => do
    let idx := s.tab.length
    let cnt := s.curCnt
    let s ← chkTok Lx.lpar s.next
    let (ini, s) ← getIni o s
    let (cnd, s) ← getForCond s
    let (rini, s) ← getRini s
    let (a, s) ← getStat o ty dim { s with depth := s.depth + 1 }
    let s := { s with depth := s.depth - 1 }
    some (some (Stmt.seq true (orEmpty ini) (Stmt.whl cnd (orEmpty a) rini)), s.close idx cnt)
  | Lx.RETURN :: _ => (getReturn ty dim s.next).map fun (r, s) => (some r, s)
  | Lx.BREAK :: _ =>
    if s.depth = 0 then none else (chkTok Lx.semi s.next).map fun s => (some Stmt.brk, s)
  | Lx.CONTINUE :: _ =>
    if s.depth = 0 then none else (chkTok Lx.semi s.next).map fun s => (some Stmt.cnt, s)
  | Lx.lbrc :: _ => getBlock o ty dim s.next
  | Lx.semi :: _ => some (none, s.next)
  | _ => do
    let (w, s) ← lev 13 s
    let s ← chkTok Lx.semi s
    some (some (Stmt.exp w.tree), s)
partial_fixpoint

/-- parser.c:927-935 The loop of getBlock; at the end of the input the `}` is missing. -/
def items (o : Opts) (ty : Int) (dim : Nat) (l : Option Stmt) (s : PS) :
    Option (Option Stmt × PS) :=
  match s.toks with
  | [] => none
  | Lx.rbrc :: _ => some (l, s.next)
  | _ =>
    if isType s then do
      let (d, s) ← getLVars o s
      let s ← chkTok Lx.semi s
      items o ty dim (catS l (some d)) s
    else do
      let (d, s) ← getStat o ty dim s
      items o ty dim (catS l d) s
partial_fixpoint

/-- parser.c:923-942 getBlock after the `{`. -/
def getBlock (o : Opts) (ty : Int) (dim : Nat) (s : PS) : Option (Option Stmt × PS) := do
  let (l, t) ← items o ty dim none s
  some (toBlk l, t.close s.tab.length s.curCnt)
partial_fixpoint

end

/-- parser.c:946-949 chkParam -/
def chkParam (t : Tab) (i : Nat) (ty : Int) (dim : Nat) : Option Unit :=
  match t[i]? with
  | some e => if e.type = ty ∧ e.dim = dim then some () else none
  | none => none

/-- The test `if (idx>=1) chkParam(idx+curCnt)` of parser.c:956, 963; `old` is the index of the
earlier declaration, idx = old + 1. -/
def chkOld (old : Option Nat) (ty : Int) (s : PS) : Option Unit :=
  match old with
  | some i => chkParam s.tab (i + 1 + s.curCnt) ty s.curDim
  | none => some ()

/-- parser.c:954-960 The loop of getParams; true if lastTok is `,` at the end. -/
def prmLoop (o : Opts) (old : Option Nat) (s : PS) : Option (Bool × PS) :=
  if isType s then do
    let (ty, s) ← getTy s
    let _ ← chkOld old ty s
    let s ← getName o ScPRM ty false s
    match s.toks with
    | Lx.comma :: _ => prmLoop o old { s.next with curCnt := s.curCnt + 1 }
    | _ => some (false, s)
  else some (true, s)
partial_fixpoint

/-- parser.c:961-967 The `...` of a parameter list; `c`: the last token was a comma. -/
def getDots (old : Option Nat) (c : Bool) (s : PS) : Option PS :=
  match c, s.toks with
  | true, Lx.DOTDOTDOT :: _ => do
    let s := { s.next with curDim := 0 }
    let _ ← chkOld old TyDOTDOTDOT s
    let t ← defName s.tab ⟨"", ScPRM, TyDOTDOTDOT, 0, s.curCnt, false⟩
    some { s with tab := t }
  | _, _ => some s

/-- parser.c:952-969 getParams -/
def getParams (o : Opts) (old : Option Nat) (s : PS) : Option PS := do
  let (c, s) ← prmLoop o old { s with curCnt := 0 }
  let s ← getDots old c s
  chkTok Lx.rpar s

/-- What the code generator asks the name table (namtbl.h: ntGetCnt, ntGetType, ntGetDim). -/
def ntOf (t : Tab) : Gen.NT :=
  ⟨fun i => match t[i.toNat]? with | some e => e.cnt | none => 0,
   fun i => match t[i.toNat]? with | some e => e.type == TyVOID && e.dim == 0 | none => false⟩

/-- parser.c:1009 The tree is optimised unless -O0 is given. -/
def optS (o : Opts) (b : Stmt) : Option Stmt := if o.opt then Opt.optTree b else some b

/-- parser.c:996-997 The earlier declaration becomes a definition. -/
def setOld (old : Option Nat) (t : Tab) : Option Tab :=
  match old with
  | some i => do
    let e ← t[i]?
    if e.scope ≠ ScPROT then none else some (setScope t i ScFUNC)
  | none => some t

/-- parser.c:994-1013 The body of the function `f` of type `ty`, `dim`, the `{` being read;
`old` is the earlier declaration. -/
def getBody (o : Opts) (f : Nat) (ty : Int) (dim : Nat) (old : Option Nat) (s : PS) :
    Option PS := do
  let t ← setOld old s.tab
  let s := { s with tab := setScope t f ScFUNC, maxCnt := 0, curCnt := 0, pts := [] }
  let (b, s) ← getBlock o ty dim s
  if hasVal ty dim ∧ s.lastStat ≠ some Lx.RETURN then none
  else do
    let c ← optS o (orEmpty b)
    let (_, n) := Gen.genFunc (ntOf s.tab) f (ty == TyINTR) o.krn s.maxCnt c s.lab
    some { s with lab := n, out := .func f s.maxCnt (orEmpty b) c s.tab s.pts :: s.out, pts := [] }

/-- parser.c:975-981 A new declaration of a function fits the old one. -/
def fnFits (t : Tab) (old : Option Nat) (ty : Int) (dim : Nat) (pub : Bool) : Bool :=
  match old with
  | some i => match t[i]? with
    | some e => e.scope != ScCOMM && e.scope != ScGVAR && e.type == ty && e.dim == dim &&
        e.pub == pub
    | none => false
  | none => true

/-- parser.c:991-992 The number of parameters is that of the old declaration. -/
def cntFits (t : Tab) (old : Option Nat) (c : Nat) : Bool :=
  match old with
  | some i => match t[i]? with
    | some e => e.cnt == c
    | none => false
  | none => true

/-- parser.c:994-1019 The body of a function or the `;` of a prototype. -/
def getBodyOrSemi (o : Opts) (f : Nat) (ty : Int) (dim : Nat) (old : Option Nat) (s : PS) :
    Option PS :=
  match s.toks with
  | Lx.lbrc :: _ => getBody o f ty dim old s.next
  | _ => chkTok Lx.semi s

/-- parser.c:1020-1026 The end of a function: `f`, `prm`, `loc` are the indices of the function, of
its first parameter and of its first local variable. -/
def endFunc (old : Option Nat) (f prm loc : Nat) (t : Tab) : Tab :=
  match old with
  | some _ => undefName t f
  | none => setVoid (undefName t loc) prm

/-- parser.c:973-1027 getFunc for the function of type `ty` entered last; the `(` is next. -/
def getFunc (o : Opts) (ty : Int) (pub : Bool) (s : PS) : Option PS := do
  let f := s.tab.length - 1
  let dim := s.curDim
  let old := srcGlob s.tab f
  if fnFits s.tab old ty dim pub = false then none
  else if ty = TyINTR ∧ dim ≠ 0 then none
  else do
    let prm := s.tab.length
    let s ← getParams o old { s.next with lastStat := none }
    let c := s.tab.length - prm
    if ty = TyINTR ∧ c ≠ 0 then none
    else do
      let s := { s with tab := setCnt s.tab f c }
      if cntFits s.tab old c = false then none
      else do
        let loc := s.tab.length
        let s ← getBodyOrSemi o f ty dim old s
        some { s with tab := endFunc old f prm loc s.tab }

/-- parser.c:218-227 The loop of getFieldLine. -/
def fldLoop (o : Opts) (ty : Int) (s : PS) : Option PS :=
  match s.toks with
  | Lx.comma :: _ => do
    let s ← getName o ScFLD ty false s.next
    fldLoop o ty { s with curCnt := s.curCnt + 1 }
  | _ => some s
partial_fixpoint

/-- parser.c:218-228 getFieldLine -/
def getFieldLine (o : Opts) (s : PS) : Option PS := do
  let (ty, s) ← getTy s
  let s ← getName o ScFLD ty false s
  let s ← fldLoop o ty { s with curCnt := s.curCnt + 1 }
  chkTok Lx.semi s

/-- parser.c:237-239 The loop of getStruct. -/
def fldLines (o : Opts) (s : PS) : Option PS := do
  let s ← getFieldLine o s
  match s.toks with
  | Lx.rbrc :: _ => some s.next
  | _ => fldLines o s
partial_fixpoint

/-- parser.c:231-248 getStruct -/
def getStruct (o : Opts) (s : PS) : Option PS := do
  let s ← chkTok Lx.lbrc s
  let i := s.tab.length
  let s ← fldLines o { s with curCnt := 0 }
  let s ← chkTok Lx.semi s
  let t := setVoid s.tab i
  some { s with tab := setCnt t (i - 1) (t.length - i) }

/-- parser.c:1040-1042 The tree is a constant. -/
def cnstTree : Expr → Option Gen.DT
  | .cnst v => some (.cnst v)
  | .leaf .addr n => some (.addr n)
  | .leaf .str l => some (.str l)
  | _ => none

/-- parser.c:1033-1044 getCnst -/
def getCnst (ty : Int) (s : PS) : Option (Gen.DT × PS) := do
  let (w, s) ← lev 12 s
  let w ← chkCmpat w ty 0
  let e ← Opt.optExp w.tree
  let d ← cnstTree e
  some (d, s)

/-- sytree.c:77-83 syCatNode for initial values. -/
def catD : Option Gen.DT → Gen.DT → Gen.DT
  | none, r => r
  | some l, r => .semi l r

/-- parser.c:1050 syGetLVal of the node of a constant: the value, or an index of the name table or
a label, which may be 0 only for the index. -/
def lVal : Gen.DT → Int
  | .cnst v => v
  | .addr n => n
  | .str l => l
  | _ => 0

/-- parser.c:1047-1057 getArray0 -/
def getArray0 (dim : Nat) (s : PS) : Option (Gen.DT × PS) :=
  match dim with
  | 0 => none
  | dim + 1 => do
    let (d, s) ← getCnst TyINT s
    if lVal d ≤ 0 then none
    else match s.toks with
      | Lx.comma :: _ => do
        let (l, s) ← getArray0 dim s.next
        some (.semi l d, s)
      | _ => some (d, s)

/-- The elements of these arrays are bytes: parser.c:1064-1065, 1142-1143. -/
def bytes (ty : Int) (dim : Nat) : Int := if ty = TyCHAR ∨ ty = TyBOOL then dim else 0

/-- parser.c:1060-1067 getArray -/
def getArray (ty : Int) (dim : Nat) (s : PS) : Option (Gen.DT × PS) := do
  let s ← chkTok Lx.lpar s
  let (d, s) ← getArray0 dim s
  let s ← chkTok Lx.rpar s
  some (.arry d (bytes ty dim), s)

/-- parser.c:1077-1097 The value of the field `e` in an initialisation. -/
def getFldInit (e : Ent) (s : PS) : Option (Gen.DT × PS) :=
  if e.type ≤ 0 then (chkTok Lx.NUL s).map fun s => (.cnst 0, s)
  else if e.dim > 0 then
    match s.toks with
    | .str _ :: _ =>
      if e.dim ≠ 1 ∨ e.type ≠ TyCHAR then none
      else some (.str (s.lab + 1), { s.next with lab := s.lab + 1 })
    | Lx.NUL :: _ => some (.cnst 0, s.next)
    | _ => none
  else if e.type = TyINT ∨ e.type = TyBOOL ∨ e.type = TyCHAR then getCnst e.type s
  else none

/-- parser.c:1070-1101 getStructInit0 from field `i` on. -/
def getStructInit0 (i : Nat) (l : Option Gen.DT) (s : PS) : Option (Gen.DT × PS) := do
  let e ← s.tab[i]?
  if e.scope ≠ ScVOID then none
  else do
    let (d, s) ← getFldInit e s
    match s.toks with
    | Lx.comma :: _ => getStructInit0 (i + 1) (some (catD l d)) s.next
    | _ =>
      match s.tab[i + 1]? with
      | some e => if e.scope = ScVOID then none else some (catD l d, s)
      | none => some (catD l d, s)
partial_fixpoint

/-- parser.c:1104-1116 getStructInit -/
def getStructInit (ty : Int) (s : PS) : Option (Gen.DT × PS) :=
  match s.toks with
  | Lx.NUL :: _ => some (.cnst 0, s.next)
  | Lx.lbrc :: _ => do
    let (d, s) ← getStructInit0 ((-ty).toNat + 1) none s.next
    let s ← chkTok Lx.rbrc s
    some (.list d 9999, s)
  | _ => none

/-- parser.c:1122-1134 A value of the last dimension. -/
def getElm (ty : Int) (s : PS) : Option (Gen.DT × PS) :=
  if ty ≤ 0 then getStructInit ty s
  else if ty = TyINT ∨ ty = TyCHAR ∨ ty = TyBOOL then getCnst ty s
  else none

mutual

/-- parser.c:1122-1139 A value in getGArrayInit0. -/
def initElm (ty : Int) (dim : Nat) (s : PS) : Option (Gen.DT × PS) :=
  if dim ≤ 1 then getElm ty s else getGArrayInit ty (dim - 1) s
partial_fixpoint

/-- parser.c:1119-1145 The loops of getGArrayInit0: values separated by commas. -/
def initLoop (ty : Int) (dim : Nat) (l : Option Gen.DT) (s : PS) : Option (Gen.DT × PS) := do
  let (d, s) ← initElm ty dim s
  match s.toks with
  | Lx.comma :: _ => initLoop ty dim (some (catD l d)) s.next
  | _ => some (catD l d, s)
partial_fixpoint

/-- parser.c:1148-1163 getGArrayInit -/
def getGArrayInit (ty : Int) (dim : Nat) (s : PS) : Option (Gen.DT × PS) :=
  match s.toks with
  | Lx.lbrc :: _ => do
    let (d, s) ← initLoop ty dim none s.next
    let s ← chkTok Lx.rbrc s
    some (.list d (bytes ty dim), s)
  | .str _ :: _ =>
    if ty ≠ TyCHAR ∨ dim ≠ 1 then none
    else some (.str (s.lab + 1), { s.next with lab := s.lab + 1 })
  | Lx.ARRAY :: _ => getArray ty dim s.next
  | Lx.NUL :: _ => some (.cnst 0, s.next)
  | _ => none
partial_fixpoint

end

/-- parser.c:1171-1180 The initial value of a variable of type `ty`, `dim`. -/
def getInit (ty : Int) (dim : Nat) (s : PS) : Option (Gen.DT × PS) :=
  if dim > 0 then getGArrayInit ty dim s
  else if ty = TyINT ∨ ty = TyCHAR ∨ ty = TyBOOL then getCnst ty s
  else if ty ≤ 0 then getStructInit ty s
  else none

/-- parser.c:1200-1203 A new declaration of a variable fits the old one. -/
def varFits (t : Tab) (i : Nat) (ty : Int) (dim : Nat) (pub : Bool) : Bool :=
  match t[i]? with
  | some e => e.type == ty && e.dim == dim && e.pub == pub
  | none => false

/-- parser.c:1166-1203 getGVar for the variable entered last. The error() calls of genData (vmCode.c:703, 719, 758) are `bug`. -/
def getGVar (ty : Int) (pub : Bool) (s : PS) : Option PS := do
  let v := s.tab.length - 1
  let old := srcGlob s.tab v
  match s.toks with
  | Lx.eq :: _ => do
    let s := { s.next with tab := setScope s.tab v ScGVAR }
    let (d, s) ← getInit ty s.curDim s
    if Gen.Dir.bug ∈ (Gen.genData v s.curDim d s.lab).1 then none
    else do
      let s := { s with lab := (Gen.genData v s.curDim d s.lab).2, out := .data v d s.tab s.lab :: s.out }
      match old with
      | some i => do
        let e ← s.tab[i]?
        if e.scope ≠ ScCOMM then none
        else do
          let t := undefName (setScope s.tab i ScGVAR) v
          if varFits t i ty s.curDim pub then some { s with tab := t } else none
      | none => some s
  | _ =>
    match old with
    | some i => do
      let e ← s.tab[i]?
      if e.scope = ScCOMM ∨ e.scope = ScGVAR then
        let t := undefName s.tab v
        if varFits t i ty s.curDim pub then some { s with tab := t } else none
      else none
    | none => some { s with out := .bss v s.tab :: s.out }

/-- parser.c:1205-1212 getGVars -/
def getGVars (o : Opts) (ty : Int) (pub : Bool) (s : PS) : Option PS := do
  let s ← getGVar ty pub s
  match s.toks with
  | Lx.comma :: _ => do
    let s ← getName o ScCOMM ty pub s.next
    getGVars o ty pub s
  | _ => chkTok Lx.semi s
partial_fixpoint

/-- parser.c:1226-1247 The last branch of getProg: a function or variables. -/
def getDecl (o : Opts) (pub : Bool) (s : PS) : Option PS := do
  let (ty, s) ← getTy s
  let s ← getName o ScPROT ty pub s
  match s.toks with
  | Lx.lpar :: _ => getFunc o ty pub s
  | _ =>
    if ty = TyVOID ∧ s.curDim = 0 then none
    else if ty = TyINTR then none
    else getGVars o ty pub { s with tab := setScope s.tab (s.tab.length - 1) ScCOMM }

/-- parser.c:1215-1249 getProg -/
def getProg (o : Opts) (s : PS) : Option PS :=
  let pub := s.toks.head? == some Lx.PUBLIC
  let s := if pub then s.next else s
  match s.toks with
  | Lx.STRUCT :: _ =>
    if pub then none
    else do
      let s ← getName o ScSTRC TySTRUC false s.next
      getStruct o s
  | Lx.TYPEDEF :: _ =>
    if pub then none
    else do
      let s ← getName o ScSTRC TyREF false s.next
      chkTok Lx.semi s
  | _ => getDecl o pub s

/-- parser.c:1259-1265 psGetSrc: declarations until the end of the input. -/
def getSrc (o : Opts) (s : PS) : Option PS :=
  match s.toks with
  | [] => some s
  | _ => do
    let s ← getProg o s
    getSrc o s
partial_fixpoint

/-- The state in which psGetSrc starts (parser.c:113-127; namtbl.h: ntNextIdx = 0). -/
def start (toks : List Tok) : PS :=
  { toks, tab := [], lab := 0, curCnt := 0, maxCnt := 0, depth := 0, lastStat := none }

end Cmm.Parse
