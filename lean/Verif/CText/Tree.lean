import Verif.CText.ReadStmt
import Verif.Parse.StatSyn

/-
From the trees of the parser to the trees that src/cCode.c prints, for Verif/Props/C76.lean: indices of the name table become names. The
statements here have the nodes for declarations (SyVAR) that `Stmt` (Verif/Tree/Stmt.lean) leaves out.
-/
namespace Cmm.CText
open Cmm.Tree (Expr Stmt)
open Cmm.Parse (Tab Ent Spot ExpAt LocalDecl Declr Declrs ForIni ForCond ForRini Cond NoType TypeTok Valued Assignable Unused Syn
  TyVOID TyINT TyCHAR TyBOOL TyINTR)

/-- Statements; `var` is SyVAR (parser.c:727-743): index of the variable, type, dimensions. -/
inductive VS
  | null
  | exp (e : Expr)
  | ifs (c : Expr) (s : VS)
  | els (c : Expr) (s t : VS)
  | whl (c : Option Expr) (body : VS) (re : Option Expr)
  | dos (body : VS) (c : Expr)
  | brk
  | cnt
  | ret (e : Option Expr)
  | var (n : Nat) (ty : Int) (dim : Nat)
  | seq (k : Bool) (s t : VS)

/-- Without the declarations. -/
def VS.erase : VS → Stmt
  | .null => .empty
  | .exp e => .exp e
  | .ifs c s => .ifs c s.erase
  | .els c s t => .els c s.erase t.erase
  | .whl c b re => .whl c b.erase re
  | .dos b c => .dos b.erase c
  | .brk => .brk
  | .cnt => .cnt
  | .ret e => .ret e
  | .var _ _ _ => .empty
  | .seq k s t => .seq k s.erase t.erase

/-- A declaration. -/
def VS.isVar : VS → Bool
  | .var _ _ _ => true
  | _ => false

/-! ### The grammar of statements of C72 with declarations in the tree

As `Syn` (Verif/Parse/StatSyn.lean), rule by rule. If `strict` holds, no block consists of a single declaration without value, besides
empty statements (as `{ int x; }`). -/

inductive DeclrV (ty : Int) (dim : Nat) : Spot → List Parse.Tok → VS → Spot → Prop
  | plain {p x} : Unused p.tab x → DeclrV ty dim p [.name x] (.var p.tab.length ty dim) (p.local x ty dim)
  | init {p x y t e} : Unused p.tab x → ExpAt (p.local x ty dim) 12 y t e → Assignable t (ty, dim) →
      DeclrV ty dim p (.name x :: Parse.Lx.eq :: y.toks) (.seq false (.var p.tab.length ty dim) (.exp (.assV .loc p.tab.length e)))
        ((p.local x ty dim).lit y)

inductive DeclrsV (ty : Int) (dim : Nat) : Spot → List Parse.Tok → VS → Spot → Prop
  | one {p ts st p'} : DeclrV ty dim p ts st p' → DeclrsV ty dim p ts st p'
  | more {p ts st p1 us st' p2} : DeclrsV ty dim p ts st p1 → DeclrV ty dim p1 us st' p2 →
      DeclrsV ty dim p (ts ++ Parse.Lx.comma :: us) (.seq false st st') p2

inductive LocalDeclV : Spot → List Parse.Tok → VS → Spot → Prop
  | mk {p k ty dim ts st p'} : TypeTok p.tab k ty → ty ≠ TyINTR → ¬(ty = TyVOID ∧ dim = 0) → DeclrsV ty dim { p with dim := dim } ts st p' →
      LocalDeclV p (k :: (Parse.dimToks dim ++ ts)) st { p' with most := max p'.most p'.cnt }

inductive ForIniV : Spot → List Parse.Tok → Option VS → Spot → Prop
  | none {p} : ForIniV p [] none p
  | decl {p ts st p'} : LocalDeclV p ts st p' → ForIniV p ts (some st) p'
  | exp {p x t e} : ExpAt p 13 x t e → NoType p.tab x.toks → ForIniV p x.toks (some (.exp e)) (p.lit x)

def stOfV : Option VS → VS
  | some s => s
  | none => .null

def joinV : Option VS → Option VS → Option VS
  | none, b => b
  | some a, none => some a
  | some a, some b => some (.seq false a b)

def blockOfV : Option VS → Option VS
  | some (.seq false a b) => some (.seq true a b)
  | x => x

inductive NTV
  | stat (opn : Bool) | items (a : Option VS)

def NTV.erase : NTV → Parse.NT
  | .stat q => .stat q
  | .items a => .items (a.map VS.erase)

inductive SynV (strict : Bool) (F : Int × Nat) : NTV → Bool → Spot → List Parse.Tok → Option VS → Spot → Prop
  | null {l p} : SynV strict F (.stat false) l p [Parse.Lx.semi] none { p with last := some Parse.Lx.semi }
  | exp {l p x t e} : ExpAt p 13 x t e →
      SynV strict F (.stat false) l p (x.toks ++ [Parse.Lx.semi]) (some (.exp e)) { p.lit x with last := x.toks.head? }
  | ret {l p} : ¬Valued F → SynV strict F (.stat false) l p [Parse.Lx.RETURN, Parse.Lx.semi] (some (.ret none))
      { p with last := some Parse.Lx.RETURN }
  | retV {l p x t e} : Valued F → ExpAt p 13 x t e → Assignable t F →
      SynV strict F (.stat false) l p (Parse.Lx.RETURN :: (x.toks ++ [Parse.Lx.semi])) (some (.ret (some e)))
        { p.lit x with last := some Parse.Lx.RETURN }
  | brk {p} : SynV strict F (.stat false) true p [Parse.Lx.BREAK, Parse.Lx.semi] (some .brk) { p with last := some Parse.Lx.BREAK }
  | cnt {p} : SynV strict F (.stat false) true p [Parse.Lx.CONTINUE, Parse.Lx.semi] (some .cnt) { p with last := some Parse.Lx.CONTINUE }
  | ifs {l q p cs c p1 ts a p2} : Cond p cs c p1 → SynV strict F (.stat q) l p1 ts a p2 →
      SynV strict F (.stat true) l p (Parse.Lx.IF :: (cs ++ ts)) (some (.ifs c (stOfV a))) { p2 with last := some Parse.Lx.IF }
  | els {l q p cs c p1 ts a p2 us b p3} : Cond p cs c p1 → SynV strict F (.stat false) l p1 ts a p2 → SynV strict F (.stat q) l p2 us b p3 →
      SynV strict F (.stat q) l p (Parse.Lx.IF :: (cs ++ (ts ++ Parse.Lx.ELSE :: us))) (some (.els c (stOfV a) (stOfV b)))
        { p3 with last := some Parse.Lx.IF }
  | whl {l q p cs c p1 ts a p2} : Cond p cs c p1 → SynV strict F (.stat q) true p1 ts a p2 →
      SynV strict F (.stat q) l p (Parse.Lx.WHILE :: (cs ++ ts)) (some (.whl (some c) (stOfV a) none)) { p2 with last := some Parse.Lx.WHILE }
  | dos {l q p cs c p1 ts a p2} : SynV strict F (.stat q) true p ts a p1 → Cond p1 cs c p2 →
      SynV strict F (.stat false) l p (Parse.Lx.DO :: (ts ++ Parse.Lx.WHILE :: (cs ++ [Parse.Lx.semi]))) (some (.dos (stOfV a) c))
        { p2 with last := some Parse.Lx.DO }
  | for {l q p t1 i p1 t2 c p2 t3 r p3 ts a p4} : ForIniV p t1 i p1 → ForCond p1 t2 c p2 → ForRini p2 t3 r p3 →
      SynV strict F (.stat q) true p3 ts a p4 →
      SynV strict F (.stat q) l p
        (Parse.Lx.FOR :: Parse.Lx.lpar :: (t1 ++ Parse.Lx.semi :: (t2 ++ Parse.Lx.semi :: (t3 ++ Parse.Lx.rpar :: ts))))
        (some (.seq true (stOfV i) (.whl c (stOfV a) r))) { p.leave p4 with last := some Parse.Lx.FOR }
  | block {l p ts a p'} : SynV strict F (.items none) l p ts a p' → (strict = true → a.all (fun v => !v.isVar) = true) →
      SynV strict F (.stat false) l p (Parse.Lx.lbrc :: (ts ++ [Parse.Lx.rbrc])) (blockOfV a) { p.leave p' with last := some Parse.Lx.lbrc }
  | done {l a p} : SynV strict F (.items a) l p [] a p
  | decl {l a p ts d p1 us b p2} : LocalDeclV p ts d p1 → SynV strict F (.items (joinV a (some d))) l p1 us b p2 →
      SynV strict F (.items a) l p (ts ++ Parse.Lx.semi :: us) b p2
  | stat {l a q p ts d p1 us b p2} : SynV strict F (.stat q) l p ts d p1 → NoType p.tab ts → SynV strict F (.items (joinV a d)) l p1 us b p2 →
      SynV strict F (.items a) l p (ts ++ us) b p2

/-! ### It is the grammar of C72 -/

variable {strict : Bool} {F : Int × Nat} {l : Bool} {p p' : Spot} {ts : List Parse.Tok}

theorem erase_stOf (a : Option VS) : (stOfV a).erase = Parse.stOf (a.map VS.erase) := by cases a <;> rfl
theorem erase_join (a b : Option VS) : (joinV a b).map VS.erase = Parse.join (a.map VS.erase) (b.map VS.erase) := by
  cases a <;> cases b <;> rfl
theorem erase_block (a : Option VS) : (blockOfV a).map VS.erase = Parse.blockOf (a.map VS.erase) := by
  cases a with
  | none => rfl
  | some v =>
    cases v with
    | seq k s t => cases k <;> rfl
    | _ => rfl

theorem DeclrV.plain_of {ty : Int} {dim : Nat} {v : VS} (h : DeclrV ty dim p ts v p') : Declr ty dim p ts v.erase p' := by
  cases h with
  | plain h => exact .plain h
  | init h1 h2 h3 => exact .init h1 h2 h3

theorem DeclrsV.plain_of {ty : Int} {dim : Nat} {v : VS} (h : DeclrsV ty dim p ts v p') : Declrs ty dim p ts v.erase p' := by
  induction h with
  | one h => exact .one h.plain_of
  | more _ h ih => exact .more ih h.plain_of

theorem LocalDeclV.plain_of {v : VS} (h : LocalDeclV p ts v p') : LocalDecl p ts v.erase p' := by
  cases h with
  | mk h1 h2 h3 h4 => exact .mk h1 h2 h3 h4.plain_of

theorem ForIniV.plain_of {v : Option VS} (h : ForIniV p ts v p') : ForIni p ts (v.map VS.erase) p' := by
  cases h with
  | none => exact .none
  | decl h => exact .decl h.plain_of
  | exp h1 h2 => exact .exp h1 h2

theorem SynV.plain_of {nt : NTV} {v : Option VS} (h : SynV strict F nt l p ts v p') : Syn F nt.erase l p ts (v.map VS.erase) p' := by
  induction h with
  | null => exact .null
  | exp h => exact .exp h
  | ret h => exact .ret h
  | retV h1 h2 h3 => exact .retV h1 h2 h3
  | brk => exact .brk
  | cnt => exact .cnt
  | ifs h1 _ ih => simpa only [Option.map_some, VS.erase, erase_stOf, NTV.erase] using Syn.ifs h1 ih
  | els h1 _ _ ih1 ih2 => simpa only [Option.map_some, VS.erase, erase_stOf, NTV.erase] using Syn.els h1 ih1 ih2
  | whl h1 _ ih => simpa only [Option.map_some, VS.erase, erase_stOf, NTV.erase] using Syn.whl h1 ih
  | dos _ h1 ih => simpa only [Option.map_some, VS.erase, erase_stOf, NTV.erase] using Syn.dos ih h1
  | «for» h1 h2 h3 _ ih => simpa only [Option.map_some, VS.erase, erase_stOf, NTV.erase] using Syn.for h1.plain_of h2 h3 ih
  | block _ _ ih => rw [erase_block]; exact .block ih
  | done => exact .done
  | decl h1 _ ih => exact .decl h1.plain_of (by simpa only [NTV.erase, erase_join, Option.map_some] using ih)
  | stat _ h1 _ ih1 ih2 => exact .stat ih1 h1 (by simpa only [NTV.erase, erase_join] using ih2)

theorem declr_with {ty : Int} {dim : Nat} {s : Stmt} (h : Declr ty dim p ts s p') : ∃ v, DeclrV ty dim p ts v p' ∧ v.erase = s := by
  cases h with
  | plain h => exact ⟨_, .plain h, rfl⟩
  | init h1 h2 h3 => exact ⟨_, .init h1 h2 h3, rfl⟩

theorem declrs_with {ty : Int} {dim : Nat} {s : Stmt} (h : Declrs ty dim p ts s p') : ∃ v, DeclrsV ty dim p ts v p' ∧ v.erase = s := by
  induction h with
  | one h => obtain ⟨v, h1, h2⟩ := declr_with h; exact ⟨v, .one h1, h2⟩
  | more _ h ih =>
    obtain ⟨v, h1, rfl⟩ := ih
    obtain ⟨w, h2, rfl⟩ := declr_with h
    exact ⟨_, .more h1 h2, rfl⟩

theorem localDecl_with {s : Stmt} (h : LocalDecl p ts s p') : ∃ v, LocalDeclV p ts v p' ∧ v.erase = s := by
  cases h with
  | mk h1 h2 h3 h4 => obtain ⟨v, h5, h6⟩ := declrs_with h4; exact ⟨v, .mk h1 h2 h3 h5, h6⟩

theorem forIni_with {s : Option Stmt} (h : ForIni p ts s p') : ∃ v, ForIniV p ts v p' ∧ v.map VS.erase = s := by
  cases h with
  | none => exact ⟨_, .none, rfl⟩
  | decl h => obtain ⟨v, h1, rfl⟩ := localDecl_with h; exact ⟨_, .decl h1, rfl⟩
  | exp h1 h2 => exact ⟨_, .exp h1 h2, rfl⟩

theorem syn_with {nt : Parse.NT} {s : Option Stmt} (h : Syn F nt l p ts s p') :
    ∀ w : NTV, w.erase = nt → ∃ v, SynV false F w l p ts v p' ∧ v.map VS.erase = s := by
  induction h with
  | «for» h1 h2 h3 h4 ih =>
    intro w hw
    cases w with
    | items => cases hw
    | stat q =>
      cases hw
      obtain ⟨i, h5, rfl⟩ := forIni_with h1
      obtain ⟨v, h6, rfl⟩ := ih (.stat _) rfl
      exact ⟨_, .for h5 h2 h3 h6, by simp only [Option.map_some, VS.erase, erase_stOf]⟩
  | done =>
    intro w hw
    cases w with
    | stat => cases hw
    | items a => cases hw; exact ⟨_, .done, rfl⟩
  | decl h1 _ ih =>
    intro w hw
    cases w with
    | stat => cases hw
    | items a =>
      cases hw
      obtain ⟨d, h2, rfl⟩ := localDecl_with h1
      obtain ⟨v, h3, h4⟩ := ih (.items (joinV a (some d))) (by simp only [NTV.erase, erase_join, Option.map_some])
      exact ⟨v, .decl h2 h3, h4⟩
  | stat _ h1 _ ih1 ih2 =>
    intro w hw
    cases w with
    | stat => cases hw
    | items a =>
      cases hw
      obtain ⟨d, h2, rfl⟩ := ih1 (.stat _) rfl
      obtain ⟨v, h3, h4⟩ := ih2 (.items (joinV a d)) (by simp only [NTV.erase, erase_join])
      exact ⟨v, .stat h2 h1 h3, h4⟩
  | block _ ih =>
    intro w hw
    cases w with
    | items => cases hw
    | stat q =>
      cases hw
      obtain ⟨v, h1, rfl⟩ := ih (.items none) rfl
      exact ⟨_, .block h1 nofun, erase_block v⟩
  | null => intro w hw; cases w <;> cases hw; exact ⟨_, .null, rfl⟩
  | exp h => intro w hw; cases w <;> cases hw; exact ⟨_, .exp h, rfl⟩
  | ret h => intro w hw; cases w <;> cases hw; exact ⟨_, .ret h, rfl⟩
  | retV h1 h2 h3 => intro w hw; cases w <;> cases hw; exact ⟨_, .retV h1 h2 h3, rfl⟩
  | brk => intro w hw; cases w <;> cases hw; exact ⟨_, .brk, rfl⟩
  | cnt => intro w hw; cases w <;> cases hw; exact ⟨_, .cnt, rfl⟩
  | ifs h1 _ ih =>
    intro w hw; cases w <;> cases hw
    obtain ⟨v, h2, rfl⟩ := ih (.stat _) rfl
    exact ⟨_, .ifs h1 h2, by simp only [Option.map_some, VS.erase, erase_stOf]⟩
  | els h1 _ _ ih1 ih2 =>
    intro w hw; cases w <;> cases hw
    obtain ⟨v, h2, rfl⟩ := ih1 (.stat _) rfl
    obtain ⟨u, h3, rfl⟩ := ih2 (.stat _) rfl
    exact ⟨_, .els h1 h2 h3, by simp only [Option.map_some, VS.erase, erase_stOf]⟩
  | whl h1 _ ih =>
    intro w hw; cases w <;> cases hw
    obtain ⟨v, h2, rfl⟩ := ih (.stat _) rfl
    exact ⟨_, .whl h1 h2, by simp only [Option.map_some, VS.erase, erase_stOf]⟩
  | dos _ h1 ih =>
    intro w hw; cases w <;> cases hw
    obtain ⟨v, h2, rfl⟩ := ih (.stat _) rfl
    exact ⟨_, .dos h2 h1, by simp only [Option.map_some, VS.erase, erase_stOf]⟩

/-! ### Names instead of indices -/

/-- cCode.c:71-84: the type with the number `ty`. -/
def toTy (N : Nat → Text) (ty : Int) : Ty :=
  if ty = TyVOID then .void else if ty = TyINT then .int else if ty = TyBOOL then .bool else if ty = TyCHAR then .char else .named (N (-ty).toNat)

/-- The C operator. -/
def toBi : Tree.Bin → Bi
  | .add => .add | .sub => .sub | .shl => .shl | .shr => .shr | .band => .band | .bxor => .bxor | .bor => .bor | .mul => .mul
  | .div => .div | .mod => .mod | .gt => .gt | .ge => .ge | .lt => .lt | .le => .le | .equ => .equ | .neq => .neq
  | .or => .or | .and => .and | _ => .comm

/-- The field with the tree `e` (parser.c:423-430: a SyCNST whose value is the index of the field). -/
def fldName (N : Nat → Text) : Expr → Text
  | .cnst v => N v.toNat
  | _ => []

/-- An access to an element or a field. -/
def toMem (N : Nat → Text) (op : Tree.Bin) (a i : Exp) (e : Expr) : Exp :=
  if op = .dot then .dot a (fldName N e) else .idx a i

/-- The tree with names: as an expression and as arguments (SySEMI separates arguments). sizeof is the number that it is in the trees of the
parser model (with cCode.c it is SySIZE, in which there are no names of variables or functions). -/
def toEA (N : Nat → Text) : Expr → Exp × Args
  | .cnst v => (.cnst v, .one (.cnst v))
  | .leaf .str n => (.str n.toNat, .one (.str n.toNat))
  | .leaf .addr n => (.addr (N n.toNat), .one (.addr (N n.toNat)))
  | .leaf _ n => (.var (N n.toNat), .one (.var (N n.toNat)))
  | .func0 f => (.func (N f.toNat) .nil, .one (.func (N f.toNat) .nil))
  | .func f a => (.func (N f.toNat) (toEA N a).2, .one (.func (N f.toNat) (toEA N a).2))
  | .un op e =>
    let e := (toEA N e).1
    let x := match op with | .neg => Exp.un .neg e | .not => .un .not e | .bnot => .un .bnot e | .chr => .chr e | .bool => .bool e
    (x, .one x)
  | .bin .semi l r => (.bin .comm (toEA N l).1 (toEA N r).1, .semi (toEA N l).2 (toEA N r).2)
  | .bin op l r =>
    let a := (toEA N l).1
    let b := (toEA N r).1
    let x := if op = .dot ∨ op = .idxr ∨ op = .idxi ∨ op = .idxc ∨ op = .idxb then toMem N op a b r else .bin (toBi op) a b
    (x, .one x)
  | .assV _ n r =>
    let x := Exp.bin .ass (.var (N n.toNat)) (toEA N r).1
    (x, .one x)
  | .assM op a i r =>
    let x := Exp.bin .ass (toMem N op (toEA N a).1 (toEA N i).1 i) (toEA N r).1
    (x, .one x)

/-- The expression that cCode.c prints. -/
def toE (N : Nat → Text) (e : Expr) : Exp := (toEA N e).1

/-- The statement that cCode.c prints. -/
def toS (N : Nat → Text) : VS → Stm
  | .null => .null
  | .exp e => .exp (toE N e)
  | .ifs c s => .ifs (toE N c) (toS N s)
  | .els c s t => .els (toE N c) (toS N s) (toS N t)
  | .whl c b re => .whl (c.map (toE N)) (re.map (toE N)) (toS N b)
  | .dos b c => .dos (toS N b) (toE N c)
  | .brk => .brk
  | .cnt => .cnt
  | .ret e => .ret (e.map (toE N))
  | .var n ty dim => .var (toTy N ty) dim (N n)
  | .seq true s t => .blk (toS N s) (toS N t)
  | .seq false s t => .semi (toS N s) (toS N t)

end Cmm.CText
