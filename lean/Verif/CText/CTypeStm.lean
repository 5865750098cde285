import Verif.CText.CTypeProof

/-
C77 for statements: the specification, and the proof.
-/
namespace Cmm.CText
open Cmm.Tree (Expr Stmt)
open Cmm.Parse (Tab Ent Spot ExpAt Sees Assignable Field VarKind IsFun manual actual Valued Unused NoType TypeTok TyVOID TyINT TyCHAR TyBOOL TyINTR TySTRUC
  ScLVAR ScPRM ScVOID ScFUNC ScCOMM ScGVAR ScPROT)

/-! ### Specification: C (C11 6.7, 6.8) -/

/-- Declarations in force. -/
abbrev Gam := Text → Option Dcl

/-- With a declaration of an object that hides others of the name. -/
def Gam.set (G : Gam) (x : Text) (d : Dcl) : Gam := fun y => if y = x then some d else G y

/-- `Wt M R G s G'`: the statement, declaration or list of them in a function with results of type `R` is well typed; `G` are the
declarations before and `G'` behind it. -/
inductive Wt (M : Text → Text → Option CT) (R : CT) : Gam → CS → Gam → Prop
  | empty {G} : Wt M R G .empty G
  | ex {G e t} : HasTy G M e t → Wt M R G (.ex e) G
  | block {G is G'} : Wt M R G is G' → Wt M R G (.block is) G
  | ifs {G c t s G'} : HasTy G M c t → Scalar t → Wt M R G s G' → Wt M R G (.ifs c s) G
  | els {G c t s G' s' G''} : HasTy G M c t → Scalar t → Wt M R G s G' → Wt M R G s' G'' → Wt M R G (.els c s s') G
  | fors {G a c b s G'} : (a = .nil ∨ ∃ t, HasTy G M a t) → (c = .nil ∨ ∃ t, HasTy G M c t ∧ Scalar t) → (b = .nil ∨ ∃ t, HasTy G M b t) →
      Wt M R G s G' → Wt M R G (.fors a c b s) G
  | whl {G c t s G'} : HasTy G M c t → Scalar t → Wt M R G s G' → Wt M R G (.whl c s) G
  | dos {G c t s G'} : Wt M R G s G' → HasTy G M c t → Scalar t → Wt M R G (.dos s c) G
  | brk {G} : Wt M R G .brk G
  | cnt {G} : Wt M R G .cnt G
  | ret0 {G} : R = (t!"void", 0) → Wt M R G (.ret .nil) G
  | ret {G e t} : HasTy G M e t → Gets R e t → Wt M R G (.ret e) G
  | decl {G w n x} : (w, n) ≠ (t!"void", 0) → Wt M R G (.decl [w] n x) (G.set x (.obj (w, n)))
  | nil {G} : Wt M R G .nil G
  | cons {G s G' is G''} : Wt M R G s G' → Wt M R G' is G'' → Wt M R G (.cons s is) G''

/-! ### Statements of the source that are well typed by the manual

As `SynV true` (Verif/CText/Tree.lean), rule by rule, with the type rules of the manual and without null behind a comma. -/

structure ExpT (p : Spot) (k : Nat) (x : Parse.SX) (t : Int × Nat) (e : Expr) : Prop where
  lev : x.At k
  ty : Parse.Ty manual p.tab p.lab x [t] e
  nul : NoNull x

inductive ForCondT : Spot → List Parse.Tok → Option Expr → Spot → Prop
  | none {p} : ForCondT p [] none p
  | exp {p x e} : ExpT p 13 x (TyBOOL, 0) e → ForCondT p x.toks (some e) (p.lit x)

inductive ForRiniT : Spot → List Parse.Tok → Option Expr → Spot → Prop
  | none {p} : ForRiniT p [] none p
  | exp {p x t e} : ExpT p 13 x t e → ForRiniT p x.toks (some e) (p.lit x)

inductive CondT : Spot → List Parse.Tok → Expr → Spot → Prop
  | mk {p x e} : ExpT p 13 x (TyBOOL, 0) e → CondT p (Parse.Lx.lpar :: (x.toks ++ [Parse.Lx.rpar])) e (p.lit x)

inductive DeclrT (ty : Int) (dim : Nat) : Spot → List Parse.Tok → VS → Spot → Prop
  | plain {p x} : Unused p.tab x → DeclrT ty dim p [.name x] (.var p.tab.length ty dim) (p.local x ty dim)
  | init {p x y t e} : Unused p.tab x → ExpT (p.local x ty dim) 12 y t e → Assignable t (ty, dim) →
      DeclrT ty dim p (.name x :: Parse.Lx.eq :: y.toks) (.seq false (.var p.tab.length ty dim) (.exp (.assV .loc p.tab.length e)))
        ((p.local x ty dim).lit y)

inductive DeclrsT (ty : Int) (dim : Nat) : Spot → List Parse.Tok → VS → Spot → Prop
  | one {p ts st p'} : DeclrT ty dim p ts st p' → DeclrsT ty dim p ts st p'
  | more {p ts st p1 us st' p2} : DeclrsT ty dim p ts st p1 → DeclrT ty dim p1 us st' p2 →
      DeclrsT ty dim p (ts ++ Parse.Lx.comma :: us) (.seq false st st') p2

inductive LocalDeclT : Spot → List Parse.Tok → VS → Spot → Prop
  | mk {p k ty dim ts st p'} : TypeTok p.tab k ty → ty ≠ TyINTR → ¬(ty = TyVOID ∧ dim = 0) → DeclrsT ty dim { p with dim := dim } ts st p' →
      LocalDeclT p (k :: (Parse.dimToks dim ++ ts)) st { p' with most := max p'.most p'.cnt }

inductive ForIniT : Spot → List Parse.Tok → Option VS → Spot → Prop
  | none {p} : ForIniT p [] none p
  | decl {p ts st p'} : LocalDeclT p ts st p' → ForIniT p ts (some st) p'
  | exp {p x t e} : ExpT p 13 x t e → NoType p.tab x.toks → ForIniT p x.toks (some (.exp e)) (p.lit x)

inductive SynT (F : Int × Nat) : NTV → Bool → Spot → List Parse.Tok → Option VS → Spot → Prop
  | null {l p} : SynT F (.stat false) l p [Parse.Lx.semi] none { p with last := some Parse.Lx.semi }
  | exp {l p x t e} : ExpT p 13 x t e →
      SynT F (.stat false) l p (x.toks ++ [Parse.Lx.semi]) (some (.exp e)) { p.lit x with last := x.toks.head? }
  | ret {l p} : ¬Valued F → SynT F (.stat false) l p [Parse.Lx.RETURN, Parse.Lx.semi] (some (.ret none))
      { p with last := some Parse.Lx.RETURN }
  | retV {l p x t e} : Valued F → ExpT p 13 x t e → Assignable t F →
      SynT F (.stat false) l p (Parse.Lx.RETURN :: (x.toks ++ [Parse.Lx.semi])) (some (.ret (some e)))
        { p.lit x with last := some Parse.Lx.RETURN }
  | brk {p} : SynT F (.stat false) true p [Parse.Lx.BREAK, Parse.Lx.semi] (some .brk) { p with last := some Parse.Lx.BREAK }
  | cnt {p} : SynT F (.stat false) true p [Parse.Lx.CONTINUE, Parse.Lx.semi] (some .cnt) { p with last := some Parse.Lx.CONTINUE }
  | ifs {l q p cs c p1 ts a p2} : CondT p cs c p1 → SynT F (.stat q) l p1 ts a p2 →
      SynT F (.stat true) l p (Parse.Lx.IF :: (cs ++ ts)) (some (.ifs c (stOfV a))) { p2 with last := some Parse.Lx.IF }
  | els {l q p cs c p1 ts a p2 us b p3} : CondT p cs c p1 → SynT F (.stat false) l p1 ts a p2 → SynT F (.stat q) l p2 us b p3 →
      SynT F (.stat q) l p (Parse.Lx.IF :: (cs ++ (ts ++ Parse.Lx.ELSE :: us))) (some (.els c (stOfV a) (stOfV b)))
        { p3 with last := some Parse.Lx.IF }
  | whl {l q p cs c p1 ts a p2} : CondT p cs c p1 → SynT F (.stat q) true p1 ts a p2 →
      SynT F (.stat q) l p (Parse.Lx.WHILE :: (cs ++ ts)) (some (.whl (some c) (stOfV a) none)) { p2 with last := some Parse.Lx.WHILE }
  | dos {l q p cs c p1 ts a p2} : SynT F (.stat q) true p ts a p1 → CondT p1 cs c p2 →
      SynT F (.stat false) l p (Parse.Lx.DO :: (ts ++ Parse.Lx.WHILE :: (cs ++ [Parse.Lx.semi]))) (some (.dos (stOfV a) c))
        { p2 with last := some Parse.Lx.DO }
  | for {l q p t1 i p1 t2 c p2 t3 r p3 ts a p4} : ForIniT p t1 i p1 → ForCondT p1 t2 c p2 → ForRiniT p2 t3 r p3 →
      SynT F (.stat q) true p3 ts a p4 →
      SynT F (.stat q) l p
        (Parse.Lx.FOR :: Parse.Lx.lpar :: (t1 ++ Parse.Lx.semi :: (t2 ++ Parse.Lx.semi :: (t3 ++ Parse.Lx.rpar :: ts))))
        (some (.seq true (stOfV i) (.whl c (stOfV a) r))) { p.leave p4 with last := some Parse.Lx.FOR }
  | block {l p ts a p'} : SynT F (.items none) l p ts a p' → a.all (fun v => !v.isVar) = true →
      SynT F (.stat false) l p (Parse.Lx.lbrc :: (ts ++ [Parse.Lx.rbrc])) (blockOfV a) { p.leave p' with last := some Parse.Lx.lbrc }
  | done {l a p} : SynT F (.items a) l p [] a p
  | decl {l a p ts d p1 us b p2} : LocalDeclT p ts d p1 → SynT F (.items (joinV a (some d))) l p1 us b p2 →
      SynT F (.items a) l p (ts ++ Parse.Lx.semi :: us) b p2
  | stat {l a q p ts d p1 us b p2} : SynT F (.stat q) l p ts d p1 → NoType p.tab ts → SynT F (.items (joinV a d)) l p1 us b p2 →
      SynT F (.items a) l p (ts ++ us) b p2

/-! ### They are statements of the grammar -/

theorem ty_actual {T : Tab} {m x ts e} (h : Parse.Ty manual T m x ts e) : Parse.Ty actual T m x ts e := by
  induction h with
  | int => exact .int
  | chr => exact .chr
  | log => exact .log
  | str => exact .str
  | nul => exact .nul
  | sizeof h1 h2 => exact .sizeof h1 h2
  | addrof h1 h2 => exact .addrof h1 h2
  | var h1 h2 => exact .var h1 h2
  | call0 h1 h2 h3 h4 => exact .call0 h1 h2 h3 h4
  | call h1 h2 h3 _ h4 ih => exact .call h1 h2 h3 ih h4
  | args _ _ i1 i2 => exact .args i1 i2
  | par _ ih => exact .par ih
  | conv h _ ih => exact .conv h ih
  | idx _ _ h i1 i2 => exact .idx i1 i2 h
  | fld _ h1 h2 h3 ih => exact .fld ih h1 trivial h3
  | pre h _ ih => exact .pre h ih
  | bin h1 h2 _ _ i1 i2 =>
    refine .bin h1 ?_ i1 i2
    cases h2 with
    | arith a b c => exact .arith a b c
    | order a b => exact .order a b
    | equal a => exact .equal (.inl a)
    | logic a => exact .logic a
  | ass _ h1 _ h2 h3 i1 i2 => exact .ass i1 h1 i2 h2 h3
  | com _ _ i1 i2 => exact .com i1 i2

variable {F : Int × Nat} {l : Bool} {p p' : Spot} {ts : List Parse.Tok}

theorem ExpT.at {k x t e} (h : ExpT p k x t e) : ExpAt p k x t e := ⟨h.lev, ty_actual h.ty⟩

theorem CondT.plain {c} (h : CondT p ts c p') : Parse.Cond p ts c p' := by
  cases h with | mk h => exact .mk h.at

theorem ForCondT.plain {c} (h : ForCondT p ts c p') : Parse.ForCond p ts c p' := by
  cases h with
  | none => exact .none
  | exp h => exact .exp h.at

theorem ForRiniT.plain {c} (h : ForRiniT p ts c p') : Parse.ForRini p ts c p' := by
  cases h with
  | none => exact .none
  | exp h => exact .exp h.at

theorem DeclrT.plainV {ty dim v} (h : DeclrT ty dim p ts v p') : DeclrV ty dim p ts v p' := by
  cases h with
  | plain h => exact .plain h
  | init h1 h2 h3 => exact .init h1 h2.at h3

theorem DeclrsT.plainV {ty dim v} (h : DeclrsT ty dim p ts v p') : DeclrsV ty dim p ts v p' := by
  induction h with
  | one h => exact .one h.plainV
  | more _ h ih => exact .more ih h.plainV

theorem LocalDeclT.plainV {v} (h : LocalDeclT p ts v p') : LocalDeclV p ts v p' := by
  cases h with
  | mk h1 h2 h3 h4 => exact .mk h1 h2 h3 h4.plainV

theorem ForIniT.plainV {v} (h : ForIniT p ts v p') : ForIniV p ts v p' := by
  cases h with
  | none => exact .none
  | decl h => exact .decl h.plainV
  | exp h1 h2 => exact .exp h1.at h2

theorem SynT.plainV {nt v} (h : SynT F nt l p ts v p') : SynV true F nt l p ts v p' := by
  induction h with
  | null => exact .null
  | exp h => exact .exp h.at
  | ret h => exact .ret h
  | retV h1 h2 h3 => exact .retV h1 h2.at h3
  | brk => exact .brk
  | cnt => exact .cnt
  | ifs h1 _ ih => exact .ifs h1.plain ih
  | els h1 _ _ ih1 ih2 => exact .els h1.plain ih1 ih2
  | whl h1 _ ih => exact .whl h1.plain ih
  | dos _ h1 ih => exact .dos ih h1.plain
  | «for» h1 h2 h3 _ ih => exact .for h1.plainV h2.plain h3.plain ih
  | block _ h ih => exact .block ih fun _ => h
  | done => exact .done
  | decl h1 _ ih => exact .decl h1.plainV ih
  | stat _ h1 _ ih1 ih2 => exact .stat ih1 h1 ih2

end Cmm.CText
