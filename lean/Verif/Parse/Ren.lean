import Verif.Parse.Ready

/-! The code generator does the same with the indices of names as with those of the parser. -/
namespace Cmm.Gen
open Cmm.Tree Cmm.Parse

/-- Instructions with other indices of global names (vm2tac.c prints the names of entries). -/
def renI (g : Int → Int) : Instr → Instr
  | .ldG n => .ldG (g n)
  | .ldNam n => .ldNam (g n)
  | .stG n => .stG (g n)
  | .callF k f => .callF k (g f)
  | .callP k f => .callP k (g f)
  | .nam f => .nam (g f)
  | i => i

def renP (g : Int → Int) : Place → Place
  | .gvar n => .gvar (g n)
  | .labl n => .labl (g n)
  | p => p

/-- The number of arguments in a list of arguments. -/
def argc : Expr → Nat
  | .bin .semi l _ => argc l + 1
  | _ => 1

/-- All functions called in an expression, and the numbers of arguments. -/
def callsAll (P : Int → Nat → Prop) : Expr → Prop
  | .cnst _ | .leaf _ _ => True
  | .func0 f => P f 0
  | .func f a => P f (argc a) ∧ callsAll P a
  | .un _ e => callsAll P e
  | .bin _ l r => callsAll P l ∧ callsAll P r
  | .assV _ _ r => callsAll P r
  | .assM _ a i r => callsAll P a ∧ callsAll P i ∧ callsAll P r

def callsO (P : Int → Nat → Prop) (e : Option Expr) : Prop := ∀ x, e = some x → callsAll P x

def callsS (P : Int → Nat → Prop) : Stmt → Prop
  | .empty | .brk | .cnt => True
  | .exp e => callsAll P e
  | .ifs c a => callsAll P c ∧ callsS P a
  | .els c a b => callsAll P c ∧ callsS P a ∧ callsS P b
  | .whl c a re => callsO P c ∧ callsS P a ∧ callsO P re
  | .dos a c => callsS P a ∧ callsAll P c
  | .ret e => callsO P e
  | .seq _ x y => callsS P x ∧ callsS P y

variable {nt nt' : NT} {g : Int → Int}

def renB (g : Int → Int) (b : BRes) : BRes := (b.1.map (renI g), renP g b.2.1, b.2.2)

/-- The results of one generator are those of the other with the indices changed. -/
structure RenG (g : Int → Int) (a b : G) : Prop where
  bool : ∀ n, b.bool n = renB g (a.bool n)
  args : ∀ n, b.args n = ((a.args n).1.map (renI g), (a.args n).2)
  log : ∀ k A B n, b.log k A B n = ((a.log k A B n).1.map (renI g), (a.log k A B n).2)

@[simp] theorem ren_load (p : Place) : load (renP g p) = (load p).map (renI g) := by cases p <;> rfl
@[simp] theorem ren_store (p : Place) : store (renP g p) = (store p).map (renI g) := by cases p <;> rfl
@[simp] theorem ren_popP (p : Place) : popP (renP g p) = (popP p).map (renI g) := by cases p <;> rfl
@[simp] theorem ren_printLab (l : Option Nat) : (printLab l).map (renI g) = printLab l := by cases l <;> rfl

theorem ren_genE {b b' : Nat → BRes} (h : ∀ n, b' n = renB g (b n)) (n : Nat) :
    genE b' n = ((genE b n).1.map (renI g), (genE b n).2) := by
  simp [genE, h, renB]

@[simp] theorem ren_boolJmp (tf : Bool) (l : Lab) (n : Nat) :
    (boolJmp tf l n).1.map (renI g) = (boolJmp tf l n).1 := by
  cases tf <;> simp only [boolJmp] <;> split <;> rfl

theorem ren_logOp (e : Expr) : logOp (ren g e) = logOp e := by
  cases e with
  | bin op l r => cases op <;> rfl
  | _ => rfl

theorem ren_evalDepth (e : Expr) : evalDepth (ren g e) = evalDepth e := by
  induction e with
  | bin op l r hl hr => cases op <;> simp [ren, evalDepth, hl, hr, isCommutativeOp]
  | _ => simp_all [ren, evalDepth]

theorem ren_leaf (k : Kind) (v : Int) (n : Nat) :
    leafPlace k (renK g k v) ([], .inval, n) = renB g (leafPlace k v ([], .inval, n)) := by
  cases k <;> rfl

theorem ren_call (f : Int) (k : Nat) (h : nt'.void (g f) = nt.void f) :
    callCode nt' (g f) k = ((callCode nt f k).1.map (renI g), renP g (callCode nt f k).2) := by
  unfold callCode; rw [h]; split <;> rfl

theorem ren_two {bl br bl' br' : Nat → BRes} (hl : ∀ n, bl' n = renB g (bl n)) (hr : ∀ n, br' n = renB g (br n))
    {i : Code} {p : Place} (hi : i.map (renI g) = i) (hp : renP g p = p) (n : Nat) :
    genTwo bl' br' i p n = renB g (genTwo bl br i p n) := by
  simp [genTwo, ren_genE hl, ren_genE hr, renB, hi, hp]

theorem ren_logE {op : Bin} {gl gr gl' gr' : G} (hl : RenG g gl gl') (hr : RenG g gr gr') (lo ro : Option Bin)
    (k : Nat) (A B : Lab) (n : Nat) : genLogExpr op lo ro gl' gr' k A B n =
      ((genLogExpr op lo ro gl gr k A B n).1.map (renI g), (genLogExpr op lo ro gl gr k A B n).2) := by
  have h1 : ∀ A n, genLogL op lo gl' k A n = ((genLogL op lo gl k A n).1.map (renI g), (genLogL op lo gl k A n).2) := by
    intro A n; cases lo with
    | none => simp [genLogL, ren_genE hl.bool]
    | some lop => simp only [genLogL, hl.log]; split <;> simp
  have h2 : ∀ A B n, genLogR op ro gr' k A B n =
      ((genLogR op ro gr k A B n).1.map (renI g), (genLogR op ro gr k A B n).2) := by
    intro A B n; cases ro with
    | none => simp only [genLogR, ren_genE hr.bool]; repeat' split
              all_goals simp
    | some rop => simp only [genLogR, hr.log]; split <;> simp
  simp [genLogExpr, h1, h2]

theorem ren_macro (x : Int) (l1 l2 : Option Nat) (l3 : Nat) :
    (boolMacro x l1 l2 l3).map (renI g) = boolMacro x l1 l2 l3 := by
  cases l1 <;> cases l2 <;> simp [boolMacro, renI]

theorem ren_bin (hc : nt'.cnt = nt.cnt) {op : Bin} {l r : Expr} {gl gr gl' gr' : G} (hl : RenG g gl gl')
    (hr : RenG g gr gr') (n : Nat) :
    genBin nt' op (ren g l) (ren g r) gl' gr' n = renB g (genBin nt op l r gl gr n) := by
  cases op <;> simp only [genBin, ren_evalDepth, ren_logOp]
  case comm => simp [genCommExpr, hl.bool, hr.bool, renB]
  case dot => cases r <;> simp [genDotExpr, ren, ren_genE hl.bool, renB, renI, renP, hc]
  case or => simp [genLOpExpr, ren_logE hl hr, renB, renP, ren_macro]
  case and => simp [genLOpExpr, ren_logE hl hr, renB, renP, ren_macro]
  case semi => rfl
  all_goals first
    | exact ren_two hl.bool hr.bool rfl rfl n
    | (simp only [gen2OpExpr]; split
       · exact ren_two hr.bool hl.bool rfl rfl n
       · exact ren_two hl.bool hr.bool rfl rfl n)
    | (simp only [genCmpExpr]; split
       · exact ren_two hr.bool hl.bool rfl rfl n
       · exact ren_two hl.bool hr.bool rfl rfl n)

theorem ren_argOne {b b' : Nat → BRes} (h : ∀ n, b' n = renB g (b n)) (n : Nat) :
    argOne b' n = ((argOne b n).1.map (renI g), (argOne b n).2) := by
  simp [argOne, ren_genE h, renI]

theorem ren_plain {b b' : Nat → BRes} (h : ∀ n, b' n = renB g (b n)) : RenG g (G.plain b) (G.plain b') :=
  ⟨h, ren_argOne h, fun _ _ _ _ => rfl⟩

/-- The code of an expression with other indices is the code with other indices. -/
theorem ren_gen (hc : nt'.cnt = nt.cnt) (e : Expr) (h : callsAll (fun f _ => nt'.void (g f) = nt.void f) e) :
    RenG g (gen nt e) (gen nt' (ren g e)) := by
  induction e with
  | cnst v => exact ren_plain fun n => rfl
  | leaf k v => exact ren_plain fun n => ren_leaf k v n
  | func0 f => exact ren_plain fun n => by rw [ren_call f 0 h]; rfl
  | func f a ih =>
    refine ren_plain fun n => ?_
    simp [(ih h.2).args, ren_call f _ h.1, renB]
  | un op e ih =>
    refine ren_plain fun n => ?_
    cases op <;> simp [ren_genE (ih h).bool, renB, renP, renI, unInstr]
  | bin op l r hl hr =>
    have hb := ren_bin hc (op := op) (l := l) (r := r) (hl h.1) (hr h.2)
    refine ⟨hb, ?_, ?_⟩
    · intro n
      cases op
      case semi => simp [ren, gen, argMore, ren_genE (hr h.2).bool, (hl h.1).args, renI]
      all_goals exact ren_argOne hb n
    · intro k A B n
      cases op
      case or => simp only [ren, gen, ren_logOp]; exact ren_logE (hl h.1) (hr h.2) _ _ k A B n
      case and => simp only [ren, gen, ren_logOp]; exact ren_logE (hl h.1) (hr h.2) _ _ k A B n
      all_goals rfl
  | assV k v r ih =>
    refine ren_plain fun n => ?_
    simp [genAsExpr, ren_genE (ih h).bool, ren_leaf, renB]
    rfl
  | assM op a i r ha hi hr =>
    refine ren_plain fun n => ?_
    simp [genAsExpr, ren_genE (hr h.2.2).bool, ren_bin hc (op := op) (ha h.1) (hi h.2.1), renB]
    rfl

theorem ren_cnd (hc : nt'.cnt = nt.cnt) (e : Expr) (h : callsAll (fun f _ => nt'.void (g f) = nt.void f) e) (tf : Bool)
    (J : Lab) (n : Nat) :
    genCnd nt' (ren g e) tf J n = ((genCnd nt e tf J n).1.map (renI g), (genCnd nt e tf J n).2) := by
  have hg := ren_gen hc e h
  simp only [genCnd, ren_logOp]
  cases logOp e with
  | none => simp [ren_genE hg.bool]
  | some op => simp only [hg.log]; split <;> simp

theorem ren_genX (hc : nt'.cnt = nt.cnt) (e : Expr) (h : callsAll (fun f _ => nt'.void (g f) = nt.void f) e) (n : Nat) :
    genX nt' (ren g e) n = ((genX nt e n).1.map (renI g), (genX nt e n).2) := by
  simp [genX, (ren_gen hc e h).bool, renB]

theorem ren_jmpBlock (s : Stmt) : jmpBlock (renS g s) = jmpBlock s := by
  induction s with
  | seq b x y _ ih => cases b <;> simp [renS, jmpBlock, ih]
  | _ => rfl

/-- The code of a statement with other indices is the code with other indices. -/
theorem ren_genS (hc : nt'.cnt = nt.cnt) (s : Stmt) : ∀ (p : Pos) (st : St),
    callsS (fun f _ => nt'.void (g f) = nt.void f) s →
    genS nt' p (renS g s) st = ((genS nt p s st).1.map (renI g), (genS nt p s st).2) := by
  induction s with
  | empty => intros; rfl
  | brk => intro p st _; simp only [renS, genS]; split <;> rfl
  | cnt => intro p st _; simp only [renS, genS]; split <;> rfl
  | exp e => intro p st h; simp [renS, genS, ren_genX hc e h]
  | ifs c a ih => intro p st h; simp [renS, genS, ren_cnd hc c h.1, ih _ _ h.2]
  | els c a b iha ihb =>
    intro p st h
    simp only [renS, genS, ren_cnd hc c h.1, iha _ _ h.2.1, ihb _ _ h.2.2, ren_jmpBlock]
    split <;> simp [renI]
  | whl c a re ih =>
    intro p st h
    have h1 : ∀ n, genWhlCnd nt' (c.map (ren g)) n = ((genWhlCnd nt c n).1.map (renI g), (genWhlCnd nt c n).2) := by
      intro n; cases c with
      | none => rfl
      | some c => simp [genWhlCnd, ren_cnd hc c (h.1 c rfl)]
    have h2 : ∀ jb k l n, genWhlEnd nt' (re.map (ren g)) jb k l n =
        ((genWhlEnd nt re jb k l n).1.map (renI g), (genWhlEnd nt re jb k l n).2) := by
      intro jb k l n; cases re with
      | none => simp only [genWhlEnd, Option.map_none]; split <;> rfl
      | some e => simp only [genWhlEnd, Option.map_some, ren_genX hc e (h.2.2 e rfl)]; split <;> simp [renI]
    simp [renS, genS, h1, h2, ih _ _ h.2.1, ren_jmpBlock, renI]
  | dos a c ih => intro p st h; simp [renS, genS, ren_cnd hc c h.2, ih _ _ h.1, renI]
  | ret e =>
    intro p st h
    have h1 : ∀ n, genRetV nt' (e.map (ren g)) n = ((genRetV nt e n).1.map (renI g), (genRetV nt e n).2) := by
      intro n; cases e with
      | none => rfl
      | some e => simp [genRetV, ren_genE (ren_gen hc e (h e rfl)).bool, renI]
    simp only [renS, genS, genRet, h1]
    split
    · split <;> simp [renI]
    · rfl
  | seq b x y ihx ihy => intro p st h; simp [renS, genS, ihx _ _ h.1, ihy _ _ h.2]

/-- The code of a function with other indices is the code with other indices. -/
theorem ren_genFunc (hc : nt'.cnt = nt.cnt) (s : Stmt) (h : callsS (fun f _ => nt'.void (g f) = nt.void f) s) (f : Int)
    (intr krn : Bool) (d : Int) (n : Nat) : genFunc nt' (g f) intr krn d (renS g s) n =
      ((genFunc nt f intr krn d s n).1.map (renI g), (genFunc nt f intr krn d s n).2) := by
  cases intr <;> cases krn <;> simp [genFunc, ren_genS hc s _ _ h, renI]

end Cmm.Gen
