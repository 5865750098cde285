import Verif.Parse.InitSyn
import Verif.Props.C35

/-
Statements and local declarations, for Verif/Props/C72.lean: a grammar with the trees it stands for. Nothing in the grammar refers
to the functions of the parser; the shape of trees, tables and the grammar of expressions (Grammar.lean) are shared.
-/
namespace Cmm.Parse
open Cmm.Tree

/-- Where the text is: the names, the number of labels so far, the slots in use, the most slots in use so far, the first token of the
statement before, and the dimensions of the type written last (which the parser keeps in the entry of a structure, where it means
nothing). -/
structure Spot where
  tab : Tab
  lab : Nat
  cnt : Nat
  most : Nat
  last : Option Tok
  dim : Nat

/-- The expression `x` of level `k` has type `t` and tree `e`. -/
structure ExpAt (p : Spot) (k : Nat) (x : SX) (t : Int × Nat) (e : Expr) : Prop where
  lev : x.At k
  ty : Ty actual p.tab p.lab x [t] e

/-- Behind the expression `x`. -/
def Spot.lit (p : Spot) (x : SX) : Spot := { p with lab := p.lab + x.strs }

/-- A local variable may be called `x`: no visible local variable, parameter or type is. -/
def Unused (T : Tab) (x : String) : Prop :=
  T.length < 500 ∧ ∀ d ∈ T, d.name = x → d.scope ≠ ScLVAR ∧ d.scope ≠ ScPRM ∧ d.scope ≠ ScSTRC

/-- Behind the declaration of `x`. -/
def Spot.local (p : Spot) (x : String) (ty : Int) (dim : Nat) : Spot :=
  { p with tab := p.tab ++ [⟨x, ScLVAR, ty, dim, p.cnt + 1, false⟩], cnt := p.cnt + 1 }

/-- Behind the end of the scope that began at `p0`: its names are gone, its slots are free. -/
def Spot.leave (p0 p : Spot) : Spot :=
  { p with tab := p.tab.take p0.tab.length ++ (p.tab.drop p0.tab.length).map (fun e => { e with scope := ScVOID }), cnt := p0.cnt }

/-- One variable of a declaration. -/
inductive Declr (ty : Int) (dim : Nat) : Spot → List Tok → Stmt → Spot → Prop
  | plain {p x} : Unused p.tab x → Declr ty dim p [.name x] .empty (p.local x ty dim)
  | init {p x y t e} : Unused p.tab x → ExpAt (p.local x ty dim) 12 y t e → Assignable t (ty, dim) →
      Declr ty dim p (.name x :: Lx.eq :: y.toks) (.seq false .empty (.exp (.assV .loc p.tab.length e))) ((p.local x ty dim).lit y)

/-- Variables separated by commas. -/
inductive Declrs (ty : Int) (dim : Nat) : Spot → List Tok → Stmt → Spot → Prop
  | one {p ts st p'} : Declr ty dim p ts st p' → Declrs ty dim p ts st p'
  | more {p ts st p1 us st' p2} : Declrs ty dim p ts st p1 → Declr ty dim p1 us st' p2 →
      Declrs ty dim p (ts ++ Lx.comma :: us) (.seq false st st') p2

/-- A declaration of local variables, without its `;`. -/
inductive LocalDecl : Spot → List Tok → Stmt → Spot → Prop
  | mk {p k ty dim ts st p'} : TypeTok p.tab k ty → ty ≠ TyINTR → ¬(ty = TyVOID ∧ dim = 0) → Declrs ty dim { p with dim := dim } ts st p' →
      LocalDecl p (k :: (dimToks dim ++ ts)) st { p' with most := max p'.most p'.cnt }

/-- The tokens do not begin with a type. -/
def NoType (T : Tab) (ts : List Tok) : Prop := ∀ k ty, ts.head? = some k → ¬TypeTok T k ty

/-- The first part of a for statement. -/
inductive ForIni : Spot → List Tok → Option Stmt → Spot → Prop
  | none {p} : ForIni p [] none p
  | decl {p ts st p'} : LocalDecl p ts st p' → ForIni p ts (some st) p'
  | exp {p x t e} : ExpAt p 13 x t e → NoType p.tab x.toks → ForIni p x.toks (some (.exp e)) (p.lit x)

/-- The second part of a for statement. -/
inductive ForCond : Spot → List Tok → Option Expr → Spot → Prop
  | none {p} : ForCond p [] none p
  | exp {p x e} : ExpAt p 13 x (TyBOOL, 0) e → ForCond p x.toks (some e) (p.lit x)

/-- The third part of a for statement. -/
inductive ForRini : Spot → List Tok → Option Expr → Spot → Prop
  | none {p} : ForRini p [] none p
  | exp {p x t e} : ExpAt p 13 x t e → ForRini p x.toks (some e) (p.lit x)

/-- A condition in parentheses. -/
inductive Cond : Spot → List Tok → Expr → Spot → Prop
  | mk {p x e} : ExpAt p 13 x (TyBOOL, 0) e → Cond p (Lx.lpar :: (x.toks ++ [Lx.rpar])) e (p.lit x)

/-- No statement is the empty statement. -/
def stOf : Option Stmt → Stmt
  | some s => s
  | none => .empty

/-- One statement behind the others. -/
def join : Option Stmt → Option Stmt → Option Stmt
  | none, b => b
  | some a, none => some a
  | some a, some b => some (.seq false a b)

/-- The tree of a block; two or more statements are marked. -/
def blockOf : Option Stmt → Option Stmt
  | some (.seq false a b) => some (.seq true a b)
  | x => x

/-- What is read: a statement (`open`: it ends with an `if` that has no `else`), or the statements of a block behind `a`. -/
inductive NT
  | stat (opn : Bool) | items (a : Option Stmt)

/-- A function of this type returns a value. -/
def Valued (F : Int × Nat) : Prop := F.1 ≠ TyINTR ∧ F ≠ (TyVOID, 0)

/-- Statements of a function of type `F`. The flag tells whether they are in a loop. -/
inductive Syn (F : Int × Nat) : NT → Bool → Spot → List Tok → Option Stmt → Spot → Prop
  | null {l p} : Syn F (.stat false) l p [Lx.semi] none { p with last := some Lx.semi }
  | exp {l p x t e} : ExpAt p 13 x t e →
      Syn F (.stat false) l p (x.toks ++ [Lx.semi]) (some (.exp e)) { p.lit x with last := x.toks.head? }
  | ret {l p} : ¬Valued F → Syn F (.stat false) l p [Lx.RETURN, Lx.semi] (some (.ret none)) { p with last := some Lx.RETURN }
  | retV {l p x t e} : Valued F → ExpAt p 13 x t e → Assignable t F →
      Syn F (.stat false) l p (Lx.RETURN :: (x.toks ++ [Lx.semi])) (some (.ret (some e))) { p.lit x with last := some Lx.RETURN }
  | brk {p} : Syn F (.stat false) true p [Lx.BREAK, Lx.semi] (some .brk) { p with last := some Lx.BREAK }
  | cnt {p} : Syn F (.stat false) true p [Lx.CONTINUE, Lx.semi] (some .cnt) { p with last := some Lx.CONTINUE }
  | ifs {l q p cs c p1 ts a p2} : Cond p cs c p1 → Syn F (.stat q) l p1 ts a p2 →
      Syn F (.stat true) l p (Lx.IF :: (cs ++ ts)) (some (.ifs c (stOf a))) { p2 with last := some Lx.IF }
  | els {l q p cs c p1 ts a p2 us b p3} : Cond p cs c p1 → Syn F (.stat false) l p1 ts a p2 → Syn F (.stat q) l p2 us b p3 →
      Syn F (.stat q) l p (Lx.IF :: (cs ++ (ts ++ Lx.ELSE :: us))) (some (.els c (stOf a) (stOf b))) { p3 with last := some Lx.IF }
  | whl {l q p cs c p1 ts a p2} : Cond p cs c p1 → Syn F (.stat q) true p1 ts a p2 →
      Syn F (.stat q) l p (Lx.WHILE :: (cs ++ ts)) (some (.whl (some c) (stOf a) none)) { p2 with last := some Lx.WHILE }
  | dos {l q p cs c p1 ts a p2} : Syn F (.stat q) true p ts a p1 → Cond p1 cs c p2 →
      Syn F (.stat false) l p (Lx.DO :: (ts ++ Lx.WHILE :: (cs ++ [Lx.semi]))) (some (.dos (stOf a) c)) { p2 with last := some Lx.DO }
  | for {l q p t1 i p1 t2 c p2 t3 r p3 ts a p4} : ForIni p t1 i p1 → ForCond p1 t2 c p2 → ForRini p2 t3 r p3 →
      Syn F (.stat q) true p3 ts a p4 →
      Syn F (.stat q) l p (Lx.FOR :: Lx.lpar :: (t1 ++ Lx.semi :: (t2 ++ Lx.semi :: (t3 ++ Lx.rpar :: ts))))
        (some (.seq true (stOf i) (.whl c (stOf a) r))) { p.leave p4 with last := some Lx.FOR }
  | block {l p ts a p'} : Syn F (.items none) l p ts a p' →
      Syn F (.stat false) l p (Lx.lbrc :: (ts ++ [Lx.rbrc])) (blockOf a) { p.leave p' with last := some Lx.lbrc }
  | done {l a p} : Syn F (.items a) l p [] a p
  | decl {l a p ts d p1 us b p2} : LocalDecl p ts d p1 → Syn F (.items (join a (some d))) l p1 us b p2 →
      Syn F (.items a) l p (ts ++ Lx.semi :: us) b p2
  | stat {l a q p ts d p1 us b p2} : Syn F (.stat q) l p ts d p1 → NoType p.tab ts → Syn F (.items (join a d)) l p1 us b p2 →
      Syn F (.items a) l p (ts ++ us) b p2

/-- The point at which the parser is. -/
def PS.spot (s : PS) : Spot := ⟨s.tab, s.lab, s.curCnt, s.maxCnt, s.lastStat, s.curDim⟩

/-- The tokens `ts` have been read. -/
structure Moved (s s' : PS) (ts : List Tok) : Prop where
  toks : s.toks = ts ++ s'.toks
  depth : s'.depth = s.depth
  out : s'.out = s.out

theorem Moved.trans {s s1 s2 : PS} {ts us : List Tok} (h : Moved s s1 ts) (h' : Moved s1 s2 us) : Moved s s2 (ts ++ us) :=
  ⟨by rw [h.toks, h'.toks, List.append_assoc], h'.depth.trans h.depth, h'.out.trans h.out⟩

theorem Moved.cons {s s1 s2 : PS} {t : Tok} {us : List Tok} (h : Moved s s1 [t]) (h' : Moved s1 s2 us) : Moved s s2 (t :: us) :=
  h.trans h'

/-! ### What is read is in the grammar -/

variable {s s' : PS}

theorem lev_spot {k : Nat} {w : W} (h : lev k s = some (w, s')) (hk : k ≤ 13) :
    ∃ x, ExpAt s.spot k x (w.type, w.dim) w.tree ∧ Moved s s' x.toks ∧ s'.spot = s.spot.lit x ∧ s'.curDim = s.curDim := by
  obtain ⟨x, hx⟩ := lev_sound h hk
  refine ⟨x, ⟨hx.lev, hx.ty⟩, ⟨hx.toks, ?_, ?_⟩, ?_, ?_⟩ <;> rw [hx.st] <;> rfl

theorem chkTok_spot {t : Tok} (h : chkTok t s = some s') : Moved s s' [t] ∧ s'.spot = s.spot ∧ s'.curDim = s.curDim := by
  obtain ⟨h1, h2⟩ := chkTok_eq h
  refine ⟨⟨h1, ?_, ?_⟩, ?_, ?_⟩ <;> rw [h2] <;> rfl

theorem next_spot {t : Tok} {r : List Tok} (h : s.toks = t :: r) : Moved s s.next [t] ∧ s.next.spot = s.spot :=
  ⟨⟨by simp [PS.next, h], rfl, rfl⟩, rfl⟩

theorem collides_lvar {x : String} {d : Ent} : collides x ScLVAR d = false ↔ (d.name = x → d.scope ≠ ScLVAR ∧ d.scope ≠ ScPRM ∧ d.scope ≠ ScSTRC) := by
  rw [Bool.eq_false_iff]
  simp only [collides, ne_eq, Bool.and_eq_true, Bool.or_eq_true, bne_iff_ne, beq_iff_eq, decide_eq_true_eq, ScVOID, ScSTRC, ScLVAR, ScPRM]
  constructor
  · intro h hn
    refine ⟨fun h' => h ?_, fun h' => h ?_, fun h' => h ?_⟩ <;> simp [hn, h']
  · intro h ⟨⟨h1, h2⟩, h3⟩
    have := h h2
    omega

theorem chkName_none_iff {t : Tab} {x : String} {c : Int} : chkName t x c = none ↔ ∀ d ∈ t, collides x c d = false := by
  refine ⟨chkName_none, fun h => ?_⟩
  cases hc : chkName t x c with
  | none => rfl
  | some n =>
    unfold chkName at hc
    obtain ⟨-, -, ⟨e, he, h1⟩, -⟩ := firstIdx_iff.1 hc
    rw [h e (List.mem_of_getElem? he)] at h1
    cases h1

theorem defName_iff {t t' : Tab} {e : Ent} (he : e.scope = ScLVAR) : defName t e = some t' ↔ Unused t e.name ∧ t' = t ++ [e] := by
  unfold defName Unused
  constructor
  · intro h
    obtain ⟨h1, h2, h3⟩ := defName_some h
    rw [he, chkName_none_iff] at h3
    exact ⟨⟨h2, fun d hd => collides_lvar.1 (h3 d hd)⟩, h1⟩
  · rintro ⟨⟨h1, h2⟩, rfl⟩
    have h3 : chkName t e.name e.scope = none := by
      rw [he, chkName_none_iff]
      exact fun d hd => collides_lvar.2 (h2 d hd)
    rw [if_neg (by unfold NtMAX; omega), h3]
    rfl

theorem getName_spot {o : Opts} {ty : Int} (h : getName o ScLVAR ty false { s with curCnt := s.curCnt + 1 } = some s') :
    ∃ x, Unused s.tab x ∧ Moved s s' [.name x] ∧ s'.spot = s.spot.local x ty s.curDim ∧ s'.curDim = s.curDim ∧ ty ≠ TyINTR ∧
      ¬(ty = TyVOID ∧ s.curDim = 0) := by
  unfold getName at h
  split at h
  · next x r hs =>
    split at h
    · cases h
    · next h1 =>
      split at h
      · cases h
      · next h2 =>
        split at h
        · cases h
        · simp only [Option.map_eq_some_iff] at h
          obtain ⟨t, h3, h⟩ := h
          cases h
          obtain ⟨h4, h5⟩ := (defName_iff rfl).1 h3
          refine ⟨x, h4, ⟨hs, rfl, rfl⟩, ?_, rfl, fun hi => h2 ⟨by decide, hi⟩, fun hi => h1 ⟨by decide, hi⟩⟩
          simp only [PS.spot, Spot.local]
          rw [h5]
  · cases h

theorem getLVar_spot {o : Opts} {ty : Int} {d : Stmt} (h : getLVar o ty s = some (d, s')) :
    ∃ ts, Declr ty s.curDim s.spot ts d s'.spot ∧ Moved s s' ts ∧ s'.curDim = s.curDim ∧ ty ≠ TyINTR ∧ ¬(ty = TyVOID ∧ s.curDim = 0) := by
  simp only [getLVar, Option.bind_eq_bind, Option.bind_eq_some_iff] at h
  obtain ⟨s1, h1, h⟩ := h
  obtain ⟨x, k1, k2, k3, k4, k5⟩ := getName_spot h1
  have hm : s1.mark.spot = s.spot.local x ty s.curDim := k3
  split at h
  · next r hs =>
    simp only [Option.bind_eq_bind, Option.bind_eq_some_iff] at h
    obtain ⟨⟨w, s2⟩, h2, w', h3, h⟩ := h
    cases h
    obtain ⟨n1, n2⟩ := next_spot hs
    obtain ⟨y, g1, g2, g3, g4⟩ := lev_spot h2 (by decide)
    rw [n2, hm] at g1 g3
    have hd : s2.curDim = s.curDim := g4.trans k4
    have ha := chkCmpat_iff.1 (by rw [h3]; rfl)
    rw [hd] at ha
    refine ⟨.name x :: Lx.eq :: y.toks, ?_, (k2.trans ⟨n1.toks, n1.depth, n1.out⟩).trans g2, hd, k5⟩
    rw [g3, chkCmpat_tree h3]
    exact .init k1 g1 ha
  · cases h
    exact ⟨_, by rw [hm]; exact .plain k1, ⟨k2.toks, k2.depth, k2.out⟩, k4, k5⟩

theorem lvarLoop_spot {o : Opts} {ty : Int} {sta : Stmt} {r : Stmt × PS} (h : lvarLoop o ty sta s = some r) :
    ∀ s0 ts, Declrs ty s0.curDim s0.spot ts sta s.spot → Moved s0 s ts → s.curDim = s0.curDim →
      ∃ us, Declrs ty s0.curDim s0.spot us r.1 r.2.spot ∧ Moved s0 r.2 us := by
  refine lvarLoop.partial_correctness o ty (fun sta s r => ∀ s0 ts, Declrs ty s0.curDim s0.spot ts sta s.spot → Moved s0 s ts →
    s.curDim = s0.curDim → ∃ us, Declrs ty s0.curDim s0.spot us r.1 r.2.spot ∧ Moved s0 r.2 us) ?_ sta s r h
  intro f ih sta s r h s0 ts hd hm hc
  split at h
  · next r' hs =>
    simp only [Option.bind_eq_bind, Option.bind_eq_some_iff] at h
    obtain ⟨⟨d, s1⟩, h1, h⟩ := h
    obtain ⟨n1, n2⟩ := next_spot hs
    obtain ⟨us, k1, k2, k3, -⟩ := getLVar_spot h1
    rw [n2, show s.next.curDim = s0.curDim from hc] at k1
    exact ih _ _ _ h s0 _ (.more hd k1) (hm.trans (n1.cons k2)) (k3.trans hc)
  · cases h
    exact ⟨ts, hd, hm⟩

theorem getLVars_spot {o : Opts} {d : Stmt} (h : getLVars o s = some (d, s')) :
    ∃ ts, LocalDecl s.spot ts d s'.spot ∧ Moved s s' ts := by
  simp only [getLVars, getTy, Option.bind_eq_bind, Option.bind_eq_some_iff, Option.map_eq_some_iff] at h
  obtain ⟨⟨ty, s1⟩, ⟨⟨ty', dim, s1'⟩, h1, e1⟩, ⟨d1, s2⟩, h2, ⟨d2, s3⟩, h3, h⟩ := h
  cases e1
  cases h
  obtain ⟨k, g1, g2, g3⟩ := getType_some h1
  obtain ⟨ts, k1, k2, k3, k4, k5⟩ := getLVar_spot h2
  obtain ⟨us, m1, m2⟩ := lvarLoop_spot h3 _ _ (.one k1) k2 k3
  have hsp : PS.spot { s1' with curDim := dim } = { s.spot with dim := dim } := by rw [g3]; rfl
  rw [hsp] at m1
  refine ⟨k :: (dimToks dim ++ us), .mk g2 k4 k5 m1, ?_⟩
  refine ⟨?_, ?_, ?_⟩
  · rw [g1, show s1'.toks = us ++ s3.toks from m2.toks]; simp
  · exact m2.depth.trans (by rw [g3])
  · exact m2.out.trans (by rw [g3])

theorem getCond_spot {c : Expr} (h : getCond s = some (c, s')) : ∃ ts, Cond s.spot ts c s'.spot ∧ Moved s s' ts := by
  simp only [getCond, Option.bind_eq_bind, Option.bind_eq_some_iff] at h
  obtain ⟨s1, h1, ⟨w, s2⟩, h2, w', h3, s3, h4, h⟩ := h
  cases h
  obtain ⟨k1, k2, -⟩ := chkTok_spot h1
  obtain ⟨x, g1, g2, g3, -⟩ := lev_spot h2 (by decide)
  obtain ⟨m1, m2, -⟩ := chkTok_spot h4
  obtain ⟨e1, rfl⟩ := chkType_bool h3
  rw [e1, k2] at g1
  rw [m2, g3, k2]
  exact ⟨_, .mk g1, k1.cons (g2.trans m1)⟩

theorem isType_iff {T : Tab} {t : Tok} : typeOf T t ≠ TyNON ↔ ∃ ty, TypeTok T t ty :=
  ⟨fun h => ⟨_, (typeOf_iff h).1 rfl⟩, fun ⟨_, h⟩ => by rw [(typeOf_iff h.ne_non).2 h]; exact h.ne_non⟩

theorem noType_of (h : ¬isType s = true) {ts : List Tok} {r : List Tok} (hs : s.toks = ts ++ r) : NoType s.spot.tab ts := by
  intro k ty hk ht
  cases ts with
  | nil => cases hk
  | cons a ts =>
    cases hk
    refine h ?_
    unfold isType
    rw [hs]
    simpa [PS.spot] using isType_iff.2 ⟨ty, ht⟩

theorem getIni_spot {o : Opts} {i : Option Stmt} (h : getIni o s = some (i, s')) :
    ∃ ts, ForIni s.spot ts i s'.spot ∧ Moved s s' (ts ++ [Lx.semi]) := by
  simp only [getIni, Option.bind_eq_bind, Option.bind_eq_some_iff] at h
  obtain ⟨⟨i', s1⟩, h1, s2, h2, h⟩ := h
  cases h
  obtain ⟨m1, m2, -⟩ := chkTok_spot h2
  rw [m2]
  unfold getIni0 at h1
  split at h1
  · cases h1
    exact ⟨[], .none, m1⟩
  · split at h1
    · simp only [Option.map_eq_some_iff] at h1
      obtain ⟨⟨d, s2⟩, h1, e⟩ := h1
      cases e
      obtain ⟨ts, k1, k2⟩ := getLVars_spot h1
      exact ⟨ts, .decl k1, k2.trans m1⟩
    · next hty =>
      simp only [Option.map_eq_some_iff] at h1
      obtain ⟨⟨w, s2⟩, h1, e⟩ := h1
      cases e
      obtain ⟨x, g1, g2, g3, -⟩ := lev_spot h1 (by decide)
      rw [g3]
      exact ⟨_, .exp g1 (noType_of hty g2.toks), g2.trans m1⟩

theorem getForCond_spot {c : Option Expr} (h : getForCond s = some (c, s')) :
    ∃ ts, ForCond s.spot ts c s'.spot ∧ Moved s s' (ts ++ [Lx.semi]) := by
  simp only [getForCond, Option.bind_eq_bind, Option.bind_eq_some_iff] at h
  obtain ⟨⟨i', s1⟩, h1, s2, h2, h⟩ := h
  cases h
  obtain ⟨m1, m2, -⟩ := chkTok_spot h2
  rw [m2]
  unfold getForCond0 at h1
  split at h1
  · cases h1
    exact ⟨[], .none, m1⟩
  · simp only [Option.bind_eq_bind, Option.bind_eq_some_iff] at h1
    obtain ⟨⟨w, s2⟩, h1, w', h3, e⟩ := h1
    cases e
    obtain ⟨x, g1, g2, g3, -⟩ := lev_spot h1 (by decide)
    obtain ⟨e1, rfl⟩ := chkType_bool h3
    rw [e1] at g1
    rw [g3]
    exact ⟨_, .exp g1, g2.trans m1⟩

theorem getRini_spot {c : Option Expr} (h : getRini s = some (c, s')) :
    ∃ ts, ForRini s.spot ts c s'.spot ∧ Moved s s' (ts ++ [Lx.rpar]) := by
  simp only [getRini, Option.bind_eq_bind, Option.bind_eq_some_iff] at h
  obtain ⟨⟨i', s1⟩, h1, s2, h2, h⟩ := h
  cases h
  obtain ⟨m1, m2, -⟩ := chkTok_spot h2
  rw [m2]
  unfold getRini0 at h1
  split at h1
  · cases h1
    exact ⟨[], .none, m1⟩
  · simp only [Option.map_eq_some_iff] at h1
    obtain ⟨⟨w, s2⟩, h1, e⟩ := h1
    cases e
    obtain ⟨x, g1, g2, g3, -⟩ := lev_spot h1 (by decide)
    rw [g3]
    exact ⟨_, .exp g1, g2.trans m1⟩

theorem hasVal_valued {ty : Int} {dim : Nat} : hasVal ty dim = true ↔ Valued (ty, dim) := by
  unfold hasVal Valued
  simp only [Bool.and_eq_true, Bool.or_eq_true, bne_iff_ne, ne_eq, Prod.mk.injEq, not_and]
  exact and_congr_right fun _ => ⟨fun h h1 => h.resolve_left (fun h' => h' h1), fun h => (Decidable.em (ty = TyVOID)).elim (fun h1 => .inr (h h1)) .inl⟩

theorem orEmpty_eq : orEmpty = stOf := by funext x; cases x <;> rfl

theorem catS_eq : catS = join := by funext a b; cases a <;> cases b <;> rfl

theorem toBlk_eq : toBlk = blockOf := by
  funext a
  unfold toBlk blockOf
  rfl

/-- What is read is in the grammar. -/
theorem syn_of (o : Opts) (ty : Int) (dim : Nat) :
    (∀ s r, getStat o ty dim s = some r → ∃ q ts, Syn (ty, dim) (.stat q) (decide (s.depth ≠ 0)) s.spot ts r.1 r.2.spot ∧
      Moved s r.2 ts ∧ (q = true → r.2.toks.head? ≠ some Lx.ELSE)) ∧
    (∀ s r, getStat1 o ty dim s = some r → ∃ q ts, Syn (ty, dim) (.stat q) (decide (s.depth ≠ 0)) s.spot ts r.1
      { r.2.spot with last := s.toks.head? } ∧ Moved s r.2 ts ∧ (q = true → r.2.toks.head? ≠ some Lx.ELSE)) ∧
    (∀ s r, getBlock o ty dim s = some r → ∃ a, ∃ s' : PS, ∃ ts, Syn (ty, dim) (.items none) (decide (s.depth ≠ 0)) s.spot ts a s'.spot ∧
      Moved s r.2 (ts ++ [Lx.rbrc]) ∧ r.1 = blockOf a ∧ r.2.spot = s.spot.leave s'.spot) ∧
    (∀ a s r, items o ty dim a s = some r → ∃ ts, Syn (ty, dim) (.items a) (decide (s.depth ≠ 0)) s.spot ts r.1 r.2.spot ∧
      Moved s r.2 (ts ++ [Lx.rbrc])) := by
  refine getStat.mutual_partial_correctness o ty dim
    (fun s r => ∃ q ts, Syn (ty, dim) (.stat q) (decide (s.depth ≠ 0)) s.spot ts r.1 r.2.spot ∧
      Moved s r.2 ts ∧ (q = true → r.2.toks.head? ≠ some Lx.ELSE))
    (fun s r => ∃ q ts, Syn (ty, dim) (.stat q) (decide (s.depth ≠ 0)) s.spot ts r.1
      { r.2.spot with last := s.toks.head? } ∧ Moved s r.2 ts ∧ (q = true → r.2.toks.head? ≠ some Lx.ELSE))
    (fun s r => ∃ a, ∃ s' : PS, ∃ ts, Syn (ty, dim) (.items none) (decide (s.depth ≠ 0)) s.spot ts a s'.spot ∧
      Moved s r.2 (ts ++ [Lx.rbrc]) ∧ r.1 = blockOf a ∧ r.2.spot = s.spot.leave s'.spot)
    (fun a s r => ∃ ts, Syn (ty, dim) (.items a) (decide (s.depth ≠ 0)) s.spot ts r.1 r.2.spot ∧
      Moved s r.2 (ts ++ [Lx.rbrc])) ?_ ?_ ?_ ?_
  · intro getStat1 ih s r h
    simp only [Option.bind_eq_bind, Option.bind_eq_some_iff] at h
    obtain ⟨⟨r0, s0⟩, h, h'⟩ := h
    cases h'
    obtain ⟨q, ts, h1, h2, h3⟩ := ih _ _ h
    exact ⟨q, ts, h1, ⟨h2.toks, h2.depth, h2.out⟩, h3⟩
  · intro getStat getBlock ih1 ih2 s r h
    have body : ∀ {s1 : PS} {a : Option Stmt} {s2 : PS}, getStat { s1 with depth := s1.depth + 1 } = some (a, s2) →
        ∃ q ts, Syn (ty, dim) (.stat q) true s1.spot ts a s2.spot ∧ Moved s1 { s2 with depth := s2.depth - 1 } ts ∧
          (q = true → s2.toks.head? ≠ some Lx.ELSE) := by
      intro s1 a s2 h
      obtain ⟨q, ts, h1, h2, h3⟩ := ih1 _ _ h
      have e : (decide ((s1.depth + 1) ≠ 0)) = true := by simp
      refine ⟨q, ts, ?_, ⟨h2.toks, ?_, h2.out⟩, h3⟩
      · rw [← e]; exact h1
      · have := h2.depth
        simp only at this ⊢
        omega
    split at h
    · rename_i tl hs
      obtain ⟨n1, n2⟩ := next_spot hs
      simp only [Option.bind_eq_bind, Option.bind_eq_some_iff] at h
      obtain ⟨⟨c, s1⟩, h1, ⟨a, s2⟩, h2, h⟩ := h
      obtain ⟨cs, k1, k2⟩ := getCond_spot h1
      rw [n2] at k1
      obtain ⟨q, ts, g1, g2, g3⟩ := ih1 _ _ h2
      rw [show s1.depth = s.depth from k2.depth] at g1
      split at h
      · rename_i tl2 hs2
        obtain ⟨n3, n4⟩ := next_spot hs2
        simp only [Option.bind_eq_bind, Option.bind_eq_some_iff] at h
        obtain ⟨⟨b, s3⟩, h3, h⟩ := h
        cases h
        obtain ⟨q', us, f1, f2, f3⟩ := ih1 _ _ h3
        rw [show s2.next.depth = s.depth from g2.depth.trans k2.depth, n4] at f1
        have hq : q = false := by
          cases q with
          | false => rfl
          | true => exact absurd (by rw [hs2]; rfl) (g3 rfl)
        subst hq
        refine ⟨q', _, ?_, n1.cons (k2.trans (g2.trans (n3.cons f2))), f3⟩
        rw [hs, orEmpty_eq]
        exact .els k1 g1 f1
      · next hne =>
        cases h
        refine ⟨true, _, ?_, n1.cons (k2.trans g2), fun _ he => ?_⟩
        · rw [hs, orEmpty_eq]
          exact .ifs k1 g1
        · cases hs2 : s2.toks with
          | nil => rw [hs2] at he; cases he
          | cons a r => rw [hs2] at he; cases he; exact hne _ hs2
    · rename_i tl hs
      obtain ⟨n1, n2⟩ := next_spot hs
      simp only [Option.bind_eq_bind, Option.bind_eq_some_iff] at h
      obtain ⟨⟨c, s1⟩, h1, ⟨a, s2⟩, h2, h⟩ := h
      cases h
      obtain ⟨cs, k1, k2⟩ := getCond_spot h1
      rw [n2] at k1
      obtain ⟨q, ts, g1, g2, g3⟩ := body h2
      refine ⟨q, _, ?_, n1.cons (k2.trans g2), g3⟩
      rw [hs, orEmpty_eq]
      exact .whl k1 g1
    · rename_i tl hs
      obtain ⟨n1, n2⟩ := next_spot hs
      simp only [Option.bind_eq_bind, Option.bind_eq_some_iff] at h
      obtain ⟨⟨a, s1⟩, h1, s2, h2, ⟨c, s3⟩, h3, s4, h4, h⟩ := h
      cases h
      obtain ⟨q, ts, g1, g2, g3⟩ := body (s1 := s.next) h1
      rw [n2] at g1
      obtain ⟨w1, w2, -⟩ := chkTok_spot h2
      obtain ⟨cs, k1, k2⟩ := getCond_spot h3
      obtain ⟨v1, v2, -⟩ := chkTok_spot h4
      rw [w2] at k1
      refine ⟨false, _, ?_, n1.cons (g2.trans (w1.cons (k2.trans v1))), nofun⟩
      rw [hs, orEmpty_eq, v2]
      exact .dos g1 k1
    · rename_i tl hs
      obtain ⟨n1, n2⟩ := next_spot hs
      simp only [Option.bind_eq_bind, Option.bind_eq_some_iff] at h
      obtain ⟨s1, h1, ⟨ini, s2⟩, h2, ⟨cnd, s3⟩, h3, ⟨rini, s4⟩, h4, ⟨a, s5⟩, h5, h⟩ := h
      cases h
      obtain ⟨v1, v2, -⟩ := chkTok_spot h1
      obtain ⟨t1, a1, a2⟩ := getIni_spot h2
      obtain ⟨t2, b1, b2⟩ := getForCond_spot h3
      obtain ⟨t3, c1, c2⟩ := getRini_spot h4
      obtain ⟨q, ts, g1, g2, g3⟩ := body h5
      rw [v2, n2] at a1
      refine ⟨q, Lx.FOR :: Lx.lpar :: (t1 ++ Lx.semi :: (t2 ++ Lx.semi :: (t3 ++ Lx.rpar :: ts))), ?_, ?_, g3⟩
      · rw [hs, orEmpty_eq]
        exact .for a1 b1 c1 g1
      · have := n1.cons (v1.cons (a2.trans (b2.trans (c2.trans g2))))
        simp only [List.append_assoc, List.cons_append, List.nil_append] at this
        exact ⟨this.toks, this.depth, this.out⟩
    · rename_i tl hs
      obtain ⟨n1, n2⟩ := next_spot hs
      simp only [getReturn, getRetVal, Option.map_eq_some_iff, Option.bind_eq_bind, Option.bind_eq_some_iff] at h
      obtain ⟨⟨a, s1⟩, ⟨⟨e, s2⟩, h1, s3, h2, e1⟩, h⟩ := h
      cases e1
      cases h
      obtain ⟨v1, v2, -⟩ := chkTok_spot h2
      split at h1
      · next hv =>
        simp only [Option.bind_eq_some_iff] at h1
        obtain ⟨⟨w, s4⟩, h1, w', h3, e⟩ := h1
        cases e
        obtain ⟨x, g1, g2, g3, -⟩ := lev_spot h1 (by decide)
        rw [n2] at g1 g3
        refine ⟨false, _, ?_, n1.cons (g2.trans v1), nofun⟩
        rw [hs, v2, g3, chkCmpat_tree h3]
        exact .retV (hasVal_valued.1 hv) g1 (chkCmpat_iff.1 (by rw [h3]; rfl))
      · next hv =>
        cases h1
        refine ⟨false, _, ?_, n1.cons v1, nofun⟩
        rw [hs, v2, n2]
        exact .ret fun h => hv (hasVal_valued.2 h)
    · rename_i tl hs
      obtain ⟨n1, n2⟩ := next_spot hs
      split at h
      · cases h
      · next hd =>
        simp only [Option.map_eq_some_iff] at h
        obtain ⟨s1, h1, h⟩ := h
        cases h
        obtain ⟨v1, v2, -⟩ := chkTok_spot h1
        refine ⟨false, _, ?_, n1.cons v1, nofun⟩
        rw [hs, v2, n2, show decide (s.depth ≠ 0) = true by simp [hd]]
        exact .brk
    · rename_i tl hs
      obtain ⟨n1, n2⟩ := next_spot hs
      split at h
      · cases h
      · next hd =>
        simp only [Option.map_eq_some_iff] at h
        obtain ⟨s1, h1, h⟩ := h
        cases h
        obtain ⟨v1, v2, -⟩ := chkTok_spot h1
        refine ⟨false, _, ?_, n1.cons v1, nofun⟩
        rw [hs, v2, n2, show decide (s.depth ≠ 0) = true by simp [hd]]
        exact .cnt
    · rename_i tl hs
      obtain ⟨n1, n2⟩ := next_spot hs
      obtain ⟨a, s', ts, g1, g2, g3, g4⟩ := ih2 _ _ h
      refine ⟨false, _, ?_, n1.cons g2, nofun⟩
      rw [hs, g3, g4]
      exact .block g1
    · rename_i tl hs
      obtain ⟨n1, n2⟩ := next_spot hs
      cases h
      refine ⟨false, _, ?_, n1, nofun⟩
      rw [hs]
      exact .null
    · simp only [Option.bind_eq_bind, Option.bind_eq_some_iff] at h
      obtain ⟨⟨w, s1⟩, h1, s2, h2, h⟩ := h
      cases h
      obtain ⟨x, g1, g2, g3, -⟩ := lev_spot h1 (by decide)
      obtain ⟨v1, v2, -⟩ := chkTok_spot h2
      refine ⟨false, _, ?_, g2.trans v1, nofun⟩
      obtain ⟨t, r, hx, -⟩ := head_ok g1.ty
      have hh : s.toks.head? = x.toks.head? := by rw [g2.toks, hx]; rfl
      rw [hh, v2, g3]
      exact .exp g1
  · intro items ih s r h
    simp only [Option.bind_eq_bind, Option.bind_eq_some_iff] at h
    obtain ⟨⟨l, t⟩, h1, h⟩ := h
    cases h
    obtain ⟨ts, g1, g2⟩ := ih _ _ _ h1
    exact ⟨l, t, ts, g1, ⟨g2.toks, g2.depth, g2.out⟩, by rw [toBlk_eq], rfl⟩
  · intro getStat items ih1 ih2 a s r h
    split at h
    · cases h
    · rename_i tl hs
      cases h
      obtain ⟨n1, n2⟩ := next_spot hs
      exact ⟨[], .done, n1⟩
    · split at h
      · simp only [Option.bind_eq_bind, Option.bind_eq_some_iff] at h
        obtain ⟨⟨d, s1⟩, h1, s2, h2, h⟩ := h
        obtain ⟨ts, k1, k2⟩ := getLVars_spot h1
        obtain ⟨v1, v2, -⟩ := chkTok_spot h2
        obtain ⟨us, g1, g2⟩ := ih2 _ _ _ h
        rw [v2, catS_eq, v1.depth, k2.depth] at g1
        refine ⟨_, .decl k1 g1, ?_⟩
        have := k2.trans (v1.cons g2)
        simpa using this
      · next hty =>
        simp only [Option.bind_eq_bind, Option.bind_eq_some_iff] at h
        obtain ⟨⟨d, s1⟩, h1, h⟩ := h
        obtain ⟨q, ts, k1, k2, k3⟩ := ih1 _ _ h1
        obtain ⟨us, g1, g2⟩ := ih2 _ _ _ h
        rw [catS_eq, k2.depth] at g1
        refine ⟨_, .stat k1 (noType_of hty k2.toks) g1, ?_⟩
        have := k2.trans g2
        simpa using this

/-! ### What is in the grammar is read -/

/-- No statement begins with the token other than an expression, and no statement or list ends with it. -/
def starts : Tok → Bool
  | Lx.IF | Lx.ELSE | Lx.WHILE | Lx.FOR | Lx.RETURN | Lx.BREAK | Lx.CONTINUE | Lx.DO | Lx.lbrc | Lx.rbrc | Lx.semi | Lx.rpar => false
  | _ => true

theorem head_starts : ∀ {x : SX} {R : Rules} {T : Tab} {m : Nat} {ts : List (Int × Nat)} {e : Expr},
    Ty R T m x ts e → ∃ t r, x.toks = t :: r ∧ starts t = true := by
  intro x R T m ts e h
  have app : ∀ {y : SX} {us : List Tok}, (∃ t r, y.toks = t :: r ∧ starts t = true) →
      ∃ t r, y.toks ++ us = t :: r ∧ starts t = true := by
    rintro y us ⟨t, r, h1, h2⟩
    exact ⟨t, r ++ us, by rw [h1]; rfl, h2⟩
  induction h with
  | conv h => exact ⟨_, _, rfl, by cases h <;> rfl⟩
  | pre h => exact ⟨_, _, rfl, by cases h <;> rfl⟩
  | args _ _ ih => exact app ih
  | idx _ _ _ ih => exact app ih
  | fld _ _ _ _ ih => exact app ih
  | bin _ _ _ _ ih => exact app ih
  | ass _ _ _ _ _ ih => exact app ih
  | com _ _ ih => exact app ih
  | _ => exact ⟨_, _, rfl, rfl⟩

/-- From `s` the parser has come to `s'`, at `p'` before `rest`. -/
structure Comes (s s' : PS) (rest : List Tok) (p' : Spot) : Prop where
  toks : s'.toks = rest
  spot : s'.spot = p'
  depth : s'.depth = s.depth
  out : s'.out = s.out

theorem ExpAt.read {p : Spot} {k : Nat} {x : SX} {t : Int × Nat} {e : Expr} (h : ExpAt p k x t e) (hs : s.spot = p) {rest : List Tok}
    (ht : s.toks = x.toks ++ rest) (hk : k ≤ 13) (hf : FolLt (k + 1) rest) :
    Parse.lev k s = some (res x t e, after s x rest) ∧ Comes s (after s x rest) rest (p.lit x) := by
  subst hs
  exact ⟨(reads x).full ht h.ty hk h.lev hf, ⟨rfl, rfl, rfl, rfl⟩⟩

theorem chkTok_come {t : Tok} {r : List Tok} (h : s.toks = t :: r) : ∃ s', chkTok t s = some s' ∧ Comes s s' r s.spot :=
  ⟨_, chkTok_at h, ⟨rfl, rfl, rfl, rfl⟩⟩

theorem next_come {t : Tok} {r : List Tok} (h : s.toks = t :: r) : Comes s s.next r s.spot :=
  ⟨by simp [PS.next, h], rfl, rfl, rfl⟩

theorem fol_cons {t : Tok} {r : List Tok} {k : Nat} (h : k ≤ tokLev t) : FolLt k (t :: r) := fun x hx => by cases hx; exact h

theorem Cond.read {p : Spot} {cs : List Tok} {c : Expr} {p' : Spot} (h : Cond p cs c p') (hs : s.spot = p) {rest : List Tok}
    (ht : s.toks = cs ++ rest) : ∃ s', getCond s = some (c, s') ∧ Comes s s' rest p' := by
  cases h with
  | @mk x _ h =>
    simp only [List.cons_append, List.append_assoc, List.nil_append] at ht
    obtain ⟨s1, h1, c1⟩ := chkTok_come ht
    obtain ⟨h2, c2⟩ := h.read (c1.spot.trans hs) c1.toks (by decide) (fol_cons (by decide))
    obtain ⟨s3, h3, c3⟩ := chkTok_come c2.toks
    refine ⟨s3, ?_, c3.toks, c3.spot.trans c2.spot, c3.depth.trans (c2.depth.trans c1.depth), c3.out.trans (c2.out.trans c1.out)⟩
    simp only [getCond, h1, Option.bind_eq_bind, Option.bind_some, h2, chkType_bool_ok (w := res x (TyBOOL, 0) c) rfl, h3]
    rfl

/-- A comma or a semicolon follows. -/
def Sep (r : List Tok) : Prop := ∃ t u, r = t :: u ∧ (t = Lx.comma ∨ t = Lx.semi)

theorem Sep.fol {r : List Tok} (h : Sep r) : FolLt 13 r := by
  obtain ⟨t, u, rfl, rfl | rfl⟩ := h <;> exact fol_cons (by decide)

theorem getName_come {o : Opts} {ty : Int} {x : String} {r : List Tok} (ht : s.toks = .name x :: r) (hu : Unused s.tab x)
    (h1 : ty ≠ TyINTR) (h2 : ¬(ty = TyVOID ∧ s.curDim = 0)) :
    ∃ s', getName o ScLVAR ty false { s with curCnt := s.curCnt + 1 } = some s' ∧ Comes s s' r (s.spot.local x ty s.curDim) ∧
      s'.curDim = s.curDim := by
  have hd := (defName_iff (t := s.tab) (e := ⟨x, ScLVAR, ty, s.curDim, s.curCnt + 1, false⟩) rfl).2 ⟨hu, rfl⟩
  refine ⟨{ s with toks := r, curCnt := s.curCnt + 1, tab := s.tab ++ [⟨x, ScLVAR, ty, s.curDim, s.curCnt + 1, false⟩] }, ?_,
    ⟨rfl, rfl, rfl, rfl⟩, rfl⟩
  simp only [getName, ht]
  rw [if_neg (fun h => h2 h.2), if_neg (fun h => h1 h.2), if_neg (fun h => h1 h.1), hd]
  rfl

theorem Declr.read {ty : Int} {dim : Nat} {p p' : Spot} {ts : List Tok} {d : Stmt} (h : Declr ty dim p ts d p') {o : Opts} (hs : s.spot = p)
    {rest : List Tok} (ht : s.toks = ts ++ rest) (hr : Sep rest) (hd : s.curDim = dim) (h1 : ty ≠ TyINTR) (h2 : ¬(ty = TyVOID ∧ dim = 0)) :
    ∃ s', getLVar o ty s = some (d, s') ∧ Comes s s' rest p' ∧ s'.curDim = dim := by
  subst hd hs
  cases h with
  | @plain x hu =>
    obtain ⟨s1, e1, c1, k1⟩ := getName_come (o := o) (x := x) ht hu h1 h2
    refine ⟨s1.mark, ?_, ⟨c1.toks, c1.spot, c1.depth, c1.out⟩, k1⟩
    simp only [getLVar, e1, Option.bind_eq_bind, Option.bind_some]
    have : s1.mark.toks = rest := c1.toks
    rw [this]
    obtain ⟨t, u, rfl, rfl | rfl⟩ := hr <;> rfl
  | @init x y t e hu hy ha =>
    obtain ⟨s1, e1, c1, k1⟩ := getName_come (o := o) (x := x) ht hu h1 h2
    have hm : s1.mark.toks = Lx.eq :: (y.toks ++ rest) := c1.toks
    obtain ⟨e2, c2⟩ := hy.read (s := s1.mark.next) c1.spot (next_come hm).toks (by decide) hr.fol
    have hc := chkCmpat_iff (w := res y t e) (ty := ty) (d := s.curDim) |>.2 ha
    obtain ⟨w', hc⟩ := Option.isSome_iff_exists.1 hc
    refine ⟨after s1.mark.next y rest, ?_, ⟨c2.toks, c2.spot, c2.depth.trans c1.depth, c2.out.trans c1.out⟩, k1⟩
    simp only [getLVar, e1, Option.bind_eq_bind, Option.bind_some, hm, e2]
    rw [show (after s1.mark.next y rest).curDim = s.curDim from k1, hc]
    simp only [Option.bind_some, chkCmpat_tree hc]
    rfl

theorem Declrs.read {ty : Int} {dim : Nat} {p p' : Spot} {ts : List Tok} {d : Stmt} (h : Declrs ty dim p ts d p') {o : Opts} (hs : s.spot = p)
    (hd : s.curDim = dim) (h1 : ty ≠ TyINTR) (h2 : ¬(ty = TyVOID ∧ dim = 0)) :
    ∀ {rest : List Tok}, s.toks = ts ++ rest → Sep rest → ∃ s', (getLVar o ty s).bind (fun r => lvarLoop o ty r.1 r.2) = lvarLoop o ty d s' ∧
      Comes s s' rest p' ∧ s'.curDim = dim := by
  induction h with
  | one h =>
    intro rest ht hr
    obtain ⟨s', e, c, k⟩ := h.read (o := o) hs ht hr hd h1 h2
    exact ⟨s', by rw [e]; rfl, c, k⟩
  | more _ hu ih =>
    intro rest ht hr
    rw [List.append_assoc] at ht
    obtain ⟨s1, e1, c1, k1⟩ := ih ht ⟨_, _, rfl, .inl rfl⟩
    obtain ⟨s2, e2, c2, k2⟩ := hu.read (s := s1.next) (o := o) c1.spot (next_come c1.toks).toks hr k1 h1 h2
    refine ⟨s2, ?_, ⟨c2.toks, c2.spot, c2.depth.trans c1.depth, c2.out.trans c1.out⟩, k2⟩
    rw [e1, lvarLoop, c1.toks]
    simp only [List.cons_append, e2, Option.bind_eq_bind, Option.bind_some]

theorem Declrs.name {ty : Int} {dim : Nat} {p p' : Spot} {ts : List Tok} {d : Stmt} (h : Declrs ty dim p ts d p') :
    ∃ x r, ts = .name x :: r := by
  induction h with
  | one h => cases h <;> exact ⟨_, _, rfl⟩
  | more _ _ ih =>
    obtain ⟨x, r, rfl⟩ := ih
    exact ⟨_, _, rfl⟩

theorem LocalDecl.read {p p' : Spot} {ts : List Tok} {d : Stmt} (h : LocalDecl p ts d p') {o : Opts} (hs : s.spot = p)
    {rest : List Tok} (ht : s.toks = ts ++ Lx.semi :: rest) : ∃ s', getLVars o s = some (d, s') ∧ Comes s s' (Lx.semi :: rest) p' := by
  cases h with
  | @mk k ty dim ts _ p' hk h1 h2 hd =>
    subst hs
    rw [List.cons_append, List.append_assoc] at ht
    obtain ⟨x, r, hx⟩ := hd.name
    have e1 := getType_ok (s := s) hk ht (by rw [hx]; simp)
    obtain ⟨s2, e2, c2, -⟩ := hd.read (s := { s with toks := ts ++ Lx.semi :: rest, curDim := dim }) (o := o) rfl rfl h1 h2 rfl
      ⟨_, _, rfl, .inr rfl⟩
    have e3 : lvarLoop o ty d s2 = some (d, s2) := by rw [lvarLoop, c2.toks]; rfl
    rw [e3, Option.bind_eq_some_iff] at e2
    obtain ⟨⟨d1, s3⟩, e2, e4⟩ := e2
    refine ⟨{ s2 with maxCnt := max s2.maxCnt s2.curCnt }, ?_, c2.toks, ?_, c2.depth, c2.out⟩
    · simp only [getLVars, getTy, e1, Option.map_some, Option.bind_eq_bind, Option.bind_some, e2, e4]
    · rw [← c2.spot]; rfl

theorem isType_of {p : Spot} {k : Tok} {ty : Int} {r : List Tok} (hs : s.spot = p) (hk : TypeTok p.tab k ty) (ht : s.toks = k :: r) :
    isType s = true := by
  subst hs
  unfold isType
  rw [ht]
  simpa [PS.spot] using isType_iff.2 ⟨ty, hk⟩

theorem not_isType {p : Spot} {ts r : List Tok} (hs : s.spot = p) (hn : NoType p.tab ts) (he : ts ≠ []) (ht : s.toks = ts ++ r) :
    ¬isType s = true := by
  subst hs
  intro h
  cases ts with
  | nil => exact he rfl
  | cons k ts =>
    unfold isType at h
    rw [ht] at h
    obtain ⟨ty, hk⟩ := isType_iff.1 (by simpa using h : typeOf s.tab k ≠ TyNON)
    exact hn k ty rfl hk

theorem ForIni.read {p p' : Spot} {ts : List Tok} {i : Option Stmt} (h : ForIni p ts i p') {o : Opts} (hs : s.spot = p)
    {rest : List Tok} (ht : s.toks = ts ++ Lx.semi :: rest) : ∃ s', getIni o s = some (i, s') ∧ Comes s s' rest p' := by
  have fin : ∀ s1, getIni0 o s = some (i, s1) → Comes s s1 (Lx.semi :: rest) p' → ∃ s', getIni o s = some (i, s') ∧ Comes s s' rest p' := by
    intro s1 e c
    obtain ⟨s2, e2, c2⟩ := chkTok_come c.toks
    refine ⟨s2, ?_, c2.toks, c2.spot.trans c.spot, c2.depth.trans c.depth, c2.out.trans c.out⟩
    simp only [getIni, e, Option.bind_eq_bind, Option.bind_some, e2]
  cases h with
  | none => exact fin s (by unfold getIni0; rw [ht]; rfl) ⟨ht, hs, rfl, rfl⟩
  | @decl ts st p' h =>
    obtain ⟨s1, e1, c1⟩ := h.read (o := o) hs ht
    refine fin s1 ?_ c1
    cases h with
    | mk hk =>
      unfold getIni0
      rw [if_pos (isType_of hs hk ht), e1]
      split
      · next h' =>
        rw [ht] at h'
        cases h'
        cases hk
      · rfl
  | @exp x t e h hn =>
    obtain ⟨e1, c1⟩ := h.read hs ht (by decide) (fol_cons (by decide))
    refine fin _ ?_ c1
    obtain ⟨t0, r0, h0, h1⟩ := head_starts h.ty
    unfold getIni0
    rw [if_neg (not_isType hs hn (by rw [h0]; simp) ht), e1]
    split
    · next h' =>
      rw [ht, h0] at h'
      cases h'
      cases h1
    · rfl

theorem ForCond.read {p p' : Spot} {ts : List Tok} {i : Option Expr} (h : ForCond p ts i p') (hs : s.spot = p)
    {rest : List Tok} (ht : s.toks = ts ++ Lx.semi :: rest) : ∃ s', getForCond s = some (i, s') ∧ Comes s s' rest p' := by
  have fin : ∀ s1, getForCond0 s = some (i, s1) → Comes s s1 (Lx.semi :: rest) p' → ∃ s', getForCond s = some (i, s') ∧ Comes s s' rest p' := by
    intro s1 e c
    obtain ⟨s2, e2, c2⟩ := chkTok_come c.toks
    refine ⟨s2, ?_, c2.toks, c2.spot.trans c.spot, c2.depth.trans c.depth, c2.out.trans c.out⟩
    simp only [getForCond, e, Option.bind_eq_bind, Option.bind_some, e2]
  cases h with
  | none => exact fin s (by unfold getForCond0; rw [ht]; rfl) ⟨ht, hs, rfl, rfl⟩
  | @exp x e h =>
    obtain ⟨e1, c1⟩ := h.read hs ht (by decide) (fol_cons (by decide))
    refine fin _ ?_ c1
    obtain ⟨t0, r0, h0, h1⟩ := head_starts h.ty
    unfold getForCond0
    split
    · next h' =>
      rw [ht, h0] at h'
      cases h'
      cases h1
    · simp only [e1, Option.bind_eq_bind, Option.bind_some, chkType_bool_ok (w := res x (TyBOOL, 0) e) rfl]
      rfl

theorem ForRini.read {p p' : Spot} {ts : List Tok} {i : Option Expr} (h : ForRini p ts i p') (hs : s.spot = p)
    {rest : List Tok} (ht : s.toks = ts ++ Lx.rpar :: rest) : ∃ s', getRini s = some (i, s') ∧ Comes s s' rest p' := by
  have fin : ∀ s1, getRini0 s = some (i, s1) → Comes s s1 (Lx.rpar :: rest) p' → ∃ s', getRini s = some (i, s') ∧ Comes s s' rest p' := by
    intro s1 e c
    obtain ⟨s2, e2, c2⟩ := chkTok_come c.toks
    refine ⟨s2, ?_, c2.toks, c2.spot.trans c.spot, c2.depth.trans c.depth, c2.out.trans c.out⟩
    simp only [getRini, e, Option.bind_eq_bind, Option.bind_some, e2]
  cases h with
  | none => exact fin s (by unfold getRini0; rw [ht]; rfl) ⟨ht, hs, rfl, rfl⟩
  | @exp x t e h =>
    obtain ⟨e1, c1⟩ := h.read hs ht (by decide) (fol_cons (by decide))
    refine fin _ ?_ c1
    obtain ⟨t0, r0, h0, h1⟩ := head_starts h.ty
    unfold getRini0
    split
    · next h' =>
      rw [ht, h0] at h'
      cases h'
      cases h1
    · rw [e1]; rfl

/-- Statements are not empty and begin with neither `else` nor `}`. -/
theorem Syn.head {F : Int × Nat} {q l : Bool} {p p' : Spot} {ts : List Tok} {r : Option Stmt} (h : Syn F (.stat q) l p ts r p') :
    ∃ t u, ts = t :: u ∧ t ≠ Lx.ELSE ∧ t ≠ Lx.rbrc := by
  cases h with
  | exp h =>
    obtain ⟨t0, r0, h0, h1⟩ := head_starts h.ty
    refine ⟨t0, _, by rw [h0]; rfl, ?_, ?_⟩ <;> rintro rfl <;> cases h1
  | _ => exact ⟨_, _, rfl, by simp, by simp⟩

/-- What `Syn.read` says. -/
def Read (F : Int × Nat) (o : Opts) : NT → Bool → Spot → List Tok → Option Stmt → Spot → Prop
  | .stat q, l, p, ts, r, p' => ∀ (s : PS) (rest : List Tok), s.spot = p → l = decide (s.depth ≠ 0) → s.toks = ts ++ rest →
      (q = true → rest.head? ≠ some Lx.ELSE) → ∃ s', getStat o F.1 F.2 s = some (r, s') ∧ Comes s s' rest p'
  | .items a, l, p, ts, r, p' => ∀ (s : PS) (rest : List Tok), s.spot = p → l = decide (s.depth ≠ 0) → s.toks = ts ++ Lx.rbrc :: rest →
      ∃ s', items o F.1 F.2 a s = some (r, s') ∧ Comes s s' rest p'

theorem stat_of {F : Int × Nat} {o : Opts} {rest : List Tok} {r : Option Stmt} {p' : Spot} {t : Tok} {u : List Tok} (ht : s.toks = t :: u)
    (h : ∃ s', getStat1 o F.1 F.2 s.mark = some (r, s') ∧ Comes s.mark s' rest p') :
    ∃ s', getStat o F.1 F.2 s = some (r, s') ∧ Comes s s' rest { p' with last := some t } := by
  obtain ⟨s', e, c⟩ := h
  refine ⟨{ s' with lastStat := s.toks.head? }, ?_, c.toks, ?_, c.depth, c.out⟩
  · simp only [getStat, e, Option.bind_eq_bind, Option.bind_some]
  · rw [← c.spot, ht]; rfl

/-- The body of a loop. -/
theorem body_come {F : Int × Nat} {o : Opts} {q : Bool} {p p' : Spot} {ts : List Tok} {a : Option Stmt} (h : Read F o (.stat q) true p ts a p')
    (hs : s.spot = p) {rest : List Tok} (ht : s.toks = ts ++ rest) (hr : q = true → rest.head? ≠ some Lx.ELSE) :
    ∃ s', getStat o F.1 F.2 { s with depth := s.depth + 1 } = some (a, s') ∧ Comes s { s' with depth := s'.depth - 1 } rest p' := by
  obtain ⟨s', e, c⟩ := h { s with depth := s.depth + 1 } rest hs (by simp) ht hr
  refine ⟨s', e, c.toks, c.spot, ?_, c.out⟩
  show s'.depth - 1 = s.depth
  rw [c.depth]
  show s.depth + 1 - 1 = s.depth
  omega

theorem Syn.read {F : Int × Nat} (o : Opts) {k : NT} {l : Bool} {p p' : Spot} {ts : List Tok} {r : Option Stmt} (h : Syn F k l p ts r p') :
    Read F o k l p ts r p' := by
  induction h with
  | null =>
    rintro s rest rfl rfl ht -
    refine stat_of ht ⟨s.mark.next, ?_, next_come (s := s.mark) ht⟩
    have : s.mark.toks = Lx.semi :: rest := ht
    rw [getStat1, this]
    rfl
  | @exp l p x t e h =>
    rintro s rest rfl rfl ht -
    obtain ⟨t0, r0, h0, h1⟩ := head_starts h.ty
    rw [List.append_assoc] at ht
    have ht' : s.toks = t0 :: (r0 ++ [Lx.semi] ++ rest) := by rw [ht, h0]; simp
    rw [h0]
    refine stat_of ht' ?_
    obtain ⟨e1, c1⟩ := h.read (s := s.mark) rfl ht (by decide) (fol_cons (by decide))
    obtain ⟨s2, e2, c2⟩ := chkTok_come c1.toks
    refine ⟨s2, ?_, c2.toks, c2.spot.trans c1.spot, c2.depth.trans c1.depth, c2.out.trans c1.out⟩
    have key : ∀ t' u, s.mark.toks = t' :: u → starts t' = true := by
      intro t' u h'
      have : s.mark.toks = t0 :: (r0 ++ [Lx.semi] ++ rest) := ht'
      rw [this] at h'
      cases h'
      exact h1
    unfold getStat1
    split
    case h_10 => simp only [e1, Option.bind_eq_bind, Option.bind_some, e2]; rfl
    all_goals
      next h' => exact absurd (key _ _ h') (by decide)
  | ret hv =>
    rintro s rest rfl rfl ht -
    refine stat_of ht ?_
    have ht' : s.mark.toks = Lx.RETURN :: Lx.semi :: rest := ht
    obtain ⟨s2, e2, c2⟩ := chkTok_come (next_come ht').toks
    refine ⟨s2, ?_, c2.toks, c2.spot, c2.depth, c2.out⟩
    have hv' : ¬hasVal F.1 F.2 = true := fun h => hv (hasVal_valued.1 h)
    rw [getStat1, ht']
    simp only [getReturn, getRetVal, if_neg hv', Option.bind_eq_bind, Option.bind_some, e2, Option.map_some]
  | @retV l p x t e hv h ha =>
    rintro s rest rfl rfl ht -
    refine stat_of ht ?_
    have ht' : s.mark.toks = Lx.RETURN :: (x.toks ++ Lx.semi :: rest) := by rw [show s.mark.toks = _ from ht]; simp
    obtain ⟨e1, c1⟩ := h.read (s := s.mark.next) rfl (next_come ht').toks (by decide) (fol_cons (by decide))
    obtain ⟨s2, e2, c2⟩ := chkTok_come c1.toks
    refine ⟨s2, ?_, c2.toks, c2.spot.trans c1.spot, c2.depth.trans c1.depth, c2.out.trans c1.out⟩
    have hv' : hasVal F.1 F.2 = true := hasVal_valued.2 hv
    obtain ⟨w', hc⟩ := Option.isSome_iff_exists.1 (chkCmpat_iff (w := res x t e) (ty := F.1) (d := F.2) |>.2 ha)
    rw [getStat1, ht']
    simp only [getReturn, getRetVal, if_pos hv', Option.bind_eq_bind, Option.bind_some, e1, hc, e2, Option.map_some, chkCmpat_tree hc]
    rfl
  | brk =>
    rintro s rest rfl hl ht -
    refine stat_of ht ?_
    have ht' : s.mark.toks = Lx.BREAK :: Lx.semi :: rest := ht
    obtain ⟨s2, e2, c2⟩ := chkTok_come (next_come ht').toks
    refine ⟨s2, ?_, c2.toks, c2.spot, c2.depth, c2.out⟩
    rw [getStat1, ht']
    simp only
    rw [if_neg (show ¬s.mark.depth = 0 from of_decide_eq_true hl.symm), e2]
    rfl
  | cnt =>
    rintro s rest rfl hl ht -
    refine stat_of ht ?_
    have ht' : s.mark.toks = Lx.CONTINUE :: Lx.semi :: rest := ht
    obtain ⟨s2, e2, c2⟩ := chkTok_come (next_come ht').toks
    refine ⟨s2, ?_, c2.toks, c2.spot, c2.depth, c2.out⟩
    rw [getStat1, ht']
    simp only
    rw [if_neg (show ¬s.mark.depth = 0 from of_decide_eq_true hl.symm), e2]
    rfl
  | @ifs l q p cs c p1 ts a p2 hc _ ih =>
    rintro s rest rfl rfl ht hr
    refine stat_of ht ?_
    have ht' : s.mark.toks = Lx.IF :: (cs ++ (ts ++ rest)) := by rw [show s.mark.toks = _ from ht]; simp
    obtain ⟨s1, e1, c1⟩ := hc.read (s := s.mark.next) rfl (next_come ht').toks
    obtain ⟨s2, e2, c2⟩ := ih s1 rest c1.spot (by rw [c1.depth]; rfl) c1.toks (fun _ => hr rfl)
    refine ⟨s2, ?_, c2.toks, c2.spot, c2.depth.trans c1.depth, c2.out.trans c1.out⟩
    rw [getStat1, ht']
    simp only [e1, Option.bind_eq_bind, Option.bind_some, e2, orEmpty_eq]
    split
    · next h' =>
      refine absurd ?_ (hr rfl)
      rw [← c2.toks, h']
      rfl
    · rfl
  | @els l q p cs c p1 ts a p2 us b p3 hc _ _ ih1 ih2 =>
    rintro s rest rfl rfl ht hr
    refine stat_of ht ?_
    have ht' : s.mark.toks = Lx.IF :: (cs ++ (ts ++ Lx.ELSE :: (us ++ rest))) := by rw [show s.mark.toks = _ from ht]; simp
    obtain ⟨s1, e1, c1⟩ := hc.read (s := s.mark.next) rfl (next_come ht').toks
    obtain ⟨s2, e2, c2⟩ := ih1 s1 _ c1.spot (by rw [c1.depth]; rfl) c1.toks nofun
    obtain ⟨s3, e3, c3⟩ := ih2 s2.next rest c2.spot (by rw [show s2.next.depth = s.depth from c2.depth.trans c1.depth])
      (next_come c2.toks).toks hr
    refine ⟨s3, ?_, c3.toks, c3.spot, c3.depth.trans (c2.depth.trans c1.depth), c3.out.trans (c2.out.trans c1.out)⟩
    rw [getStat1, ht']
    simp only [e1, Option.bind_eq_bind, Option.bind_some, e2, c2.toks, e3, orEmpty_eq]
  | @whl l q p cs c p1 ts a p2 hc _ ih =>
    rintro s rest rfl rfl ht hr
    refine stat_of ht ?_
    have ht' : s.mark.toks = Lx.WHILE :: (cs ++ (ts ++ rest)) := by rw [show s.mark.toks = _ from ht]; simp
    obtain ⟨s1, e1, c1⟩ := hc.read (s := s.mark.next) rfl (next_come ht').toks
    obtain ⟨s2, e2, c2⟩ := body_come ih c1.spot c1.toks hr
    refine ⟨_, ?_, c2.toks, c2.spot, c2.depth.trans c1.depth, c2.out.trans c1.out⟩
    rw [getStat1, ht']
    simp only [e1, Option.bind_eq_bind, Option.bind_some, e2, orEmpty_eq]
  | @dos l q p cs c p1 ts a p2 _ hc ih =>
    rintro s rest rfl rfl ht -
    refine stat_of ht ?_
    have ht' : s.mark.toks = Lx.DO :: (ts ++ Lx.WHILE :: (cs ++ Lx.semi :: rest)) := by rw [show s.mark.toks = _ from ht]; simp
    obtain ⟨s1, e1, c1⟩ := body_come (s := s.mark.next) ih rfl (next_come ht').toks (by simp)
    obtain ⟨s2, e2, c2⟩ := chkTok_come c1.toks
    obtain ⟨s3, e3, c3⟩ := hc.read (c2.spot.trans c1.spot) c2.toks
    obtain ⟨s4, e4, c4⟩ := chkTok_come c3.toks
    refine ⟨s4, ?_, c4.toks, c4.spot.trans c3.spot, c4.depth.trans (c3.depth.trans (c2.depth.trans c1.depth)),
      c4.out.trans (c3.out.trans (c2.out.trans c1.out))⟩
    rw [getStat1, ht']
    simp only [Option.bind_eq_bind, orEmpty_eq]
    rw [show (s.mark.depth = s.mark.next.depth) from rfl, e1]
    simp only [Option.bind_some, e2, e3, e4]
  | @«for» l q p t1 i p1 t2 c p2 t3 r p3 ts a p4 hi hc hr' _ ih =>
    rintro s rest rfl rfl ht hr
    refine stat_of ht ?_
    have ht' : s.mark.toks = Lx.FOR :: Lx.lpar :: (t1 ++ Lx.semi :: (t2 ++ Lx.semi :: (t3 ++ Lx.rpar :: (ts ++ rest)))) := by
      rw [show s.mark.toks = _ from ht]; simp
    obtain ⟨s1, e1, c1⟩ := chkTok_come (next_come ht').toks
    obtain ⟨s2, e2, c2⟩ := hi.read (o := o) c1.spot c1.toks
    obtain ⟨s3, e3, c3⟩ := hc.read c2.spot c2.toks
    obtain ⟨s4, e4, c4⟩ := hr'.read c3.spot c3.toks
    obtain ⟨s5, e5, c5⟩ := body_come ih c4.spot c4.toks hr
    refine ⟨PS.close { s5 with depth := s5.depth - 1 } s.mark.tab.length s.mark.curCnt, ?_, c5.toks, ?_,
      c5.depth.trans (c4.depth.trans (c3.depth.trans (c2.depth.trans c1.depth))),
      c5.out.trans (c4.out.trans (c3.out.trans (c2.out.trans c1.out)))⟩
    · rw [getStat1, ht']
      simp only [e1, Option.bind_eq_bind, Option.bind_some, e2, e3, e4, e5, orEmpty_eq]
    · rw [← c5.spot]; rfl
  | @block l p ts a p' _ ih =>
    rintro s rest rfl rfl ht -
    refine stat_of ht ?_
    have ht' : s.mark.toks = Lx.lbrc :: (ts ++ Lx.rbrc :: rest) := by rw [show s.mark.toks = _ from ht]; simp
    obtain ⟨s1, e1, c1⟩ := ih s.mark.next rest rfl rfl (next_come ht').toks
    refine ⟨PS.close s1 s.mark.next.tab.length s.mark.next.curCnt, ?_, c1.toks, ?_, c1.depth, c1.out⟩
    · rw [getStat1, ht']
      simp only [getBlock, e1, Option.bind_eq_bind, Option.bind_some, toBlk_eq]
    · rw [← c1.spot]; rfl
  | done =>
    rintro s rest rfl rfl ht
    exact ⟨s.next, by rw [items, show s.toks = Lx.rbrc :: rest from ht]; rfl, next_come ht⟩
  | @decl l a p ts d p1 us b p2 hd _ ih =>
    rintro s rest rfl rfl ht
    have ht' : s.toks = ts ++ Lx.semi :: (us ++ Lx.rbrc :: rest) := by rw [ht]; simp
    obtain ⟨s1, e1, c1⟩ := hd.read (o := o) rfl ht'
    obtain ⟨s2, e2, c2⟩ := chkTok_come c1.toks
    obtain ⟨s3, e3, c3⟩ := ih s2 rest (c2.spot.trans c1.spot) (by rw [c2.depth, c1.depth]) c2.toks
    refine ⟨s3, ?_, c3.toks, c3.spot, c3.depth.trans (c2.depth.trans c1.depth), c3.out.trans (c2.out.trans c1.out)⟩
    obtain ⟨k, ty, hk, u, hu⟩ : ∃ k ty, TypeTok s.spot.tab k ty ∧ ∃ u, ts = k :: u := by
      cases hd with
      | mk hk => exact ⟨_, _, hk, _, rfl⟩
    have hh : s.toks = k :: (u ++ Lx.semi :: (us ++ Lx.rbrc :: rest)) := by rw [ht', hu]; rfl
    rw [items]
    split
    · next h' => rw [hh] at h'; cases h'
    · next h' => rw [hh] at h'; cases h'; cases hk
    · rw [if_pos (isType_of rfl hk hh)]
      simp only [e1, Option.bind_eq_bind, Option.bind_some, e2, catS_eq, e3]
  | @stat l a q p ts d p1 us b p2 hd hn hu ih1 ih2 =>
    rintro s rest rfl rfl ht
    have ht' : s.toks = ts ++ (us ++ Lx.rbrc :: rest) := by rw [ht]; simp
    have hne : (us ++ Lx.rbrc :: rest).head? ≠ some Lx.ELSE := by
      cases hu with
      | done => simp
      | decl h _ =>
        cases h with
        | mk hk =>
          simp only [List.cons_append, List.head?_cons, ne_eq, Option.some.injEq]
          rintro rfl
          cases hk
      | stat h _ _ =>
        obtain ⟨t, u, rfl, h1, -⟩ := h.head
        simpa using h1
    obtain ⟨s1, e1, c1⟩ := ih1 s _ rfl rfl ht' (fun _ => hne)
    obtain ⟨s3, e3, c3⟩ := ih2 s1 rest c1.spot (by rw [c1.depth]) c1.toks
    refine ⟨s3, ?_, c3.toks, c3.spot, c3.depth.trans c1.depth, c3.out.trans c1.out⟩
    obtain ⟨t, u, rfl, h1, h2⟩ := hd.head
    rw [items]
    split
    · next h' => rw [ht'] at h'; cases h'
    · next h' => rw [ht'] at h'; cases h'; exact absurd rfl h2
    · rw [if_neg (not_isType rfl hn (by simp) ht')]
      simp only [e1, Option.bind_eq_bind, Option.bind_some, catS_eq, e3]

end Cmm.Parse
