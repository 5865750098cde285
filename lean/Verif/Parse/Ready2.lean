import Verif.Parse.Ready

/-
Every expression of the body of a function has been read with a table that is one of the points of the function
(Verif/Parse/Stat.lean), possibly followed by names out of scope; it is well typed there. For Verif/Props/C64.lean.
-/
namespace Cmm.Parse
open Cmm.Tree
open Cmm.Gen (NT Mode)
open Cmm.Tac (okE okS fieldOk)

/-- The expression is well typed with the table, and not of type void if its value is used. -/
def Typed (T : Tab) (m : Mode) (e : Expr) : Prop :=
  ∃ n x t, Ty actual T n x [t] e ∧ (m ≠ .void → t ≠ (TyVOID, 0))

/-- The table is that of a point, perhaps with names out of scope. -/
def AtPt (K : Tab → Prop) (P : List Tab) (T : Tab) : Prop :=
  K T ∧ ∃ p ∈ P, ∃ y, T = p ++ y ∧ ∀ d ∈ y, d.scope = ScVOID

def ReadE (K : Tab → Prop) (P : List Tab) (m : Mode) (e : Expr) : Prop := ∃ T, AtPt K P T ∧ Typed T m e

/-- An expression as a statement, or the initial value of a local variable. -/
def ReadX (K : Tab → Prop) (P : List Tab) (e : Expr) : Prop :=
  ReadE K P .void e ∨ ∃ (T : Tab) (n : Nat) (r : Expr) (d : Ent), AtPt K P T ∧ e = .assV .loc (n : Nat) r ∧
    T[n]? = some d ∧ d.scope = ScLVAR ∧ Typed T .val r

/-- All expressions of the statement have been read. -/
def ReadS (K : Tab → Prop) (P : List Tab) : Stmt → Prop
  | .empty | .brk | .cnt => True
  | .exp e => ReadX K P e
  | .ifs c a => ReadE K P .cond c ∧ ReadS K P a
  | .els c a b => ReadE K P .cond c ∧ ReadS K P a ∧ ReadS K P b
  | .whl c a re => (∀ x, c = some x → ReadE K P .cond x) ∧ ReadS K P a ∧ ∀ x, re = some x → ReadE K P .void x
  | .dos a c => ReadS K P a ∧ ReadE K P .cond c
  | .ret e => ∀ x, e = some x → ReadE K P .val x
  | .seq _ a b => ReadS K P a ∧ ReadS K P b

variable {K : Tab → Prop}

theorem AtPt.mono {P P' : List Tab} {T : Tab} (h : AtPt K P T) (hp : ∃ R, P' = R ++ P) : AtPt K P' T := by
  obtain ⟨hk, p, h1, h2⟩ := h
  obtain ⟨R, rfl⟩ := hp
  exact ⟨hk, p, List.mem_append_right _ h1, h2⟩

theorem AtPt.here {P : List Tab} {T : Tab} (hk : K T) (h : T ∈ P) : AtPt K P T :=
  ⟨hk, T, h, [], by simp, by simp⟩

theorem ReadE.mono {P P' : List Tab} {m : Mode} {e : Expr} (h : ReadE K P m e) (hp : ∃ R, P' = R ++ P) :
    ReadE K P' m e := by
  obtain ⟨T, h1, h2⟩ := h
  exact ⟨T, h1.mono hp, h2⟩

theorem ReadS.mono {P P' : List Tab} (hp : ∃ R, P' = R ++ P) {s : Stmt} (h : ReadS K P s) : ReadS K P' s := by
  induction s with
  | empty | brk | cnt => trivial
  | exp e =>
    rcases h with h | ⟨T, n, r, d, h1, h2⟩
    · exact .inl (h.mono hp)
    · exact .inr ⟨T, n, r, d, h1.mono hp, h2⟩
  | ifs c a ih => exact ⟨h.1.mono hp, ih h.2⟩
  | els c a b ih1 ih2 => exact ⟨h.1.mono hp, ih1 h.2.1, ih2 h.2.2⟩
  | whl c a re ih => exact ⟨fun x hx => (h.1 x hx).mono hp, ih h.2.1, fun x hx => (h.2.2 x hx).mono hp⟩
  | dos a c ih => exact ⟨ih h.1, h.2.mono hp⟩
  | ret e => exact fun x hx => (h x hx).mono hp
  | seq b a c ih1 ih2 => exact ⟨ih1 h.1, ih2 h.2⟩

theorem lev_typed {k : Nat} {s s' : PS} {w : W} (h : lev k s = some (w, s')) (m : Mode)
    (hm : m ≠ .void → (w.type, w.dim) ≠ (TyVOID, 0)) (hk : k ≤ 13 := by omega) : Typed s.tab m w.tree := by
  obtain ⟨x, hx⟩ := lev_sound h hk
  exact ⟨_, x, _, hx.ty, hm⟩

theorem getCond_typed {s s' : PS} {c : Expr} (h : getCond s = some (c, s')) : Typed s.tab .cond c := by
  simp only [getCond, Option.bind_eq_bind, Option.bind_eq_some_iff] at h
  obtain ⟨s1, h1, ⟨w, s2⟩, h2, w', h3, s3, h4, h⟩ := h
  cases h
  rw [(chkType_bool h3).2, ← (chkTok_fr h1).tab]
  exact lev_typed h2 _ fun _ => by rw [(chkType_bool h3).1]; decide

theorem getForCond_typed {s s' : PS} {c : Option Expr} (h : getForCond s = some (c, s')) :
    ∀ x, c = some x → Typed s.tab .cond x := by
  simp only [getForCond, Option.bind_eq_bind, Option.bind_eq_some_iff] at h
  obtain ⟨⟨c, s1⟩, h1, s2, h2, h⟩ := h
  cases h
  unfold getForCond0 at h1
  split at h1
  · cases h1; intro x hx; cases hx
  · simp only [Option.bind_eq_bind, Option.bind_eq_some_iff] at h1
    obtain ⟨⟨w, s3⟩, h3, w', h4, h1⟩ := h1
    cases h1
    intro x hx
    cases hx
    rw [(chkType_bool h4).2]
    exact lev_typed h3 _ fun _ => by rw [(chkType_bool h4).1]; decide

theorem getRini_typed {s s' : PS} {c : Option Expr} (h : getRini s = some (c, s')) :
    ∀ x, c = some x → Typed s.tab .void x := by
  simp only [getRini, Option.bind_eq_bind, Option.bind_eq_some_iff] at h
  obtain ⟨⟨c, s1⟩, h1, s2, h2, h⟩ := h
  cases h
  unfold getRini0 at h1
  split at h1
  · cases h1; intro x hx; cases hx
  · rw [Option.map_eq_some_iff] at h1
    obtain ⟨⟨w, s3⟩, h3, h1⟩ := h1
    cases h1
    intro x hx
    cases hx
    exact lev_typed h3 _ (fun h => absurd rfl h)

theorem getReturn_typed {s s' : PS} {ty : Int} {dim : Nat} {r : Stmt}
    (h : getReturn ty dim s = some (r, s')) : ∃ e, r = .ret e ∧ ∀ x, e = some x → Typed s.tab .val x := by
  simp only [getReturn, Option.bind_eq_bind, Option.bind_eq_some_iff] at h
  obtain ⟨⟨c, s1⟩, h1, s2, h2, h⟩ := h
  cases h
  refine ⟨_, rfl, ?_⟩
  unfold getRetVal at h1
  split at h1
  · rename_i hv
    simp only [Option.bind_eq_bind, Option.bind_eq_some_iff] at h1
    obtain ⟨⟨w, s3⟩, h3, w', h4, h1⟩ := h1
    cases h1
    intro x hx
    cases hx
    rw [chkCmpat_tree h4]
    refine lev_typed h3 _ fun _ => (chkCmpat_iff.1 (by rw [h4]; rfl)).nv ?_
    intro hx
    have e1 : ty = TyVOID := congrArg Prod.fst hx
    have e2 : dim = 0 := congrArg Prod.snd hx
    rw [e1, e2] at hv
    exact absurd hv (by decide)
  · cases h1; intro x hx; cases hx

theorem getLVar_read (hK : Keeps K) {o : Opts} {ty : Int} {s s' : PS} {d : Stmt} (hk : K s.tab)
    (h : getLVar o ty s = some (d, s')) : ReadS K s'.pts d ∧ K s'.tab := by
  obtain ⟨⟨e, he⟩, ht⟩ := getLVar_some h
  have hk' : K s'.tab := hK.lvar hk (by rw [he.ent]) (by rw [he.ent]; exact he.nv) he.tab
  refine ⟨?_, hk'⟩
  have hp : AtPt K s'.pts s'.tab := .here hk' (by rw [he.pts]; exact List.mem_cons_self)
  have hl := (defName_some he.tab).1
  generalize hT : s'.tab = T at ht hl hp
  cases ht with
  | none => trivial
  | @init n w s1 s2 h1 h2 h3 h4 =>
    refine ⟨trivial, .inr ⟨T, n, w.tree, e, hp, rfl, ?_, by rw [he.ent], ?_⟩⟩
    · rw [hl] at h3 ⊢
      rw [List.length_append, List.length_singleton, Nat.add_right_cancel_iff] at h3
      rw [h3]
      simp
    · rw [← h2]
      exact lev_typed h1 _ fun _ => h4

theorem lvarLoop_read (hK : Keeps K) {o : Opts} {ty : Int} {d0 : Stmt} {s : PS} {r : Stmt × PS}
    (h : lvarLoop o ty d0 s = some r) : K s.tab → ReadS K s.pts d0 → ReadS K r.2.pts r.1 := by
  revert h
  refine lvarLoop.partial_correctness o ty
    (fun d0 s r => K s.tab → ReadS K s.pts d0 → ReadS K r.2.pts r.1) ?_ d0 s r
  intro loop ih d0 s r h hk hd
  split at h
  · simp only [Option.bind_eq_bind, Option.bind_eq_some_iff] at h
    obtain ⟨⟨d, s1⟩, h1, h⟩ := h
    obtain ⟨g1, g2⟩ := getLVar_read (s := s.next) hK hk h1
    refine ih _ _ _ h g2 ⟨?_, g1⟩
    obtain ⟨R, hR⟩ := getLVar_grow h1
    exact hd.mono ⟨R, hR⟩
  · cases h
    exact hd

theorem getLVars_read (hK : Keeps K) {o : Opts} {s s' : PS} {d : Stmt} (hk : K s.tab)
    (h : getLVars o s = some (d, s')) : ReadS K s'.pts d := by
  simp only [getLVars, Option.bind_eq_bind, Option.bind_eq_some_iff] at h
  obtain ⟨⟨ty, s1⟩, h1, ⟨d1, s2⟩, h2, ⟨d2, s3⟩, h3, h⟩ := h
  cases h
  obtain ⟨_, f⟩ := getTy_some h1
  obtain ⟨g1, g2⟩ := getLVar_read (s := s1) hK (by rw [f.tab]; exact hk) h2
  exact lvarLoop_read hK (r := (_, s3)) h3 g2 g1

/-- The expressions of the list have been read. -/
def AllRead (K : Tab → Prop) (s : PS) (r : Option Stmt) : Prop := ReadS K s.pts (orEmpty r)

theorem AllRead.cat {s s' : PS} {a b : Option Stmt} (h : AllRead K s a) (hs : ∃ R, s'.pts = R ++ s.pts)
    (g : AllRead K s' b) : AllRead K s' (catS a b) := by
  have h' : AllRead K s' a := ReadS.mono hs h
  cases a with
  | none => exact g
  | some a =>
    cases b with
    | none => exact h'
    | some b => exact ⟨h', g⟩

theorem AllRead.blk {s : PS} {a : Option Stmt} (h : AllRead K s a) : AllRead K s (toBlk a) := by
  unfold toBlk
  split
  · exact h
  · exact h

theorem Simple.read {o : Opts} {ty : Int} {dim : Nat} {s s' : PS} {r : Option Stmt} (h : Simple o ty dim s r s')
    (hk : K s.tab) {P : List Tab} (hp : s.tab ∈ P) : ReadS K P (orEmpty r) := by
  have ha : AtPt K P s.tab := .here hk hp
  cases h with
  | ret _ h =>
    obtain ⟨e, rfl, he⟩ := getReturn_typed h
    exact fun x hx => ⟨s.tab, ha, he x hx⟩
  | brk => trivial
  | cnt => trivial
  | semi => trivial
  | @exp w s1 _ _ h1 h2 => exact .inl ⟨s.tab, ha, lev_typed (s := s.mark) h1 _ fun h => absurd rfl h⟩

theorem getIni_read (hK : Keeps K) {o : Opts} {s s' : PS} {i : Option Stmt} (h : getIni o s = some (i, s'))
    (hk : K s.tab) (hp : s.tab ∈ s.pts) : AllRead K s' i := by
  simp only [getIni, Option.bind_eq_bind, Option.bind_eq_some_iff] at h
  obtain ⟨⟨i, s1⟩, h1, s2, h2, h⟩ := h
  cases h
  unfold AllRead
  rw [(chkTok_fr h2).pts]
  unfold getIni0 at h1
  split at h1
  · cases h1; trivial
  · split at h1
    · rw [Option.map_eq_some_iff] at h1
      obtain ⟨⟨d, s3⟩, h3, h1⟩ := h1
      cases h1
      exact getLVars_read hK hk h3
    · rw [Option.map_eq_some_iff] at h1
      obtain ⟨⟨w, s3⟩, h3, h1⟩ := h1
      cases h1
      refine .inl ⟨s.tab, .here hk (by rw [(lev_fr h3).pts]; exact hp), lev_typed h3 _ fun h => absurd rfl h⟩

theorem Run.read (hK : Keeps K) {o : Opts} {ty : Int} {dim : Nat} {k : Option (Option Stmt)} {s s' : PS}
    {r : Option Stmt} (h : Run o ty dim k s r s') :
    Has K s.tab s.pts → (∀ l, k = some l → AllRead K s l) → AllRead K s' r := by
  have nn : ∀ {s : PS} (l : Option Stmt), (none : Option (Option Stmt)) = some l → AllRead K s l :=
    fun l hl => by cases hl
  have memMark : ∀ (s : PS), s.tab ∈ s.mark.pts := fun s => List.mem_cons_self
  have mk : ∀ {s : PS}, Has K s.tab s.pts → Has K s.mark.next.tab s.mark.next.pts := fun h => h.mark
  have cnd : ∀ {s s1 : PS} {c : Expr}, getCond s.mark.next = some (c, s1) → Has K s.tab s.pts → ReadE K s1.pts .cond c := by
    intro s s1 c h h0
    refine ⟨s.tab, .here h0.1 ?_, getCond_typed (s := s.mark.next) h⟩
    rw [(getCond_fr h).pts]
    exact memMark s
  induction h with
  | @simple s r s' h =>
    intro h0 _
    refine h.read h0.1 ?_
    have : ∃ R, s'.pts = R ++ s.mark.pts := by
      cases h with
      | ret _ h => exact ⟨[], (getReturn_fr h).1.pts⟩
      | brk _ _ h => exact ⟨[], (chkTok_fr h).pts⟩
      | cnt _ _ h => exact ⟨[], (chkTok_fr h).pts⟩
      | semi => exact ⟨[], rfl⟩
      | exp _ h1 h2 => exact ⟨[], ((lev_fr h1).trans (chkTok_fr h2)).pts⟩
    obtain ⟨R, hR⟩ := this
    show s.tab ∈ s'.pts
    rw [hR]
    exact List.mem_append_right _ (memMark s)
  | @ifs s c s1 a s2 _ h1 h2 ih =>
    intro h0 _
    exact ⟨(cnd h1 h0).mono h2.eff.1.grow, ih ((getCond_fr h1).has (mk h0)) nn⟩
  | @els s c s1 a s2 b s3 _ h1 h2 _ h3 ih1 ih2 =>
    intro h0 _
    have g1 := (getCond_fr h1).has (mk h0)
    have g2 := h2.has hK g1
    exact ⟨((cnd h1 h0).mono h2.eff.1.grow).mono h3.eff.1.grow, ReadS.mono h3.eff.1.grow (ih1 g1 nn), ih2 g2 nn⟩
  | @whl s c s1 a s2 _ h1 h2 ih =>
    intro h0 _
    refine ⟨fun x hx => ?_, ih ((getCond_fr h1).has (mk h0)) nn, fun x hx => by cases hx⟩
    cases hx
    exact (cnd h1 h0).mono h2.eff.1.grow
  | @dos s a s1 s2 c s3 s4 _ h1 h2 h3 h4 ih =>
    intro h0 _
    have f := (chkTok_fr h2).trans ((getCond_fr h3).trans (chkTok_fr h4))
    have hb := h1.eff.2 rfl
    have hs := h1.has hK (mk h0)
    show ReadS K s4.pts (.dos (orEmpty a) c)
    rw [f.pts]
    refine ⟨ih (mk h0) nn, ?_⟩
    have g := getCond_typed h3
    rw [(chkTok_fr h2).tab] at g
    obtain ⟨y, hy, hy'⟩ := hb.void
    refine ⟨s1.tab, ⟨hs.1, s.tab, ?_, y, hy, hy'⟩, g⟩
    obtain ⟨R, hR⟩ := hb.grow
    show s.tab ∈ s1.pts
    rw [hR]
    exact List.mem_append_right _ (memMark s)
  | @«for» s s1 ini s2 cnd s3 rini s4 a s5 _ h1 h2 h3 h4 h5 ih =>
    intro h0 _
    have f1 := chkTok_fr h1
    have f3 := getForCond_fr h3
    have f4 := getRini_fr h4
    have k1 := f1.has (mk h0)
    have k2 := k1.ini hK h2
    have k4 := (f3.trans f4).has k2
    obtain ⟨-, g2⟩ := getIni_seen h2
    have m1 : s1.tab ∈ s1.pts := by rw [f1.pts, f1.tab]; exact memMark s
    have m3 : s2.tab ∈ s2.pts := by
      rcases g2 with g | g
      · obtain ⟨R, hR⟩ := (getIni_eff h2).grow
        rw [g, hR]
        exact List.mem_append_right _ m1
      · exact g
    have up : ∃ R, s5.pts = R ++ s2.pts := by
      obtain ⟨R, hR⟩ := h5.eff.1.grow
      refine ⟨R, ?_⟩
      rw [hR]
      show R ++ s4.pts = _
      rw [f4.pts, f3.pts]
    have ha : AtPt K s5.pts s2.tab := (AtPt.here k2.1 m3).mono up
    refine ⟨ReadS.mono up (getIni_read hK h2 k1.1 m1), fun x hx => ⟨s2.tab, ha, getForCond_typed h3 x hx⟩, ih k4 nn,
      fun x hx => ⟨s2.tab, ha, ?_⟩⟩
    rw [← f3.tab]
    exact getRini_typed h4 x hx
  | blk _ _ ih =>
    intro h0 _
    have := (ih (mk h0) (fun l hl => by cases hl; trivial)).blk
    exact this
  | done => exact fun _ h => h _ rfl
  | @decl l s d s1 s2 r s' h1 h2 _ ih =>
    intro h0 hl
    refine ih ((chkTok_fr h2).has (h0.lvars hK h1)) fun l' h' => ?_
    cases h'
    have e2 := (chkTok_fr h2).pts
    refine (hl _ rfl).cat (s' := s2) ?_ ?_
    · rw [e2]
      exact (getLVars_some h1).eff.grow
    · unfold AllRead
      rw [e2]
      exact getLVars_read hK h0.1 h1
  | @stat l s d s1 r s' h1 _ ih1 ih2 =>
    intro h0 hl
    refine ih2 (h1.has hK h0) fun l' h' => ?_
    cases h'
    exact (hl _ rfl).cat h1.eff.1.grow (ih1 h0 nn)

theorem getBlock_read (hK : Keeps K) {o : Opts} {ty : Int} {dim : Nat} {s s' : PS} {r : Option Stmt}
    (h : getBlock o ty dim s = some (r, s')) (h0 : Has K s.tab s.pts) : ReadS K s'.pts (orEmpty r) := by
  obtain ⟨l, s1, h1, h2⟩ := (run_all o ty dim).2.2.1 s _ h
  cases h2
  exact (h1.read hK h0 (fun l hl => by cases hl; trivial)).blk

/-! ### Statements are compiled correctly -/

variable {nt : NT} {g : Int → Int} {V : Kind → Int → Bool}

theorem Typed.ready {T : Tab} {m : Mode} {e : Expr} (hf : Fit nt g V T) (h : Typed T m e)
    (hm : tame nt m (ren g e) = true) : okE nt V m (ren g e) = true := by
  obtain ⟨n, x, t, h1, h2⟩ := h
  refine h1.ready hf m ?_ hm
  cases m with
  | void => exact rfl
  | args => intro y hy; rw [List.mem_singleton] at hy; subst hy; exact h2 (by decide)
  | val => exact .val (h1.void hf ⟨_, rfl, h2 (by decide)⟩)
  | cond => exact .cond (h1.void hf ⟨_, rfl, h2 (by decide)⟩)

theorem ReadS.ready {P : List Tab} (hf : ∀ T, AtPt K P T → Fit nt g V T) {s : Stmt} (h : ReadS K P s) :
    tameS nt (renS g s) = true → okS nt V (renS g s) = true := by
  have hE : ∀ {m e}, ReadE K P m e → tame nt m (ren g e) = true → okE nt V m (ren g e) = true := by
    rintro m e ⟨T, h1, h2⟩ hm
    exact h2.ready (hf T h1) hm
  induction s with
  | empty | brk | cnt => intro _; rfl
  | exp e =>
    intro hm
    rcases h with h | ⟨T, n, r, d, h1, rfl, h2, h3, h4⟩
    · exact hE h hm
    · have := (hf T h1).var n d .loc h2 (by rw [h3]; exact .lvar)
      simp only [renS, ren, okS, okE, this.1]
      exact h4.ready (hf T h1) hm
  | ifs c a ih =>
    intro hm
    simp only [renS, tameS, okS, Bool.and_eq_true] at hm ⊢
    exact ⟨hE h.1 hm.1, ih h.2 hm.2⟩
  | els c a b ih1 ih2 =>
    intro hm
    simp only [renS, tameS, okS, Bool.and_eq_true] at hm ⊢
    exact ⟨⟨hE h.1 hm.1.1, ih1 h.2.1 hm.1.2⟩, ih2 h.2.2 hm.2⟩
  | whl c a re ih =>
    intro hm
    simp only [renS, tameS, okS, Bool.and_eq_true] at hm ⊢
    refine ⟨⟨?_, ih h.2.1 hm.1.2⟩, ?_⟩
    · cases c with
      | none => rfl
      | some x => exact hE (h.1 x rfl) hm.1.1
    · cases re with
      | none => rfl
      | some x => exact hE (h.2.2 x rfl) hm.2
  | dos a c ih =>
    intro hm
    simp only [renS, tameS, okS, Bool.and_eq_true] at hm ⊢
    exact ⟨ih h.1 hm.1, hE h.2 hm.2⟩
  | ret e =>
    intro hm
    cases e with
    | none => rfl
    | some x => exact hE (h x rfl) hm
  | seq b a c ih1 ih2 =>
    intro hm
    simp only [renS, tameS, okS, Bool.and_eq_true] at hm ⊢
    exact ⟨ih1 h.1 hm.1, ih2 h.2 hm.2⟩

end Cmm.Parse
