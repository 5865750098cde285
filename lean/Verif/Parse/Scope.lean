import Verif.Parse.Run
import Mathlib.Data.List.Nodup

/-
What the statement parser does to the name table, the counters of variables and the recorded
points (tools for C34, C35, C38 and C39).
-/
namespace Cmm.Parse
open Cmm.Tree

/-- The two states differ in the remaining tokens and the label counter only. -/
structure Fr (s s' : PS) : Prop where
  tab : s'.tab = s.tab
  curCnt : s'.curCnt = s.curCnt
  maxCnt : s'.maxCnt = s.maxCnt
  depth : s'.depth = s.depth
  lastStat : s'.lastStat = s.lastStat
  curDim : s'.curDim = s.curDim
  out : s'.out = s.out
  pts : s'.pts = s.pts

theorem Fr.refl (s : PS) : Fr s s := ⟨rfl, rfl, rfl, rfl, rfl, rfl, rfl, rfl⟩

theorem Fr.trans {a b c : PS} (h : Fr a b) (g : Fr b c) : Fr a c :=
  ⟨g.tab.trans h.tab, g.curCnt.trans h.curCnt, g.maxCnt.trans h.maxCnt, g.depth.trans h.depth,
   g.lastStat.trans h.lastStat, g.curDim.trans h.curDim, g.out.trans h.out, g.pts.trans h.pts⟩

theorem Fr.next (s : PS) : Fr s s.next := ⟨rfl, rfl, rfl, rfl, rfl, rfl, rfl, rfl⟩

theorem Ok.fr {k : Nat} {s s' : PS} {w : W} {x : SX} (h : Ok k s s' w x) : Fr s s' := by
  rw [h.st]
  exact ⟨rfl, rfl, rfl, rfl, rfl, rfl, rfl, rfl⟩

theorem lev_fr {k : Nat} {s s' : PS} {w : W} (h : lev k s = some (w, s')) (hk : k ≤ 13 := by omega) :
    Fr s s' := by
  obtain ⟨x, hx⟩ := lev_sound h hk
  exact hx.fr

theorem chkTok_fr {t : Tok} {s s' : PS} (h : chkTok t s = some s') : Fr s s' := by
  unfold chkTok at h
  split at h
  · cases h; exact .next s
  · cases h

theorem getCond_fr {s s' : PS} {c : Expr} (h : getCond s = some (c, s')) : Fr s s' := by
  simp only [getCond, Option.bind_eq_bind, Option.bind_eq_some_iff] at h
  obtain ⟨s1, h1, ⟨w, s2⟩, h2, w', h3, s3, h4, h⟩ := h
  cases h
  exact (chkTok_fr h1).trans ((lev_fr h2).trans (chkTok_fr h4))

theorem getForCond_fr {s s' : PS} {c : Option Expr} (h : getForCond s = some (c, s')) :
    Fr s s' := by
  simp only [getForCond, Option.bind_eq_bind, Option.bind_eq_some_iff] at h
  obtain ⟨⟨c, s1⟩, h1, s2, h2, h⟩ := h
  cases h
  refine Fr.trans ?_ (chkTok_fr h2)
  unfold getForCond0 at h1
  split at h1
  · cases h1; exact .refl _
  · simp only [Option.bind_eq_bind, Option.bind_eq_some_iff] at h1
    obtain ⟨⟨w, s3⟩, h3, w', h4, h1⟩ := h1
    cases h1
    exact lev_fr h3

theorem getRini_fr {s s' : PS} {c : Option Expr} (h : getRini s = some (c, s')) :
    Fr s s' := by
  simp only [getRini, Option.bind_eq_bind, Option.bind_eq_some_iff] at h
  obtain ⟨⟨c, s1⟩, h1, s2, h2, h⟩ := h
  cases h
  refine Fr.trans ?_ (chkTok_fr h2)
  unfold getRini0 at h1
  split at h1
  · cases h1; exact .refl _
  · simp only [Option.map_eq_some_iff] at h1
    obtain ⟨⟨w, s3⟩, h3, h1⟩ := h1
    cases h1
    exact lev_fr h3

theorem getReturn_fr {s s' : PS} {ty : Int} {dim : Nat} {r : Stmt}
    (h : getReturn ty dim s = some (r, s')) : Fr s s' ∧ ∃ e, r = .ret e ∧ e.isSome = hasVal ty dim := by
  simp only [getReturn, Option.bind_eq_bind, Option.bind_eq_some_iff] at h
  obtain ⟨⟨c, s1⟩, h1, s2, h2, h⟩ := h
  cases h
  unfold getRetVal at h1
  split at h1
  · rename_i hv
    simp only [Option.bind_eq_bind, Option.bind_eq_some_iff] at h1
    obtain ⟨⟨w, s3⟩, h3, w', h4, h1⟩ := h1
    cases h1
    exact ⟨(lev_fr h3).trans (chkTok_fr h2), _, rfl, by rw [hv]; rfl⟩
  · rename_i hv
    cases h1
    exact ⟨chkTok_fr h2, _, rfl, by simpa using hv⟩

theorem getTy_some {s s' : PS} {ty : Int} (h : getTy s = some (ty, s')) :
    ∃ d, Fr { s with curDim := d } s' := by
  simp only [getTy, Option.map_eq_some_iff] at h
  obtain ⟨⟨t, d, s1⟩, h1, h⟩ := h
  cases h
  obtain ⟨-, k, h2, h3⟩ := getType_some h1
  exact ⟨d, by rw [h3]; exact ⟨rfl, rfl, rfl, rfl, rfl, rfl, rfl, rfl⟩⟩

theorem getName_some {o : Opts} {sc ty : Int} {pub : Bool} {s s' : PS}
    (h : getName o sc ty pub s = some s') :
    ∃ x, defName s.tab ⟨x, sc, ty, s.curDim, s.curCnt, pub⟩ = some s'.tab ∧
      s.toks = .name x :: s'.toks ∧ Fr { s with tab := s'.tab } s' := by
  unfold getName at h
  split at h
  · rename_i x r hs
    split at h
    · cases h
    split at h
    · cases h
    split at h
    · cases h
    simp only [Option.map_eq_some_iff] at h
    obtain ⟨t, h1, h⟩ := h
    cases h
    exact ⟨x, h1, hs, rfl, rfl, rfl, rfl, rfl, rfl, rfl, rfl⟩
  · cases h

/-- Only functions are declared with type void. -/
theorem getName_nv {o : Opts} {sc ty : Int} {pub : Bool} {s s' : PS} (h : getName o sc ty pub s = some s')
    (hs : sc ≠ ScPROT) : ¬(ty = TyVOID ∧ s.curDim = 0) := by
  unfold getName at h
  split at h
  · split at h
    · cases h
    · rename_i hc
      exact fun hh => hc ⟨hs, hh⟩
  · cases h

/-- Values of void functions are not assigned. -/
theorem Assignable.nv {a b : Int × Nat} (h : Assignable a b) (hb : b ≠ (TyVOID, 0)) : a ≠ (TyVOID, 0) := by
  cases h with
  | same => exact hb
  | char => intro h; cases h
  | fromVoid h => intro e; cases e; omega
  | toVoid h => intro e; cases e; omega
  | fromNull => intro h; cases h
  | toNull h => intro e; cases e; exact absurd h (by decide)

theorem defName_some {t t' : Tab} {e : Ent} (h : defName t e = some t') :
    t' = t ++ [e] ∧ t.length < NtMAX ∧ chkName t e.name e.scope = none := by
  unfold defName at h
  split at h
  · cases h
  · split at h
    · cases h
    · rename_i h1 h2
      cases h
      exact ⟨rfl, by omega, by simpa using h2⟩

/-- Everything in an entry but its scope. -/
def Ent.er (e : Ent) : Ent := { e with scope := 0 }

/-- The slots of the visible local variables. -/
def slots (t : Tab) : List Nat := (t.filter fun e => e.scope == ScLVAR).map Ent.cnt

/-- The tables agree up to the scopes as far as `t` goes. -/
def Below (t t' : Tab) : Prop := t.map Ent.er <+: t'.map Ent.er

theorem Below.refl (t : Tab) : Below t t := List.prefix_refl _
theorem Below.trans {a b c : Tab} (h : Below a b) (g : Below b c) : Below a c := List.IsPrefix.trans h g
theorem Below.app (t x : Tab) : Below t (t ++ x) := by
  simp only [Below, List.map_append]
  exact List.prefix_append _ _

theorem setVoid_er (t : Tab) (i : Nat) : (setVoid t i).map Ent.er = t.map Ent.er := by
  simp only [setVoid, List.map_append, List.map_map]
  have : (Ent.er ∘ fun e : Ent => { e with scope := ScVOID }) = Ent.er := rfl
  rw [this, ← List.map_append, List.take_append_drop]

theorem setVoid_app (t x : Tab) :
    setVoid (t ++ x) t.length = t ++ x.map fun e => { e with scope := ScVOID } := by
  simp [setVoid]

theorem slots_app (t x : Tab) : slots (t ++ x) = slots t ++ slots x := by
  simp [slots]

theorem slots_void {x : Tab} (h : ∀ e ∈ x, e.scope = ScVOID) : slots x = [] := by
  simp only [slots, List.map_eq_nil_iff, List.filter_eq_nil_iff]
  intro e he
  rw [h e he]
  decide

/-- One declarator has been read. -/
structure Dcl (s s' : PS) (ty : Int) (e : Ent) : Prop where
  nv : ¬(ty = TyVOID ∧ s.curDim = 0)
  ent : e = ⟨e.name, ScLVAR, ty, s.curDim, s.curCnt + 1, false⟩
  tab : defName s.tab e = some s'.tab
  curCnt : s'.curCnt = s.curCnt + 1
  maxCnt : s'.maxCnt = s.maxCnt
  depth : s'.depth = s.depth
  lastStat : s'.lastStat = s.lastStat
  curDim : s'.curDim = s.curDim
  out : s'.out = s.out
  pts : s'.pts = s'.tab :: s.pts

/-- The tree of a declarator: nothing, or the assignment of the initial value. -/
inductive DTree (T : Tab) : Stmt → Prop
  | none : DTree T .empty
  | init {n w s s'} : lev 12 s = some (w, s') → s.tab = T → n + 1 = T.length → (w.type, w.dim) ≠ (TyVOID, 0) →
      DTree T (.seq false .empty (.exp (.assV .loc (n : Nat) w.tree)))

theorem getLVar_some {o : Opts} {ty : Int} {s s' : PS} {d : Stmt}
    (h : getLVar o ty s = some (d, s')) : (∃ e, Dcl s s' ty e) ∧ DTree s'.tab d := by
  simp only [getLVar, Option.bind_eq_bind, Option.bind_eq_some_iff] at h
  obtain ⟨s1, h1, h⟩ := h
  obtain ⟨x, g1, g2, g3⟩ := getName_some h1
  have hnv : ¬(ty = TyVOID ∧ s.curDim = 0) := getName_nv (s := { s with curCnt := s.curCnt + 1 }) h1 (by decide)
  split at h
  · simp only [Option.bind_eq_some_iff] at h
    obtain ⟨⟨w, s2⟩, h2, w', h3, h⟩ := h
    cases h
    have f := ((Fr.next s1.mark).trans (lev_fr h2))
    refine ⟨⟨⟨x, ScLVAR, ty, s.curDim, s.curCnt + 1, false⟩, hnv, rfl, ?_, ?_, ?_, ?_, ?_, ?_, ?_, ?_⟩, ?_⟩
    · rw [f.tab]; exact g1
    · rw [f.curCnt]; exact g3.curCnt
    · rw [f.maxCnt]; exact g3.maxCnt
    · rw [f.depth]; exact g3.depth
    · rw [f.lastStat]; exact g3.lastStat
    · rw [f.curDim]; exact g3.curDim
    · rw [f.out]; exact g3.out
    · rw [f.pts, f.tab]
      show s1.tab :: s1.pts = _
      rw [g3.pts]
      rfl
    · rw [chkCmpat_tree h3]
      refine .init h2 ?_ ?_ ?_
      · rw [f.tab]; rfl
      · rw [f.tab]
        show _ = s1.tab.length
        rw [(defName_some g1).1]
        simp
      · refine (chkCmpat_iff.1 (by rw [h3]; rfl)).nv fun hx => hnv ⟨congrArg Prod.fst hx, ?_⟩
        have : s2.curDim = s.curDim := f.curDim.trans g3.curDim
        rw [← this]
        exact congrArg Prod.snd hx
  · cases h
    refine ⟨⟨⟨x, ScLVAR, ty, s.curDim, s.curCnt + 1, false⟩, hnv, rfl, ?_, ?_, ?_, ?_, ?_, ?_, ?_, ?_⟩, .none⟩
    · exact g1
    · exact g3.curCnt
    · exact g3.maxCnt
    · exact g3.depth
    · exact g3.lastStat
    · exact g3.curDim
    · exact g3.out
    · show s1.tab :: s1.pts = _
      rw [g3.pts]
      rfl

/-- Several declarators have been read, or none. -/
inductive Dcls (ty : Int) : PS → PS → Prop
  | nil {s} : Dcls ty s s
  | snoc {s s1 s2 s' e} : Dcls ty s s1 → Fr s1 s2 → Dcl s2 s' ty e → Dcls ty s s'

theorem lvarLoop_some {o : Opts} {ty : Int} {d0 : Stmt} {s : PS} {r : Stmt × PS}
    (h : lvarLoop o ty d0 s = some r) :
    ∀ s0, Dcls ty s0 s → ∃ s1, Dcls ty s0 s1 ∧ Fr s1 r.2 := by
  revert h
  refine lvarLoop.partial_correctness o ty (fun d0 s r => ∀ s0, Dcls ty s0 s → ∃ s1, Dcls ty s0 s1 ∧ Fr s1 r.2)
    ?_ d0 s r
  intro loop ih d0 s r h s0 hd
  split at h
  · simp only [Option.bind_eq_bind, Option.bind_eq_some_iff] at h
    obtain ⟨⟨d, s1⟩, h1, h⟩ := h
    obtain ⟨⟨e, he⟩, -⟩ := getLVar_some h1
    exact ih _ _ _ h _ (.snoc hd (.next _) he)
  · cases h
    exact ⟨s, hd, .refl _⟩

/-- A declaration has been read (getLVars). -/
structure Decl (s s' : PS) : Prop where
  run : ∃ d ty s1 s2, Dcls ty { s with curDim := d } s1 ∧ Fr s1 s2 ∧ s1.tab ≠ s.tab ∧
    s' = { s2 with maxCnt := max s2.maxCnt s2.curCnt }

theorem Dcls.len {ty : Int} {s s' : PS} (h : Dcls ty s s') : s.tab.length ≤ s'.tab.length := by
  induction h with
  | nil => exact Nat.le_refl _
  | snoc _ f d ih =>
    rw [(defName_some d.tab).1, f.tab]
    simp
    omega

theorem Dcls.fr {ty : Int} {a b c : PS} (f : Fr a b) (h : Dcls ty b c) : ∃ c', Dcls ty a c' ∧ Fr c' c := by
  induction h with
  | nil => exact ⟨a, .nil, f⟩
  | snoc d1 f1 d ih =>
    obtain ⟨c', h1, h2⟩ := ih
    exact ⟨_, .snoc h1 (h2.trans f1) d, .refl _⟩

theorem getLVars_some {o : Opts} {s s' : PS} {d : Stmt} (h : getLVars o s = some (d, s')) :
    Decl s s' := by
  simp only [getLVars, Option.bind_eq_bind, Option.bind_eq_some_iff] at h
  obtain ⟨⟨ty, s1⟩, h1, ⟨d1, s2⟩, h2, ⟨d2, s3⟩, h3, h⟩ := h
  cases h
  obtain ⟨dd, f⟩ := getTy_some h1
  obtain ⟨⟨e, he⟩, -⟩ := getLVar_some h2
  have hd : Dcls ty { s with curDim := dd } s2 := .snoc .nil f he
  obtain ⟨s4, h4, f4⟩ := lvarLoop_some h3 _ hd
  refine ⟨dd, ty, s4, s3, h4, f4, ?_, rfl⟩
  intro hx
  have hl : s2.tab.length = s.tab.length + 1 := by
    rw [(defName_some he.tab).1, f.tab]
    simp
  obtain ⟨s5, h6, f6⟩ := lvarLoop_some h3 s2 .nil
  have := h6.len
  rw [← f6.tab, f4.tab, hx] at this
  omega

/-- A point recorded between the states `s` and `s'`. -/
structure Pt (s s' : PS) (p : Tab) : Prop where
  base : s.tab <+: p
  er : Below p s'.tab
  new : ∀ e ∈ p.drop s.tab.length, e.scope = ScLVAR ∨ e.scope = ScVOID
  slot : slots s.tab = List.range' 1 s.curCnt → s.curCnt ≤ s.maxCnt →
    ∃ k ≤ s'.maxCnt, slots p = List.range' 1 k

/-- What reading a part of a block does. -/
structure Eff (s s' : PS) : Prop where
  tab : ∃ x, s'.tab = s.tab ++ x ∧ ∀ e ∈ x, e.scope = ScLVAR ∨ e.scope = ScVOID
  curCnt : slots s.tab = List.range' 1 s.curCnt → slots s'.tab = List.range' 1 s'.curCnt
  cntLe : s.curCnt ≤ s'.curCnt
  maxLe : s.curCnt ≤ s.maxCnt → s'.curCnt ≤ s'.maxCnt
  maxCnt : s.maxCnt ≤ s'.maxCnt
  depth : s'.depth = s.depth
  out : s'.out = s.out
  pts : ∃ P, s'.pts = P ++ s.pts ∧ ∀ p ∈ P, Pt s s' p

theorem Fr.eff {s s' : PS} (h : Fr s s') : Eff s s' := by
  refine ⟨⟨[], by simp [h.tab], by simp⟩, ?_, ?_, ?_, ?_, h.depth, h.out, ⟨[], by simp [h.pts], by simp⟩⟩
  · rw [h.tab, h.curCnt]; exact id
  · rw [h.curCnt]
  · rw [h.curCnt, h.maxCnt]; exact id
  · rw [h.maxCnt]

theorem Eff.below {s s' : PS} (h : Eff s s') : Below s.tab s'.tab := by
  obtain ⟨x, hx, -⟩ := h.tab
  rw [hx]
  exact .app _ _

theorem Eff.trans {a b c : PS} (h : Eff a b) (g : Eff b c) : Eff a c := by
  obtain ⟨x, hx, hx'⟩ := h.tab
  obtain ⟨y, hy, hy'⟩ := g.tab
  obtain ⟨P, hP, hP'⟩ := h.pts
  obtain ⟨Q, hQ, hQ'⟩ := g.pts
  refine ⟨⟨x ++ y, ?_, ?_⟩, fun k => g.curCnt (h.curCnt k), Nat.le_trans h.cntLe g.cntLe,
    fun k => g.maxLe (h.maxLe k), Nat.le_trans h.maxCnt g.maxCnt, g.depth.trans h.depth, g.out.trans h.out,
    ⟨Q ++ P, ?_, ?_⟩⟩
  · rw [hy, hx, List.append_assoc]
  · intro e he
    rcases List.mem_append.1 he with he | he
    · exact hx' e he
    · exact hy' e he
  · rw [hQ, hP, List.append_assoc]
  · intro p hp
    rcases List.mem_append.1 hp with hp | hp
    · have q := hQ' p hp
      obtain ⟨z, hz⟩ := q.base
      refine ⟨⟨x ++ z, ?_⟩, q.er, ?_, fun k1 k2 => q.slot (h.curCnt k1) (h.maxLe k2)⟩
      · rw [← hz, hx, List.append_assoc]
      · intro e he
        have n := q.new
        rw [← hz, hx, List.append_assoc, List.drop_left] at he
        rw [← hz, List.drop_left] at n
        rcases List.mem_append.1 he with he | he
        · exact hx' e he
        · exact n e he
    · have q := hP' p hp
      refine ⟨q.base, q.er.trans g.below, q.new, fun k1 k2 => ?_⟩
      obtain ⟨k, h1, h2⟩ := q.slot k1 k2
      exact ⟨k, Nat.le_trans h1 g.maxCnt, h2⟩

theorem Eff.mark (s : PS) : Eff s s.mark := by
  refine ⟨⟨[], by simp [PS.mark], by simp⟩, id, Nat.le_refl _, id, Nat.le_refl _, rfl, rfl, ⟨[s.tab], rfl, ?_⟩⟩
  intro p hp
  rw [List.mem_singleton] at hp
  subst hp
  exact ⟨List.prefix_refl _, .refl _, by simp, fun k1 k2 => ⟨_, k2, k1⟩⟩

/-- As `Eff`, for declarators: maxCnt has not been updated yet. -/
structure EffD (s s' : PS) : Prop where
  tab : ∃ x, s'.tab = s.tab ++ x ∧ ∀ e ∈ x, e.scope = ScLVAR
  curCnt : slots s.tab = List.range' 1 s.curCnt → slots s'.tab = List.range' 1 s'.curCnt
  cntLe : s.curCnt ≤ s'.curCnt
  maxCnt : s'.maxCnt = s.maxCnt
  depth : s'.depth = s.depth
  out : s'.out = s.out
  pts : ∃ P, s'.pts = P ++ s.pts ∧ ∀ p ∈ P, s.tab <+: p ∧ p <+: s'.tab ∧
    (slots s.tab = List.range' 1 s.curCnt → ∃ k ≤ s'.curCnt, slots p = List.range' 1 k)

theorem range'_snoc (k : Nat) : List.range' 1 k ++ [k + 1] = List.range' 1 (k + 1) := by
  rw [List.range'_concat, Nat.one_mul, Nat.add_comm]

theorem Dcls.eff {ty : Int} {s s' : PS} (h : Dcls ty s s') : EffD s s' := by
  induction h with
  | nil => exact ⟨⟨[], by simp, by simp⟩, id, Nat.le_refl _, rfl, rfl, rfl, ⟨[], rfl, by simp⟩⟩
  | @snoc s1 s2 s' e _ f d ih =>
    obtain ⟨x, hx, hx'⟩ := ih.tab
    obtain ⟨P, hP, hP'⟩ := ih.pts
    have ht := (defName_some d.tab).1
    rw [f.tab] at ht
    have hc : slots s.tab = List.range' 1 s.curCnt → slots s'.tab = List.range' 1 s'.curCnt := by
      intro k
      rw [ht, slots_app, ih.curCnt k, d.curCnt, f.curCnt, d.ent, f.curCnt]
      exact range'_snoc _
    refine ⟨⟨x ++ [e], ?_, ?_⟩, hc, ?_, ?_, ?_, ?_, ⟨s'.tab :: P, ?_, ?_⟩⟩
    · rw [ht, hx, List.append_assoc]
    · intro e' he
      rcases List.mem_append.1 he with he | he
      · exact hx' _ he
      · rw [List.mem_singleton] at he
        rw [he, d.ent]
    · rw [d.curCnt, f.curCnt]; exact Nat.le_succ_of_le ih.cntLe
    · rw [d.maxCnt, f.maxCnt, ih.maxCnt]
    · rw [d.depth, f.depth, ih.depth]
    · rw [d.out, f.out, ih.out]
    · rw [d.pts, f.pts, hP]; rfl
    · intro p hp
      rcases List.mem_cons.1 hp with rfl | hp
      · exact ⟨⟨x ++ [e], by rw [ht, hx, List.append_assoc]⟩, List.prefix_refl _, fun k => ⟨_, Nat.le_refl _, hc k⟩⟩
      · obtain ⟨h1, h2, h3⟩ := hP' p hp
        refine ⟨h1, h2.trans ⟨[e], ht.symm⟩, fun k => ?_⟩
        obtain ⟨k', h4, h5⟩ := h3 k
        exact ⟨k', by rw [d.curCnt, f.curCnt]; omega, h5⟩

theorem Below.of_prefix {t t' : Tab} (h : t <+: t') : Below t t' := h.map _

theorem Decl.eff {s s' : PS} (h : Decl s s') : Eff s s' := by
  obtain ⟨d, ty, s1, s2, h1, f, -, rfl⟩ := h.run
  have h := h1.eff
  obtain ⟨x, hx, hx'⟩ := h.tab
  obtain ⟨P, hP, hP'⟩ := h.pts
  have hs : s2.tab = s.tab ++ x := by rw [f.tab, hx]
  refine ⟨⟨x, hs, fun e he => .inl (hx' e he)⟩, ?_, ?_, ?_, ?_, ?_, ?_, ⟨P, ?_, ?_⟩⟩
  · intro k
    have := h.curCnt k
    rw [← f.tab, ← f.curCnt] at this
    exact this
  · have := h.cntLe
    rw [← f.curCnt] at this
    exact this
  · intro _
    exact Nat.le_max_right _ _
  · have := h.maxCnt
    rw [← f.maxCnt] at this
    show s.maxCnt ≤ max s2.maxCnt s2.curCnt
    rw [this]
    exact Nat.le_max_left _ _
  · exact f.depth.trans h.depth
  · exact f.out.trans h.out
  · exact f.pts.trans hP
  · intro p hp
    obtain ⟨h3, h4, h5⟩ := hP' p hp
    refine ⟨h3, ?_, ?_, ?_⟩
    · rw [← f.tab] at h4
      exact .of_prefix h4
    · intro e he
      obtain ⟨y, hy⟩ := h4
      obtain ⟨z, hz⟩ := h3
      have : z ++ y = x := by
        rw [← hz, hx, List.append_assoc] at hy
        exact List.append_cancel_left hy
      rw [← hz] at he
      rw [show List.drop s.tab.length (s.tab ++ z) = z from List.drop_left] at he
      exact .inl (hx' e (this ▸ List.mem_append_left _ he))
    · intro k1 k2
      obtain ⟨k, h6, h7⟩ := h5 k1
      refine ⟨k, ?_, h7⟩
      rw [← f.curCnt] at h6
      exact Nat.le_trans h6 (Nat.le_max_right _ _)

/-- The end of a scope opened in state `s`, in the middle of which `s'` has been reached. -/
theorem Eff.close {s s' : PS} (h : Eff s s') (n : Option Tok) :
    Eff s { s'.close s.tab.length s.curCnt with lastStat := n } ∧
    ∃ x, setVoid s'.tab s.tab.length = s.tab ++ x ∧ ∀ e ∈ x, e.scope = ScVOID := by
  obtain ⟨x, hx, hx'⟩ := h.tab
  obtain ⟨P, hP, hP'⟩ := h.pts
  have hv : setVoid s'.tab s.tab.length = s.tab ++ x.map fun e => { e with scope := ScVOID } := by
    rw [hx, setVoid_app]
  have hx0 : ∀ e ∈ x.map (fun e : Ent => { e with scope := ScVOID }), e.scope = ScVOID := by
    intro e he
    obtain ⟨e', -, rfl⟩ := List.mem_map.1 he
    rfl
  refine ⟨⟨⟨_, hv, fun e he => .inr (hx0 e he)⟩, ?_, Nat.le_refl _, fun k => Nat.le_trans k h.maxCnt,
    h.maxCnt, h.depth, h.out, ⟨P, hP, ?_⟩⟩, _, hv, hx0⟩
  · intro k
    show slots (setVoid s'.tab s.tab.length) = _
    rw [hv, slots_app, slots_void hx0, List.append_nil]
    exact k
  · intro p hp
    have q := hP' p hp
    refine ⟨q.base, ?_, q.new, q.slot⟩
    show Below p (setVoid s'.tab s.tab.length)
    unfold Below
    rw [setVoid_er]
    exact q.er

theorem Eff.last {s s' : PS} (h : Eff s s') (n : Option Tok) : Eff s { s' with lastStat := n } := by
  obtain ⟨P, hP, hP'⟩ := h.pts
  exact ⟨h.tab, h.curCnt, h.cntLe, h.maxLe, h.maxCnt, h.depth, h.out, P, hP,
    fun p hp => ⟨(hP' p hp).base, (hP' p hp).er, (hP' p hp).new, (hP' p hp).slot⟩⟩

/-- The effect of a loop body, read with depth + 1. -/
theorem Eff.loop {s s1 s2 : PS} (h : Eff s s1) (g : Eff { s1 with depth := s1.depth + 1 } s2) :
    Eff s { s2 with depth := s2.depth - 1 } := by
  have g' : Eff s1 { s2 with depth := s2.depth - 1 } := by
    obtain ⟨P, hP, hP'⟩ := g.pts
    refine ⟨g.tab, g.curCnt, g.cntLe, g.maxLe, g.maxCnt, ?_, g.out, P, hP,
      fun p hp => ⟨(hP' p hp).base, (hP' p hp).er, (hP' p hp).new, (hP' p hp).slot⟩⟩
    show s2.depth - 1 = s1.depth
    rw [g.depth]
    rfl
  exact h.trans g'

/-- A state that has only its visible entries of before. -/
structure Back (s s' : PS) : Prop extends Eff s s' where
  void : ∃ x, s'.tab = s.tab ++ x ∧ ∀ e ∈ x, e.scope = ScVOID
  cnt : s'.curCnt = s.curCnt

theorem Fr.back {s s' : PS} (h : Fr s s') : Back s s' :=
  ⟨h.eff, ⟨[], by simp [h.tab], by simp⟩, h.curCnt⟩

theorem Back.trans {a b c : PS} (h : Back a b) (g : Back b c) : Back a c := by
  obtain ⟨x, hx, hx'⟩ := h.void
  obtain ⟨y, hy, hy'⟩ := g.void
  refine ⟨h.toEff.trans g.toEff, ⟨x ++ y, by rw [hy, hx, List.append_assoc], ?_⟩, g.cnt.trans h.cnt⟩
  intro e he
  rcases List.mem_append.1 he with he | he
  · exact hx' e he
  · exact hy' e he

theorem Back.mark (s : PS) : Back s s.mark := ⟨.mark s, ⟨[], by simp [PS.mark], by simp⟩, rfl⟩

theorem Back.last {s s' : PS} (h : Back s s') (n : Option Tok) : Back s { s' with lastStat := n } :=
  ⟨h.toEff.last n, h.void, h.cnt⟩

theorem Back.loop {s s1 s2 : PS} (h : Back s s1) (g : Back { s1 with depth := s1.depth + 1 } s2) :
    Back s { s2 with depth := s2.depth - 1 } := by
  have g' : Back s1 { s2 with depth := s2.depth - 1 } := ⟨(Fr.refl s1).eff.loop g.toEff, g.void, g.cnt⟩
  exact h.trans g'

theorem Simple.back {o : Opts} {ty : Int} {dim : Nat} {s s' : PS} {r : Option Stmt}
    (h : Simple o ty dim s r s') : Back s s' := by
  refine Back.trans (.mark s) ?_
  cases h with
  | ret _ h => exact ((Fr.next _).trans (getReturn_fr h).1).back
  | brk _ _ h => exact ((Fr.next _).trans (chkTok_fr h)).back
  | cnt _ _ h => exact ((Fr.next _).trans (chkTok_fr h)).back
  | semi => exact (Fr.next _).back
  | exp _ h1 h2 => exact ((lev_fr h1).trans (chkTok_fr h2)).back

theorem getIni_eff {o : Opts} {s s' : PS} {i : Option Stmt} (h : getIni o s = some (i, s')) :
    Eff s s' := by
  simp only [getIni, Option.bind_eq_bind, Option.bind_eq_some_iff] at h
  obtain ⟨⟨i, s1⟩, h1, s2, h2, h⟩ := h
  cases h
  refine Eff.trans ?_ (chkTok_fr h2).eff
  unfold getIni0 at h1
  split at h1
  · cases h1; exact (Fr.refl _).eff
  · split at h1
    · simp only [Option.map_eq_some_iff] at h1
      obtain ⟨⟨d, s3⟩, h3, h1⟩ := h1
      cases h1
      exact (getLVars_some h3).eff
    · simp only [Option.map_eq_some_iff] at h1
      obtain ⟨⟨d, s3⟩, h3, h1⟩ := h1
      cases h1
      exact (lev_fr h3).eff

theorem Run.eff {o : Opts} {ty : Int} {dim : Nat} {k : Option (Option Stmt)} {s s' : PS}
    {r : Option Stmt} (h : Run o ty dim k s r s') : Eff s s' ∧ (k = none → Back s s') := by
  induction h with
  | simple h => exact ⟨(h.back.last _).toEff, fun _ => h.back.last _⟩
  | ifs hd h1 _ ih =>
    have := (((Back.mark _).trans ((Fr.next _).trans (getCond_fr h1)).back).trans (ih.2 rfl)).last (some Lx.IF)
    rw [← hd] at this
    exact ⟨this.toEff, fun _ => this⟩
  | els hd h1 _ _ _ ih1 ih2 =>
    have := (((Back.mark _).trans ((Fr.next _).trans (getCond_fr h1)).back).trans
      ((ih1.2 rfl).trans ((Fr.next _).back.trans (ih2.2 rfl)))).last (some Lx.IF)
    rw [← hd] at this
    exact ⟨this.toEff, fun _ => this⟩
  | whl hd h1 _ ih =>
    have := (((Back.mark _).trans ((Fr.next _).trans (getCond_fr h1)).back).loop (ih.2 rfl)).last (some Lx.WHILE)
    rw [← hd] at this
    exact ⟨this.toEff, fun _ => this⟩
  | dos hd _ h2 h3 h4 ih =>
    have := ((((Back.mark _).trans (Fr.next _).back).loop (ih.2 rfl)).trans
      ((chkTok_fr h2).trans ((getCond_fr h3).trans (chkTok_fr h4))).back).last (some Lx.DO)
    rw [← hd] at this
    exact ⟨this.toEff, fun _ => this⟩
  | «for» hd h1 h2 h3 h4 _ ih =>
    have h := (((Back.mark _).toEff.trans (((Fr.next _).trans (chkTok_fr h1)).eff.trans
      ((getIni_eff h2).trans ((getForCond_fr h3).trans (getRini_fr h4)).eff))).loop (ih.2 rfl).toEff)
    have := h.close (some Lx.FOR)
    rw [← hd] at this
    exact ⟨this.1, fun _ => ⟨this.1, this.2, rfl⟩⟩
  | blk hd _ ih =>
    have h := ((Back.mark _).toEff.trans (Fr.next _).eff).trans ih.1
    have := h.close (some Lx.lbrc)
    rw [← hd] at this
    exact ⟨this.1, fun _ => ⟨this.1, this.2, rfl⟩⟩
  | done hd => exact ⟨(Fr.next _).eff, fun h => by cases h⟩
  | decl h1 h2 _ ih =>
    exact ⟨((getLVars_some h1).eff.trans (chkTok_fr h2).eff).trans ih.1, fun h => by cases h⟩
  | stat _ _ ih1 ih2 => exact ⟨ih1.1.trans ih2.1, fun h => by cases h⟩

/-- What reading a block does. -/
theorem getBlock_back {o : Opts} {ty : Int} {dim : Nat} {s s' : PS} {r : Option Stmt}
    (h : getBlock o ty dim s = some (r, s')) : Back s s' := by
  obtain ⟨l, s1, h1, h2⟩ := (run_all o ty dim).2.2.1 s _ h
  have := h1.eff.1.close s1.lastStat
  cases h2
  exact ⟨this.1, this.2, rfl⟩

theorem getStat_back {o : Opts} {ty : Int} {dim : Nat} {s s' : PS} {r : Option Stmt}
    (h : getStat o ty dim s = some (r, s')) : Back s s' :=
  ((run_all o ty dim).1 s _ h).eff.2 rfl

end Cmm.Parse
