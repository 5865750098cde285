import Verif.Parse.Scope

/-
What the parser does to the name table at the level of global declarations (tools for C34, C35,
C38 and C39).
-/
namespace Cmm.Parse
open Cmm.Tree

/-- Names of the kind `P` have been entered one after the other. -/
inductive Defs (P : Ent → Prop) : Tab → Tab → Prop
  | nil {t} : Defs P t t
  | snoc {t t1 t2 e} : Defs P t t1 → defName t1 e = some t2 → P e → Defs P t t2

theorem Defs.app {P : Ent → Prop} {t t' : Tab} (h : Defs P t t') :
    ∃ x, t' = t ++ x ∧ ∀ e ∈ x, P e := by
  induction h with
  | nil => exact ⟨[], by simp, by simp⟩
  | @snoc t1 t2 e _ h2 he ih =>
    obtain ⟨x, hx, hx'⟩ := ih
    refine ⟨x ++ [e], by rw [(defName_some h2).1, hx, List.append_assoc], ?_⟩
    intro e' h
    rcases List.mem_append.1 h with h | h
    · exact hx' _ h
    · rw [List.mem_singleton] at h
      rw [h]
      exact he

/-- The state but for tokens, labels, table, curCnt and curDim. -/
structure Fr2 (s s' : PS) : Prop where
  maxCnt : s'.maxCnt = s.maxCnt
  depth : s'.depth = s.depth
  lastStat : s'.lastStat = s.lastStat
  out : s'.out = s.out
  pts : s'.pts = s.pts

theorem Fr2.refl (s : PS) : Fr2 s s := ⟨rfl, rfl, rfl, rfl, rfl⟩
theorem Fr2.trans {a b c : PS} (h : Fr2 a b) (g : Fr2 b c) : Fr2 a c :=
  ⟨g.1.trans h.1, g.2.trans h.2, g.3.trans h.3, g.4.trans h.4, g.5.trans h.5⟩
theorem Fr.two {s s' : PS} (h : Fr s s') : Fr2 s s' := ⟨h.maxCnt, h.depth, h.lastStat, h.out, h.pts⟩

theorem getTy_two {s s' : PS} {ty : Int} (h : getTy s = some (ty, s')) :
    Fr2 s s' ∧ s'.tab = s.tab ∧ s'.curCnt = s.curCnt := by
  obtain ⟨d, f⟩ := getTy_some h
  exact ⟨⟨f.maxCnt, f.depth, f.lastStat, f.out, f.pts⟩, f.tab, f.curCnt⟩

theorem getName_two {o : Opts} {sc ty : Int} {pub : Bool} {s s' : PS}
    (h : getName o sc ty pub s = some s') :
    Fr2 s s' ∧ (∃ x, defName s.tab ⟨x, sc, ty, s.curDim, s.curCnt, pub⟩ = some s'.tab) ∧
      s'.curCnt = s.curCnt ∧ s'.curDim = s.curDim := by
  obtain ⟨x, h1, -, f⟩ := getName_some h
  exact ⟨⟨f.maxCnt, f.depth, f.lastStat, f.out, f.pts⟩, ⟨x, h1⟩, f.curCnt, f.curDim⟩

/-- A parameter. -/
def IsPrm (e : Ent) : Prop := e.scope = ScPRM
/-- A field. -/
def IsFld (e : Ent) : Prop := e.scope = ScFLD ∧ ¬(e.type = TyVOID ∧ e.dim = 0)
/-- Parameters are numbered from `n` on and are not of type void. -/
def Numb (n : Nat) (x : Tab) : Prop := ∀ (i : Nat) (e : Ent), x[i]? = some e → e.cnt = n + i ∧ ¬(e.type = TyVOID ∧ e.dim = 0)

theorem Numb.snoc {n : Nat} {x : Tab} {e : Ent} (h : Numb n x) (hc : e.cnt = n + x.length)
    (hv : ¬(e.type = TyVOID ∧ e.dim = 0)) : Numb n (x ++ [e]) := by
  intro i d hd
  rw [List.getElem?_append] at hd
  split at hd
  · exact h i d hd
  · rw [List.getElem?_singleton] at hd
    split at hd
    · cases hd
      exact ⟨by omega, hv⟩
    · cases hd

theorem prmLoop_some {o : Opts} {old : Option Nat} {s : PS} {r : Bool × PS}
    (h : prmLoop o old s = some r) :
    ∀ s0, Fr2 s0 s → Defs IsPrm s0.tab s.tab → Fr2 s0 r.2 ∧ Defs IsPrm s0.tab r.2.tab := by
  revert h
  refine prmLoop.partial_correctness o old
    (fun s r => ∀ s0, Fr2 s0 s → Defs IsPrm s0.tab s.tab → Fr2 s0 r.2 ∧ Defs IsPrm s0.tab r.2.tab) ?_ s r
  intro loop ih s r h s0 hf hd
  split at h
  · simp only [Option.bind_eq_bind, Option.bind_eq_some_iff] at h
    obtain ⟨⟨ty, s1⟩, h1, u, h2, s2, h3, h⟩ := h
    obtain ⟨f1, t1, -⟩ := getTy_two h1
    obtain ⟨f2, ⟨x, hx⟩, -⟩ := getName_two h3
    rw [t1] at hx
    have hd' : Defs IsPrm s0.tab s2.tab := .snoc hd hx rfl
    have hf' := (hf.trans f1).trans f2
    split at h
    · exact ih _ _ h s0 (hf'.trans ⟨rfl, rfl, rfl, rfl, rfl⟩) hd'
    · cases h
      exact ⟨hf', hd'⟩
  · cases h
    exact ⟨hf, hd⟩

theorem getParams_some {o : Opts} {old : Option Nat} {s s' : PS}
    (h : getParams o old s = some s') : Fr2 s s' ∧ Defs IsPrm s.tab s'.tab := by
  simp only [getParams, Option.bind_eq_bind, Option.bind_eq_some_iff] at h
  obtain ⟨⟨c, s1⟩, h1, s2, h2, h3⟩ := h
  obtain ⟨f1, d1⟩ := prmLoop_some h1 s ⟨rfl, rfl, rfl, rfl, rfl⟩ .nil
  have f3 := chkTok_fr h3
  unfold getDots at h2
  split at h2
  · simp only [Option.bind_eq_bind, Option.bind_eq_some_iff] at h2
    obtain ⟨u, -, t, h4, h2⟩ := h2
    cases h2
    refine ⟨f1.trans ⟨f3.maxCnt, f3.depth, f3.lastStat, f3.out, f3.pts⟩, ?_⟩
    rw [f3.tab]
    exact .snoc d1 h4 rfl
  · cases h2
    exact ⟨f1.trans f3.two, by rw [f3.tab]; exact d1⟩

/-- Parameters are numbered and not of type void. -/
theorem prmLoop_numb {o : Opts} {old : Option Nat} {s : PS} {r : Bool × PS} (h : prmLoop o old s = some r) :
    ∀ t x, s.tab = t ++ x → s.curCnt = x.length → Numb 0 x →
    ∃ y, r.2.tab = t ++ y ∧ Numb 0 y ∧ (r.1 = true → r.2.curCnt = y.length) := by
  revert h
  refine prmLoop.partial_correctness o old
    (fun s r => ∀ t x, s.tab = t ++ x → s.curCnt = x.length → Numb 0 x →
      ∃ y, r.2.tab = t ++ y ∧ Numb 0 y ∧ (r.1 = true → r.2.curCnt = y.length)) ?_ s r
  intro loop ih s r h t x hx hc hn
  split at h
  · simp only [Option.bind_eq_bind, Option.bind_eq_some_iff] at h
    obtain ⟨⟨ty, s1⟩, h1, u, h2, s2, h3, h⟩ := h
    obtain ⟨f1, t1, c1⟩ := getTy_two h1
    obtain ⟨z, g1, g2, g3⟩ := getName_some h3
    have hv : ¬(ty = TyVOID ∧ s1.curDim = 0) := getName_nv h3 (by decide)
    have c1 : s1.curCnt = s.curCnt := c1
    have c2 : s2.curCnt = s1.curCnt := g3.curCnt
    rw [t1, hx] at g1
    have g4 := (defName_some g1).1
    rw [List.append_assoc] at g4
    have hn' := hn.snoc (e := ⟨z, ScPRM, ty, s1.curDim, s1.curCnt, false⟩) (by show s1.curCnt = _; omega) hv
    split at h
    · refine ih _ _ h t _ g4 ?_ hn'
      show s2.curCnt + 1 = _
      simp
      omega
    · cases h
      exact ⟨_, g4, hn', fun h => by cases h⟩
  · cases h
    exact ⟨x, hx, hn, fun _ => hc⟩

theorem getParams_numb {o : Opts} {old : Option Nat} {s s' : PS} (h : getParams o old s = some s') :
    ∃ x, s'.tab = s.tab ++ x ∧ Numb 0 x := by
  simp only [getParams, Option.bind_eq_bind, Option.bind_eq_some_iff] at h
  obtain ⟨⟨c, s1⟩, h1, s2, h2, h3⟩ := h
  obtain ⟨x, d1, d2, d3⟩ := prmLoop_numb h1 s.tab [] (by simp) rfl (by intro i e h; simp at h)
  rw [(chkTok_fr h3).tab]
  unfold getDots at h2
  split at h2
  · simp only [Option.bind_eq_bind, Option.bind_eq_some_iff] at h2
    obtain ⟨u, -, t, h4, h2⟩ := h2
    cases h2
    have h5 := (defName_some h4).1
    refine ⟨x ++ [⟨"", ScPRM, TyDOTDOTDOT, 0, s1.curCnt, false⟩], ?_,
      d2.snoc (by show s1.curCnt = _; rw [d3 (by assumption)]; omega) (fun h => absurd (h.1 : TyDOTDOTDOT = TyVOID) (by decide))⟩
    show t = _
    rw [h5, ← List.append_assoc, ← d1]
    rfl
  · cases h2
    exact ⟨x, d1, d2⟩

theorem fldLoop_some {o : Opts} {ty : Int} {s s' : PS} (h : fldLoop o ty s = some s') :
    ∀ s0, Fr2 s0 s → Defs IsFld s0.tab s.tab → Fr2 s0 s' ∧ Defs IsFld s0.tab s'.tab := by
  revert h
  refine fldLoop.partial_correctness o ty
    (fun s r => ∀ s0, Fr2 s0 s → Defs IsFld s0.tab s.tab → Fr2 s0 r ∧ Defs IsFld s0.tab r.tab) ?_ s s'
  intro loop ih s r h s0 hf hd
  split at h
  · simp only [Option.bind_eq_bind, Option.bind_eq_some_iff] at h
    obtain ⟨s2, h3, h⟩ := h
    obtain ⟨f2, ⟨x, hx⟩, -⟩ := getName_two h3
    exact ih _ _ h s0 ((hf.trans ((Fr.next _).two.trans f2)).trans ⟨rfl, rfl, rfl, rfl, rfl⟩)
      (.snoc hd hx ⟨rfl, getName_nv (s := s.next) h3 (by decide)⟩)
  · cases h
    exact ⟨hf, hd⟩

theorem getFieldLine_some {o : Opts} {s s' : PS} (h : getFieldLine o s = some s') :
    Fr2 s s' ∧ ∀ t, Defs IsFld t s.tab → Defs IsFld t s'.tab := by
  simp only [getFieldLine, Option.bind_eq_bind, Option.bind_eq_some_iff] at h
  obtain ⟨⟨ty, s1⟩, h1, s2, h2, s3, h3, h4⟩ := h
  obtain ⟨f1, t1, -⟩ := getTy_two h1
  obtain ⟨f2, ⟨x, hx⟩, -⟩ := getName_two h2
  refine ⟨((f1.trans f2).trans (fldLoop_some h3 s2 ⟨rfl, rfl, rfl, rfl, rfl⟩ .nil).1).trans
    (chkTok_fr h4).two, fun t hd => ?_⟩
  rw [t1] at hx
  have hd' : Defs IsFld t s2.tab := .snoc hd hx ⟨rfl, getName_nv h2 (by decide)⟩
  rw [(chkTok_fr h4).tab]
  exact (fldLoop_some h3 { s2 with tab := t } ⟨rfl, rfl, rfl, rfl, rfl⟩ hd').2

theorem fldLines_some {o : Opts} {s s' : PS} (h : fldLines o s = some s') :
    ∀ s0, Fr2 s0 s → Defs IsFld s0.tab s.tab → Fr2 s0 s' ∧ Defs IsFld s0.tab s'.tab := by
  revert h
  refine fldLines.partial_correctness o
    (fun s r => ∀ s0, Fr2 s0 s → Defs IsFld s0.tab s.tab → Fr2 s0 r ∧ Defs IsFld s0.tab r.tab) ?_ s s'
  intro loop ih s r h s0 hf hd
  simp only [Option.bind_eq_bind, Option.bind_eq_some_iff] at h
  obtain ⟨s1, h1, h⟩ := h
  obtain ⟨f1, d1⟩ := getFieldLine_some h1
  split at h
  · cases h
    exact ⟨hf.trans (f1.trans (Fr.next _).two), d1 _ hd⟩
  · exact ih _ _ h s0 (hf.trans f1) (d1 _ hd)

theorem getStruct_some {o : Opts} {s s' : PS} (h : getStruct o s = some s') :
    Fr2 s s' ∧ ∃ t, Defs IsFld s.tab t ∧
      s'.tab = setCnt (setVoid t s.tab.length) (s.tab.length - 1) (t.length - s.tab.length) := by
  simp only [getStruct, Option.bind_eq_bind, Option.bind_eq_some_iff] at h
  obtain ⟨s1, h1, s2, h2, s3, h3, h⟩ := h
  cases h
  have f1 := chkTok_fr h1
  have f3 := chkTok_fr h3
  obtain ⟨f2, d2⟩ := fldLines_some h2 s1 ⟨rfl, rfl, rfl, rfl, rfl⟩ .nil
  refine ⟨(f1.two.trans f2).trans (f3.two.trans ⟨rfl, rfl, rfl, rfl, rfl⟩), s2.tab, f1.tab ▸ d2, ?_⟩
  show setCnt (setVoid s3.tab s1.tab.length) _ _ = _
  rw [f3.tab, f1.tab]
  congr 1
  have : (setVoid s2.tab s.tab.length).length = s2.tab.length := by
    have := congrArg List.length (setVoid_er s2.tab s.tab.length)
    simpa using this
  rw [this]

/-! Initial values change neither table nor counters. -/

theorem getCnst_fr {ty : Int} {s s' : PS} {d : Gen.DT} (h : getCnst ty s = some (d, s')) :
    Fr s s' := by
  simp only [getCnst, Option.bind_eq_bind, Option.bind_eq_some_iff] at h
  obtain ⟨⟨w, s1⟩, h1, w', h2, e, h3, d', h4, h⟩ := h
  cases h
  exact lev_fr h1

theorem getArray0_fr {dim : Nat} {s s' : PS} {d : Gen.DT} (h : getArray0 dim s = some (d, s')) :
    Fr s s' := by
  induction dim generalizing s s' d with
  | zero => cases h
  | succ dim ih =>
    simp only [getArray0, Option.bind_eq_bind, Option.bind_eq_some_iff] at h
    obtain ⟨⟨d1, s1⟩, h1, h⟩ := h
    have f1 := getCnst_fr h1
    split at h
    · cases h
    split at h
    · simp only [Option.bind_eq_some_iff] at h
      obtain ⟨⟨d2, s2⟩, h2, h⟩ := h
      cases h
      exact f1.trans ((Fr.next _).trans (ih h2))
    · cases h
      exact f1

theorem getArray_fr {ty : Int} {dim : Nat} {s s' : PS} {d : Gen.DT}
    (h : getArray ty dim s = some (d, s')) : Fr s s' := by
  simp only [getArray, Option.bind_eq_bind, Option.bind_eq_some_iff] at h
  obtain ⟨s1, h1, ⟨d1, s2⟩, h2, s3, h3, h⟩ := h
  cases h
  exact (chkTok_fr h1).trans ((getArray0_fr h2).trans (chkTok_fr h3))

theorem Fr.lab (s : PS) (n : Nat) : Fr s { s.next with lab := n } :=
  ⟨rfl, rfl, rfl, rfl, rfl, rfl, rfl, rfl⟩

theorem getFldInit_fr {e : Ent} {s s' : PS} {d : Gen.DT} (h : getFldInit e s = some (d, s')) :
    Fr s s' := by
  unfold getFldInit at h
  split at h
  · simp only [Option.map_eq_some_iff] at h
    obtain ⟨s1, h1, h⟩ := h
    cases h
    exact chkTok_fr h1
  split at h
  · split at h
    · split at h
      · cases h
      · cases h; exact .lab _ _
    · cases h; exact .next _
    · cases h
  split at h
  · exact getCnst_fr h
  · cases h

theorem getStructInit0_fr {i : Nat} {l : Option Gen.DT} {s : PS} {r : Gen.DT × PS}
    (h : getStructInit0 i l s = some r) : Fr s r.2 := by
  revert h
  refine getStructInit0.partial_correctness (fun i l s r => Fr s r.2) ?_ i l s r
  intro loop ih i l s r h
  simp only [Option.bind_eq_bind, Option.bind_eq_some_iff] at h
  obtain ⟨e, h1, h⟩ := h
  split at h
  · cases h
  simp only [Option.bind_eq_some_iff] at h
  obtain ⟨⟨d, s1⟩, h2, h⟩ := h
  have f1 := getFldInit_fr h2
  split at h
  · exact f1.trans ((Fr.next _).trans (ih _ _ _ _ h))
  · split at h
    · split at h
      · cases h
      · cases h; exact f1
    · cases h; exact f1

theorem getStructInit_fr {ty : Int} {s s' : PS} {d : Gen.DT}
    (h : getStructInit ty s = some (d, s')) : Fr s s' := by
  unfold getStructInit at h
  split at h
  · cases h; exact .next _
  · simp only [Option.bind_eq_bind, Option.bind_eq_some_iff] at h
    obtain ⟨⟨d1, s1⟩, h1, s2, h2, h⟩ := h
    cases h
    exact (Fr.next _).trans ((getStructInit0_fr h1).trans (chkTok_fr h2))
  · cases h

theorem getElm_fr {ty : Int} {s s' : PS} {d : Gen.DT} (h : getElm ty s = some (d, s')) : Fr s s' := by
  unfold getElm at h
  split at h
  · exact getStructInit_fr h
  split at h
  · exact getCnst_fr h
  · cases h

theorem init_all (ty : Int) :
    (∀ dim s r, initElm ty dim s = some r → Fr s r.2) ∧
    (∀ dim s r, getGArrayInit ty dim s = some r → Fr s r.2) ∧
    (∀ dim l s r, initLoop ty dim l s = some r → Fr s r.2) := by
  refine initElm.mutual_partial_correctness ty (fun dim s r => Fr s r.2) (fun dim s r => Fr s r.2)
    (fun dim l s r => Fr s r.2) ?_ ?_ ?_
  · intro g ih dim s r h
    split at h
    · exact getElm_fr h
    · exact ih _ _ _ h
  · intro g ih dim s r h
    split at h
    · simp only [Option.bind_eq_bind, Option.bind_eq_some_iff] at h
      obtain ⟨⟨d1, s1⟩, h1, s2, h2, h⟩ := h
      cases h
      exact (Fr.next _).trans ((ih _ _ _ _ h1).trans (chkTok_fr h2))
    · split at h
      · cases h
      · cases h; exact .lab _ _
    · exact (Fr.next _).trans (getArray_fr h)
    · cases h; exact .next _
    · cases h
  · intro g l ih1 ih2 dim a s r h
    simp only [Option.bind_eq_bind, Option.bind_eq_some_iff] at h
    obtain ⟨⟨d1, s1⟩, h1, h⟩ := h
    split at h
    · exact (ih1 _ _ _ h1).trans ((Fr.next _).trans (ih2 _ _ _ _ h))
    · cases h
      have := ih1 _ _ _ h1
      exact this

theorem getInit_fr {ty : Int} {dim : Nat} {s s' : PS} {d : Gen.DT}
    (h : getInit ty dim s = some (d, s')) : Fr s s' := by
  unfold getInit at h
  split at h
  · exact (init_all ty).2.1 _ _ _ h
  split at h
  · exact getCnst_fr h
  split at h
  · exact getStructInit_fr h
  · cases h

/-! Functions and variables. -/

/-- The global scopes. -/
def IsGlob (e : Ent) : Prop :=
  e.scope = ScPROT ∨ e.scope = ScFUNC ∨ e.scope = ScCOMM ∨ e.scope = ScGVAR

theorem srcGlob_iff {t : Tab} {d : Ent} {i : Nat} :
    srcGlob (t ++ [d]) t.length = some i ↔
      ∃ e, t[i]? = some e ∧ IsGlob e ∧ e.name = d.name ∧
        ∀ j e', j < i → t[j]? = some e' → ¬(IsGlob e' ∧ e'.name = d.name) := by
  have hp : ∀ e : Ent, ((e.scope == ScPROT || e.scope == ScFUNC || e.scope == ScCOMM ||
      e.scope == ScGVAR) && e.name == d.name) = true ↔ IsGlob e ∧ e.name = d.name := by
    intro e
    simp [IsGlob, or_assoc]
  have ha : ∀ j e, j < t.length → ((t ++ [d])[j]? = some e ↔ t[j]? = some e) := by
    intro j e hj
    rw [List.getElem?_append_left hj]
  unfold srcGlob
  simp only [List.getElem?_concat_length, firstIdx_iff]
  constructor
  · rintro ⟨h1, h2, ⟨e, he, hq⟩, h3⟩
    have hi : i < t.length := by omega
    refine ⟨e, (ha i e hi).1 he, ((hp e).1 hq).1, ((hp e).1 hq).2, ?_⟩
    intro j e' hj he' hq'
    have := h3 j e' (by omega) hj ((ha j e' (by omega)).2 he')
    rw [(hp e').2 hq'] at this
    cases this
  · rintro ⟨e, he, h1, h2, h3⟩
    have hi : i < t.length := (List.getElem?_eq_some_iff.1 he).1
    refine ⟨by omega, by omega, ⟨e, (ha i e hi).2 he, (hp e).2 ⟨h1, h2⟩⟩, ?_⟩
    intro j e' _ hj he'
    rw [Bool.eq_false_iff]
    exact fun hq' => h3 j e' hj ((ha j e' (by omega)).1 he') ((hp e').1 hq')

theorem setCnt_app (t r : Tab) (e : Ent) (c : Nat) :
    setCnt (t ++ e :: r) t.length c = t ++ { e with cnt := c } :: r := by
  unfold setCnt
  induction t with
  | nil => rfl
  | cons a t ih => simpa using ih

theorem setScope_app (t r : Tab) (e : Ent) (c : Int) :
    setScope (t ++ e :: r) t.length c = t ++ { e with scope := c } :: r := by
  unfold setScope
  induction t with
  | nil => rfl
  | cons a t ih => simpa using ih

theorem setScope_left {t r : Tab} {i : Nat} {c : Int} (h : i < t.length) :
    setScope (t ++ r) i c = setScope t i c ++ r := by
  unfold setScope
  induction t generalizing i with
  | nil => simp at h
  | cons a t ih =>
    cases i with
    | zero => rfl
    | succ i => simpa using ih (by simpa using h)

theorem setScope_len (t : Tab) (i : Nat) (c : Int) : (setScope t i c).length = t.length := by
  simp [setScope]

theorem undefName_app (t r : Tab) : undefName (t ++ r) t.length = t := by
  simp [undefName]

theorem undefName_app' {t r : Tab} {n : Nat} (h : t.length = n) : undefName (t ++ r) n = t := by
  rw [← h, undefName_app]

/-- The entry of a function definition: earlier declaration `old`, entries `t` before it. -/
def markOld (old : Option Nat) (t : Tab) : Tab :=
  match old with
  | some i => setScope t i ScFUNC
  | none => t

theorem markOld_len (old : Option Nat) (t : Tab) : (markOld old t).length = t.length := by
  cases old with
  | none => rfl
  | some i => exact setScope_len _ _ _

/-- A new declaration of a function fits the old one. -/
def FitsOld (t : Tab) (ty : Int) (dim c : Nat) (pub : Bool) (old : Option Nat) : Prop :=
  ∀ (i : Nat) (d : Ent), old = some i → t[i]? = some d → d.type = ty ∧ d.dim = dim ∧ d.cnt = c ∧ d.pub = pub

/-- A function has been read: `t` is the table before it, `e` its entry, `x` its parameters. -/
structure FunRun (o : Opts) (ty : Int) (t : Tab) (e : Ent) (s s' : PS) : Prop where
  run : ∃ x : Tab, ∃ old : Option Nat, old = srcGlob (t ++ [e]) t.length ∧
    (Defs IsPrm (t ++ [e]) (t ++ e :: x) ∧ Numb 0 x ∧ FitsOld t ty s.curDim x.length e.pub old) ∧
    ((Fr2 { s with lastStat := none } s' ∧
      s'.tab = match old with
        | some _ => t
        | none => t ++ { e with cnt := x.length } :: x.map fun e => { e with scope := ScVOID }) ∨
     ∃ s2 s3 b body,
      s2.tab = markOld old t ++ { e with cnt := x.length, scope := ScFUNC } :: x ∧
      s2.depth = s.depth ∧ s2.curCnt = 0 ∧ s2.maxCnt = 0 ∧ s2.pts = [] ∧ s2.lastStat = none ∧
      s2.out = s.out ∧ (∀ i, old = some i → ∃ d, t[i]? = some d ∧ d.scope = ScPROT) ∧
      getBlock o ty s.curDim s2 = some (b, s3) ∧
      (hasVal ty s.curDim → s3.lastStat = some Lx.RETURN) ∧ optS o (orEmpty b) = some body ∧
      s'.out = .func t.length s3.maxCnt (orEmpty b) body s3.tab s3.pts :: s3.out ∧
      s'.depth = s3.depth ∧ s'.pts = [] ∧
      s'.tab = match old with
        | some i => setScope t i ScFUNC
        | none => t ++ { e with cnt := x.length, scope := ScFUNC } ::
            x.map fun e => { e with scope := ScVOID })

theorem getFunc_some {o : Opts} {ty : Int} {pub : Bool} {s s' : PS} {t : Tab} {e : Ent}
    (ht : s.tab = t ++ [e]) (hp : e.pub = pub) (h : getFunc o ty pub s = some s') : FunRun o ty t e s s' := by
  have hl : s.tab.length - 1 = t.length := by rw [ht]; simp
  simp only [getFunc, hl] at h
  split at h
  · cases h
  rename_i hfit
  split at h
  · cases h
  simp only [Option.bind_eq_bind, Option.bind_eq_some_iff] at h
  obtain ⟨s1, h1, h⟩ := h
  split at h
  · cases h
  split at h
  · cases h
  rename_i hcnt
  simp only [Option.bind_eq_some_iff] at h
  obtain ⟨s2, h2, h⟩ := h
  cases h
  obtain ⟨f1, d1⟩ := getParams_some h1
  obtain ⟨z, z1, z2⟩ := getParams_numb h1
  have d1' : Defs IsPrm s.tab s1.tab := d1
  rw [ht] at d1'
  obtain ⟨x, hx, hx'⟩ := d1'.app
  rw [List.append_assoc, List.singleton_append] at hx
  have hc : s1.tab.length - s.tab.length = x.length := by rw [hx, ht]; simp; omega
  have hz : z = x := by
    have z1 : s1.tab = s.tab ++ z := z1
    rw [hx, ht, List.append_assoc, List.singleton_append] at z1
    simpa using (List.append_cancel_left z1).symm
  rw [hz] at z2
  rw [hc, hx, setCnt_app] at h2
  rw [hc, hx, setCnt_app] at hcnt
  have hfits : FitsOld t ty s.curDim x.length e.pub (srcGlob (t ++ [e]) t.length) := by
    intro i d hi hd
    have hl : i < t.length := (List.getElem?_eq_some_iff.1 hd).1
    rw [ht] at hfit hcnt
    rw [hi] at hfit hcnt
    simp only [fnFits, cntFits, List.getElem?_append_left hl, hd] at hfit hcnt
    simp at hfit hcnt
    exact ⟨hfit.2.2.1, hfit.2.2.2.1, hcnt, hfit.2.2.2.2.trans hp.symm⟩
  rw [ht] at h2 ⊢
  refine ⟨x, _, rfl, ⟨hx ▸ d1', z2, hfits⟩, ?_⟩
  have hold : ∀ i, srcGlob (t ++ [e]) t.length = some i → i < t.length := by
    intro i hi
    obtain ⟨e', he', -⟩ := srcGlob_iff.1 hi
    exact (List.getElem?_eq_some_iff.1 he').1
  generalize hold' : srcGlob (t ++ [e]) t.length = old at *
  have e1 : (t ++ [e]).length = (t ++ [({ e with cnt := x.length } : Ent)]).length := by simp
  have e2 : (setCnt s1.tab t.length (s1.tab.length - (t ++ [e]).length)).length =
      (t ++ ({ e with cnt := x.length } : Ent) :: x).length := by
    rw [hx]; simp [setCnt]
  rw [e2]
  unfold getBodyOrSemi at h2
  split at h2
  · rename_i hb
    right
    simp only [getBody, Option.bind_eq_bind, Option.bind_eq_some_iff] at h2
    obtain ⟨tb, h3, ⟨b, s3⟩, h4, h2⟩ := h2
    split at h2
    · cases h2
    rename_i hret
    simp only [Option.bind_eq_some_iff] at h2
    obtain ⟨body, h5, h2⟩ := h2
    cases h2
    have hb := getBlock_back h4
    obtain ⟨y, hy, -⟩ := hb.void
    have htb : tb = markOld old t ++ { e with cnt := x.length } :: x ∧
        ∀ i, old = some i → ∃ d, t[i]? = some d ∧ d.scope = ScPROT := by
      unfold setOld at h3
      cases old with
      | none =>
        cases h3
        exact ⟨rfl, fun i hi => by cases hi⟩
      | some i =>
        simp only [Option.bind_eq_bind, Option.bind_eq_some_iff] at h3
        obtain ⟨d, h6, h3⟩ := h3
        split at h3
        · cases h3
        rename_i hd
        cases h3
        have hi := hold i rfl
        refine ⟨setScope_left hi, ?_⟩
        intro j hj
        cases hj
        refine ⟨d, ?_, by simpa using hd⟩
        rw [← h6]
        show _ = (t ++ _)[i]?
        rw [List.getElem?_append_left hi]
    have hs2 : setScope tb t.length ScFUNC =
        markOld old t ++ { e with cnt := x.length, scope := ScFUNC } :: x := by
      rw [htb.1, ← markOld_len old t, setScope_app]
    rw [hs2] at hy h4
    refine ⟨_, s3, b, body, ?_, ?_, ?_, ?_, ?_, ?_, ?_, htb.2, h4, ?_, h5, rfl, rfl, rfl, ?_⟩
    · rfl
    · exact f1.depth
    · rfl
    · rfl
    · rfl
    · exact f1.lastStat
    · exact f1.out
    · intro hv
      by_contra hr
      exact hret ⟨hv, hr⟩
    · show endFunc old _ _ _ s3.tab = _
      rw [hy, List.append_assoc]
      cases old with
      | some i => exact undefName_app' (markOld_len _ _)
      | none =>
        show setVoid (undefName (t ++ (({ e with cnt := x.length, scope := ScFUNC } : Ent) :: x ++ y)) _) _ = _
        rw [← List.append_assoc, undefName_app' (by simp), e1, ← List.singleton_append, ← List.append_assoc]
        rw [show (t ++ [({ e with cnt := x.length } : Ent)]).length =
          (t ++ [({ e with cnt := x.length, scope := ScFUNC } : Ent)]).length by simp, setVoid_app]
        simp
  · left
    have f2 := chkTok_fr h2
    refine ⟨⟨f2.maxCnt.trans f1.maxCnt, f2.depth.trans f1.depth, f2.lastStat.trans f1.lastStat,
      f2.out.trans f1.out, f2.pts.trans f1.pts⟩, ?_⟩
    show endFunc old _ _ _ s2.tab = _
    rw [f2.tab]
    cases old with
    | some i => exact undefName_app _ _
    | none =>
      show setVoid (undefName _ _) _ = _
      rw [show undefName (t ++ ({ e with cnt := x.length } : Ent) :: x)
        (t ++ ({ e with cnt := x.length } : Ent) :: x).length = t ++ ({ e with cnt := x.length } : Ent) :: x by
          simp [undefName], ← List.singleton_append, ← List.append_assoc, e1, setVoid_app]
      simp

/-- `d` is the initial value of a variable of type `ty`, `dim` with the table `t`. -/
def Init (t : Tab) (ty : Int) (dim : Nat) (d : Gen.DT) : Prop := ∃ s s', s.tab = t ∧ getInit ty dim s = some (d, s')

/-- What the declaration of a variable `e` behind the table `t` hands to the code generator. -/
def VarOut (ty : Int) (dim : Nat) (t : Tab) (e : Ent) (t' : Tab) (out out' : List Out) : Prop :=
  (t' = t ∧ out' = out) ∨ (∃ d k, Init (t ++ [{ e with scope := ScGVAR }]) ty dim d ∧ Gen.Dir.bug ∉ (Gen.genData t.length dim d k).1 ∧
    (∃ d ∈ t', d.name = e.name ∧ d.pub = e.pub ∧ d.type = ty ∧ d.dim = dim ∧ d.scope = ScGVAR) ∧
    (t' = t ++ [{ e with scope := ScGVAR }] ∨ ∃ (i : Nat) (d : Ent), t[i]? = some d ∧ d.scope = ScCOMM ∧ d.name = e.name ∧ t' = setScope t i ScGVAR) ∧
    out' = .data t.length d (t ++ [{ e with scope := ScGVAR }]) k :: out) ∨
  (t' = t ++ [e] ∧ out' = .bss t.length (t ++ [e]) :: out)

theorem varFits_some {t : Tab} {i : Nat} {ty : Int} {dim : Nat} {pub : Bool} (h : varFits t i ty dim pub = true) :
    ∃ e : Ent, t[i]? = some e ∧ e.type = ty ∧ e.dim = dim ∧ e.pub = pub := by
  unfold varFits at h
  split at h
  · next e he =>
    simp only [Bool.and_eq_true, beq_iff_eq] at h
    exact ⟨e, he, h.1.1, h.1.2, h.2⟩
  · cases h

/-- What getGVar does to the table `t` with the new variable `e`. -/
theorem getGVar_some {ty : Int} {pub : Bool} {s s' : PS} {t : Tab} {e : Ent}
    (ht : s.tab = t ++ [e]) (hty : e.type = ty) (hdm : e.dim = s.curDim) (hpb : e.pub = pub) (h : getGVar ty pub s = some s') :
    (s'.depth = s.depth ∧ s'.pts = s.pts ∧ s'.curDim = s.curDim ∧
      VarOut ty s.curDim t e s'.tab s.out s'.out) ∧
    match srcGlob (t ++ [e]) t.length with
    | some i => ∃ d, t[i]? = some d ∧ (s'.tab = t ∨ d.scope = ScCOMM ∧ s'.tab = setScope t i ScGVAR)
    | none => s'.tab = t ++ [e] ∨ s'.tab = t ++ [{ e with scope := ScGVAR }] := by
  have hl : s.tab.length - 1 = t.length := by rw [ht]; simp
  simp only [getGVar, hl] at h
  rw [ht] at h
  have hold : ∀ i, srcGlob (t ++ [e]) t.length = some i → i < t.length := by
    intro i hi
    obtain ⟨e', he', -⟩ := srcGlob_iff.1 hi
    exact (List.getElem?_eq_some_iff.1 he').1
  generalize hold' : srcGlob (t ++ [e]) t.length = old at *
  split at h
  · simp only [Option.bind_eq_bind, Option.bind_eq_some_iff] at h
    obtain ⟨⟨d, s1⟩, h1, h⟩ := h
    rw [setScope_app] at h1
    have f := getInit_fr h1
    have ft : s1.tab = t ++ [{ e with scope := ScGVAR }] := f.tab
    split at h
    · cases h
    rename_i hb
    have hd : s1.curDim = s.curDim := f.curDim
    have hv : ∀ t' : Tab, (∃ d ∈ t', d.name = e.name ∧ d.pub = e.pub ∧ d.type = ty ∧ d.dim = s.curDim ∧ d.scope = ScGVAR) →
        (t' = t ++ [{ e with scope := ScGVAR }] ∨ ∃ (i : Nat) (d : Ent), t[i]? = some d ∧ d.scope = ScCOMM ∧ d.name = e.name ∧ t' = setScope t i ScGVAR) →
        VarOut ty s.curDim t e t' s.out (Out.data t.length d s1.tab s1.lab :: s1.out) := by
      intro t' ht' hs'
      refine .inr (.inl ⟨d, s1.lab, ⟨_, _, rfl, h1⟩, ?_, ht', hs', ?_⟩)
      · rw [← hd]; exact hb
      · rw [ft, f.out]; rfl
    cases old with
    | some i =>
      have hi := hold i rfl
      simp only [Option.bind_eq_some_iff] at h
      obtain ⟨e', h2, h⟩ := h
      split at h
      · cases h
      rename_i hsc
      have hu : undefName (setScope s1.tab i ScGVAR) t.length = setScope t i ScGVAR := by
        rw [ft, setScope_left hi, undefName_app' (setScope_len _ _ _)]
      rw [ft, List.getElem?_append_left hi] at h2
      split at h
      · next hfit =>
        cases h
        have hnm : e'.name = e.name := by
          obtain ⟨b, k1, -, k2, -⟩ := srcGlob_iff.1 hold'
          rw [h2] at k1
          cases k1
          exact k2
        refine ⟨⟨f.depth, f.pts, f.curDim, hv _ ?_ (.inr ⟨i, e', h2, by simpa using hsc, hnm, hu⟩)⟩, e', h2, .inr ⟨by simpa using hsc, hu⟩⟩
        obtain ⟨a, g1, g2, g3, g4⟩ := varFits_some hfit
        refine ⟨a, List.mem_of_getElem? g1, ?_, g4.trans hpb.symm, g2, g3.trans hd, ?_⟩
        all_goals
          rw [hu, setScope, List.getElem?_modify, h2] at g1
          simp only [if_true] at g1
          cases g1
        · exact hnm
        · rfl
      · cases h
    | none =>
      cases h
      exact ⟨⟨f.depth, f.pts, f.curDim, hv _ ⟨{ e with scope := ScGVAR }, ft ▸ List.mem_append_right _ (List.mem_singleton.2 rfl), rfl, rfl,
        hty, hdm, rfl⟩ (.inl ft)⟩, .inr ft⟩
  · cases old with
    | some i =>
      have hi := hold i rfl
      simp only [Option.bind_eq_bind, Option.bind_eq_some_iff] at h
      obtain ⟨e', h2, h⟩ := h
      rw [List.getElem?_append_left hi] at h2
      split at h
      · split at h
        · cases h
          exact ⟨⟨rfl, rfl, rfl, .inl ⟨undefName_app _ _, rfl⟩⟩, e', h2, .inl (undefName_app _ _)⟩
        · cases h
      · cases h
    | none =>
      cases h
      exact ⟨⟨rfl, rfl, rfl, .inr (.inr ⟨rfl, rfl⟩)⟩, .inl rfl⟩

/-- What the declaration of the variable `e` does to the table `t`. -/
def VarTab (t : Tab) (e : Ent) (t' : Tab) : Prop :=
  match srcGlob (t ++ [e]) t.length with
  | some i => ∃ d, t[i]? = some d ∧ (t' = t ∨ d.scope = ScCOMM ∧ t' = setScope t i ScGVAR)
  | none => t' = t ++ [e] ∨ t' = t ++ [{ e with scope := ScGVAR }]

/-- An invariant of the declarations holds at the end of the program. -/
structure TopInv (o : Opts) (I : Tab → Nat → List Out → Prop) : Prop where
  start : I [] 0 []
  struct : ∀ {t d out e t2}, I t d out → defName t e = some (t ++ [e]) → e.scope = ScSTRC →
    e.type = TySTRUC → Defs IsFld (t ++ [e]) t2 →
    I (setCnt (setVoid t2 (t.length + 1)) t.length (t2.length - (t.length + 1))) d out
  typedef : ∀ {t d out e}, I t d out → defName t e = some (t ++ [e]) → e.scope = ScSTRC →
    e.type = TyREF → I (t ++ [e]) d out
  func : ∀ {t s s' e ty}, I t s.depth s.out → s.tab = t ++ [e] → defName t e = some (t ++ [e]) →
    e.scope = ScPROT → e.type = ty → e.dim = s.curDim → FunRun o ty t e s s' →
    I s'.tab s'.depth s'.out
  var : ∀ {t d out e t' out'}, I t d out → defName t e = some (t ++ [e]) → e.scope = ScCOMM → ¬(e.type = TyVOID ∧ e.dim = 0) →
    VarTab t e t' → VarOut e.type e.dim t e t' out out' → I t' d out'

theorem chkName_glob {t : Tab} {x : String} : chkName t x ScCOMM = chkName t x ScPROT := by
  unfold chkName
  congr 1

variable {o : Opts} {I : Tab → Nat → List Out → Prop}

theorem TopInv.getGVars (hI : TopInv o I) {ty : Int} {pub : Bool} {s s' : PS}
    (h : Parse.getGVars o ty pub s = some s') : ∀ t e, s.tab = t ++ [e] →
    defName t e = some (t ++ [e]) → e.scope = ScCOMM → ¬(e.type = TyVOID ∧ e.dim = 0) → e.type = ty → e.dim = s.curDim → e.pub = pub → I t s.depth s.out →
    I s'.tab s'.depth s'.out := by
  revert h
  refine getGVars.partial_correctness o ty pub (fun s s' => ∀ t e, s.tab = t ++ [e] →
    defName t e = some (t ++ [e]) → e.scope = ScCOMM → ¬(e.type = TyVOID ∧ e.dim = 0) → e.type = ty → e.dim = s.curDim → e.pub = pub → I t s.depth s.out →
    I s'.tab s'.depth s'.out) ?_ s s'
  intro loop ih s s' h t e ht hd hc hv hty hdm hpb hi
  simp only [Option.bind_eq_bind, Option.bind_eq_some_iff] at h
  obtain ⟨s1, h1, h⟩ := h
  obtain ⟨⟨g1, -, -, g2⟩, g3⟩ := getGVar_some ht hty hdm hpb h1
  have h2 : I s1.tab s1.depth s1.out := by
    rw [g1]
    exact hI.var hi hd hc hv g3 (by rw [hty, hdm]; exact g2)
  split at h
  · simp only [Option.bind_eq_some_iff] at h
    obtain ⟨s2, h3, h⟩ := h
    obtain ⟨f, ⟨x, hx⟩, -, hdim⟩ := getName_two h3
    have hx' := hx
    rw [(defName_some hx).1] at hx'
    refine ih _ _ h s1.tab _ (defName_some hx).1 hx' rfl (getName_nv (s := s1.next) h3 (by decide)) rfl hdim.symm rfl ?_
    rw [f.depth, f.out]
    exact h2
  · have f := chkTok_fr h
    rw [f.tab, f.depth, f.out]
    exact h2

theorem TopInv.getProg (hI : TopInv o I) {s s' : PS} (h : Parse.getProg o s = some s')
    (hi : I s.tab s.depth s.out) : I s'.tab s'.depth s'.out := by
  unfold Parse.getProg at h
  simp only at h
  generalize hpub : (s.toks.head? == some Lx.PUBLIC) = pub at h
  generalize hs0 : (if pub = true then s.next else s) = s0 at h
  have f0 : Fr s s0 := by
    rw [← hs0]
    cases pub with
    | true => exact .next s
    | false => exact .refl s
  rw [← f0.tab, ← f0.depth, ← f0.out] at hi
  split at h
  · split at h
    · cases h
    simp only [Option.bind_eq_bind, Option.bind_eq_some_iff] at h
    obtain ⟨s1, h1, h⟩ := h
    obtain ⟨f, ⟨x, hx⟩, -⟩ := getName_two h1
    have ht := (defName_some hx).1
    rw [ht] at hx
    obtain ⟨f2, t2, g1, g2⟩ := getStruct_some h
    rw [f2.depth, f2.out, f.depth, f.out, g2]
    have hl : s1.tab.length = s0.tab.length + 1 := by rw [ht]; simp [PS.next]
    rw [hl]
    exact hI.struct hi hx rfl rfl (ht ▸ g1)
  · split at h
    · cases h
    simp only [Option.bind_eq_bind, Option.bind_eq_some_iff] at h
    obtain ⟨s1, h1, h⟩ := h
    obtain ⟨f, ⟨x, hx⟩, -⟩ := getName_two h1
    have ht := (defName_some hx).1
    rw [ht] at hx
    have f2 := chkTok_fr h
    rw [f2.depth, f2.out, f.depth, f.out, f2.tab, ht]
    exact hI.typedef hi hx rfl rfl
  · simp only [getDecl, Option.bind_eq_bind, Option.bind_eq_some_iff] at h
    obtain ⟨⟨ty, s1⟩, h1, s2, h2, h⟩ := h
    obtain ⟨f1, t1, -⟩ := getTy_two h1
    obtain ⟨f2, ⟨x, hx⟩, -, hdim⟩ := getName_two h2
    have ht := (defName_some hx).1
    rw [t1] at ht hx
    have hi2 : I s0.tab s2.depth s2.out := by
      rw [f2.depth, f2.out, f1.depth, f1.out]
      exact hi
    have hx' := hx
    rw [ht] at hx
    split at h
    · exact hI.func hi2 ht hx rfl rfl hdim.symm (getFunc_some ht rfl h)
    · split at h
      · cases h
      rename_i hnv
      split at h
      · cases h
      have hl : s2.tab.length - 1 = s0.tab.length := by rw [ht]; simp
      rw [hl] at h
      refine hI.getGVars h s0.tab ⟨x, ScCOMM, ty, s1.curDim, s1.curCnt, pub⟩ ?_ ?_ ?_ (hdim ▸ hnv) rfl hdim.symm rfl hi2
      · show setScope s2.tab _ _ = _
        rw [ht, setScope_app]
      · obtain ⟨-, g1, g2⟩ := defName_some hx'
        unfold defName
        rw [if_neg (by omega)]
        show (if (chkName s0.tab x ScCOMM).isSome = true then _ else _) = _
        rw [chkName_glob]
        rw [show chkName s0.tab x ScPROT = none from g2]
        rfl
      · rfl

theorem TopInv.getSrc (hI : TopInv o I) {s s' : PS} (h : Parse.getSrc o s = some s')
    (hi : I s.tab s.depth s.out) : I s'.tab s'.depth s'.out := by
  revert h hi
  refine getSrc.partial_correctness o
    (fun s s' => I s.tab s.depth s.out → I s'.tab s'.depth s'.out) ?_ s s'
  intro loop ih s s' h hi
  split at h
  · cases h; exact hi
  · simp only [Option.bind_eq_bind, Option.bind_eq_some_iff] at h
    obtain ⟨s1, h1, h⟩ := h
    exact ih _ _ h (hI.getProg h1 hi)

/-- The invariant holds at the end of every accepted program. -/
theorem TopInv.final (hI : TopInv o I) {toks : List Tok} {s : PS}
    (h : Parse.getSrc o (Parse.start toks) = some s) : I s.tab s.depth s.out :=
  hI.getSrc h hI.start

end Cmm.Parse
