import Verif.Parse.Top

/-
The names in the name table are names in the text (a tool for C67): whatever holds of all names among
the tokens, and of the empty name that stands for `...`, holds of all names in the table.
-/
namespace Cmm.Parse
open Cmm.Tree

/-- All names among the remaining tokens and in the table have the property `K`. -/
def Fed (K : String → Prop) (s : PS) : Prop := (∀ x, .name x ∈ s.toks → K x) ∧ ∀ e ∈ s.tab, K e.name

variable {K : String → Prop} {o : Opts} {s s' : PS}

theorem Fed.next (h : Fed K s) : Fed K s.next := ⟨fun x hx => h.1 x (List.mem_of_mem_tail hx), h.2⟩

theorem Fed.left {a : List Tok} (h : Fed K s) (ht : s.toks = a ++ s'.toks) (hb : s'.tab = s.tab) : Fed K s' :=
  ⟨fun x hx => h.1 x (by rw [ht]; exact List.mem_append_right _ hx), by rw [hb]; exact h.2⟩

/-- The other parts of the state do not matter. -/
theorem Fed.as (h : Fed K s) (ht : s'.toks = s.toks := by rfl) (hb : s'.tab = s.tab := by rfl) : Fed K s' := by
  unfold Fed; rw [ht, hb]; exact h

theorem fed_setVoid {t : Tab} {i : Nat} (h : ∀ e ∈ t, K e.name) : ∀ e ∈ setVoid t i, K e.name := by
  intro e he
  rcases List.mem_append.1 he with he | he
  · exact h e (List.mem_of_mem_take he)
  · obtain ⟨d, hd, rfl⟩ := List.mem_map.1 he
    exact h d (List.mem_of_mem_drop hd)

theorem fed_modify {f : Ent → Ent} (hf : ∀ e, (f e).name = e.name) {t : Tab} {i : Nat} (h : ∀ e ∈ t, K e.name) :
    ∀ e ∈ t.modify i f, K e.name := by
  intro e he
  obtain ⟨j, hj⟩ := List.mem_iff_getElem?.1 he
  rw [List.getElem?_modify] at hj
  cases ht : t[j]? with
  | none => rw [ht] at hj; cases hj
  | some d =>
    rw [ht] at hj
    have hd := h d (List.mem_of_getElem? ht)
    by_cases hi : i = j
    · simp [hi] at hj
      rw [← hj, hf]; exact hd
    · simp [hi] at hj
      rw [← hj]; exact hd

theorem fed_setScope {t : Tab} {i : Nat} {c : Int} (h : ∀ e ∈ t, K e.name) : ∀ e ∈ setScope t i c, K e.name :=
  fed_modify (f := fun e => { e with scope := c }) (fun _ => rfl) h

theorem fed_setCnt {t : Tab} {i : Nat} {c : Nat} (h : ∀ e ∈ t, K e.name) : ∀ e ∈ setCnt t i c, K e.name :=
  fed_modify (f := fun e => { e with cnt := c }) (fun _ => rfl) h

theorem fed_undef {t : Tab} {i : Nat} (h : ∀ e ∈ t, K e.name) : ∀ e ∈ undefName t i, K e.name :=
  fun e he => h e (List.mem_of_mem_take he)

theorem lev_fed {k : Nat} {w : W} (h : lev k s = some (w, s')) (hs : Fed K s) (hk : k ≤ 13 := by omega) : Fed K s' := by
  obtain ⟨x, hx⟩ := lev_sound h hk
  exact hs.left hx.toks hx.tab

theorem chkTok_fed {t : Tok} (h : chkTok t s = some s') (hs : Fed K s) : Fed K s' := by
  unfold chkTok at h
  split at h
  · cases h; exact hs.next
  · cases h

theorem getTy_fed {ty : Int} (h : getTy s = some (ty, s')) (hs : Fed K s) : Fed K s' := by
  simp only [getTy, Option.map_eq_some_iff] at h
  obtain ⟨⟨t, d, s1⟩, h1, h⟩ := h
  cases h
  unfold getType at h1
  split at h1
  · rename_i t r hr
    split at h1
    · cases h1
    · simp only [Option.map_eq_some_iff] at h1
      obtain ⟨⟨d, r'⟩, h2, h1⟩ := h1
      cases h1
      exact hs.left (a := t :: dimToks d) (by rw [hr, getDims_spec h2]; rfl) rfl
  · cases h1

theorem getName_fed {sc ty : Int} {pub : Bool} (h : getName o sc ty pub s = some s') (hs : Fed K s) : Fed K s' := by
  obtain ⟨x, h1, h2, h3⟩ := getName_some h
  obtain ⟨h4, -, -⟩ := defName_some h1
  refine ⟨fun y hy => hs.1 y (by rw [h2]; exact .tail _ hy), ?_⟩
  rw [h4]
  intro e he
  rcases List.mem_append.1 he with he | he
  · exact hs.2 e he
  · rw [List.mem_singleton.1 he]
    exact hs.1 x (by rw [h2]; exact .head _)

theorem getLVar_fed {ty : Int} {d : Stmt} (h : getLVar o ty s = some (d, s')) (hs : Fed K s) : Fed K s' := by
  unfold getLVar at h
  simp only [Option.bind_eq_bind, Option.bind_eq_some_iff] at h
  obtain ⟨s1, h1, h⟩ := h
  have g1 : Fed K s1.mark := (getName_fed (K := K) h1 hs.as).as
  split at h
  · simp only [Option.bind_eq_some_iff] at h
    obtain ⟨⟨w, s2⟩, h2, w', h3, h⟩ := h
    cases h
    exact lev_fed h2 g1.next
  · cases h; exact g1

theorem lvarLoop_fed {ty : Int} {d0 : Stmt} {r : Stmt × PS} (h : lvarLoop o ty d0 s = some r) : Fed K s → Fed K r.2 := by
  refine lvarLoop.partial_correctness o ty (fun _ s r => Fed K s → Fed K r.2) ?_ d0 s r h
  intro f ih d0 s r h hs
  split at h
  · simp only [Option.bind_eq_bind, Option.bind_eq_some_iff] at h
    obtain ⟨⟨d, s1⟩, h1, h⟩ := h
    exact ih _ _ _ h (getLVar_fed h1 hs.next)
  · cases h; exact hs

theorem getLVars_fed {d : Stmt} (h : getLVars o s = some (d, s')) (hs : Fed K s) : Fed K s' := by
  unfold getLVars at h
  simp only [Option.bind_eq_bind, Option.bind_eq_some_iff] at h
  obtain ⟨⟨ty, s1⟩, h1, ⟨d1, s2⟩, h2, ⟨d2, s3⟩, h3, h⟩ := h
  cases h
  exact lvarLoop_fed h3 (getLVar_fed h2 (getTy_fed h1 hs))

theorem getCond_fed {c : Expr} (h : getCond s = some (c, s')) (hs : Fed K s) : Fed K s' := by
  unfold getCond at h
  simp only [Option.bind_eq_bind, Option.bind_eq_some_iff] at h
  obtain ⟨s1, h1, ⟨w, s2⟩, h2, w', h3, s3, h4, h⟩ := h
  cases h
  exact chkTok_fed h4 (lev_fed h2 (chkTok_fed h1 hs))

theorem getIni_fed {i : Option Stmt} (h : getIni o s = some (i, s')) (hs : Fed K s) : Fed K s' := by
  unfold getIni at h
  simp only [Option.bind_eq_bind, Option.bind_eq_some_iff] at h
  obtain ⟨⟨i0, s1⟩, h1, s2, h2, h⟩ := h
  cases h
  refine chkTok_fed h2 ?_
  unfold getIni0 at h1
  split at h1
  · cases h1; exact hs
  · split at h1
    all_goals
      simp only [Option.map_eq_some_iff] at h1
      obtain ⟨⟨d, s3⟩, h3, h1⟩ := h1
      cases h1
    · exact getLVars_fed h3 hs
    · exact lev_fed h3 hs

theorem getForCond_fed {c : Option Expr} (h : getForCond s = some (c, s')) (hs : Fed K s) : Fed K s' := by
  unfold getForCond at h
  simp only [Option.bind_eq_bind, Option.bind_eq_some_iff] at h
  obtain ⟨⟨i0, s1⟩, h1, s2, h2, h⟩ := h
  cases h
  refine chkTok_fed h2 ?_
  unfold getForCond0 at h1
  split at h1
  · cases h1; exact hs
  · simp only [Option.bind_eq_bind, Option.bind_eq_some_iff] at h1
    obtain ⟨⟨w, s3⟩, h3, w', h4, h1⟩ := h1
    cases h1
    exact lev_fed h3 hs

theorem getRini_fed {c : Option Expr} (h : getRini s = some (c, s')) (hs : Fed K s) : Fed K s' := by
  unfold getRini at h
  simp only [Option.bind_eq_bind, Option.bind_eq_some_iff] at h
  obtain ⟨⟨i0, s1⟩, h1, s2, h2, h⟩ := h
  cases h
  refine chkTok_fed h2 ?_
  unfold getRini0 at h1
  split at h1
  · cases h1; exact hs
  · simp only [Option.map_eq_some_iff] at h1
    obtain ⟨⟨w, s3⟩, h3, h1⟩ := h1
    cases h1
    exact lev_fed h3 hs

theorem getReturn_fed {ty : Int} {dim : Nat} {r : Stmt} (h : getReturn ty dim s = some (r, s')) (hs : Fed K s) :
    Fed K s' := by
  unfold getReturn at h
  simp only [Option.bind_eq_bind, Option.bind_eq_some_iff] at h
  obtain ⟨⟨i0, s1⟩, h1, s2, h2, h⟩ := h
  cases h
  refine chkTok_fed h2 ?_
  unfold getRetVal at h1
  split at h1
  · simp only [Option.bind_eq_bind, Option.bind_eq_some_iff] at h1
    obtain ⟨⟨w, s3⟩, h3, w', h4, h1⟩ := h1
    cases h1
    exact lev_fed h3 hs
  · cases h1; exact hs

theorem Fed.close (h : Fed K s) (i c : Nat) : Fed K (s.close i c) := ⟨h.1, fed_setVoid h.2⟩

theorem Run.fed {ty : Int} {dim : Nat} {k : Option (Option Stmt)} {r : Option Stmt} (h : Run o ty dim k s r s') :
    Fed K s → Fed K s' := by
  induction h with
  | simple h =>
    intro hs
    cases h with
    | ret _ h1 => exact (getReturn_fed h1 (Fed.next hs.as)).as
    | brk _ _ h1 => exact (chkTok_fed h1 (Fed.next hs.as)).as
    | cnt _ _ h1 => exact (chkTok_fed h1 (Fed.next hs.as)).as
    | semi => exact (Fed.next hs).as
    | exp _ h1 h2 => exact (chkTok_fed h2 (lev_fed h1 hs.as)).as
  | ifs _ h1 _ ih => exact fun hs => (ih (getCond_fed h1 (Fed.next hs.as))).as
  | els _ h1 _ _ _ ih1 ih2 => exact fun hs => (ih2 (ih1 (getCond_fed h1 (Fed.next hs.as))).next).as
  | whl _ h1 _ ih => exact fun hs => (ih (getCond_fed h1 (Fed.next hs.as)).as).as
  | dos _ _ h1 h2 h3 ih =>
    exact fun hs => (chkTok_fed h3 (getCond_fed h2 (chkTok_fed h1 (ih (Fed.next hs).as).as))).as
  | «for» _ h1 h2 h3 h4 _ ih =>
    exact fun hs => (Fed.close (ih (getRini_fed h4 (getForCond_fed h3 (getIni_fed h2 (chkTok_fed h1 (Fed.next hs.as))))).as) _ 0).as
  | blk _ _ ih => exact fun hs => (Fed.close (ih (Fed.next hs.as)) _ 0).as
  | done _ => exact Fed.next
  | decl h1 h2 _ ih => exact fun hs => ih (chkTok_fed h2 (getLVars_fed h1 hs))
  | stat _ _ ih1 ih2 => exact fun hs => ih2 (ih1 hs)

theorem getBlock_fed {ty : Int} {dim : Nat} {r : Option Stmt} (h : getBlock o ty dim s = some (r, s')) (hs : Fed K s) :
    Fed K s' := by
  obtain ⟨l, s1, h1, h2⟩ := (run_all o ty dim).2.2.1 _ _ h
  cases h2
  exact (h1.fed hs).close _ _

theorem prmLoop_fed {old : Option Nat} {r : Bool × PS} (h : prmLoop o old s = some r) : Fed K s → Fed K r.2 := by
  refine prmLoop.partial_correctness o old (fun s r => Fed K s → Fed K r.2) ?_ s r h
  intro f ih s r h hs
  split at h
  · simp only [Option.bind_eq_bind, Option.bind_eq_some_iff] at h
    obtain ⟨⟨ty, s1⟩, h1, u, -, s2, h2, h⟩ := h
    have g := getName_fed h2 (getTy_fed (K := K) h1 hs)
    split at h
    · exact ih _ _ h (Fed.next g)
    · cases h; exact g
  · cases h; exact hs

theorem getParams_fed (hK : K "") {old : Option Nat} (h : getParams o old s = some s') (hs : Fed K s) : Fed K s' := by
  unfold getParams at h
  simp only [Option.bind_eq_bind, Option.bind_eq_some_iff] at h
  obtain ⟨⟨c, s1⟩, h1, s2, h2, h⟩ := h
  have g : Fed K s1 := prmLoop_fed (K := K) h1 hs
  refine chkTok_fed h ?_
  unfold getDots at h2
  split at h2
  · simp only [Option.bind_eq_bind, Option.bind_eq_some_iff] at h2
    obtain ⟨u, -, t, h3, h2⟩ := h2
    cases h2
    obtain ⟨h4, -, -⟩ := defName_some h3
    refine ⟨(Fed.next g).1, ?_⟩
    rw [h4]
    intro e he
    rcases List.mem_append.1 he with he | he
    · exact g.2 e he
    · rw [List.mem_singleton.1 he]; exact hK
  · cases h2; exact g

theorem getBody_fed {f : Nat} {ty : Int} {dim : Nat} {old : Option Nat} (h : getBody o f ty dim old s = some s')
    (hs : Fed K s) : Fed K s' := by
  unfold getBody at h
  simp only [Option.bind_eq_bind, Option.bind_eq_some_iff] at h
  obtain ⟨t, h1, ⟨b, s1⟩, h2, h⟩ := h
  have ht : ∀ e ∈ t, K e.name := by
    unfold setOld at h1
    split at h1
    · simp only [Option.bind_eq_bind, Option.bind_eq_some_iff] at h1
      obtain ⟨e, -, h1⟩ := h1
      split at h1
      · cases h1
      · cases h1; exact fed_setScope hs.2
    · cases h1; exact hs.2
  have g : Fed K s1 := getBlock_fed (K := K) h2 ⟨hs.1, fed_setScope ht⟩
  split at h
  · cases h
  · simp only [Option.bind_eq_some_iff] at h
    obtain ⟨c, h3, h⟩ := h
    cases h
    exact g

theorem getFunc_fed (hK : K "") {ty : Int} {pub : Bool} (h : getFunc o ty pub s = some s') (hs : Fed K s) : Fed K s' := by
  unfold getFunc at h
  dsimp only at h
  split at h
  · cases h
  split at h
  · cases h
  simp only [Option.bind_eq_bind, Option.bind_eq_some_iff] at h
  obtain ⟨s1, h1, h⟩ := h
  have g1 : Fed K s1 := getParams_fed hK h1 (Fed.next hs)
  split at h
  · cases h
  split at h
  · cases h
  simp only [Option.bind_eq_some_iff] at h
  obtain ⟨s2, h2, h⟩ := h
  have g2 : Fed K s2 := by
    unfold getBodyOrSemi at h2
    split at h2
    · exact getBody_fed (K := K) h2 (Fed.next ⟨g1.1, fed_setCnt g1.2⟩)
    · exact chkTok_fed (K := K) h2 ⟨g1.1, fed_setCnt g1.2⟩
  cases h
  refine ⟨g2.1, ?_⟩
  dsimp only
  unfold endFunc
  split
  · exact fed_undef g2.2
  · exact fed_setVoid (fed_undef g2.2)

theorem fldLoop_fed {ty : Int} (h : fldLoop o ty s = some s') : Fed K s → Fed K s' := by
  refine fldLoop.partial_correctness o ty (fun s s' => Fed K s → Fed K s') ?_ s s' h
  intro f ih s r h hs
  split at h
  · simp only [Option.bind_eq_bind, Option.bind_eq_some_iff] at h
    obtain ⟨s1, h1, h⟩ := h
    exact ih _ _ h (getName_fed h1 (Fed.next hs)).as
  · cases h; exact hs

theorem fldLines_fed (h : fldLines o s = some s') : Fed K s → Fed K s' := by
  refine fldLines.partial_correctness o (fun s s' => Fed K s → Fed K s') ?_ s s' h
  intro f ih s r h hs
  simp only [Option.bind_eq_bind, Option.bind_eq_some_iff] at h
  obtain ⟨s1, h1, h⟩ := h
  have g : Fed K s1 := by
    unfold getFieldLine at h1
    simp only [Option.bind_eq_bind, Option.bind_eq_some_iff] at h1
    obtain ⟨⟨ty, s2⟩, h2, s3, h3, s4, h4, h5⟩ := h1
    exact chkTok_fed h5 (fldLoop_fed h4 (getName_fed h3 (getTy_fed h2 hs)).as)
  split at h
  · cases h; exact Fed.next g
  · exact ih _ _ h g

theorem getStruct_fed (h : getStruct o s = some s') (hs : Fed K s) : Fed K s' := by
  unfold getStruct at h
  simp only [Option.bind_eq_bind, Option.bind_eq_some_iff] at h
  obtain ⟨s1, h1, s2, h2, s3, h3, h⟩ := h
  have g : Fed K s3 := chkTok_fed h3 (fldLines_fed h2 (chkTok_fed h1 hs).as)
  cases h
  exact ⟨g.1, fed_setCnt (fed_setVoid g.2)⟩

theorem getCnst_fed {ty : Int} {d : Gen.DT} (h : getCnst ty s = some (d, s')) (hs : Fed K s) : Fed K s' := by
  unfold getCnst at h
  simp only [Option.bind_eq_bind, Option.bind_eq_some_iff] at h
  obtain ⟨⟨w, s1⟩, h1, w', -, e, -, d', -, h⟩ := h
  cases h
  exact lev_fed h1 hs

theorem getArray0_fed : ∀ {dim : Nat} {s s' : PS} {d : Gen.DT}, getArray0 dim s = some (d, s') → Fed K s → Fed K s'
  | 0, _, _, _, h, _ => by cases h
  | dim + 1, s, s', d, h, hs => by
    simp only [getArray0, Option.bind_eq_bind, Option.bind_eq_some_iff] at h
    obtain ⟨⟨d1, s1⟩, h1, h⟩ := h
    have g := getCnst_fed (K := K) h1 hs
    split at h
    · cases h
    · split at h
      · simp only [Option.bind_eq_some_iff] at h
        obtain ⟨⟨d2, s2⟩, h2, h⟩ := h
        cases h
        exact getArray0_fed h2 g.next
      · cases h; exact g

theorem getArray_fed {ty : Int} {dim : Nat} {d : Gen.DT} (h : getArray ty dim s = some (d, s')) (hs : Fed K s) : Fed K s' := by
  unfold getArray at h
  simp only [Option.bind_eq_bind, Option.bind_eq_some_iff] at h
  obtain ⟨s1, h1, ⟨d1, s2⟩, h2, s3, h3, h⟩ := h
  cases h
  exact chkTok_fed h3 (getArray0_fed h2 (chkTok_fed h1 hs))

theorem getFldInit_fed {e : Ent} {d : Gen.DT} (h : getFldInit e s = some (d, s')) (hs : Fed K s) : Fed K s' := by
  unfold getFldInit at h
  split at h
  · simp only [Option.map_eq_some_iff] at h
    obtain ⟨s1, h1, h⟩ := h
    cases h
    exact chkTok_fed h1 hs
  · split at h
    · split at h
      · split at h
        · cases h
        · cases h; exact Fed.next hs
      · cases h; exact hs.next
      · cases h
    · split at h
      · exact getCnst_fed h hs
      · cases h

theorem getStructInit0_fed {i : Nat} {l : Option Gen.DT} {r : Gen.DT × PS} (h : getStructInit0 i l s = some r) :
    Fed K s → Fed K r.2 := by
  refine getStructInit0.partial_correctness (fun i l s r => Fed K s → Fed K r.2) ?_ i l s r h
  intro f ih i l s r h hs
  simp only [Option.bind_eq_bind, Option.bind_eq_some_iff] at h
  obtain ⟨e, -, h⟩ := h
  split at h
  · cases h
  · simp only [Option.bind_eq_some_iff] at h
    obtain ⟨⟨d, s1⟩, h1, h⟩ := h
    have g := getFldInit_fed (K := K) h1 hs
    split at h
    · exact ih _ _ _ _ h g.next
    · split at h
      · split at h
        · cases h
        · cases h; exact g
      · cases h; exact g

theorem getStructInit_fed {ty : Int} {d : Gen.DT} (h : getStructInit ty s = some (d, s')) (hs : Fed K s) : Fed K s' := by
  unfold getStructInit at h
  split at h
  · cases h; exact hs.next
  · simp only [Option.bind_eq_bind, Option.bind_eq_some_iff] at h
    obtain ⟨⟨d1, s1⟩, h1, s2, h2, h⟩ := h
    cases h
    exact chkTok_fed h2 (getStructInit0_fed h1 hs.next)
  · cases h

theorem getElm_fed {ty : Int} {d : Gen.DT} (h : getElm ty s = some (d, s')) (hs : Fed K s) : Fed K s' := by
  unfold getElm at h
  split at h
  · exact getStructInit_fed h hs
  · split at h
    · exact getCnst_fed h hs
    · cases h

theorem init_fed (ty : Int) :
    (∀ dim s r, initElm ty dim s = some r → Fed K s → Fed K r.2) ∧
    (∀ dim s r, getGArrayInit ty dim s = some r → Fed K s → Fed K r.2) ∧
    (∀ dim l s r, initLoop ty dim l s = some r → Fed K s → Fed K r.2) := by
  refine initElm.mutual_partial_correctness ty (fun dim s r => Fed K s → Fed K r.2) (fun dim s r => Fed K s → Fed K r.2)
    (fun dim l s r => Fed K s → Fed K r.2) ?_ ?_ ?_
  · intro g ih dim s r h hs
    split at h
    · exact getElm_fed h hs
    · exact ih _ _ _ h hs
  · intro g ih dim s r h hs
    split at h
    · simp only [Option.bind_eq_bind, Option.bind_eq_some_iff] at h
      obtain ⟨⟨d1, s1⟩, h1, s2, h2, h⟩ := h
      cases h
      exact chkTok_fed h2 (ih _ _ _ _ h1 hs.next)
    · split at h
      · cases h
      · cases h; exact Fed.next hs
    · exact getArray_fed h hs.next
    · cases h; exact hs.next
    · cases h
  · intro g l ih1 ih2 dim a s r h hs
    simp only [Option.bind_eq_bind, Option.bind_eq_some_iff] at h
    obtain ⟨⟨d1, s1⟩, h1, h⟩ := h
    split at h
    · exact ih2 _ _ _ _ h (Fed.next (ih1 _ _ _ h1 hs))
    · cases h
      have := ih1 _ _ _ h1 hs
      exact this

theorem getInit_fed {ty : Int} {dim : Nat} {d : Gen.DT} (h : getInit ty dim s = some (d, s')) (hs : Fed K s) : Fed K s' := by
  unfold getInit at h
  split at h
  · exact (init_fed ty).2.1 _ _ _ h hs
  · split at h
    · exact getCnst_fed h hs
    · split at h
      · exact getStructInit_fed h hs
      · cases h

theorem getGVar_fed {ty : Int} {pub : Bool} (h : getGVar ty pub s = some s') (hs : Fed K s) : Fed K s' := by
  unfold getGVar at h
  dsimp only at h
  split at h
  · simp only [Option.bind_eq_bind, Option.bind_eq_some_iff] at h
    obtain ⟨⟨d, s1⟩, h1, h⟩ := h
    have g : Fed K s1 := getInit_fed (K := K) h1 ⟨(Fed.next hs).1, fed_setScope hs.2⟩
    split at h
    · cases h
    split at h
    · simp only [Option.bind_eq_some_iff] at h
      obtain ⟨e, -, h⟩ := h
      split at h
      · cases h
      · split at h
        · cases h; exact ⟨g.1, fed_undef (fed_setScope g.2)⟩
        · cases h
    · cases h; exact g
  · split at h
    · simp only [Option.bind_eq_bind, Option.bind_eq_some_iff] at h
      obtain ⟨e, -, h⟩ := h
      split at h
      · split at h
        · cases h; exact ⟨hs.1, fed_undef hs.2⟩
        · cases h
      · cases h
    · cases h; exact hs

theorem getGVars_fed {ty : Int} {pub : Bool} (h : getGVars o ty pub s = some s') : Fed K s → Fed K s' := by
  refine getGVars.partial_correctness o ty pub (fun s s' => Fed K s → Fed K s') ?_ s s' h
  intro f ih s r h hs
  simp only [Option.bind_eq_bind, Option.bind_eq_some_iff] at h
  obtain ⟨s1, h1, h⟩ := h
  have g := getGVar_fed (K := K) h1 hs
  split at h
  · simp only [Option.bind_eq_some_iff] at h
    obtain ⟨s2, h2, h⟩ := h
    exact ih _ _ h (getName_fed h2 g.next)
  · exact chkTok_fed h g

theorem getDecl_fed (hK : K "") {pub : Bool} (h : getDecl o pub s = some s') (hs : Fed K s) : Fed K s' := by
  unfold getDecl at h
  simp only [Option.bind_eq_bind, Option.bind_eq_some_iff] at h
  obtain ⟨⟨ty, s1⟩, h1, s2, h2, h⟩ := h
  have g := getName_fed h2 (getTy_fed (K := K) h1 hs)
  split at h
  · exact getFunc_fed hK h g
  · split at h
    · cases h
    · split at h
      · cases h
      · exact getGVars_fed (K := K) h ⟨g.1, fed_setScope g.2⟩

theorem getProg_fed (hK : K "") (h : getProg o s = some s') (hs : Fed K s) : Fed K s' := by
  unfold getProg at h
  dsimp only at h
  have g : Fed K (if (s.toks.head? == some Lx.PUBLIC) = true then s.next else s) := by
    split
    · exact hs.next
    · exact hs
  generalize (if (s.toks.head? == some Lx.PUBLIC) = true then s.next else s) = s0 at h g
  split at h
  · split at h
    · cases h
    · simp only [Option.bind_eq_bind, Option.bind_eq_some_iff] at h
      obtain ⟨s1, h1, h⟩ := h
      exact getStruct_fed h (getName_fed h1 g.next)
  · split at h
    · cases h
    · simp only [Option.bind_eq_bind, Option.bind_eq_some_iff] at h
      obtain ⟨s1, h1, h⟩ := h
      exact chkTok_fed h (getName_fed h1 g.next)
  · exact getDecl_fed hK h g

theorem getSrc_fed (hK : K "") (h : getSrc o s = some s') : Fed K s → Fed K s' := by
  refine getSrc.partial_correctness o (fun s s' => Fed K s → Fed K s') ?_ s s' h
  intro f ih s r h hs
  split at h
  · cases h; exact hs
  · simp only [Option.bind_eq_bind, Option.bind_eq_some_iff] at h
    obtain ⟨s1, h1, h⟩ := h
    exact ih _ _ h (getProg_fed hK h1 hs)

/-- Every name in the table of an accepted program is empty or one of its tokens. -/
theorem names_written {toks : List Tok} (h : getSrc o (start toks) = some s) : ∀ e ∈ s.tab, e.name = "" ∨ .name e.name ∈ toks :=
  (getSrc_fed (K := fun x => x = "" ∨ .name x ∈ toks) (.inl rfl) h ⟨fun _ hx => .inr hx, nofun⟩).2

end Cmm.Parse
