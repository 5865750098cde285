import Verif.Lib.PathLemmas

/-
Specification of absolute paths, and the passes of absPath on paths as lists of components.
-/
namespace Cmm.Environ
open Cmm.Str

/-! Specification -/

/-- The components of a path: the parts between slashes (the first one is what is before the first slash). -/
def comps : List Byte → List (List Byte)
  | [] => [[]]
  | c :: r =>
    if c = 47#8 then [] :: comps r
    else match comps r with
      | w :: ws => (c :: w) :: ws
      | [] => [[c]]

/-- Walking one component from the directory `d` (the list of the names on the way from the root). -/
def step (d : List (List Byte)) (w : List Byte) : List (List Byte) :=
  if w = [] ∨ w = [46#8] then d
  else if w = [46#8, 46#8] then d.dropLast
  else d ++ [w]

/-- The directory reached from the root. -/
def walk (ws : List (List Byte)) : List (List Byte) := ws.foldl step []

/-- The path of a directory. -/
def pathOf : List (List Byte) → List Byte
  | [] => [47#8]
  | d => d.flatMap (47#8 :: ·)

/-! Paths and components -/

/-- Components as text. -/
def render (ws : List (List Byte)) : List Byte := ws.flatMap (47#8 :: ·)

@[simp] theorem render_nil : render [] = [] := rfl
@[simp] theorem render_cons (w : List Byte) (ws) : render (w :: ws) = 47#8 :: (w ++ render ws) := by
  simp [render]
theorem render_append (a b) : render (a ++ b) = render a ++ render b := by simp [render]

/-- No slash in a component. -/
def NoSlash (w : List Byte) : Prop := 47#8 ∉ w

theorem comps_ne (t : List Byte) : comps t ≠ [] := by
  cases t with
  | nil => simp [comps]
  | cons c r =>
    rw [comps]
    split
    · simp
    · split <;> simp

theorem comps_noSlash (t : List Byte) : ∀ w ∈ comps t, NoSlash w := by
  induction t with
  | nil => intro w hw; simp [comps] at hw; subst hw; simp [NoSlash]
  | cons c r ih =>
    intro w hw
    rw [comps] at hw
    split at hw
    · rcases List.mem_cons.1 hw with rfl | hw
      · simp [NoSlash]
      · exact ih w hw
    · rename_i hc
      split at hw
      · rename_i v vs e
        rw [e] at ih
        rcases List.mem_cons.1 hw with rfl | hw
        · have := ih v (by simp)
          simp only [NoSlash, List.mem_cons, not_or] at this ⊢
          exact ⟨fun h => hc h.symm, this⟩
        · exact ih w (by simp [hw])
      · rename_i e
        exact absurd e (comps_ne r)

/-- A text is its components. -/
theorem comps_render (t : List Byte) : ∃ w ws, comps t = w :: ws ∧ t = w ++ render ws := by
  induction t with
  | nil => exact ⟨[], [], rfl, rfl⟩
  | cons c r ih =>
    obtain ⟨w, ws, e1, e2⟩ := ih
    rw [comps, e1]
    split
    · rename_i hc
      subst hc
      exact ⟨[], w :: ws, rfl, by rw [e2]; simp⟩
    · exact ⟨c :: w, ws, rfl, by rw [e2]; simp⟩

theorem comps_word {w : List Byte} (hw : NoSlash w) (t : List Byte) :
    comps (w ++ t) = match comps t with
      | v :: vs => (w ++ v) :: vs
      | [] => [w] := by
  induction w with
  | nil =>
    cases h : comps t with
    | nil => exact absurd h (comps_ne t)
    | cons v vs => simp [h]
  | cons c w ih =>
    simp only [NoSlash, List.mem_cons, not_or] at hw
    rw [List.cons_append, comps, if_neg (fun h => hw.1 h.symm), ih hw.2]
    cases h : comps t with
    | nil => exact absurd h (comps_ne t)
    | cons v vs => rfl

theorem comps_of_render {ws : List (List Byte)} (h : ∀ w ∈ ws, NoSlash w) : comps (render ws) = [] :: ws := by
  induction ws with
  | nil => rfl
  | cons w ws ih =>
    rw [render_cons, comps, if_pos rfl, comps_word (h w (by simp)), ih (fun v hv => h v (by simp [hv]))]
    simp

/-! delDotDir -/

theorem delDot_word {w : List Byte} (hw : NoSlash w) (t : List Byte) : delDot (w ++ t) = w ++ delDot t := by
  induction w with
  | nil => rfl
  | cons c w ih =>
    simp only [NoSlash, List.mem_cons, not_or] at hw
    rw [List.cons_append, delDot, if_neg (fun h => hw.1 h.1.symm), ih hw.2, List.cons_append]

theorem head_render (ws : List (List Byte)) : (render ws).head? = some 47#8 ∨ render ws = [] := by
  cases ws with
  | nil => exact .inr rfl
  | cons w ws => exact .inl (by simp)

theorem dotNext_word {w : List Byte} (hw : NoSlash w) (ws : List (List Byte)) :
    dotNext (w ++ render ws) = true ↔ w = [46#8] := by
  cases w with
  | nil =>
    cases ws with
    | nil => simp [dotNext]
    | cons v vs => simp [dotNext]
  | cons c w =>
    cases w with
    | nil =>
      have := head_render ws
      simp [dotNext, this]
    | cons d w =>
      simp only [NoSlash, List.mem_cons, not_or] at hw
      have : d ≠ 47#8 := fun h => hw.2.1 h.symm
      simp [dotNext, this]

/-- What delDotDir makes of a component. -/
def undot (w : List Byte) : List Byte := if w = [46#8] then [] else w

theorem delDot_render {ws : List (List Byte)} (h : ∀ w ∈ ws, NoSlash w) :
    delDot (render ws) = render (ws.map undot) := by
  induction ws with
  | nil => simp [delDot]
  | cons w ws ih =>
    have hw := h w (by simp)
    have ih := ih (fun v hv => h v (by simp [hv]))
    rw [render_cons, delDot, List.map_cons, render_cons]
    by_cases he : w = [46#8]
    · subst he
      rw [if_pos ⟨rfl, (dotNext_word hw ws).2 rfl⟩]
      simp [undot, ih]
    · rw [if_neg (fun h => he ((dotNext_word hw ws).1 h.2)), delDot_word hw, ih]
      simp [undot, he]

/-! oneSlash -/

theorem oneS_word {w : List Byte} (hw : NoSlash w) (t : List Byte) : oneS (w ++ t) = w ++ oneS t := by
  induction w with
  | nil => rfl
  | cons c w ih =>
    simp only [NoSlash, List.mem_cons, not_or] at hw
    rw [List.cons_append, oneS, if_neg (fun h => hw.1 h.1.symm), ih hw.2, List.cons_append]

theorem oneS_render {ws : List (List Byte)} (h : ∀ w ∈ ws, NoSlash w) :
    oneS (render ws) = render (ws.filter (· ≠ [])) ++ (if ws.getLast? = some [] then [47#8] else []) := by
  induction ws with
  | nil => rfl
  | cons w ws ih =>
    have hw := h w (by simp)
    have ih := ih (fun v hv => h v (by simp [hv]))
    rw [render_cons, oneS]
    cases w with
    | nil =>
      cases ws with
      | nil => rfl
      | cons v vs =>
        rw [if_pos ⟨rfl, by simp⟩, List.nil_append, ih, List.getLast?_cons_cons]
        simp
    | cons c w =>
      have hc : c ≠ 47#8 := by
        simp only [NoSlash, List.mem_cons, not_or] at hw
        exact fun h => hw.1 h.symm
      rw [if_neg (by simp [hc]), oneS_word hw, ih]
      cases ws with
      | nil => simp
      | cons v vs =>
        rw [List.getLast?_cons_cons]
        simp [List.filter_cons]

theorem strip_oneS {ws : List (List Byte)} (h : ∀ w ∈ ws, NoSlash w) (hne : ws ≠ []) :
    strip (oneS (render ws)) = pathOf (ws.filter (· ≠ [])) := by
  rw [oneS_render h]
  generalize hf : ws.filter (· ≠ []) = fs
  have hfs : ∀ w ∈ fs, NoSlash w ∧ w ≠ [] := by
    intro w hw
    rw [← hf] at hw
    have := List.mem_filter.1 hw
    exact ⟨h w this.1, by simpa using this.2⟩
  have hpath : ∀ {l : List (List Byte)}, l ≠ [] → pathOf l = render l := by
    intro l hl
    cases l with
    | nil => exact absurd rfl hl
    | cons v vs => rfl
  by_cases hl : ws.getLast? = some []
  · rw [if_pos hl]
    cases hfe : fs with
    | nil => simp [strip, pathOf]
    | cons v vs =>
      rw [strip, if_pos ⟨by simp; omega, List.getLast?_concat⟩, hpath (by simp), List.dropLast_concat]
  · rw [if_neg hl, List.append_nil]
    have hlast : ∃ v, ws.getLast? = some v ∧ v ≠ [] := by
      cases hx : ws.getLast? with
      | none => exact absurd (List.getLast?_eq_none_iff.1 hx) hne
      | some v => exact ⟨v, rfl, fun e => hl (by rw [hx, e])⟩
    obtain ⟨v, hv, hvne⟩ := hlast
    obtain ⟨q, hq⟩ := List.getLast?_eq_some_iff.1 hv
    have hfs2 : fs = q.filter (· ≠ []) ++ [v] := by
      rw [← hf, hq, List.filter_append]
      simp [hvne]
    have hne2 : fs ≠ [] := by rw [hfs2]; simp
    rw [hpath hne2, strip, if_neg]
    rintro ⟨_, h2⟩
    rw [hfs2, render_append] at h2
    simp only [render_cons, render_nil, List.append_nil] at h2
    have hvl : (47#8 :: v).getLast? = v.getLast? := by
      cases v with
      | nil => exact absurd rfl hvne
      | cons a b => exact List.getLast?_cons_cons
    rw [List.getLast?_append, hvl] at h2
    cases hv2 : v.getLast? with
    | none => exact hvne (List.getLast?_eq_none_iff.1 hv2)
    | some x =>
      rw [hv2] at h2
      simp at h2
      subst h2
      exact (hfs v (by rw [hfs2]; simp)).1 (List.mem_of_getLast? hv2)

/-! delDotDotDir -/

theorem delDotDot_word {w : List Byte} (hw : NoSlash w) (out t : List Byte) :
    delDotDot out (w ++ t) = delDotDot (out ++ w) t := by
  induction w generalizing out with
  | nil => simp
  | cons c w ih =>
    simp only [NoSlash, List.mem_cons, not_or] at hw
    rw [List.cons_append, delDotDot, if_neg (fun h => hw.1 h.1.symm), if_neg (fun h => hw.1 h.1.symm), ih hw.2]
    simp

theorem dotDotNext_word {w : List Byte} (hw : NoSlash w) (ws : List (List Byte)) :
    dotDotNext (w ++ render ws) = true ↔ w = [46#8, 46#8] := by
  match w with
  | [] =>
    cases ws with
    | nil => simp [dotDotNext]
    | cons v vs =>
      have : ¬ (47#8 : Byte) = 46#8 := by decide
      cases hx : v ++ render vs with
      | nil => simp [hx, dotDotNext]
      | cons a b => simp [hx, dotDotNext]
  | [c] =>
    cases ws with
    | nil => simp [dotDotNext]
    | cons v vs => simp [dotDotNext]
  | [c, d] =>
    have := head_render ws
    simp [dotDotNext, this]
  | c :: d :: e :: w =>
    simp only [NoSlash, List.mem_cons, not_or] at hw
    have : e ≠ 47#8 := fun h => hw.2.2.1 h.symm
    simp [dotDotNext, this]

theorem pop_word (st : List Byte) (w : List Byte) (hw : NoSlash w) :
    pop (st ++ 47#8 :: w) = st := by
  have back : ∀ n, n ≤ w.length → pop.back (st ++ 47#8 :: w) (st.length + n) = st := by
    intro n
    induction n with
    | zero =>
      intro _
      cases hl : st.length with
      | zero =>
        have := List.length_eq_zero_iff.1 hl
        subst this
        rfl
      | succ k =>
        rw [Nat.add_zero, pop.back, if_pos]
        · rw [← hl]
          simp
        · rw [← hl, List.getElem?_append_right (by omega)]
          simp
    | succ n ih =>
      intro hn
      rw [← Nat.add_assoc, pop.back, if_neg]
      · exact ih (by omega)
      · rw [List.getElem?_append_right (by omega), show st.length + n + 1 - st.length = n + 1 by omega,
          List.getElem?_cons_succ, List.getElem?_eq_getElem (by omega)]
        intro e
        simp at e
        exact hw (e ▸ List.getElem_mem _)
  have hl : (st ++ 47#8 :: w).length = st.length + w.length + 1 := by simp; omega
  unfold pop
  rw [hl]
  exact back w.length (Nat.le_refl _)

theorem delDotDot_render {st fs : List (List Byte)} (hf : ∀ w ∈ fs, NoSlash w ∧ w ≠ [] ∧ w ≠ [46#8])
    (hs : ∀ w ∈ st, NoSlash w) :
    delDotDot (render st) (render fs) = render (fs.foldl step st) := by
  induction fs generalizing st with
  | nil => simp [delDotDot]
  | cons w fs ih =>
    obtain ⟨hw1, hw2, hw3⟩ := hf w (by simp)
    have hf' : ∀ w ∈ fs, NoSlash w ∧ w ≠ [] ∧ w ≠ [46#8] := fun v hv => hf v (by simp [hv])
    rw [render_cons, delDotDot, List.foldl_cons]
    by_cases he : w = [46#8, 46#8]
    · subst he
      rw [if_pos ⟨rfl, (dotDotNext_word hw1 fs).2 rfl⟩]
      have hpop : pop (render st) = render st.dropLast := by
        rcases List.eq_nil_or_concat st with rfl | ⟨q, v, rfl⟩
        · rfl
        · rw [List.concat_eq_append, List.dropLast_concat, render_append]
          simp only [render_cons, render_nil, List.append_nil]
          exact pop_word _ v (hs v (by simp))
      rw [hpop]
      have : step st [46#8, 46#8] = st.dropLast := by simp [step]
      rw [this]
      exact ih hf' (fun v hv => hs v (List.dropLast_subset _ hv))
    · rw [if_neg (fun h => he ((dotDotNext_word hw1 fs).1 h.2)), if_neg (by simp [hw2]), delDotDot_word hw1]
      have : step st w = st ++ [w] := by simp [step, hw2, hw3, he]
      rw [this]
      have e2 : render st ++ [47#8] ++ w = render (st ++ [w]) := by rw [render_append]; simp
      rw [e2]
      apply ih hf'
      intro v hv
      rcases List.mem_append.1 hv with hv | hv
      · exact hs v hv
      · simp at hv
        subst hv
        exact hw1

/-- The last step of absPath. -/
def orRoot (t : List Byte) : List Byte := if t = [] then [47#8] else t

theorem orRoot_render (d : List (List Byte)) : orRoot (render d) = pathOf d := by
  cases d with
  | nil => rfl
  | cons w ws => simp [orRoot, pathOf, render]

theorem foldl_step_filter (ws : List (List Byte)) (d : List (List Byte)) :
    ((ws.map undot).filter (· ≠ [])).foldl step d = ws.foldl step d := by
  induction ws generalizing d with
  | nil => rfl
  | cons w ws ih =>
    rw [List.map_cons, List.foldl_cons, List.filter_cons]
    by_cases h1 : w = []
    · subst h1
      have : undot [] = [] := by simp [undot]
      rw [this]
      simp only [ne_eq, not_true_eq_false, decide_false, Bool.false_eq_true, if_false]
      have h2 := ih d
      simp only [ne_eq] at h2
      rw [h2]
      simp [step]
    · by_cases h2 : w = [46#8]
      · subst h2
        have : undot [46#8] = [] := by simp [undot]
        rw [this]
        have h2 := ih d
        simp only [ne_eq] at h2
        simp only [ne_eq, not_true_eq_false, decide_false, Bool.false_eq_true, if_false]
        rw [h2]
        simp [step]
      · have : undot w = w := by simp [undot, h2]
        rw [this, if_pos (by simpa using h1), List.foldl_cons]
        exact ih _

/-- The three passes: the path of the directory reached. -/
theorem passes {t : List Byte} (ht : t.head? = some 47#8) :
    strip (oneS (delDot t)) = pathOf (((comps t).map undot).filter (· ≠ [])) ∧
    orRoot (delDotDot [] (strip (oneS (delDot t)))) = pathOf (walk (comps t)) := by
  obtain ⟨w, ws, e1, e2⟩ := comps_render t
  have hns := comps_noSlash t
  have hw : w = [] := by
    cases w with
    | nil => rfl
    | cons c w =>
      rw [e2] at ht
      simp at ht
      subst ht
      exact absurd (List.mem_cons_self) (hns (47#8 :: w) (by rw [e1]; simp))
  subst hw
  rw [List.nil_append] at e2
  have hns' : ∀ v ∈ ws, NoSlash v := fun v hv => hns v (by rw [e1]; simp [hv])
  have hne : ws ≠ [] := by
    rintro rfl
    rw [e2] at ht
    simp at ht
  have hud : ∀ v ∈ ws.map undot, NoSlash v := by
    intro v hv
    obtain ⟨u, hu, rfl⟩ := List.mem_map.1 hv
    unfold undot
    split
    · simp [NoSlash]
    · exact hns' u hu
  have h1 : strip (oneS (delDot t)) = pathOf ((ws.map undot).filter (· ≠ [])) := by
    rw [e2, delDot_render hns', strip_oneS hud (by simpa using hne)]
  have hfil : ((comps t).map undot).filter (· ≠ []) = (ws.map undot).filter (· ≠ []) := by
    rw [e1]
    simp [undot]
  refine ⟨by rw [hfil, h1], ?_⟩
  rw [h1]
  have hfs : ∀ w ∈ (ws.map undot).filter (· ≠ []), NoSlash w ∧ w ≠ [] ∧ w ≠ [46#8] := by
    intro v hv
    have h2 := List.mem_filter.1 hv
    refine ⟨hud v h2.1, by simpa using h2.2, ?_⟩
    obtain ⟨u, hu, rfl⟩ := List.mem_map.1 h2.1
    unfold undot
    split
    · simp
    · assumption
  have hwalk : walk (comps t) = ((ws.map undot).filter (· ≠ [])).foldl step [] := by
    rw [foldl_step_filter, e1]
    simp [walk, step]
  rw [hwalk]
  generalize (ws.map undot).filter (· ≠ []) = fs at hfs
  cases fs with
  | nil => simp [pathOf, delDotDot, orRoot, dotDotNext]
  | cons v vs =>
    have h3 := delDotDot_render (st := []) hfs (by simp)
    rw [render_nil] at h3
    rw [show pathOf (v :: vs) = render (v :: vs) from rfl, h3, orRoot_render]

end Cmm.Environ
