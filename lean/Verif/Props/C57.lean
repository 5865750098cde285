import Verif.Props.C48

/-
C57: the data generated for an initialised global variable represent the initial value as it is
written: nested lists in braces become areas with exactly the listed values in order, byte lists
become bytes, array(...) inside lists becomes an array of the declared shape, and the variable
refers to the outermost one.
-/
namespace Cmm.Gen

/- Specification. -/

/-- `cs` are the bytes of a list of constants. -/
def RepB : DT → List Dir → Prop
  | .cnst v, cs => cs = [.db v]
  | .semi l r, cs => ∃ a b, cs = a ++ b ∧ RepB l a ∧ RepB r b
  | _, _ => False

/-- Label `l` of the program `c` is an array of dimensions `ns`; bytes if `d` is the number of
dimensions. -/
def IsArray (c : List Dir) (ns : List Nat) (d l : Int) : Prop :=
  (∀ is, (follow c l is).isSome ↔ InB ns is) ∧
  (∀ is js, InB ns is → InB ns js → follow c l is = follow c l js → is = js) ∧
  (∀ is k i, follow c l is = some (k, i) →
    area c k = some [if d = ns.length then .bs (lastDim ns) else .ws (lastDim ns)])

/-- The directives `cs` are the values of the elements in the tree (one directive each, in
order), as stored in the program `c`. -/
def Rep (c : List Dir) : DT → List Dir → Prop
  | .cnst v, cs => cs = [.dw v]
  | .addr n, cs => cs = [.dwNam n]
  | .str l, cs => cs = [.dwLab l]
  | .other, _ => False
  | .semi l r, cs => ∃ a b, cs = a ++ b ∧ Rep c l a ∧ Rep c r b
  | .list b r, cs => ∃ l a, cs = [.dwLab l] ∧ area c l = some a ∧
      if r = 1 then RepB b a else Rep c b a
  | .arry d r, cs => ∃ l ns, cs = [.dwLab l] ∧ d = dimTree ns ∧ IsArray c ns r l

/-- Trees the parser builds: lists nested at most `k` deep, byte lists contain only constants. -/
def BytD : DT → Prop
  | .cnst _ => True
  | .semi l r => BytD l ∧ BytD r
  | _ => False

/-- Trees the parser builds: lists nested at most `k` deep, byte lists contain only constants. -/
def WfD : Nat → DT → Prop
  | _, .cnst _ => True
  | _, .addr _ => True
  | _, .str _ => True
  | _, .other => False
  | k, .semi l r => WfD k l ∧ WfD k r
  | 0, .list _ _ => False
  | k + 1, .list b r => if r = 1 then BytD b else WfD k b
  | 0, .arry _ _ => False
  | _ + 1, .arry d _ => ∃ ns, ns ≠ [] ∧ d = dimTree ns

/- Proof. -/

/-- Represented, whatever stands behind. -/
def R (c : List Dir) (t : DT) (cs : List Dir) : Prop := ∀ q, NB q → Rep (c ++ q) t cs

theorem R.mono {c c1 : List Dir} {t : DT} {cs : List Dir} (h : R c t cs) (hn : NB c1) :
    R (c ++ c1) t cs := fun q hq => by
  rw [List.append_assoc]; exact h _ (NB.append hn hq)

/-- The lists at depth `d` and deeper have been generated. -/
def Done (c : List Dir) : Nat → DT → DT → Prop
  | d, .semi l r, t' => ∃ l' r', t' = .semi l' r' ∧ Done c d l l' ∧ Done c d r r'
  | 0, .list b r, t' => ∃ b' r', t' = .list b' r' ∧ R c (.list b r) [.dwLab r']
  | d + 1, .list b r, t' => ∃ b', t' = .list b' r ∧ Done c d b b'
  | 0, .arry e r, t' => ∃ e' r', t' = .arry e' r' ∧ R c (.arry e r) [.dwLab r']
  | _ + 1, .arry e r, t' => t' = .arry e r
  | _, .other, _ => False
  | _, .cnst v, t' => t' = .cnst v
  | _, .addr v, t' => t' = .addr v
  | _, .str v, t' => t' = .str v

theorem bytD_done {c : List Dir} : ∀ {t : DT} {d : Nat}, BytD t → Done c d t t := by
  intro t
  induction t with
  | cnst v => intro d _; cases d <;> rfl
  | semi l r ihl ihr => intro d h; cases d <;> exact ⟨l, r, rfl, ihl h.1, ihr h.2⟩
  | _ => intro d h; exact absurd h (by simp [BytD])

theorem bytD_done_eq {c : List Dir} : ∀ {t t' : DT} {d : Nat}, BytD t → Done c d t t' → t' = t := by
  intro t
  induction t with
  | cnst v => intro t' d _ h; cases d <;> exact h
  | semi l r ihl ihr =>
    intro t' d hb h
    cases d <;> (obtain ⟨l', r', rfl, h1, h2⟩ := h; rw [ihl hb.1 h1, ihr hb.2 h2])
  | _ => intro t' d h; exact absurd h (by simp [BytD])

theorem done_init {c : List Dir} : ∀ {t : DT} {d : Nat}, WfD d t → Done c d t t := by
  intro t
  induction t with
  | cnst v => intro d _; cases d <;> rfl
  | addr v => intro d _; cases d <;> rfl
  | str v => intro d _; cases d <;> rfl
  | other => intro d h; cases d <;> exact h
  | semi l r ihl ihr => intro d h; cases d <;> exact ⟨l, r, rfl, ihl h.1, ihr h.2⟩
  | list b r ih =>
    intro d h
    cases d with
    | zero => exact absurd h (by simp [WfD])
    | succ d =>
      refine ⟨b, rfl, ?_⟩
      rw [WfD] at h
      split at h
      · exact bytD_done h
      · exact ih h
  | arry e r ih =>
    intro d h
    cases d with
    | zero => exact absurd h (by simp [WfD])
    | succ d => rfl

theorem Done.mono {c c1 : List Dir} (hn : NB c1) : ∀ {t t' : DT} {d : Nat},
    Done c d t t' → Done (c ++ c1) d t t' := by
  intro t
  induction t with
  | cnst v => intro t' d h; cases d <;> exact h
  | addr v => intro t' d h; cases d <;> exact h
  | str v => intro t' d h; cases d <;> exact h
  | other => intro t' d h; cases d <;> exact h
  | semi l r ihl ihr =>
    intro t' d h
    cases d <;> (obtain ⟨l', r', rfl, h1, h2⟩ := h; exact ⟨l', r', rfl, ihl h1, ihr h2⟩)
  | list b r ih =>
    intro t' d h
    cases d with
    | zero => obtain ⟨b', r', rfl, h⟩ := h; exact ⟨b', r', rfl, h.mono hn⟩
    | succ d => obtain ⟨b', rfl, h⟩ := h; exact ⟨b', rfl, ih h⟩
  | arry e r ih =>
    intro t' d h
    cases d with
    | zero => obtain ⟨b', r', rfl, h⟩ := h; exact ⟨b', r', rfl, h.mono hn⟩
    | succ d => exact h

/-- The elements of one list. -/
def cells (byt : Bool) : DT → List Dir
  | .semi l r => cells byt l ++ cells byt r
  | t => [genElm byt t]

theorem genList0_zero (byt : Bool) (m : Nat) : ∀ t : DT,
    genList0 t 0 byt m = (cells byt t, t, m) := by
  intro t
  induction t with
  | semi l r ihl ihr => rw [genList0]; simp only [ihl, ihr, cells]
  | _ => rfl

theorem genElm_cell (byt : Bool) (t : DT) : (genElm byt t).isCell := by
  unfold genElm
  split
  · split <;> rfl
  · cases t <;> rfl

theorem cells_cell (byt : Bool) : ∀ t : DT, ∀ x ∈ cells byt t, x.isCell := by
  intro t
  induction t with
  | semi l r ihl ihr =>
    intro x hx
    rw [cells, List.mem_append] at hx
    exact hx.elim (ihl x) (ihr x)
  | _ => intro x hx; rw [cells, List.mem_singleton] at hx; subst hx; exact genElm_cell _ _; all_goals simp

theorem dataLabs_cells {c : List Dir} (h : ∀ x ∈ c, x.isCell) : dataLabs c = [] := by
  induction c with
  | nil => rfl
  | cons x c ih =>
    have := h x (by simp)
    have ih := ih fun y hy => h y (by simp [hy])
    cases x <;> first | exact ih | exact absurd this (by simp [Dir.isCell])

theorem takeWhile_all {c : List Dir} (h : ∀ x ∈ c, x.isCell) : c.takeWhile Dir.isCell = c := by
  induction c with
  | nil => rfl
  | cons x c ih =>
    rw [List.takeWhile_cons, if_pos (h x (by simp)), ih fun y hy => h y (by simp [hy])]

theorem cells_repB : ∀ t : DT, BytD t → RepB t (cells true t) := by
  intro t
  induction t with
  | cnst v => intro _; rfl
  | semi l r ihl ihr => intro h; exact ⟨_, _, rfl, ihl h.1, ihr h.2⟩
  | _ => intro h; exact absurd h (by simp [BytD])

theorem cells_rep {c : List Dir} : ∀ {t t' : DT}, Done c 0 t t' → R c t (cells false t') := by
  intro t
  induction t with
  | cnst v => intro t' h q _; rw [show t' = _ from h]; rfl
  | addr v => intro t' h q _; rw [show t' = _ from h]; rfl
  | str v => intro t' h q _; rw [show t' = _ from h]; rfl
  | other => intro t' h; exact absurd h (by simp [Done])
  | semi l r ihl ihr =>
    intro t' h q hq
    obtain ⟨l', r', rfl, h1, h2⟩ := h
    exact ⟨_, _, rfl, ihl h1 q hq, ihr h2 q hq⟩
  | list b r ih => intro t' h; obtain ⟨b', r', rfl, h⟩ := h; exact h
  | arry b r ih => intro t' h; obtain ⟨b', r', rfl, h⟩ := h; exact h

/-- What one pass does. -/
structure Pass (c : List Dir) (d : Nat) (t : DT) (m : Nat) (r : List Dir × DT × Nat) : Prop where
  up : m ≤ r.2.2
  nb : NB r.1
  labs : dataLabs r.1 = List.range' (m + 1) (r.2.2 - m)
  done : Done (c ++ r.1) d t r.2.1

theorem genList0_pass : ∀ (t t' : DT) (k d : Nat) (byt : Bool) (c : List Dir) (m : Nat), WfD k t →
    (∀ l ∈ dataLabs c, l ≤ m) → Done c (d + 1) t t' → Pass c d t m (genList0 t' (d + 1) byt m) := by
  intro t
  have triv : ∀ (c : List Dir) (d m : Nat) (t t' : DT), Done c d t t' → Pass c d t m ([], t', m) :=
    fun c d m t t' h => ⟨le_refl _, NB.nil, by simp [dataLabs], by rw [List.append_nil]; exact h⟩
  induction t with
  | cnst v => intro t' k d byt c m _ _ h; rw [show t' = _ from h]; exact triv _ _ _ _ _ (by cases d <;> rfl)
  | addr v => intro t' k d byt c m _ _ h; rw [show t' = _ from h]; exact triv _ _ _ _ _ (by cases d <;> rfl)
  | str v => intro t' k d byt c m _ _ h; rw [show t' = _ from h]; exact triv _ _ _ _ _ (by cases d <;> rfl)
  | other => intro t' k d byt c m _ _ h; exact absurd h (by simp [Done])
  | semi l r ihl ihr =>
    intro t' k d byt c m hw hc h
    obtain ⟨l', r', rfl, h1, h2⟩ := h
    have hw' : WfD k l ∧ WfD k r := by cases k <;> exact hw
    have P1 := ihl l' k d byt c m hw'.1 hc h1
    rw [genList0]
    generalize genList0 l' (d + 1) byt m = r1 at P1
    obtain ⟨c1, l1, m1⟩ := r1
    obtain ⟨u1, n1, b1, e1⟩ := P1
    simp only at u1 n1 b1 e1
    have P2 := ihr r' k d byt (c ++ c1) m1 hw'.2 (by
      intro x hx
      rw [dataLabs_append, List.mem_append, b1, List.mem_range'_1] at hx
      rcases hx with hx | hx
      · have := hc x hx; omega
      · omega) (h2.mono n1)
    simp only
    generalize genList0 r' (d + 1) byt m1 = r2 at P2
    obtain ⟨c2, r2, m2⟩ := r2
    obtain ⟨u2, n2, b2, e2⟩ := P2
    simp only at u2 n2 b2 e2
    refine ⟨by simp only; omega, NB.append n1 n2, ?_, ?_⟩
    · simp only
      rw [dataLabs_append, b1, b2, show m1 + 1 = (m + 1) + 1 * (m1 - m) by omega,
        List.range'_append]
      congr 1; omega
    · simp only
      rw [← List.append_assoc]
      have e1 := e1.mono n2
      cases d <;> exact ⟨_, _, rfl, e1, e2⟩
  | list b r ih =>
    intro t' k d byt c m hw hc h
    obtain ⟨b', rfl, h⟩ := h
    cases k with
    | zero => exact absurd hw (by simp [WfD])
    | succ k =>
    rw [WfD] at hw
    cases d with
    | zero =>
      rw [genList0, if_pos rfl, genList0_zero]
      have hcell := cells_cell (decide (r = 1)) b'
      have htw : (cells (decide (r = 1)) b').takeWhile Dir.isCell = cells (decide (r = 1)) b' := by
        exact takeWhile_all hcell
      refine ⟨by simp only; omega, NB.lab _ _, ?_, ?_⟩
      · simp only [dataLabs]
        rw [dataLabs_cells hcell, show m + 1 - m = 1 by omega]; rfl
      · refine ⟨b', _, rfl, ?_⟩
        intro q hq
        refine ⟨_, cells (decide (r = 1)) b', rfl, ?_, ?_⟩
        · rw [List.append_assoc, area_skip (fun x hx => by have := hc x hx; omega)]
          simp only [List.cons_append]
          rw [area, if_pos (by push_cast; rfl), takeWhile_append_nb _ hq, htw]
        · split
          · rename_i hr
            rw [if_pos hr] at hw
            rw [bytD_done_eq hw h, decide_eq_true hr]
            exact cells_repB b hw
          · rename_i hr
            rw [decide_eq_false hr]
            rw [List.append_assoc]
            exact cells_rep h _ (NB.append (NB.lab _ _) hq)
    | succ d =>
      rw [genList0, if_neg (by omega)]
      have hP : Pass c d b m (genList0 b' (d + 1) (decide (r = 1)) m) := by
        by_cases hr : r = 1
        · rw [if_pos hr] at hw
          exact ih b' 0 d _ c m (bytD_wf hw) hc h
        · rw [if_neg hr] at hw
          exact ih b' k d _ c m hw hc h
      generalize genList0 b' (d + 1) (decide (r = 1)) m = r1 at hP
      obtain ⟨c1, b1, m1⟩ := r1
      obtain ⟨u1, n1, l1, e1⟩ := hP
      exact ⟨u1, n1, l1, ⟨_, rfl, e1⟩⟩
  | arry e r ih =>
    intro t' k d byt c m hw hc h
    rw [show t' = DT.arry e r from h]
    cases d with
    | succ d => exact triv _ _ _ _ _ rfl
    | zero =>
      cases k with
      | zero => exact absurd hw (by simp [WfD])
      | succ k =>
      obtain ⟨ns, hns, rfl⟩ := hw
      rw [genList0, if_pos rfl]
      have G := genArray0_good ns hns 1 r m
      refine ⟨le_trans (Nat.le_add_right m 1) G.up, G.nb, G.labs, ?_⟩
      refine ⟨_, _, rfl, ?_⟩
      intro q hq
      rw [List.append_assoc]
      refine ⟨_, ns, rfl, rfl, ?_, ?_, ?_⟩
      · exact fun is => C48_inside ns hns r m c q hc hq is
      · exact fun is js => C48_distinct ns hns r m c q hc hq is js
      · exact fun is k i h => (C48_area ns hns r m c q hc hq is k i h).1
where
  bytD_wf {t : DT} (h : BytD t) : WfD 0 t := by
    induction t with
    | cnst v => trivial
    | semi l r ihl ihr => exact ⟨ihl h.1, ihr h.2⟩
    | _ => exact absurd h (by simp [BytD])

theorem genListLoop_ok : ∀ (d : Nat) (t t' : DT) (k : Nat) (c : List Dir) (m : Nat), WfD k t →
    (∀ l ∈ dataLabs c, l ≤ m) → Done c d t t' → Pass c 0 t m (genListLoop d t' m) := by
  intro d
  induction d with
  | zero =>
    intro t t' k c m _ _ h
    exact ⟨le_refl _, NB.nil, by simp [genListLoop, dataLabs], by simpa [genListLoop] using h⟩
  | succ d ih =>
    intro t t' k c m hw hc h
    have P := genList0_pass t t' k d false c m hw hc h
    rw [genListLoop]
    generalize genList0 t' (d + 1) false m = r1 at P
    obtain ⟨c1, t1, m1⟩ := r1
    obtain ⟨u1, n1, b1, e1⟩ := P
    simp only at u1 n1 b1 e1
    have P2 := ih t t1 k (c ++ c1) m1 hw (by
      intro x hx
      rw [dataLabs_append, List.mem_append, b1, List.mem_range'_1] at hx
      rcases hx with hx | hx
      · have := hc x hx; omega
      · omega) e1
    simp only
    generalize genListLoop d t1 m1 = r2 at P2
    obtain ⟨c2, t2, m2⟩ := r2
    obtain ⟨u2, n2, b2, e2⟩ := P2
    simp only at u2 n2 b2 e2
    refine ⟨by simp only; omega, NB.append n1 n2, ?_, ?_⟩
    · simp only
      rw [dataLabs_append, b1, b2, show m1 + 1 = (m + 1) + 1 * (m1 - m) by omega,
        List.range'_append]
      congr 1; omega
    · simp only
      rw [← List.append_assoc]; exact e2

/-- A single value: not a list of values. -/
def single : DT → Bool
  | .semi _ _ | .other => false
  | _ => true

/-- The data of an initialised variable `idx` of dimension `dim`: the word under its name
represents the tree. -/
theorem C57_data (idx : Int) (dim : Nat) (t : DT) (m : Nat) (hw : WfD (dim + 1) t)
    (hs : single t) (p q : List Dir) (hp : ∀ k ∈ dataLabs p, k ≤ m) :
    ∃ c x, (genData idx dim t m).1 = c ++ [.nam idx, x] ∧
      Rep (p ++ ((genData idx dim t m).1 ++ q)) t [x] := by
  unfold genData
  cases t with
  | cnst v => exact ⟨_, _, rfl, rfl⟩
  | addr v => exact ⟨_, _, rfl, rfl⟩
  | str v => exact ⟨_, _, rfl, rfl⟩
  | other => exact absurd hs (by simp [single])
  | semi _ _ => exact absurd hs (by simp [single])
  | list b r =>
    have P := genListLoop_ok (dim + 1) _ _ _ p m hw hp (done_init hw)
    simp only [genList]
    generalize genListLoop (dim + 1) (.list b r) m = r1 at P
    obtain ⟨c1, t1, m1⟩ := r1
    obtain ⟨u1, n1, b1, e1⟩ := P
    refine ⟨c1, _, rfl, ?_⟩
    obtain ⟨b', r', he, hR⟩ := e1
    simp only at he
    subst he
    simp only
    have := hR ([.nam idx, .dwLab r'] ++ q) (NB.nam _ _)
    simpa only [List.append_assoc, genDW] using this
  | arry e r =>
    obtain ⟨ns, hns, rfl⟩ := hw
    simp only
    refine ⟨_, _, rfl, ?_⟩
    have hq' : NB ([.nam idx, .dwLab (genArray (dimTree ns) r m).2.1] ++ q) := NB.nam _ _
    rw [List.append_assoc]
    refine ⟨_, ns, rfl, rfl, ?_, ?_, ?_⟩
    · exact fun is => C48_inside ns hns r m p _ hp hq' is
    · exact fun is js => C48_distinct ns hns r m p _ hp hq' is js
    · exact fun is k i h => (C48_area ns hns r m p _ hp hq' is k i h).1

/-- The labels used are new and different. -/
theorem C57_labels (idx : Int) (dim : Nat) (t : DT) (m : Nat) (hw : WfD (dim + 1) t) :
    (dataLabs (genData idx dim t m).1).Nodup ∧
    (∀ k ∈ dataLabs (genData idx dim t m).1, m < k ∧ k ≤ (genData idx dim t m).2) ∧
    m ≤ (genData idx dim t m).2 := by
  have fin : ∀ (c : List Dir) (x : Dir) (m' : Nat), x.isCell → m ≤ m' →
      dataLabs c = List.range' (m + 1) (m' - m) →
      (dataLabs (c ++ [.nam idx, x])).Nodup ∧
      (∀ k ∈ dataLabs (c ++ [.nam idx, x]), m < k ∧ k ≤ m') ∧ m ≤ m' := by
    intro c x m' hx hm hc
    have hx : dataLabs [.nam idx, x] = [] :=
      dataLabs_cells (c := [x]) (fun y hy => by rw [List.mem_singleton] at hy; rw [hy]; exact hx)
    rw [dataLabs_append, hx, List.append_nil, hc]
    refine ⟨List.nodup_range', fun k hk => ?_, hm⟩
    rw [List.mem_range'_1] at hk; omega
  unfold genData
  cases t with
  | cnst v => exact fin [] _ m rfl (le_refl _) (by simp [dataLabs])
  | addr v => exact fin [] _ m rfl (le_refl _) (by simp [dataLabs])
  | str v => exact fin [] _ m rfl (le_refl _) (by simp [dataLabs])
  | other => exact absurd hw (by simp [WfD])
  | semi l r => exact fin [] _ m rfl (le_refl _) (by simp [dataLabs])
  | list b r =>
    have P := genListLoop_ok (dim + 1) _ _ _ [] m hw (by simp [dataLabs]) (done_init hw)
    simp only [genList]
    generalize genListLoop (dim + 1) (.list b r) m = r1 at P
    obtain ⟨c1, t1, m1⟩ := r1
    exact fin c1 _ m1 (genElm_cell false t1) P.up P.labs
  | arry e r =>
    obtain ⟨ns, hns, rfl⟩ := hw
    have G := genArray0_good ns hns 1 r m
    exact fin _ _ _ rfl (le_trans (Nat.le_add_right m 1) G.up) G.labs

/-- char x[][] = { {1,2}, array(3), null, "..." } -/
def exData : DT :=
  .list (.semi (.semi (.semi (.list (.semi (.cnst 1) (.cnst 2)) 1) (.arry (.cnst 3) 1)) (.cnst 0))
    (.str 4)) 2

example : WfD 3 exData ∧ single exData ∧
    genData 7 2 exData 10 = ([.lab 11, .db 1, .db 2, .lab 12, .bs 3,
      .lab 13, .dwLab 11, .dwLab 12, .dw 0, .dwLab 4, .nam 7, .dwLab 13], 13) := by
  refine ⟨?_, rfl, by decide +kernel⟩
  simp only [exData, WfD]
  simp only [show ¬ ((2 : Int) = 1) by decide, if_false, if_true, BytD, and_self, and_true, true_and]
  exact ⟨[3], by simp, rfl⟩

end Cmm.Gen
