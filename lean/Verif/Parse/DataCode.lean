import Verif.Parse.DataTree
import Verif.Tac.DataText

/-
The directives that the code generator makes from the initial value of a variable, for Verif/Props/C69.lean: which names are in
them, that labels stand before cells, and that renaming names in the tree renames them in the code.
-/
namespace Cmm.Parse
open Cmm.Tree Cmm.Gen Cmm.Tac

/-! ### Names -/

/-- The addresses in an initial value have the property `P`. -/
def Addrs (P : Int → Prop) : DT → Prop
  | .addr n => P n
  | .semi l r => Addrs P l ∧ Addrs P r
  | .list b _ => Addrs P b
  | _ => True

/-- Cells and labels; addresses have the property `P`. -/
def Fine (P : Int → Prop) : Dir → Prop
  | .dwNam n => P n
  | .nam _ | .str _ => False
  | _ => True

variable {P : Int → Prop} {T : Tab}

theorem tab_fine (ln : Int) (cnt : Nat) : ∀ x ∈ tab ln cnt, Fine P x := by
  induction cnt generalizing ln with
  | zero => exact nofun
  | succ cnt ih => exact List.forall_mem_cons.2 ⟨trivial, ih _⟩

theorem tabs_fine (cnt n : Nat) (ln : Int) (m : Nat) : ∀ x ∈ tabs cnt n ln m, Fine P x := by
  induction n generalizing ln m with
  | zero => exact nofun
  | succ n ih =>
    refine List.forall_mem_cons.2 ⟨trivial, fun x hx => ?_⟩
    rcases List.mem_append.1 hx with hx | hx
    · exact tab_fine _ _ x hx
    · exact ih _ _ x hx

theorem areas_fine {d : Dir} (hd : Fine P d) (n m : Nat) : ∀ x ∈ areas d n m, Fine P x := by
  induction n generalizing m with
  | zero => exact nofun
  | succ n ih => exact List.forall_mem_cons.2 ⟨trivial, List.forall_mem_cons.2 ⟨hd, ih _⟩⟩

theorem genArray0_fine (e : DT) : ∀ n d m, ∀ x ∈ (genArray0 e n d m).1, Fine P x := by
  induction e with
  | semi l r ihl ihr =>
    intro n d m x hx
    cases r with
    | cnst v =>
      simp only [genArray0] at hx
      rcases List.mem_append.1 hx with hx | hx
      · exact ihl _ _ _ x hx
      · exact tabs_fine _ _ _ _ x hx
    | _ => simp only [genArray0, List.mem_singleton] at hx; subst hx; trivial
  | cnst v =>
    intro n d m x hx
    refine areas_fine ?_ _ _ x hx
    split <;> trivial
  | _ => intro n d m x hx; simp only [genArray0, List.mem_singleton] at hx; subst hx; trivial

theorem genDW_fine {t : DT} (h : Addrs P t) : Fine P (genDW t) := by
  cases t <;> first | exact h | trivial

theorem genElm_fine {t : DT} (h : Addrs P t) (byt : Bool) : Fine P (genElm byt t) := by
  unfold genElm
  split
  · split <;> trivial
  · exact genDW_fine h

theorem genList0_fine : ∀ {t : DT}, Addrs P t → ∀ d byt m, (∀ x ∈ (genList0 t d byt m).1, Fine P x) ∧ Addrs P (genList0 t d byt m).2.1 := by
  intro t
  have leaf : ∀ {t : DT} {byt : Bool}, Addrs P t → ∀ x ∈ [genElm byt t], Fine P x := fun h x hx => by
    cases List.mem_singleton.1 hx
    exact genElm_fine h _
  induction t with
  | semi l r ihl ihr =>
    intro h d byt m
    simp only [genList0]
    refine ⟨fun x hx => ?_, (ihl h.1 _ _ _).2, (ihr h.2 _ _ _).2⟩
    rcases List.mem_append.1 hx with hx | hx
    · exact (ihl h.1 _ _ _).1 x hx
    · exact (ihr h.2 _ _ _).1 x hx
  | list b r ih =>
    intro h d byt m
    cases d with
    | zero => exact ⟨leaf h, h⟩
    | succ d =>
      simp only [genList0]
      split
      · exact ⟨List.forall_mem_cons.2 ⟨trivial, (ih h _ _ _).1⟩, (ih h _ _ _).2⟩
      · exact ⟨(ih h _ _ _).1, (ih h _ _ _).2⟩
  | arry e r ih =>
    intro h d byt m
    cases d with
    | zero => exact ⟨leaf h, h⟩
    | succ d =>
      simp only [genList0]
      split
      · exact ⟨genArray0_fine _ _ _ _, trivial⟩
      · exact ⟨nofun, trivial⟩
  | _ =>
    intro h d byt m
    cases d with
    | zero => exact ⟨leaf h, h⟩
    | succ d => exact ⟨nofun, h⟩

theorem genListLoop_fine : ∀ (n : Nat) {t : DT}, Addrs P t → ∀ m, (∀ x ∈ (genListLoop n t m).1, Fine P x) ∧ Addrs P (genListLoop n t m).2.1
  | 0, _, h, _ => ⟨nofun, h⟩
  | n + 1, t, h, m => by
    simp only [genListLoop]
    have h1 := genList0_fine h (n + 1) false m
    have h2 := genListLoop_fine n h1.2 (genList0 t (n + 1) false m).2.2
    refine ⟨fun x hx => ?_, h2.2⟩
    rcases List.mem_append.1 hx with hx | hx
    · exact h1.1 x hx
    · exact h2.1 x hx

/-- The directives of a variable: cells and labels, its name, and a cell. -/
theorem genData_fine {t : DT} (h : Addrs P t) (idx : Int) (dim m : Nat) :
    ∃ c v, (genData idx dim t m).1 = c ++ [.nam idx, v] ∧ (∀ x ∈ c, Fine P x) ∧ Fine P v := by
  cases t with
  | list b r =>
    have := genListLoop_fine (dim + 1) (t := .list b r) h m
    exact ⟨_, _, rfl, this.1, genDW_fine this.2⟩
  | arry e r => exact ⟨_, _, rfl, genArray0_fine _ _ _ _, trivial⟩
  | _ => exact ⟨[], _, rfl, nofun, genDW_fine h⟩

theorem leaves_addrs : ∀ {t : DT}, Leaves T t → Addrs (fun n => Leaf T (.addr n)) t := by
  intro t
  induction t with
  | semi l r ihl ihr => intro h; exact ⟨ihl h.1, ihr h.2⟩
  | list | arry => intro h; cases h
  | addr n => intro h; exact h
  | _ => intro _; trivial

theorem shape_addrs : ∀ {t : DT} {k : Nat}, Form T k t → Addrs (fun n => Leaf T (.addr n)) t := by
  intro t
  induction t with
  | semi l r ihl ihr => intro k h; cases k <;> exact ⟨ihl h.1, ihr h.2⟩
  | list b r ih =>
    intro k h
    cases k with
    | zero => cases h
    | succ k =>
      rw [Form] at h
      split at h
      · exact leaves_addrs (t := b) h
      · exact ih h
  | addr n => intro k h; cases k <;> exact h
  | _ => intro _ _; trivial

/-! ### Renaming -/

/-- The names of an initial value. -/
def renD (g : Int → Int) : DT → DT
  | .addr n => .addr (g n)
  | .semi l r => .semi (renD g l) (renD g r)
  | .list b r => .list (renD g b) r
  | d => d

/-- The names of a directive. -/
def renDir (g : Int → Int) : Dir → Dir
  | .nam i => .nam (g i)
  | .dwNam i => .dwNam (g i)
  | d => d

variable {g : Int → Int}

theorem map_fine {c : List Dir} (h : ∀ x ∈ c, Fine (fun _ => False) x) : c.map (renDir g) = c := by
  refine (List.map_congr_left fun x hx => ?_).trans (List.map_id c)
  have := h x hx
  cases x <;> first | rfl | cases this

theorem genElm_ren (byt : Bool) (t : DT) : genElm byt (renD g t) = renDir g (genElm byt t) := by
  cases t <;> cases byt <;> rfl

theorem genList0_ren : ∀ (t : DT) (d : Nat) (byt : Bool) (m : Nat), genList0 (renD g t) d byt m =
    ((genList0 t d byt m).1.map (renDir g), renD g (genList0 t d byt m).2.1, (genList0 t d byt m).2.2) := by
  intro t
  induction t with
  | semi l r ihl ihr => intro d byt m; simp only [renD, genList0, ihl, ihr, List.map_append]
  | list b r ih =>
    intro d byt m
    cases d with
    | zero => simp only [renD, genList0, List.map_cons, List.map_nil, ← genElm_ren]
    | succ d =>
      simp only [renD, genList0]
      split <;> simp only [ih, renD, List.map_cons, renDir]
  | arry e r ih =>
    intro d byt m
    cases d with
    | zero => simp only [renD, genList0, List.map_cons, List.map_nil, ← genElm_ren]
    | succ d =>
      simp only [renD, genList0]
      split
      · simp only [genArray, map_fine (genArray0_fine _ _ _ _), renD]
      · rfl
  | _ =>
    intro d byt m
    cases d with
    | zero => simp only [renD, genList0, List.map_cons, List.map_nil, ← genElm_ren]
    | succ d => simp only [renD, genList0, List.map_nil]

theorem genListLoop_ren : ∀ (n : Nat) (t : DT) (m : Nat), genListLoop n (renD g t) m =
    ((genListLoop n t m).1.map (renDir g), renD g (genListLoop n t m).2.1, (genListLoop n t m).2.2)
  | 0, _, _ => rfl
  | n + 1, t, m => by simp only [genListLoop, genList0_ren, genListLoop_ren n, List.map_append]

theorem genDW_ren (t : DT) : genDW (renD g t) = renDir g (genDW t) := by cases t <;> rfl

theorem genData_ren (idx : Int) (dim : Nat) (t : DT) (m : Nat) : genData (g idx) dim (renD g t) m =
    ((genData idx dim t m).1.map (renDir g), (genData idx dim t m).2) := by
  cases t with
  | list b r =>
    have := genListLoop_ren (g := g) (dim + 1) (.list b r) m
    simp only [renD] at this
    simp only [renD, genData, genList, this, List.map_append, List.map_cons, List.map_nil, renDir, genDW_ren]
  | arry e r =>
    simp only [renD, genData, genArray, List.map_append, map_fine (genArray0_fine _ _ _ _), List.map_cons, List.map_nil, renDir, genDW]
  | _ => simp only [renD, genData, List.map_append, List.map_cons, List.map_nil, renDir, genDW]

theorem bytD_ren : ∀ {t : DT}, BytD t → BytD (renD g t) := by
  intro t
  induction t with
  | semi l r ihl ihr => intro h; exact ⟨ihl h.1, ihr h.2⟩
  | cnst => intro h; exact h
  | _ => intro h; cases h

theorem wfD_ren : ∀ {t : DT} {k : Nat}, WfD k t → WfD k (renD g t) := by
  intro t
  induction t with
  | semi l r ihl ihr => intro k h; cases k <;> exact ⟨ihl h.1, ihr h.2⟩
  | list b r ih =>
    intro k h
    cases k with
    | zero => cases h
    | succ k =>
      rw [WfD] at h
      rw [renD, WfD]
      split at h
      · next hr => rw [if_pos hr]; exact bytD_ren h
      · next hr => rw [if_neg hr]; exact ih h
  | _ => intro k h; cases k <;> exact h

theorem single_ren {t : DT} (h : single t = true) : single (renD g t) = true := by
  cases t <;> first | rfl | cases h

/-! ### Labels stand before cells -/

theorem cellFirst_app {a b : List Dir} (h : cellFirst a = true) : cellFirst (a ++ b) = true := by
  cases a with
  | nil => cases h
  | cons => exact h

theorem paired_app : ∀ {a b : List Dir}, paired a = true → paired b = true → paired (a ++ b) = true
  | [], _, _, h => h
  | d :: a, b, ha, hb => by
    simp only [paired, Bool.and_eq_true, Bool.or_eq_true, List.cons_append] at ha ⊢
    exact ⟨⟨ha.1.1, ha.1.2.imp (fun h => h) cellFirst_app⟩, paired_app ha.2 hb⟩

theorem isAddr_lab (n : Nat) : isAddr (.lab n) = false := rfl
theorem isAddr_nam (n : Int) : isAddr (.nam n) = false := rfl

theorem tab_paired (ln : Int) (cnt : Nat) : paired (tab ln cnt) = true := by
  induction cnt generalizing ln with
  | zero => rfl
  | succ cnt ih => simp [tab, paired, isAddr, Dir.isCell, ih]

theorem tabs_paired {cnt : Nat} (hc : 0 < cnt) (n : Nat) (ln : Int) (m : Nat) : paired (tabs cnt n ln m) = true := by
  induction n generalizing ln m with
  | zero => rfl
  | succ n ih =>
    have h1 : cellFirst (tab ln cnt ++ tabs cnt n (ln + cnt) (m + 1)) = true := by
      obtain ⟨c, rfl⟩ := Nat.exists_eq_succ_of_ne_zero (by omega : cnt ≠ 0)
      rfl
    have h2 := paired_app (tab_paired ln cnt) (ih (ln + cnt) (m + 1))
    simp [tabs, paired, isAddr, h1, h2]

theorem areas_paired {d : Dir} (hd : d.isCell = true) (ha : isAddr d = false) (n m : Nat) : paired (areas d n m) = true := by
  induction n generalizing m with
  | zero => rfl
  | succ n ih => simp [areas, paired, hd, ha, ih, cellFirst, isAddr_lab]

theorem genArray0_paired : ∀ {e : DT}, Dims e → ∀ n d m, paired (genArray0 e n d m).1 = true := by
  intro e
  induction e with
  | semi l r ihl ihr =>
    intro h n d m
    cases r with
    | cnst v =>
      have h' : Dims l ∧ 0 < v := h
      simp only [genArray0]
      exact paired_app (ihl h'.1 _ _ _) (tabs_paired (by omega) _ _ _)
    | _ => rfl
  | cnst v =>
    intro _ n d m
    simp only [genArray0]
    split <;> exact areas_paired rfl rfl _ _
  | _ => intro _ n d m; rfl

/-- No address. -/
abbrev NoAddr (t : DT) : Prop := Addrs (fun _ => False) t

theorem genElm_cell' {t : DT} (h : NoAddr t) (byt : Bool) : (genElm byt t).isCell = true ∧ isAddr (genElm byt t) = false := by
  cases t <;> cases byt <;> first | exact ⟨rfl, rfl⟩ | cases h

theorem cells_paired : ∀ {t : DT}, NoAddr t → ∀ byt m, paired (genList0 t 0 byt m).1 = true ∧ cellFirst (genList0 t 0 byt m).1 = true := by
  intro t
  have leaf : ∀ {t : DT} {byt : Bool}, NoAddr t → paired [genElm byt t] = true ∧ cellFirst [genElm byt t] = true := fun {t byt} h => by
    obtain ⟨h1, h2⟩ := genElm_cell' h byt
    simp [paired, h1, h2, cellFirst]
  induction t with
  | semi l r ihl ihr =>
    intro h byt m
    simp only [genList0]
    exact ⟨paired_app (ihl h.1 _ _).1 (ihr h.2 _ _).1, cellFirst_app (ihl h.1 _ _).2⟩
  | _ => intro h byt m; exact leaf h

theorem genList0_paired : ∀ {t : DT} {d : Nat}, Under T d t → NoAddr t → ∀ byt m, paired (genList0 t (d + 1) byt m).1 = true := by
  intro t
  induction t with
  | semi l r ihl ihr =>
    intro d hu h byt m
    have hu' : Under T d l ∧ Under T d r := by cases d <;> exact hu
    simp only [genList0]
    exact paired_app (ihl hu'.1 h.1 _ _) (ihr hu'.2 h.2 _ _)
  | list b r ih =>
    intro d hu h byt m
    cases d with
    | zero =>
      have := cells_paired (t := b) h (decide (r = 1)) (m + 1)
      simp [genList0, paired, isAddr, this]
    | succ d =>
      simp only [genList0, Nat.succ_ne_zero, if_false]
      exact ih hu h _ _
  | arry e r ih =>
    intro d hu h byt m
    cases d with
    | zero =>
      simp only [genList0, if_true, genArray]
      exact genArray0_paired hu _ _ _
    | succ d => rfl
  | _ => intro d _ _ byt m; rfl

theorem genListLoop_paired : ∀ (n : Nat) {t : DT}, (∀ d, d < n → Under T d t) → NoAddr t → ∀ m, paired (genListLoop n t m).1 = true
  | 0, _, _, _, _ => rfl
  | n + 1, t, hu, h, m => by
    simp only [genListLoop]
    exact paired_app (genList0_paired (hu n (by omega)) h _ _)
      (genListLoop_paired n (fun d hd => under_pass (by omega) (hu d (by omega)) _ _) (genList0_fine h _ _ _).2 _)

theorem genData_paired {t : DT} {k : Nat} (hs : Form T k t) (h : NoAddr t) (idx : Int) (dim m : Nat) :
    paired (genData idx dim t m).1 = true := by
  have last : ∀ {v : Dir}, v.isCell = true → isAddr v = false → paired [.nam idx, v] = true := fun h1 h2 => by
    simp [paired, isAddr_nam, h1, h2, cellFirst]
  have dw : ∀ {t : DT}, NoAddr t → paired [.nam idx, genDW t] = true := fun {t} h => by
    refine last ?_ ?_
    · cases t <;> rfl
    · cases t <;> first | rfl | cases h
  cases t with
  | list b r =>
    refine paired_app (genListLoop_paired (dim + 1) (fun d _ => shape_under hs d) h m) (dw ?_)
    exact (genListLoop_fine (dim + 1) (t := .list b r) h m).2
  | arry e r =>
    cases k with
    | zero => cases hs
    | succ k => exact paired_app (genArray0_paired hs _ _ _) (last rfl rfl)
  | _ => exact dw h

end Cmm.Parse
