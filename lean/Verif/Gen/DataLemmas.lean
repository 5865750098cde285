import Verif.Gen.Data

/- Lemmas about the generated data: finding areas in concatenated code. -/
namespace Cmm.Gen

/-- Code that does not begin with a directive filling memory. -/
def NB (c : List Dir) : Prop := c.takeWhile Dir.isCell = []

theorem NB.nil : NB [] := rfl
theorem NB.lab (k : Nat) (c : List Dir) : NB (.lab k :: c) := rfl
theorem NB.nam (k : Int) (c : List Dir) : NB (.nam k :: c) := rfl

theorem NB.append {a b : List Dir} (ha : NB a) (hb : NB b) : NB (a ++ b) := by
  cases a with
  | nil => exact hb
  | cons x a =>
    unfold NB at *
    rw [List.cons_append, List.takeWhile_cons]
    rw [List.takeWhile_cons] at ha
    split at ha
    · exact absurd ha (by simp)
    · rename_i h; rw [if_neg h]

theorem takeWhile_append_nb (c : List Dir) {q : List Dir} (hq : NB q) :
    (c ++ q).takeWhile Dir.isCell = c.takeWhile Dir.isCell := by
  induction c with
  | nil => exact hq
  | cons x c ih =>
    rw [List.cons_append, List.takeWhile_cons, List.takeWhile_cons, ih]

theorem dataLabs_append (a b : List Dir) : dataLabs (a ++ b) = dataLabs a ++ dataLabs b := by
  induction a with
  | nil => rfl
  | cons x a ih => cases x <;> simp [dataLabs, ih]

theorem area_skip {p : List Dir} {l : Int} (h : ∀ k ∈ dataLabs p, (k : Int) ≠ l) (c : List Dir) :
    area (p ++ c) l = area c l := by
  induction p with
  | nil => rfl
  | cons x p ih =>
    cases x with
    | lab k =>
      have h1 := h k (by simp [dataLabs])
      rw [List.cons_append, area, if_neg h1]
      exact ih fun k hk => h k (by simp [dataLabs, hk])
    | _ => exact ih fun k hk => h k (by simpa [dataLabs] using hk)

theorem area_left {c q : List Dir} {l : Int} (h : ∃ k ∈ dataLabs c, (k : Int) = l) (hq : NB q) :
    area (c ++ q) l = area c l := by
  induction c with
  | nil => obtain ⟨k, hk, _⟩ := h; exact absurd hk (by simp [dataLabs])
  | cons x c ih =>
    cases x with
    | lab k =>
      rw [List.cons_append, area, area]
      split
      · rw [takeWhile_append_nb _ hq]
      · rename_i hn
        apply ih
        obtain ⟨k', hk, e⟩ := h
        simp only [dataLabs, List.mem_cons] at hk
        rcases hk with rfl | hk
        · exact absurd e hn
        · exact ⟨k', hk, e⟩
    | _ => exact ih h

theorem area_some_mem {c : List Dir} {l : Int} {a : List Dir} (h : area c l = some a) :
    ∃ k ∈ dataLabs c, (k : Int) = l := by
  induction c with
  | nil => simp [area] at h
  | cons x c ih =>
    cases x with
    | lab k =>
      rw [area] at h
      split at h
      · rename_i e; exact ⟨k, by simp [dataLabs], e⟩
      · obtain ⟨k', hk, e⟩ := ih h
        exact ⟨k', by simp [dataLabs, hk], e⟩
    | _ => exact ih h

/-- An area found in a part of the code is found in the whole code. -/
theorem area_mid {p c q : List Dir} {l : Int} {a : List Dir} (h : area c l = some a)
    (hp : ∀ k ∈ dataLabs p, (k : Int) ≠ l) (hq : NB q) : area (p ++ (c ++ q)) l = some a := by
  rw [area_skip hp, area_left (area_some_mem h) hq, h]

/- Tables and areas. -/

theorem tab_get (cnt : Nat) : ∀ (ln : Int) (i : Nat), i < cnt →
    (tab ln cnt)[i]? = some (.dwLab (ln + i)) := by
  induction cnt with
  | zero => intro _ i h; omega
  | succ cnt ih =>
    intro ln i h
    cases i with
    | zero => simp [tab]
    | succ i =>
      rw [tab, List.getElem?_cons_succ, ih (ln + 1) i (by omega)]
      congr 2; omega

theorem tab_length (cnt : Nat) : ∀ ln : Int, (tab ln cnt).length = cnt := by
  induction cnt with
  | zero => intro _; rfl
  | succ cnt ih => intro ln; simp [tab, ih]

theorem tab_mem {cnt : Nat} : ∀ {ln : Int} {x : Dir}, x ∈ tab ln cnt →
    ∃ i : Nat, i < cnt ∧ x = .dwLab (ln + i) := by
  induction cnt with
  | zero => intro ln x h; simp [tab] at h
  | succ cnt ih =>
    intro ln x h
    rw [tab, List.mem_cons] at h
    rcases h with rfl | h
    · exact ⟨0, by omega, by simp⟩
    · obtain ⟨i, hi, e⟩ := ih h
      exact ⟨i + 1, by omega, by rw [e]; congr 1; omega⟩

theorem tab_cells (cnt : Nat) : ∀ ln : Int, (tab ln cnt).takeWhile Dir.isCell = tab ln cnt := by
  induction cnt with
  | zero => intro _; rfl
  | succ cnt ih =>
    intro ln
    rw [tab, List.takeWhile_cons, ih]; rfl

theorem tab_labs (cnt : Nat) : ∀ ln : Int, dataLabs (tab ln cnt) = [] := by
  induction cnt with
  | zero => intro _; rfl
  | succ cnt ih => intro ln; exact ih _

theorem tabs_nb (cnt : Nat) : ∀ (n : Nat) (ln : Int) (m : Nat), NB (tabs cnt n ln m) := by
  intro n ln m; cases n <;> rfl

theorem areas_nb (d : Dir) : ∀ (n m : Nat), NB (areas d n m) := by
  intro n m; cases n <;> rfl

theorem tabs_labs (cnt : Nat) : ∀ (n : Nat) (ln : Int) (m : Nat),
    dataLabs (tabs cnt n ln m) = List.range' (m + 1) n := by
  intro n
  induction n with
  | zero => intro _ _; rfl
  | succ n ih =>
    intro ln m
    simp only [tabs, dataLabs, dataLabs_append, tab_labs, ih, List.nil_append, List.range'_succ]

theorem areas_labs {d : Dir} (hd : d.isCell) : ∀ (n m : Nat),
    dataLabs (areas d n m) = List.range' (m + 1) n := by
  intro n
  induction n with
  | zero => intro _; rfl
  | succ n ih =>
    intro m
    cases d <;> simp_all [areas, dataLabs, List.range'_succ, Dir.isCell]

theorem tabs_area (cnt : Nat) : ∀ (n : Nat) (ln : Int) (m j : Nat), j < n →
    area (tabs cnt n ln m) ((m : Int) + 1 + j) = some (tab (ln + j * cnt) cnt) := by
  intro n
  induction n with
  | zero => intro _ _ j h; omega
  | succ n ih =>
    intro ln m j h
    cases j with
    | zero =>
      rw [tabs, area, if_pos (by simp), takeWhile_append_nb _ (tabs_nb _ _ _ _), tab_cells]
      simp
    | succ j =>
      rw [tabs, area, if_neg (by simp; omega), area_skip (by simp [tab_labs])]
      have := ih (ln + cnt) (m + 1) j (by omega)
      rw [show ((m : Int) + 1 + (j + 1 : Nat)) = ((m + 1 : Nat) : Int) + 1 + j by
        push_cast; omega, this]
      congr 2
      push_cast
      rw [Int.add_mul]; omega

theorem areas_area {d : Dir} (hd : d.isCell) : ∀ (n m j : Nat), j < n →
    area (areas d n m) ((m : Int) + 1 + j) = some [d] := by
  intro n
  induction n with
  | zero => intro _ j h; omega
  | succ n ih =>
    intro m j h
    cases j with
    | zero =>
      rw [areas, area, if_pos (by simp), List.takeWhile_cons, if_pos hd, areas_nb]
    | succ j =>
      rw [areas, area, if_neg (by simp; omega)]
      have := ih (m + 1) j (by omega)
      rw [show ((m : Int) + 1 + (j + 1 : Nat)) = ((m + 1 : Nat) : Int) + 1 + j by
        push_cast; omega, ← this]
      cases d <;> first | rfl | exact absurd hd (by simp [Dir.isCell])

end Cmm.Gen
