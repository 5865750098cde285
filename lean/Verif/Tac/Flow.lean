import Verif.Tac.Machine

/-
The TaC machine with a program counter: jumps go to the line that defines the label, forwards or
backwards. The assumptions on the processor are those of Verif/Tac/Machine.lean.
-/
namespace Cmm.Tac

/-- The number of the next line, and the machine. -/
structure TC where
  pc : Nat
  m : M

/-- One line of the program `Q`. -/
inductive TStep (E : Env) (Q : List Line) : TC → TC → Prop
  | line {pc m l m'} : Q[pc]? = some l → m.line E l = some m' → TStep E Q ⟨pc, m⟩ ⟨pc + 1, m'⟩
  | lab {pc m b} : Q[pc]? = some (.lab b) → TStep E Q ⟨pc, m⟩ ⟨pc + 1, m⟩
  | jmp {pc m b k} : Q[pc]? = some (.jmp b) → Q[k]? = some (.lab b) → TStep E Q ⟨pc, m⟩ ⟨k, m⟩
  | jccT {pc m j b k} : Q[pc]? = some (.jcc j b) → holds j m.lt m.z = true → Q[k]? = some (.lab b) →
      TStep E Q ⟨pc, m⟩ ⟨k, m⟩
  | jccF {pc m j b} : Q[pc]? = some (.jcc j b) → holds j m.lt m.z = false → TStep E Q ⟨pc, m⟩ ⟨pc + 1, m⟩

/-- Any number of lines. -/
inductive TSteps (E : Env) (Q : List Line) : TC → TC → Prop
  | refl {c} : TSteps E Q c c
  | head {a b c} : TStep E Q a b → TSteps E Q b c → TSteps E Q a c

/-- Every label is defined at most once. -/
def UniqueLabs (Q : List Line) : Prop :=
  ∀ (i j : Nat) (b : Lbl), Q[i]? = some (.lab b) → Q[j]? = some (.lab b) → i = j

variable {E : Env} {Q : List Line}

theorem TSteps.trans {a b c : TC} (h : TSteps E Q a b) (h' : TSteps E Q b c) : TSteps E Q a c := by
  induction h with
  | refl => exact h'
  | head h1 _ ih => exact .head h1 (ih h')

theorem TStep.steps {a b : TC} (h : TStep E Q a b) : TSteps E Q a b := .head h .refl

/-- With unique labels the machine is deterministic. -/
theorem TStep.det (hu : UniqueLabs Q) {a b c : TC} (h : TStep E Q a b) (h' : TStep E Q a c) : b = c := by
  cases h with
  | line h1 h2 =>
    cases h' with
    | line h3 h4 => rw [h1] at h3; cases h3; rw [h2] at h4; cases h4; rfl
    | lab h3 => rw [h1] at h3; cases h3; cases h2
    | jmp h3 => rw [h1] at h3; cases h3; cases h2
    | jccT h3 => rw [h1] at h3; cases h3; cases h2
    | jccF h3 => rw [h1] at h3; cases h3; cases h2
  | lab h1 =>
    cases h' with
    | line h3 h4 => rw [h1] at h3; cases h3; cases h4
    | lab h3 => rfl
    | jmp h3 => rw [h1] at h3; cases h3
    | jccT h3 => rw [h1] at h3; cases h3
    | jccF h3 => rfl
  | jmp h1 h2 =>
    cases h' with
    | line h3 h4 => rw [h1] at h3; cases h3; cases h4
    | lab h3 => rw [h1] at h3; cases h3
    | jmp h3 h4 => rw [h1] at h3; cases h3; rw [hu _ _ _ h2 h4]
    | jccT h3 => rw [h1] at h3; cases h3
    | jccF h3 => rw [h1] at h3; cases h3
  | jccT h1 hh h2 =>
    cases h' with
    | line h3 h4 => rw [h1] at h3; cases h3; cases h4
    | lab h3 => rw [h1] at h3; cases h3
    | jmp h3 h4 => rw [h1] at h3; cases h3
    | jccT h3 hk h4 => rw [h1] at h3; cases h3; rw [hu _ _ _ h2 h4]
    | jccF h3 hk => rw [h1] at h3; cases h3; rw [hh] at hk; cases hk
  | jccF h1 hh =>
    cases h' with
    | line h3 h4 => rw [h1] at h3; cases h3; cases h4
    | lab h3 => rfl
    | jmp h3 h4 => rw [h1] at h3; cases h3
    | jccT h3 hk h4 => rw [h1] at h3; cases h3; rw [hh] at hk; cases hk
    | jccF h3 hk => rfl

/-- Two runs to states without a further step end in the same state. -/
theorem TSteps.det (hu : UniqueLabs Q) {a b c : TC} (h : TSteps E Q a b) (h' : TSteps E Q a c)
    (hb : ∀ x, ¬ TStep E Q b x) (hc : ∀ x, ¬ TStep E Q c x) : b = c := by
  induction h with
  | refl =>
    cases h' with
    | refl => rfl
    | head h1 _ => exact absurd h1 (hb _)
  | head h1 _ ih =>
    cases h' with
    | refl => exact absurd h1 (hc _)
    | head h2 h3 => rw [h1.det hu h2] at ih; exact ih h3 hb

/-- The lines `c` are part of `Q`, beginning at `pc`. -/
def LAt (Q : List Line) (pc : Nat) (c : List Line) : Prop := ∀ i, i < c.length → Q[pc + i]? = c[i]?

theorem LAt.mid (a c b : List Line) : LAt (a ++ c ++ b) a.length c := by
  intro i hi
  rw [List.append_assoc, List.getElem?_append_right (by omega), List.getElem?_append_left (by omega)]
  congr 1
  omega

theorem LAt.head {pc : Nat} {l : Line} {c : List Line} (h : LAt Q pc (l :: c)) : Q[pc]? = some l := by
  have := h 0 (by simp)
  simpa using this

theorem LAt.tail {pc : Nat} {l : Line} {c : List Line} (h : LAt Q pc (l :: c)) : LAt Q (pc + 1) c := by
  intro i hi
  have := h (i + 1) (by simp; omega)
  rw [show pc + 1 + i = pc + (i + 1) by omega, this]
  simp

/-- A piece of code that is run line by line, skipping lines after a jump (`exec`), is run by the
machine with a program counter. `sk` and `sk'` are the labels looked for before and after; then the
run begins and ends at a definition of the label. -/
theorem exec_steps_aux (c : List Line) : ∀ {pc : Nat} {m m' : M} {sk sk' : Option Lbl}, LAt Q pc c →
    exec E c ⟨m, sk⟩ = some ⟨m', sk'⟩ → ∀ k', (∀ b, sk' = some b → Q[k']? = some (.lab b)) →
    (sk' = none → k' = pc + c.length) →
    ∃ k, (∀ b, sk = some b → Q[k]? = some (.lab b)) ∧ (sk = none → k = pc) ∧ TSteps E Q ⟨k, m⟩ ⟨k', m'⟩ := by
  induction c with
  | nil =>
    intro pc m m' sk sk' _ h k' h1 h2
    cases h
    exact ⟨k', h1, fun hh => by have := h2 hh; simpa using this, .refl⟩
  | cons l c ih =>
    intro pc m m' sk sk' hat h k' h1 h2
    have hh := hat.head
    have ht := hat.tail
    have h2' : sk' = none → k' = pc + 1 + c.length := fun hk => by rw [h2 hk, List.length_cons]; omega
    simp only [exec] at h
    cases sk with
    | some b =>
      simp only [X.line] at h
      by_cases hl : l = .lab b
      · subst hl
        rw [if_pos rfl] at h
        obtain ⟨k, _, g2, g3⟩ := ih ht h k' h1 h2'
        refine ⟨pc, fun b' hb => ?_, nofun, ?_⟩
        · cases hb; exact hh
        · rw [g2 rfl] at g3
          exact .head (.lab hh) g3
      · rw [if_neg hl] at h
        obtain ⟨k, g1, _, g3⟩ := ih ht h k' h1 h2'
        exact ⟨k, g1, nofun, g3⟩
    | none =>
      refine ⟨pc, nofun, fun _ => rfl, ?_⟩
      have plain : ∀ {m1 : M}, m.line E l = some m1 → exec E c ⟨m1, none⟩ = some ⟨m', sk'⟩ →
          TSteps E Q ⟨pc, m⟩ ⟨k', m'⟩ := by
        intro m1 hm hx
        obtain ⟨k, _, g2, g3⟩ := ih ht hx k' h1 h2'
        rw [g2 rfl] at g3
        exact .head (.line hh hm) g3
      cases l with
      | lab b =>
        obtain ⟨k, _, g2, g3⟩ := ih ht h k' h1 h2'
        rw [g2 rfl] at g3
        exact .head (.lab hh) g3
      | jmp b =>
        obtain ⟨k, g1, _, g3⟩ := ih ht h k' h1 h2'
        exact .head (.jmp hh (g1 b rfl)) g3
      | jcc j b =>
        simp only [X.line, Option.bind_some] at h
        by_cases hj : holds j m.lt m.z = true
        · rw [if_pos hj] at h
          obtain ⟨k, g1, _, g3⟩ := ih ht h k' h1 h2'
          exact .head (.jccT hh hj (g1 b rfl)) g3
        · rw [if_neg hj] at h
          obtain ⟨k, _, g2, g3⟩ := ih ht h k' h1 h2'
          rw [g2 rfl] at g3
          exact .head (.jccF hh (by simpa using hj)) g3
      | ret => simp [X.line, M.line] at h
      | reti => simp [X.line, M.line] at h
      | nam n => exact plain (m1 := m) rfl h
      | op o r s => exact plain rfl h
      | push r => exact plain rfl h
      | pop r => exact plain rfl h
      | st r d =>
        simp only [X.line] at h
        cases hm : m.line E (.st r d) with
        | none => rw [hm] at h; cases h
        | some m1 => rw [hm] at h; exact plain hm h
      | call f =>
        simp only [X.line] at h
        cases hm : m.line E (.call f) with
        | none => rw [hm] at h; cases h
        | some m1 => rw [hm] at h; exact plain hm h
      | stkChk =>
        simp only [X.line] at h
        cases hm : m.line E .stkChk with
        | none => rw [hm] at h; cases h
        | some m1 => rw [hm] at h; exact plain hm h

theorem Runs.steps {c : List Line} {pc : Nat} {m m' : M} (hat : LAt Q pc c) (h : Runs E c m m') :
    TSteps E Q ⟨pc, m⟩ ⟨pc + c.length, m'⟩ := by
  obtain ⟨k, _, g2, g3⟩ := exec_steps_aux c hat h (pc + c.length) (nofun) fun _ => rfl
  rwa [g2 rfl] at g3

theorem exec_jump {c : List Line} {pc k : Nat} {b : Lbl} {m m' : M} (hat : LAt Q pc c)
    (h : exec E c ⟨m, none⟩ = some ⟨m', some b⟩) (hk : Q[k]? = some (.lab b)) :
    TSteps E Q ⟨pc, m⟩ ⟨k, m'⟩ := by
  obtain ⟨k, _, g2, g3⟩ := exec_steps_aux c hat h k (fun b hb => by cases hb; exact hk) nofun
  rwa [g2 rfl] at g3

end Cmm.Tac
