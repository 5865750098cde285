import Verif.Gen.Order

/- Lemmas on runs of the stack machine. -/
namespace Cmm.Gen
open Cmm.Tree

variable {σ : Type} {w : World σ} {P : List Instr}

/-- The code `c` is part of `P`, beginning at `pc`. -/
def At (P : List Instr) (pc : Nat) (c : Code) : Prop := ∀ i, i < c.length → P[pc + i]? = c[i]?

theorem At.nil {pc : Nat} : At P pc [] := fun i h => absurd h (by simp)

theorem at_append {pc : Nat} {a b : Code} :
    At P pc (a ++ b) ↔ At P pc a ∧ At P (pc + a.length) b := by
  constructor
  · intro h
    refine ⟨fun i hi => ?_, fun i hi => ?_⟩
    · have := h i (by simp; omega)
      rwa [List.getElem?_append_left hi] at this
    · have := h (a.length + i) (by simp; omega)
      rw [List.getElem?_append_right (by omega)] at this
      rw [show pc + a.length + i = pc + (a.length + i) by omega, this]
      congr 1
      omega
  · rintro ⟨h1, h2⟩ i hi
    by_cases h : i < a.length
    · rw [List.getElem?_append_left h]; exact h1 i h
    · have := h2 (i - a.length) (by simp at hi; omega)
      rw [List.getElem?_append_right (by omega), ← this]
      congr 1
      omega

theorem At.head {pc : Nat} {i : Instr} {c : Code} (h : At P pc (i :: c)) : P[pc]? = some i := by
  have := h 0 (by simp)
  simpa using this

theorem At.tail {pc : Nat} {i : Instr} {c : Code} (h : At P pc (i :: c)) : At P (pc + 1) c :=
  (at_append (a := [i]).1 h).2

/-- What a computation that may not return does on the machine. If it does not return, that is because of a call,
provided that no access and no division is undefined. -/
def Runs (w : World σ) (P : List Instr) {α : Type} (c : Cfg σ) (o : Option α)
    (Q : α → Cfg σ → Prop) : Prop :=
  match o with
  | some r => ∃ c', Steps w P c c' ∧ Q r c'
  | none => w.Total → ∃ c', Steps w P c c' ∧ Hung w P c'

theorem Runs.pre {α : Type} {c c' : Cfg σ} {o : Option α} {Q : α → Cfg σ → Prop}
    (h : Steps w P c c') (h' : Runs w P c' o Q) : Runs w P c o Q := by
  cases o with
  | none => intro ht; obtain ⟨x, h1, h2⟩ := h' ht; exact ⟨x, h.trans h1, h2⟩
  | some r => obtain ⟨x, h1, h2⟩ := h'; exact ⟨x, h.trans h1, h2⟩

theorem Runs.bind {α β : Type} {c : Cfg σ} {o : Option α} {Q : α → Cfg σ → Prop}
    {f : α → Option β} {Q' : β → Cfg σ → Prop} (h : Runs w P c o Q)
    (h' : ∀ r c', o = some r → Q r c' → Runs w P c' (f r) Q') : Runs w P c (o.bind f) Q' := by
  cases o with
  | none => exact h
  | some r =>
    obtain ⟨x, h1, h2⟩ := h
    exact Runs.pre h1 (h' r x rfl h2)

theorem bind1_eq (o : Out σ) (f : Word → σ → Out σ) :
    bind1 o f = o.bind fun r => f (r.1.headD 0) r.2 := by
  cases o <;> rfl

theorem Runs.bind1 {c : Cfg σ} {o : Out σ} {Q : List Word × σ → Cfg σ → Prop}
    {f : Word → σ → Out σ} {Q' : List Word × σ → Cfg σ → Prop} (h : Runs w P c o Q)
    (h' : ∀ vs s c', o = some (vs, s) → Q (vs, s) c' → Runs w P c' (f (vs.headD 0) s) Q') :
    Runs w P c (Tree.bind1 o f) Q' := by
  rw [bind1_eq]
  exact h.bind fun r c' h1 h2 => h' r.1 r.2 c' h1 h2

theorem Runs.mono {α : Type} {c : Cfg σ} {o : Option α} {Q Q' : α → Cfg σ → Prop}
    (h : Runs w P c o Q) (h' : ∀ r c', o = some r → Q r c' → Q' r c') : Runs w P c o Q' := by
  cases o with
  | none => exact h
  | some r => obtain ⟨x, h1, h2⟩ := h; exact ⟨x, h1, h' r x rfl h2⟩

theorem Runs.ret {α : Type} {c : Cfg σ} {r : α} {Q : α → Cfg σ → Prop} (h : Q r c) :
    Runs w P c (some r) Q := ⟨c, .refl, h⟩

theorem Runs.undef {α : Type} {c : Cfg σ} {Q : α → Cfg σ → Prop} (h : ¬ w.Total) : Runs w P c none Q :=
  fun ht => absurd ht h

/-- A computation that is defined if `b`. -/
theorem Runs.guard {α : Type} {c : Cfg σ} {b : Bool} {o : Option α} {Q : α → Cfg σ → Prop} (ht : w.Total → b = true)
    (h : b = true → Runs w P c o Q) : Runs w P c (if b then o else none) Q := by
  cases b with
  | false => exact Runs.undef fun hx => by cases ht hx
  | true => exact h rfl

/-- One instruction. -/
theorem step1 {pc : Nat} {i : Instr} {c : Code} {d d' : Data σ} (h : At P pc (i :: c))
    (hr : run w i d = some d') : Steps w P ⟨pc, d⟩ ⟨pc + 1, d'⟩ := (Step.next h.head hr).steps

/-- A label that may be missing. -/
theorem steps_printLab {pc : Nat} {l : Option Nat} {d : Data σ} (h : At P pc (printLab l)) :
    Steps w P ⟨pc, d⟩ ⟨pc + (printLab l).length, d⟩ := by
  cases l with
  | none => exact .refl
  | some k => exact step1 h rfl

end Cmm.Gen
