import Verif.Gen.Labels
import Verif.Props.C46

/-
C47: every label is defined once and every jump has a target in the same function.
-/
namespace Cmm.Gen
open Cmm.Tree

variable {σ : Type}

/-- The labels defined by the code, in order. -/
def labels (c : Code) : List Nat := c.filterMap fun | .lab n => some n | _ => none

/-- The targets of the jumps of the code. -/
def targets (c : Code) : List Nat :=
  c.filterMap fun | .jmp n => some n | .jt n => some n | .jf n => some n | _ => none

theorem count_labels (x : Nat) (c : Code) : (labels c).count x = dl x c := by
  induction c with
  | nil => rfl
  | cons i c ih =>
    unfold labels dl at *
    cases i <;> simp [List.filterMap_cons, List.count_cons, ih]

theorem mem_labels {x : Nat} {c : Code} : x ∈ labels c ↔ 0 < dl x c := by
  rw [← count_labels, List.count_pos_iff]

theorem mem_targets {x : Nat} {c : Code} : x ∈ targets c → Jumps c x := by
  intro h
  simp only [targets, List.mem_filterMap] at h
  obtain ⟨i, hi, h⟩ := h
  cases i <;> simp at h <;> subst h <;> simp [Jumps, hi]

theorem LI.labels {n k : Nat} {c : Code} {O : Nat → Prop} (h : LI n c k F0 O) :
    (labels c).Nodup ∧ (∀ x ∈ labels c, n < x ∧ x ≤ k) ∧ ∀ x ∈ targets c, x ∈ Gen.labels c ∨ O x := by
  refine ⟨?_, fun x hx => ?_, fun x hx => ?_⟩
  · rw [List.nodup_iff_count_le_one]
    intro x
    rw [count_labels]
    have := h.cnt x
    simp only [F0, ind] at this
    split at this <;> omega
  · have h1 := mem_labels.1 hx
    have := h.cnt x
    simp only [F0, ind] at this
    split at this
    · assumption
    · omega
  · rcases h.ref x (mem_targets hx) with h | h
    · exact .inl (mem_labels.2 h)
    · exact .inr h

theorem genFunc_li (nt : NT) (idx : Int) (intr krn : Bool) (depth : Int) (S : Stmt) (hS : NoBC S)
    (n : Nat) : LI n (genFunc nt idx intr krn depth S n).1 (genFunc nt idx intr krn depth S n).2
      F0 O0 := by
  have hg := NoBC.gen nt hS .root ⟨n, none, none, none⟩ (some 0) (some 0)
  have hg0 := NoBC.gen nt hS .root ⟨n, none, none, none⟩ none none
  simp only at hg hg0
  have h := genS_li nt S .root ⟨n, none, none, none⟩
  unfold genFunc
  rw [hg]
  dsimp only
  have hb : (genS nt .root S ⟨n, none, none, none⟩).2.brk = none := by rw [hg0]
  have hc : (genS nt .root S ⟨n, none, none, none⟩).2.cnt = none := by rw [hg0]
  generalize genS nt .root S ⟨n, none, none, none⟩ = r at h hb hc ⊢
  have h1 : LI n (r.1 ++ printLab r.2.ret) r.2.n F0 O0 :=
    h.print (fun x => by simp [F0, SF]) (fun x hx => by
      rcases hx with hx | hx | hx
      · rw [hb] at hx; cases hx
      · rw [hc] at hx; cases hx
      · exact .inr hx)
  have h2 : Flat [if intr then Instr.retI else .ret] := by
    cases intr <;> exact flat_cons flat_nil (by simp) (by simp)
  have h3 : Flat [Instr.nam idx, if intr then .entryI depth else if krn then .entryK depth
      else .entry depth] := by
    refine flat_cons (flat_cons flat_nil ?_ ?_) (by simp) (by simp) <;> intro x <;> cases intr <;> cases krn <;> simp
  have := (h1.flat h2).flat' h3
  simpa [List.append_assoc] using this

/-- **One function**: no two label definitions coincide; all of them were allocated for this
function; every jump goes to one of them. -/
theorem C47_function (nt : NT) (idx : Int) (intr krn : Bool) (depth : Int) (S : Stmt)
    (hS : NoBC S) (n : Nat) :
    let r := genFunc nt idx intr krn depth S n
    (labels r.1).Nodup ∧ (∀ x ∈ labels r.1, n < x ∧ x ≤ r.2) ∧ n ≤ r.2 ∧
      ∀ x ∈ targets r.1, x ∈ labels r.1 := by
  have h := genFunc_li nt idx intr krn depth S hS n
  obtain ⟨h1, h2, h3⟩ := h.labels
  exact ⟨h1, h2, h.le, fun x hx => (h3 x hx).resolve_right (fun h => h)⟩

/-- What the parser has the code generator emit: functions and string constants (genStr,
vmCode.c:805-810; only its label is modelled). -/
inductive Item
  | func (idx : Int) (intr krn : Bool) (depth : Int) (body : Stmt)
  | str

/-- The code of one item. -/
def genItem (nt : NT) : Item → Nat → Code × Nat
  | .func idx intr krn depth body, n => genFunc nt idx intr krn depth body n
  | .str, n => ([.lab (n + 1)], n + 1)

/-- The codes of a sequence of items; the label counter is never reset (vmCode.c:86). -/
def genItems (nt : NT) : List Item → Nat → List Code
  | [], _ => []
  | i :: is, n => (genItem nt i n).1 :: genItems nt is (genItem nt i n).2

/-- Functions have `break` and `continue` in loops only. -/
def OkItem : Item → Prop
  | .func _ _ _ _ body => NoBC body
  | .str => True

theorem genItem_li (nt : NT) (i : Item) (h : OkItem i) (n : Nat) :
    LI n (genItem nt i n).1 (genItem nt i n).2 F0 O0 := by
  cases i with
  | func idx intr krn depth body => exact genFunc_li nt idx intr krn depth body h n
  | str => exact lab_li n

theorem genItems_li (nt : NT) (is : List Item) (h : ∀ i ∈ is, OkItem i) (n : Nat) :
    ∃ k, LI n (genItems nt is n).flatten k F0 O0 := by
  induction is generalizing n with
  | nil => exact ⟨n, flat_nil.li n⟩
  | cons i is ih =>
    obtain ⟨k, hk⟩ := ih (fun i hi => h i (List.mem_cons_of_mem _ hi)) (genItem nt i n).2
    exact ⟨k, (genItem_li nt i (h i (List.mem_cons_self ..)) n).two hk⟩

/-- **A whole program**: no label is defined twice, neither in one function nor in different
ones, and each function jumps to its own labels only. -/
theorem C47_program (nt : NT) (is : List Item) (h : ∀ i ∈ is, OkItem i) (n : Nat) :
    (labels (genItems nt is n).flatten).Nodup ∧
    ∀ c ∈ genItems nt is n, ∀ x ∈ targets c, x ∈ labels c := by
  refine ⟨?_, ?_⟩
  · obtain ⟨k, hk⟩ := genItems_li nt is h n
    exact hk.labels.1
  · induction is generalizing n with
    | nil => intro c hc; simp [genItems] at hc
    | cons i is ih =>
      intro c hc
      simp only [genItems, List.mem_cons] at hc
      rcases hc with rfl | hc
      · intro x hx
        exact ((genItem_li nt i (h i (List.mem_cons_self ..)) n).labels.2.2 x hx).resolve_right
          (fun h => h)
      · exact ih (fun i hi => h i (List.mem_cons_of_mem _ hi)) _ c hc

theorem uniqueLabels_of_nodup {P : List Instr} (h : (labels P).Nodup) : UniqueLabels P := by
  intro i j x hi hj
  by_contra hne
  have key : ∀ i j : Nat, i < j → P[i]? = some (Instr.lab x) → P[j]? = some (Instr.lab x) → False := by
    intro i j hij hi hj
    have e : P = P.take j ++ P.drop j := (List.take_append_drop j P).symm
    have h1 : 0 < dl x (P.take j) := by
      rw [dl, List.count_pos_iff]
      refine List.mem_iff_getElem?.2 ⟨i, ?_⟩
      rw [List.getElem?_take_of_lt hij]
      exact hi
    have h2 : 0 < dl x (P.drop j) := by
      rw [dl, List.count_pos_iff]
      refine List.mem_iff_getElem?.2 ⟨0, ?_⟩
      rw [List.getElem?_drop]
      exact hj
    have h3 := List.nodup_iff_count_le_one.1 h x
    rw [count_labels] at h3
    rw [e, dl_append] at h3
    omega
  rcases Nat.lt_or_gt_of_ne hne with hlt | hlt
  · exact key i j hlt hi hj
  · exact key j i hlt hj hi

/-- The machine running a program is deterministic: a run of a function that comes to an end
ends where C46 says. -/
theorem C47_deterministic (nt : NT) (is : List Item) (h : ∀ i ∈ is, OkItem i) (n : Nat)
    (w : World σ) (a b c : Cfg σ)
    (hb : Steps w (genItems nt is n).flatten a b) (hc : Steps w (genItems nt is n).flatten a c)
    (eb : ∀ x, ¬ Step w (genItems nt is n).flatten b x)
    (ec : ∀ x, ¬ Step w (genItems nt is n).flatten c x) : b = c :=
  hb.det (uniqueLabels_of_nodup (C47_program nt is h n).1) hc eb ec

/-! ### Examples -/

/-- Two copies of the function of C46 and a string. -/
example : labels (genItems exNT0 [.func 7 false false 2 exLoop, .str, .func 8 false true 2 exLoop]
    0).flatten = [1, 3, 5, 4, 2, 6, 7, 8, 10, 12, 11, 9, 13] := by decide

example : ∀ i ∈ [Item.func 7 false false 2 exLoop, .str, .func 8 false true 2 exLoop], OkItem i := by
  simp [OkItem, exLoop, NoBC]

/-- Without the condition on `break` there is a jump to a label that is not defined. -/
example : targets (genFunc exNT0 7 false false 0 .brk 0).1 = [0] ∧
    labels (genFunc exNT0 7 false false 0 .brk 0).1 = [] := by decide

end Cmm.Gen
