import Verif.Tac.Walk
import Verif.Props.C47
import Verif.Props.C60

/-
Programs of syntax trees, what they mean, and their translation by src/vmCode.c and src/vm2tac.c. For
Verif/Props/C61.lean.
-/
namespace Cmm.Tac
open Cmm.Tree (Kind Bin Un Expr Stmt World Outcome Exec Den Cond CondO Eff)
open Cmm.Gen (Instr A1 A2 NT Data Cfg Step Steps Idle UniqueLabels evalP genSw NoBC)

/-- A function as the parser passes it to src/vmCode.c (genFunc, parser.c:981-983): index of its name, number of
local variables, number of parameters, option -K, positions of variables and fields (ntGetCnt), number of string
constants, whose labels are taken before those of the body, and the tree of its body. -/
structure SrcFn where
  f : Int
  d : Nat
  np : Nat
  ker : Bool
  cnt : Int → Int
  strs : Nat
  body : Stmt

/-! ### Specification: what a program of trees means -/

section
variable (E : Env) (L : Lay) (sw : Bin → Expr → Expr → Bool)

/-- The function `fn`, called with arguments `vs` and memory `mem`, returns `v` and leaves `mem'`: whatever its local
variables contain at the beginning, the execution of its body ends. A function that returns a value ends with a return
statement. `sw` is the order in which operands are evaluated. -/
def RetS (call : Int → List Word → Mem → Option (Word × Mem)) (fn : SrcFn) (vs : List Word) (mem : Mem) (v : Word)
    (mem' : Mem) : Prop :=
  vs.length = fn.np ∧ ∀ loc : Int → Word, ∃ o s', s'.mem = mem' ∧
    Exec (evalP (aworld E L fn.cnt call) sw) fn.body ⟨mem, loc, fun c => vs.getD c.toNat 0⟩ o s' ∧
    if E.val fn.f then o = .ret (some v) else (o = .normal ∨ o = .ret none) ∧ v = 0

open Classical in
/-- The result of calling function `f`, if calls are nested at most `n` deep and every function returns. -/
noncomputable def evS (fns : List SrcFn) (ext : Int → List Word → Mem → Option (Word × Mem)) :
    Nat → Int → List Word → Mem → Option (Word × Mem)
  | 0, f, vs, mem =>
    match fns.find? fun fn => fn.f = f with
    | none => ext f vs mem
    | some _ => none
  | n + 1, f, vs, mem =>
    match fns.find? fun fn => fn.f = f with
    | none => ext f vs mem
    | some fn => if h : ∃ r : Word × Mem, RetS E L sw (evS fns ext n) fn vs mem r.1 r.2 then some h.choose else none

end

/-! ### Executions are deterministic -/

theorem Cond.det {σ : Type} {ev : Expr → Den σ} {c : Expr} {s : σ} {b b' : Bool} {s' s''} (h : Cond ev c s b s')
    (h' : Cond ev c s b' s'') : b = b' ∧ s' = s'' := by
  obtain ⟨vs, h1, h2⟩ := h
  obtain ⟨vs', h3, h4⟩ := h'
  rw [h1] at h3
  cases h3
  exact ⟨by rw [h2, h4], rfl⟩

theorem CondO.det {σ : Type} {ev : Expr → Den σ} {c : Option Expr} {s : σ} {b b' : Bool} {s' s''} (h : CondO ev c s b s')
    (h' : CondO ev c s b' s'') : b = b' ∧ s' = s'' := by
  cases c with
  | none => exact ⟨h.1.trans h'.1.symm, h.2.trans h'.2.symm⟩
  | some c => exact Cond.det h h'

theorem Eff.det {σ : Type} {ev : Expr → Den σ} {c : Option Expr} {s : σ} {s' s''} (h : Eff ev c s s')
    (h' : Eff ev c s s'') : s' = s'' := by
  cases c with
  | none => exact Eq.trans h (Eq.symm h')
  | some c =>
    obtain ⟨vs, h1⟩ := h
    obtain ⟨vs', h2⟩ := h'
    rw [h1] at h2
    cases h2
    rfl

/-- A statement has one outcome. -/
theorem exec_det {σ : Type} {ev : Expr → Den σ} {S : Stmt} {s : σ} {o s'} (h : Exec ev S s o s') :
    ∀ {o' s''}, Exec ev S s o' s'' → o = o' ∧ s' = s'' := by
  induction h with
  | empty => intro o' s'' h'; cases h'; exact ⟨rfl, rfl⟩
  | exp h => intro o' s'' h'; cases h' with | exp h' => rw [h] at h'; cases h'; exact ⟨rfl, rfl⟩
  | ifT hc _ ih =>
    intro o' s'' h'
    cases h' with
    | ifT hc' h' => obtain ⟨-, rfl⟩ := Cond.det hc hc'; exact ih h'
    | ifF hc' => cases (Cond.det hc hc').1
  | ifF hc =>
    intro o' s'' h'
    cases h' with
    | ifT hc' h' => cases (Cond.det hc hc').1
    | ifF hc' => exact ⟨rfl, (Cond.det hc hc').2⟩
  | elsT hc _ ih =>
    intro o' s'' h'
    cases h' with
    | elsT hc' h' => obtain ⟨-, rfl⟩ := Cond.det hc hc'; exact ih h'
    | elsF hc' h' => cases (Cond.det hc hc').1
  | elsF hc _ ih =>
    intro o' s'' h'
    cases h' with
    | elsT hc' h' => cases (Cond.det hc hc').1
    | elsF hc' h' => obtain ⟨-, rfl⟩ := Cond.det hc hc'; exact ih h'
  | whlF hc =>
    intro o' s'' h'
    cases h' with
    | whlF hc' => exact ⟨rfl, (CondO.det hc hc').2⟩
    | whlB hc' => cases (CondO.det hc hc').1
    | whlR hc' => cases (CondO.det hc hc').1
    | whlL hc' => cases (CondO.det hc hc').1
  | whlB hc _ ih =>
    intro o' s'' h'
    cases h' with
    | whlF hc' => cases (CondO.det hc hc').1
    | whlB hc' h' => obtain ⟨-, rfl⟩ := CondO.det hc hc'; exact ⟨rfl, (ih h').2⟩
    | whlR hc' h' => obtain ⟨-, rfl⟩ := CondO.det hc hc'; cases (ih h').1
    | whlL hc' h' ho => obtain ⟨-, rfl⟩ := CondO.det hc hc'; cases (ih h').1; simp at ho
  | whlR hc _ ih =>
    intro o' s'' h'
    cases h' with
    | whlF hc' => cases (CondO.det hc hc').1
    | whlB hc' h' => obtain ⟨-, rfl⟩ := CondO.det hc hc'; cases (ih h').1
    | whlR hc' h' => obtain ⟨-, rfl⟩ := CondO.det hc hc'; exact ih h'
    | whlL hc' h' ho => obtain ⟨-, rfl⟩ := CondO.det hc hc'; cases (ih h').1; simp at ho
  | whlL hc _ ho he _ ih ih2 =>
    intro o' s'' h'
    cases h' with
    | whlF hc' => cases (CondO.det hc hc').1
    | whlB hc' h' => obtain ⟨-, rfl⟩ := CondO.det hc hc'; cases (ih h').1; simp at ho
    | whlR hc' h' => obtain ⟨-, rfl⟩ := CondO.det hc hc'; cases (ih h').1; simp at ho
    | whlL hc' h' ho' he' h'' =>
      obtain ⟨-, rfl⟩ := CondO.det hc hc'
      obtain ⟨-, rfl⟩ := ih h'
      cases Eff.det he he'
      exact ih2 h''
  | doB _ ih =>
    intro o' s'' h'
    cases h' with
    | doB h' => exact ⟨rfl, (ih h').2⟩
    | doR h' => cases (ih h').1
    | doF h' ho => cases (ih h').1; simp at ho
    | doL h' ho => cases (ih h').1; simp at ho
  | doR _ ih =>
    intro o' s'' h'
    cases h' with
    | doB h' => cases (ih h').1
    | doR h' => exact ih h'
    | doF h' ho => cases (ih h').1; simp at ho
    | doL h' ho => cases (ih h').1; simp at ho
  | doF _ ho hc ih =>
    intro o' s'' h'
    cases h' with
    | doB h' => cases (ih h').1; simp at ho
    | doR h' => cases (ih h').1; simp at ho
    | doF h' _ hc' => obtain ⟨-, rfl⟩ := ih h'; exact ⟨rfl, (Cond.det hc hc').2⟩
    | doL h' _ hc' => obtain ⟨-, rfl⟩ := ih h'; cases (Cond.det hc hc').1
  | doL _ ho hc _ ih ih2 =>
    intro o' s'' h'
    cases h' with
    | doB h' => cases (ih h').1; simp at ho
    | doR h' => cases (ih h').1; simp at ho
    | doF h' _ hc' => obtain ⟨-, rfl⟩ := ih h'; cases (Cond.det hc hc').1
    | doL h' _ hc' h'' => obtain ⟨-, rfl⟩ := ih h'; obtain ⟨-, rfl⟩ := Cond.det hc hc'; exact ih2 h''
  | brk => intro o' s'' h'; cases h'; exact ⟨rfl, rfl⟩
  | cnt => intro o' s'' h'; cases h'; exact ⟨rfl, rfl⟩
  | ret0 => intro o' s'' h'; cases h'; exact ⟨rfl, rfl⟩
  | ret h => intro o' s'' h'; cases h' with | ret h' => rw [h] at h'; cases h'; exact ⟨rfl, rfl⟩
  | seqN _ _ ih ih2 =>
    intro o' s'' h'
    cases h' with
    | seqN h' h'' => obtain ⟨-, rfl⟩ := ih h'; exact ih2 h''
    | seqX h' ho => exact absurd (ih h').1.symm ho
  | seqX _ ho ih =>
    intro o' s'' h'
    cases h' with
    | seqN h' h'' => exact absurd (ih h').1 ho
    | seqX h' _ => exact ih h'

/-! ### The translation -/

section
variable (void : Int → Bool)

/-- vmCode.c:661-683 genFunc, when the last label was `n`. Also the last label afterwards. -/
def SrcFn.comp (n : Nat) (fn : SrcFn) : Fn × Nat :=
  let r := Gen.genS ⟨fn.cnt, void⟩ .root fn.body ⟨n + fn.strs, some 0, some 0, none⟩
  (⟨fn.f, fn.d, fn.np, fn.ker, fn.cnt, r.1 ++ Gen.printLab r.2.ret⟩, r.2.n)

/-- This is genFunc. -/
theorem comp_code (n : Nat) (fn : SrcFn) :
    (fn.comp void n).1.code = (Gen.genFunc ⟨fn.cnt, void⟩ fn.f false fn.ker fn.d fn.body (n + fn.strs)).1 ∧
    (fn.comp void n).2 = (Gen.genFunc ⟨fn.cnt, void⟩ fn.f false fn.ker fn.d fn.body (n + fn.strs)).2 := by
  refine ⟨?_, rfl⟩
  unfold SrcFn.comp Gen.genFunc Fn.code
  simp

/-- The functions of a program. The label counter is never reset (vmCode.c:86). -/
def compile : List SrcFn → Nat → List Fn
  | [], _ => []
  | fn :: fns, n => (fn.comp void n).1 :: compile fns (fn.comp void n).2

theorem compile_find (fns : List SrcFn) (f : Int) : ∀ n,
    match fns.find? (fun fn => fn.f = f) with
    | none => (compile void fns n).find? (fun fn => fn.f = f) = none
    | some fn => ∃ k, (compile void fns n).find? (fun fn => fn.f = f) = some (fn.comp void k).1 := by
  induction fns with
  | nil => intro n; rfl
  | cons fn fns ih =>
    intro n
    by_cases h : fn.f = f
    · rw [List.find?_cons_of_pos (by simpa using h)]
      exact ⟨n, List.find?_cons_of_pos (decide_eq_true (show (fn.comp void n).1.f = f from h))⟩
    · rw [List.find?_cons_of_neg (by simpa using h), compile,
        List.find?_cons_of_neg (p := fun fn : Fn => decide (fn.f = f)) (show ¬ decide ((fn.comp void n).1.f = f) = true from fun hx => h (of_decide_eq_true hx))]
      exact ih _

end

/-- The labels of the code of a function. -/
theorem comp_labels {void : Int → Bool} {fn : SrcFn} (h : NoBC fn.body) (n : Nat) :
    (labsI (fn.comp void n).1.body).Nodup ∧ (∀ x ∈ labsI (fn.comp void n).1.body, n < x ∧ x ≤ (fn.comp void n).2) ∧
      n ≤ (fn.comp void n).2 := by
  have := Gen.C47_function ⟨fn.cnt, void⟩ fn.f false fn.ker fn.d fn.body h (n + fn.strs)
  dsimp only at this
  rw [← (comp_code void n fn).1, ← (comp_code void n fn).2] at this
  have e : Gen.labels (fn.comp void n).1.code = labsI (fn.comp void n).1.body := by
    have e0 : ∀ c, Gen.labels c = labsI c := fun c => rfl
    rw [e0]
    unfold Fn.code labsI
    rw [List.filterMap_append, List.filterMap_append]
    cases (fn.comp void n).1.ker <;> simp
  rw [e] at this
  exact ⟨this.1, fun x hx => ⟨by have := (this.2.1 x hx).1; omega, (this.2.1 x hx).2⟩, by have := this.2.2.1; omega⟩

theorem comp_unique {void : Int → Bool} {fn : SrcFn} (h : NoBC fn.body) (n : Nat) : UniqueLabels (fn.comp void n).1.body :=
  Gen.uniqueLabels_of_nodup (comp_labels (void := void) h n).1

/-- The labels of a program. -/
theorem compile_labels {void : Int → Bool} (fns : List SrcFn) : ∀ n, (∀ fn ∈ fns, NoBC fn.body) →
    (progLabs (compile void fns n)).Nodup ∧ ∀ x ∈ progLabs (compile void fns n), n < x := by
  induction fns with
  | nil => intro n _; exact ⟨by simp [compile, progLabs], by simp [compile, progLabs]⟩
  | cons fn fns ih =>
    intro n h
    obtain ⟨h1, h2, h3⟩ := comp_labels (void := void) (h fn (List.mem_cons_self ..)) n
    obtain ⟨h4, h5⟩ := ih (fn.comp void n).2 fun fn hf => h fn (List.mem_cons_of_mem _ hf)
    unfold progLabs at h4 h5 ⊢
    rw [compile, List.flatMap_cons]
    refine ⟨List.nodup_append.2 ⟨h1, h4, fun a ha b hb he => ?_⟩, fun x hx => ?_⟩
    · subst he
      have := (h2 a ha).2
      have := h5 a hb
      omega
    · rcases List.mem_append.1 hx with hx | hx
      · exact (h2 x hx).1
      · have := h5 x hx
        omega

/-! ### Stack code follows the execution -/

section
variable {E : Env} {L : Lay}

/-- The fields of the world are where the code generator expects them. -/
theorem aworld_layout (cnt : Int → Int) (void : Int → Bool) (call) : Gen.Layout (aworld E L cnt call) ⟨cnt, void⟩ := by
  have e : ∀ idx : Int, 0 ≤ idx → idx < 500 → (BitVec.ofInt 16 idx : Word).toInt = idx := by
    intro idx h1 h2
    rw [BitVec.toInt_ofInt, Int.bmod_def]
    omega
  refine ⟨rfl, rfl, fun idx h1 h2 a s => ?_, rfl, rfl, fun idx h1 h2 a v s => ?_, rfl, rfl, fun idx h1 h2 a => ?_⟩
  · simp only [aworld, e idx h1 h2]
  · simp only [aworld, e idx h1 h2]
  · simp only [aworld, e idx h1 h2]

/-- `call2` returns where `call1` does. -/
def Le (call1 call2 : Int → List Word → Mem → Option (Word × Mem)) : Prop :=
  ∀ f vs mem r, call1 f vs mem = some r → call2 f vs mem = some r

theorem run_mono {cnt : Int → Int} {call1 call2} (h : Le call1 call2) {i : Instr} {d d' : Data AS}
    (hr : Gen.run (aworld E L cnt call1) i d = some d') : Gen.run (aworld E L cnt call2) i d = some d' := by
  have hc : ∀ f vs (s : AS) v s', (aworld E L cnt call1).call f vs s = some (v, s') →
      (aworld E L cnt call2).call f vs s = some (v, s') := by
    intro f vs s v s' hx
    simp only [aworld] at hx ⊢
    cases h1 : call1 f vs (L.clean s.mem) with
    | none => rw [h1] at hx; cases hx
    | some r => rw [h1] at hx; rw [h _ _ _ _ h1]; exact hx
  cases i with
  | callF n f =>
    obtain ⟨st, ar, rg, s⟩ := d
    simp only [Gen.run] at hr ⊢
    cases h1 : (aworld E L cnt call1).call f (ar.take n) s with
    | none => rw [h1] at hr; cases hr
    | some r => rw [h1] at hr; rw [hc _ _ _ _ _ h1]; exact hr
  | callP n f =>
    obtain ⟨st, ar, rg, s⟩ := d
    simp only [Gen.run] at hr ⊢
    cases h1 : (aworld E L cnt call1).call f (ar.take n) s with
    | none => rw [h1] at hr; cases hr
    | some r => rw [h1] at hr; rw [hc _ _ _ _ _ h1]; exact hr
  | _ =>
    obtain ⟨st, ar, rg, s⟩ := d
    rcases st with _ | ⟨a, _ | ⟨b, _ | ⟨c, st⟩⟩⟩ <;> exact hr

theorem steps_mono {cnt : Int → Int} {call1 call2} (h : Le call1 call2) {P : List Instr} {a b : Cfg AS}
    (hs : Steps (aworld E L cnt call1) P a b) : Steps (aworld E L cnt call2) P a b := by
  induction hs with
  | refl => exact .refl
  | head h1 _ ih =>
    refine .head ?_ ih
    cases h1 with
    | next h1 h2 => exact .next h1 (run_mono h h2)
    | jmp h1 h2 => exact .jmp h1 h2
    | jtT h1 h2 h3 => exact .jtT h1 h2 h3
    | jtF h1 h2 => exact .jtF h1 h2
    | jfT h1 h2 => exact .jfT h1 h2
    | jfF h1 h2 h3 => exact .jfF h1 h2 h3

def regOf (rg : Word) : Outcome → Word
  | .ret (some v) => v
  | _ => rg

/-- The stack code of a function follows the execution of its body. -/
theorem ret_of_src {void : Int → Bool} {V : Kind → Int → Bool} {call1 call2} (hle : Le call1 call2) {fn : SrcFn} {n : Nat}
    {vs : List Word} {mem : Mem} {v : Word} {mem' : Mem} (hb : NoBC fn.body) (hok : okS ⟨fn.cnt, void⟩ V fn.body = true)
    (h : RetS E L genSw call1 fn vs mem v mem') : Ret E L call2 (fn.comp void n).1 vs mem v mem' := by
  refine ⟨h.1, fun loc rg => ?_⟩
  obtain ⟨o, s', h1, h2, h3⟩ := h.2 loc
  have hg := NoBC.gen ⟨fn.cnt, void⟩ hb .root ⟨n + fn.strs, none, none, none⟩ (some 0) (some 0)
  have hg0 := NoBC.gen ⟨fn.cnt, void⟩ hb .root ⟨n + fn.strs, none, none, none⟩ none none
  simp only at hg hg0
  have hbody : (fn.comp void n).1.body = (Gen.genS ⟨fn.cnt, void⟩ .root fn.body ⟨n + fn.strs, none, none, none⟩).1 ++
      Gen.printLab (Gen.genS ⟨fn.cnt, void⟩ .root fn.body ⟨n + fn.strs, none, none, none⟩).2.ret := by
    unfold SrcFn.comp
    dsimp only
    rw [hg]
  generalize hP : (fn.comp void n).1.body = P at hbody ⊢
  generalize hr : Gen.genS ⟨fn.cnt, void⟩ .root fn.body ⟨n + fn.strs, none, none, none⟩ = r at hbody hg0
  have hat : Gen.At P 0 (r.1 ++ Gen.printLab r.2.ret) := by
    rw [hbody]
    intro i _
    rw [Nat.zero_add]
  obtain ⟨a1, a2⟩ := Gen.at_append.1 hat
  have hB : r.2.brk = none := by rw [hg0]
  have hC : r.2.cnt = none := by rw [hg0]
  obtain ⟨⟨pc', d⟩, k1, k2⟩ := Gen.genS_ok (P := P) (aworld_layout fn.cnt void call1) h2 (okS_wf _ _ hok) .root
    ⟨n + fn.strs, none, none, none⟩ 0 0 0 r.1.length (by rw [hr]; exact a1) (by rw [hr, hB]; intro k hk; cases hk)
    (by rw [hr, hC]; intro k hk; cases hk)
    (by rw [hr]; intro k hk; rw [hk] at a2; simpa using a2.head) [] [] rg
  have hl : P.length = r.1.length + (Gen.printLab r.2.ret).length := by rw [hbody, List.length_append]
  have hidle : ∀ d : Data AS, Idle P ⟨r.1.length, d⟩ ⟨P.length, d⟩ := by
    intro d
    rw [hl]
    exact Gen.idle_printLab (by simpa using a2)
  have hend : o = .normal ∨ (∃ v, o = .ret v) → pc' = r.1.length ∧ d = ⟨[], [], regOf rg o, s'⟩ := by
    intro ho
    rcases ho with rfl | ⟨v, rfl⟩
    · cases k2; exact ⟨by rw [hr]; simp, rfl⟩
    · obtain ⟨e1, e2⟩ := k2
      simp only at e1
      rw [hr] at e2
      refine ⟨?_, by rw [e1]; cases v <;> rfl⟩
      rcases e2 with e2 | ⟨e2, -⟩
      · exact e2
      · simpa using e2
  by_cases hv : E.val fn.f = true
  · rw [if_pos hv] at h3
    subst h3
    obtain ⟨rfl, rfl⟩ := hend (.inr ⟨_, rfl⟩)
    obtain ⟨pc, st, ar, rg1, s1, q1, q2, q3⟩ := k1
    have hd : (⟨st, ar, v, s1⟩ : Data AS) = ⟨[], [], v, s'⟩ := by
      have : ∀ {a b : Cfg AS}, Idle P a b → a.d = b.d := by
        intro a b h
        induction h with
        | refl => rfl
        | lab _ _ ih => exact ih
        | jmp _ _ _ ih => exact ih
      exact this q3
    cases hd
    refine ⟨s', rg1, h1, ?_⟩
    have hv' : E.val (fn.comp void n).1.f = true := hv
    dsimp only
    rw [if_pos hv']
    exact ⟨pc, steps_mono hle q1, q2, q3.trans (hidle _)⟩
  · rw [if_neg hv] at h3
    obtain ⟨ho, hv0⟩ := h3
    have hs : Steps (aworld E L fn.cnt call1) P ⟨0, ⟨[], [], rg, ⟨mem, loc, fun c => vs.getD c.toNat 0⟩⟩⟩ ⟨P.length, ⟨[], [], rg, s'⟩⟩ := by
      rcases ho with rfl | rfl
      · obtain ⟨rfl, rfl⟩ := hend (.inl rfl)
        exact k1.trans (hidle _).steps
      · obtain ⟨rfl, rfl⟩ := hend (.inr ⟨_, rfl⟩)
        exact Steps.trans k1 (hidle _).steps
    refine ⟨s', rg, h1, ?_⟩
    have hv' : ¬ E.val (fn.comp void n).1.f = true := hv
    dsimp only
    rw [if_neg hv']
    exact ⟨steps_mono hle hs, hv0⟩

end

end Cmm.Tac
