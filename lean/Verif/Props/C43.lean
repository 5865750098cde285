import Verif.Opt.OptStmt
import Verif.Props.C42

/-
C43: optimising statements does not change control flow.

False of the code: `do S while(false)` is replaced by `S` (optree.c:579-581), so a break or
continue in `S` is then seen by an enclosing loop (or by no loop at all). Proved for all
statements whose expressions satisfy the conditions of C41 and in which the body of a
`do … while` with a constantly false condition contains no break or continue of its own.
-/
namespace Cmm.Opt
open Cmm.Tree

variable {σ : Type}

/-- No break or continue that belongs to a loop outside of the statement. -/
def NoBC : Stmt → Prop
  | .brk | .cnt => False
  | .ifs _ b => NoBC b
  | .els _ a b => NoBC a ∧ NoBC b
  | .seq _ a b => NoBC a ∧ NoBC b
  | .empty | .exp _ | .whl _ _ _ | .dos _ _ | .ret _ => True

/-- Conditions on the expressions of a statement. -/
def GoodS (w : World σ) (st : Prop) : Stmt → Prop
  | .empty | .brk | .cnt => True
  | .exp e => Good w st e
  | .ifs c b => Good w st c ∧ IsB (eval w c) ∧ GoodS w st b
  | .els c a b => Good w st c ∧ IsB (eval w c) ∧ GoodS w st a ∧ GoodS w st b
  | .whl c b r => (∀ e, c = some e → Good w st e ∧ IsB (eval w e)) ∧ GoodS w st b ∧
      ∀ e, r = some e → Good w st e
  | .dos b c => Good w st c ∧ IsB (eval w c) ∧ GoodS w st b ∧ (Const (eval w c) 0 → NoBC b)
  | .ret e => ∀ x, e = some x → Good w st x
  | .seq _ a b => GoodS w st a ∧ GoodS w st b

/-! ### Congruence -/

def Sim (w : World σ) (a b : Stmt) : Prop := ∀ s o s', Exec (eval w) a s o s' → Exec (eval w) b s o s'
def Same (w : World σ) (a b : Stmt) : Prop := ∀ s o s', Exec (eval w) a s o s' ↔ Exec (eval w) b s o s'

theorem Same.mk' {w : World σ} {a b : Stmt} (h : Sim w a b) (h' : Sim w b a) : Same w a b :=
  fun s o s' => ⟨h s o s', h' s o s'⟩

theorem sim_ifs {w : World σ} {c c' : Expr} {b b' : Stmt} (hc : eval w c = eval w c')
    (hb : Sim w b b') : Sim w (.ifs c b) (.ifs c' b') := by
  intro s o s' h
  cases h with
  | ifT h1 h2 => exact .ifT (by unfold Cond at h1 ⊢; rwa [← hc]) (hb _ _ _ h2)
  | ifF h1 => exact .ifF (by unfold Cond at h1 ⊢; rwa [← hc])

theorem sim_els {w : World σ} {c c' : Expr} {a a' b b' : Stmt} (hc : eval w c = eval w c')
    (ha : Sim w a a') (hb : Sim w b b') : Sim w (.els c a b) (.els c' a' b') := by
  intro s o s' h
  cases h with
  | elsT h1 h2 => exact .elsT (by unfold Cond at h1 ⊢; rwa [← hc]) (ha _ _ _ h2)
  | elsF h1 h2 => exact .elsF (by unfold Cond at h1 ⊢; rwa [← hc]) (hb _ _ _ h2)

theorem sim_seq {w : World σ} {k : Bool} {a a' b b' : Stmt}
    (ha : Sim w a a') (hb : Sim w b b') : Sim w (.seq k a b) (.seq k a' b') := by
  intro s o s' h
  cases h with
  | seqN h1 h2 => exact .seqN (ha _ _ _ h1) (hb _ _ _ h2)
  | seqX h1 h2 => exact .seqX (ha _ _ _ h1) h2

theorem sim_whl {w : World σ} {c c' r r' : Option Expr} {b b' : Stmt}
    (hc : ∀ s v s', CondO (eval w) c s v s' → CondO (eval w) c' s v s')
    (hr : ∀ s s', Eff (eval w) r s s' → Eff (eval w) r' s s')
    (hb : Sim w b b') : Sim w (.whl c b r) (.whl c' b' r') := by
  intro s o s' h
  generalize hS : Stmt.whl c b r = S at h
  induction h with
  | whlF h1 => cases hS; exact .whlF (hc _ _ _ h1)
  | whlB h1 h2 => cases hS; exact .whlB (hc _ _ _ h1) (hb _ _ _ h2)
  | whlR h1 h2 => cases hS; exact .whlR (hc _ _ _ h1) (hb _ _ _ h2)
  | whlL h1 h2 h3 h4 h5 ih1 ih2 =>
    cases hS; exact .whlL (hc _ _ _ h1) (hb _ _ _ h2) h3 (hr _ _ h4) (ih2 rfl)
  | _ => cases hS

theorem sim_dos {w : World σ} {c c' : Expr} {b b' : Stmt} (hc : eval w c = eval w c')
    (hb : Sim w b b') : Sim w (.dos b c) (.dos b' c') := by
  intro s o s' h
  generalize hS : Stmt.dos b c = S at h
  induction h with
  | doB h1 => cases hS; exact .doB (hb _ _ _ h1)
  | doR h1 => cases hS; exact .doR (hb _ _ _ h1)
  | doF h1 h2 h3 => cases hS; exact .doF (hb _ _ _ h1) h2 (by unfold Cond at h3 ⊢; rwa [← hc])
  | doL h1 h2 h3 h4 ih1 ih2 =>
    cases hS; exact .doL (hb _ _ _ h1) h2 (by unfold Cond at h3 ⊢; rwa [← hc]) (ih2 rfl)
  | _ => cases hS

theorem noBC_exec {w : World σ} {S : Stmt} (h : NoBC S) {s o s'} (he : Exec (eval w) S s o s') :
    o = .normal ∨ ∃ v, o = .ret v := by
  induction he with
  | brk => exact h.elim
  | cnt => exact h.elim
  | ifT _ _ ih => exact ih h
  | elsT _ _ ih => exact ih h.1
  | elsF _ _ ih => exact ih h.2
  | seqN _ _ _ ih => exact ih h.2
  | seqX _ _ ih => exact ih h.1
  | whlL _ _ _ _ _ _ ih => exact ih trivial
  | doL _ _ _ _ _ ih => exact ih trivial
  | _ => simp

/-- A condition with constant value. -/
theorem cond_const {w : World σ} {c : Expr} {v : Word} (h : Const (eval w c) v) {s b s'} :
    Cond (eval w) c s b s' ↔ b = (v != 0) ∧ s' = s := by
  unfold Cond
  constructor
  · rintro ⟨vs, h1, h2⟩
    rw [h s] at h1
    simp only [Option.some.injEq, Prod.mk.injEq] at h1
    rw [← h1.1] at h2
    exact ⟨h2, h1.2.symm⟩
  · rintro ⟨rfl, rfl⟩
    exact ⟨[v], h s', rfl⟩

/-- A truth-valued condition that has been reduced to a constant. -/
theorem const_cases {w : World σ} {st : Prop} {c : Expr} {v : Int} (hg : Okay w st c (some (.cnst v)))
    (hb : IsB (eval w c)) (s : σ) :
    (getB v = true ∧ Const (eval w c) 1) ∨ (getB v = false ∧ Const (eval w c) 0) := by
  have hc : Const (eval w c) (I v) := by rw [← hg.1.eq]; exact const_cnst w v
  have := hb s _ _ (hc s)
  rcases I_inj_01 hg.2 (by simpa using this) with rfl | rfl
  · exact .inr ⟨rfl, hc⟩
  · exact .inl ⟨rfl, hc⟩

theorem do_true {w : World σ} {b : Stmt} {c : Expr} (h : Const (eval w c) 1) :
    Same w (.dos b c) (.whl none b none) := by
  refine Same.mk' ?_ ?_
  · intro s o s' he
    generalize hS : Stmt.dos b c = S at he
    induction he with
    | doB h1 => cases hS; exact .whlB ⟨rfl, rfl⟩ h1
    | doR h1 => cases hS; exact .whlR ⟨rfl, rfl⟩ h1
    | doF h1 h2 h3 => cases hS; rw [cond_const h] at h3; simp at h3
    | doL h1 h2 h3 h4 ih1 ih2 =>
      cases hS
      rw [cond_const h] at h3
      obtain ⟨-, rfl⟩ := h3
      exact .whlL ⟨rfl, rfl⟩ h1 h2 rfl (ih2 rfl)
    | _ => cases hS
  · intro s o s' he
    generalize hS : Stmt.whl none b none = S at he
    induction he with
    | whlF h1 => cases hS; exact absurd h1.1 (by decide)
    | whlB h1 h2 => cases hS; obtain ⟨-, rfl⟩ := h1; exact .doB h2
    | whlR h1 h2 => cases hS; obtain ⟨-, rfl⟩ := h1; exact .doR h2
    | whlL h1 h2 h3 h4 h5 ih1 ih2 =>
      cases hS
      obtain ⟨-, rfl⟩ := h1
      cases h4
      exact .doL h2 h3 ((cond_const h).2 ⟨by decide, rfl⟩) (ih2 rfl)
    | _ => cases hS

theorem do_false {w : World σ} {b : Stmt} {c : Expr} (h : Const (eval w c) 0) (hb : NoBC b) :
    Same w (.dos b c) b := by
  intro s o s'
  constructor
  · intro he
    cases he with
    | doB h1 => have := noBC_exec hb h1; simp at this
    | doR h1 => exact h1
    | doF h1 h2 h3 =>
      rcases noBC_exec hb h1 with rfl | ⟨v, rfl⟩
      · rw [cond_const h] at h3; obtain ⟨-, rfl⟩ := h3; exact h1
      · simp at h2
    | doL h1 h2 h3 h4 => rw [cond_const h] at h3; simp at h3
  · intro he
    rcases noBC_exec hb he with rfl | ⟨v, rfl⟩
    · exact .doF he (.inl rfl) ((cond_const h).2 ⟨by decide, rfl⟩)
    · exact .doR he

theorem Same.trans {w : World σ} {a b c : Stmt} (h : Same w a b) (h' : Same w b c) :
    Same w a c := fun s o s' => (h s o s').trans (h' s o s')

theorem Same.symm {w : World σ} {a b : Stmt} (h : Same w a b) : Same w b a :=
  fun s o s' => (h s o s').symm

theorem Same.sim {w : World σ} {a b : Stmt} (h : Same w a b) : Sim w a b :=
  fun s o s' => (h s o s').1

theorem same_const_exp {w : World σ} {v : Int} {S : Stmt}
    (h : ∀ s o s', Exec (eval w) S s o s' ↔ o = .normal ∧ s' = s) : Same w S (.exp (.cnst v)) := by
  intro s o s'
  rw [h]
  constructor
  · rintro ⟨rfl, rfl⟩; exact .exp rfl
  · intro he
    cases he with
    | exp h1 => simp [eval] at h1; exact ⟨rfl, h1.2.symm⟩

theorem optExp_spec {w : World σ} {cnt : σ → Nat} (T : Traced w cnt) {st : Prop} {e e' : Expr}
    (hg : Good w st e) (h : optExp e = some e') : Okay w st e (some e') := h ▸ optExp_ok T e hg

theorem optTree_same {w : World σ} {cnt : σ → Nat} (T : Traced w cnt) {st : Prop} (s0 : σ)
    (S : Stmt) : ∀ {S'}, GoodS w st S → optTree S = some S' → Same w S S' := by
  have effO : ∀ {r r' : Option Expr}, (∀ e, r = some e → Good w st e) → optExpO r = some r' →
      ∀ s s', Eff (eval w) r s s' ↔ Eff (eval w) r' s s' := by
    intro r r' hg h s s'
    cases r with
    | none => simp [optExpO] at h; subst h; rfl
    | some e =>
      simp only [optExpO, Option.map_eq_some_iff] at h
      obtain ⟨e', h1, rfl⟩ := h
      have := (optExp_spec T (hg e rfl) h1).1.eq
      simp only [Eff, this]
  induction S with
  | empty => intro S' _ h; simp [optTree] at h; subst h; exact fun _ _ _ => Iff.rfl
  | brk => intro S' _ h; simp [optTree] at h; subst h; exact fun _ _ _ => Iff.rfl
  | cnt => intro S' _ h; simp [optTree] at h; subst h; exact fun _ _ _ => Iff.rfl
  | exp e =>
    intro S' hg h
    simp only [optTree, Option.map_eq_some_iff] at h
    obtain ⟨e', h1, rfl⟩ := h
    have he := (optExp_spec T hg h1).1.eq
    intro s o s'
    constructor
    · intro h; cases h with | exp h => exact .exp (by rw [he]; exact h)
    · intro h; cases h with | exp h => exact .exp (by rw [← he]; exact h)
  | ret e =>
    intro S' hg h
    cases e with
    | none => simp [optTree, optExpO] at h; subst h; exact fun _ _ _ => Iff.rfl
    | some x =>
      simp only [optTree, optExpO, Option.map_eq_some_iff] at h
      obtain ⟨_, ⟨x', h1, rfl⟩, rfl⟩ := h
      have he := (optExp_spec T (hg x rfl) h1).1.eq
      intro s o s'
      constructor
      · intro h; cases h with | ret h => exact .ret (by rw [he]; exact h)
      · intro h; cases h with | ret h => exact .ret (by rw [← he]; exact h)
  | seq k a b iha ihb =>
    intro S' hg h
    simp only [optTree, Option.bind_eq_bind, Option.bind_eq_some_iff, Option.some.injEq] at h
    obtain ⟨a', ha, b', hb, rfl⟩ := h
    have h1 := iha hg.1 ha
    have h2 := ihb hg.2 hb
    exact Same.mk' (sim_seq h1.sim h2.sim) (sim_seq h1.symm.sim h2.symm.sim)
  | ifs c b ih =>
    intro S' hg h
    simp only [optTree, Option.bind_eq_bind, Option.bind_eq_some_iff] at h
    obtain ⟨c', hc, h⟩ := h
    have hs := optExp_spec T hg.1 hc
    split at h
    · rename_i v
      rcases const_cases hs hg.2.1 s0 with ⟨hv, hk⟩ | ⟨hv, hk⟩
      · simp only [hv, if_true] at h
        refine Same.trans ?_ (ih hg.2.2 h)
        intro s o s'
        constructor
        · intro he
          cases he with
          | ifT h1 h2 => rw [cond_const hk] at h1; obtain ⟨-, rfl⟩ := h1; exact h2
          | ifF h1 => rw [cond_const hk] at h1; simp at h1
        · intro he; exact .ifT ((cond_const hk).2 ⟨by decide, rfl⟩) he
      · simp only [hv, Bool.false_eq_true, if_false, Option.some.injEq] at h
        subst h
        refine same_const_exp fun s o s' => ⟨?_, ?_⟩
        · intro he
          cases he with
          | ifT h1 h2 => rw [cond_const hk] at h1; simp at h1
          | ifF h1 => rw [cond_const hk] at h1; exact ⟨rfl, h1.2⟩
        · rintro ⟨rfl, rfl⟩; exact .ifF ((cond_const hk).2 ⟨by decide, rfl⟩)
    · simp only [Option.map_eq_some_iff] at h
      obtain ⟨b', hb, rfl⟩ := h
      have h1 := ih hg.2.2 hb
      exact Same.mk' (sim_ifs hs.1.eq.symm h1.sim) (sim_ifs hs.1.eq h1.symm.sim)
  | els c a b iha ihb =>
    intro S' hg h
    simp only [optTree, Option.bind_eq_bind, Option.bind_eq_some_iff] at h
    obtain ⟨c', hc, h⟩ := h
    have hs := optExp_spec T hg.1 hc
    split at h
    · rename_i v
      rcases const_cases hs hg.2.1 s0 with ⟨hv, hk⟩ | ⟨hv, hk⟩
      · simp only [hv, if_true] at h
        refine Same.trans ?_ (iha hg.2.2.1 h)
        intro s o s'
        constructor
        · intro he
          cases he with
          | elsT h1 h2 => rw [cond_const hk] at h1; obtain ⟨-, rfl⟩ := h1; exact h2
          | elsF h1 h2 => rw [cond_const hk] at h1; simp at h1
        · intro he; exact .elsT ((cond_const hk).2 ⟨by decide, rfl⟩) he
      · simp only [hv, Bool.false_eq_true, if_false] at h
        refine Same.trans ?_ (ihb hg.2.2.2 h)
        intro s o s'
        constructor
        · intro he
          cases he with
          | elsT h1 h2 => rw [cond_const hk] at h1; simp at h1
          | elsF h1 h2 => rw [cond_const hk] at h1; obtain ⟨-, rfl⟩ := h1; exact h2
        · intro he; exact .elsF ((cond_const hk).2 ⟨by decide, rfl⟩) he
    · simp only [Option.bind_eq_bind, Option.bind_eq_some_iff, Option.some.injEq] at h
      obtain ⟨b', hb, a', ha, rfl⟩ := h
      have h1 := iha hg.2.2.1 ha
      have h2 := ihb hg.2.2.2 hb
      exact Same.mk' (sim_els hs.1.eq.symm h1.sim h2.sim)
        (sim_els hs.1.eq h1.symm.sim h2.symm.sim)
  | whl c b r ih =>
    intro S' hg h
    simp only [optTree, Option.bind_eq_bind, Option.bind_eq_some_iff] at h
    obtain ⟨c', hc, h⟩ := h
    cases c with
    | none =>
      simp [optExpO] at hc
      subst hc
      simp only [Option.bind_eq_bind, Option.bind_eq_some_iff, Option.some.injEq] at h
      obtain ⟨b', hb, r', hr, rfl⟩ := h
      have h1 := ih hg.2.1 hb
      have h2 := effO hg.2.2 hr
      exact Same.mk' (sim_whl (fun _ _ _ h => h) (fun s s' => (h2 s s').1) h1.sim)
        (sim_whl (fun _ _ _ h => h) (fun s s' => (h2 s s').2) h1.symm.sim)
    | some c =>
      simp only [optExpO, Option.map_eq_some_iff] at hc
      obtain ⟨c', hc, rfl⟩ := hc
      have hs := optExp_spec T (hg.1 c rfl).1 hc
      split at h
      · rename_i v heq
        cases heq
        rcases const_cases hs (hg.1 c rfl).2 s0 with ⟨hv, hk⟩ | ⟨hv, hk⟩
        · simp only [hv, if_true, Option.bind_eq_bind, Option.bind_eq_some_iff,
            Option.some.injEq] at h
          obtain ⟨b', hb, r', hr, rfl⟩ := h
          have h1 := ih hg.2.1 hb
          have h2 := effO hg.2.2 hr
          refine Same.mk' (sim_whl ?_ (fun s s' => (h2 s s').1) h1.sim)
            (sim_whl ?_ (fun s s' => (h2 s s').2) h1.symm.sim)
          · intro s v s' h; exact (cond_const hk).1 h
          · intro s v s' h; exact (cond_const hk).2 h
        · simp only [hv, Bool.false_eq_true, if_false, Option.some.injEq] at h
          subst h
          have no : ∀ s s', ¬ CondO (eval w) (some c) s true s' := fun s s' h => by
            have := (cond_const hk).1 h; simp at this
          refine same_const_exp fun s o s' => ⟨?_, ?_⟩
          · intro he
            cases he with
            | whlF h1 => exact ⟨rfl, ((cond_const hk).1 h1).2⟩
            | whlB h1 => exact absurd h1 (no _ _)
            | whlR h1 => exact absurd h1 (no _ _)
            | whlL h1 => exact absurd h1 (no _ _)
          · rintro ⟨rfl, rfl⟩; exact .whlF ((cond_const hk).2 ⟨by decide, rfl⟩)
      · simp only [Option.bind_eq_bind, Option.bind_eq_some_iff, Option.some.injEq] at h
        obtain ⟨b', hb, r', hr, rfl⟩ := h
        have h1 := ih hg.2.1 hb
        have h2 := effO hg.2.2 hr
        have he := hs.1.eq
        refine Same.mk' (sim_whl ?_ (fun s s' => (h2 s s').1) h1.sim)
          (sim_whl ?_ (fun s s' => (h2 s s').2) h1.symm.sim)
        · intro s v s' h; simp only [CondO, Cond] at h ⊢; rw [he]; exact h
        · intro s v s' h; simp only [CondO, Cond] at h ⊢; rw [he] at h; exact h
  | dos b c ih =>
    intro S' hg h
    simp only [optTree, Option.bind_eq_bind, Option.bind_eq_some_iff] at h
    obtain ⟨c', hc, b', hb, h⟩ := h
    have hs := optExp_spec T hg.1 hc
    have h1 := ih hg.2.2.1 hb
    have hd : ∀ c', eval w c' = eval w c → Same w (.dos b c) (.dos b' c') := fun c' h =>
      Same.mk' (sim_dos h.symm h1.sim) (sim_dos h h1.symm.sim)
    split at h
    · rename_i v
      rcases const_cases hs hg.2.1 s0 with ⟨hv, hk⟩ | ⟨hv, hk⟩
      · simp only [hv, if_true, Option.some.injEq] at h
        subst h
        exact (hd c rfl).trans (do_true hk)
      · simp only [hv, Bool.false_eq_true, if_false, Option.some.injEq] at h
        subst h
        exact (do_false hk (hg.2.2.2 hk)).trans h1
    · simp only [Option.some.injEq] at h
      subst h
      exact hd _ hs.1.eq

/-- The optimized statement has exactly the same terminating executions: same outcome
(normal, break, continue, return with value), same final state and same log of calls and
assignments. In particular it terminates in the same states. -/
theorem C43_partial (w : World σ) (st : Prop) (S S' : Stmt) (hg : GoodS (traced w) st S)
    (h : optTree S = some S') (s : σ × List Event) (o : Outcome) (s' : σ × List Event) :
    Exec (eval (traced w)) S s o s' ↔ Exec (eval (traced w)) S' s o s' :=
  optTree_same (traced_traced w) s S hg h s o s'

/-- `while (1 > 0) { if (false) f(); x = x + (1 + 1); break; }` becomes
`for (;;) { 0; x = x + 2; break; }`. -/
example :
    let x := Expr.leaf .loc 1
    let S := Stmt.whl (some (.bin .gt (.cnst 1) (.cnst 0)))
      (.seq true (.ifs (.cnst 0) (.exp (.func0 1)))
        (.seq true (.exp (.assV .loc 1 (.bin .add x (.bin .add (.cnst 1) (.cnst 1))))) .brk)) none
    let S' := Stmt.whl none (.seq true (.exp (.cnst 0))
      (.seq true (.exp (.assV .loc 1 (.bin .add x (.cnst 2)))) .brk)) none
    GoodS (traced exW) False S ∧ optTree S = some S' ∧
      Exec (eval (traced exW)) S (exS 5 0, []) .normal
        ((fun m => if m = 1 then 7 else exS 5 0 m), [.write .loc 1 7]) := by
  have sl : ∀ n, Single (eval (traced exW) (.leaf .loc n)) := fun n => single_eval _ trivial
  have sc : ∀ v, Single (eval (traced exW) (.cnst v)) := fun v => single_eval _ trivial
  refine ⟨⟨?_, ⟨⟨trivial, ?_, trivial⟩, ⟨trivial, ⟨trivial, trivial,
    local_addsub _ (.inl rfl) (sc _) (sc _), by simp⟩,
    local_addsub _ (.inl rfl) (sl _) (single_bin _ (by decide) _ _), by simp⟩, trivial⟩,
    by simp⟩, by decide, ?_⟩
  · rintro e ⟨⟩
    refine ⟨⟨trivial, trivial, ⟨fun _ => ⟨sc _, sc _⟩, by simp, by simp [zeroOf], by simp,
      by simp⟩, by simp⟩, ?_⟩
    intro s vs s' h
    have : ([(1 : Word)], s) = (vs, s') := by
      have h' : some ([(1 : Word)], s) = some (vs, s') := h
      exact Option.some.inj h'
    right
    exact (congrArg Prod.fst this).symm
  · intro s vs s' h
    have : ([(0 : Word)], s) = (vs, s') := Option.some.inj h
    left
    exact (congrArg Prod.fst this).symm
  · refine .whlB (s1 := (exS 5 0, [])) ⟨[1], rfl, rfl⟩ (.seqN (.ifF ⟨[0], rfl, rfl⟩)
      (.seqN (.exp (vs := [7]) ?_) .brk))
    rfl

/-- `do break; while (false);` leaves its own loop; the optimized statement is a bare `break`,
which leaves the enclosing loop. -/
theorem C43_false (w : World σ) (s : σ) :
    ∃ S S' : Stmt, optTree S = some S' ∧ Exec (eval w) S s .normal s ∧ ¬ Exec (eval w) S' s .normal s ∧
      Exec (eval w) S' s .brk s := by
  refine ⟨.dos .brk (.cnst 0), .brk, by decide, .doB .brk, ?_, .brk⟩
  intro h
  cases h

/-- In an enclosing loop the difference is visible in the final state:
`for (;; ) { do continue; while (false); return; }` returns, the optimized program loops for
ever. -/
theorem C43_loop_false (w : World σ) (s : σ) :
    ∃ S S' : Stmt, optTree S = some S' ∧ Exec (eval w) S s (.ret none) s ∧
      ∀ o s', ¬ Exec (eval w) S' s o s' := by
  refine ⟨.whl none (.seq true (.dos .cnt (.cnst 0)) (.ret none)) none,
    .whl none (.seq true .cnt (.ret none)) none, by decide, ?_, ?_⟩
  · exact .whlR ⟨rfl, rfl⟩ (.seqN (.doF .cnt (.inr rfl) ⟨[0], rfl, rfl⟩) .ret0)
  · intro o s' h
    generalize hS : Stmt.whl none (.seq true .cnt (.ret none)) none = S at h
    induction h with
    | whlF h1 => cases hS; exact absurd h1.1 (by decide)
    | whlB h1 h2 =>
      cases hS
      cases h2 with
      | seqN h3 => cases h3
      | seqX h3 => cases h3
    | whlR h1 h2 =>
      cases hS
      cases h2 with
      | seqN h3 => cases h3
      | seqX h3 => cases h3
    | whlL h1 h2 h3 h4 h5 ih1 ih2 => cases hS; exact ih2 rfl
    | _ => cases hS

end Cmm.Opt
