import Verif.Opt.Refine
import Verif.Opt.OptStmt

/- The optimizer on statements: what a statement does (Verif/Opt/Refine.lean), the optimized statement does. -/
namespace Cmm.Opt
open Cmm.Tree Cmm.Gen

variable {σ : Type} {w : World σ}

/-- The optimizer removes no call and no assignment. -/
def keeps (e : Expr) : Bool := (optExp e).all fun e' => eff e' == eff e

def mildE (p : Pos) (e : Expr) : Bool := fine p e && keeps e

/-- Conditions are truth values. -/
def mildC (c : Expr) : Bool := mildE .cond c && bit c

/-- No `break` and no `continue` of an outer loop. -/
def noBC : Stmt → Bool
  | .brk | .cnt => false
  | .ifs _ a => noBC a
  | .els _ a b => noBC a && noBC b
  | .seq _ a b => noBC a && noBC b
  | _ => true

/-- The condition becomes the constant false. -/
def never (c : Expr) : Bool := match optExp c with
  | some (.cnst v) => !getB v
  | _ => false

/-- The conditions hold for all expressions, and loops that are executed exactly once have no `break` and `continue`. -/
def mild : Stmt → Bool
  | .empty | .brk | .cnt => true
  | .exp e => mildE .val e
  | .ifs c a => mildC c && mild a
  | .els c a b => mildC c && mild a && mild b
  | .whl c a r => c.all mildC && mild a && r.all (mildE .val)
  | .dos a c => mildC c && mild a && (!never c || noBC a)
  | .ret e => e.all (mildE .val)
  | .seq _ a b => mild a && mild b

theorem noBC_out {ev : Expr → Den σ} {S : Stmt} {s : σ} {o : Outcome} {s' : σ} (h : Exec ev S s o s') :
    noBC S = true → o ≠ .brk ∧ o ≠ .cnt := by
  induction h <;> intro hn <;> simp_all [noBC]

theorem mildE_le {p : Pos} {e e' : Expr} (hm : mildE p e = true) (h : optExp e = some e') :
    Le p (evalLR w e) (evalLR w e') := by
  simp only [mildE, keeps, h, Option.all_some, Bool.and_eq_true, beq_iff_eq] at hm
  exact optExp_le h hm.1 hm.2

theorem mild_cond {c c' : Expr} (hm : mildC c = true) (h : optExp c = some c') {s : σ} {b : Bool} {s' : σ}
    (hc : Cond (evalLR w) c s b s') : Cond (evalLR w) c' s b s' := by
  obtain ⟨vs, h1, h2⟩ := hc
  obtain ⟨vs', h3, h4⟩ := (mildE_le (Bool.and_eq_true_iff.1 hm).1 h).truth h1
  refine ⟨vs', h3, h2.trans ?_⟩
  by_cases hz : vs.headD 0 = 0
  · rw [hz, h4.2 hz]
  · have hz' : vs'.headD 0 ≠ 0 := fun h => hz (h4.1 h)
    rw [bne_iff_ne.2 hz, bne_iff_ne.2 hz']

theorem mild_const {c : Expr} {v : Int} (hm : mildC c = true) (h : optExp c = some (.cnst v)) {s : σ} {b : Bool} {s' : σ}
    (hc : Cond (evalLR w) c s b s') : b = getB v ∧ s' = s := by
  have hb := (optExp_keep h).1.bit (Bool.and_eq_true_iff.1 hm).2
  simp only [bit, Bool.or_eq_true, beq_iff_eq] at hb
  obtain ⟨vs, h1, h2⟩ := mild_cond hm h hc
  rw [lr_cnst] at h1
  cases h1
  refine ⟨h2.trans ?_, rfl⟩
  rcases hb with rfl | rfl <;> rfl

theorem mild_eff {r r' : Option Expr} (hm : r.all (mildE .val) = true) (h : optExpO r = some r') {s s' : σ}
    (he : Eff (evalLR w) r s s') : Eff (evalLR w) r' s s' := by
  cases r with
  | none => cases h; exact he
  | some e =>
    simp only [optExpO, Option.map_eq_some_iff] at h
    obtain ⟨e', h1, rfl⟩ := h
    obtain ⟨vs, h2⟩ := he
    exact ⟨vs, (mildE_le hm h1).get h2⟩

theorem optTree_exec {S : Stmt} {s : σ} {o : Outcome} {s' : σ} (h : Exec (evalLR w) S s o s') :
    ∀ {S'}, optTree S = some S' → mild S = true → Exec (evalLR w) S' s o s' := by
  induction h with
  | empty => intro S' h _; cases h; exact .empty
  | brk => intro S' h _; cases h; exact .brk
  | cnt => intro S' h _; cases h; exact .cnt
  | ret0 => intro S' h _; cases h; exact .ret0
  | exp h1 =>
    intro S' h hm
    simp only [optTree, Option.map_eq_some_iff] at h
    obtain ⟨e', h2, rfl⟩ := h
    exact .exp ((mildE_le hm h2).get h1)
  | ret h1 =>
    intro S' h hm
    simp only [optTree, optExpO, Option.map_eq_some_iff] at h
    obtain ⟨_, ⟨e', h2, rfl⟩, rfl⟩ := h
    exact .ret ((mildE_le hm h2).get h1)
  | seqN h1 h2 ih1 ih2 =>
    intro S' h hm
    simp only [optTree, Option.bind_eq_bind, Option.bind_eq_some_iff, Option.some.injEq] at h
    obtain ⟨a', ha, b', hb, rfl⟩ := h
    obtain ⟨m1, m2⟩ := Bool.and_eq_true_iff.1 hm
    exact .seqN (ih1 ha m1) (ih2 hb m2)
  | seqX h1 h2 ih1 =>
    intro S' h hm
    simp only [optTree, Option.bind_eq_bind, Option.bind_eq_some_iff, Option.some.injEq] at h
    obtain ⟨a', ha, b', hb, rfl⟩ := h
    exact .seqX (ih1 ha (Bool.and_eq_true_iff.1 hm).1) h2
  | ifT h1 h2 ih =>
    intro S' h hm
    simp only [optTree, Option.bind_eq_bind, Option.bind_eq_some_iff] at h
    obtain ⟨c', hc, h⟩ := h
    obtain ⟨m1, m2⟩ := Bool.and_eq_true_iff.1 hm
    split at h
    · obtain ⟨h3, rfl⟩ := mild_const m1 hc h1
      rw [if_pos h3.symm] at h
      exact ih h m2
    · simp only [Option.map_eq_some_iff] at h
      obtain ⟨b', hb, rfl⟩ := h
      exact .ifT (mild_cond m1 hc h1) (ih hb m2)
  | ifF h1 =>
    intro S' h hm
    simp only [optTree, Option.bind_eq_bind, Option.bind_eq_some_iff] at h
    obtain ⟨c', hc, h⟩ := h
    obtain ⟨m1, m2⟩ := Bool.and_eq_true_iff.1 hm
    split at h
    · obtain ⟨h3, rfl⟩ := mild_const m1 hc h1
      rw [← h3] at h
      cases h
      exact .exp (lr_cnst _ _)
    · simp only [Option.map_eq_some_iff] at h
      obtain ⟨b', hb, rfl⟩ := h
      exact .ifF (mild_cond m1 hc h1)
  | elsT h1 h2 ih =>
    intro S' h hm
    simp only [optTree, Option.bind_eq_bind, Option.bind_eq_some_iff] at h
    obtain ⟨c', hc, h⟩ := h
    simp only [mild, Bool.and_eq_true] at hm
    obtain ⟨⟨m1, m2⟩, m3⟩ := hm
    split at h
    · obtain ⟨h3, rfl⟩ := mild_const m1 hc h1
      rw [if_pos h3.symm] at h
      exact ih h m2
    · simp only [Option.bind_eq_some_iff, Option.some.injEq] at h
      obtain ⟨b', hb, a', ha, rfl⟩ := h
      exact .elsT (mild_cond m1 hc h1) (ih ha m2)
  | elsF h1 h2 ih =>
    intro S' h hm
    simp only [optTree, Option.bind_eq_bind, Option.bind_eq_some_iff] at h
    obtain ⟨c', hc, h⟩ := h
    simp only [mild, Bool.and_eq_true] at hm
    obtain ⟨⟨m1, m2⟩, m3⟩ := hm
    split at h
    · obtain ⟨h3, rfl⟩ := mild_const m1 hc h1
      rw [← h3] at h
      exact ih h m3
    · simp only [Option.bind_eq_some_iff, Option.some.injEq] at h
      obtain ⟨b', hb, a', ha, rfl⟩ := h
      exact .elsF (mild_cond m1 hc h1) (ih hb m3)
  | doB h1 ih =>
    intro S' h hm
    simp only [optTree, Option.bind_eq_bind, Option.bind_eq_some_iff] at h
    obtain ⟨c', hc, b', hb, h⟩ := h
    simp only [mild, Bool.and_eq_true] at hm
    obtain ⟨⟨m1, m2⟩, m3⟩ := hm
    have i := ih hb m2
    split at h
    · rename_i v
      by_cases hv : getB v = true
      · rw [if_pos hv] at h
        cases h
        exact .whlB ⟨rfl, rfl⟩ i
      · have : never _ = true := show (match optExp _ with | some (.cnst v) => !getB v | _ => false) = true by
          rw [hc]; simpa using hv
        rw [this] at m3
        exact absurd rfl (noBC_out h1 (by simpa using m3)).1
    · cases h
      exact .doB i
  | doR h1 ih =>
    intro S' h hm
    simp only [optTree, Option.bind_eq_bind, Option.bind_eq_some_iff] at h
    obtain ⟨c', hc, b', hb, h⟩ := h
    simp only [mild, Bool.and_eq_true] at hm
    obtain ⟨⟨m1, m2⟩, m3⟩ := hm
    have i := ih hb m2
    split at h
    · split at h <;> cases h
      · exact .whlR ⟨rfl, rfl⟩ i
      · exact i
    · cases h
      exact .doR i
  | doF h1 ho h2 ih =>
    intro S' h hm
    simp only [optTree, Option.bind_eq_bind, Option.bind_eq_some_iff] at h
    obtain ⟨c', hc, b', hb, h⟩ := h
    simp only [mild, Bool.and_eq_true] at hm
    obtain ⟨⟨m1, m2⟩, m3⟩ := hm
    have i := ih hb m2
    split at h
    · rename_i v
      obtain ⟨h3, rfl⟩ := mild_const m1 hc h2
      rw [← h3] at h
      cases h
      have : never _ = true := show (match optExp _ with | some (.cnst v) => !getB v | _ => false) = true by
        rw [hc]; simp [← h3]
      rw [this] at m3
      rcases ho with rfl | rfl
      · exact i
      · exact absurd rfl (noBC_out h1 (by simpa using m3)).2
    · cases h
      exact .doF i ho (mild_cond m1 hc h2)
  | doL h1 ho h2 h3 ih1 ih2 =>
    intro S' h hm
    have h' := h
    simp only [optTree, Option.bind_eq_bind, Option.bind_eq_some_iff] at h
    obtain ⟨c', hc, b', hb, h⟩ := h
    have i2 := ih2 h' hm
    simp only [mild, Bool.and_eq_true] at hm
    obtain ⟨⟨m1, m2⟩, m3⟩ := hm
    have i := ih1 hb m2
    split at h
    · rename_i v
      obtain ⟨h3, rfl⟩ := mild_const m1 hc h2
      rw [← h3] at h
      cases h
      exact .whlL ⟨rfl, rfl⟩ i ho rfl i2
    · cases h
      exact .doL i ho (mild_cond m1 hc h2) i2
  | @whlF c b r s s1 h1 =>
    intro S' h hm
    simp only [optTree, Option.bind_eq_bind, Option.bind_eq_some_iff] at h
    obtain ⟨c', hc, h⟩ := h
    simp only [mild, Bool.and_eq_true] at hm
    obtain ⟨⟨m1, m2⟩, m3⟩ := hm
    cases c with
    | none => cases h1.1
    | some c =>
      simp only [optExpO, Option.map_eq_some_iff] at hc
      obtain ⟨c', hc, rfl⟩ := hc
      split at h
      · rename_i v h4
        cases h4
        obtain ⟨h3, rfl⟩ := mild_const m1 hc h1
        rw [← h3] at h
        cases h
        exact .exp (lr_cnst _ _)
      · simp only [Option.bind_eq_some_iff, Option.some.injEq] at h
        obtain ⟨b', hb, r', hr, rfl⟩ := h
        exact .whlF (mild_cond m1 hc h1)
  | @whlB c b r s s1 s2 h1 h2 ih =>
    intro S' h hm
    simp only [optTree, Option.bind_eq_bind, Option.bind_eq_some_iff] at h
    obtain ⟨c', hc, h⟩ := h
    simp only [mild, Bool.and_eq_true] at hm
    obtain ⟨⟨m1, m2⟩, m3⟩ := hm
    cases c with
    | none =>
      cases hc
      simp only [Option.bind_eq_some_iff, Option.some.injEq] at h
      obtain ⟨b', hb, r', hr, rfl⟩ := h
      exact .whlB h1 (ih hb m2)
    | some c =>
      simp only [optExpO, Option.map_eq_some_iff] at hc
      obtain ⟨c', hc, rfl⟩ := hc
      split at h
      · rename_i v h4
        cases h4
        obtain ⟨h3, rfl⟩ := mild_const m1 hc h1
        rw [if_pos h3.symm] at h
        simp only [Option.bind_eq_some_iff, Option.some.injEq] at h
        obtain ⟨b', hb, r', hr, rfl⟩ := h
        exact .whlB ⟨rfl, rfl⟩ (ih hb m2)
      · simp only [Option.bind_eq_some_iff, Option.some.injEq] at h
        obtain ⟨b', hb, r', hr, rfl⟩ := h
        exact .whlB (mild_cond m1 hc h1) (ih hb m2)
  | @whlR c b r s s1 v s2 h1 h2 ih =>
    intro S' h hm
    simp only [optTree, Option.bind_eq_bind, Option.bind_eq_some_iff] at h
    obtain ⟨c', hc, h⟩ := h
    simp only [mild, Bool.and_eq_true] at hm
    obtain ⟨⟨m1, m2⟩, m3⟩ := hm
    cases c with
    | none =>
      cases hc
      simp only [Option.bind_eq_some_iff, Option.some.injEq] at h
      obtain ⟨b', hb, r', hr, rfl⟩ := h
      exact .whlR h1 (ih hb m2)
    | some c =>
      simp only [optExpO, Option.map_eq_some_iff] at hc
      obtain ⟨c', hc, rfl⟩ := hc
      split at h
      · rename_i v h4
        cases h4
        obtain ⟨h3, rfl⟩ := mild_const m1 hc h1
        rw [if_pos h3.symm] at h
        simp only [Option.bind_eq_some_iff, Option.some.injEq] at h
        obtain ⟨b', hb, r', hr, rfl⟩ := h
        exact .whlR ⟨rfl, rfl⟩ (ih hb m2)
      · simp only [Option.bind_eq_some_iff, Option.some.injEq] at h
        obtain ⟨b', hb, r', hr, rfl⟩ := h
        exact .whlR (mild_cond m1 hc h1) (ih hb m2)
  | @whlL c b r s s1 o s2 s3 o' s4 h1 h2 ho he h4 ih1 ih2 =>
    intro S' h hm
    have i2 := ih2 h hm
    simp only [optTree, Option.bind_eq_bind, Option.bind_eq_some_iff] at h
    obtain ⟨c', hc, h⟩ := h
    simp only [mild, Bool.and_eq_true] at hm
    obtain ⟨⟨m1, m2⟩, m3⟩ := hm
    cases c with
    | none =>
      cases hc
      simp only [Option.bind_eq_some_iff, Option.some.injEq] at h
      obtain ⟨b', hb, r', hr, rfl⟩ := h
      exact .whlL h1 (ih1 hb m2) ho (mild_eff m3 hr he) i2
    | some c =>
      simp only [optExpO, Option.map_eq_some_iff] at hc
      obtain ⟨c', hc, rfl⟩ := hc
      split at h
      · rename_i v h4
        cases h4
        obtain ⟨h3, rfl⟩ := mild_const m1 hc h1
        rw [if_pos h3.symm] at h
        simp only [Option.bind_eq_some_iff, Option.some.injEq] at h
        obtain ⟨b', hb, r', hr, rfl⟩ := h
        exact .whlL ⟨rfl, rfl⟩ (ih1 hb m2) ho (mild_eff m3 hr he) i2
      · simp only [Option.bind_eq_some_iff, Option.some.injEq] at h
        obtain ⟨b', hb, r', hr, rfl⟩ := h
        exact .whlL (mild_cond m1 hc h1) (ih1 hb m2) ho (mild_eff m3 hr he) i2

end Cmm.Opt
