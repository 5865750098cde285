import Verif.Opt.Keep

/-
The optimizer and evaluation from left to right that stops at undefined accesses and divisions: if a tree has a value, the
optimized tree has it, too.
-/
namespace Cmm.Opt
open Cmm.Tree Cmm.Gen

variable {σ : Type} {w : World σ}

/-- What `d` gives, `d'` gives; in a condition only the truth value counts. -/
def Le (p : Pos) (d d' : Den σ) : Prop := ∀ s vs s', d s = some (vs, s') → ∃ vs', d' s = some (vs', s') ∧
  (vs' = vs ∨ (p = .cond ∧ (vs'.headD 0 = 0 ↔ vs.headD 0 = 0)))

theorem Le.refl (p : Pos) (d : Den σ) : Le p d d := fun _ vs _ h => ⟨vs, h, .inl rfl⟩

theorem Le.of_eq {p : Pos} {d d' : Den σ} (h : d = d') : Le p d d' := h ▸ .refl p d

theorem Le.trans {p : Pos} {a b c : Den σ} (h : Le p a b) (h' : Le p b c) : Le p a c := by
  intro s vs s' e
  obtain ⟨us, e1, h1⟩ := h s vs s' e
  obtain ⟨ts, e2, h2⟩ := h' s us s' e1
  refine ⟨ts, e2, ?_⟩
  rcases h1 with rfl | ⟨hp, h1⟩
  · exact h2
  · rcases h2 with rfl | ⟨_, h2⟩
    · exact .inr ⟨hp, h1⟩
    · exact .inr ⟨hp, h2.trans h1⟩

theorem Le.val {p : Pos} {d d' : Den σ} (h : Le .val d d') : Le p d d' := by
  intro s vs s' e
  obtain ⟨us, e1, h1⟩ := h s vs s' e
  rcases h1 with rfl | ⟨h, -⟩
  · exact ⟨_, e1, .inl rfl⟩
  · cases h

theorem Le.get {d d' : Den σ} (h : Le .val d d') {s vs s'} (e : d s = some (vs, s')) : d' s = some (vs, s') := by
  obtain ⟨us, e1, rfl | ⟨h, -⟩⟩ := h s vs s' e
  · exact e1
  · cases h

theorem Le.args {d d' : Den σ} (h : Le .args d d') {s vs s'} (e : d s = some (vs, s')) : d' s = some (vs, s') := by
  obtain ⟨us, e1, rfl | ⟨h, -⟩⟩ := h s vs s' e
  · exact e1
  · cases h

theorem Le.truth {p : Pos} {d d' : Den σ} (h : Le p d d') {s vs s'} (e : d s = some (vs, s')) :
    ∃ vs', d' s = some (vs', s') ∧ (vs'.headD 0 = 0 ↔ vs.headD 0 = 0) := by
  obtain ⟨us, e1, rfl | ⟨-, h⟩⟩ := h s vs s' e
  · exact ⟨_, e1, Iff.rfl⟩
  · exact ⟨_, e1, h⟩

/-! ### Evaluation -/

theorem lr_bin (op : Bin) (l r : Expr) : evalLR w (.bin op l r) = binG w op (evalLR w l) (evalLR w r) := by
  simp [evalLR, evalP]

theorem lr_cnst (v : Int) (s : σ) : evalLR w (.cnst v) s = some ([I v], s) := rfl

theorem lr_fix (e : Expr) : evalLR w (fix e) = evalLR w e := by
  cases e with
  | cnst v => funext s; simp only [fix, lr_cnst, ofInt_msk]
  | _ => rfl

/-- Operators of which both operands are evaluated and which need a definition. -/
def strict : Bin → Bool
  | .and | .or | .semi => false
  | _ => true

theorem binG_strict {op : Bin} (h : strict op = true) (a b : Den σ) : binG w op a b = strictG (okB w op) (binVal w op) a b := by
  cases op <;> first | rfl | (cases h)

theorem binG_some {op : Bin} (h : strict op = true) {a b : Den σ} {s : σ} {vs s'} :
    binG w op a b s = some (vs, s') ↔ ∃ xs s1 ys, a s = some (xs, s1) ∧ b s1 = some (ys, s') ∧
      okB w op (xs.headD 0) (ys.headD 0) = true ∧ vs = [binVal w op (xs.headD 0) (ys.headD 0) s'] := by
  rw [binG_strict h]
  unfold strictG
  constructor
  · intro e
    obtain ⟨xs, s1, h1, h2⟩ := bind1_eq_some e
    obtain ⟨ys, s2, h3, h4⟩ := bind1_eq_some h2
    split at h4
    · cases h4
      exact ⟨xs, s1, ys, h1, h3, by assumption, rfl⟩
    · cases h4
  · rintro ⟨xs, s1, ys, h1, h3, h4, rfl⟩
    simp only [h1, bind1, h3, h4, if_true]

theorem lr_single {e : Expr} (h : ∀ l r, e ≠ .bin .semi l r) {s : σ} {vs s'} (he : evalLR w e s = some (vs, s')) :
    ∃ v, vs = [v] := by
  cases e with
  | cnst v => cases he; exact ⟨_, rfl⟩
  | leaf k n => cases he; exact ⟨_, rfl⟩
  | func0 f =>
    have he : callD w f (fun s => some ([], s)) s = some (vs, s') := he
    unfold callD at he
    split at he
    · cases he
    · split at he <;> cases he
      exact ⟨_, rfl⟩
  | func f a =>
    have he : callD w f (evalLR w a) s = some (vs, s') := he
    unfold callD at he
    split at he
    · cases he
    · split at he <;> cases he
      exact ⟨_, rfl⟩
  | un op e => exact single_un _ _ _ _ _ he
  | bin op l r =>
    rw [lr_bin] at he
    by_cases hs : strict op = true
    · obtain ⟨_, _, _, _, _, _, h⟩ := (binG_some hs).1 he
      exact ⟨_, h⟩
    · cases op <;> first
        | (exfalso; exact hs rfl)
        | exact absurd rfl (h l r)
        | exact (isB_and _ _).single _ _ _ he
        | exact (isB_or _ _).single _ _ _ he
  | assV k n r =>
    have he : assVD w k n (evalLR w r) s = some (vs, s') := he
    obtain ⟨xs, s1, h1, h2⟩ := bind1_eq_some he
    cases h2
    exact ⟨_, rfl⟩
  | assM op a i r =>
    have he : assMG w op (evalLR w a) (evalLR w i) (evalLR w r) s = some (vs, s') := he
    obtain ⟨xs, s1, h1, h2⟩ := bind1_eq_some he
    obtain ⟨_, _, h3, h4⟩ := bind1_eq_some h2
    obtain ⟨_, _, h5, h6⟩ := bind1_eq_some h4
    split at h6 <;> cases h6
    exact ⟨_, rfl⟩

theorem fine_semi {p : Pos} (hp : p ≠ .args) {e : Expr} (h : fine p e = true) (l r : Expr) : e ≠ .bin .semi l r := by
  rintro rfl
  cases p <;> simp_all [fine]

theorem lr_one {p : Pos} (hp : p ≠ .args) {e : Expr} (h : fine p e = true) {s : σ} {vs s'} (he : evalLR w e s = some (vs, s')) :
    vs = [vs.headD 0] := by
  obtain ⟨v, rfl⟩ := lr_single (fine_semi hp h) he
  rfl

/-- Without calls and assignments the state does not change. -/
theorem lr_pure {e : Expr} : eff e = 0 → ∀ {s : σ} {vs s'}, evalLR w e s = some (vs, s') → s' = s := by
  induction e with
  | cnst v => intro _ s vs s' he; cases he; rfl
  | leaf k n => intro _ s vs s' he; cases he; rfl
  | func0 f => intro h; cases h
  | func f a => intro h; cases h
  | un op e ih =>
    intro h s vs s' he
    obtain ⟨xs, s1, h1, h2⟩ := bind1_eq_some (show unD (unVal op) (evalLR w e) s = _ from he)
    cases h2
    exact ih h h1
  | bin op l r ih1 ih2 =>
    intro h s vs s' he
    have hl : eff l = 0 := by simp only [eff] at h; omega
    have hr : eff r = 0 := by simp only [eff] at h; omega
    rw [lr_bin] at he
    by_cases hs : strict op = true
    · obtain ⟨_, s1, _, h1, h2, _, h⟩ := (binG_some hs).1 he
      rw [ih2 hr h2, ih1 hl h1]
    · cases op <;> first
        | (exfalso; exact hs rfl)
        | skip
      · obtain ⟨xs, s1, h1, h2⟩ := bind1_eq_some (show orD _ _ s = _ from he)
        split at h2
        · obtain ⟨ys, s2, h3, h4⟩ := bind1_eq_some h2
          cases h4
          rw [ih2 hr h3, ih1 hl h1]
        · cases h2; exact ih1 hl h1
      · obtain ⟨xs, s1, h1, h2⟩ := bind1_eq_some (show andD _ _ s = _ from he)
        split at h2
        · cases h2; exact ih1 hl h1
        · obtain ⟨ys, s2, h3, h4⟩ := bind1_eq_some h2
          cases h4
          rw [ih2 hr h3, ih1 hl h1]
      · have he : semiD _ _ s = some (vs, s') := he
        unfold semiD at he
        split at he
        · cases he
        · rename_i h1
          split at he
          · cases he
          · rename_i h2
            cases he
            rw [ih1 hl h2, ih2 hr h1]
  | assV k n r => intro h; cases h
  | assM op a i r => intro h; cases h

/-! ### moveLeft -/

/-- Operators that are always defined. -/
def total : Bin → Bool
  | .div | .mod | .dot | .idxr | .idxi | .idxc | .idxb => false
  | _ => true

theorem binG_tot {op : Bin} (h : total op = true) (a b : Den σ) : binG w op a b = binD w op a b := by
  cases op <;> first | rfl | (cases h)

theorem pull_total {op o : Bin} (h : canPull op o = true) :
    total op = true ∧ total o = true ∧ total (pullN op o) = true ∧ total (pullB op o) = true := by
  cases op <;> cases o <;> first | (exfalso; revert h; decide) | decide

theorem pull_lr (e : Expr) : ∀ c, evalLR w (pull e c) = evalLR w (plug e c) := by
  induction e with
  | bin o c d ih1 ih2 =>
    rintro (_ | ⟨op, a⟩)
    · simp only [pull, ih2, plug, lr_bin, ih1]
    · simp only [pull]
      split
      · rename_i h
        obtain ⟨t1, t2, t3, t4⟩ := pull_total h
        simp only [ih2, plug, lr_bin, ih1, binG_tot t1, binG_tot t2, binG_tot t3, binG_tot t4]
        exact (pull_eq w h _ _ _).symm
      · simp only [plug, lr_bin, ih2, ih1]
  | cnst v => rintro (_ | ⟨op, a⟩) <;> rfl
  | leaf k n => rintro (_ | ⟨op, a⟩) <;> rfl
  | func0 f => rintro (_ | ⟨op, a⟩) <;> rfl
  | func f a ih => rintro (_ | ⟨op, b⟩) <;> simp only [pull, plug, evalLR, evalP] <;> rw [show evalP w _ (pull a none) = _ from ih none] <;> rfl
  | un u e ih => rintro (_ | ⟨op, b⟩) <;> simp only [pull, plug, evalLR, evalP] <;> rw [show evalP w _ (pull e none) = _ from ih none] <;> rfl
  | assV k n r ih => rintro (_ | ⟨op, b⟩) <;> simp only [pull, plug, evalLR, evalP] <;> rw [show evalP w _ (pull r none) = _ from ih none] <;> rfl
  | assM o a i r h1 h2 h3 =>
    rintro (_ | ⟨op, b⟩) <;> simp only [pull, plug, evalLR, evalP] <;>
      rw [show evalP w _ (pull a none) = _ from h1 none, show evalP w _ (pull i none) = _ from h2 none,
        show evalP w _ (pull r none) = _ from h3 none] <;> rfl

/-! ### moveCnst -/

theorem lr_const (v : Int) : Const (evalLR w (.cnst v)) (I v) := fun _ => rfl

theorem mov_total {op : Bin} (h : movable op = true) (hd : op ≠ .div) : total op = true := by
  cases op <;> first | rfl | (exfalso; revert h; decide) | exact absurd rfl hd

theorem mc_lr {op : Bin} (hm : movable op = true) (hs : strict op = true) (v : Int) (l : Expr) (hd : op = .div → noDiv l = true) :
    evalLR w (mc op l (.cnst v)) = evalLR w (.bin op l (.cnst v)) := by
  induction l with
  | bin o x a ih1 =>
    simp only [mc]
    by_cases hdiv : op = .div
    · have : o ≠ .div := by
        rintro rfl
        have := hd hdiv
        simp [noDiv] at this
      simp [hdiv, this]
    · split
      · rename_i h
        rw [lr_bin, ih1 (fun h => absurd h hdiv)]
        simp only [lr_bin]
        rcases h.1 with rfl | ⟨rfl, rfl⟩
        · have ht := mov_total hm hdiv
          simp only [binG_tot ht]
          cases o <;> first
            | (exfalso; revert hm; decide)
            | (exfalso; revert hs; decide)
            | exact absurd rfl hdiv
            | (refine (swap_strict (lr_const v) (fun x y s s' => ?_) _ _).symm
               simp only [binVal]
               first
                 | exact BitVec.add_right_comm ..
                 | exact BitVec.mul_right_comm ..
                 | (rw [BitVec.and_assoc, BitVec.and_comm y, ← BitVec.and_assoc])
                 | (rw [BitVec.or_assoc, BitVec.or_comm y, ← BitVec.or_assoc])
                 | (rw [BitVec.xor_assoc, BitVec.xor_comm y, ← BitVec.xor_assoc])
                 | ring)
        · simp only [binG_tot (show total .add = true from rfl), binG_tot (show total .sub = true from rfl)]
          refine (swap_strict (lr_const v) (fun x y s s' => ?_) _ _).symm
          simp only [binVal]
          ring
      · split
        · rename_i h
          subst h
          have ht := mov_total hm hdiv
          simp only [lr_bin, if_neg hdiv, binG_tot ht]
          clear ih1
          cases o <;> first
            | (exfalso; revert hm; decide)
            | (exfalso; revert hs; decide)
            | exact absurd rfl hdiv
            | exact pull_eq w rfl _ _ _
        · rfl
  | _ => rfl

theorem and_some {a b : Den σ} {s : σ} {vs s'} : andD a b s = some (vs, s') ↔ ∃ xs s1, a s = some (xs, s1) ∧
    ((xs.headD 0 = 0 ∧ vs = [0] ∧ s' = s1) ∨ (xs.headD 0 ≠ 0 ∧ ∃ ys, b s1 = some (ys, s') ∧ vs = [ofB (ys.headD 0 != 0)])) := by
  unfold andD
  constructor
  · intro e
    obtain ⟨xs, s1, h1, h2⟩ := bind1_eq_some e
    refine ⟨xs, s1, h1, ?_⟩
    split at h2
    · cases h2; exact .inl ⟨by assumption, rfl, rfl⟩
    · obtain ⟨ys, s2, h3, h4⟩ := bind1_eq_some h2
      cases h4; exact .inr ⟨by assumption, ys, h3, rfl⟩
  · rintro ⟨xs, s1, h1, ⟨h2, rfl, rfl⟩ | ⟨h2, ys, h3, rfl⟩⟩
    · simp only [h1, bind1, h2, if_true]
    · simp only [h1, bind1, if_neg h2, h3]

theorem or_some {a b : Den σ} {s : σ} {vs s'} : orD a b s = some (vs, s') ↔ ∃ xs s1, a s = some (xs, s1) ∧
    ((xs.headD 0 ≠ 0 ∧ vs = [1] ∧ s' = s1) ∨ (xs.headD 0 = 0 ∧ ∃ ys, b s1 = some (ys, s') ∧ vs = [ofB (ys.headD 0 != 0)])) := by
  unfold orD
  constructor
  · intro e
    obtain ⟨xs, s1, h1, h2⟩ := bind1_eq_some e
    refine ⟨xs, s1, h1, ?_⟩
    split at h2
    · obtain ⟨ys, s2, h3, h4⟩ := bind1_eq_some h2
      cases h4; exact .inr ⟨by assumption, ys, h3, rfl⟩
    · cases h2; exact .inl ⟨by assumption, rfl, rfl⟩
  · rintro ⟨xs, s1, h1, ⟨h2, rfl, rfl⟩ | ⟨h2, ys, h3, rfl⟩⟩
    · simp only [h1, bind1, if_neg h2]
    · simp only [h1, bind1, h2, if_true, h3]

theorem ofB_ne {v : Word} (h : v ≠ 0) : ofB (v != 0) = 1 := by
  simp only [ofB, bne_iff_ne, ne_eq, h, not_false_eq_true, if_true]

theorem ofB_zero (v : Word) : ofB (v != 0) = 0 ↔ v = 0 := by
  by_cases h : v = 0 <;> simp [ofB, h]

theorem le_and {p q r : Pos} {a a' b b' : Den σ} (ha : Le p a a') (hb : Le q b b') : Le r (andD a b) (andD a' b') := by
  intro s vs s' e
  obtain ⟨xs, s1, h1, h2⟩ := and_some.1 e
  obtain ⟨xs', h1', hx⟩ := ha.truth h1
  refine ⟨vs, and_some.2 ⟨xs', s1, h1', ?_⟩, .inl rfl⟩
  rcases h2 with ⟨h2, h3⟩ | ⟨h2, ys, h3, rfl⟩
  · exact .inl ⟨hx.2 h2, h3⟩
  · obtain ⟨ys', h3', hy⟩ := hb.truth h3
    refine .inr ⟨fun h => h2 (hx.1 h), ys', h3', ?_⟩
    by_cases h : ys.headD 0 = 0
    · rw [h, hy.2 h]
    · have h' : ys'.headD 0 ≠ 0 := fun h' => h (hy.1 h')
      rw [ofB_ne h, ofB_ne h']

theorem le_or {p q r : Pos} {a a' b b' : Den σ} (ha : Le p a a') (hb : Le q b b') : Le r (orD a b) (orD a' b') := by
  intro s vs s' e
  obtain ⟨xs, s1, h1, h2⟩ := or_some.1 e
  obtain ⟨xs', h1', hx⟩ := ha.truth h1
  refine ⟨vs, or_some.2 ⟨xs', s1, h1', ?_⟩, .inl rfl⟩
  rcases h2 with ⟨h2, h3⟩ | ⟨h2, ys, h3, rfl⟩
  · exact .inl ⟨fun h => h2 (hx.1 h), h3⟩
  · obtain ⟨ys', h3', hy⟩ := hb.truth h3
    refine .inr ⟨hx.2 h2, ys', h3', ?_⟩
    by_cases h : ys.headD 0 = 0
    · rw [h, hy.2 h]
    · have h' : ys'.headD 0 ≠ 0 := fun h' => h (hy.1 h')
      rw [ofB_ne h, ofB_ne h']

theorem swap_and {x a c : Den σ} {k : Word} (hc : Const c k) (hk : k ≠ 0) : Le .cond (andD (andD x a) c) (andD (andD x c) a) := by
  intro s vs s' e
  obtain ⟨us, s1, h1, h2⟩ := and_some.1 e
  obtain ⟨xs, s2, h3, h4⟩ := and_some.1 h1
  rcases h4 with ⟨h4, rfl, rfl⟩ | ⟨h4, ys, h5, rfl⟩
  · rcases h2 with ⟨-, rfl, rfl⟩ | ⟨h2, -⟩
    · exact ⟨_, and_some.2 ⟨[0], _, and_some.2 ⟨xs, _, h3, .inl ⟨h4, rfl, rfl⟩⟩, .inl ⟨rfl, rfl, rfl⟩⟩, .inl rfl⟩
    · exact absurd rfl h2
  · refine ⟨[ofB (ys.headD 0 != 0)], and_some.2 ⟨[ofB (k != 0)], s2, and_some.2 ⟨xs, _, h3, .inr ⟨h4, [k], hc _, rfl⟩⟩,
      .inr ⟨by rw [ofB_ne hk]; decide, ys, ?_, rfl⟩⟩, ?_⟩
    · rcases h2 with ⟨-, -, rfl⟩ | ⟨-, zs, h6, -⟩
      · exact h5
      · rw [hc] at h6; cases h6; exact h5
    · rcases h2 with ⟨h2, rfl, rfl⟩ | ⟨h2, zs, h6, rfl⟩
      · exact .inr ⟨rfl, by simpa using h2⟩
      · rw [hc] at h6; cases h6
        refine .inr ⟨rfl, ?_⟩
        simp only [List.headD_cons] at h2 ⊢
        rw [ofB_ne hk]; exact iff_of_false h2 (by decide)

theorem swap_or {x a c : Den σ} (hc : Const c 0) : Le .cond (orD (orD x a) c) (orD (orD x c) a) := by
  intro s vs s' e
  obtain ⟨us, s1, h1, h2⟩ := or_some.1 e
  obtain ⟨xs, s2, h3, h4⟩ := or_some.1 h1
  rcases h4 with ⟨h4, rfl, rfl⟩ | ⟨h4, ys, h5, rfl⟩
  · rcases h2 with ⟨-, rfl, rfl⟩ | ⟨h2, -⟩
    · exact ⟨_, or_some.2 ⟨[1], _, or_some.2 ⟨xs, _, h3, .inl ⟨h4, rfl, rfl⟩⟩, .inl ⟨by decide, rfl, rfl⟩⟩, .inl rfl⟩
    · exact absurd h2 (by decide)
  · refine ⟨[ofB (ys.headD 0 != 0)], or_some.2 ⟨[ofB ((0 : Word) != 0)], s2, or_some.2 ⟨xs, _, h3, .inr ⟨h4, [0], hc _, rfl⟩⟩,
      .inr ⟨by decide, ys, ?_, rfl⟩⟩, ?_⟩
    · rcases h2 with ⟨-, -, rfl⟩ | ⟨-, zs, h6, -⟩
      · exact h5
      · rw [hc] at h6; cases h6; exact h5
    · rcases h2 with ⟨h2, rfl, rfl⟩ | ⟨h2, zs, h6, rfl⟩
      · refine .inr ⟨rfl, ?_⟩
        simp only [List.headD_cons] at h2 ⊢
        exact iff_of_false h2 (by decide)
      · rw [hc] at h6; cases h6
        refine .inr ⟨rfl, ?_⟩
        simp only [List.headD_cons] at h2 ⊢
        exact iff_of_true h2 (by decide)

theorem mc_and {v : Int} (hv : I v ≠ 0) (l : Expr) : Le .cond (evalLR w (.bin .and l (.cnst v))) (evalLR w (mc .and l (.cnst v))) := by
  induction l with
  | bin o x a ih1 =>
    simp only [mc]
    split
    · rename_i h
      obtain rfl : o = .and := by rcases h.1 with h | ⟨h, -⟩; exacts [h, by cases h]
      simp only [lr_bin] at ih1 ⊢
      exact (swap_and (lr_const v) hv).trans (le_and ih1 (.refl .val _))
    · split
      · rename_i h
        subst h
        simp only [lr_bin]
        exact .of_eq (assoc_and _ _ _).symm
      · exact .refl _ _
  | _ => exact .refl _ _

theorem mc_or {v : Int} (hv : I v = 0) (l : Expr) : Le .cond (evalLR w (.bin .or l (.cnst v))) (evalLR w (mc .or l (.cnst v))) := by
  induction l with
  | bin o x a ih1 =>
    simp only [mc]
    split
    · rename_i h
      obtain rfl : o = .or := by rcases h.1 with h | ⟨h, -⟩; exacts [h, by cases h]
      simp only [lr_bin] at ih1 ⊢
      exact (swap_or (hv ▸ lr_const v)).trans (le_or ih1 (.refl .val _))
    · split
      · rename_i h
        subst h
        simp only [lr_bin]
        exact .of_eq (assoc_or _ _ _).symm
      · exact .refl _ _
  | _ => exact .refl _ _

theorem cal_and0 {l e' : Expr} (h : calExp (.bin .and l (.cnst 0)) = some e') : e' = .cnst 0 := by
  simp only [calExp, Option.bind_eq_bind, Option.bind_eq_some_iff, Option.map_eq_some_iff] at h
  obtain ⟨l', -, r', h2, a', h3, rfl⟩ := h
  cases h2
  simp only [optBin, optAnd, fix, isCnstN, show (msk 0 == msk 0) = true from rfl, Bool.or_true, if_true, Option.some.injEq] at h3
  subst h3
  rfl

theorem cal_0and {l a e' : Expr} (h : calExp (.bin .and l a) = some e') (hl : ∀ l', calExp l = some l' → l' = .cnst 0) :
    e' = .cnst 0 := by
  simp only [calExp, Option.bind_eq_bind, Option.bind_eq_some_iff, Option.map_eq_some_iff] at h
  obtain ⟨l', h1, r', h2, a', h3, rfl⟩ := h
  obtain rfl := hl l' h1
  simp only [optBin, optAnd, isCnstN, show ((0 : Int) == msk 0) = true from rfl, Bool.true_or, if_true, Option.some.injEq] at h3
  subst h3
  rfl

theorem cal_and_0 {l a e' : Expr} (h : calExp (.bin .and l a) = some e') (hl : ∀ l', calExp a = some l' → l' = .cnst 0) :
    e' = .cnst 0 := by
  simp only [calExp, Option.bind_eq_bind, Option.bind_eq_some_iff, Option.map_eq_some_iff] at h
  obtain ⟨l', h1, r', h2, a', h3, rfl⟩ := h
  obtain rfl := hl r' h2
  simp only [optBin, optAnd, isCnstN, show ((0 : Int) == msk 0) = true from rfl, Bool.or_true, if_true, Option.some.injEq] at h3
  subst h3
  rfl

theorem mc_and0 {l : Expr} : ∀ {e'}, calExp (mc .and l (.cnst 0)) = some e' → e' = .cnst 0 := by
  induction l with
  | bin o x a ih1 =>
    intro e' h
    simp only [mc] at h
    split at h
    · rename_i h'
      obtain rfl : o = .and := by rcases h'.1 with h | ⟨h, -⟩; exacts [h, by cases h]
      exact cal_0and h fun _ => ih1
    · split at h
      · exact cal_and_0 h fun _ => cal_and0
      · exact cal_and0 h
  | _ => exact fun h => cal_and0 h

theorem cal_or_1 {l a e' : Expr} (h : calExp (.bin .or l a) = some e')
    (hl : (∀ l', calExp l = some l' → l' = .cnst 1) ∨ ∀ l', calExp a = some l' → l' = .cnst 1) : e' = .cnst 1 := by
  simp only [calExp, Option.bind_eq_bind, Option.bind_eq_some_iff, Option.map_eq_some_iff] at h
  obtain ⟨l', h1, r', h2, a', h3, rfl⟩ := h
  have : (isCnstN l' 1 || isCnstN r' 1) = true := by
    rcases hl with hl | hl
    · rw [hl _ h1]; rfl
    · rw [hl _ h2]; exact Bool.or_true _
  simp only [optBin, optOr, this, if_true, Option.some.injEq] at h3
  subst h3
  rfl

theorem mc_or1 {l : Expr} : ∀ {e'}, calExp (mc .or l (.cnst 1)) = some e' → e' = .cnst 1 := by
  have one : ∀ l', calExp (.cnst 1) = some l' → l' = .cnst 1 := fun l' h => by cases h; rfl
  induction l with
  | bin o x a ih1 =>
    intro e' h
    simp only [mc] at h
    split at h
    · rename_i h'
      obtain rfl : o = .or := by rcases h'.1 with h | ⟨h, -⟩; exacts [h, by cases h]
      exact cal_or_1 h (.inl fun _ => ih1)
    · split at h
      · exact cal_or_1 h (.inr fun _ h => cal_or_1 h (.inr one))
      · exact cal_or_1 h (.inr one)
  | _ => exact fun h => cal_or_1 h (.inr one)

/-! ### calExp -/

theorem lr_cnstN {e : Expr} {n : Int} (h : isCnstN e n = true) {s : σ} {x s'} (he : evalLR w e s = some ([x], s')) :
    x = I n ∧ s' = s := by
  rw [isCnstN_iff] at h
  subst h
  rw [lr_cnst, ofInt_msk] at he
  cases he
  exact ⟨rfl, rfl⟩

theorem lr_self {op : Bin} (ho : strict op = true) {l r : Expr} {s s1 s2 : σ} {x y : Word} (hl : evalLR w l s = some ([x], s1))
    (hr : evalLR w r s1 = some ([y], s2)) (hok : okB w op x y = true) :
    evalLR w (.bin op l r) s = some ([binVal w op x y s2], s2) := by
  rw [lr_bin]
  exact (binG_some ho).2 ⟨_, _, _, hl, hr, hok, rfl⟩

theorem lr_un (u : Un) {l : Expr} {s s1 : σ} {x : Word} (hl : evalLR w l s = some ([x], s1)) :
    evalLR w (.un u l) s = some ([unVal u x], s1) := by
  show unD (unVal u) (evalLR w l) s = _
  simp only [unD, hl, bind1, List.headD_cons]

theorem lr_opt {op : Bin} (ho : strict op = true) {l r e : Expr} (h : optBin op l r = some e) (he : eff e = eff l + eff r)
    (rl : Rng l) (rr : Rng r) {s s1 s2 : σ} {x y : Word} (hl : evalLR w l s = some ([x], s1))
    (hr : evalLR w r s1 = some ([y], s2)) (hok : okB w op x y = true) :
    evalLR w e s = some ([binVal w op x y s2], s2) := by
  have self := lr_self ho hl hr hok
  have c2 : ∀ {a b v : Int}, l = .cnst a → r = .cnst b → (∀ s, I v = binVal w op (I a) (I b) s) →
      evalLR w (.cnst v) s = some ([binVal w op x y s2], s2) := by
    rintro a b v rfl rfl hv
    cases hl
    cases hr
    exact congrArg (fun x => some ([x], s)) (hv s)
  have zero : ∀ {v : Int}, eff (.cnst v) = eff l + eff r → I v = binVal w op x y s2 →
      evalLR w (.cnst v) s = some ([binVal w op x y s2], s2) := by
    intro v h0 hv
    simp only [eff] at h0
    rw [lr_cnst, hv, lr_pure (by omega) hr, lr_pure (by omega) hl]
  have left : ∀ {n : Int}, isCnstN r n = true → binVal w op x (I n) s2 = x → evalLR w l s = some ([binVal w op x y s2], s2) := by
    intro n hn hv
    obtain ⟨rfl, rfl⟩ := lr_cnstN hn hr
    rw [hv, hl]
  have right : ∀ {n : Int}, isCnstN l n = true → binVal w op (I n) y s2 = y → evalLR w r s = some ([binVal w op x y s2], s2) := by
    intro n hn hv
    obtain ⟨rfl, rfl⟩ := lr_cnstN hn hl
    rw [hv, hr]
  have unL : ∀ {n : Int} {u : Un}, isCnstN r n = true → unVal u x = binVal w op x (I n) s2 →
      evalLR w (.un u l) s = some ([binVal w op x y s2], s2) := by
    intro n u hn hv
    obtain ⟨rfl, rfl⟩ := lr_cnstN hn hr
    rw [lr_un u hl, hv]
  have unR : ∀ {n : Int} {u : Un}, isCnstN l n = true → unVal u y = binVal w op (I n) y s2 →
      evalLR w (.un u r) s = some ([binVal w op x y s2], s2) := by
    intro n u hn hv
    obtain ⟨rfl, rfl⟩ := lr_cnstN hn hl
    rw [lr_un u hr, hv]
  have xy : ∀ {n m : Int}, (isCnstN l n || isCnstN r m) = true → x = I n ∨ y = I m := by
    intro n m h
    rcases Bool.or_eq_true_iff.1 h with h | h
    · exact .inl (lr_cnstN h hl).1
    · exact .inr (lr_cnstN h hr).1
  have n1 : I 65535 = -1 := rfl
  have one : ¬ (1 : Word) = 0 := by decide
  cases op <;> simp only [optBin, Option.some.injEq] at h
  case add =>
    unfold optAdd at h
    split at h
    · subst h; exact c2 rfl rfl fun _ => I_add _ _
    · split at h
      · rename_i h'; subst h; exact right h' (by simp [binVal])
      · split at h
        · rename_i h'; subst h; exact left h' (by simp [binVal])
        · subst h; exact self
  case sub =>
    unfold optSub at h
    split at h
    · subst h; exact c2 rfl rfl fun _ => I_sub _ _
    · split at h
      · rename_i h'; subst h; exact unR h' (by simp only [binVal, unVal, I0]; exact (BitVec.zero_sub _).symm)
      · split at h
        · rename_i h'; subst h; exact left h' (by simp [binVal])
        · subst h; exact self
  case shl =>
    unfold optShl at h
    split at h
    · split at h
      · cases h
      · split at h
        · rename_i h'; cases h; exact left h' (by simp [binVal])
        · split at h
          · cases h; exact c2 rfl rfl fun _ => I_shl _ _ (by omega) (by omega)
          · cases h; exact self
    · cases h; exact self
  case shr =>
    unfold optShr at h
    split at h
    · split at h
      · cases h
      · split at h
        · rename_i h'; cases h; exact left h' (by simp [binVal])
        · split at h
          · cases h; exact c2 rfl rfl fun _ => I_shr _ _ rl (by omega) (by omega)
          · cases h; exact self
    · cases h; exact self
  case band =>
    unfold optBAnd at h
    split at h
    · subst h; exact c2 rfl rfl fun _ => I_and rl.1 rr.1
    · split at h
      · rename_i h'; subst h; exact zero he (by rcases xy h' with rfl | rfl <;> simp [binVal])
      · split at h
        · rename_i h'; subst h; exact right h' BitVec.allOnes_and
        · split at h
          · rename_i h'; subst h; exact left h' BitVec.and_allOnes
          · subst h; exact self
  case bor =>
    unfold optBOr at h
    split at h
    · subst h; exact c2 rfl rfl fun _ => I_or rl.1 rr.1
    · split at h
      · rename_i h'; subst h
        refine zero he ?_
        rcases xy h' with rfl | rfl
        · exact (BitVec.allOnes_or (x := y)).symm
        · exact (BitVec.or_allOnes (x := x)).symm
      · split at h
        · rename_i h'; subst h; exact right h' (by simp [binVal])
        · split at h
          · rename_i h'; subst h; exact left h' (by simp [binVal])
          · subst h; exact self
  case bxor =>
    unfold optBXor at h
    split at h
    · subst h; exact c2 rfl rfl fun _ => I_xor rl.1 rr.1
    · split at h
      · rename_i h'; subst h; exact unR h' BitVec.allOnes_xor.symm
      · split at h
        · rename_i h'; subst h; exact right h' (by simp [binVal])
        · split at h
          · rename_i h'; subst h; exact unL h' BitVec.xor_allOnes.symm
          · split at h
            · rename_i h'; subst h; exact left h' (by simp [binVal])
            · subst h; exact self
  case mul =>
    unfold optMul at h
    split at h
    · subst h; exact c2 rfl rfl fun _ => I_mul _ _
    · split at h
      · rename_i h'; subst h; exact zero he (by rcases xy h' with rfl | rfl <;> simp [binVal])
      · split at h
        · rename_i h'; subst h; exact right h' (by simp [binVal])
        · split at h
          · rename_i h'; subst h; exact left h' (by simp [binVal])
          · split at h
            · rename_i h'; subst h; exact unR h' (by rw [n1]; show -y = -1 * y; ring)
            · split at h
              · rename_i h'; subst h; exact unL h' (by rw [n1]; show -x = x * -1; ring)
              · subst h; exact self
  case div =>
    unfold optDiv at h
    split at h
    · cases h
    · rename_i hz
      split at h
      · rename_i a b
        cases h
        have : I b ≠ 0 := fun h => hz (by
          have := I_inj rr (b := 0) (by omega) h
          subst this; rfl)
        exact c2 rfl rfl fun _ => by simp only [binVal, if_neg this]; exact I_div a b rl rr
      · split at h
        · rename_i h'
          cases h
          exact left h' (by simp only [binVal, I1, if_neg one]; exact sdiv_one x)
        · cases h; exact self
  case mod =>
    unfold optMod at h
    split at h
    · cases h
    · rename_i hz
      split at h
      · rename_i a b
        cases h
        have : I b ≠ 0 := fun h => hz (by
          have := I_inj rr (b := 0) (by omega) h
          subst this; rfl)
        exact c2 rfl rfl fun _ => by simp only [binVal, if_neg this]; exact I_mod a b rl rr
      · split at h
        · rename_i h'
          cases h
          obtain ⟨rfl, -⟩ := lr_cnstN h' hr
          exact zero he (by simp only [binVal, I1, if_neg one]; exact (srem_one x).symm)
        · cases h; exact self
  case and => cases ho
  case or => cases ho
  case semi => cases ho
  case dot => subst h; exact self
  case idxr => subst h; exact self
  case idxi => subst h; exact self
  case idxc => subst h; exact self
  case idxb => subst h; exact self
  case comm => subst h; exact self
  all_goals
    unfold optCmp at h
    split at h
    · rename_i a b
      have ia : (I a).toInt = sInt a := toInt_I rl.1 rl.2
      have ib : (I b).toInt = sInt b := toInt_I rr.1 rr.2
      have eq : (I a = I b) = (a = b) := propext ⟨I_inj rl rr, fun h => h ▸ rfl⟩
      have cb : ∀ b : Bool, I (if b = true then 1 else 0) = ofB b := fun b => by cases b <;> rfl
      subst h
      refine c2 rfl rfl fun _ => (cb _).trans ?_
      simp only [binVal, BitVec.slt, BitVec.sle, ia, ib, gt_iff_lt, ge_iff_le]
      try (congr 1; rw [Bool.eq_iff_iff]; simp [eq])
    · subst h; exact self

theorem lr_optUn {p : Pos} {op : Un} {e : Expr} (hf : fine p (.un op e) = true) (hr : Rng e) :
    evalLR w (optUn op e) = evalLR w (.un op e) := by
  unfold optUn
  split
  · rename_i v
    funext s
    rw [lr_un op (lr_cnst v s)]
    have cb : ∀ b : Bool, evalLR w (cB b) s = some ([ofB b], s) := fun b => by cases b <;> rfl
    cases op
    · simp only [lr_cnst, I_neg, unVal]
    · simp only [fine, bit, Bool.and_eq_true, Bool.or_eq_true, beq_iff_eq, bne_self_eq_false, Bool.false_eq_true, false_or,
        true_and] at hf
      rw [cb]
      rcases hf with rfl | rfl <;> rfl
    · simp only [lr_cnst, I_bnot, unVal]
    · simp only [lr_cnst, I_chr hr.1, unVal]
    · rw [cb, ← I_bit hr.1]; rfl
  · rfl

theorem le_optAnd {l r : Expr} (he : eff (optAnd l r) = eff l + eff r) :
    Le .cond (andD (evalLR w l) (evalLR w r)) (evalLR w (optAnd l r)) := by
  have c : ∀ {e : Expr} {n : Int}, isCnstN e n = true → Const (evalLR w e) (I n) := fun h => by
    rw [isCnstN_iff] at h; subst h; rw [← ofInt_msk]; exact lr_const _
  unfold optAnd at he ⊢
  split
  · rename_i h
    rw [if_pos h] at he
    intro s vs s' e
    have he : 0 = eff l + eff r := he
    obtain ⟨xs, s1, h1, h2⟩ := and_some.1 e
    have := lr_pure (by omega) h1
    subst this
    refine ⟨[0], ?_, .inr ⟨rfl, ?_⟩⟩
    · rcases h2 with ⟨-, -, rfl⟩ | ⟨-, ys, h3, -⟩
      · rfl
      · rw [lr_pure (by omega) h3]; rfl
    · rcases h2 with ⟨-, rfl, -⟩ | ⟨h2, ys, h3, rfl⟩
      · exact Iff.rfl
      · rcases Bool.or_eq_true_iff.1 h with h | h
        · rw [c h] at h1; cases h1; exact absurd rfl h2
        · rw [c h] at h3; cases h3; exact Iff.rfl
  · rename_i hz
    rw [if_neg hz] at he
    split
    · rename_i h
      intro s vs s' e
      obtain ⟨xs, s1, h1, h2⟩ := and_some.1 e
      rw [c h] at h1
      cases h1
      rcases h2 with ⟨h2, -⟩ | ⟨-, ys, h3, rfl⟩
      · exact absurd h2 (by decide)
      · exact ⟨ys, h3, .inr ⟨rfl, (ofB_zero _).symm⟩⟩
    · split
      · rename_i h
        intro s vs s' e
        obtain ⟨xs, s1, h1, h2⟩ := and_some.1 e
        rcases h2 with ⟨h2, rfl, rfl⟩ | ⟨h2, ys, h3, rfl⟩
        · exact ⟨xs, h1, .inr ⟨rfl, iff_of_true h2 rfl⟩⟩
        · rw [c h] at h3
          cases h3
          exact ⟨xs, h1, .inr ⟨rfl, iff_of_false h2 (by decide)⟩⟩
      · rw [lr_bin]; exact .refl _ _

theorem le_optOr {l r : Expr} (he : eff (optOr l r) = eff l + eff r) :
    Le .cond (orD (evalLR w l) (evalLR w r)) (evalLR w (optOr l r)) := by
  have c : ∀ {e : Expr} {n : Int}, isCnstN e n = true → Const (evalLR w e) (I n) := fun h => by
    rw [isCnstN_iff] at h; subst h; rw [← ofInt_msk]; exact lr_const _
  unfold optOr at he ⊢
  split
  · rename_i h
    rw [if_pos h] at he
    intro s vs s' e
    have he : 0 = eff l + eff r := he
    obtain ⟨xs, s1, h1, h2⟩ := or_some.1 e
    have := lr_pure (by omega) h1
    subst this
    refine ⟨[1], ?_, .inr ⟨rfl, ?_⟩⟩
    · rcases h2 with ⟨-, -, rfl⟩ | ⟨-, ys, h3, -⟩
      · rfl
      · rw [lr_pure (by omega) h3]; rfl
    · rcases h2 with ⟨-, rfl, -⟩ | ⟨h2, ys, h3, rfl⟩
      · exact Iff.rfl
      · rcases Bool.or_eq_true_iff.1 h with h | h
        · rw [c h] at h1; cases h1; exact absurd h2 (by decide)
        · rw [c h] at h3; cases h3; exact Iff.rfl
  · rename_i hz
    rw [if_neg hz] at he
    split
    · rename_i h
      intro s vs s' e
      obtain ⟨xs, s1, h1, h2⟩ := or_some.1 e
      rw [c h] at h1
      cases h1
      rcases h2 with ⟨h2, -⟩ | ⟨-, ys, h3, rfl⟩
      · exact absurd rfl h2
      · exact ⟨ys, h3, .inr ⟨rfl, (ofB_zero _).symm⟩⟩
    · split
      · rename_i h
        intro s vs s' e
        obtain ⟨xs, s1, h1, h2⟩ := or_some.1 e
        rcases h2 with ⟨h2, rfl, rfl⟩ | ⟨h2, ys, h3, rfl⟩
        · exact ⟨xs, h1, .inr ⟨rfl, iff_of_false h2 (by decide)⟩⟩
        · rw [c h] at h3
          cases h3
          exact ⟨xs, h1, .inr ⟨rfl, iff_of_true h2 (by decide)⟩⟩
      · rw [lr_bin]; exact .refl _ _

/-! ### Operands -/

theorem le_strict {op : Bin} (ho : strict op = true) {p : Pos} {a a' b b' : Den σ} (ha : Le .val a a') (hb : Le .val b b') :
    Le p (binG w op a b) (binG w op a' b') := by
  intro s vs s' e
  obtain ⟨xs, s1, ys, h1, h2, h3, rfl⟩ := (binG_some ho).1 e
  exact ⟨_, (binG_some ho).2 ⟨xs, s1, ys, ha.get h1, hb.get h2, h3, rfl⟩, .inl rfl⟩

theorem le_semi {a a' b b' : Den σ} (ha : Le .args a a') (hb : Le .val b b') : Le .args (semiD a b) (semiD a' b') := by
  intro s vs s' e
  unfold semiD at e
  split at e
  · cases e
  · rename_i vr s1 h1
    split at e
    · cases e
    · rename_i vl s2 h2
      cases e
      refine ⟨vl ++ vr, ?_, .inl rfl⟩
      simp only [semiD, hb.get h1, ha.args h2]

theorem le_bin {op : Bin} {p : Pos} {l l' r r' : Expr} (hf : fine p (.bin op l r) = true)
    (hl : ∀ q, fine q l = true → Le q (evalLR w l) (evalLR w l')) (hr : ∀ q, fine q r = true → Le q (evalLR w r) (evalLR w r')) :
    Le p (evalLR w (.bin op l r)) (evalLR w (.bin op l' r')) := by
  simp only [lr_bin]
  by_cases hs : strict op = true
  · have : fine .val l = true ∧ fine .val r = true := by
      cases op <;> first | (exfalso; revert hs; decide) | simp_all [fine]
    exact le_strict hs (hl _ this.1) (hr _ this.2)
  · cases op <;> first | (exfalso; exact hs rfl) | simp only [fine, Bool.and_eq_true, beq_iff_eq] at hf
    · exact le_or (hl _ hf.1.1.1.2) (hr _ hf.1.1.2)
    · exact le_and (hl _ hf.1.1.1.2) (hr _ hf.1.1.2)
    · obtain ⟨⟨rfl, h1⟩, h2⟩ := hf
      exact le_semi (hl _ h1) (hr _ h2)

theorem le_un {op : Un} {p : Pos} {e e' : Expr} (h : Le .val (evalLR w e) (evalLR w e')) :
    Le p (evalLR w (.un op e)) (evalLR w (.un op e')) := by
  intro s vs s' h1
  obtain ⟨xs, s1, h2, h3⟩ := bind1_eq_some (show unD (unVal op) (evalLR w e) s = _ from h1)
  cases h3
  refine ⟨_, ?_, .inl rfl⟩
  show unD (unVal op) (evalLR w e') s = _
  simp only [unD, h.get h2, bind1]

theorem le_func {f : Int} {p : Pos} {e e' : Expr} (h : Le .args (evalLR w e) (evalLR w e')) :
    Le p (evalLR w (.func f e)) (evalLR w (.func f e')) := by
  intro s vs s' h1
  have h1 : callD w f (evalLR w e) s = some (vs, s') := h1
  refine ⟨vs, ?_, .inl rfl⟩
  show callD w f (evalLR w e') s = _
  unfold callD at h1 ⊢
  split at h1
  · cases h1
  · rename_i h2
    rw [h.args h2]
    exact h1

theorem le_assV {k : Kind} {n : Int} {p : Pos} {e e' : Expr} (h : Le .val (evalLR w e) (evalLR w e')) :
    Le p (evalLR w (.assV k n e)) (evalLR w (.assV k n e')) := by
  intro s vs s' h1
  obtain ⟨xs, s1, h2, h3⟩ := bind1_eq_some (show assVD w k n (evalLR w e) s = _ from h1)
  refine ⟨vs, ?_, .inl rfl⟩
  show assVD w k n (evalLR w e') s = _
  simp only [assVD, h.get h2, bind1]
  exact h3

theorem le_assM {op : Bin} {p : Pos} {a i e a' i' e' : Expr} (ha : Le .val (evalLR w a) (evalLR w a'))
    (hi : Le .val (evalLR w i) (evalLR w i')) (h : Le .val (evalLR w e) (evalLR w e')) :
    Le p (evalLR w (.assM op a i e)) (evalLR w (.assM op a' i' e')) := by
  intro s vs s' h1
  obtain ⟨xs, s1, h2, h3⟩ := bind1_eq_some (show assMG w op (evalLR w a) (evalLR w i) (evalLR w e) s = _ from h1)
  obtain ⟨ys, s2, h4, h5⟩ := bind1_eq_some h3
  obtain ⟨zs, s3, h6, h7⟩ := bind1_eq_some h5
  refine ⟨vs, ?_, .inl rfl⟩
  show assMG w op (evalLR w a') (evalLR w i') (evalLR w e') s = _
  simp only [assMG, h.get h2, ha.get h4, hi.get h6, bind1]
  exact h7

theorem le_optBin {op : Bin} {p : Pos} {l r e : Expr} (h : optBin op l r = some e) (hf : fine p (.bin op l r) = true)
    (he : eff e = eff l + eff r) (rl : Rng l) (rr : Rng r) : Le p (evalLR w (.bin op l r)) (evalLR w e) := by
  by_cases hs : strict op = true
  · have hv : fine .val l = true ∧ fine .val r = true := by
      cases op <;> first | (exfalso; revert hs; decide) | simp_all [fine]
    intro s vs s' h1
    rw [lr_bin] at h1
    obtain ⟨xs, s1, ys, h2, h3, h4, rfl⟩ := (binG_some hs).1 h1
    rw [lr_one (by decide) hv.1 h2] at h2
    rw [lr_one (by decide) hv.2 h3] at h3
    exact ⟨_, lr_opt hs h he rl rr h2 h3 h4, .inl rfl⟩
  · cases op <;> first | (exfalso; exact hs rfl) | simp only [optBin, Option.some.injEq] at h
    · obtain rfl : p = .cond := by simp only [fine, Bool.and_eq_true, beq_iff_eq] at hf; exact hf.1.1.1.1
      subst h
      rw [lr_bin]
      exact le_optOr he
    · obtain rfl : p = .cond := by simp only [fine, Bool.and_eq_true, beq_iff_eq] at hf; exact hf.1.1.1.1
      subst h
      rw [lr_bin]
      exact le_optAnd he
    · subst h
      exact .refl _ _

theorem calExp_le {e : Expr} : ∀ {p e'}, calExp e = some e' → fine p e = true → eff e' = eff e →
    Le p (evalLR w e) (evalLR w e') := by
  induction e with
  | cnst v => intro p e' h _ _; cases h; exact .of_eq (lr_fix _).symm
  | leaf k n => intro p e' h _ _; cases h; exact .refl _ _
  | func0 f => intro p e' h _ _; cases h; exact .refl _ _
  | func f a ih =>
    intro p e' h hf he
    simp only [calExp, Option.map_eq_some_iff] at h
    obtain ⟨a', h1, rfl⟩ := h
    simp only [eff] at he
    exact le_func (ih h1 hf (by omega))
  | un op e ih =>
    intro p e' h hf he
    simp only [calExp, Option.map_eq_some_iff] at h
    obtain ⟨a', h1, rfl⟩ := h
    have k := (calExp_keep h1).un (op := op)
    have e1 := calExp_eff h1
    have e2 := eff_un op a'
    rw [eff_fix] at he
    simp only [eff] at he e2
    rw [lr_fix, lr_optUn (k.fine p hf) (calExp_rng h1)]
    simp only [fine, Bool.and_eq_true] at hf
    exact le_un (ih h1 hf.1 (by omega))
  | bin op l r ih1 ih2 =>
    intro p e' h hf he
    simp only [calExp, Option.bind_eq_bind, Option.bind_eq_some_iff, Option.map_eq_some_iff] at h
    obtain ⟨l', h1, r', h2, a', h3, rfl⟩ := h
    have e1 := calExp_eff h1
    have e2 := calExp_eff h2
    have e3 := eff_bin h3
    rw [eff_fix] at he
    simp only [eff] at he
    rw [lr_fix]
    exact (le_bin hf (fun q hq => ih1 h1 hq (by omega)) (fun q hq => ih2 h2 hq (by omega))).trans
      (le_optBin h3 (((calExp_keep h1).bin (calExp_keep h2)).fine p hf) (by omega) (calExp_rng h1) (calExp_rng h2))
  | assV k n r ih =>
    intro p e' h hf he
    simp only [calExp, Option.map_eq_some_iff] at h
    obtain ⟨a', h1, rfl⟩ := h
    simp only [eff] at he
    exact le_assV (ih h1 hf (by omega))
  | assM op a i r h1 h2 h3 =>
    intro p e' h hf he
    simp only [calExp, Option.bind_eq_bind, Option.bind_eq_some_iff, Option.some.injEq] at h
    obtain ⟨a', g1, i', g2, r', g3, rfl⟩ := h
    have e1 := calExp_eff g1
    have e2 := calExp_eff g2
    have e3 := calExp_eff g3
    simp only [eff] at he
    simp only [fine, Bool.and_eq_true] at hf
    exact le_assM (h1 g1 hf.1.1 (by omega)) (h2 g2 hf.1.2 (by omega)) (h3 g3 hf.2 (by omega))

/-! ### arrExp, optExp -/

theorem normSub_lr (e : Expr) : evalLR w (normSub e) = evalLR w e := by
  unfold normSub
  split
  · rename_i l v
    funext s
    simp only [lr_bin, binG_tot (show total .add = true from rfl), binG_tot (show total .sub = true from rfl)]
    show strictD _ _ _ s = strictD _ _ _ s
    unfold strictD
    rcases evalLR w l s with _ | ⟨xs, s1⟩
    · rfl
    · simp only [bind1, lr_cnst, List.headD_cons, binVal, I_neg]
      congr 3
      ring
  · rfl

theorem step_le {p : Pos} {e e' : Expr} (h : calExp (moveCnst e) = some e') (hf : fine p e = true) (he : eff e' = eff e) :
    Le p (evalLR w e) (evalLR w e') := by
  have hk := normSub_keep e
  have hn : eff (normSub e) = eff e := by
    unfold normSub
    split <;> rfl
  rw [← normSub_lr e]
  rw [← hn] at he
  replace hf := hk.fine p hf
  unfold moveCnst at h
  generalize normSub e = e at *
  split at h
  · rename_i op l r
    split at h
    · rename_i h'
      obtain ⟨hm, h2⟩ := Bool.and_eq_true_iff.1 h'
      obtain ⟨v, rfl⟩ := isCnst_iff.1 h2
      have hf' := (mc_keep hm v l).fine p hf
      have he' : eff e' = eff (mc op l (.cnst v)) := by rw [mc_eff]; exact he
      by_cases hs : strict op = true
      · rw [← mc_lr hm hs v l (fun h => by
          subst h
          simp only [fine, Bool.and_eq_true] at hf
          exact hf.2)]
        exact calExp_le h hf' he'
      · simp only [eff, Nat.add_zero] at he
        cases op <;> first | (exfalso; exact hs rfl) | (exfalso; revert hm; decide) | skip
        · have h1 := hf
          simp only [fine, bit, Bool.and_eq_true, Bool.or_eq_true, beq_iff_eq] at h1
          obtain ⟨⟨⟨⟨rfl, -⟩, -⟩, -⟩, rfl | rfl⟩ := h1
          · exact (mc_or rfl l).trans (calExp_le h hf' he')
          · obtain rfl := mc_or1 h
            simp only [eff] at he
            intro s vs s' h3
            rw [lr_bin] at h3
            obtain ⟨xs, s1, h4, h5⟩ := or_some.1 h3
            have := lr_pure (by omega) h4
            subst this
            rcases h5 with ⟨-, rfl, rfl⟩ | ⟨-, ys, h6, rfl⟩
            · exact ⟨_, rfl, .inl rfl⟩
            · cases h6
              exact ⟨_, rfl, .inl rfl⟩
        · have h1 := hf
          simp only [fine, bit, Bool.and_eq_true, Bool.or_eq_true, beq_iff_eq] at h1
          obtain ⟨⟨⟨⟨rfl, -⟩, -⟩, -⟩, rfl | rfl⟩ := h1
          · obtain rfl := mc_and0 h
            simp only [eff] at he
            intro s vs s' h3
            rw [lr_bin] at h3
            obtain ⟨xs, s1, h4, h5⟩ := and_some.1 h3
            have := lr_pure (by omega) h4
            subst this
            rcases h5 with ⟨-, rfl, rfl⟩ | ⟨-, ys, h6, rfl⟩
            · exact ⟨_, rfl, .inl rfl⟩
            · cases h6
              exact ⟨_, rfl, .inl rfl⟩
          · exact (mc_and (by decide) l).trans (calExp_le h hf' he')
    · exact calExp_le h hf he
  · exact calExp_le h hf he

theorem arrExp_keep {e : Expr} : ∀ {e'}, arrExp e = some e' → Keep e e' ∧ eff e' ≤ eff e := by
  induction e with
  | cnst v => intro e' h; exact ⟨calExp_keep h, calExp_eff h⟩
  | leaf k n => intro e' h; exact ⟨calExp_keep h, calExp_eff h⟩
  | func0 f => intro e' h; exact ⟨calExp_keep h, calExp_eff h⟩
  | func f a ih =>
    intro e' h
    simp only [arrExp, Option.bind_eq_bind, Option.bind_eq_some_iff] at h
    obtain ⟨a', h1, h2⟩ := h
    obtain ⟨k, e1⟩ := ih h1
    have e2 := calExp_eff h2
    exact ⟨k.func.trans (calExp_keep h2), by simp only [eff] at *; omega⟩
  | un op e ih =>
    intro e' h
    simp only [arrExp, Option.bind_eq_bind, Option.bind_eq_some_iff] at h
    obtain ⟨a', h1, h2⟩ := h
    obtain ⟨k, e1⟩ := ih h1
    have e2 := calExp_eff h2
    rw [moveCnst_eff] at e2
    exact ⟨(k.un.trans (moveCnst_keep _)).trans (calExp_keep h2), by simp only [eff] at *; omega⟩
  | bin op l r ih1 ih2 =>
    intro e' h
    simp only [arrExp, Option.bind_eq_bind, Option.bind_eq_some_iff] at h
    obtain ⟨r', h1, l', h2, h3⟩ := h
    obtain ⟨k1, e1⟩ := ih2 h1
    obtain ⟨k2, e2⟩ := ih1 h2
    have e3 := calExp_eff h3
    rw [moveCnst_eff] at e3
    exact ⟨((k2.bin k1).trans (moveCnst_keep _)).trans (calExp_keep h3), by simp only [eff] at *; omega⟩
  | assV k n r ih =>
    intro e' h
    simp only [arrExp, Option.bind_eq_bind, Option.bind_eq_some_iff] at h
    obtain ⟨a', h1, h2⟩ := h
    obtain ⟨k, e1⟩ := ih h1
    have e2 := calExp_eff h2
    exact ⟨k.assV.trans (calExp_keep h2), by simp only [eff] at *; omega⟩
  | assM op a i r h1 h2 h3 =>
    intro e' h
    simp only [arrExp, Option.bind_eq_bind, Option.bind_eq_some_iff] at h
    obtain ⟨r', g1, i', g2, a', g3, g4⟩ := h
    obtain ⟨k1, e1⟩ := h3 g1
    obtain ⟨k2, e2⟩ := h2 g2
    obtain ⟨k3, e3⟩ := h1 g3
    have e4 := calExp_eff g4
    exact ⟨(Keep.assM k3 k2 k1).trans (calExp_keep g4), by simp only [eff] at *; omega⟩

theorem arrExp_le {e : Expr} : ∀ {p e'}, arrExp e = some e' → fine p e = true → eff e' = eff e →
    Le p (evalLR w e) (evalLR w e') := by
  induction e with
  | cnst v => intro p e' h hf he; exact calExp_le h hf he
  | leaf k n => intro p e' h hf he; exact calExp_le h hf he
  | func0 f => intro p e' h hf he; exact calExp_le h hf he
  | func f a ih =>
    intro p e' h hf he
    simp only [arrExp, Option.bind_eq_bind, Option.bind_eq_some_iff] at h
    obtain ⟨a', h1, h2⟩ := h
    obtain ⟨k, e1⟩ := arrExp_keep h1
    have e2 := calExp_eff h2
    have e3 : eff a' = eff a := by simp only [eff] at *; omega
    exact (le_func (ih h1 hf e3)).trans (calExp_le h2 (k.func.fine p hf) (by rw [he]; simp only [eff, e3]))
  | un op e ih =>
    intro p e' h hf he
    simp only [arrExp, Option.bind_eq_bind, Option.bind_eq_some_iff] at h
    obtain ⟨a', h1, h2⟩ := h
    obtain ⟨k, e1⟩ := arrExp_keep h1
    have e2 := calExp_eff h2
    rw [moveCnst_eff] at e2
    have e3 : eff a' = eff e := by simp only [eff] at *; omega
    refine Le.trans ?_ (step_le h2 (k.un.fine p hf) (by rw [he]; simp only [eff, e3]))
    simp only [fine, Bool.and_eq_true] at hf
    exact le_un (ih h1 hf.1 e3)
  | bin op l r ih1 ih2 =>
    intro p e' h hf he
    simp only [arrExp, Option.bind_eq_bind, Option.bind_eq_some_iff] at h
    obtain ⟨r', h1, l', h2, h3⟩ := h
    obtain ⟨k1, e1⟩ := arrExp_keep h1
    obtain ⟨k2, e2⟩ := arrExp_keep h2
    have e3 := calExp_eff h3
    rw [moveCnst_eff] at e3
    have e4 : eff l' = eff l := by simp only [eff] at *; omega
    have e5 : eff r' = eff r := by simp only [eff] at *; omega
    exact (le_bin hf (fun q hq => ih1 h2 hq e4) (fun q hq => ih2 h1 hq e5)).trans
      (step_le h3 ((k2.bin k1).fine p hf) (by rw [he]; simp only [eff, e4, e5]))
  | assV k n r ih =>
    intro p e' h hf he
    simp only [arrExp, Option.bind_eq_bind, Option.bind_eq_some_iff] at h
    obtain ⟨a', h1, h2⟩ := h
    obtain ⟨k, e1⟩ := arrExp_keep h1
    have e2 := calExp_eff h2
    have e3 : eff a' = eff r := by simp only [eff] at *; omega
    exact (le_assV (ih h1 hf e3)).trans (calExp_le h2 (k.assV.fine p hf) (by rw [he]; simp only [eff, e3]))
  | assM op a i r h1 h2 h3 =>
    intro p e' h hf he
    simp only [arrExp, Option.bind_eq_bind, Option.bind_eq_some_iff] at h
    obtain ⟨r', g1, i', g2, a', g3, g4⟩ := h
    obtain ⟨k1, e1⟩ := arrExp_keep g1
    obtain ⟨k2, e2⟩ := arrExp_keep g2
    obtain ⟨k3, e3⟩ := arrExp_keep g3
    have e4 := calExp_eff g4
    have f1 : eff r' = eff r := by simp only [eff] at *; omega
    have f2 : eff i' = eff i := by simp only [eff] at *; omega
    have f3 : eff a' = eff a := by simp only [eff] at *; omega
    refine Le.trans ?_ (calExp_le g4 ((Keep.assM k3 k2 k1).fine p hf) (by rw [he]; simp only [eff, f1, f2, f3]))
    simp only [fine, Bool.and_eq_true] at hf
    exact le_assM (h1 g3 hf.1.1 f3) (h2 g2 hf.1.2 f2) (h3 g1 hf.2 f1)

/-- What the optimizer keeps of an expression. -/
theorem optExp_keep {e e' : Expr} (h : optExp e = some e') : Keep e e' ∧ eff e' ≤ eff e := by
  obtain ⟨k, e1⟩ := arrExp_keep h
  exact ⟨(pull_keep e none).trans k, by rw [← show eff (moveLeft e) = eff e from pull_eff e none]; exact e1⟩

/-- If no call and no assignment is lost, the optimized expression does what the expression does. -/
theorem optExp_le {p : Pos} {e e' : Expr} (h : optExp e = some e') (hf : fine p e = true) (he : eff e' = eff e) :
    Le p (evalLR w e) (evalLR w e') := by
  have h1 : evalLR w (moveLeft e) = evalLR w e := pull_lr e none
  rw [← h1]
  exact arrExp_le h ((pull_keep e none).fine p hf) (by rw [he]; exact (pull_eff e none).symm)

end Cmm.Opt
