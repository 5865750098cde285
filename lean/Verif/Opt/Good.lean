import Verif.Opt.Arith
import Mathlib.Data.BitVec
import Mathlib.Tactic.Ring

/- The conditions under which the optimizer is shown to be correct, stated on meanings. -/
namespace Cmm.Opt
open Cmm.Tree

variable {σ : Type}

/-- Whenever the computation ends it gives the single value `v`. -/
def Always (d : Den σ) (v : Word) : Prop := ∀ s vs s', d s = some (vs, s') → vs = [v]
/-- The computation always ends, gives `v` and has no effect. -/
def Const (d : Den σ) (v : Word) : Prop := ∀ s, d s = some ([v], s)
/-- The computation always ends and has no effect. -/
def Still (d : Den σ) : Prop := ∀ s, ∃ vs, d s = some (vs, s)
/-- The computation gives one value (it is not an argument list). -/
def Single (d : Den σ) : Prop := ∀ s vs s', d s = some (vs, s') → ∃ v, vs = [v]
/-- The computation gives a truth value. -/
def IsB (d : Den σ) : Prop := ∀ s vs s', d s = some (vs, s') → vs = [0] ∨ vs = [1]

/-- Value that decides the result of an operator whatever the other operand is. -/
def zeroOf : Bin → Option Word
  | .mul | .band | .mod | .and => some 0
  | .bor => some 0xffff
  | .or => some 1
  | _ => none

/-- Conditions on an operator and the meanings of its operands.
* `nz`: a product, conjunction, … whose value is always the annihilator has no effect.
* `divz`, `shift` (only if `st`): a divisor is not constantly 0, a shift width is not
  constantly out of range. -/
structure Local (w : World σ) (st : Prop) (op : Bin) (a b : Den σ) : Prop where
  single : op ≠ .semi → Single a ∧ Single b
  bool : op = .and ∨ op = .or → IsB a ∧ IsB b
  nz : ∀ z, zeroOf op = some z → Always (binD w op a b) z → Const (binD w op a b) z
  divz : st → op = .div ∨ op = .mod → ¬ Const b 0
  shift : st → op = .shl ∨ op = .shr → ∀ n : Word, 16 ≤ n.toNat → ¬ Const b n

/-- No division occurs. -/
def NoDiv : Expr → Prop
  | .cnst _ | .leaf _ _ | .func0 _ => True
  | .func _ a => NoDiv a
  | .un _ e => NoDiv e
  | .bin op l r => op ≠ .div ∧ NoDiv l ∧ NoDiv r
  | .assV _ _ r => NoDiv r
  | .assM _ a i r => NoDiv a ∧ NoDiv i ∧ NoDiv r

/-- The conditions hold at every operator; moreover no dividend contains a division. -/
def Good (w : World σ) (st : Prop) : Expr → Prop
  | .cnst _ | .leaf _ _ | .func0 _ => True
  | .func _ a => Good w st a
  | .un op e => Good w st e ∧ (op = .not → IsB (eval w e))
  | .bin op l r => Good w st l ∧ Good w st r ∧ Local w st op (eval w l) (eval w r) ∧
      (op = .div → NoDiv l)
  | .assV _ _ r => Good w st r
  | .assM _ a i r => Good w st a ∧ Good w st i ∧ Good w st r

/-- All constants are 16-bit numbers. -/
def Rng : Expr → Prop
  | .cnst v => 0 ≤ v ∧ v < 65536
  | .leaf _ _ | .func0 _ => True
  | .func _ a => Rng a
  | .un _ e => Rng e
  | .bin _ l r => Rng l ∧ Rng r
  | .assV _ _ r => Rng r
  | .assM _ a i r => Rng a ∧ Rng i ∧ Rng r

/-- Every call and every assignment increases `cnt`: effects can not be undone. -/
structure Traced (w : World σ) (cnt : σ → Nat) : Prop where
  write : ∀ k n v s, cnt s < cnt (w.write k n v s)
  store : ∀ op x y v s, cnt s < cnt (w.store op x y v s)
  call : ∀ f vs s v s', w.call f vs s = some (v, s') → cnt s < cnt s'

def Mono (cnt : σ → Nat) (d : Den σ) : Prop :=
  ∀ s vs s', d s = some (vs, s') → s' = s ∨ cnt s < cnt s'

/-! ### Elementary facts -/

theorem bind1_eq_some {o : Out σ} {f : Word → σ → Out σ} {r} (h : bind1 o f = some r) :
    ∃ vs s, o = some (vs, s) ∧ f (vs.headD 0) s = some r := by
  cases o with
  | none => simp [bind1] at h
  | some p => exact ⟨p.1, p.2, rfl, h⟩

theorem single_un (f : Word → Word) (d : Den σ) : Single (unD f d) := by
  intro s vs s' h
  obtain ⟨us, s1, h1, h2⟩ := bind1_eq_some h
  simp at h2
  exact ⟨_, h2.1.symm⟩

theorem single_strict (f) (a b : Den σ) : Single (strictD f a b) := by
  intro s vs s' h
  obtain ⟨us, s1, h1, h2⟩ := bind1_eq_some h
  obtain ⟨us2, s2, h3, h4⟩ := bind1_eq_some h2
  simp at h4
  exact ⟨_, h4.1.symm⟩

theorem ofB_cases (b : Bool) : ofB b = 0 ∨ ofB b = 1 := by cases b <;> simp [ofB]

theorem isB_and (a b : Den σ) : IsB (andD a b) := by
  intro s vs s' h
  obtain ⟨us, s1, h1, h2⟩ := bind1_eq_some h
  split at h2
  · simp at h2; left; exact h2.1.symm
  · obtain ⟨us2, s2, h3, h4⟩ := bind1_eq_some h2
    simp only [Option.some.injEq, Prod.mk.injEq] at h4
    rw [← h4.1]
    rcases ofB_cases (us2.headD 0 != 0) with h | h <;> rw [h] <;> simp

theorem isB_or (a b : Den σ) : IsB (orD a b) := by
  intro s vs s' h
  obtain ⟨us, s1, h1, h2⟩ := bind1_eq_some h
  split at h2
  · obtain ⟨us2, s2, h3, h4⟩ := bind1_eq_some h2
    simp only [Option.some.injEq, Prod.mk.injEq] at h4
    rw [← h4.1]
    rcases ofB_cases (us2.headD 0 != 0) with h | h <;> rw [h] <;> simp
  · simp at h2; right; exact h2.1.symm

theorem IsB.single {d : Den σ} (h : IsB d) : Single d := fun s vs s' e => by
  rcases h s vs s' e with h | h <;> exact ⟨_, h⟩

theorem single_bin (w : World σ) {op : Bin} (h : op ≠ .semi) (a b : Den σ) :
    Single (binD w op a b) := by
  cases op <;> first
    | exact single_strict _ _ _
    | exact (isB_and _ _).single
    | exact (isB_or _ _).single
    | exact absurd rfl h

theorem single_const {d : Den σ} {v} (h : Const d v) : Single d := by
  intro s vs s' e
  rw [h s] at e
  simp at e
  exact ⟨v, e.1.symm⟩

theorem const_cnst (w : World σ) (v : Int) : Const (eval w (.cnst v)) (I v) := fun _ => rfl

theorem Const.eq {w : World σ} {d : Den σ} {v : Int} (h : Const d (I v)) :
    d = eval w (.cnst v) := funext h

/-! ### Effects are monotone -/

theorem mono_ret (cnt : σ → Nat) (f : σ → List Word) : Mono cnt fun s => some (f s, s) := by
  intro s vs s' h
  simp at h
  exact .inl h.2.symm

theorem mono_bind {cnt : σ → Nat} {a : Den σ} (ha : Mono cnt a)
    {f : Word → Den σ} (hf : ∀ v, Mono cnt (f v)) : Mono cnt fun s => bind1 (a s) f := by
  intro s vs s' h
  obtain ⟨us, s1, h1, h2⟩ := bind1_eq_some h
  rcases ha _ _ _ h1 with h | h
  · subst h; exact hf _ _ _ _ h2
  · rcases hf _ _ _ _ h2 with h' | h'
    · subst h'; exact .inr h
    · exact .inr (Nat.lt_trans h h')

theorem mono_and_k {cnt : σ → Nat} {b : Den σ} (hb : Mono cnt b) (x : Word) :
    Mono cnt fun s => if x = 0 then some ([0], s)
      else bind1 (b s) fun y s => some ([ofB (y != 0)], s) := by
  by_cases h : x = 0
  · simp only [h, if_true]; exact mono_ret cnt fun _ => [0]
  · simp only [h, if_false]
    exact mono_bind hb (f := fun y s => some ([ofB (y != 0)], s)) fun y => mono_ret cnt _

theorem mono_or_k {cnt : σ → Nat} {b : Den σ} (hb : Mono cnt b) (x : Word) :
    Mono cnt fun s => if x = 0 then bind1 (b s) fun y s => some ([ofB (y != 0)], s)
      else some ([1], s) := by
  by_cases h : x = 0
  · simp only [h, if_true]
    exact mono_bind hb (f := fun y s => some ([ofB (y != 0)], s)) fun y => mono_ret cnt _
  · simp only [h, if_false]; exact mono_ret cnt fun _ => [1]

theorem mono_strict_k {cnt : σ → Nat} {b : Den σ} (hb : Mono cnt b)
    (f : Word → Word → σ → Word) (x : Word) :
    Mono cnt fun s => bind1 (b s) fun y s => some ([f x y s], s) :=
  mono_bind hb (f := fun y s => some ([f x y s], s)) fun y => mono_ret cnt _

theorem mono_semi {cnt : σ → Nat} {a b : Den σ} (ha : Mono cnt a) (hb : Mono cnt b) :
    Mono cnt (semiD a b) := by
  intro s vs s' h
  simp only [semiD] at h
  split at h
  · simp at h
  · rename_i vr s1 h1
    split at h
    · simp at h
    · rename_i vl s2 h2
      simp at h
      obtain ⟨-, rfl⟩ := h
      rcases hb _ _ _ h1 with rfl | h1
      · exact ha _ _ _ h2
      · rcases ha _ _ _ h2 with rfl | h2
        · exact .inr h1
        · exact .inr (Nat.lt_trans h1 h2)

theorem mono_bin (w : World σ) {cnt : σ → Nat} {a b : Den σ} (ha : Mono cnt a) (hb : Mono cnt b)
    (op : Bin) : Mono cnt (binD w op a b) := by
  have hs : ∀ f, Mono cnt (strictD f a b) := fun f => mono_bind ha (mono_strict_k hb f)
  cases op <;> first
    | exact hs _
    | exact mono_bind ha (mono_and_k hb)
    | exact mono_bind ha (mono_or_k hb)
    | exact mono_semi ha hb

theorem mono_call {w : World σ} {cnt : σ → Nat} (T : Traced w cnt) {d : Den σ} (hd : Mono cnt d)
    (f : Int) : Mono cnt (callD w f d) := by
  intro s vs s' h
  simp only [callD] at h
  split at h
  · simp at h
  · rename_i vr s1 h1
    split at h
    · simp at h
    · rename_i vl s2 h2
      simp at h
      obtain ⟨-, rfl⟩ := h
      have := T.call _ _ _ _ _ h2
      rcases hd _ _ _ h1 with rfl | h1
      · exact .inr this
      · exact .inr (Nat.lt_trans h1 this)

theorem mono_eval {w : World σ} {cnt : σ → Nat} (T : Traced w cnt) (e : Expr) :
    Mono cnt (eval w e) := by
  have wr : ∀ k n v, Mono cnt fun s => some ([v], w.write k n v s) := by
    intro k n v s vs s' h
    simp at h
    obtain ⟨-, rfl⟩ := h
    exact .inr (T.write _ _ _ _)
  have st : ∀ op x y v, Mono cnt fun s => some ([v], w.store op x y v s) := by
    intro op x y v s vs s' h
    simp at h
    obtain ⟨-, rfl⟩ := h
    exact .inr (T.store _ _ _ _ _)
  induction e with
  | cnst v => exact mono_ret cnt _
  | leaf k n => exact mono_ret cnt _
  | func0 f => exact mono_call T (mono_ret cnt _) f
  | func f a ih => exact mono_call T ih f
  | un op e ih =>
    exact mono_bind ih (f := fun v s => some ([unVal op v], s)) fun v => mono_ret cnt _
  | bin op l r ihl ihr => exact mono_bin w ihl ihr op
  | assV k n r ih => exact mono_bind ih fun v => wr k n v
  | assM op a i r iha ihi ihr =>
    exact mono_bind ihr fun v => mono_bind iha fun x => mono_bind ihi fun y => st op x y v

/-- If a binary operation has no effect then its left operand has none. -/
theorem still_left (w : World σ) {cnt : σ → Nat} {X d : Den σ} (hX : Mono cnt X)
    (hd : Mono cnt d) {op : Bin} (hop : op ≠ .semi) (h : Still (binD w op X d)) : Still X := by
  intro s
  obtain ⟨vs, h⟩ := h s
  have key : ∀ f : Word → Den σ, (∀ v, Mono cnt (f v)) → bind1 (X s) f = some (vs, s) →
      ∃ vs, X s = some (vs, s) := by
    intro f hf h
    obtain ⟨us, s1, h1, h2⟩ := bind1_eq_some h
    have a := hX _ _ _ h1
    have b := hf _ _ _ _ h2
    have : s1 = s := by
      rcases a with a | a
      · exact a
      · rcases b with b | b
        · exact b.symm
        · omega
    exact ⟨us, this ▸ h1⟩
  have hs : ∀ f, strictD f X d s = some (vs, s) → ∃ vs, X s = some (vs, s) := fun f h =>
    key _ (mono_strict_k hd f) h
  cases op <;> first
    | exact hs _ h
    | exact key _ (mono_and_k hd) h
    | exact key _ (mono_or_k hd) h
    | exact absurd rfl hop

theorem Const.still {d : Den σ} {v} (h : Const d v) : Still d := fun s => ⟨_, h s⟩

theorem const_of_always {d : Den σ} {v} (h : Always d v) (h' : Still d) : Const d v := fun s => by
  obtain ⟨vs, e⟩ := h' s
  rw [e, h _ _ _ e]

/-! ### Algebraic laws of meanings -/

theorem assoc_strict {f g f' g' : Word → Word → σ → Word}
    (h : ∀ x y z s s', f x (g y z s') s = f' (g' x y s) z s')
    (h0 : ∀ x y z s s1 s2, f' (g' x y s) z s2 = f' (g' x y s1) z s2)
    (a c d : Den σ) : strictD f a (strictD g c d) = strictD f' (strictD g' a c) d := by
  funext s
  unfold strictD
  rcases a s with _ | ⟨va, s1⟩
  · rfl
  · simp only [bind1]
    rcases c s1 with _ | ⟨vc, s2⟩
    · rfl
    · simp only
      rcases d s2 with _ | ⟨vd, s3⟩
      · rfl
      · simp only [List.headD]
        rw [h, h0]

theorem assoc_and (a c d : Den σ) : andD a (andD c d) = andD (andD a c) d := by
  funext s
  unfold andD
  rcases a s with _ | ⟨va, s1⟩
  · rfl
  · simp only [bind1]
    split
    · simp
    · rcases c s1 with _ | ⟨vc, s2⟩
      · rfl
      · simp only
        by_cases hc : vc.headD 0 = 0
        · simp only [hc]; simp [ofB]
        · have : (vc.headD 0 != 0) = true := by simpa using hc
          simp only [hc, this, if_false]
          rcases d s2 with _ | ⟨vd, s3⟩
          · simp [ofB]
          · simp only [ofB, if_true, List.headD_cons, if_neg (show ¬ (1 : Word) = 0 by decide)]
            split <;> simp_all

theorem assoc_or (a c d : Den σ) : orD a (orD c d) = orD (orD a c) d := by
  funext s
  unfold orD
  rcases a s with _ | ⟨va, s1⟩
  · rfl
  · simp only [bind1]
    split
    · rcases c s1 with _ | ⟨vc, s2⟩
      · rfl
      · simp only
        by_cases hc : vc.headD 0 = 0
        · have : (vc.headD 0 != 0) = false := by simpa using hc
          simp only [hc, if_true]
          rcases d s2 with _ | ⟨vd, s3⟩
          · simp [ofB]
          · simp only [ofB, List.headD_cons]
            split <;> simp_all
        · have : (vc.headD 0 != 0) = true := by simpa using hc
          simp only [hc, this, if_false]
          simp [ofB]
    · simp

/-- The identity behind pullTree. -/
theorem pull_eq (w : World σ) {op o : Bin} (h : canPull op o = true) (a c d : Den σ) :
    binD w op a (binD w o c d) = binD w (pullN op o) (binD w (pullB op o) a c) d := by
  cases op <;> cases o <;> first
    | (exfalso; revert h; decide)
    | exact assoc_and a c d
    | exact assoc_or a c d
    | (refine assoc_strict ?_ ?_ a c d
       · intro x y z s s'
         show (_ : Word) = _
         simp [binVal, pullN, pullB] <;> first
           | ring
           | exact (BitVec.and_assoc _ _ _).symm
           | exact (BitVec.or_assoc _ _ _).symm
           | exact (BitVec.xor_assoc _ _ _).symm
       · intro x y z s s1 s2
         simp [binVal, pullN, pullB])

end Cmm.Opt
