import Verif.Opt.Sound

/- Recording calls and assignments. -/
namespace Cmm.Opt
open Cmm.Tree

variable {σ : Type}

/-- An observable effect: an assignment to a variable, an assignment through a reference or a
call with its arguments. -/
inductive Event
  | write (k : Kind) (n : Int) (v : Word)
  | store (op : Bin) (x y v : Word)
  | call (f : Int) (args : List Word)
deriving DecidableEq, Repr

/-- The world `w` with a log of all effects. -/
def traced (w : World σ) : World (σ × List Event) where
  read k n s := w.read k n s.1
  write k n v s := (w.write k n v s.1, s.2 ++ [.write k n v])
  load op x y s := w.load op x y s.1
  store op x y v s := (w.store op x y v s.1, s.2 ++ [.store op x y v])
  call f vs s :=
    match w.call f vs s.1 with
    | none => none
    | some (v, s') => some (v, (s', s.2 ++ [.call f vs]))
  div0 := w.div0
  mod0 := w.mod0
  ok := w.ok

theorem traced_traced (w : World σ) : Traced (traced w) fun s => s.2.length := by
  refine ⟨fun k n v s => by simp [traced], fun op x y v s => by simp [traced], ?_⟩
  intro f vs s v s' h
  simp only [traced] at h
  split at h
  · simp at h
  · simp at h; rw [← h.2]; simp

/-- `d` is `d'` with a log. -/
def Proj (d : Den (σ × List Event)) (d' : Den σ) : Prop :=
  ∀ s t, (d (s, t)).map (fun r => (r.1, r.2.1)) = d' s

theorem proj_bind {a : Den (σ × List Event)} {a' : Den σ} {f : Word → Den (σ × List Event)}
    {f' : Word → Den σ} (h : Proj a a') (hf : ∀ v, Proj (f v) (f' v)) :
    Proj (fun s => bind1 (a s) f) (fun s => bind1 (a' s) f') := by
  intro s t
  have := h s t
  rcases e : a (s, t) with _ | ⟨vs, s1, t1⟩
  · rw [e] at this; simp only [Option.map_none] at this
    simp [bind1, ← this, e]
  · rw [e] at this; simp only [Option.map_some] at this
    simp only [bind1, ← this, e]
    exact hf _ _ _

theorem proj_ret {f : σ × List Event → List Word} {f' : σ → List Word}
    (h : ∀ s t, f (s, t) = f' s) : Proj (fun s => some (f s, s)) (fun s => some (f' s, s)) := by
  intro s t; simp [h]

theorem proj_call (w : World σ) {d d'} (h : Proj d d') (f : Int) :
    Proj (callD (traced w) f d) (callD w f d') := by
  intro s t
  have := h s t
  unfold callD
  rcases e : d (s, t) with _ | ⟨vs, s1, t1⟩
  · rw [e] at this; simp only [Option.map_none] at this
    simp [← this]
  · rw [e] at this; simp only [Option.map_some] at this
    simp only [← this, traced]
    rcases w.call f vs s1 with _ | ⟨v, s2⟩ <;> simp

theorem proj_bin (w : World σ) {a a' b b'} (ha : Proj a a') (hb : Proj b b') (op : Bin) :
    Proj (binD (traced w) op a b) (binD w op a' b') := by
  have hs : ∀ (f : Word → Word → σ × List Event → Word) (f' : Word → Word → σ → Word),
      (∀ x y s t, f x y (s, t) = f' x y s) → Proj (strictD f a b) (strictD f' a' b') := by
    intro f f' h
    exact proj_bind (f := fun x s => bind1 (b s) fun y s => some ([f x y s], s))
      (f' := fun x s => bind1 (b' s) fun y s => some ([f' x y s], s)) ha fun x =>
      proj_bind (f := fun y s => some ([f x y s], s)) (f' := fun y s => some ([f' x y s], s)) hb
        fun y => proj_ret fun s t => by rw [h]
  have ht : Proj (fun s => bind1 (b s) fun y s => some ([ofB (y != 0)], s))
      (fun s => bind1 (b' s) fun y s => some ([ofB (y != 0)], s)) :=
    proj_bind (f := fun y s => some ([ofB (y != 0)], s))
      (f' := fun y s => some ([ofB (y != 0)], s)) hb fun y => proj_ret fun s t => rfl
  cases op <;> first
    | exact hs _ _ fun x y s t => rfl
    | skip
  · -- or
    refine proj_bind (f := fun x s => if x = 0 then bind1 (b s) fun y s =>
      some ([ofB (y != 0)], s) else some ([1], s)) (f' := fun x s => if x = 0 then
      bind1 (b' s) fun y s => some ([ofB (y != 0)], s) else some ([1], s)) ha fun x => ?_
    by_cases hx : x = 0
    · simp only [hx, if_true]; exact ht
    · simp only [hx, if_false]; exact proj_ret fun s t => rfl
  · refine proj_bind (f := fun x s => if x = 0 then some ([0], s) else bind1 (b s) fun y s =>
      some ([ofB (y != 0)], s)) (f' := fun x s => if x = 0 then some ([0], s) else
      bind1 (b' s) fun y s => some ([ofB (y != 0)], s)) ha fun x => ?_
    by_cases hx : x = 0
    · simp only [hx, if_true]; exact proj_ret fun s t => rfl
    · simp only [hx, if_false]; exact ht
  · intro s t
    have h1 := hb s t
    simp only [binD, semiD]
    rcases e : b (s, t) with _ | ⟨vs, s1, t1⟩
    · rw [e] at h1; simp only [Option.map_none] at h1
      simp [← h1]
    · rw [e] at h1; simp only [Option.map_some] at h1
      simp only [← h1]
      have h2 := ha s1 t1
      rcases e : a (s1, t1) with _ | ⟨vs, s1, t1⟩
      · rw [e] at h2; simp only [Option.map_none] at h2
        simp [← h2]
      · rw [e] at h2; simp only [Option.map_some] at h2
        simp [← h2]

/-- Forgetting the log gives the plain meaning. -/
theorem proj_eval (w : World σ) (e : Expr) : Proj (eval (traced w) e) (eval w e) := by
  induction e with
  | cnst v => exact proj_ret fun _ _ => rfl
  | leaf k n => exact proj_ret fun _ _ => rfl
  | func0 f => exact proj_call w (proj_ret fun _ _ => rfl) f
  | func f a ih => exact proj_call w ih f
  | un op e ih =>
    exact proj_bind (f := fun v s => some ([unVal op v], s))
      (f' := fun v s => some ([unVal op v], s)) ih fun v => proj_ret fun _ _ => rfl
  | bin op l r ihl ihr => exact proj_bin w ihl ihr op
  | assV k n r ih =>
    exact proj_bind (f := fun v s => some ([v], (traced w).write k n v s))
      (f' := fun v s => some ([v], w.write k n v s)) ih fun v s t => rfl
  | assM op a i r iha ihi ihr =>
    exact proj_bind (f := fun v s => bind1 (eval (traced w) a s) fun x s =>
        bind1 (eval (traced w) i s) fun y s => some ([v], (traced w).store op x y v s))
      (f' := fun v s => bind1 (eval w a s) fun x s =>
        bind1 (eval w i s) fun y s => some ([v], w.store op x y v s)) ihr fun v =>
      proj_bind (f := fun x s =>
        bind1 (eval (traced w) i s) fun y s => some ([v], (traced w).store op x y v s))
      (f' := fun x s =>
        bind1 (eval w i s) fun y s => some ([v], w.store op x y v s)) iha fun x =>
      proj_bind (f := fun y s => some ([v], (traced w).store op x y v s))
      (f' := fun y s => some ([v], w.store op x y v s)) ihi fun y s t => rfl

/-- Same logged meaning implies same plain meaning. -/
theorem eval_of_traced {w : World σ} {e e' : Expr}
    (h : eval (traced w) e' = eval (traced w) e) : eval w e' = eval w e := by
  funext s
  rw [← proj_eval w e' s [], ← proj_eval w e s [], h]

/-! ### Side-effect free expressions -/

/-- No call and no assignment. -/
def Pure : Expr → Prop
  | .cnst _ | .leaf _ _ => True
  | .func0 _ | .func _ _ | .assV _ _ _ | .assM _ _ _ _ => False
  | .un _ e => Pure e
  | .bin _ l r => Pure l ∧ Pure r

theorem still_of_pure (w : World σ) {e : Expr} (h : Pure e) : Still (eval w e) := by
  have ret : ∀ (f : σ → List Word), Still fun s => some (f s, s) := fun f s => ⟨_, rfl⟩
  have bnd : ∀ {a : Den σ} {f : Word → Den σ}, Still a → (∀ v, Still (f v)) →
      Still fun s => bind1 (a s) f := by
    intro a f ha hf s
    obtain ⟨vs, h⟩ := ha s
    show ∃ us, bind1 (a s) f = some (us, s)
    rw [h]
    exact hf _ s
  induction e with
  | cnst v => exact ret _
  | leaf k n => exact ret _
  | func0 f => exact h.elim
  | func f a ih => exact h.elim
  | assV k n r ih => exact h.elim
  | assM op a i r iha ihi ihr => exact h.elim
  | un op e ih => exact bnd (f := fun v s => some ([unVal op v], s)) (ih h) fun v => ret _
  | bin op l r ihl ihr =>
    have hl := ihl h.1
    have hr := ihr h.2
    have ht : Still fun s => bind1 (eval w r s) fun y s => some ([ofB (y != 0)], s) :=
      bnd (f := fun y s => some ([ofB (y != 0)], s)) hr fun y => ret _
    have hs : ∀ f, Still (strictD f (eval w l) (eval w r)) := fun f =>
      bnd (f := fun x s => bind1 (eval w r s) fun y s => some ([f x y s], s)) hl fun x =>
        bnd (f := fun y s => some ([f x y s], s)) hr fun y => ret fun s => [f x y s]
    cases op <;> first
      | exact hs _
      | skip
    · refine bnd (f := fun x s => if x = 0 then bind1 (eval w r s) fun y s =>
        some ([ofB (y != 0)], s) else some ([1], s)) hl fun x => ?_
      by_cases hx : x = 0
      · simp only [hx, if_true]; exact ht
      · simp only [hx, if_false]; exact ret _
    · refine bnd (f := fun x s => if x = 0 then some ([0], s) else bind1 (eval w r s) fun y s =>
        some ([ofB (y != 0)], s)) hl fun x => ?_
      by_cases hx : x = 0
      · simp only [hx, if_true]; exact ret _
      · simp only [hx, if_false]; exact ht
    · intro s
      obtain ⟨vs, h1⟩ := hr s
      obtain ⟨us, h2⟩ := hl s
      exact ⟨us ++ vs, by simp only [eval, binD, semiD, h1, h2]⟩

end Cmm.Opt
