import Verif.Props.C44

/-
C45: the code for `&&` and `||` evaluates the terms from left to right as far as needed and
continues at the right place.

`Sc` is the specification: which terms of a condition are evaluated, in which order, and the
value. It speaks only about the terms, not about labels or jumps. The theorems hold in every
world, in particular in one whose calls are recorded (see the examples), so a term that is not
in the list leaves no trace in the machine.
-/
namespace Cmm.Gen
open Cmm.Tree Cmm.Opt

variable {σ : Type}

/-- The terms of a condition from left to right. -/
def terms : Expr → List Expr
  | .bin .or l r => terms l ++ terms r
  | .bin .and l r => terms l ++ terms r
  | e => [e]

/-- An expression that is not a disjunction or conjunction. -/
def IsTerm (e : Expr) : Prop := ∀ l r, e ≠ .bin .or l r ∧ e ≠ .bin .and l r

/-- Short-circuit evaluation of `e` from state `s` evaluates the terms `ts`, has the truth value
`b` and leaves the state `s'`. -/
inductive Sc (w : World σ) : Expr → σ → List Expr → Bool → σ → Prop
  | term {e s v s'} : IsTerm e → evalG w e s = some ([v], s') → Sc w e s [e] (v != 0) s'
  | andF {l r s ts s'} : Sc w l s ts false s' → Sc w (.bin .and l r) s ts false s'
  | andT {l r s ts s1 us b s2} : Sc w l s ts true s1 → Sc w r s1 us b s2 →
      Sc w (.bin .and l r) s (ts ++ us) b s2
  | orT {l r s ts s'} : Sc w l s ts true s' → Sc w (.bin .or l r) s ts true s'
  | orF {l r s ts s1 us b s2} : Sc w l s ts false s1 → Sc w r s1 us b s2 →
      Sc w (.bin .or l r) s (ts ++ us) b s2

/-- The terms `ts` are evaluated one after the other. -/
inductive Chain (w : World σ) : List Expr → σ → σ → Prop
  | nil {s} : Chain w [] s s
  | cons {e ts s v s1 s2} : evalG w e s = some ([v], s1) → Chain w ts s1 s2 →
      Chain w (e :: ts) s s2

theorem Chain.append {w : World σ} {ts us s s1 s2} (h : Chain w ts s s1) (h' : Chain w us s1 s2) :
    Chain w (ts ++ us) s s2 := by
  induction h with
  | nil => exact h'
  | cons h _ ih => exact .cons h (ih h')

theorem terms_of_isTerm {e : Expr} (h : IsTerm e) : terms e = [e] := by
  unfold terms
  split
  · exact absurd rfl (h _ _).1
  · exact absurd rfl (h _ _).2
  · rfl

/-- The evaluated terms are some of the terms from left to right, starting with the first, and
each is evaluated in the state that the one before has left. -/
theorem C45_order (w : World σ) {e s ts b s'} (h : Sc w e s ts b s') :
    ts.Sublist (terms e) ∧ ts.head? = (terms e).head? ∧ ts ≠ [] ∧ Chain w ts s s' := by
  induction h with
  | term ht hv => rw [terms_of_isTerm ht]; exact ⟨.refl _, rfl, by simp, .cons hv .nil⟩
  | andF _ ih =>
    obtain ⟨h1, h2, h3, h4⟩ := ih
    refine ⟨h1.trans (List.sublist_append_left _ _), ?_, h3, h4⟩
    rw [terms, List.head?_append, ← h2]
    cases hh : List.head? _ with
    | none => exact absurd (List.head?_eq_none_iff.1 hh) h3
    | some a => rfl
  | orT _ ih =>
    obtain ⟨h1, h2, h3, h4⟩ := ih
    refine ⟨h1.trans (List.sublist_append_left _ _), ?_, h3, h4⟩
    rw [terms, List.head?_append, ← h2]
    cases hh : List.head? _ with
    | none => exact absurd (List.head?_eq_none_iff.1 hh) h3
    | some a => rfl
  | andT _ _ ih ih' =>
    obtain ⟨h1, h2, h3, h4⟩ := ih
    obtain ⟨h1', h2', h3', h4'⟩ := ih'
    refine ⟨h1.append h1', ?_, by simp [h3], h4.append h4'⟩
    rw [terms, List.head?_append, List.head?_append, ← h2]
    cases hh : List.head? _ with
    | none => exact absurd (List.head?_eq_none_iff.1 hh) h3
    | some a => rfl
  | orF _ _ ih ih' =>
    obtain ⟨h1, h2, h3, h4⟩ := ih
    obtain ⟨h1', h2', h3', h4'⟩ := ih'
    refine ⟨h1.append h1', ?_, by simp [h3], h4.append h4'⟩
    rw [terms, List.head?_append, List.head?_append, ← h2]
    cases hh : List.head? _ with
    | none => exact absurd (List.head?_eq_none_iff.1 hh) h3
    | some a => rfl

theorem ofB_ne {b : Bool} : (ofB b != 0) = b := by cases b <;> decide

theorem ne_ofB {v : Word} : (v != 0) = false ↔ v = 0 := by simp

/-- Short-circuit evaluation is the meaning of the expression. -/
theorem Sc.eval {w : World σ} {e s ts b s'} (h : Sc w e s ts b s') :
    ∃ v, evalG w e s = some ([v], s') ∧ (v != 0) = b ∧ (IsTerm e ∨ v = ofB b) := by
  induction h with
  | @term e s v s' ht hv => exact ⟨v, hv, rfl, .inl ht⟩
  | @andF l r s ts s' _ ih =>
    obtain ⟨v, h1, h2, -⟩ := ih
    rw [ne_ofB] at h2; subst h2
    refine ⟨0, ?_, by decide, .inr rfl⟩
    show andD (evalG w l) (evalG w r) s = _
    simp [andD, h1, bind1]
  | @andT l r s ts s1 us b s2 _ _ ih ih' =>
    obtain ⟨v, h1, h2, -⟩ := ih
    obtain ⟨u, h1', h2', -⟩ := ih'
    refine ⟨ofB b, ?_, ofB_ne, .inr rfl⟩
    show andD (evalG w l) (evalG w r) s = _
    have hv : ¬ v = 0 := by rintro rfl; simp at h2
    simp only [andD, h1, bind1]
    rw [if_neg (show ¬ [v].headD 0 = 0 from hv), h1']
    simp only [List.headD_cons, h2']
  | @orT l r s ts s' _ ih =>
    obtain ⟨v, h1, h2, -⟩ := ih
    refine ⟨1, ?_, by decide, .inr rfl⟩
    show orD (evalG w l) (evalG w r) s = _
    have hv : ¬ v = 0 := by rintro rfl; simp at h2
    simp only [orD, h1, bind1]
    rw [if_neg (show ¬ [v].headD 0 = 0 from hv)]
  | @orF l r s ts s1 us b s2 _ _ ih ih' =>
    obtain ⟨v, h1, h2, -⟩ := ih
    obtain ⟨u, h1', h2', -⟩ := ih'
    rw [ne_ofB] at h2; subst h2
    refine ⟨ofB b, ?_, ofB_ne, .inr rfl⟩
    show orD (evalG w l) (evalG w r) s = _
    simp only [orD, h1, bind1]
    rw [if_pos (show [(0 : Word)].headD 0 = 0 from rfl), h1']
    simp only [List.headD_cons, h2']

/-- A condition whose terms return has a short-circuit evaluation. -/
theorem Sc.exists {w : World σ} {nt : NT} {e : Expr} : ∀ {m : Mode} (_ : Wf w nt m e)
    (_ : m ≠ .args) {s vs s'} (_ : evalG w e s = some (vs, s')), ∃ ts b, Sc w e s ts b s' := by
  have base : ∀ {e : Expr} {m : Mode} (_ : IsTerm e) (_ : Wf w nt m e) (_ : m ≠ .args) {s vs s'}
      (_ : evalG w e s = some (vs, s')), ∃ ts b, Sc w e s ts b s' := by
    intro e m ht hw hm s vs s' h
    obtain ⟨v, rfl⟩ := evalG_single hw hm h
    exact ⟨_, _, .term ht h⟩
  induction e with
  | bin op l r ihl ihr =>
    intro m hw hm s vs s' h
    by_cases ho : IsLog op
    · have hl : Wf w nt .cond l := by rcases ho with rfl | rfl <;> exact hw.1
      have hr : ∃ m', m' ≠ .args ∧ Wf w nt m' r := by
        have hw2 : if m = .cond then Wf w nt .cond r else Wf w nt .val r ∧ ∀ s vs s',
            evalG w r s = some (vs, s') → vs = [0] ∨ vs = [1] := by
          rcases ho with rfl | rfl <;> exact hw.2
        split at hw2
        · exact ⟨_, by decide, hw2⟩
        · exact ⟨.val, by decide, hw2.1⟩
      obtain ⟨m', hm', hr⟩ := hr
      cases h1 : evalG w l s with
      | none =>
        rcases ho with rfl | rfl
        · have h : orD (evalG w l) (evalG w r) s = some (vs, s') := h
          simp [orD, h1, bind1] at h
        · have h : andD (evalG w l) (evalG w r) s = some (vs, s') := h
          simp [andD, h1, bind1] at h
      | some q =>
        obtain ⟨us, s1⟩ := q
        obtain ⟨ts, b, hs⟩ := ihl hl (by decide) h1
        obtain ⟨v, hv, hvb, -⟩ := hs.eval
        rw [h1] at hv
        simp only [Option.some.injEq, Prod.mk.injEq] at hv
        obtain ⟨rfl, -⟩ := hv
        rcases ho with rfl | rfl
        · have h : orD (evalG w l) (evalG w r) s = some (vs, s') := h
          simp only [orD, h1, bind1] at h
          cases b with
          | true =>
            have hv : ¬ v = 0 := by rintro rfl; simp at hvb
            rw [if_neg (show ¬ [v].headD 0 = 0 from hv)] at h
            simp at h; rw [← h.2]
            exact ⟨_, _, .orT hs⟩
          | false =>
            rw [ne_ofB] at hvb
            rw [if_pos (show [v].headD 0 = 0 from hvb)] at h
            cases h2 : evalG w r s1 with
            | none => rw [h2] at h; cases h
            | some q =>
              rw [h2] at h; simp at h; rw [← h.2]
              obtain ⟨us, b, hs'⟩ := ihr hr hm' h2
              exact ⟨_, _, .orF hs hs'⟩
        · have h : andD (evalG w l) (evalG w r) s = some (vs, s') := h
          simp only [andD, h1, bind1] at h
          cases b with
          | false =>
            rw [ne_ofB] at hvb
            rw [if_pos (show [v].headD 0 = 0 from hvb)] at h
            simp at h; rw [← h.2]
            exact ⟨_, _, .andF hs⟩
          | true =>
            have hv : ¬ v = 0 := by rintro rfl; simp at hvb
            rw [if_neg (show ¬ [v].headD 0 = 0 from hv)] at h
            cases h2 : evalG w r s1 with
            | none => rw [h2] at h; cases h
            | some q =>
              rw [h2] at h; simp at h; rw [← h.2]
              obtain ⟨us, b, hs'⟩ := ihr hr hm' h2
              exact ⟨_, _, .andT hs hs'⟩
    · refine base (fun l' r' => ⟨?_, ?_⟩) hw hm h
      · intro he; injection he with h1 _ _; exact ho (.inl h1)
      · intro he; injection he with h1 _ _; exact ho (.inr h1)
  | _ => exact fun hw hm _ _ _ h => base (by intro l r; exact ⟨nofun, nofun⟩) hw hm h

/-- **Conditions.** The code of genCnd evaluates exactly the terms of the short-circuit
evaluation and continues at the label if the condition has the value `tf`, otherwise behind
the code; nothing remains on the stack. -/
theorem C45_cond (w : World σ) (nt : NT) (L : Layout w nt) (e : Expr) (hw : Wf w nt .cond e)
    (tf : Bool) (k : Option Nat) (n : Nat) (P : List Instr) (pc pJ : Nat)
    (hat : At P pc (genCnd nt e tf ⟨k, 0⟩ n).1)
    (hJ : ∀ j, (genCnd nt e tf ⟨k, 0⟩ n).2.1.no = some j → P[pJ]? = some (.lab j))
    (st ar : List Word) (rg : Word) (s : σ) (ts : List Expr) (b : Bool) (s' : σ)
    (h : Sc w e s ts b s') :
    Steps w P ⟨pc, ⟨st, ar, rg, s⟩⟩
      ⟨if b = tf then pJ else pc + (genCnd nt e tf ⟨k, 0⟩ n).1.length, ⟨st, ar, rg, s'⟩⟩ := by
  obtain ⟨v, hv, hb, -⟩ := h.eval
  have := genCnd_ok (P := P) L hw (J := ⟨k, 0⟩) (tf := tf) rfl hat hJ st ar rg s
  rw [hv] at this
  obtain ⟨c', hs, u, hu, rfl⟩ := this
  simp only [List.cons.injEq, and_true] at hu
  rw [← hu, hb] at hs
  exact hs

/-- **Values.** A disjunction or conjunction used as a value leaves 1 or 0. -/
theorem C45_value (w : World σ) (nt : NT) (L : Layout w nt) (e : Expr) (hw : Wf w nt .val e)
    (he : ¬ IsTerm e) (n : Nat) (P : List Instr) (pc : Nat) (hat : At P pc (codeOf nt e n))
    (st ar : List Word) (rg : Word) (s : σ) (ts : List Expr) (b : Bool) (s' : σ)
    (h : Sc w e s ts b s') :
    Steps w P ⟨pc, ⟨st, ar, rg, s⟩⟩
      ⟨pc + (codeOf nt e n).length, ⟨(if b then 1 else 0) :: st, ar, rg, s'⟩⟩ := by
  obtain ⟨v, hv, hb, hv'⟩ := h.eval
  obtain ⟨u, hu, hs⟩ := C44_value w nt L e hw P n pc hat st ar rg s _ _ hv
  simp only [List.cons.injEq, and_true] at hu
  rcases hv' with h | rfl
  · exact absurd h he
  · rw [← hu] at hs; exact hs

/-- The evaluation is unique, and there is one if the evaluation of the terms returns. -/
theorem C45_unique (w : World σ) {e s ts b s' ts' b' s''} (h : Sc w e s ts b s')
    (h' : Sc w e s ts' b' s'') : ts = ts' ∧ b = b' ∧ s' = s'' := by
  induction h generalizing ts' b' s'' with
  | term ht hv =>
    cases h' with
    | term _ hv' =>
      rw [hv] at hv'
      simp only [Option.some.injEq, Prod.mk.injEq, List.cons.injEq, and_true] at hv'
      exact ⟨rfl, by rw [hv'.1], hv'.2⟩
    | andF _ => exact absurd rfl (ht _ _).2
    | andT _ _ => exact absurd rfl (ht _ _).2
    | orT _ => exact absurd rfl (ht _ _).1
    | orF _ _ => exact absurd rfl (ht _ _).1
  | andF _ ih =>
    cases h' with
    | term ht _ => exact absurd rfl (ht _ _).2
    | andF h => exact ih h
    | andT h _ => exact absurd (ih h).2.1 (by decide)
  | andT _ _ ih ih' =>
    cases h' with
    | term ht _ => exact absurd rfl (ht _ _).2
    | andF h => exact absurd (ih h).2.1 (by decide)
    | andT h h' =>
      obtain ⟨rfl, -, rfl⟩ := ih h
      obtain ⟨rfl, rfl, rfl⟩ := ih' h'
      exact ⟨rfl, rfl, rfl⟩
  | orT _ ih =>
    cases h' with
    | term ht _ => exact absurd rfl (ht _ _).1
    | orT h => exact ih h
    | orF h _ => exact absurd (ih h).2.1 (by decide)
  | orF _ _ ih ih' =>
    cases h' with
    | term ht _ => exact absurd rfl (ht _ _).1
    | orT h => exact absurd (ih h).2.1 (by decide)
    | orF h h' =>
      obtain ⟨rfl, -, rfl⟩ := ih h
      obtain ⟨rfl, rfl, rfl⟩ := ih' h'
      exact ⟨rfl, rfl, rfl⟩

/-- Any condition whose evaluation returns has a short-circuit evaluation. -/
theorem C45_exists (w : World σ) (nt : NT) (e : Expr) (hw : Wf w nt .cond e) {s vs s'}
    (h : evalG w e s = some (vs, s')) : ∃ ts b, Sc w e s ts b s' :=
  Sc.exists hw (by decide) h

/-! ### Examples -/

/-- A world whose state is the list of called functions; an even function returns 0. -/
def logW : World (List Int) where
  read _ _ _ := 0
  write _ _ _ s := s
  load _ _ _ _ := 0
  store _ _ _ _ s := s
  call f _ s := some (if f % 2 = 0 then 0 else 1, s ++ [f])
  div0 _ := 0
  mod0 _ := 0

theorem logL : Layout logW exNT0 := ⟨rfl, rfl, fun _ _ _ _ _ => rfl, rfl, rfl, fun _ _ _ _ _ _ => rfl, rfl, rfl, fun _ _ _ _ => rfl⟩

/-- `((f1() && f2()) || f3()) && (f4() || f6())`: all terms but none twice; the value is false. -/
def exC : Expr := .bin .and (.bin .or (.bin .and (.func0 1) (.func0 2)) (.func0 3))
  (.bin .or (.func0 4) (.func0 8))

example : Wf logW exNT0 .cond exC := by simp [exC, Wf, exNT0]

example : Sc logW exC [] [.func0 1, .func0 2, .func0 3, .func0 4, .func0 8] false [1, 2, 3, 4, 8] := by
  have t : ∀ (f : Int) s, Sc logW (.func0 f) s [.func0 f] ((if f % 2 = 0 then 0 else 1 : Word) != 0)
      (s ++ [f]) := fun f s => .term (fun _ _ => ⟨nofun, nofun⟩) rfl
  exact .andT (.orF (.andT (t 1 _) (t 2 _)) (t 3 _)) (.orF (t 4 _) (t 8 _))

example : (genCnd exNT0 exC false ⟨none, 0⟩ 0).1 =
    [.callF 0 1, .jf 1, .callF 0 2, .jt 2, .lab 1, .callF 0 3, .jf 3, .lab 2, .callF 0 4, .jt 4,
      .callF 0 8, .jf 3, .lab 4] := by decide

/-- `f2() && f1() || f3()`: the second term is skipped. -/
example : Sc logW (.bin .or (.bin .and (.func0 2) (.func0 1)) (.func0 3)) [] [.func0 2, .func0 3]
    true [2, 3] := by
  have t : ∀ (f : Int) s, Sc logW (.func0 f) s [.func0 f] ((if f % 2 = 0 then 0 else 1 : Word) != 0)
      (s ++ [f]) := fun f s => .term (fun _ _ => ⟨nofun, nofun⟩) rfl
  exact .orF (.andF (t 2 _)) (t 3 _)

end Cmm.Gen
