import Verif.Gen.Main

/-
C44: the code for an expression computes the value and the effects of the expression.

The specification `Ev` (Verif/Gen/Order.lean) leaves the order of the operands of arithmetic
and comparison operators open. `C44_value` and `C44_permitted` together say that the code
pushes one word that is the value of the expression in one of the permitted orders;
`C44_diverges` that it waits for a function that does not return exactly if the evaluation in
that order does; `C44_effect` treats an expression used as a statement; `C44_pure` says that
the order does not matter without side effects.
-/
namespace Cmm.Gen
open Cmm.Tree Cmm.Opt

variable {σ : Type}

/-- The code of genExpr (vmCode.c:489) for `e`, labels counted from `n`. -/
def codeOf (nt : NT) (e : Expr) (n : Nat) : Code := (genE (gen nt e).bool n).1

/-- The code of an expression statement (vmCode.c:652-656). -/
def codeStmt (nt : NT) (e : Expr) (n : Nat) : Code :=
  ((gen nt e).bool n).1 ++ popP ((gen nt e).bool n).2.1

/-- Wherever the code stands in a program, it pushes the value and changes neither the rest of
the stack nor the argument area nor the return register. -/
theorem C44_value (w : World σ) (nt : NT) (L : Layout w nt) (e : Expr) (hw : Wf w nt .val e)
    (P : List Instr) (n pc : Nat) (hat : At P pc (codeOf nt e n)) (st ar : List Word) (rg : Word)
    (s : σ) (vs : List Word) (s' : σ) (h : evalG w e s = some (vs, s')) :
    ∃ v, vs = [v] ∧ Steps w P ⟨pc, ⟨st, ar, rg, s⟩⟩
      ⟨pc + (codeOf nt e n).length, ⟨v :: st, ar, rg, s'⟩⟩ := by
  have := (gen_ok (P := P) L e).val hw n pc hat st ar rg s
  rw [h] at this
  obtain ⟨c', hs, v, hv, rfl⟩ := this
  exact ⟨v, hv, hs⟩

/-- If the evaluation does not return from a call, the machine ends up in such a call. -/
theorem C44_diverges (w : World σ) (ht : w.Total) (nt : NT) (L : Layout w nt) (e : Expr) (hw : Wf w nt .val e)
    (P : List Instr) (n pc : Nat) (hat : At P pc (codeOf nt e n)) (st ar : List Word) (rg : Word)
    (s : σ) (h : evalG w e s = none) :
    ∃ c', Steps w P ⟨pc, ⟨st, ar, rg, s⟩⟩ c' ∧ Hung w P c' := by
  have := (gen_ok (P := P) L e).val hw n pc hat st ar rg s
  rw [h] at this
  exact this ht

/-- An expression statement has the effects and leaves the stack as it was, also when the
value is on the stack, is an address on the stack or does not exist. -/
theorem C44_effect (w : World σ) (nt : NT) (L : Layout w nt) (e : Expr) (hw : Wf w nt .void e)
    (P : List Instr) (n pc : Nat) (hat : At P pc (codeStmt nt e n)) (st ar : List Word) (rg : Word)
    (s : σ) (vs : List Word) (s' : σ) (h : evalG w e s = some (vs, s')) :
    Steps w P ⟨pc, ⟨st, ar, rg, s⟩⟩ ⟨pc + (codeStmt nt e n).length, ⟨st, ar, rg, s'⟩⟩ := by
  obtain ⟨h1, h2⟩ := at_append.1 hat
  have := (gen_ok (P := P) L e).bool hw n pc h1 st ar rg s
  rw [h] at this
  obtain ⟨c', hs, ext, rfl, hh⟩ := this
  have := hs.trans (pop_steps h2 hh st ar rg)
  rw [codeStmt, List.length_append, ← Nat.add_assoc]
  exact this

/-- Everything but a list has one value. -/
theorem evalG_single {w : World σ} {nt : NT} {m : Mode} {e : Expr} (hw : Wf w nt m e)
    (hm : m ≠ .args) {s vs s'} (h : evalG w e s = some (vs, s')) : ∃ v, vs = [v] := by
  have b1 : ∀ {o : Out σ} {f : Word → σ → Out σ}, bind1 o f = some (vs, s') →
      ∃ v s1, f v s1 = some (vs, s') := by
    intro o f h
    cases o with
    | none => cases h
    | some r => exact ⟨_, _, h⟩
  cases e with
  | cnst v => simp [evalP] at h; exact ⟨_, h.1.symm⟩
  | leaf k n => simp [evalP] at h; exact ⟨_, h.1.symm⟩
  | func0 f =>
    simp only [evalP, callD] at h
    cases hc : w.call f [] s with
    | none => rw [hc] at h; cases h
    | some r => rw [hc] at h; simp at h; exact ⟨_, h.1.symm⟩
  | func f a =>
    simp only [evalP, callD] at h
    cases ha : evalP w genSw a s with
    | none => rw [ha] at h; cases h
    | some q =>
      rw [ha] at h
      cases hc : w.call f q.1 q.2 with
      | none => simp only [hc] at h; cases h
      | some r => simp [hc] at h; exact ⟨_, h.1.symm⟩
  | un op e =>
    simp only [evalP, unD] at h
    obtain ⟨v, s1, h1⟩ := b1 h
    simp at h1; exact ⟨_, h1.1.symm⟩
  | assV k n r =>
    simp only [evalP, assVD] at h
    obtain ⟨v, s1, h1⟩ := b1 h
    simp at h1; exact ⟨_, h1.1.symm⟩
  | assM op a i r =>
    simp only [evalP, assMG] at h
    obtain ⟨v, s1, h1⟩ := b1 h
    obtain ⟨x, s2, h1⟩ := b1 h1
    obtain ⟨y, s3, h1⟩ := b1 h1
    simp at h1; exact ⟨_, h1.2.1.symm⟩
  | bin op l r =>
    by_cases ho : IsLog op
    · rw [evalG_log ho] at h
      rcases logD_01 _ _ _ h with h | h <;> exact ⟨_, h⟩
    · have hsemi : op ≠ .semi := by rintro rfl; exact hm hw.1
      simp only [evalP] at h
      split at h
      · unfold strictRL at h
        obtain ⟨v, s1, h1⟩ := b1 h
        obtain ⟨y, s3, h1⟩ := b1 h1
        simp at h1; exact ⟨_, h1.2.1.symm⟩
      · have : binG w op (evalG w l) (evalG w r) s =
            strictG (okB w op) (binVal w op) (evalG w l) (evalG w r) s := by
          cases op <;> first | rfl | exact absurd rfl hsemi | (exfalso; revert ho; simp [IsLog])
        rw [this] at h
        simp only [strictG] at h
        obtain ⟨v, s1, h1⟩ := b1 h
        obtain ⟨y, s3, h1⟩ := b1 h1
        simp at h1; exact ⟨_, h1.2.1.symm⟩

/-- The order of the code is one of the permitted ones. -/
theorem C44_permitted (w : World σ) (nt : NT) (e : Expr) : ∀ (m : Mode) (_ : Wf w nt m e) (s : σ)
    (vs : List Word) (s' : σ), evalG w e s = some (vs, s') → Ev w e s vs s' := by
  have inv : ∀ {o : Out σ} {f : Word → σ → Out σ} {vs s'}, bind1 o f = some (vs, s') →
      ∃ us s1, o = some (us, s1) ∧ f (us.headD 0) s1 = some (vs, s') := by
    intro o f vs s' h
    cases o with
    | none => cases h
    | some r => exact ⟨r.1, r.2, rfl, h⟩
  induction e with
  | cnst v => intro m _ s vs s' h; simp [evalP] at h; rw [← h.1, ← h.2]; exact .cnst
  | leaf k n => intro m _ s vs s' h; simp [evalP] at h; rw [← h.1, ← h.2]; exact .leaf
  | func0 f =>
    intro m _ s vs s' h
    simp only [evalP, callD] at h
    cases hc : w.call f [] s with
    | none => rw [hc] at h; cases h
    | some r => rw [hc] at h; simp at h; rw [← h.1, ← h.2]; exact .func0 hc
  | func f a ih =>
    intro m hw s vs s' h
    simp only [evalP, callD] at h
    cases ha : evalP w genSw a s with
    | none => rw [ha] at h; cases h
    | some q =>
      rw [ha] at h
      cases hc : w.call f q.1 q.2 with
      | none => simp only [hc] at h; cases h
      | some r => simp [hc] at h; rw [← h.1, ← h.2]; exact .func (ih _ hw.2 _ _ _ ha) hc
  | un op e ih =>
    intro m hw s vs s' h
    simp only [evalP, unD] at h
    obtain ⟨us, s1, h1, h2⟩ := inv h
    obtain ⟨v, rfl⟩ := evalG_single (m := .val) hw (by decide) h1
    simp at h2; rw [← h2.1, ← h2.2]
    exact .un (ih .val hw _ _ _ h1)
  | assV k n r ih =>
    intro m hw s vs s' h
    simp only [evalP, assVD] at h
    obtain ⟨us, s1, h1, h2⟩ := inv h
    obtain ⟨v, rfl⟩ := evalG_single hw.2 (by decide) h1
    simp at h2; rw [← h2.1, ← h2.2]
    exact .assV (ih .val hw.2 _ _ _ h1)
  | assM op a i r iha ihi ihr =>
    intro m hw s vs s' h
    obtain ⟨-, ha, hi, hr⟩ := hw
    simp only [evalP, assMG] at h
    obtain ⟨us, s1, h1, h2⟩ := inv h
    obtain ⟨v, rfl⟩ := evalG_single hr (by decide) h1
    obtain ⟨us, s2, h3, h2⟩ := inv h2
    obtain ⟨x, rfl⟩ := evalG_single ha (by decide) h3
    obtain ⟨us, s3, h4, h2⟩ := inv h2
    obtain ⟨y, rfl⟩ := evalG_single hi (by decide) h4
    simp at h2; rw [← h2.2.1, ← h2.2.2]
    exact .assM (ihr .val hr _ _ _ h1) (iha .val ha _ _ _ h3) (ihi .val hi _ _ _ h4)
  | bin op l r ihl ihr =>
    intro m hw s vs s' h
    by_cases hsemi : op = .semi
    · subst hsemi
      obtain ⟨hm, hl, hr⟩ := hw
      have h : semiD (evalG w l) (evalG w r) s = some (vs, s') := h
      unfold semiD at h
      cases h1 : evalG w r s with
      | none => rw [h1] at h; cases h
      | some q =>
        rw [h1] at h
        cases h2 : evalG w l q.2 with
        | none => simp only [h2] at h; cases h
        | some q2 =>
          simp [h2] at h
          rw [← h.1, ← h.2]
          exact .semi (ihr .val hr _ _ _ h1) (ihl .args hl _ _ _ h2)
    by_cases ho : IsLog op
    · have hl : Wf w nt .cond l := by rcases ho with rfl | rfl <;> exact hw.1
      have hr : ∃ m', m' ≠ .args ∧ Wf w nt m' r := by
        have hw2 : if m = .cond then Wf w nt .cond r else Wf w nt .val r ∧ ∀ s vs s',
            evalG w r s = some (vs, s') → vs = [0] ∨ vs = [1] := by
          rcases ho with rfl | rfl <;> exact hw.2
        split at hw2
        · exact ⟨_, by decide, hw2⟩
        · exact ⟨.val, by decide, hw2.1⟩
      obtain ⟨m', hm', hr⟩ := hr
      rcases ho with rfl | rfl
      · have h : orD (evalG w l) (evalG w r) s = some (vs, s') := h
        unfold orD at h
        obtain ⟨us, s1, h1, h2⟩ := inv h
        obtain ⟨x, rfl⟩ := evalG_single hl (by decide) h1
        have h1 := ihl _ hl _ _ _ h1
        by_cases hx : x = 0
        · rw [if_pos (show [x].headD 0 = 0 from hx)] at h2
          subst hx
          obtain ⟨us, s2, h3, h4⟩ := inv h2
          obtain ⟨y, rfl⟩ := evalG_single hr hm' h3
          simp at h4; rw [← h4.1, ← h4.2]
          exact .orF h1 (ihr _ hr _ _ _ h3)
        · rw [if_neg (show ¬ [x].headD 0 = 0 from hx)] at h2
          simp at h2; rw [← h2.1, ← h2.2]
          exact .orT h1 hx
      · have h : andD (evalG w l) (evalG w r) s = some (vs, s') := h
        unfold andD at h
        obtain ⟨us, s1, h1, h2⟩ := inv h
        obtain ⟨x, rfl⟩ := evalG_single hl (by decide) h1
        have h1 := ihl _ hl _ _ _ h1
        by_cases hx : x = 0
        · rw [if_pos (show [x].headD 0 = 0 from hx)] at h2
          subst hx
          simp at h2; rw [← h2.1, ← h2.2]
          exact .andF h1
        · rw [if_neg (show ¬ [x].headD 0 = 0 from hx)] at h2
          obtain ⟨us, s2, h3, h4⟩ := inv h2
          obtain ⟨y, rfl⟩ := evalG_single hr hm' h3
          simp at h4; rw [← h4.1, ← h4.2]
          exact .andT h1 hx (ihr _ hr _ _ _ h3)
    · -- operators that evaluate both operands
      have hst : Strict op = true := by
        cases op <;> first | rfl | exact absurd rfl hsemi | (exfalso; revert ho; simp [IsLog])
      have hlr : ∃ ml mr, ml ≠ .args ∧ mr ≠ .args ∧ Wf w nt ml l ∧ Wf w nt mr r := by
        cases op
        case comm =>
          refine ⟨.void, if m = .void then .void else .val, by decide, by split <;> decide, ?_⟩
          exact hw
        case dot =>
          obtain ⟨h1, idx, rfl, -, -⟩ := hw
          exact ⟨.val, .val, by decide, by decide, h1, trivial⟩
        case semi => exact absurd rfl hsemi
        case or => exact absurd (.inl rfl) ho
        case and => exact absurd (.inr rfl) ho
        all_goals exact ⟨.val, .val, by decide, by decide, hw⟩
      obtain ⟨ml, mr, hml, hmr, hl, hr⟩ := hlr
      simp only [evalP] at h
      split at h
      · rename_i hsw
        have hfree : Free op = true := by
          simp only [genSw, Bool.and_eq_true] at hsw
          have := hsw.1
          revert this
          cases op <;> decide
        unfold strictRL at h
        obtain ⟨us, s1, h1, h2⟩ := inv h
        obtain ⟨y, rfl⟩ := evalG_single hr hmr h1
        obtain ⟨us, s2, h3, h4⟩ := inv h2
        obtain ⟨x, rfl⟩ := evalG_single hl hml h3
        simp at h4; rw [← h4.2.1, ← h4.2.2]
        exact .rl hfree (ihr _ hr _ _ _ h1) (ihl _ hl _ _ _ h3)
      · have : binG w op (evalG w l) (evalG w r) s =
            strictG (okB w op) (binVal w op) (evalG w l) (evalG w r) s := by
          cases op <;> first | rfl | exact absurd rfl hsemi | (exfalso; revert ho; simp [IsLog])
        rw [this] at h
        simp only [strictG] at h
        obtain ⟨us, s1, h1, h2⟩ := inv h
        obtain ⟨x, rfl⟩ := evalG_single hl hml h1
        obtain ⟨us, s2, h3, h4⟩ := inv h2
        obtain ⟨y, rfl⟩ := evalG_single hr hmr h3
        simp at h4; rw [← h4.2.1, ← h4.2.2]
        exact .lr hst (ihl _ hl _ _ _ h1) (ihr _ hr _ _ _ h3)

/-- Without calls and assignments the state stays the same. -/
theorem evalP_still (w : World σ) (sw : Bin → Expr → Expr → Bool) (e : Expr) (hp : Pure e) (s : σ) :
    evalP w sw e s = none ∨ ∃ vs, evalP w sw e s = some (vs, s) := by
  induction e with
  | cnst v => exact .inr ⟨_, rfl⟩
  | leaf k n => exact .inr ⟨_, rfl⟩
  | func0 f => exact hp.elim
  | func f a _ => exact hp.elim
  | assV k n r _ => exact hp.elim
  | assM op a i r _ _ _ => exact hp.elim
  | un op e ih =>
    simp only [evalP, unD]
    rcases ih hp with h | ⟨vs, h⟩
    · rw [h]; exact .inl rfl
    · rw [h]; exact .inr ⟨_, rfl⟩
  | bin op l r ihl ihr =>
    have fin : ∀ (b : Bool) (v : List Word), (if b then some (v, s) else none) = (none : Out σ) ∨
        ∃ vs, (if b then some (v, s) else none) = some (vs, s) := by
      intro b v
      cases b
      · exact .inl rfl
      · exact .inr ⟨v, rfl⟩
    simp only [evalP]
    rcases ihl hp.1 with hl | ⟨us, hl⟩ <;> rcases ihr hp.2 with hr | ⟨vs, hr⟩ <;> split
    · exact .inl (by simp only [strictRL, hr, bind1])
    · exact .inl (by cases op <;> simp only [binG, strictG, andD, orD, semiD, hl, hr, bind1])
    · exact .inl (by simp only [strictRL, hl, hr, bind1])
    · exact .inl (by cases op <;> simp only [binG, strictG, andD, orD, semiD, hl, hr, bind1])
    · exact .inl (by simp only [strictRL, hr, bind1])
    · cases op
      case semi => exact .inl (by simp only [binG, semiD, hr])
      case and =>
        simp only [binG, andD, hl, hr, bind1]
        split
        · exact .inr ⟨_, rfl⟩
        · exact .inl rfl
      case or =>
        simp only [binG, orD, hl, hr, bind1]
        split
        · exact .inl rfl
        · exact .inr ⟨_, rfl⟩
      all_goals exact .inl (by simp only [binG, strictG, hl, hr, bind1])
    · simp only [strictRL, hl, hr, bind1]
      exact fin _ _
    · cases op
      case semi => exact .inr ⟨us ++ vs, by simp only [binG, semiD, hl, hr]⟩
      case and =>
        simp only [binG, andD, hl, hr, bind1]
        split <;> exact .inr ⟨_, rfl⟩
      case or =>
        simp only [binG, orD, hl, hr, bind1]
        split <;> exact .inr ⟨_, rfl⟩
      all_goals
        simp only [binG, strictG, hl, hr, bind1]
        exact fin _ _

/-- Without calls and assignments the order does not matter. -/
theorem C44_pure_guarded (w : World σ) (e : Expr) (hp : Pure e) : evalG w e = evalLR w e := by
  induction e with
  | cnst v => rfl
  | leaf k n => rfl
  | func0 f => exact hp.elim
  | func f a _ => exact hp.elim
  | un op e ih => have := ih hp; unfold evalG evalLR at this; simp only [evalP]; rw [this]
  | assV k n r _ => exact hp.elim
  | assM op a i r _ _ _ => exact hp.elim
  | bin op l r ihl ihr =>
    have h1 := ihl hp.1
    have h2 := ihr hp.2
    unfold evalG evalLR at h1 h2
    simp only [evalP, Bool.false_eq_true, if_false]
    rw [h1, h2]
    split
    · rename_i hsw
      have hop : binG w op (evalP w (fun _ _ _ => false) l) (evalP w (fun _ _ _ => false) r) =
          strictG (okB w op) (binVal w op) (evalP w (fun _ _ _ => false) l) (evalP w (fun _ _ _ => false) r) := by
        simp only [genSw, Bool.and_eq_true] at hsw
        have := hsw.1
        cases op <;> first | rfl | (exfalso; revert this; decide)
      rw [hop]
      funext s
      rcases evalP_still w (fun _ _ _ => false) l hp.1 s with hl | ⟨us, hl⟩ <;>
        rcases evalP_still w (fun _ _ _ => false) r hp.2 s with hr | ⟨vs, hr⟩ <;>
        simp only [strictRL, strictG, hl, hr, bind1]
    · rfl

/-- The same for worlds in which everything is defined. -/
theorem C44_pure (w : World σ) (ht : w.Total) (e : Expr) (hp : Pure e) : evalG w e = eval w e :=
  (C44_pure_guarded w e hp).trans (evalP_false w ht e)

/-- Wherever the code generator evaluates the right operand first, neither operand has side
effects. -/
def Ordered : Expr → Prop
  | .cnst _ | .leaf _ _ | .func0 _ => True
  | .func _ a => Ordered a
  | .un _ e => Ordered e
  | .bin op l r => (genSw op l r = true → Pure l ∧ Pure r) ∧ Ordered l ∧ Ordered r
  | .assV _ _ r => Ordered r
  | .assM _ a i r => Ordered a ∧ Ordered i ∧ Ordered r

/-- Then the code evaluates from left to right. -/
theorem C44_ordered_guarded (w : World σ) (e : Expr) (ho : Ordered e) : evalG w e = evalLR w e := by
  induction e with
  | cnst v => rfl
  | leaf k n => rfl
  | func0 f => rfl
  | func f a ih => have := ih ho; unfold evalG evalLR at this; simp only [evalP]; rw [this]
  | un op e ih => have := ih ho; unfold evalG evalLR at this; simp only [evalP]; rw [this]
  | assV k n r ih => have := ih ho; unfold evalG evalLR at this; simp only [evalP]; rw [this]
  | assM op a i r iha ihi ihr =>
    have h1 := iha ho.1
    have h2 := ihi ho.2.1
    have h3 := ihr ho.2.2
    unfold evalG evalLR at h1 h2 h3
    simp only [evalP]
    rw [h1, h2, h3]
  | bin op l r ihl ihr =>
    by_cases hs : genSw op l r = true
    · exact C44_pure_guarded w (.bin op l r) (ho.1 hs)
    · have h1 := ihl ho.2.1
      have h2 := ihr ho.2.2
      unfold evalG evalLR at h1 h2
      simp only [evalP, Bool.false_eq_true, if_false]
      rw [h1, h2, if_neg hs]

/-- The same for worlds in which everything is defined. -/
theorem C44_ordered (w : World σ) (ht : w.Total) (e : Expr) (ho : Ordered e) : evalG w e = eval w e :=
  (C44_ordered_guarded w e ho).trans (evalP_false w ht e)

/-- `f(a) + 1` is ordered. -/
example : Ordered (.bin .add (.func 5 (.leaf .loc 1)) (.cnst 1)) := by
  exact ⟨fun h => absurd h (by decide), trivial, trivial⟩

/-! ### Examples -/

/-- A name table in which function 6 is void and every field is the first. -/
def exNT0 : NT := ⟨fun _ => 0, fun f => f = 6⟩

/-- A memory indexed by numbers; function 8 does not return. -/
def exGW0 : World (Int → Word) where
  read _ n s := s n
  write _ n v s := fun m => if m = n then v else s m
  load op x y s := if op = .dot then s x.toNat else s (x.toNat + y.toNat)
  store op x y v s := fun m =>
    if m = (if op = .dot then (x.toNat : Int) else (x.toNat + y.toNat : Int)) then v else s m
  call f vs s := if f = 8 then none else some (vs.headD 0 + 1, fun m => if m = 0 then 9 else s m)
  div0 _ := 0
  mod0 _ := 0

theorem exLayout : Layout exGW0 exNT0 := by
  refine ⟨rfl, rfl, fun idx _ _ a s => ?_, rfl, rfl, fun idx _ _ a v s => ?_, rfl, rfl, fun _ _ _ _ => rfl⟩
  · simp [exGW0, exNT0]
  · simp [exGW0, exNT0]

/-- `x + f(1, y)`: the call is evaluated first. -/
example :
    let e := Expr.bin .add (.leaf .loc 3) (.func 5 (.bin .semi (.cnst 1) (.leaf .prm 4)))
    Wf exGW0 exNT0 .val e ∧
    codeOf exNT0 e 0 = [.ldP 4, .arg, .ldC 1, .arg, .callF 2 5, .ldL 3, .a2 .ADD] ∧
    (evalG exGW0 e fun _ => 10).map (·.1) = some [12] := by
  refine ⟨?_, by decide, by decide⟩
  simp [Wf, exNT0]

/-- `a[i] = p.f = x < y && z == 0, g()` with a void function `g` in a statement. -/
example :
    let c := Expr.bin .and (.bin .lt (.leaf .loc 1) (.leaf .loc 2))
      (.bin .equ (.leaf .loc 3) (.cnst 0))
    let e := Expr.bin .comm (.assM .idxb (.leaf .glb 7) (.leaf .loc 4)
      (.assM .dot (.leaf .loc 5) (.cnst 11) c)) (.func0 6)
    Wf exGW0 exNT0 .void e ∧
    codeStmt exNT0 e 0 = [.ldL 1, .ldL 2, .a2 .LT, .jf 2, .ldL 3, .ldC 0, .a2 .EQ,
      .jmp 1, .lab 2, .ldC 0, .lab 1, .ldL 5, .ldC 0, .stW, .ldG 7, .ldL 4, .stB, .pop,
      .callP 0 6] := by
  refine ⟨?_, by decide⟩
  simp only [Wf, exNT0]
  refine ⟨⟨by simp, by simp, by simp, ⟨by simp, by simp, trivial, ⟨by simp, by simp⟩, ?_⟩⟩, by simp⟩
  simp only [reduceCtorEq, if_false]
  refine ⟨⟨by simp, trivial⟩, fun s vs s' h => ?_⟩
  have h : some ([ofB (s 3 == 0)], s) = some (vs, s') := h
  simp only [Option.some.injEq, Prod.mk.injEq] at h
  rw [← h.1]
  cases s 3 == 0 <;> simp [ofB]

/-- A call that does not return. -/
example : evalG exGW0 (.bin .add (.cnst 1) (.func0 8)) (fun _ => 0) = none := by rfl

end Cmm.Gen
