import Verif.Gen.Sound

/- Correctness of the jumping code for && and || (vmCode.c:376-453, 498-521). -/
namespace Cmm.Gen
open Cmm.Tree

variable {σ : Type} {w : World σ} {P : List Instr} {nt : NT}

/-- The label, if allocated, is at position `p`. -/
def Res (P : List Instr) (l : Lab) (p : Nat) : Prop :=
  ∀ k, l.no = some k → P[p]? = some (.lab k)

/-- Label numbers and depths survive. -/
def LKeep (l l' : Lab) : Prop := l'.left = l.left ∧ ∀ k, l.no = some k → l'.no = some k

theorem LKeep.refl (l : Lab) : LKeep l l := ⟨rfl, fun _ h => h⟩

theorem LKeep.trans {a b c : Lab} (h : LKeep a b) (h' : LKeep b c) : LKeep a c :=
  ⟨h'.1.trans h.1, fun k hk => h'.2 k (h.2 k hk)⟩

theorem LKeep.res {a b : Lab} (h : LKeep a b) {p : Nat} (hr : Res P b p) : Res P a p :=
  fun k hk => hr k (h.2 k hk)

def Keep (log : Nat → Lab → Lab → Nat → Code × Lab × Lab × Nat) : Prop :=
  ∀ left A B n, LKeep A (log left A B n).2.1 ∧ LKeep B (log left A B n).2.2.1

theorem boolJmp_keep (tf : Bool) (l : Lab) (n : Nat) : LKeep l (boolJmp tf l n).2.1 := by
  unfold boolJmp
  split
  · exact .refl _
  · rename_i h; exact ⟨rfl, fun k hk => by rw [h] at hk; cases hk⟩

theorem genLogL_keep {op : Bin} {lOp : Option Bin} {gl : G} (h : Keep gl.log) (left A n) :
    LKeep A (genLogL op lOp gl left A n).2.1 := by
  unfold genLogL
  cases lOp with
  | none => exact boolJmp_keep _ _ _
  | some lop =>
    by_cases ho : lop = op
    · simp only [ho, if_true]; exact (h _ _ _ _).1
    · simp only [ho, if_false]; exact (h _ _ _ _).2

theorem genLogR_keep {op : Bin} {rOp : Option Bin} {gr : G} (h : Keep gr.log) (left A B n) :
    LKeep A (genLogR op rOp gr left A B n).2.1 ∧ LKeep B (genLogR op rOp gr left A B n).2.2.1 := by
  unfold genLogR
  cases rOp with
  | none =>
    by_cases h2 : left ≥ 2
    · by_cases h3 : A.left = left
      · simp only [h2, h3, if_true]; exact ⟨.refl _, boolJmp_keep _ _ _⟩
      · simp only [h2, h3, if_true, if_false]; exact ⟨boolJmp_keep _ _ _, .refl _⟩
    · simp only [h2, if_false]; exact ⟨.refl _, .refl _⟩
  | some rop =>
    by_cases ho : rop = op
    · simp only [ho, if_true]; exact h _ _ _ _
    · simp only [ho, if_false]; exact ⟨(h _ _ _ _).2, (h _ _ _ _).1⟩

theorem genLogExpr_keep {op : Bin} {lOp rOp : Option Bin} {gl gr : G} (hl : Keep gl.log)
    (hr : Keep gr.log) : Keep (genLogExpr op lOp rOp gl gr) := by
  intro left A B n
  have h1 := genLogL_keep (op := op) (lOp := lOp) hl left A n
  have h2 := genLogR_keep (op := op) (rOp := rOp) hr left (genLogL op lOp gl left A n).2.1 B
    (genLogL op lOp gl left A n).2.2
  exact ⟨h1.trans h2.1, h2.2⟩

theorem plain_keep (b : Nat → BRes) : Keep (G.plain b).log := fun _ _ _ _ => ⟨.refl _, .refl _⟩

theorem gen_keep (nt : NT) (e : Expr) : Keep (gen nt e).log := by
  induction e with
  | bin op l r ihl ihr =>
    cases op <;> simp only [gen] <;>
      first
      | exact genLogExpr_keep ihl ihr
      | exact fun _ _ _ _ => ⟨.refl _, .refl _⟩
  | _ => exact plain_keep _

/-- Where a condition with value `v` continues: `pA` belongs to the value that decides the
operator. -/
def tgt (op : Bin) (v : Word) (pA pB : Nat) : Nat :=
  if (v != 0) = decide (op = .or) then pA else pB

/-- The label for a condition with value `v`. -/
def tgtL (op : Bin) (v : Word) (A B : Lab) : Lab := if (v != 0) = decide (op = .or) then A else B

/-- One of the two labels belongs to the end of the code (depth `left`), the other one is
further out. -/
def Lv (A B : Lab) (left : Nat) : Prop :=
  (A.left = left ∧ B.left < left) ∨ (B.left = left ∧ A.left < left)

/-- genLogExpr with left ≥ 2 jumps (or falls through) according to the value. -/
def LOK2 (w : World σ) (P : List Instr) (op : Bin)
    (log : Nat → Lab → Lab → Nat → Code × Lab × Lab × Nat) (d : Den σ) : Prop :=
  ∀ left A B n pc pA pB, 2 ≤ left → Lv A B left → At P pc (log left A B n).1 →
    Res P (log left A B n).2.1 pA → Res P (log left A B n).2.2.1 pB →
    (A.left = left → pA = pc + (log left A B n).1.length) →
    (B.left = left → pB = pc + (log left A B n).1.length) →
    ∀ st ar rg s, Runs w P ⟨pc, ⟨st, ar, rg, s⟩⟩ (d s) fun r c' =>
      ∃ v, r.1 = [v] ∧ c' = ⟨tgt op v pA pB, ⟨st, ar, rg, r.2⟩⟩

/-- genLogExpr with left = 1 jumps according to the value or leaves the value of the last term
on the stack. -/
def LOK1 (w : World σ) (P : List Instr) (op : Bin)
    (log : Nat → Lab → Lab → Nat → Code × Lab × Lab × Nat) (d : Den σ) : Prop :=
  ∀ A B n pc pA pB, Lv A B 1 → At P pc (log 1 A B n).1 →
    Res P (log 1 A B n).2.1 pA → Res P (log 1 A B n).2.2.1 pB →
    ∀ st ar rg s, Runs w P ⟨pc, ⟨st, ar, rg, s⟩⟩ (d s) fun r c' =>
      ∃ v, r.1 = [v] ∧ (c' = ⟨tgt op v pA pB, ⟨st, ar, rg, r.2⟩⟩ ∧
          (tgtL op v (log 1 A B n).2.1 (log 1 A B n).2.2.1).no.isSome ∨
        c' = ⟨pc + (log 1 A B n).1.length, ⟨v :: st, ar, rg, r.2⟩⟩)

theorem boolJmp_len (tf : Bool) (l : Lab) (n : Nat) : (boolJmp tf l n).1.length = 1 := by
  unfold boolJmp; split <;> rfl

/-- A conditional jump. -/
theorem boolJmp_steps {tf : Bool} {l : Lab} {n pc p : Nat} (h : At P pc (boolJmp tf l n).1)
    (hr : Res P (boolJmp tf l n).2.1 p) (v : Word) (st ar rg) (s : σ) :
    Steps w P ⟨pc, ⟨v :: st, ar, rg, s⟩⟩
      ⟨if (v != 0) = tf then p else pc + 1, ⟨st, ar, rg, s⟩⟩ := by
  have key : ∃ k, At P pc [if tf then Instr.jt k else .jf k] ∧ P[p]? = some (.lab k) := by
    unfold boolJmp at h hr
    cases hn : l.no with
    | some k => rw [hn] at h hr; exact ⟨k, h, hr k hn⟩
    | none => rw [hn] at h hr; exact ⟨n + 1, h, hr _ rfl⟩
  obtain ⟨k, h1, h2⟩ := key
  by_cases hv : v = 0
  · subst hv
    cases tf
    · exact (Step.jfF h1.head h2 rfl).steps
    · exact (Step.jtF h1.head rfl).steps
  · have : (v != 0) = true := by simpa using hv
    rw [this]
    cases tf
    · exact (Step.jfT h1.head hv).steps
    · exact (Step.jtT h1.head h2 hv).steps

/-- && or || of two computations. -/
def logD (op : Bin) (a b : Den σ) : Den σ := if op = .or then orD a b else andD a b

theorem logD_eq {op : Bin} (a b : Den σ) (s : σ) : logD op a b s =
    bind1 (a s) fun x s => if (x != 0) = decide (op = .or) then some ([ofB (decide (op = .or))], s)
      else bind1 (b s) fun y s => some ([ofB (y != 0)], s) := by
  unfold logD
  by_cases h : op = .or
  · simp only [h, if_true, orD, decide_true]
    congr 1
    funext x s
    by_cases hx : x = 0 <;> simp [hx, ofB]
  · simp only [h, if_false, andD, decide_false]
    congr 1
    funext x s
    by_cases hx : x = 0 <;> simp [hx, ofB]

theorem tgt_ofB (op : Bin) (b : Bool) (pA pB : Nat) :
    tgt op (ofB b) pA pB = if b = decide (op = .or) then pA else pB := by
  cases b <;> simp [tgt, ofB]

def IsLog (op : Bin) : Prop := op = .or ∨ op = .and

theorem logOp_isLog {e : Expr} {op : Bin} (h : logOp e = some op) : IsLog op := by
  unfold logOp at h; split at h <;> simp at h
  · exact .inl h.symm
  · exact .inr h.symm

theorem tgt_swap {op op' : Bin} (h : IsLog op) (h' : IsLog op') (hne : op' ≠ op) (v : Word)
    (a b : Nat) : tgt op' v b a = tgt op v a b := by
  rcases h with rfl | rfl <;> rcases h' with rfl | rfl <;> simp_all [tgt]

theorem tgtL_swap {op op' : Bin} (h : IsLog op) (h' : IsLog op') (hne : op' ≠ op) (v : Word)
    (a b : Lab) : tgtL op' v b a = tgtL op v a b := by
  rcases h with rfl | rfl <;> rcases h' with rfl | rfl <;> simp_all [tgtL]

/-- The first label is always allocated; so is the second one if the first one belongs to the
end of the code. -/
def Alloc (log : Nat → Lab → Lab → Nat → Code × Lab × Lab × Nat) : Prop :=
  ∀ left A B n, 1 ≤ left → (log left A B n).2.1.no.isSome ∧
    (2 ≤ left → A.left = left → (log left A B n).2.2.1.no.isSome)

theorem boolJmp_alloc (tf : Bool) (l : Lab) (n : Nat) : (boolJmp tf l n).2.1.no.isSome := by
  unfold boolJmp; split <;> simp_all

theorem isSome_keep {a b : Lab} (h : LKeep a b) (ha : a.no.isSome) : b.no.isSome := by
  obtain ⟨k, hk⟩ := Option.isSome_iff_exists.1 ha
  rw [h.2 k hk]; rfl

theorem genLogL_alloc {op lOp} {gl : G} (h : lOp.isSome → Alloc gl.log) (left A n) (h1 : 1 ≤ left) :
    (genLogL op lOp gl left A n).2.1.no.isSome := by
  unfold genLogL
  cases lOp with
  | none => exact boolJmp_alloc _ _ _
  | some lop =>
    by_cases heq : lop = op
    · simp only [heq, if_true]; exact (h rfl _ _ _ _ (by omega)).1
    · simp only [heq, if_false]
      exact (h rfl (left + 1) ⟨none, left + 1⟩ A n (by omega)).2 (by omega) rfl

theorem genLogExpr_alloc {op lOp rOp} {gl gr : G} (hkl : Keep gl.log) (hkr : Keep gr.log)
    (hl : lOp.isSome → Alloc gl.log) (hr : rOp.isSome → Alloc gr.log) :
    Alloc (genLogExpr op lOp rOp gl gr) := by
  intro left A B n h1
  have ha := genLogL_alloc (op := op) hl left A n h1
  have hk1 := genLogL_keep (op := op) (lOp := lOp) hkl left A n
  have hk2 := genLogR_keep (op := op) (rOp := rOp) hkr left (genLogL op lOp gl left A n).2.1 B
    (genLogL op lOp gl left A n).2.2
  refine ⟨isSome_keep hk2.1 ha, fun h2 hA => ?_⟩
  show (genLogR op rOp gr left (genLogL op lOp gl left A n).2.1 B
    (genLogL op lOp gl left A n).2.2).2.2.1.no.isSome
  unfold genLogR
  cases rOp with
  | none =>
    simp only [ge_iff_le, h2, if_true, hk1.1, hA]
    exact boolJmp_alloc _ _ _
  | some rop =>
    by_cases heq : rop = op
    · simp only [heq, if_true]
      exact (hr rfl _ _ _ _ h1).2 h2 (by rw [hk1.1, hA])
    · simp only [heq, if_false]
      exact (hr rfl _ _ _ _ h1).1

theorem gen_alloc (nt : NT) (e : Expr) (h : (logOp e).isSome) : Alloc (gen nt e).log := by
  induction e with
  | bin op l r ihl ihr =>
    cases op <;> simp only [gen] <;>
      first
      | exact genLogExpr_alloc (gen_keep nt l) (gen_keep nt r) ihl ihr
      | simp [logOp] at h
  | _ => simp [logOp] at h

/-- The left operand of genLogExpr. -/
theorem genLogL_ok {op : Bin} (ho : IsLog op) {l : Expr} {gl : G} {dl : Den σ}
    (hk : Keep gl.log) (hlog : ∀ lop, logOp l = some lop → LOK2 w P lop gl.log dl)
    (hval : logOp l = none → VOK w P gl.bool dl) {left : Nat} {A : Lab} {n pc pA : Nat}
    (h1 : 1 ≤ left) (hA : A.left ≤ left)
    (hat : At P pc (genLogL op (logOp l) gl left A n).1)
    (hr : Res P (genLogL op (logOp l) gl left A n).2.1 pA) (st ar rg s) :
    Runs w P ⟨pc, ⟨st, ar, rg, s⟩⟩ (dl s) fun r c' => ∃ v, r.1 = [v] ∧
      c' = ⟨if (v != 0) = decide (op = .or) then pA
        else pc + (genLogL op (logOp l) gl left A n).1.length, ⟨st, ar, rg, r.2⟩⟩ := by
  unfold genLogL at hat hr ⊢
  cases hl : logOp l with
  | none =>
    simp only [hl] at hat hr ⊢
    obtain ⟨h2, h3⟩ := at_append.1 hat
    have := hval hl n pc h2 st ar rg s
    cases hd : dl s with
    | none => rw [hd] at this; exact this
    | some r =>
      rw [hd] at this
      obtain ⟨c', hs, v, hv, rfl⟩ := this
      refine ⟨_, hs.trans (boolJmp_steps h3 hr v st ar rg _), v, hv, ?_⟩
      simp only [List.length_append, boolJmp_len, Nat.add_assoc]
  | some lop =>
    simp only [hl] at hat hr ⊢
    by_cases heq : lop = op
    · subst heq
      simp only [if_true] at hat hr ⊢
      obtain ⟨h2, h3⟩ := at_append.1 hat
      set R := gl.log (left + 1) A ⟨none, left + 1⟩ n with hR
      have := hlog lop hl (left + 1) A ⟨none, left + 1⟩ n pc pA (pc + R.1.length) (by omega)
        (.inr ⟨rfl, by omega⟩) h2 hr ?_ (by omega) (by simp [hR]) st ar rg s
      · cases hd : dl s with
        | none => rw [hd] at this; exact this
        | some r =>
          rw [hd] at this
          obtain ⟨c', hs, v, hv, rfl⟩ := this
          by_cases hc : (v != 0) = decide (lop = .or)
          · refine ⟨_, hs, v, hv, ?_⟩
            simp only [tgt, hc, if_true]
          · refine ⟨_, hs.trans ?_, v, hv, rfl⟩
            simp only [tgt, hc, if_false, List.length_append, ← Nat.add_assoc]
            exact steps_printLab h3
      · intro k hk'
        rw [← hR] at hk'
        rw [hk'] at h3
        exact h3.head
    · simp only [heq, if_false] at hat hr ⊢
      obtain ⟨h2, h3⟩ := at_append.1 hat
      set R := gl.log (left + 1) ⟨none, left + 1⟩ A n with hR
      have := hlog lop hl (left + 1) ⟨none, left + 1⟩ A n pc (pc + R.1.length) pA (by omega)
        (.inl ⟨rfl, by omega⟩) h2 ?_ hr (by simp [hR]) (by omega) st ar rg s
      · cases hd : dl s with
        | none => rw [hd] at this; exact this
        | some r =>
          rw [hd] at this
          obtain ⟨c', hs, v, hv, rfl⟩ := this
          rw [tgt_swap ho (logOp_isLog hl) heq] at hs
          by_cases hc : (v != 0) = decide (op = .or)
          · refine ⟨_, hs, v, hv, ?_⟩
            simp only [tgt, hc, if_true]
          · refine ⟨_, hs.trans ?_, v, hv, rfl⟩
            simp only [tgt, hc, if_false, List.length_append, ← Nat.add_assoc]
            exact steps_printLab h3
      · intro k hk'
        rw [← hR] at hk'
        rw [hk'] at h3
        exact h3.head

/-- The right operand of genLogExpr, left ≥ 2. -/
theorem genLogR_ok2 {op : Bin} (ho : IsLog op) {r : Expr} {gr : G} {dr : Den σ}
    (hlog : ∀ rop, logOp r = some rop → LOK2 w P rop gr.log dr)
    (hval : logOp r = none → VOK w P gr.bool dr) :
    LOK2 w P op (genLogR op (logOp r) gr) dr := by
  intro left A B n pc pA pB h2 hlv hat hrA hrB hpA hpB st ar rg s
  unfold genLogR at hat hrA hrB hpA hpB
  cases hl : logOp r with
  | some rop =>
    simp only [hl] at hat hrA hrB hpA hpB
    by_cases heq : rop = op
    · subst heq
      simp only [if_true] at hat hrA hrB hpA hpB
      exact hlog _ hl left A B n pc pA pB h2 hlv hat hrA hrB hpA hpB st ar rg s
    · simp only [heq, if_false] at hat hrA hrB hpA hpB
      have := hlog _ hl left B A n pc pB pA h2 hlv.symm hat hrB hrA hpB hpA st ar rg s
      refine this.mono ?_
      rintro x c' - ⟨v, hv, rfl⟩
      exact ⟨v, hv, by rw [tgt_swap ho (logOp_isLog hl) heq]⟩
  | none =>
    simp only [hl, ge_iff_le, h2, if_true] at hat hrA hrB hpA hpB
    by_cases hA : A.left = left
    · simp only [hA, if_true] at hat hrA hrB hpA hpB
      obtain ⟨h3, h4⟩ := at_append.1 hat
      have := hval hl n pc h3 st ar rg s
      cases hd : dr s with
      | none => rw [hd] at this; exact this
      | some x =>
        rw [hd] at this
        obtain ⟨c', hs, v, hv, rfl⟩ := this
        refine ⟨_, hs.trans (boolJmp_steps h4 hrB v st ar rg _), v, hv, ?_⟩
        have e : pA = pc + (genE gr.bool n).1.length + 1 := by
          rw [hpA trivial, List.length_append, boolJmp_len, Nat.add_assoc]
        unfold tgt
        congr 1
        rw [e]
        rcases ho with rfl | rfl <;> cases hv : (v != 0) <;> simp
    · simp only [hA, if_false] at hat hrA hrB hpA hpB
      have hB : B.left = left := by
        rcases hlv with h | h
        · exact absurd h.1 hA
        · exact h.1
      obtain ⟨h3, h4⟩ := at_append.1 hat
      have := hval hl n pc h3 st ar rg s
      cases hd : dr s with
      | none => rw [hd] at this; exact this
      | some x =>
        rw [hd] at this
        obtain ⟨c', hs, v, hv, rfl⟩ := this
        refine ⟨_, hs.trans (boolJmp_steps h4 hrA v st ar rg _), v, hv, ?_⟩
        have e : pB = pc + (genE gr.bool n).1.length + 1 := by
          rw [hpB hB, List.length_append, boolJmp_len, Nat.add_assoc]
        unfold tgt
        rw [e]

/-- The right operand of genLogExpr, left = 1. -/
theorem genLogR_ok1 {op : Bin} (ho : IsLog op) {r : Expr} {gr : G} {dr : Den σ}
    (hlog : ∀ rop, logOp r = some rop → LOK1 w P rop gr.log dr)
    (hval : logOp r = none → VOK w P gr.bool dr) :
    LOK1 w P op (genLogR op (logOp r) gr) dr := by
  intro A B n pc pA pB hlv hat hrA hrB st ar rg s
  unfold genLogR at hat hrA hrB ⊢
  cases hl : logOp r with
  | some rop =>
    simp only [hl] at hat hrA hrB ⊢
    by_cases heq : rop = op
    · subst heq
      simp only [if_true] at hat hrA hrB ⊢
      exact hlog _ hl A B n pc pA pB hlv hat hrA hrB st ar rg s
    · simp only [heq, if_false] at hat hrA hrB ⊢
      have := hlog _ hl B A n pc pB pA hlv.symm hat hrB hrA st ar rg s
      refine this.mono ?_
      rintro x c' - ⟨v, hv, h⟩
      refine ⟨v, hv, ?_⟩
      rw [tgt_swap ho (logOp_isLog hl) heq, tgtL_swap ho (logOp_isLog hl) heq] at h
      exact h
  | none =>
    simp only [hl, show ¬ (1 ≥ 2) by omega, if_false] at hat hrA hrB ⊢
    exact (hval hl n pc hat st ar rg s).mono fun x c' _ ⟨v, hv, h⟩ => ⟨v, hv, .inr h⟩

/-- Both operands, left ≥ 2. -/
theorem genLogExpr_ok2 {op : Bin} (ho : IsLog op) {l r : Expr} {gl gr : G} {dl dr : Den σ}
    (hkl : Keep gl.log) (hkr : Keep gr.log)
    (hlogl : ∀ lop, logOp l = some lop → LOK2 w P lop gl.log dl)
    (hvall : logOp l = none → VOK w P gl.bool dl)
    (hlogr : ∀ rop, logOp r = some rop → LOK2 w P rop gr.log dr)
    (hvalr : logOp r = none → VOK w P gr.bool dr) :
    LOK2 w P op (genLogExpr op (logOp l) (logOp r) gl gr) (logD op dl dr) := by
  intro left A B n pc pA pB h2 hlv hat hrA hrB hpA hpB st ar rg s
  have hat' : At P pc ((genLogL op (logOp l) gl left A n).1 ++
    (genLogR op (logOp r) gr left (genLogL op (logOp l) gl left A n).2.1 B
      (genLogL op (logOp l) gl left A n).2.2).1) := hat
  obtain ⟨h3, h4⟩ := at_append.1 hat'
  have hk1 := genLogL_keep (op := op) (lOp := logOp l) hkl left A n
  have hk2 := genLogR_keep (op := op) (rOp := logOp r) hkr left
    (genLogL op (logOp l) gl left A n).2.1 B (genLogL op (logOp l) gl left A n).2.2
  have hlen : (genLogExpr op (logOp l) (logOp r) gl gr left A B n).1.length =
    (genLogL op (logOp l) gl left A n).1.length +
    (genLogR op (logOp r) gr left (genLogL op (logOp l) gl left A n).2.1 B
      (genLogL op (logOp l) gl left A n).2.2).1.length := by
    simp [genLogExpr]
  rw [logD_eq]
  refine (genLogL_ok ho hkl hlogl hvall (pA := pA) (by omega) ?_ h3 (hk2.1.res hrA)
    st ar rg s).bind1 ?_
  · rcases hlv with h | h <;> omega
  rintro vs s1 c' - ⟨x, hx, rfl⟩
  cases hx
  simp only [List.headD_cons]
  by_cases hc : (x != 0) = decide (op = .or)
  · simp only [hc, if_true]
    refine Runs.ret ⟨_, rfl, ?_⟩
    rw [tgt_ofB, if_pos rfl]
  · simp only [hc, if_false]
    refine (genLogR_ok2 ho hlogr hvalr left _ B _ _ pA pB h2 ?_ h4 hrA hrB ?_ ?_
      st ar rg s1).bind1 ?_
    · unfold Lv at hlv ⊢; rw [hk1.1]; exact hlv
    · intro h; rw [hk1.1] at h; rw [hpA h, hlen, Nat.add_assoc]
    · intro h; rw [hpB h, hlen, Nat.add_assoc]
    · rintro us s2 c' - ⟨y, hy, rfl⟩
      cases hy
      refine Runs.ret ⟨_, rfl, ?_⟩
      rw [tgt_ofB]; rfl

/-- Both operands, left = 1. -/
theorem genLogExpr_ok1 {op : Bin} (ho : IsLog op) {l r : Expr} {gl gr : G} {dl dr : Den σ}
    (hkl : Keep gl.log) (hkr : Keep gr.log)
    (hlogl : ∀ lop, logOp l = some lop → LOK2 w P lop gl.log dl)
    (hvall : logOp l = none → VOK w P gl.bool dl)
    (hlogr : ∀ rop, logOp r = some rop → LOK1 w P rop gr.log dr)
    (hvalr : logOp r = none → VOK w P gr.bool dr)
    (hal : (logOp l).isSome → Alloc gl.log)
    (hb : ∀ s vs s', dr s = some (vs, s') → vs = [0] ∨ vs = [1]) :
    LOK1 w P op (genLogExpr op (logOp l) (logOp r) gl gr) (logD op dl dr) := by
  intro A B n pc pA pB hlv hat hrA hrB st ar rg s
  have hat' : At P pc ((genLogL op (logOp l) gl 1 A n).1 ++
    (genLogR op (logOp r) gr 1 (genLogL op (logOp l) gl 1 A n).2.1 B
      (genLogL op (logOp l) gl 1 A n).2.2).1) := hat
  obtain ⟨h3, h4⟩ := at_append.1 hat'
  have hk1 := genLogL_keep (op := op) (lOp := logOp l) hkl 1 A n
  have hk2 := genLogR_keep (op := op) (rOp := logOp r) hkr 1
    (genLogL op (logOp l) gl 1 A n).2.1 B (genLogL op (logOp l) gl 1 A n).2.2
  have hlen : (genLogExpr op (logOp l) (logOp r) gl gr 1 A B n).1.length =
    (genLogL op (logOp l) gl 1 A n).1.length +
    (genLogR op (logOp r) gr 1 (genLogL op (logOp l) gl 1 A n).2.1 B
      (genLogL op (logOp l) gl 1 A n).2.2).1.length := by
    simp [genLogExpr]
  rw [logD_eq]
  refine (genLogL_ok ho hkl hlogl hvall (pA := pA) (by omega) ?_ h3 (hk2.1.res hrA)
    st ar rg s).bind1 ?_
  · rcases hlv with h | h <;> omega
  rintro vs s1 c' - ⟨x, hx, rfl⟩
  cases hx
  simp only [List.headD_cons]
  by_cases hc : (x != 0) = decide (op = .or)
  · simp only [hc, if_true]
    refine Runs.ret ⟨_, rfl, .inl ⟨?_, ?_⟩⟩
    · rw [tgt_ofB, if_pos rfl]
    · have : tgtL op (ofB (decide (op = .or))) (genLogExpr op (logOp l) (logOp r) gl gr 1 A B n).2.1
          (genLogExpr op (logOp l) (logOp r) gl gr 1 A B n).2.2.1 =
          (genLogExpr op (logOp l) (logOp r) gl gr 1 A B n).2.1 := by
        unfold tgtL
        rw [if_pos]
        cases decide (op = .or) <;> rfl
      rw [this]
      exact isSome_keep hk2.1 (genLogL_alloc hal 1 A n (le_refl _))
  · simp only [hc, if_false]
    refine (genLogR_ok1 ho hlogr hvalr _ B _ _ pA pB ?_ h4 hrA hrB st ar rg s1).bind1 ?_
    · unfold Lv at hlv ⊢; rw [hk1.1]; exact hlv
    · rintro us s2 c' hd ⟨y, hy, h⟩
      cases hy
      have hy : ofB (y != 0) = y := by
        rcases hb _ _ _ hd with h | h <;> cases h <;> decide
      refine Runs.ret ⟨_, rfl, ?_⟩
      simp only [List.headD_cons, hy]
      rcases h with ⟨rfl, h⟩ | rfl
      · exact .inl ⟨rfl, h⟩
      · right; rw [hlen, Nat.add_assoc]

/-- genLOpExpr: the value of && and || on the stack. -/
theorem genLOp_ok {op : Bin} (ho : IsLog op)
    {log : Nat → Lab → Lab → Nat → Code × Lab × Lab × Nat} {d : Den σ}
    (h : LOK1 w P op log d) (hb : ∀ s vs s', d s = some (vs, s') → vs = [0] ∨ vs = [1])
    (hA : Alloc log) : BOK w P (genLOpExpr op log) d := by
  intro n pc hat st ar rg s
  simp only [genLOpExpr] at hat ⊢
  set R := log 1 ⟨none, 1⟩ ⟨none, 0⟩ (n + 1) with hR
  obtain ⟨k1, hk1⟩ := Option.isSome_iff_exists.1 (hA 1 ⟨none, 1⟩ ⟨none, 0⟩ (n + 1) (le_refl _)).1
  rw [← hR] at hk1
  obtain ⟨h1, h2⟩ := at_append.1 hat
  set x : Int := if op = .or then 1 else 0 with hx
  set q := pc + R.1.length with hq
  -- the value belonging to a jump
  have hxA : ∀ v : Word, v = 0 ∨ v = 1 → (v != 0) = decide (op = .or) → BitVec.ofInt 16 x = v := by
    intro v hv hv'
    rcases hv with rfl | rfl <;> rcases ho with rfl | rfl <;> simp_all
  have hxB : ∀ v : Word, v = 0 ∨ v = 1 → ¬ (v != 0) = decide (op = .or) →
      BitVec.ofInt 16 (1 - x) = v := by
    intro v hv hv'
    rcases hv with rfl | rfl <;> rcases ho with rfl | rfl <;> simp_all
  have h01 : ∀ s r v, d s = some r → r.1 = [v] → v = 0 ∨ v = 1 := by
    rintro s ⟨vs, s'⟩ v hd hv
    rcases hb _ _ _ hd with h | h <;> simp_all
  cases hk2 : R.2.2.1.no with
  | none =>
    have hlen : (boolMacro x R.2.1.no none (n + 1)).length = 4 := by rw [hk1]; rfl
    rw [List.length_append, hlen, ← Nat.add_assoc, ← hq]
    rw [hk1, hk2] at h2
    have h2 : At P q [.jmp (n + 1), .lab k1, .ldC x, .lab (n + 1)] := h2
    have hrun := h ⟨none, 1⟩ ⟨none, 0⟩ (n + 1) pc (q + 1) 0 (.inl ⟨rfl, by decide⟩) h1
      (by rw [← hR]; intro k hk; rw [hk1] at hk; cases hk; exact h2.tail.head)
      (by rw [← hR]; intro k hk; rw [hk2] at hk; cases hk) st ar rg s
    cases hd : d s with
    | none => rw [hd] at hrun; exact hrun
    | some r =>
      rw [hd] at hrun
      obtain ⟨c', hs, v, hv, hc⟩ := hrun
      have hv01 := h01 _ _ _ hd hv
      rcases hc with ⟨rfl, hal⟩ | rfl
      · by_cases hc : (v != 0) = decide (op = .or)
        · simp only [tgt, hc, if_true] at hs
          refine ⟨_, hs.trans (((step1 h2.tail rfl).trans (step1 h2.tail.tail rfl)).trans
            (step1 h2.tail.tail.tail rfl)), [v], ?_, v, hv, rfl⟩
          simp [hxA v hv01 hc]
        · simp only [tgtL, hc, if_false] at hal
          rw [← hR, hk2] at hal
          cases hal
      · refine ⟨_, hs.trans ((Step.jmp h2.head h2.tail.tail.tail.head).steps.trans
          (step1 h2.tail.tail.tail rfl)), [v], rfl, v, hv, rfl⟩
  | some k2 =>
    have hlen : (boolMacro x R.2.1.no (some k2) (n + 1)).length = 7 := by rw [hk1]; rfl
    rw [List.length_append, hlen, ← Nat.add_assoc, ← hq]
    rw [hk1, hk2] at h2
    have h2 : At P q [.jmp (n + 1), .lab k1, .ldC x, .jmp (n + 1), .lab k2, .ldC (1 - x),
      .lab (n + 1)] := h2
    have h5 := h2.tail.tail.tail.tail
    have h7 := h5.tail.tail
    have hrun := h ⟨none, 1⟩ ⟨none, 0⟩ (n + 1) pc (q + 1) (q + 4) (.inl ⟨rfl, by decide⟩) h1
      (by rw [← hR]; intro k hk; rw [hk1] at hk; cases hk; exact h2.tail.head)
      (by rw [← hR]; intro k hk; rw [hk2] at hk; cases hk; exact h5.head) st ar rg s
    cases hd : d s with
    | none => rw [hd] at hrun; exact hrun
    | some r =>
      rw [hd] at hrun
      obtain ⟨c', hs, v, hv, hc⟩ := hrun
      have hv01 := h01 _ _ _ hd hv
      rcases hc with ⟨rfl, -⟩ | rfl
      · by_cases hc : (v != 0) = decide (op = .or)
        · simp only [tgt, hc, if_true] at hs
          refine ⟨_, hs.trans (((step1 h2.tail rfl).trans (step1 h2.tail.tail rfl)).trans
            ((Step.jmp h2.tail.tail.tail.head h7.head).steps.trans (step1 h7 rfl))), [v], ?_,
            v, hv, rfl⟩
          simp [hxA v hv01 hc]
        · simp only [tgt, hc, if_false] at hs
          refine ⟨_, hs.trans (((step1 h5 rfl).trans (step1 h5.tail rfl)).trans (step1 h7 rfl)),
            [v], ?_, v, hv, rfl⟩
          simp [hxB v hv01 hc]
      · exact ⟨_, hs.trans ((Step.jmp h2.head h7.head).steps.trans (step1 h7 rfl)), [v], rfl,
          v, hv, rfl⟩

end Cmm.Gen
