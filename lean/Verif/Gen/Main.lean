import Verif.Gen.Log

/- The code of every well-formed expression is correct. -/
namespace Cmm.Gen
open Cmm.Tree

variable {σ : Type} {w : World σ} {P : List Instr} {nt : NT}

/-- How an expression is used: for its value, for its effects only, as an argument list, as a
condition. -/
inductive Mode | val | void | args | cond
deriving DecidableEq

/-- The trees that the parser builds from a program without type errors: void functions are
not used as values, lists occur only as arguments, the field of a structure is a constant,
the left side of an assignment is a variable, an array element or a field. The right operands
of && and || yield 0 or 1 when the value of the operator is stored or computed with. -/
def Wf (w : World σ) (nt : NT) : Mode → Expr → Prop
  | _, .cnst _ => True
  | _, .leaf k _ => k ≠ .size
  | m, .func0 f => nt.void f = true → m = .void
  | m, .func f a => (nt.void f = true → m = .void) ∧ Wf w nt .args a
  | _, .un _ e => Wf w nt .val e
  | m, .bin op l r =>
    match op with
    | .semi => m = .args ∧ Wf w nt .args l ∧ Wf w nt .val r
    | .comm => Wf w nt .void l ∧ Wf w nt (if m = .void then .void else .val) r
    | .dot => Wf w nt .val l ∧ ∃ idx, r = .cnst idx ∧ 0 ≤ idx ∧ idx < 500
    | .and | .or => Wf w nt .cond l ∧
        (if m = .cond then Wf w nt .cond r
         else Wf w nt .val r ∧ ∀ s vs s', evalG w r s = some (vs, s') → vs = [0] ∨ vs = [1])
    | _ => Wf w nt .val l ∧ Wf w nt .val r
  | _, .assV k _ r => (k = .loc ∨ k = .prm ∨ k = .glb) ∧ Wf w nt .val r
  | _, .assM op a i r => (op = .idxr ∨ op = .idxi ∨ op = .idxc ∨ op = .idxb ∨
        op = .dot ∧ ∃ idx, i = .cnst idx ∧ 0 ≤ idx ∧ idx < 500) ∧
      Wf w nt .val a ∧ Wf w nt .val i ∧ Wf w nt .val r

/-- The code of genArgs moves the values to the argument area. -/
def AOK (w : World σ) (P : List Instr) (a : Nat → Code × Nat × Nat) (d : Den σ) : Prop :=
  ∀ n pc, At P pc (a n).1 → ∀ st ar rg s,
    Runs w P ⟨pc, ⟨st, ar, rg, s⟩⟩ (d s) fun r c' =>
      r.1.length = (a n).2.1 ∧ c' = ⟨pc + (a n).1.length, ⟨st, r.1 ++ ar, rg, r.2⟩⟩

theorem argOne_ok {b : Nat → BRes} {d : Den σ} (h : VOK w P b d) : AOK w P (argOne b) d := by
  intro n pc hat st ar rg s
  simp only [argOne] at hat ⊢
  obtain ⟨h1, h2⟩ := at_append.1 hat
  have := h n pc h1 st ar rg s
  cases hd : d s with
  | none => rw [hd] at this; exact this
  | some r =>
    rw [hd] at this
    obtain ⟨c', hs, v, hv, rfl⟩ := this
    refine ⟨_, hs.trans (step1 h2 rfl), ?_, ?_⟩
    · simp [hv]
    · simp [hv, Nat.add_assoc]

theorem argMore_ok {gl : G} {br : Nat → BRes} {dl dr : Den σ} (hl : AOK w P gl.args dl)
    (hr : VOK w P br dr) : AOK w P (argMore gl br) (semiD dl dr) := by
  intro n pc hat st ar rg s
  simp only [argMore] at hat ⊢
  obtain ⟨h12, h3⟩ := at_append.1 hat
  obtain ⟨h1, h2⟩ := at_append.1 h12
  have := hr n pc h1 st ar rg s
  unfold semiD
  cases hd : dr s with
  | none => rw [hd] at this; exact this
  | some r =>
    rw [hd] at this
    obtain ⟨c', hs, v, hv, rfl⟩ := this
    have hs1 := hs.trans (step1 h2 rfl)
    rw [List.length_append, ← Nat.add_assoc] at h3
    have := hl _ _ h3 st (v :: ar) rg r.2
    obtain ⟨vr, s1⟩ := r
    simp only at hv hs1 this ⊢
    subst hv
    cases hd2 : dl s1 with
    | none =>
      rw [hd2] at this
      intro ht
      obtain ⟨c', h5, h6⟩ := this ht
      exact ⟨c', hs1.trans h5, h6⟩
    | some r2 =>
      rw [hd2] at this
      obtain ⟨c', h5, h6, rfl⟩ := this
      refine ⟨_, hs1.trans h5, ?_, ?_⟩
      · simp [h6]
      · simp [Nat.add_assoc, Nat.add_comm, Nat.add_left_comm]

theorem call_ok {a : Nat → Code × Nat × Nat} {d : Den σ} (h : AOK w P a d) (f : Int) :
    BOK w P (fun n => ((a n).1 ++ (callCode nt f (a n).2.1).1, (callCode nt f (a n).2.1).2,
      (a n).2.2)) (callD w f d) := by
  intro n pc hat st ar rg s
  obtain ⟨h1, h2⟩ := at_append.1 hat
  have := h n pc h1 st ar rg s
  unfold callD
  cases hd : d s with
  | none => rw [hd] at this; exact this
  | some r =>
    rw [hd] at this
    obtain ⟨c', hs, hlen, rfl⟩ := this
    obtain ⟨vs, s1⟩ := r
    simp only at hlen hs ⊢
    have ht : (vs ++ ar).take (a n).2.1 = vs := by rw [← hlen]; simp
    have hdr : (vs ++ ar).drop (a n).2.1 = ar := by rw [← hlen]; simp
    unfold callCode at h2 ⊢
    by_cases hv : nt.void f = true
    · simp only [hv, if_true] at h2 ⊢
      cases hc : w.call f vs s1 with
      | none =>
        exact fun _ => ⟨_, hs, (a n).2.1, f, .inr h2.head, by simp [ht, hc]⟩
      | some r =>
        refine ⟨_, hs.trans (step1 (d' := ⟨st, ar, rg, r.2⟩) h2 ?_), [], ?_, ?_⟩
        · simp [run, ht, hdr, hc]
        · simp [Nat.add_assoc]
        · exact ⟨⟨_, rfl⟩, rfl⟩
    · simp only [hv] at h2 ⊢
      cases hc : w.call f vs s1 with
      | none =>
        exact fun _ => ⟨_, hs, (a n).2.1, f, .inl h2.head, by simp [ht, hc]⟩
      | some r =>
        refine ⟨_, hs.trans (step1 (d' := ⟨r.1 :: st, ar, rg, r.2⟩) h2 ?_), [r.1], ?_, ?_⟩
        · simp [run, ht, hdr, hc]
        · simp [Nat.add_assoc]
        · exact ⟨_, rfl, rfl⟩

theorem Wf.val_of_cond {e : Expr} (h : Wf w nt .cond e) (hl : logOp e = none) :
    Wf w nt .val e := by
  cases e with
  | bin op l r => cases op <;> simp_all [Wf, logOp]
  | _ => simp_all [Wf]

theorem Wf.void_of_val {e : Expr} (h : Wf w nt .val e) : Wf w nt .void e := by
  induction e with
  | bin op l r ihl ihr =>
    cases op
    case or => exact h
    case and => exact h
    all_goals simp_all [Wf]
  | _ => simp_all [Wf]

theorem Wf.val_of_args {e : Expr} (h : Wf w nt .args e) (hs : ∀ l r, e ≠ .bin .semi l r) :
    Wf w nt .val e := by
  cases e with
  | bin op l r =>
    cases op
    case or => exact h
    case and => exact h
    all_goals simp_all [Wf]
  | _ => simp_all [Wf]

/-- Every part of the code of `e` is correct. -/
structure OK (w : World σ) (P : List Instr) (nt : NT) (e : Expr) : Prop where
  bool : Wf w nt .void e → BOK w P (gen nt e).bool (evalG w e)
  place : Wf w nt .val e → ∀ n, ((gen nt e).bool n).2.1 ≠ .inval
  args : Wf w nt .args e → AOK w P (gen nt e).args (evalG w e)
  log2 : Wf w nt .cond e → ∀ op, logOp e = some op → LOK2 w P op (gen nt e).log (evalG w e)
  log1 : Wf w nt .val e → ∀ op, logOp e = some op → LOK1 w P op (gen nt e).log (evalG w e)

theorem OK.val {e : Expr} (h : OK w P nt e) (hw : Wf w nt .val e) :
    VOK w P (gen nt e).bool (evalG w e) := (h.bool hw.void_of_val).val (h.place hw)

/-- The two-operand instruction computes the operator. -/
theorem binInstr_val {op : Bin} (h : binInstr op ≠ .bug) :
    ∃ o, binInstr op = .a2 o ∧ (∀ x y (s : σ), binVal w op x y s = a2Val w o x y) ∧ ∀ x y, okB w op x y = okA w o x y := by
  cases op <;> first | exact ⟨_, rfl, fun _ _ _ => rfl, fun _ _ => rfl⟩ | exact absurd rfl h

theorem cmpInstr_val {op : Bin} (h : cmpInstr false op ≠ .bug) :
    ∃ o, cmpInstr false op = .a2 o ∧ (∀ x y (s : σ), binVal w op x y s = a2Val w o x y) ∧ ∀ x y, okB w op x y = okA w o x y := by
  cases op <;> first
    | exact absurd rfl h
    | refine ⟨_, rfl, fun x y s => ?_, fun x y => rfl⟩
      simp only [binVal, a2Val]
      first
      | rw [BitVec.slt_eq_decide]
      | rw [BitVec.sle_eq_decide]
      | (by_cases e : x = y
         · subst e; simp
         · have h1 : (x == y) = false := by simpa using e
           have h2 : (x != y) = true := by simpa using e
           simp [e, h1, h2])

theorem cmpInstr_swap {op : Bin} (h : cmpInstr true op ≠ .bug) :
    ∃ o, cmpInstr true op = .a2 o ∧ (∀ x y (s : σ), binVal w op x y s = a2Val w o y x) ∧ ∀ x y, okB w op x y = okA w o y x := by
  cases op <;> first
    | exact absurd rfl h
    | refine ⟨_, rfl, fun x y s => ?_, fun x y => rfl⟩
      simp only [binVal, a2Val]
      first
      | rw [BitVec.slt_eq_decide]
      | rw [BitVec.sle_eq_decide]
      | (by_cases e : x = y
         · subst e; simp
         · have h1 : (x == y) = false := by simpa using e
           have h2 : (x != y) = true := by simpa using e
           simp [Ne.symm e, h1, h2])

/-- Commutative operators. -/
theorem binVal_comm {op : Bin} (h : isCommutativeOp op = true) (h' : binInstr op ≠ .bug)
    (x y : Word) (s : σ) : binVal w op x y s = binVal w op y x s := by
  cases op <;> first
    | exact absurd rfl h'
    | (exfalso; revert h; decide)
    | skip
  · exact BitVec.add_comm ..
  · exact BitVec.and_comm ..
  · exact BitVec.xor_comm ..
  · exact BitVec.or_comm ..
  · exact BitVec.mul_comm ..

theorem gen2_ok {op : Bin} (ho : binInstr op ≠ .bug) (hst : Strict op = true) {l r : Expr}
    {bl br : Nat → BRes} (hl : VOK w P bl (evalG w l)) (hr : VOK w P br (evalG w r)) :
    BOK w P (gen2OpExpr op (evalDepth l < evalDepth r) bl br) (evalG w (.bin op l r)) := by
  obtain ⟨o, h1, h2, h3⟩ := binInstr_val (w := w) ho
  unfold gen2OpExpr evalG
  by_cases hc : (isCommutativeOp op && decide (evalDepth l < evalDepth r)) = true
  · rw [if_pos hc, h1]
    simp only [evalP, genSw, hc, if_true]
    have hcm : isCommutativeOp op = true := by simp at hc; exact hc.1
    refine two_ok_rl hl hr (fun x y s => ?_) fun x y => ?_
    · rw [binVal_comm hcm ho, h2]
    · rw [← h3]
      cases op <;> first | rfl | (exfalso; revert hcm; decide)
  · rw [if_neg hc, h1]
    simp only [evalP, genSw, hc]
    have : binG w op (evalG w l) (evalG w r) = strictG (okB w op) (binVal w op) (evalG w l) (evalG w r) := by
      cases op <;> first | rfl | exact absurd rfl ho
    simp only [Bool.false_eq_true, if_false]
    rw [this]
    exact two_ok hl hr h2 h3

theorem genCmp_ok {op : Bin} (ho : cmpInstr false op ≠ .bug) {l r : Expr}
    {bl br : Nat → BRes} (hl : VOK w P bl (evalG w l)) (hr : VOK w P br (evalG w r)) :
    BOK w P (genCmpExpr op (evalDepth l < evalDepth r) bl br) (evalG w (.bin op l r)) := by
  have hcomm : isCommutativeOp op = true := by
    cases op <;> first | rfl | exact absurd rfl ho
  unfold genCmpExpr evalG
  by_cases hc : evalDepth l < evalDepth r
  · obtain ⟨o, h1, h2, h3⟩ := cmpInstr_swap (w := w) (op := op)
      (by cases op <;> first | exact absurd rfl ho | (intro h; cases h))
    simp only [hc, decide_true, if_true, evalP, genSw, hcomm, Bool.and_self, h1]
    exact two_ok_rl hl hr h2 h3
  · obtain ⟨o, h1, h2, h3⟩ := cmpInstr_val (w := w) ho
    simp only [hc, decide_false, Bool.false_eq_true, if_false, evalP, genSw, Bool.and_false, h1]
    have : binG w op (evalG w l) (evalG w r) = strictG (okB w op) (binVal w op) (evalG w l) (evalG w r) := by
      cases op <;> first | rfl | exact absurd rfl ho
    rw [this]
    exact two_ok hl hr h2 h3

theorem evalG_log {op : Bin} (ho : IsLog op) (l r : Expr) :
    evalG w (.bin op l r) = logD op (evalG w l) (evalG w r) := by
  rcases ho with rfl | rfl <;> rfl

theorem logD_01 {op : Bin} {a b : Den σ} (s : σ) (vs : List Word) (s' : σ)
    (h : logD op a b s = some (vs, s')) : vs = [0] ∨ vs = [1] := by
  have hB : ∀ c : Bool, ([ofB c] : List Word) = [0] ∨ ([ofB c] : List Word) = [1] := by
    intro c; cases c <;> simp [ofB]
  rw [logD_eq, bind1_eq] at h
  simp only [Option.bind_eq_some_iff] at h
  obtain ⟨r, -, h⟩ := h
  split at h
  · simp only [Option.some.injEq, Prod.mk.injEq] at h; rw [← h.1]; exact hB _
  · rw [bind1_eq] at h
    simp only [Option.bind_eq_some_iff, Option.some.injEq, Prod.mk.injEq] at h
    obtain ⟨r, -, h, -⟩ := h
    rw [← h]; exact hB _

theorem plain_ok {e : Expr} {b : Nat → BRes} (he : gen nt e = .plain b) (hlog : logOp e = none)
    (hsemi : ∀ l r, e ≠ .bin .semi l r) (hb : Wf w nt .void e → BOK w P b (evalG w e))
    (hp : Wf w nt .val e → ∀ n, (b n).2.1 ≠ .inval) : OK w P nt e := by
  refine ⟨fun h => ?_, fun h n => ?_, fun h => ?_, fun _ op h => ?_, fun _ op h => ?_⟩
  · rw [he]; exact hb h
  · rw [he]; exact hp h n
  · rw [he]
    have h := h.val_of_args hsemi
    exact argOne_ok ((hb h.void_of_val).val (hp h))
  · rw [hlog] at h; cases h
  · rw [hlog] at h; cases h

/-- && and ||. -/
theorem log_ok {op : Bin} (ho : IsLog op) {l r : Expr} (hl : OK w P nt l) (hr : OK w P nt r) :
    OK w P nt (.bin op l r) := by
  have hvl : Wf w nt .cond l → logOp l = none → VOK w P (gen nt l).bool (evalG w l) :=
    fun h h' => hl.val (h.val_of_cond h')
  have hgb : (gen nt (.bin op l r)).bool =
      genLOpExpr op (genLogExpr op (logOp l) (logOp r) (gen nt l) (gen nt r)) := by
    rcases ho with rfl | rfl <;> rfl
  have hgl : (gen nt (.bin op l r)).log =
      genLogExpr op (logOp l) (logOp r) (gen nt l) (gen nt r) := by
    rcases ho with rfl | rfl <;> rfl
  have hga : (gen nt (.bin op l r)).args = argOne (gen nt (.bin op l r)).bool := by
    rcases ho with rfl | rfl <;> rfl
  have hlo : logOp (.bin op l r) = some op := by rcases ho with rfl | rfl <;> rfl
  have wfv : ∀ m, m ≠ .cond → Wf w nt m (.bin op l r) → Wf w nt .cond l ∧ Wf w nt .val r ∧
      ∀ s vs s', evalG w r s = some (vs, s') → vs = [0] ∨ vs = [1] := by
    intro m hm h
    rcases ho with rfl | rfl <;> simpa [Wf, hm] using h
  have h1 : ∀ m, m ≠ .cond → Wf w nt m (.bin op l r) → LOK1 w P op
      (genLogExpr op (logOp l) (logOp r) (gen nt l) (gen nt r)) (evalG w (.bin op l r)) := by
    intro m hm h
    obtain ⟨h1, h2, h3⟩ := wfv m hm h
    rw [evalG_log ho]
    exact genLogExpr_ok1 ho (gen_keep nt l) (gen_keep nt r) (hl.log2 h1) (hvl h1) (hr.log1 h2)
      (fun _ => hr.val h2) (gen_alloc nt l) h3
  have hbok : ∀ m, m ≠ .cond → Wf w nt m (.bin op l r) →
      BOK w P (gen nt (.bin op l r)).bool (evalG w (.bin op l r)) := by
    intro m hm h
    rw [hgb]
    refine genLOp_ok ho (h1 m hm h) ?_ (genLogExpr_alloc (gen_keep nt l) (gen_keep nt r)
      (gen_alloc nt l) (gen_alloc nt r))
    rw [evalG_log ho]
    exact logD_01
  have hplace : ∀ n, ((gen nt (.bin op l r)).bool n).2.1 ≠ .inval := by
    intro n; rw [hgb]; simp [genLOpExpr]
  refine ⟨hbok .void (by decide), fun _ => hplace, fun h => ?_, fun h op' h' => ?_,
    fun h op' h' => ?_⟩
  · rw [hga]; exact argOne_ok ((hbok .args (by decide) h).val hplace)
  · rw [hlo] at h'; cases h'
    rw [hgl, evalG_log ho]
    have h : Wf w nt .cond l ∧ Wf w nt .cond r := by
      rcases ho with rfl | rfl <;> simpa [Wf] using h
    exact genLogExpr_ok2 ho (gen_keep nt l) (gen_keep nt r) (hl.log2 h.1) (hvl h.1) (hr.log2 h.2)
      (fun h' => hr.val (h.2.val_of_cond h'))
  · rw [hlo] at h'; cases h'
    rw [hgl]
    exact h1 .val (by decide) h

/-- Operators with a value, neither a list nor && nor ||. -/
theorem bin_ok {op : Bin} {l r : Expr} (h1 : ¬ IsLog op) (h2 : op ≠ .semi)
    (hb : Wf w nt .void (.bin op l r) →
      BOK w P (genBin nt op l r (gen nt l) (gen nt r)) (evalG w (.bin op l r)))
    (hp : Wf w nt .val (.bin op l r) → ∀ n, (genBin nt op l r (gen nt l) (gen nt r) n).2.1 ≠ .inval) :
    OK w P nt (.bin op l r) := by
  have hlo : logOp (.bin op l r) = none := by
    cases op <;> first | rfl | (exfalso; revert h1; simp [IsLog])
  refine ⟨hb, hp, fun h => ?_, fun _ op h => ?_, fun _ op h => ?_⟩
  · have h := h.val_of_args (by intro l r h; cases h; exact h2 rfl)
    have : (gen nt (.bin op l r)).args = argOne (genBin nt op l r (gen nt l) (gen nt r)) := by
      cases op <;> first | rfl | exact absurd rfl h2
    rw [this]
    exact argOne_ok ((hb h.void_of_val).val (hp h))
  · rw [hlo] at h; cases h
  · rw [hlo] at h; cases h

theorem genTwo_place (bl br : Nat → BRes) (i : Code) (p : Place) (n : Nat) :
    (genTwo bl br i p n).2.1 = p := rfl

theorem gen_ok (L : Layout w nt) (e : Expr) : OK w P nt e := by
  induction e with
  | cnst v =>
    exact plain_ok rfl rfl (by simp) (fun _ n pc _ st ar rg s => ⟨_, .refl, [], rfl, rfl, rfl⟩)
      (by simp)
  | leaf k v =>
    refine plain_ok rfl rfl (by simp) (fun h n pc hat st ar rg s => ?_) (fun h n => ?_)
    · cases k <;> first
        | exact absurd rfl h
        | exact ⟨_, .refl, [], rfl, rfl, rfl⟩
    · cases k <;> first
        | exact absurd rfl h
        | simp [leafPlace]
  | func0 f =>
    refine plain_ok rfl rfl (by simp) (fun h => ?_) (fun h n => ?_)
    · exact call_ok (a := fun n => ([], 0, n)) (nt := nt) (d := fun s => some ([], s))
        (fun n pc _ st ar rg s => ⟨_, .refl, rfl, rfl⟩) f
    · simp only [Wf] at h
      by_cases hv : nt.void f = true
      · exact absurd (h hv) (by decide)
      · simp [callCode, hv]
  | func f a ih =>
    refine plain_ok rfl rfl (by simp) (fun h => ?_) (fun h n => ?_)
    · exact call_ok (ih.args h.2) f
    · by_cases hv : nt.void f = true
      · exact absurd (h.1 hv) (by decide)
      · simp [callCode, hv]
  | un op e ih =>
    exact plain_ok rfl rfl (by simp) (fun h => un_ok (ih.val h) op) (by simp)
  | assV k v r ih =>
    exact plain_ok rfl rfl (by simp) (fun h => assV_ok (ih.val h.2) h.1) (by simp [genAsExpr])
  | assM op a i r iha ihi ihr =>
    refine plain_ok rfl rfl (by simp) (fun h => ?_) (by simp [genAsExpr])
    obtain ⟨ho, ha, hi, hr⟩ := h
    rcases ho with rfl | rfl | rfl | rfl | ⟨rfl, idx, rfl, h0, h5⟩
    · exact assM_ok (iha.val ha) (ihi.val hi) (ihr.val hr) L.stR L.okR (.inl ⟨rfl, rfl⟩)
    · exact assM_ok (iha.val ha) (ihi.val hi) (ihr.val hr) rfl rfl (.inl ⟨rfl, rfl⟩)
    · exact assM_ok (iha.val ha) (ihi.val hi) (ihr.val hr) rfl rfl (.inr ⟨rfl, rfl⟩)
    · exact assM_ok (iha.val ha) (ihi.val hi) (ihr.val hr) L.stB L.okB (.inr ⟨rfl, rfl⟩)
    · exact assDot_ok L (iha.val ha) (ihr.val hr) h0 h5 fun s => rfl
  | bin op l r ihl ihr =>
    cases op
    case or => exact log_ok (.inl rfl) ihl ihr
    case and => exact log_ok (.inr rfl) ihl ihr
    case semi =>
      refine ⟨fun h => absurd h.1 (by decide), fun h => absurd h.1 (by decide), fun h => ?_,
        fun h => absurd h.1 (by decide), fun h => absurd h.1 (by decide)⟩
      exact argMore_ok (ihl.args h.2.1) (ihr.val h.2.2)
    case comm =>
      refine bin_ok (by simp [IsLog]) (by decide) (fun h => ?_) (fun h n => ?_)
      · exact comm_ok (f := binVal w .comm) (fun _ _ _ => rfl) (ihl.bool h.1) (ihr.bool h.2)
      · exact ihr.place h.2 _
    case dot =>
      refine bin_ok (by simp [IsLog]) (by decide) (fun h => ?_) (fun h n => ?_)
      · obtain ⟨hl, idx, rfl, h0, h5⟩ := h
        exact dot_ok L (ihl.val hl) h0 h5 fun s => rfl
      · obtain ⟨hl, idx, rfl, h0, h5⟩ := h
        simp [genBin, genDotExpr]
    case idxr =>
      refine bin_ok (by simp [IsLog]) (by decide) (fun h => ?_) (fun h n => by simp [genBin, genTwo])
      exact idx_ok (ihl.val h.1) (ihr.val h.2) L.ldR L.okR (.inl ⟨rfl, rfl⟩)
    case idxi =>
      refine bin_ok (by simp [IsLog]) (by decide) (fun h => ?_) (fun h n => by simp [genBin, genTwo])
      exact idx_ok (ihl.val h.1) (ihr.val h.2) rfl rfl (.inl ⟨rfl, rfl⟩)
    case idxc =>
      refine bin_ok (by simp [IsLog]) (by decide) (fun h => ?_) (fun h n => by simp [genBin, genTwo])
      exact idx_ok (ihl.val h.1) (ihr.val h.2) rfl rfl (.inr ⟨rfl, rfl⟩)
    case idxb =>
      refine bin_ok (by simp [IsLog]) (by decide) (fun h => ?_) (fun h n => by simp [genBin, genTwo])
      exact idx_ok (ihl.val h.1) (ihr.val h.2) L.ldB L.okB (.inr ⟨rfl, rfl⟩)
    all_goals
      refine bin_ok (by simp [IsLog]) (by decide) (fun h => ?_) (fun h n => ?_)
      · have hl := ihl.val h.1
        have hr := ihr.val h.2
        first
        | exact gen2_ok (by decide) (by decide) hl hr
        | exact genCmp_ok (by decide) hl hr
      · simp only [genBin, gen2OpExpr, genCmpExpr]
        split <;> simp [genTwo]

/-- genCnd: the code jumps to `J` if the value of the condition is `tf`. -/
theorem genCnd_ok (L : Layout w nt) {e : Expr} (hw : Wf w nt .cond e) {tf : Bool} {J : Lab}
    (hJ : J.left = 0) {n pc pJ : Nat} (hat : At P pc (genCnd nt e tf J n).1)
    (hr : Res P (genCnd nt e tf J n).2.1 pJ) (st ar rg s) :
    Runs w P ⟨pc, ⟨st, ar, rg, s⟩⟩ (evalG w e s) fun r c' => ∃ v, r.1 = [v] ∧
      c' = ⟨if (v != 0) = tf then pJ else pc + (genCnd nt e tf J n).1.length,
        ⟨st, ar, rg, r.2⟩⟩ := by
  unfold genCnd at hat hr ⊢
  have ok := gen_ok (P := P) L e
  cases hl : logOp e with
  | none =>
    simp only [hl] at hat hr ⊢
    obtain ⟨h1, h2⟩ := at_append.1 hat
    have := ok.val (hw.val_of_cond hl) n pc h1 st ar rg s
    cases hd : evalG w e s with
    | none => rw [hd] at this; exact this
    | some r =>
      rw [hd] at this
      obtain ⟨c', hs, v, hv, rfl⟩ := this
      refine ⟨_, hs.trans (boolJmp_steps h2 hr v st ar rg _), v, hv, ?_⟩
      simp only [List.length_append, boolJmp_len, Nat.add_assoc]
  | some op =>
    have ho := logOp_isLog hl
    simp only [hl] at hat hr ⊢
    by_cases hc : (decide (op = .or) == tf) = true
    · simp only [hc, if_true] at hat hr ⊢
      obtain ⟨h1, h2⟩ := at_append.1 hat
      have := ok.log2 hw op hl 2 J ⟨none, 2⟩ n pc pJ
        (pc + ((gen nt e).log 2 J ⟨none, 2⟩ n).1.length) (le_refl _) (.inr ⟨rfl, by omega⟩) h1 hr
        (by intro k hk; rw [hk] at h2; exact h2.head) (by omega) (by simp) st ar rg s
      cases hd : evalG w e s with
      | none => rw [hd] at this; exact this
      | some r =>
        rw [hd] at this
        obtain ⟨c', hs, v, hv, rfl⟩ := this
        have htf : decide (op = .or) = tf := by simpa using hc
        by_cases hv' : (v != 0) = tf
        · refine ⟨_, hs, v, hv, ?_⟩
          simp only [tgt, htf, hv', if_true]
        · refine ⟨_, hs.trans ?_, v, hv, rfl⟩
          simp only [tgt, htf, hv', if_false, List.length_append, ← Nat.add_assoc]
          exact steps_printLab h2
    · simp only [hc, Bool.false_eq_true, if_false] at hat hr ⊢
      obtain ⟨h1, h2⟩ := at_append.1 hat
      have := ok.log2 hw op hl 2 ⟨none, 2⟩ J n pc
        (pc + ((gen nt e).log 2 ⟨none, 2⟩ J n).1.length) pJ (le_refl _) (.inl ⟨rfl, by omega⟩) h1
        (by intro k hk; rw [hk] at h2; exact h2.head) hr (by simp) (by omega) st ar rg s
      cases hd : evalG w e s with
      | none => rw [hd] at this; exact this
      | some r =>
        rw [hd] at this
        obtain ⟨c', hs, v, hv, rfl⟩ := this
        have htf : ¬ decide (op = .or) = tf := by simpa using hc
        by_cases hv' : (v != 0) = tf
        · have : ¬ (v != 0) = decide (op = .or) := by rw [hv']; exact fun h => htf h.symm
          refine ⟨_, hs, v, hv, ?_⟩
          rw [tgt, if_neg this, if_pos hv']
        · have : (v != 0) = decide (op = .or) := by
            revert hv' htf
            cases (v != 0) <;> cases tf <;> cases decide (op = .or) <;> simp
          refine ⟨_, hs.trans ?_, v, hv, rfl⟩
          simp only [tgt, this, if_true, htf, if_false, List.length_append, ← Nat.add_assoc]
          exact steps_printLab h2

end Cmm.Gen
