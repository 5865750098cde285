import Verif.Props.C50

/-
C51: on every path through the code of an expression the hardware stack is popped as often as it was
pushed.

False in two ways. A value that is spilled by a call in the right operand of && or || is not spilled on
the path that skips the call, but popped on both (`C51_skip_false`). A comparison with 0 that is left
out (vm2tac.c:755) forgets a spilled operand without a POP (`C51_drop_false`).

`C51_text`: apart from the second defect the printed lines contain as many PUSH as POP, counting
`ADD SP`. `C51_exact`: what a path changes SP by is then exactly the surplus of PUSH among the lines the
path skips. `C51_partial`: hence SP is restored on every path that does not skip any, in particular
(`C51_straight`) for every sequence without jumps.

Model: Verif/Tac/Model.lean, Verif/Tac/Machine.lean.
-/
namespace Cmm.Tac
open Cmm.Gen (Instr A1 A2)

/-! ### Specification -/

/-- Words on the hardware stack after a line, minus the words before. -/
def wt : Line → Int
  | .push _ => 1
  | .pop _ => -1
  | .op .ADD .sp (.imm n) => -(n / 2)
  | _ => 0

def wts (c : List Line) : Int := (c.map wt).sum

/-- The line changes SP at most as `wt` says (`E.fn` is assumed to restore it), and does not begin a function. -/
def Plain : Line → Prop
  | .op o .sp s => o = .ADD ∧ ∃ k : Int, s = .imm (2 * k)
  | .pop .sp => False
  | .stkChk => False
  | .nam _ => False
  | _ => True

/-- The lines of `c` that are skipped by jumps when `c` is run from `x`. -/
def gone (E : Env) : List Line → X → List Line
  | [], _ => []
  | l :: ls, x =>
    match x.line E l with
    | some x' => if x.skip.isSome then l :: gone E ls x' else gone E ls x'
    | none => []

/-- What belongs to the code of expressions: everything but the entry and exit code of functions. -/
def inExpr : Vm → Bool
  | .i (.nam _) | .i (.entry _) | .i (.entryK _) | .i (.entryI _) | .i .ret | .i .retI => false
  | _ => true

/-- The instruction prints jumps to labels of the program. -/
def jumps : Vm → Bool
  | .i (.jmp _) | .i (.jt _) | .i (.jf _) | .boolOR .. | .boolAND .. => true
  | _ => false

/-- Words pushed as arguments minus words removed after calls. -/
def argc : Vm → Int
  | .i .arg => 1
  | .i (.callF n _) | .i (.callP n _) => -n
  | _ => 0

def argcs (p : List Vm) : Int := (p.map argc).sum

open Classical in
/-- A comparison that is left out although its second operand was spilled. -/
noncomputable def lost (v : Vm) (t : T) : Int :=
  match v with
  | .i i => if isCmp i = true ∧ Elided t ∧ ∃ e0 e1 es, t.stk = e0 :: e1 :: es ∧ e1.sta = .STK then 1 else 0
  | _ => 0

/-- How often that happens. -/
noncomputable def losts (cnt : Int → Int) : List Vm → T → Int
  | [], _ => 0
  | v :: vs, t => lost v t + match emitV cnt v t with
    | some t' => losts cnt vs t'
    | none => 0

/-! ### Running lines -/

theorem wts_append (a b : List Line) : wts (a ++ b) = wts a + wts b := by simp [wts]

theorem gone_append (E : Env) (a b : List Line) {x y : X} (h : exec E a x = some y) :
    gone E (a ++ b) x = gone E a x ++ gone E b y := by
  induction a generalizing x with
  | nil => cases h; rfl
  | cons l ls ih =>
    simp only [exec] at h
    cases h1 : x.line E l with
    | none => rw [h1] at h; cases h
    | some x1 =>
      rw [h1] at h
      simp only [List.cons_append, gone, h1, ih h]
      split <;> rfl

/-- Functions restore SP. -/
def FnSp (E : Env) : Prop := ∀ f m m', E.fn f m = some m' → m'.sp = m.sp

theorem line_sp {E : Env} (hf : FnSp E) {m m' : M} {l : Line} (hp : Plain l) (h : m.line E l = some m') :
    m'.sp = m.sp - BitVec.ofInt 16 (2 * wt l) := by
  have z : ∀ x : Word, x = x - BitVec.ofInt 16 (2 * 0) := fun x => by simp
  cases l with
  | op o r s =>
    cases h
    cases r with
    | sp =>
      obtain ⟨rfl, k, rfl⟩ := hp
      have e : wt (.op .ADD .sp (.imm (2 * k))) = -k := by
        show -(2 * k / 2) = -k
        omega
      rw [e]
      show m.sp + BitVec.ofInt 16 (2 * k) = _
      rw [show (2 * -k) = -(2 * k) by omega, BitVec.ofInt_neg, BitVec.sub_neg]
    | g i => cases o <;> exact z _
    | fp => cases o <;> exact z _
  | st r d =>
    have e : wt (.st r d) = 0 := rfl
    rw [e, ← z]
    cases d <;> cases h <;> rfl
  | push r => cases h; rfl
  | pop r =>
    cases h
    cases r with
    | sp => cases hp
    | g i =>
      show m.sp + 2 = m.sp - BitVec.ofInt 16 (2 * -1)
      rw [show (BitVec.ofInt 16 (2 * -1) : Word) = -2 from rfl, BitVec.sub_neg]
    | fp =>
      show m.sp + 2 = m.sp - BitVec.ofInt 16 (2 * -1)
      rw [show (BitVec.ofInt 16 (2 * -1) : Word) = -2 from rfl, BitVec.sub_neg]
  | call f => rw [hf f m m' h]; exact z _
  | stkChk => cases hp
  | nam n => cases h; exact z _
  | _ => cases h

theorem X.line_sp {E : Env} (hf : FnSp E) {x x' : X} {l : Line} (hp : Plain l) (h : x.line E l = some x') :
    x'.m.sp = x.m.sp - BitVec.ofInt 16 (2 * if x.skip.isSome then 0 else wt l) := by
  obtain ⟨m, sk⟩ := x
  cases sk with
  | some b =>
    simp only [X.line] at h
    split at h <;> cases h <;> simp
  | none =>
    have key : ∀ l', l' = l → ((m.line E l').map fun m => (⟨m, none⟩ : X)) = some x' →
        x'.m.sp = m.sp - BitVec.ofInt 16 (2 * wt l) := by
      intro l2 hl2 h
      rw [hl2] at h
      cases h1 : m.line E l with
      | none => rw [h1] at h; cases h
      | some m' => rw [h1] at h; cases h; exact Tac.line_sp hf hp h1
    cases l with
    | lab b => cases h; simp [wt]
    | jmp b => cases h; simp [wt]
    | jcc j b =>
      simp only [X.line] at h
      cases h
      simp only [wt]
      split <;> simp
    | _ => exact key _ rfl h

/-- SP after any path through plain lines: what is skipped does not count. -/
theorem path_sp {E : Env} (hf : FnSp E) (c : List Line) : ∀ {x x' : X}, (∀ l ∈ c, Plain l) → exec E c x = some x' →
    x'.m.sp = x.m.sp - BitVec.ofInt 16 (2 * (wts c - wts (gone E c x))) := by
  induction c with
  | nil => intro x x' _ h; cases h; simp [wts, gone]
  | cons l ls ih =>
    intro x x' hp h
    simp only [exec] at h
    cases h1 : x.line E l with
    | none => rw [h1] at h; cases h
    | some x1 =>
      rw [h1] at h
      have e1 := X.line_sp hf (hp l (by simp)) h1
      have e2 := ih (fun l' hl => hp l' (by simp [hl])) h
      rw [e2, e1, BitVec.sub_sub, ← BitVec.ofInt_add]
      congr 2
      simp only [gone, h1]
      split <;> simp only [wts, List.map_cons, List.sum_cons] <;> omega

/-! ### What the instructions print -/

/-- Running the lines ends without a pending jump, and what is skipped is balanced. -/
def Lvl (c : List Line) : Prop :=
  ∀ E m x', exec E c ⟨m, none⟩ = some x' → x'.skip = none ∧ wts (gone E c ⟨m, none⟩) = 0

theorem Lvl.append {a b : List Line} (ha : Lvl a) (hb : Lvl b) : Lvl (a ++ b) := by
  intro E m x' h
  rw [exec_append] at h
  cases h1 : exec E a ⟨m, none⟩ with
  | none => rw [h1] at h; cases h
  | some y =>
    rw [h1] at h
    obtain ⟨e1, e2⟩ := ha E m y h1
    obtain ⟨ym, ys⟩ := y
    have e1 : ys = none := e1
    subst e1
    obtain ⟨e3, e4⟩ := hb E ym x' h
    exact ⟨e3, by rw [gone_append E a b h1, wts_append, e2, e4]; rfl⟩

theorem lvl_nil : Lvl [] := fun E m x' h => by cases h; exact ⟨rfl, rfl⟩

/-- Neither jump. -/
def calm : Line → Bool
  | .jmp _ | .jcc _ _ => false
  | _ => true

theorem lvl_calm {c : List Line} (h : ∀ l ∈ c, calm l = true) : Lvl c := by
  induction c with
  | nil => exact lvl_nil
  | cons l ls ih =>
    have : Lvl [l] := by
      intro E m x' hx
      have hl := h l (by simp)
      simp only [exec] at hx
      cases h1 : (⟨m, none⟩ : X).line E l with
      | none => rw [h1] at hx; cases hx
      | some y =>
        rw [h1] at hx
        have hx : some y = some x' := hx
        cases hx
        refine ⟨?_, by simp [gone, h1, wts]⟩
        cases l <;> simp only [X.line, calm, Bool.false_eq_true] at h1 hl
        all_goals first
          | (cases h1; rfl)
          | (simp only [Option.map_eq_some_iff] at h1; obtain ⟨_, _, rfl⟩ := h1; rfl)
    exact this.append (ih fun l' hl => h l' (by simp [hl]))

theorem lvl_flg (r : Int) (j n : Nat) : Lvl (flgCode r j n) := by
  intro E m x' h
  simp only [flgCode, exec, X.line, M.line, Option.map_some, Option.bind_some] at h
  simp only [flgCode, gone, X.line, M.line, Option.map_some]
  by_cases hh : holds j (m.doOp E .LD (.g r) (.imm 1)).lt (m.doOp E .LD (.g r) (.imm 1)).z = true
  · simp only [hh, if_true, Option.bind_some, reduceCtorEq, if_false] at h
    cases h
    simp [hh, gone, X.line, wts, wt]
  · simp only [hh, if_false, Option.map_some, Option.bind_some] at h
    cases h
    simp [hh, gone, X.line, M.line, wts]

def nStk (es : List Ent) : Int := (es.countP fun e => decide (e.sta = .STK) : Nat)

theorem nStk_cons (e : Ent) (es : List Ent) : nStk (e :: es) = nStk es + if e.sta = .STK then 1 else 0 := by
  unfold nStk
  rw [List.countP_cons]
  by_cases h : e.sta = .STK <;> simp [h]

theorem nStk_append (a b : List Ent) : nStk (a ++ b) = nStk a + nStk b := by
  simp [nStk]

theorem nStk_no {e : Ent} {es : List Ent} (h : e.sta ≠ .STK) : nStk (e :: es) = nStk es := by
  rw [nStk_cons, if_neg h]; omega

/-- From `t` to `t'` lines are printed that leave `k` words more on the hardware stack than the spilled
entries account for. With `b` they contain no jumps out. -/
def Grow (b : Bool) (k : Int) (t t' : T) : Prop :=
  ∃ c, t'.out = t.out ++ c ∧ (∀ l ∈ c, Plain l) ∧ wts c = nStk t'.stk - nStk t.stk + k ∧ (b = true → Lvl c)

theorem Grow.refl (b : Bool) (t : T) : Grow b 0 t t :=
  ⟨[], by simp, by simp, by simp [wts], fun _ => lvl_nil⟩

theorem Grow.trans {b : Bool} {k k' : Int} {t t' t'' : T} (h : Grow b k t t') (h' : Grow b k' t' t'') :
    Grow b (k + k') t t'' := by
  obtain ⟨c, h1, h2, h3, h4⟩ := h
  obtain ⟨c', h1', h2', h3', h4'⟩ := h'
  refine ⟨c ++ c', by rw [h1', h1, List.append_assoc], ?_, by rw [wts_append, h3, h3']; omega,
    fun hb => (h4 hb).append (h4' hb)⟩
  intro l hl
  rcases List.mem_append.1 hl with hl | hl
  · exact h2 l hl
  · exact h2' l hl

theorem Grow.weak {k : Int} {t t' : T} (h : Grow true k t t') (b : Bool) : Grow b k t t' := by
  obtain ⟨c, h1, h2, h3, h4⟩ := h
  exact ⟨c, h1, h2, h3, fun _ => h4 rfl⟩

/-- Only the output and the entries matter. -/
theorem Grow.of {b : Bool} {k : Int} {t t' u : T} (h : Grow b k t t') (ho : u.out = t'.out) (hs : nStk u.stk = nStk t'.stk) :
    Grow b k t u := by
  obtain ⟨c, h1, h2, h3, h4⟩ := h
  exact ⟨c, by rw [ho, h1], h2, by rw [hs, h3], h4⟩

/-- Lines without weight. -/
theorem Grow.lines {b : Bool} {t t' : T} {k : Int} (c : List Line) (ho : t'.out = t.out ++ c) (hp : ∀ l ∈ c, Plain l)
    (hw : wts c = 0) (hc : b = true → Lvl c) (hs : nStk t.stk = nStk t'.stk + k) : Grow b k t t' :=
  ⟨c, ho, hp, by rw [hw, hs]; omega, hc⟩

theorem plain_flg (r : Int) (j n : Nat) : ∀ l ∈ flgCode r j n, Plain l := by
  intro l hl
  simp only [flgCode, List.mem_cons, List.not_mem_nil, or_false] at hl
  rcases hl with rfl | rfl | rfl | rfl <;> trivial

theorem wts_flg (r : Int) (j n : Nat) : wts (flgCode r j n) = 0 := by
  simp [flgCode, wts, wt]

theorem Mic.grow {κ : Nat} {t t' : T} (h : Mic κ t t') : Grow true 0 t t' := by
  have hne : ∀ {x y : Ent} {hi lo : List Ent}, x.sta ≠ .STK → y.sta ≠ .STK →
      nStk (hi ++ x :: lo) = nStk (hi ++ y :: lo) + 0 := by
    intro x y hi lo hx hy
    rw [nStk_append, nStk_append, nStk_no hx, nStk_no hy]; omega
  cases h with
  | clr h => exact .lines [] (by simp) (by simp) rfl (fun _ => lvl_nil) (by simp)
  | unflag h =>
    refine .lines _ rfl (plain_flg _ _ _) (wts_flg _ _ _) (fun _ => lvl_flg _ _ _) ?_
    rw [h]
    exact hne (by simp) (by simp)
  | reload h ha hw ho =>
    refine .lines _ rfl (by simp [Plain]) (by simp [wts, wt]) (fun _ => lvl_calm (by simp [calm])) ?_
    rw [h]
    exact hne (by rcases hw with h | h <;> rw [h] <;> simp) (by simp)
  | spill h hl =>
    refine ⟨_, rfl, by simp [Plain], ?_, fun _ => lvl_calm (by simp [calm])⟩
    rw [h]
    simp only [nStk_append, nStk_cons, wts, wt, List.map_cons, List.map_nil, List.sum_cons, List.sum_nil, reduceCtorEq, if_true,
      if_false]
    omega
  | @load hi e lo s a h hh h1 ha ho hb h0 =>
    refine .lines _ rfl (by simp [Plain]) (by simp [wts, wt]) (fun _ => lvl_calm (by simp [calm])) ?_
    rw [h]
    exact hne (by intro he; rw [operand] at ho; simp [he] at ho) (by simp)
  | pop h hh h1 hb h0 =>
    refine ⟨_, rfl, by simp [Plain], ?_, fun _ => lvl_calm (by simp [calm])⟩
    rw [h]
    simp only [nStk_append, nStk_cons, wts, wt, List.map_cons, List.map_nil, List.sum_cons, List.sum_nil, reduceCtorEq, if_true,
      if_false]
    omega

theorem Mics.grow {κ : Nat} {t t' : T} (h : Mics κ t t') : Grow true 0 t t' := by
  induction h with
  | refl => exact .refl _ _
  | tail _ h ih => exact ih.trans h.grow

/-- One line that is no jump and does not concern SP. -/
theorem Grow.one {t t' : T} {k : Int} (l : Line) (ho : t'.out = t.out ++ [l]) (hp : Plain l) (hw : wt l = 0)
    (hc : calm l = true) (hs : nStk t.stk = nStk t'.stk + k) : Grow true k t t' :=
  .lines [l] ho (by simpa using hp) (by simp [wts, hw]) (fun _ => lvl_calm (by simpa using hc)) hs

theorem Grow.none {b : Bool} {t t' : T} {k : Int} (ho : t'.out = t.out) (hs : nStk t.stk = nStk t'.stk + k) : Grow b k t t' :=
  .lines [] (by simp [ho]) (by simp) rfl (fun _ => lvl_nil) hs

theorem cal_grow {o : TOp} {t t' : T} {e0 e1 : Ent} {es : List Ent} (w : W t) (hs : t.stk = e0 :: e1 :: es)
    (h0 : e0.sta ≠ .STK) (h : cal o t = some t') : Grow true 0 t t' := by
  obtain ⟨t1, a, es', sr, mi, hs1, hl, ho, hf, rfl⟩ := cal_form w hs h0 h
  refine (mi.grow.trans (k' := 0) (.one (.op o (.g a) sr) rfl (by simp [Plain]) (by cases o <;> rfl) rfl ?_))
  show nStk t1.stk = nStk t1.stk.tail + 0
  rw [hs1, List.tail_cons, nStk_no (unflag_stk h0)]
  omega

theorem swap_grow {t t' : T} {e0 e1 f0 f1 : Ent} {es : List Ent} (hs : t.stk = e0 :: e1 :: es)
    (hc : nStk [e0, e1] = nStk [f0, f1]) (h : Grow true 0 (setTwo f0 f1 t) t') : Grow true 0 t t' := by
  have : Grow true 0 t (setTwo f0 f1 t) := by
    refine .none rfl ?_
    have : (setTwo f0 f1 t).stk = f0 :: f1 :: es := by simp [setTwo, hs]
    rw [this, hs]
    simp only [nStk_cons] at hc ⊢
    omega
  exact this.trans h

theorem rcal_grow {o : TOp} {t t' : T} {e0 e1 : Ent} {es : List Ent} (w : W t) (hs : t.stk = e0 :: e1 :: es)
    (h0 : e0.sta ≠ .STK) (h : rcal o t = some t') : Grow true 0 t t' := by
  rcases rcal_form hs h with h | ⟨ha, k1, k2, h⟩
  · exact cal_grow w hs h0 h
  · refine swap_grow (f0 := e1) (f1 := e0) hs (by simp only [nStk_cons]; omega) ?_
    exact cal_grow (w.swap hs ⟨h0, by rw [ha]; simp⟩ ⟨k1, k2⟩) (e0 := e1) (e1 := e0) (es := es) (by simp [setTwo, hs]) k1 h

theorem top_grow {t t' : T} {e0 e : Ent} {es : List Ent} (hs : t.stk = e0 :: es) (h0 : e0.sta ≠ .STK) (h1 : e.sta ≠ .STK)
    (h : Grow true 0 (setTop e t) t') : Grow true 0 t t' := by
  have : Grow true 0 t (setTop e t) := by
    refine .none rfl ?_
    have : (setTop e t).stk = e :: es := by simp [setTop, hs]
    rw [this, hs, nStk_no h0, nStk_no h1]
    omega
  exact this.trans h

theorem cmpEnd_grow {j : Nat} {t t' : T} {e0 e1 : Ent} {es : List Ent} (w : W t) (hs : t.stk = e0 :: e1 :: es)
    (h0 : e0.sta ≠ .STK) (h : cmpEnd j t = some t') : Grow true (if e1.sta = .STK then 1 else 0) t t' := by
  obtain ⟨t2, a, mi, _, _, hl, _, rfl⟩ := cmpEnd_form w hs h
  have h1 : Grow true (if e1.sta = .STK then 1 else 0) t (relDrop e1 (relDrop e0 t)) := by
    refine .none rfl ?_
    show nStk t.stk = nStk t.stk.tail.tail + _
    rw [hs, List.tail_cons, List.tail_cons, nStk_no h0, nStk_cons]
  have h2 : Grow true 0 t2 (pushFlag j a t2) := by
    refine .none rfl ?_
    show nStk t2.stk = nStk (⟨.FLAG, a⟩ :: t2.stk) + 0
    rw [nStk_no (by simp)]
    omega
  have := (h1.trans mi.grow).trans h2
  simpa using this

theorem lost_cmp {i : Instr} {t : T} {e0 e1 : Ent} {es : List Ent} (hi : isCmp i = true) (hs : t.stk = e0 :: e1 :: es)
    (he : Elided t) : lost (.i i) t = if e1.sta = .STK then 1 else 0 := by
  simp only [lost]
  by_cases h1 : e1.sta = .STK
  · rw [if_pos h1, if_pos ⟨hi, he, e0, e1, es, hs, h1⟩]
  · rw [if_neg h1, if_neg]
    rintro ⟨-, -, f0, f1, fs, hf, h2⟩
    rw [hs] at hf
    cases hf
    exact h1 h2

theorem lost_not {i : Instr} {t : T} (h : ¬ (isCmp i = true ∧ Elided t)) : lost (.i i) t = 0 := by
  simp only [lost]
  rw [if_neg fun hh => h ⟨hh.1, hh.2.1⟩]

theorem cmp_grow {i : Instr} {j : Nat} {t t' : T} {e0 e1 : Ent} {es : List Ent} (hi : isCmp i = true) (w : W t)
    (hs : t.stk = e0 :: e1 :: es) (h0 : e0.sta ≠ .STK) (h : cmp j t = some t') : Grow true (lost (.i i) t) t t' := by
  rw [cmp_eq j hs] at h
  split at h
  · rename_i he
    rw [lost_cmp hi hs ⟨e0, e1, es, hs, .inl he⟩]
    exact cmpEnd_grow w hs h0 h
  · split at h
    · rename_i he
      rw [lost_cmp hi hs ⟨e0, e1, es, hs, .inr he⟩]
      exact cmpEnd_grow w hs h0 h
    · rename_i hn1 hn2
      rw [lost_not (by
        rintro ⟨-, f0, f1, fs, hf, hh⟩
        rw [hs] at hf
        cases hf
        exact hh.elim hn1 hn2)]
      cases h1 : cmpCode j t with
      | none => rw [h1] at h; cases h
      | some xx =>
        rw [h1] at h
        simp only [Option.bind_some] at h
        obtain ⟨sw, f0, f1, t1, r, es', sr, hsw, hff, mi, hst, hl, ho, hf, rfl⟩ := cmpCode_form w hs h0 h1
        have hg0 : Grow true 0 t (if sw = true then setTwo e1 e0 t else t) := by
          cases sw with
          | false => exact .refl _ _
          | true => exact swap_grow (f0 := e1) (f1 := e0) hs (by simp only [nStk_cons]; omega) (.refl _ _)
        have w0 : W (if sw = true then setTwo e1 e0 t else t) := by
          cases sw with
          | false => exact w
          | true =>
            obtain ⟨ha, k1, k2⟩ := hsw rfl
            exact w.swap hs ⟨h0, by rcases ha with h | h <;> rw [h] <;> simp⟩ ⟨k1, k2⟩
        have w1 := mi.W w0
        have hf0 : f0.sta ≠ .STK := by
          cases sw with
          | false => simp only [Bool.false_eq_true, if_false, Prod.mk.injEq] at hff; rw [hff.1]; exact h0
          | true => simp only [if_true, Prod.mk.injEq] at hff; rw [hff.1]; exact (hsw rfl).2.1
        have hst' : ∃ y1, t1.stk = unflag f0 :: y1 :: es' ∧ y1.sta ≠ .STK := by
          rcases hst with ⟨h, _, h'⟩ | h
          · exact ⟨_, h', by rw [h]; simp⟩
          · exact ⟨_, h, by simp⟩
        obtain ⟨y1, hst', hy1⟩ := hst'
        have h2 := cmpEnd_grow (w1.out (t1.out ++ [.op .CMP (.g r) sr])) hst' (unflag_stk hf0) h
        rw [if_neg hy1] at h2
        have h3 : Grow true 0 t1 { t1 with out := t1.out ++ [.op .CMP (.g r) sr] } :=
          .one _ rfl (by simp [Plain]) rfl rfl (by simp)
        exact ((hg0.trans mi.grow).trans h3).trans h2

theorem binary_grow {o : A2} {t t' : T} {e0 e1 : Ent} {es : List Ent} (w : W t) (hs : t.stk = e0 :: e1 :: es)
    (h0 : e0.sta ≠ .STK) (h : binary o t = some t') : Grow true (lost (.i (.a2 o)) t) t t' := by
  have hl : isCmp (.a2 o) = false → Grow true 0 t t' → Grow true (lost (.i (.a2 o)) t) t t' := fun hc hg => by
    rw [lost_not (by rw [hc]; simp)]; exact hg
  have cst : ∀ {c : Int} {o : TOp}, e0.sta = .CNST → cal o (setTop ⟨.CNST, c⟩ t) = some t' → Grow true 0 t t' := by
    intro c o hc h
    exact top_grow hs h0 (by simp) (cal_grow (w.setCst' hs hc) (e0 := ⟨.CNST, c⟩) (e1 := e1) (es := es)
      (by simp [setTop, hs]) (by simp) h)
  cases o with
  | ADD => exact hl rfl (rcal_grow w hs h0 h)
  | SUB => exact hl rfl (cal_grow w hs h0 h)
  | SHL => exact hl rfl (cal_grow w hs h0 h)
  | SHR => exact hl rfl (cal_grow w hs h0 h)
  | BAND => exact hl rfl (rcal_grow w hs h0 h)
  | BXOR => exact hl rfl (rcal_grow w hs h0 h)
  | BOR => exact hl rfl (rcal_grow w hs h0 h)
  | MUL =>
    refine hl rfl ?_
    rcases vmMul_form w hs h with ⟨hc, hp, h⟩ | ⟨hc, hp, hnf, h⟩ | h
    · exact cst hc h
    · refine swap_grow (f0 := ⟨.CNST, isPower2 e1.aux⟩) (f1 := e0) hs ?_ (cal_grow (mul_left_swap (c := isPower2 e1.aux) w hs hc h0 hnf)
        (e0 := ⟨.CNST, isPower2 e1.aux⟩) (e1 := e0) (es := es) (by simp [setTwo, hs]) (by simp) h)
      simp [nStk_cons, h0, hc]
    · exact rcal_grow w hs h0 h
  | DIV =>
    refine hl rfl ?_
    rcases vmDiv_form hs h with ⟨hc, -, h⟩ | h
    · exact cst hc h
    · exact cal_grow w hs h0 h
  | MOD =>
    refine hl rfl ?_
    rcases vmMod_form hs h with ⟨hc, -, h⟩ | h
    · exact cst hc h
    · exact cal_grow w hs h0 h
  | GT => exact cmp_grow rfl w hs h0 h
  | GE => exact cmp_grow rfl w hs h0 h
  | LT => exact cmp_grow rfl w hs h0 h
  | LE => exact cmp_grow rfl w hs h0 h
  | EQ => exact cmp_grow rfl w hs h0 h
  | NE => exact cmp_grow rfl w hs h0 h

theorem isCnst0_stk {e : Ent} (h : isCnst0 e = true) : e.sta ≠ .STK := by
  intro he
  simp [isCnst0, he] at h

theorem ldForm_grow {o : TOp} {k : Sta} {t t' : T} {e0 e1 : Ent} {es : List Ent} (hs : t.stk = e0 :: e1 :: es)
    (hk : k ≠ .STK) (h0 : e0.sta ≠ .STK) (h : LdForm o k t t' e0 e1 es) : Grow true 0 t t' := by
  rcases h with ⟨h1, h2, rfl⟩ | ⟨h1, t1, a, es', mi, hs1, hl, rfl⟩ | ⟨t1, a, es', sr, mi, hs1, hl, ho, hf, rfl⟩
  · refine .none rfl ?_
    show nStk t.stk = nStk (⟨k, e1.aux⟩ :: es) + 0
    rw [hs, nStk_no h0, nStk_no (by rw [h2]; simp), nStk_no hk]
    omega
  · refine mi.grow.trans (k' := 0) (.none rfl ?_)
    show nStk t1.stk = nStk (⟨k, a⟩ :: es') + 0
    rw [hs1, nStk_no h0, nStk_no (by simp), nStk_no hk]
    omega
  · refine mi.grow.trans (k' := 0) (.one (.op o (.g a) sr) rfl (by simp [Plain]) (by cases o <;> rfl) rfl ?_)
    show nStk t1.stk = nStk (⟨k, a⟩ :: es') + 0
    rw [hs1, nStk_no (unflag_stk h0), nStk_no (by simp), nStk_no hk]
    omega

theorem vmLdByt_grow {t t' : T} {e0 e1 : Ent} {es : List Ent} (w : W t) (hs : t.stk = e0 :: e1 :: es)
    (h0 : e0.sta ≠ .STK) (h : vmLdByt t = some t') : Grow true 0 t t' := by
  rcases vmLdByt_form w hs h0 h with h | ⟨ha, h1, t1, sr, es', mi, hs1, hl, hop, hf, rfl⟩
  · exact ldForm_grow hs (by simp) h0 h
  · refine mi.grow.trans (k' := 0) (.one (.op .ADD (.g e0.aux) sr) rfl (by simp [Plain]) rfl rfl ?_)
    show nStk t1.stk = nStk (⟨.BINDR, e0.aux⟩ :: es') + 0
    rw [hs1, nStk_no h0, nStk_no (unflag_stk h1), nStk_no (by simp)]
    omega

theorem stForm_grow {d : Src} {t t' : T} {es : List Ent} (h : StForm d t t' es) : Grow true 0 t t' := by
  obtain ⟨t1, e', es', mi, hs1, he', hl, rfl⟩ := h
  exact mi.grow.trans (k' := 0) (.one _ rfl (by simp [Plain]) rfl rfl (by simp))

theorem storeInd_grow {d : Int → Src} {t t' : T} {k : Sta} {r : Int} {e1 : Ent} {es : List Ent}
    (w : W t) (hs : t.stk = ⟨k, r⟩ :: e1 :: es) (hk : k = .WINDR ∨ k = .BINDR)
    (h : storeInd d t = some t') : Grow true 0 t t' := by
  obtain ⟨t1, e', es', mi, hs1, he', hl, rfl⟩ := storeInd_form w hs hk h
  refine mi.grow.trans (k' := 0) (.one (.st e'.aux (d r)) rfl (by simp [Plain]) rfl rfl ?_)
  show nStk t1.stk = nStk t1.stk.tail + 0
  rw [hs1, List.tail_cons, nStk_no (by rcases hk with rfl | rfl <;> simp)]
  omega

theorem stLoc_grow {n : Int} {t t' : T} {e : Ent} {es : List Ent} (w : W t) (hs : t.stk = e :: es)
    (h0 : e.sta ≠ .STK) (h : vmStLoc n t = some t') : Grow true 0 t t' := by
  have hn : ∀ x : Int, nStk t.stk = nStk (⟨.RVAR, x⟩ :: es) + 0 := fun x => by
    rw [hs, nStk_no h0, nStk_no (by simp)]; omega
  rcases vmStLoc_form w hs h0 h with ⟨_, h⟩ | ⟨_, he, rfl⟩ | ⟨_, he, hne, rfl⟩ | ⟨_, he, rfl⟩ | ⟨_, hf, ha, hne, sr, ho, rfl⟩
  · exact stForm_grow h
  · exact .refl _ _
  · exact .one _ rfl (by simp [Plain]) rfl rfl (by simp)
  · exact .lines _ rfl (plain_flg _ _ _) (wts_flg _ _ _) (fun _ => lvl_flg _ _ _) (hn _)
  · exact .one _ rfl (by simp [Plain]) rfl rfl (hn _)

theorem boolJmp_grow {tf : Bool} {lab : Nat} {t t' : T} {e : Ent} {es : List Ent} (w : W t) (hs : t.stk = e :: es)
    (h0 : e.sta ≠ .STK) (h : boolJmp tf lab t = some t') : Grow false 0 t t' := by
  have hn : nStk t.stk = nStk t.stk.tail + 0 := by rw [hs, List.tail_cons, nStk_no h0]; omega
  rcases boolJmp_form w hs h0 h with ⟨-, -, rfl⟩ | ⟨-, -, rfl⟩ | ⟨t1, e', es', mi, hs1, he, hl, -, rfl⟩
  · exact .lines [.jcc (jmpOf tf t.jcc) (.L lab)] rfl (by simp [Plain]) rfl (fun h => by cases h) hn
  · exact .lines [.jcc (jmpOf tf JNZ) (.L lab)] rfl (by simp [Plain]) rfl (fun h => by cases h) hn
  · refine (mi.grow.weak false).trans (k' := 0) (.lines [.op .CMP (.g e'.aux) (.imm 0), .jcc (jmpOf tf JNZ) (.L lab)] rfl
      (by simp [Plain]) rfl (fun h => by cases h) ?_)
    show nStk t1.stk = nStk t1.stk.tail + 0
    rw [hs1, List.tail_cons, nStk_no (by rcases he with h | h <;> rw [h] <;> simp)]
    omega

theorem boolOrAnd_grow {l1 l3 : Nat} {l2 : Option Nat} {x nx : Int} {t t' : T} {e : Ent} {es : List Ent} (w : W t)
    (hs : t.stk = e :: es) (h : boolOrAnd l1 l2 l3 x nx t = some t') : Grow false 0 t t' := by
  unfold boolOrAnd at h
  simp only [Option.bind_eq_bind] at h
  cases h1 : loadStk 0 t with
  | none => rw [h1] at h; cases h
  | some t1 =>
    rw [h1] at h
    obtain ⟨a, es', mi, hs1, hl, hf⟩ := loadStk0_form w hs h1
    simp only [Option.bind_some, top, hs1, List.head?_cons] at h
    cases h
    have hn : nStk t1.stk = nStk (⟨.ACC, a⟩ :: es') + 0 := by rw [hs1]; omega
    cases l2 with
    | none =>
      exact (mi.grow.weak false).trans (k' := 0) (.lines [.jmp (.L l3), .lab (.L l1), .op .LD (.g a) (.imm x), .lab (.L l3)]
        (by simp) (by simp [Plain]) (by simp [wts, wt]) (fun h => by cases h) hn)
    | some l2 =>
      exact (mi.grow.weak false).trans (k' := 0) (.lines [.jmp (.L l3), .lab (.L l1), .op .LD (.g a) (.imm x),
        .jmp (.L l3), .lab (.L l2), .op .LD (.g a) (.imm nx), .lab (.L l3)]
        (by simp) (by simp [Plain]) (by simp [wts, wt]) (fun h => by cases h) hn)

theorem flagOrAnd_grow {l1 l3 : Nat} {l2 : Option Nat} {j : Nat} {x nx : Int} {t t' : T} {e : Ent} {es : List Ent}
    (hs : t.stk = e :: es) (he : e.sta = .FLAG) (h : flagOrAnd l1 l2 l3 j x nx t = some t') : Grow false 0 t t' := by
  unfold flagOrAnd at h
  simp only [Option.bind_eq_bind, Option.bind_some, top, hs, List.head?_cons] at h
  have hn : nStk t.stk = nStk (⟨.ACC, e.aux⟩ :: es) + 0 := by
    rw [hs, nStk_no (by rw [he]; simp), nStk_no (by simp)]; omega
  have ht : ∀ u : T, u.stk = t.stk → (setTop ⟨.ACC, e.aux⟩ u).stk = ⟨.ACC, e.aux⟩ :: es := fun u hu => by
    simp [setTop, hu, hs]
  cases l2 with
  | none =>
    cases h
    exact .lines [.op .LD (.g e.aux) (.imm nx), .jcc j (.L l3), .lab (.L l1), .op .LD (.g e.aux) (.imm x), .lab (.L l3)]
      (by simp [setTop]) (by simp [Plain]) (by simp [wts, wt]) (fun h => by cases h) (by rw [ht _ (by simp [hs])]; exact hn)
  | some l2 =>
    cases h
    exact .lines [.jcc j (.L l2), .lab (.L l1), .op .LD (.g e.aux) (.imm x), .jmp (.L l3), .lab (.L l2),
      .op .LD (.g e.aux) (.imm nx), .lab (.L l3)]
      (by simp [setTop]) (by simp [Plain]) (by simp [wts, wt]) (fun h => by cases h) (by rw [ht _ (by simp [hs])]; exact hn)

theorem call_grow {n : Nat} {f : Int} {t t1 : T} (mi : Mics 0 t t1) :
    Grow true (-n) t { t1 with out := t1.out ++ callLines n f } := by
  have : Grow true (-n) t1 { t1 with out := t1.out ++ callLines n f } := by
    refine ⟨callLines n f, rfl, ?_, ?_, fun _ => lvl_calm ?_⟩
    · intro l hl
      unfold callLines at hl
      split at hl
      · simp only [List.mem_cons, List.not_mem_nil, or_false] at hl
        rcases hl with rfl | rfl
        · trivial
        · exact ⟨rfl, n, by rw [Int.mul_comm]⟩
      · simp only [List.mem_cons, List.not_mem_nil, or_false] at hl
        subst hl; trivial
    · unfold callLines
      split
      · simp only [wts, List.map_cons, List.map_nil, List.sum_cons, List.sum_nil, wt]
        omega
      · rename_i hn
        simp only [wts, List.map_cons, List.map_nil, List.sum_cons, List.sum_nil, wt]
        omega
    · intro l hl
      unfold callLines at hl
      split at hl <;> simp only [List.mem_cons, List.not_mem_nil, or_false] at hl
      · rcases hl with rfl | rfl <;> rfl
      · subst hl; rfl
  simpa using mi.grow.trans this

theorem two_hot {t : T} {e : Ent} {es : List Ent} (hs : t.stk = e :: es) (h : ∃ e0 e1 es, t.stk = e0 :: e1 :: es) :
    ∃ e1 l, t.stk = e :: e1 :: l := by
  obtain ⟨e0, e1, l, h⟩ := h
  rw [hs] at h
  cases h
  exact ⟨e1, l, hs⟩

/-- One call of vm2tac.c. -/
theorem emitV_grow {cnt : Int → Int} {v : Vm} {t t' : T} (w : W t) (hot : uses v = true → Hot t) (hx : inExpr v = true)
    (h : emitV cnt v t = some t') : Grow (!jumps v) (argc v + lost v t) t t' := by
  cases v with
  | boolOR l1 l2 l3 =>
    obtain ⟨e, es, hs, h0⟩ := hot rfl
    have h : vmBoolOR l1 l2 l3 t = some t' := h
    unfold vmBoolOR at h
    simp only [top, hs, List.head?_cons, Option.bind_eq_bind, Option.bind_some] at h
    split at h
    · rename_i hf; exact flagOrAnd_grow hs hf h
    · exact boolOrAnd_grow w hs h
  | boolAND l1 l2 l3 =>
    obtain ⟨e, es, hs, h0⟩ := hot rfl
    have h : vmBoolAND l1 l2 l3 t = some t' := h
    unfold vmBoolAND at h
    simp only [top, hs, List.head?_cons, Option.bind_eq_bind, Option.bind_some] at h
    split at h
    · rename_i hf; exact flagOrAnd_grow hs hf h
    · exact boolOrAnd_grow w hs h
  | i i =>
    have z : ∀ {k b}, isCmp i = false → Grow b k t t' → Grow b (k + lost (.i i) t) t t' := fun hc hg => by
      rw [lost_not (by rw [hc]; simp)]; simpa using hg
    have push : ∀ e : Ent, e.sta ≠ .STK → pushStk e t = some t' → Grow true 0 t t' := by
      intro e he hp
      rw [pushStk_form hp]
      exact .none rfl (by rw [nStk_no he]; omega)
    cases i with
    | lab n => cases h; exact z rfl (.one _ rfl trivial rfl rfl (by simp [T.print, argc]))
    | jmp n =>
      cases h
      exact z rfl (.lines [.jmp (.L n)] rfl (by simp [Plain]) rfl (fun h => by cases h) (by simp [T.print, argc]))
    | jt n => obtain ⟨e, es, hs, h0⟩ := hot rfl; exact z rfl (boolJmp_grow w hs h0 h)
    | jf n => obtain ⟨e, es, hs, h0⟩ := hot rfl; exact z rfl (boolJmp_grow w hs h0 h)
    | ldC v => exact z rfl (push _ (by simp) h)
    | ldG v => exact z rfl (push _ (by simp) h)
    | ldL n =>
      have h : vmLdLoc (cnt n) t = some t' := h
      unfold vmLdLoc at h
      split at h
      · exact z rfl (push _ (by simp) h)
      · exact z rfl (push _ (by simp) h)
    | ldP v => exact z rfl (push _ (by simp) h)
    | ldLab v => exact z rfl (push _ (by simp) h)
    | ldNam v => exact z rfl (push _ (by simp) h)
    | ldW =>
      obtain ⟨e, es, hs, h0⟩ := hot rfl
      obtain ⟨e1, l, hs⟩ := two_hot hs (two_of_sec h)
      exact z rfl (ldForm_grow hs (by simp) h0 (vmLdWrd_form w hs h0 h))
    | ldB =>
      obtain ⟨e, es, hs, h0⟩ := hot rfl
      obtain ⟨e1, l, hs⟩ := two_hot hs (two_of_sec h)
      exact z rfl (vmLdByt_grow w hs h0 h)
    | stG n => obtain ⟨e, es, hs, h0⟩ := hot rfl; exact z rfl (stForm_grow (vmStGlb_form w hs h))
    | stP n => obtain ⟨e, es, hs, h0⟩ := hot rfl; exact z rfl (stForm_grow (vmStPrm_form w hs h))
    | stL n => obtain ⟨e, es, hs, h0⟩ := hot rfl; exact z rfl (stLoc_grow w hs h0 h)
    | stW =>
      obtain ⟨e, es, hs, h0⟩ := hot rfl
      have h : (vmLdWrd t).bind (storeInd .ind) = some t' := h
      cases h1 : vmLdWrd t with
      | none => rw [h1] at h; cases h
      | some t1 =>
        rw [h1] at h
        obtain ⟨e1, l, hs⟩ := two_hot hs (two_of_sec h1)
        obtain ⟨w1, r, es', hs1⟩ := vmLdWrd_step w ⟨e, _, hs, h0⟩ h1
        have h : storeInd .ind t1 = some t' := h
        have : ∃ e1 es1, es' = e1 :: es1 := by
          cases es' with
          | cons e1 es1 => exact ⟨e1, es1, rfl⟩
          | nil => unfold storeInd at h; simp [sec, hs1] at h
        obtain ⟨e2, es2, rfl⟩ := this
        exact z rfl ((ldForm_grow hs (by simp) h0 (vmLdWrd_form w hs h0 h1)).trans (storeInd_grow w1 hs1 (.inl rfl) h))
    | stB =>
      obtain ⟨e, es, hs, h0⟩ := hot rfl
      have h : (vmLdByt t).bind (storeInd .byt) = some t' := h
      cases h1 : vmLdByt t with
      | none => rw [h1] at h; cases h
      | some t1 =>
        rw [h1] at h
        obtain ⟨e1, l, hs⟩ := two_hot hs (two_of_sec h1)
        obtain ⟨w1, r, es', hs1⟩ := vmLdByt_step w ⟨e, _, hs, h0⟩ h1
        have h : storeInd .byt t1 = some t' := h
        have : ∃ e1 es1, es' = e1 :: es1 := by
          cases es' with
          | cons e1 es1 => exact ⟨e1, es1, rfl⟩
          | nil => unfold storeInd at h; simp [sec, hs1] at h
        obtain ⟨e2, es2, rfl⟩ := this
        exact z rfl ((vmLdByt_grow w hs h0 h1).trans (storeInd_grow w1 hs1 (.inr rfl) h))
    | a1 o =>
      obtain ⟨e, es, hs, h0⟩ := hot rfl
      obtain ⟨t1, a, es', mi, hs1, hl, hf, rfl⟩ := unary_form w hs h
      refine z rfl (mi.grow.trans (k' := 0) (.lines ((unLines o).map fun (l : TOp × Int) => Line.op l.1 (.g a) (.imm l.2)) rfl ?_ ?_
        (fun _ => lvl_calm ?_) (by simp)))
      · cases o <;> simp [unLines, Plain]
      · cases o <;> simp [unLines, wts, wt]
      · cases o <;> simp [unLines, calm]
    | a2 o =>
      have hh := hot rfl
      obtain ⟨e, es, hs, h0⟩ := hh
      obtain ⟨e1, l, hs⟩ := two_hot hs (binary_two w (hot rfl) h)
      have := binary_grow w hs h0 h
      simpa [argc, jumps] using this
    | pop =>
      obtain ⟨e, es, hs, h0⟩ := hot rfl
      have ht := vmPop_form hs h
      subst ht
      refine z rfl (.none rfl ?_)
      show nStk t.stk = nStk t.stk.tail + 0
      rw [hs, List.tail_cons, nStk_no h0]
      omega
    | arg =>
      obtain ⟨e, es, hs, h0⟩ := hot rfl
      refine z rfl ?_
      rcases vmArg_form w hs h with ⟨hrv, t1, es', mi, hs1, hl, ha, rfl⟩ | ⟨t1, a, es', mi, hs1, hl, ha, rfl⟩
      · refine mi.grow.trans (k' := 1) ⟨[.push (.g e.aux)], rfl, by simp [Plain], ?_, fun _ => lvl_calm (by simp [calm])⟩
        show wts [.push (.g e.aux)] = nStk t1.stk.tail - nStk t1.stk + 1
        rw [hs1, List.tail_cons, nStk_no h0]
        simp [wts, wt]
      · refine mi.grow.trans (k' := 1) (.none rfl ?_)
        show nStk t1.stk = nStk t1.stk.tail + 1
        rw [hs1, List.tail_cons, nStk_cons, if_pos rfl]
    | callF n f =>
      obtain ⟨t1, mi, ha, hf, hs, rfl⟩ := vmCallF_form w h
      refine z rfl ((call_grow (f := f) mi).of rfl ?_)
      show nStk (⟨.ACC, 0⟩ :: t1.stk) = nStk t1.stk
      rw [nStk_no (by simp)]
    | callP n f =>
      obtain ⟨t1, mi, ha, hf, hs, rfl⟩ := call_form w h
      exact z rfl (call_grow mi)
    | mreg =>
      obtain ⟨e, es, hs, h0⟩ := hot rfl
      have hn : nStk t.stk = nStk t.stk.tail + 0 := by rw [hs, List.tail_cons, nStk_no h0]; omega
      refine z rfl ?_
      rcases vmMReg_form w hs h0 h with ⟨-, rfl⟩ | ⟨-, rfl⟩ | ⟨s, -, -, rfl⟩
      · exact .none rfl hn
      · exact .lines _ rfl (plain_flg _ _ _) (wts_flg _ _ _) (fun _ => lvl_flg _ _ _) hn
      · exact .one _ rfl (by simp [Plain]) rfl rfl hn
    | nam f => cases hx
    | entry d => cases hx
    | entryK d => cases hx
    | entryI d => cases hx
    | ret => cases hx
    | retI => cases hx
    | bug => cases h

/-! ### The claim -/

/-- The lines printed for a sequence of calls of vm2tac.c. -/
theorem emits_grow {cnt : Int → Int} (p : List Vm) : ∀ {b : Bool} {t t' : T}, W t → (b = true → Hot t) → Disc b p →
    Counted cnt p → (∀ v ∈ p, inExpr v = true) → emits cnt p t = some t' →
    Grow (p.all fun v => !jumps v) (argcs p + losts cnt p t) t t' := by
  induction p with
  | nil => intro b t t' _ _ _ _ _ h; cases h; exact .refl _ _
  | cons v p ih =>
    intro b t t' w hot hd hc hx h
    simp only [emits] at h
    cases h1 : emitV cnt v t with
    | none => rw [h1] at h; cases h
    | some t1 =>
      rw [h1] at h
      have hc1 : Counted cnt [v] := fun n hn => hc n (by
        simp only [List.mem_singleton] at hn
        rcases hn with hn | hn <;> simp [hn])
      have g1 := emitV_grow w (fun hu => hot (hd.1 hu)) (hx v (by simp)) h1
      obtain ⟨w1, hot1⟩ := emitV_step (v := v) w hot hd.1 hc1 h1
      have g2 := ih w1 hot1 hd.2 (fun n hn => hc n (hn.imp (List.mem_cons_of_mem _) (List.mem_cons_of_mem _)))
        (fun v hv => hx v (by simp [hv])) h
      obtain ⟨c1, o1, p1, q1, l1⟩ := g1
      obtain ⟨c2, o2, p2, q2, l2⟩ := g2
      refine ⟨c1 ++ c2, by rw [o2, o1, List.append_assoc], ?_, ?_, ?_⟩
      · intro l hl
        rcases List.mem_append.1 hl with hl | hl
        · exact p1 l hl
        · exact p2 l hl
      · rw [wts_append, q1, q2]
        simp only [argcs, List.map_cons, List.sum_cons, losts, h1]
        omega
      · intro hb
        simp only [List.all_cons, Bool.and_eq_true] at hb
        exact (l1 hb.1).append (l2 hb.2)

/-- The printed lines: PUSH minus POP (counting `ADD SP`) is the number of new spilled entries and
arguments, plus the comparisons that were left out with a spilled operand. -/
theorem C51_text {cnt : Int → Int} {p : List Vm} {t' : T} (hd : Disc false p) (hc : Counted cnt p)
    (hx : ∀ v ∈ p, inExpr v = true) (h : emits cnt p T.init = some t') :
    wts t'.out = nStk t'.stk + argcs p + losts cnt p T.init := by
  obtain ⟨c, h1, h2, h3, h4⟩ := emits_grow p W.init (fun h => by cases h) hd hc hx h
  have : t'.out = c := h1
  rw [this, h3]
  show nStk t'.stk - nStk [] + _ = _
  simp [nStk]
  omega

/-- SP after any path through the code of an expression or statement that leaves no entries and no
arguments: it is off by the lines that were skipped and by the comparisons that were left out with a
spilled operand. -/
theorem C51_exact {E : Env} (hf : FnSp E) {cnt : Int → Int} {p : List Vm} {t' : T} (hd : Disc false p)
    (hc : Counted cnt p) (hx : ∀ v ∈ p, inExpr v = true) (h : emits cnt p T.init = some t') (hs : t'.stk = [])
    (ha : argcs p = 0) {m : M} {x : X} (hr : exec E t'.out ⟨m, none⟩ = some x) :
    x.m.sp = m.sp + BitVec.ofInt 16 (2 * (wts (gone E t'.out ⟨m, none⟩) - losts cnt p T.init)) := by
  obtain ⟨c, h1, h2, h3, h4⟩ := emits_grow p W.init (fun h => by cases h) hd hc hx h
  have ho : t'.out = c := h1
  have := path_sp hf t'.out (by rw [ho]; exact h2) hr
  rw [this, C51_text hd hc hx h, hs, ha]
  rw [BitVec.sub_eq_add_neg, ← BitVec.ofInt_neg]
  congr 2
  simp [nStk]
  omega

/-- C51 for the paths that skip no surplus of PUSH or POP. Missing: the other paths, on which it is
false (`C51_skip_false`). -/
theorem C51_partial {E : Env} (hf : FnSp E) {cnt : Int → Int} {p : List Vm} {t' : T} (hd : Disc false p)
    (hc : Counted cnt p) (hx : ∀ v ∈ p, inExpr v = true) (h : emits cnt p T.init = some t') (hs : t'.stk = [])
    (ha : argcs p = 0) (hl : losts cnt p T.init = 0) {m : M} {x : X} (hr : exec E t'.out ⟨m, none⟩ = some x)
    (hg : wts (gone E t'.out ⟨m, none⟩) = 0) : x.m.sp = m.sp := by
  rw [C51_exact hf hd hc hx h hs ha hr, hl, hg]
  simp

/-- Conversely SP is wrong on every path that skips more PUSH than POP or the reverse, as long as the
surplus is less than the whole memory. -/
theorem C51_converse {E : Env} (hf : FnSp E) {cnt : Int → Int} {p : List Vm} {t' : T} (hd : Disc false p)
    (hc : Counted cnt p) (hx : ∀ v ∈ p, inExpr v = true) (h : emits cnt p T.init = some t') (hs : t'.stk = [])
    (ha : argcs p = 0) {m : M} {x : X} (hr : exec E t'.out ⟨m, none⟩ = some x)
    (hg : wts (gone E t'.out ⟨m, none⟩) ≠ losts cnt p T.init)
    (hb : |wts (gone E t'.out ⟨m, none⟩) - losts cnt p T.init| < 32768) : x.m.sp ≠ m.sp := by
  rw [C51_exact hf hd hc hx h hs ha hr]
  generalize hk : wts (gone E t'.out ⟨m, none⟩) - losts cnt p T.init = k at hb
  intro he
  have : BitVec.ofInt 16 (2 * k) = 0 := by
    have h2 : m.sp + BitVec.ofInt 16 (2 * k) = m.sp + 0 := by rw [he]; simp
    exact (BitVec.add_right_inj _).1 h2
  have h3 := congrArg BitVec.toNat this
  rw [BitVec.toNat_ofInt] at h3
  have h4 : ((2 * k) % 65536).toNat = 0 := h3
  rw [abs_lt] at hb
  omega

/-- Without jumps (every path is the same) only the left-out comparisons count. -/
theorem C51_straight {E : Env} (hf : FnSp E) {cnt : Int → Int} {p : List Vm} {t' : T} (hd : Disc false p)
    (hc : Counted cnt p) (hx : ∀ v ∈ p, inExpr v = true) (hj : ∀ v ∈ p, jumps v = false)
    (h : emits cnt p T.init = some t') (hs : t'.stk = []) (ha : argcs p = 0) (hl : losts cnt p T.init = 0)
    {m : M} {x : X} (hr : exec E t'.out ⟨m, none⟩ = some x) : x.m.sp = m.sp := by
  obtain ⟨c, h1, h2, h3, h4⟩ := emits_grow p W.init (fun h => by cases h) hd hc hx h
  have ho : t'.out = c := h1
  have hall : (p.all fun v => !jumps v) = true := by
    rw [List.all_eq_true]; intro v hv; simp [hj v hv]
  refine C51_partial hf hd hc hx h hs ha hl hr ?_
  rw [ho] at hr ⊢
  exact (h4 hall E m x hr).2

/-- Nothing is lost without comparisons. -/
theorem losts_nocmp {cnt : Int → Int} (p : List Vm) : ∀ {t : T}, (∀ i, Vm.i i ∈ p → isCmp i = false) → losts cnt p t = 0 := by
  induction p with
  | nil => intro t _; rfl
  | cons v p ih =>
    intro t h
    have h1 : lost v t = 0 := by
      cases v with
      | i i => exact lost_not (by rw [h i (by simp)]; simp)
      | boolOR => rfl
      | boolAND => rfl
    simp only [losts, h1]
    cases emitV cnt v t with
    | none => rfl
    | some t' => simp [ih fun i hi => h i (by simp [hi])]

/-! ### The defects -/

/-- The code of `(x < y) == (b && f())` as the value of a function; x, y and b are the first three local
variables. -/
def skipCode : List Vm :=
  [.i (.ldL 1), .i (.ldL 2), .i (.a2 .LT), .i (.ldL 3), .i (.jf 9), .i (.callF 0 7), .boolAND 9 none 10,
    .i (.a2 .EQ), .i .mreg]

/-- If b is false, f is not called, the first operand is not pushed, but popped. -/
theorem C51_skip_false (E : Env) (m : M) (hb : m.g 5 = 0) :
    ∃ t m', emits (fun n => n) skipCode T.init = some t ∧ t.stk = [] ∧ Runs E t.out m m' ∧ m'.sp = m.sp + 2 := by
  obtain ⟨t, ht, hs, ho⟩ : ∃ t, emits (fun n => n) skipCode T.init = some t ∧ t.stk = [] ∧
      t.out = [.op .CMP (.g 3) (.reg (.g 4))] ++ (flgCode 0 0 0 ++ ([.op .CMP (.g 5) (.imm 0), .jcc 2 (.L 9), .push (.g 0),
        .call 7, .jmp (.L 10), .lab (.L 9), .op .LD (.g 0) (.imm 0), .lab (.L 10), .pop (.g 1),
        .op .CMP (.g 1) (.reg (.g 0))] ++ flgCode 0 2 1)) := ⟨_, rfl, rfl, rfl⟩
  have r3 : ∀ m : M, m.g 5 = 0 → ∃ m', Runs E [.op .CMP (.g 5) (.imm 0), .jcc 2 (.L 9), .push (.g 0),
        .call 7, .jmp (.L 10), .lab (.L 9), .op .LD (.g 0) (.imm 0), .lab (.L 10), .pop (.g 1),
        .op .CMP (.g 1) (.reg (.g 0))] m m' ∧ m'.sp = m.sp + 2 := by
    intro m hm
    have hz : (m.doOp E .CMP (.g 5) (.imm 0)).z = true := by
      show (m.g 5 == BitVec.ofInt 16 0) = true
      rw [hm]; rfl
    refine ⟨(((m.doOp E .CMP (.g 5) (.imm 0)).doOp E .LD (.g 0) (.imm 0)).doPop (.g 1)).doOp E .CMP (.g 1) (.reg (.g 0)), ?_, ?_⟩
    · unfold Runs
      simp only [exec, X.line, M.line, Option.map_some, Option.bind_some, holds, hz, if_true, reduceCtorEq, Line.lab.injEq,
        if_false]
    · rfl
  have r1 : Runs E [.op .CMP (.g 3) (.reg (.g 4))] m (m.doOp E .CMP (.g 3) (.reg (.g 4))) := Runs.one rfl
  have r2 := flgCode_runs E 0 0 0 (m.doOp E .CMP (.g 3) (.reg (.g 4)))
  obtain ⟨m3, r3, h3⟩ := r3 { (m.doOp E .CMP (.g 3) (.reg (.g 4))) with
    g := setG (m.doOp E .CMP (.g 3) (.reg (.g 4))).g 0
      (Tree.ofB (holds 0 (m.doOp E .CMP (.g 3) (.reg (.g 4))).lt (m.doOp E .CMP (.g 3) (.reg (.g 4))).z)) } (by
    simpa [setG, M.doOp, M.setReg] using hb)
  have r4 := flgCode_runs E 0 2 1 m3
  exact ⟨t, { m3 with g := setG m3.g 0 (Tree.ofB (holds 2 m3.lt m3.z)) }, ht, hs, by
    rw [ho]; exact r1.append (r2.append (r3.append r4)), h3⟩

/-- The code of `x + y > (f(), 0)` as the value of a function. -/
def dropCode : List Vm :=
  [.i (.ldL 1), .i (.ldL 2), .i (.a2 .ADD), .i (.callF 0 7), .i .pop, .i (.ldC 0), .i (.a2 .GT), .i .mreg]

/-- The sum is pushed before the call and never popped. -/
theorem C51_drop_false (E : Env) (hf : FnSp E) (m m1 : M)
    (h1 : E.fn 7 (((m.doOp E .LD (.g 0) (.reg (.g 3))).doOp E .ADD (.g 0) (.reg (.g 4))).doPush (.g 0)) = some m1) :
    ∃ t m', emits (fun n => n) dropCode T.init = some t ∧ t.stk = [] ∧ Runs E t.out m m' ∧ m'.sp = m.sp - 2 := by
  obtain ⟨t, ht, hs, ho⟩ : ∃ t, emits (fun n => n) dropCode T.init = some t ∧ t.stk = [] ∧
      t.out = [.op .LD (.g 0) (.reg (.g 3))] ++ ([.op .ADD (.g 0) (.reg (.g 4))] ++ ([.push (.g 0)] ++ ([.call 7] ++
        flgCode 0 4 0))) := ⟨_, rfl, rfl, rfl⟩
  refine ⟨t, { m1 with g := setG m1.g 0 (Tree.ofB (holds 4 m1.lt m1.z)) }, ht, hs, ?_, ?_⟩
  · rw [ho]
    exact (Runs.one rfl).append ((Runs.one rfl).append ((Runs.one rfl).append ((Runs.one (E := E) (l := .call 7) h1).append (flgCode_runs E 0 4 0 m1))))
  · show m1.sp = _
    rw [hf _ _ _ h1]
    rfl

/-- Both defects are not excluded by the hypotheses of `C51_exact`. -/
example : Disc false skipCode ∧ Counted (fun n => n) skipCode ∧ (∀ v ∈ skipCode, inExpr v = true) ∧ argcs skipCode = 0 := by
  refine ⟨by simp [skipCode, Disc, uses, fresh], fun n hn => ?_, by decide, by decide⟩
  simp [skipCode] at hn
  show 1 ≤ n
  omega

/-- `f(x + y, x - y) * 3`: arguments and a call; the hypotheses of `C51_straight`. -/
def straightCode : List Vm :=
  [.i (.ldL 1), .i (.ldL 2), .i (.a2 .SUB), .i .arg, .i (.ldL 1), .i (.ldL 2), .i (.a2 .ADD), .i .arg, .i (.callF 2 7),
    .i (.ldC 3), .i (.a2 .MUL), .i .mreg]

example : ∃ t, Disc false straightCode ∧ Counted (fun n => n) straightCode ∧ (∀ v ∈ straightCode, inExpr v = true) ∧
    (∀ v ∈ straightCode, jumps v = false) ∧ emits (fun n => n) straightCode T.init = some t ∧ t.stk = [] ∧
    argcs straightCode = 0 ∧ losts (fun n => n) straightCode T.init = 0 := by
  refine ⟨_, by simp [straightCode, Disc, uses, fresh], fun n hn => ?_, by decide, by decide, rfl, rfl, by decide,
    losts_nocmp _ fun i hi => ?_⟩
  rotate_left
  · simp [straightCode] at hi
    rcases hi with h | h | h | h | h | h | h | h | h | h | h | h <;> subst h <;> rfl
  simp [straightCode] at hn
  show 1 ≤ n
  omega

end Cmm.Tac
