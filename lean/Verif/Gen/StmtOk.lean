import Verif.Gen.Stmt

/- The code of statements follows their execution. -/
namespace Cmm.Gen
open Cmm.Tree

variable {σ : Type} {w : World σ} {P : List Instr} {nt : NT}

/-- Expressions of statements meet the conditions of Verif/Gen/Main.lean. -/
def WfS (w : World σ) (nt : NT) : Stmt → Prop
  | .empty | .brk | .cnt => True
  | .exp e => Wf w nt .void e
  | .ifs c a => Wf w nt .cond c ∧ WfS w nt a
  | .els c a b => Wf w nt .cond c ∧ WfS w nt a ∧ WfS w nt b
  | .whl c a re => (∀ e, c = some e → Wf w nt .cond e) ∧ WfS w nt a ∧
      (∀ e, re = some e → Wf w nt .void e)
  | .dos a c => WfS w nt a ∧ Wf w nt .cond c
  | .ret e => ∀ x, e = some x → Wf w nt .val x
  | .seq _ a b => WfS w nt a ∧ WfS w nt b

/-- A label, if allocated, is at position `p`. -/
def ResO (P : List Instr) (l : Option Nat) (p : Nat) : Prop :=
  ∀ k, l = some k → P[p]? = some (.lab k)

/-- An allocated label stays. -/
def OKeep (l l' : Option Nat) : Prop := ∀ k, l = some k → l' = some k

theorem OKeep.refl (l : Option Nat) : OKeep l l := fun _ h => h
theorem OKeep.trans {a b c : Option Nat} (h : OKeep a b) (h' : OKeep b c) : OKeep a c :=
  fun k hk => h' k (h k hk)
theorem OKeep.none (l : Option Nat) : OKeep none l := fun _ h => by cases h
theorem OKeep.res {l l' : Option Nat} (h : OKeep l l') {p : Nat} (hr : ResO P l' p) : ResO P l p :=
  fun k hk => hr k (h k hk)

structure SKeep (a b : St) : Prop where
  brk : OKeep a.brk b.brk
  cnt : OKeep a.cnt b.cnt
  ret : OKeep a.ret b.ret

theorem SKeep.trans {a b c : St} (h : SKeep a b) (h' : SKeep b c) : SKeep a c :=
  ⟨h.brk.trans h'.brk, h.cnt.trans h'.cnt, h.ret.trans h'.ret⟩

theorem genRet_keep (p : Pos) (e : Option Expr) (st : St) : SKeep st (genRet nt p e st).2 := by
  unfold genRet
  dsimp only
  split
  · cases h : st.ret with
    | some k => dsimp only; exact ⟨.refl _, .refl _, by rw [h]; exact .refl _⟩
    | none => dsimp only; exact ⟨.refl _, .refl _, by rw [h]; exact .none _⟩
  · exact ⟨.refl _, .refl _, .refl _⟩

theorem genS_keep (S : Stmt) : ∀ (p : Pos) (st : St), SKeep st (genS nt p S st).2 := by
  induction S with
  | empty => exact fun p st => ⟨.refl _, .refl _, .refl _⟩
  | exp e => exact fun p st => ⟨.refl _, .refl _, .refl _⟩
  | ifs c a ih =>
    intro p st
    have := ih p.right { st with n := (genCnd nt c false ⟨none, 0⟩ st.n).2.2 }
    exact ⟨this.brk, this.cnt, this.ret⟩
  | els c a b iha ihb =>
    intro p st
    have h1 := iha .inner { st with n := (genCnd nt c false ⟨none, 0⟩ st.n).2.2 }
    rw [genS]
    dsimp only
    split
    · have h2 := ihb p.right (genS nt .inner a { st with n := (genCnd nt c false ⟨none, 0⟩ st.n).2.2 }).2
      have := h1.trans h2
      exact ⟨this.brk, this.cnt, this.ret⟩
    · have h2 := ihb p.right { (genS nt .inner a
          { st with n := (genCnd nt c false ⟨none, 0⟩ st.n).2.2 }).2 with
          n := (genS nt .inner a { st with n := (genCnd nt c false ⟨none, 0⟩ st.n).2.2 }).2.n + 1 }
      exact ⟨h1.brk.trans h2.brk, h1.cnt.trans h2.cnt, h1.ret.trans h2.ret⟩
  | whl c a re ih =>
    intro p st
    exact ⟨.refl _, .refl _, (ih .inner ⟨(genWhlCnd nt c (st.n + 1)).2.2,
      (genWhlCnd nt c (st.n + 1)).2.1, if re.isNone then some (st.n + 1) else none, st.ret⟩).ret⟩
  | dos a c ih =>
    intro p st
    exact ⟨.refl _, .refl _, (ih .inner ⟨st.n + 1, none, none, st.ret⟩).ret⟩
  | brk =>
    intro p st
    rw [genS]
    cases h : st.brk with
    | some k => exact ⟨by rw [h]; exact .refl _, .refl _, .refl _⟩
    | none => exact ⟨by rw [h]; exact .none _, .refl _, .refl _⟩
  | cnt =>
    intro p st
    rw [genS]
    cases h : st.cnt with
    | some k => exact ⟨.refl _, by rw [h]; exact .refl _, .refl _⟩
    | none => exact ⟨.refl _, by rw [h]; exact .none _, .refl _⟩
  | ret e => intro p st; exact genRet_keep p e st
  | seq k a b iha ihb =>
    intro p st
    exact (iha .inner st).trans (ihb p.right _)

/-- A statement that ends with a jump does not end normally. -/
theorem jmpBlock_not_normal {ev : Expr → Den σ} {S : Stmt} {s o s'} (h : Exec ev S s o s') :
    jmpBlock S = true → o ≠ .normal := by
  induction h with
  | brk => intro _; simp
  | cnt => intro _; simp
  | ret0 => intro _; simp
  | ret => intro _; simp
  | @seqN k a b _ _ _ _ _ _ _ ih => intro hj; cases k <;> simp [jmpBlock] at hj; exact ih hj
  | seqX _ h => exact fun _ => h
  | _ => intro hj; simp [jmpBlock] at hj

/-- A statement that ends with `continue` has allocated the label for it. -/
theorem cnt_alloc {ev : Expr → Den σ} {S : Stmt} {s o s'} (h : Exec ev S s o s') (ho : o = .cnt) :
    ∀ (p : Pos) (st : St), (genS nt p S st).2.cnt ≠ none := by
  have keep : ∀ {S p st}, st.cnt ≠ none → (genS nt p S st).2.cnt ≠ none := by
    intro S p st h
    cases hc : st.cnt with
    | none => exact absurd hc h
    | some k => rw [(genS_keep S p st).cnt k hc]; simp
  induction h with
  | cnt =>
    intro p st
    rw [genS]
    cases h : st.cnt with
    | some k => simp [h]
    | none => simp
  | ifT _ _ ih => intro p st; exact ih ho _ _
  | elsT _ _ ih =>
    intro p st
    rw [genS]; dsimp only
    split
    · exact keep (ih ho _ _)
    · exact keep (ih ho _ _)
  | elsF _ _ ih =>
    intro p st
    rw [genS]; dsimp only
    split
    · exact ih ho _ _
    · exact ih ho _ _
  | whlL _ _ _ _ _ _ ih2 => exact ih2 ho
  | doL _ _ _ _ _ ih2 => exact ih2 ho
  | seqN _ _ _ ih2 => intro p st; exact ih2 ho _ _
  | @seqX k a b _ _ _ _ _ ih =>
    intro p st
    show (genS nt p.right b (genS nt .inner a st).2).2.cnt ≠ none
    exact keep (ih ho _ _)
  | _ => cases ho

/-- Where the code of a statement ends. -/
def Ends (p : Pos) (pe pB pC pR : Nat) (st ar : List Word) (rg : Word) (o : Outcome) (s' : σ)
    (c' : Cfg σ) : Prop :=
  match o with
  | .normal => c' = ⟨pe, ⟨st, ar, rg, s'⟩⟩
  | .brk => c' = ⟨pB, ⟨st, ar, rg, s'⟩⟩
  | .cnt => c' = ⟨pC, ⟨st, ar, rg, s'⟩⟩
  | .ret v => c'.d = ⟨st, ar, v.getD rg, s'⟩ ∧ (c'.pc = pR ∨ c'.pc = pe ∧ p ≠ .inner)

/-- The run to the end of a statement. A statement that returns a value gets to MREG; after it there are only labels
and jumps. -/
def Ran (w : World σ) (P : List Instr) (o : Outcome) (c c' : Cfg σ) : Prop :=
  match o with
  | .ret (some v) => ∃ pc st ar rg s, Steps w P c ⟨pc, ⟨v :: st, ar, rg, s⟩⟩ ∧ P[pc]? = some .mreg ∧
      Idle P ⟨pc + 1, ⟨st, ar, v, s⟩⟩ c'
  | _ => Steps w P c c'

theorem Ran.pre {o : Outcome} {a b c : Cfg σ} (h' : Ran w P o b c) (h : Steps w P a b) : Ran w P o a c := by
  rcases o with _ | _ | _ | (_ | v)
  case ret.some =>
    obtain ⟨pc, st, ar, rg, s, h1, h2⟩ := h'
    exact ⟨pc, st, ar, rg, s, h.trans h1, h2⟩
  all_goals exact Steps.trans h h'

theorem Ran.post {o : Outcome} {a b c : Cfg σ} (h : Ran w P o a b) (h' : Idle P b c) : Ran w P o a c := by
  rcases o with _ | _ | _ | (_ | v)
  case ret.some =>
    obtain ⟨pc, st, ar, rg, s, h1, h2, h3⟩ := h
    exact ⟨pc, st, ar, rg, s, h1, h2, h3.trans h'⟩
  all_goals exact Steps.trans h h'.steps

theorem Ran.steps {o : Outcome} {a b : Cfg σ} (h : Ran w P o a b) : Steps w P a b := by
  unfold Ran at h
  split at h
  · obtain ⟨pc, st, ar, rg, s, h1, h2, h3⟩ := h
    exact h1.trans (.head (.next h2 rfl) h3.steps)
  · exact h

def SOK (w : World σ) (P : List Instr) (nt : NT) (S : Stmt) (s : σ) (o : Outcome) (s' : σ) : Prop :=
  WfS w nt S → ∀ (p : Pos) (t : St) (pc pB pC pR : Nat), At P pc (genS nt p S t).1 →
    ResO P (genS nt p S t).2.brk pB → ResO P (genS nt p S t).2.cnt pC →
    ResO P (genS nt p S t).2.ret pR → ∀ st ar rg, ∃ c',
      Ran w P o ⟨pc, ⟨st, ar, rg, s⟩⟩ c' ∧
      Ends p (pc + (genS nt p S t).1.length) pB pC pR st ar rg o s' c'

theorem genX_ok (L : Layout w nt) {e : Expr} (hw : Wf w nt .void e) {n pc : Nat}
    (hat : At P pc (genX nt e n).1) {s vs s'} (h : evalG w e s = some (vs, s')) (st ar rg) :
    Steps w P ⟨pc, ⟨st, ar, rg, s⟩⟩ ⟨pc + (genX nt e n).1.length, ⟨st, ar, rg, s'⟩⟩ := by
  obtain ⟨h1, h2⟩ := at_append.1 hat
  have := (gen_ok (P := P) L e).bool hw n pc h1 st ar rg s
  rw [h] at this
  obtain ⟨c', hs, ext, rfl, hh⟩ := this
  have := hs.trans (pop_steps h2 hh st ar rg)
  rw [genX, List.length_append, ← Nat.add_assoc]
  exact this

theorem cnd_steps (L : Layout w nt) {e : Expr} (hw : Wf w nt .cond e) {tf : Bool} {J : Lab}
    (hJ : J.left = 0) {n pc pJ : Nat} (hat : At P pc (genCnd nt e tf J n).1)
    (hr : ResO P (genCnd nt e tf J n).2.1.no pJ) {s b s'} (h : Cond (evalG w) e s b s') (st ar rg) :
    Steps w P ⟨pc, ⟨st, ar, rg, s⟩⟩
      ⟨if b = tf then pJ else pc + (genCnd nt e tf J n).1.length, ⟨st, ar, rg, s'⟩⟩ := by
  obtain ⟨vs, hv, hb⟩ := h
  have := genCnd_ok (P := P) L hw hJ hat hr st ar rg s
  rw [hv] at this
  obtain ⟨c', hs, v, hv', rfl⟩ := this
  simp only at hv'
  rw [hv'] at hb
  rw [hb]
  exact hs

theorem ends_weaken {p q : Pos} {pe pe' pB pC pR : Nat} {st ar : List Word} {rg : Word} {o : Outcome}
    {s' : σ} {c' : Cfg σ} (h : Ends p pe pB pC pR st ar rg o s' c') (ho : o ≠ .normal)
    (hp : p = .inner) : Ends q pe' pB pC pR st ar rg o s' c' := by
  cases o with
  | normal => exact absurd rfl ho
  | brk => exact h
  | cnt => exact h
  | ret v =>
    refine ⟨h.1, ?_⟩
    rcases h.2 with h | ⟨_, h⟩
    · exact .inl h
    · exact absurd hp h

theorem right_inner {p : Pos} (h : p.right ≠ .inner) : p ≠ .inner := by
  rintro rfl; exact h rfl

theorem jmp_steps {pc k pJ : Nat} {c : Code} (hat : At P pc (.jmp k :: c)) (h : P[pJ]? = some (.lab k))
    (d : Data σ) : Steps w P ⟨pc, d⟩ ⟨pJ, d⟩ := (Step.jmp hat.head h).steps

theorem jmp_idle {pc k pJ : Nat} {c : Code} (hat : At P pc (.jmp k :: c)) (h : P[pJ]? = some (.lab k))
    (d : Data σ) : Idle P ⟨pc, d⟩ ⟨pJ, d⟩ := .jmp hat.head h .refl

theorem idle_printLab {pc : Nat} {l : Option Nat} {d : Data σ} (h : At P pc (printLab l)) :
    Idle P ⟨pc, d⟩ ⟨pc + (printLab l).length, d⟩ := by
  cases l with
  | none => exact .refl
  | some k => exact .lab h.head .refl

theorem retV_steps (L : Layout w nt) {e : Option Expr} (hw : ∀ x, e = some x → Wf w nt .val x)
    {n pc : Nat} (hat : At P pc (genRetV nt e n).1) {s v s'}
    (h : Exec (evalG w) (.ret e) s (.ret v) s') (st ar rg) :
    Ran w P (.ret v) ⟨pc, ⟨st, ar, rg, s⟩⟩
      ⟨pc + (genRetV nt e n).1.length, ⟨st, ar, v.getD rg, s'⟩⟩ := by
  cases h with
  | ret0 => exact Steps.refl
  | @ret e _ vs _ h =>
    obtain ⟨h1, h2⟩ := at_append.1 hat
    have := (gen_ok (P := P) L e).val (hw e rfl) n pc h1 st ar rg s
    rw [h] at this
    obtain ⟨c', hs, u, hu, rfl⟩ := this
    simp only at hu
    subst hu
    simp only [genRetV, List.length_append, ← Nat.add_assoc]
    exact ⟨_, _, _, _, _, hs, h2.head, .refl⟩

theorem genRet_ok (L : Layout w nt) {e : Option Expr} {s v s'}
    (h : Exec (evalG w) (.ret e) s (.ret v) s') : SOK w P nt (.ret e) s (.ret v) s' := by
  intro hw p t pc pB pC pR hat _ _ hR st ar rg
  simp only [genS] at hat hR ⊢
  unfold genRet at hat hR ⊢
  dsimp only at hat hR ⊢
  by_cases hp : p = .inner
  · simp only [hp, if_true] at hat hR ⊢
    cases hr : t.ret with
    | some k =>
      simp only [hr] at hat hR ⊢
      obtain ⟨h1, h2⟩ := at_append.1 hat
      exact ⟨_, (retV_steps L hw h1 h st ar rg).post (jmp_idle h2 (hR _ rfl) _), rfl, .inl rfl⟩
    | none =>
      simp only [hr] at hat hR ⊢
      obtain ⟨h1, h2⟩ := at_append.1 hat
      exact ⟨_, (retV_steps L hw h1 h st ar rg).post (jmp_idle h2 (hR _ rfl) _), rfl, .inl rfl⟩
  · simp only [hp, if_false] at hat hR ⊢
    exact ⟨_, retV_steps L hw hat h st ar rg, rfl, .inr ⟨rfl, hp⟩⟩

/-- The condition of a loop. -/
theorem whlCnd_steps (L : Layout w nt) {c : Option Expr} (hw : ∀ e, c = some e → Wf w nt .cond e)
    {n pc pJ : Nat} (hat : At P pc (genWhlCnd nt c n).1)
    (hr : ResO P (genWhlCnd nt c n).2.1 pJ) {s b s'} (h : CondO (evalG w) c s b s') (st ar rg) :
    Steps w P ⟨pc, ⟨st, ar, rg, s⟩⟩
      ⟨if b = false then pJ else pc + (genWhlCnd nt c n).1.length, ⟨st, ar, rg, s'⟩⟩ := by
  cases c with
  | none => obtain ⟨rfl, rfl⟩ := h; exact .refl
  | some c => exact cnd_steps L (hw c rfl) rfl hat hr h st ar rg

/-- The end of a loop body: reinitialisation and jump back. `pC` is where `continue` goes. -/
theorem whlEnd_steps (L : Layout w nt) {re : Option Expr} (hw : ∀ e, re = some e → Wf w nt .void e)
    {jb : Bool} {cnt : Option Nat} {loop n pc pL : Nat} (hat : At P pc (genWhlEnd nt re jb cnt loop n).1)
    (hL : P[pL]? = some (.lab loop)) (hc : re = none → cnt = some loop) :
    ∃ pC, ResO P cnt pC ∧ ∀ s s' st ar rg, Eff (evalG w) re s s' →
      (jb = false → Steps w P ⟨pc, ⟨st, ar, rg, s⟩⟩ ⟨pL, ⟨st, ar, rg, s'⟩⟩) ∧
      (cnt ≠ none → Steps w P ⟨pC, ⟨st, ar, rg, s⟩⟩ ⟨pL, ⟨st, ar, rg, s'⟩⟩) := by
  cases re with
  | none =>
    refine ⟨pL, fun k hk => ?_, fun s s' st ar rg h => ?_⟩
    · rw [hc rfl] at hk
      cases hk
      exact hL
    · cases h
      refine ⟨?_, fun _ => .refl⟩
      rintro rfl
      exact jmp_steps hat hL _
  | some e =>
    unfold genWhlEnd at hat
    dsimp only at hat
    by_cases hj : (!jb || cnt.isSome) = true
    · rw [if_pos hj] at hat
      obtain ⟨h12, h3⟩ := at_append.1 hat
      obtain ⟨h1, h2⟩ := at_append.1 h12
      refine ⟨pc, fun k hk => by rw [hk] at h1; exact h1.head, fun s s' st ar rg h => ?_⟩
      obtain ⟨vs, hv⟩ := h
      have key : Steps w P ⟨pc, ⟨st, ar, rg, s⟩⟩ ⟨pL, ⟨st, ar, rg, s'⟩⟩ := by
        refine (steps_printLab h1).trans ((genX_ok L (hw e rfl) h2 hv st ar rg).trans ?_)
        rw [List.length_append, ← Nat.add_assoc] at h3
        exact jmp_steps h3 hL _
      exact ⟨fun _ => key, fun _ => key⟩
    · refine ⟨0, fun k hk => ?_, fun s s' st ar rg h => ⟨?_, ?_⟩⟩
      · subst hk; simp at hj
      · rintro rfl; simp at hj
      · intro h; cases cnt with
        | none => exact absurd rfl h
        | some k => simp at hj

/-- A label that is already allocated is used. -/
theorem genCnd_label {e : Expr} {tf : Bool} {J : Lab} {n k : Nat} (h : J.no = some k) :
    (genCnd nt e tf J n).2.1.no = some k := by
  unfold genCnd
  cases logOp e with
  | none => exact (boolJmp_keep _ _ _).2 k h
  | some op =>
    dsimp only
    split
    · exact (gen_keep nt e _ _ _ _).1.2 k h
    · exact (gen_keep nt e _ _ _ _).2.2 k h

theorem genS_ok (L : Layout w nt) {S : Stmt} {s o s'} (h : Exec (evalG w) S s o s') :
    SOK w P nt S s o s' := by
  induction h with
  | empty => intro _ p t pc pB pC pR _ _ _ _ st ar rg; exact ⟨_, Steps.refl, rfl⟩
  | exp h =>
    intro hw p t pc pB pC pR hat _ _ _ st ar rg
    exact ⟨_, genX_ok L hw hat h st ar rg, rfl⟩
  | @ifT c b s s1 o s2 hc _ ih =>
    intro hw p t pc pB pC pR hat hB hC hR st ar rg
    simp only [genS] at hat hB hC hR ⊢
    obtain ⟨h1, h23⟩ := at_append.1 hat
    obtain ⟨h2, h3⟩ := at_append.1 h23
    have hs := cnd_steps L hw.1 rfl h1 (fun k hk => by rw [hk] at h3; exact h3.head) hc st ar rg
    rw [if_neg (by simp)] at hs
    obtain ⟨c', hs', he⟩ := ih hw.2 p.right _ _ pB pC pR h2 hB hC hR st ar rg
    cases o with
    | normal =>
      cases he
      refine ⟨_, (hs'.pre hs).post (idle_printLab h3), ?_⟩
      simp only [Ends, List.length_append, Nat.add_assoc]
    | brk => exact ⟨_, hs'.pre hs, he⟩
    | cnt => exact ⟨_, hs'.pre hs, he⟩
    | ret v =>
      rcases he.2 with h | ⟨h, hp⟩
      · exact ⟨_, hs'.pre hs, he.1, .inl h⟩
      · obtain ⟨pc', d⟩ := c'
        simp only at h
        subst h
        refine ⟨_, (hs'.pre hs).post (idle_printLab h3), he.1, .inr ⟨?_, right_inner hp⟩⟩
        simp only [List.length_append, Nat.add_assoc]
  | @ifF c b s s1 hc =>
    intro hw p t pc pB pC pR hat hB hC hR st ar rg
    simp only [genS] at hat hB hC hR ⊢
    obtain ⟨h1, h23⟩ := at_append.1 hat
    obtain ⟨h2, h3⟩ := at_append.1 h23
    have hs := cnd_steps L hw.1 rfl h1 (fun k hk => by rw [hk] at h3; exact h3.head) hc st ar rg
    rw [if_pos rfl] at hs
    refine ⟨_, hs.trans (steps_printLab h3), ?_⟩
    simp only [Ends, List.length_append, Nat.add_assoc]
  | @elsT c a b s s1 o s2 hc hx ih =>
    intro hw p t pc pB pC pR hat hB hC hR st ar rg
    simp only [genS] at hat hB hC hR ⊢
    by_cases hj : jmpBlock a = true
    · simp only [hj, if_true] at hat hB hC hR ⊢
      obtain ⟨h1, h234⟩ := at_append.1 hat
      obtain ⟨h2, h34⟩ := at_append.1 h234
      obtain ⟨h3, h4⟩ := at_append.1 h34
      have hs := cnd_steps L hw.1 rfl h1 (fun k hk => by rw [hk] at h3; exact h3.head) hc st ar rg
      rw [if_neg (by simp)] at hs
      have hk := genS_keep (nt := nt) b p.right
        (genS nt .inner a { t with n := (genCnd nt c false ⟨none, 0⟩ t.n).2.2 }).2
      obtain ⟨c', hs', he⟩ := ih hw.2.1 .inner _ _ pB pC pR h2 (hk.brk.res hB) (hk.cnt.res hC)
        (hk.ret.res hR) st ar rg
      exact ⟨_, hs'.pre hs, ends_weaken he (jmpBlock_not_normal hx hj) rfl⟩
    · simp only [hj, Bool.false_eq_true, if_false] at hat hB hC hR ⊢
      obtain ⟨h1, h234⟩ := at_append.1 hat
      obtain ⟨h2, h34⟩ := at_append.1 h234
      obtain ⟨h3, h4⟩ := at_append.1 h34.tail
      obtain ⟨h4, h5⟩ := at_append.1 h4
      have hs := cnd_steps L hw.1 rfl h1 (fun k hk => by rw [hk] at h3; exact h3.head) hc st ar rg
      rw [if_neg (by simp)] at hs
      have hk := genS_keep (nt := nt) b p.right
        { (genS nt .inner a { t with n := (genCnd nt c false ⟨none, 0⟩ t.n).2.2 }).2 with
          n := (genS nt .inner a { t with n := (genCnd nt c false ⟨none, 0⟩ t.n).2.2 }).2.n + 1 }
      obtain ⟨c', hs', he⟩ := ih hw.2.1 .inner _ _ pB pC pR h2 (hk.brk.res hB) (hk.cnt.res hC)
        (hk.ret.res hR) st ar rg
      by_cases ho : o = .normal
      · subst ho
        cases he
        refine ⟨_, ((hs'.pre hs).post (jmp_idle h34 h5.head _)).post (.lab h5.head .refl), ?_⟩
        simp only [Ends, List.length_append, List.length_cons, List.length_nil, Cfg.mk.injEq,
          and_true]
        omega
      · exact ⟨_, hs'.pre hs, ends_weaken he ho rfl⟩
  | @elsF c a b s s1 o s2 hc hx ih =>
    intro hw p t pc pB pC pR hat hB hC hR st ar rg
    simp only [genS] at hat hB hC hR ⊢
    by_cases hj : jmpBlock a = true
    · simp only [hj, if_true] at hat hB hC hR ⊢
      obtain ⟨h1, h234⟩ := at_append.1 hat
      obtain ⟨h2, h34⟩ := at_append.1 h234
      obtain ⟨h3, h4⟩ := at_append.1 h34
      have hs := cnd_steps L hw.1 rfl h1 (fun k hk => by rw [hk] at h3; exact h3.head) hc st ar rg
      rw [if_pos rfl] at hs
      obtain ⟨c', hs', he⟩ := ih hw.2.2 p.right _ _ pB pC pR h4 hB hC hR st ar rg
      refine ⟨_, hs'.pre (hs.trans (steps_printLab h3)), ?_⟩
      cases o with
      | normal =>
        cases he
        simp only [Ends, List.length_append, Nat.add_assoc]
      | brk => exact he
      | cnt => exact he
      | ret v =>
        rcases he.2 with h | ⟨h, hp⟩
        · exact ⟨he.1, .inl h⟩
        · refine ⟨he.1, .inr ⟨?_, right_inner hp⟩⟩
          rw [h]
          simp only [List.length_append, Nat.add_assoc]
    · simp only [hj, Bool.false_eq_true, if_false] at hat hB hC hR ⊢
      obtain ⟨h1, h234⟩ := at_append.1 hat
      obtain ⟨h2, h34⟩ := at_append.1 h234
      obtain ⟨h3, h4⟩ := at_append.1 h34.tail
      obtain ⟨h4, h5⟩ := at_append.1 h4
      have hs := cnd_steps L hw.1 rfl h1 (fun k hk => by rw [hk] at h3; exact h3.head) hc st ar rg
      rw [if_pos rfl] at hs
      obtain ⟨c', hs', he⟩ := ih hw.2.2 p.right _ _ pB pC pR h4 hB hC hR st ar rg
      have hs := hs'.pre (hs.trans (steps_printLab h3))
      cases o with
      | normal =>
        cases he
        refine ⟨_, hs.post (.lab h5.head .refl), ?_⟩
        simp only [Ends, List.length_append, List.length_cons, List.length_nil, Cfg.mk.injEq,
          and_true]
        omega
      | brk => exact ⟨_, hs, he⟩
      | cnt => exact ⟨_, hs, he⟩
      | ret v =>
        rcases he.2 with h | ⟨h, hp⟩
        · exact ⟨_, hs, he.1, .inl h⟩
        · obtain ⟨pc', d⟩ := c'
          simp only at h
          subst h
          refine ⟨_, hs.post (.lab h5.head .refl), he.1, .inr ⟨?_, right_inner hp⟩⟩
          simp only [List.length_append, List.length_cons, List.length_nil]
          omega
  | @whlF c b r s s1 hc =>
    intro hw p t pc pB pC pR hat hB hC hR st ar rg
    simp only [genS] at hat hB hC hR ⊢
    obtain ⟨h1, h234⟩ := at_append.1 hat.tail
    obtain ⟨h2, h34⟩ := at_append.1 h234
    obtain ⟨h3, h4⟩ := at_append.1 h34
    have hk := genS_keep (nt := nt) b .inner ⟨(genWhlCnd nt c (t.n + 1)).2.2,
      (genWhlCnd nt c (t.n + 1)).2.1, if r.isNone then some (t.n + 1) else none, t.ret⟩
    have hs := whlCnd_steps L hw.1 h1 (hk.brk.res fun k hk => by rw [hk] at h4; exact h4.head) hc
      st ar rg
    rw [if_pos rfl] at hs
    refine ⟨_, ((step1 hat rfl).trans hs).trans (steps_printLab h4), ?_⟩
    simp only [Ends, List.length_append, List.length_cons, Cfg.mk.injEq, and_true]
    omega
  | @whlB c b r s s1 s2 hc hx ih =>
    intro hw p t pc pB pC pR hat hB hC hR st ar rg
    simp only [genS] at hat hB hC hR ⊢
    obtain ⟨h1, h234⟩ := at_append.1 hat.tail
    obtain ⟨h2, h34⟩ := at_append.1 h234
    obtain ⟨h3, h4⟩ := at_append.1 h34
    have hk := genS_keep (nt := nt) b .inner ⟨(genWhlCnd nt c (t.n + 1)).2.2,
      (genWhlCnd nt c (t.n + 1)).2.1, if r.isNone then some (t.n + 1) else none, t.ret⟩
    have hs := whlCnd_steps L hw.1 h1 (hk.brk.res fun k hk => by rw [hk] at h4; exact h4.head) hc
      st ar rg
    rw [if_neg (by simp)] at hs
    obtain ⟨pC', hC', hend⟩ := whlEnd_steps L hw.2.2 h3 hat.head fun hr =>
      hk.cnt _ (by simp [hr])
    obtain ⟨c', hs', he⟩ := ih hw.2.1 .inner _ _ _ pC' pR h2
      (fun k hk => by rw [hk] at h4; exact h4.head) hC' hR st ar rg
    have hs := hs'.pre ((step1 hat rfl).trans hs)
    cases he
    refine ⟨_, hs.trans (steps_printLab h4), ?_⟩
    simp only [Ends, List.length_append, List.length_cons, Cfg.mk.injEq, and_true]
    omega
  | @whlR c b r s s1 v s2 hc hx ih =>
    intro hw p t pc pB pC pR hat hB hC hR st ar rg
    simp only [genS] at hat hB hC hR ⊢
    obtain ⟨h1, h234⟩ := at_append.1 hat.tail
    obtain ⟨h2, h34⟩ := at_append.1 h234
    obtain ⟨h3, h4⟩ := at_append.1 h34
    have hk := genS_keep (nt := nt) b .inner ⟨(genWhlCnd nt c (t.n + 1)).2.2,
      (genWhlCnd nt c (t.n + 1)).2.1, if r.isNone then some (t.n + 1) else none, t.ret⟩
    have hs := whlCnd_steps L hw.1 h1 (hk.brk.res fun k hk => by rw [hk] at h4; exact h4.head) hc
      st ar rg
    rw [if_neg (by simp)] at hs
    obtain ⟨pC', hC', hend⟩ := whlEnd_steps L hw.2.2 h3 hat.head fun hr =>
      hk.cnt _ (by simp [hr])
    obtain ⟨c', hs', he⟩ := ih hw.2.1 .inner _ _ _ pC' pR h2
      (fun k hk => by rw [hk] at h4; exact h4.head) hC' hR st ar rg
    have hs := hs'.pre ((step1 hat rfl).trans hs)
    exact ⟨_, hs, ends_weaken he (by simp) rfl⟩
  | @whlL c b r s s1 o s2 s3 o' s4 hc hx ho heff hl ih ih2 =>
    intro hw p t pc pB pC pR hat hB hC hR st ar rg
    have hat0 := hat
    have hB0 := hB
    have hC0 := hC
    have hR0 := hR
    simp only [genS] at hat hB hC hR ⊢
    obtain ⟨h1, h234⟩ := at_append.1 hat.tail
    obtain ⟨h2, h34⟩ := at_append.1 h234
    obtain ⟨h3, h4⟩ := at_append.1 h34
    have hk := genS_keep (nt := nt) b .inner ⟨(genWhlCnd nt c (t.n + 1)).2.2,
      (genWhlCnd nt c (t.n + 1)).2.1, if r.isNone then some (t.n + 1) else none, t.ret⟩
    have hs := whlCnd_steps L hw.1 h1 (hk.brk.res fun k hk => by rw [hk] at h4; exact h4.head) hc
      st ar rg
    rw [if_neg (by simp)] at hs
    obtain ⟨pC', hC', hend⟩ := whlEnd_steps L hw.2.2 h3 hat.head fun hr =>
      hk.cnt _ (by simp [hr])
    obtain ⟨c', hs', he⟩ := ih hw.2.1 .inner _ _ _ pC' pR h2
      (fun k hk => by rw [hk] at h4; exact h4.head) hC' hR st ar rg
    have hs := hs'.pre ((step1 hat rfl).trans hs)
    obtain ⟨hn, hcn⟩ := hend s2 s3 st ar rg heff
    obtain ⟨c2, hs2, he2⟩ := ih2 hw p t pc pB pC pR hat0 hB0 hC0 hR0 st ar rg
    refine ⟨c2, ?_, he2⟩
    rcases ho with rfl | rfl
    · cases he
      refine hs2.pre (Steps.trans hs (hn ?_))
      cases hj : jmpBlock b with
      | false => rfl
      | true => exact absurd rfl (jmpBlock_not_normal hx hj)
    · cases he
      exact hs2.pre (Steps.trans hs (hcn (cnt_alloc hx rfl _ _)))
  | @doB b c s s1 hx ih =>
    intro hw p t pc pB pC pR hat hB hC hR st ar rg
    simp only [genS] at hat hB hC hR ⊢
    obtain ⟨h1, h234⟩ := at_append.1 hat.tail
    obtain ⟨h2, h34⟩ := at_append.1 h234
    obtain ⟨h3, h4⟩ := at_append.1 h34
    obtain ⟨c', hs', he⟩ := ih hw.1 .inner _ _ _ _ pR h1
      (fun k hk => by rw [hk] at h4; exact h4.head) (fun k hk => by rw [hk] at h2; exact h2.head)
      hR st ar rg
    have hs := hs'.pre (step1 hat rfl)
    cases he
    refine ⟨_, hs.trans (steps_printLab h4), ?_⟩
    simp only [Ends, List.length_append, List.length_cons, Cfg.mk.injEq, and_true]
    omega
  | @doR b c s v s1 hx ih =>
    intro hw p t pc pB pC pR hat hB hC hR st ar rg
    simp only [genS] at hat hB hC hR ⊢
    obtain ⟨h1, h234⟩ := at_append.1 hat.tail
    obtain ⟨h2, h34⟩ := at_append.1 h234
    obtain ⟨h3, h4⟩ := at_append.1 h34
    obtain ⟨c', hs', he⟩ := ih hw.1 .inner _ _ _ _ pR h1
      (fun k hk => by rw [hk] at h4; exact h4.head) (fun k hk => by rw [hk] at h2; exact h2.head)
      hR st ar rg
    have hs := hs'.pre (step1 hat rfl)
    exact ⟨_, hs, ends_weaken he (by simp) rfl⟩
  | @doF b c s o s1 s2 hx ho hc ih =>
    intro hw p t pc pB pC pR hat hB hC hR st ar rg
    simp only [genS] at hat hB hC hR ⊢
    obtain ⟨h1, h234⟩ := at_append.1 hat.tail
    obtain ⟨h2, h34⟩ := at_append.1 h234
    obtain ⟨h3, h4⟩ := at_append.1 h34
    obtain ⟨c', hs', he⟩ := ih hw.1 .inner _ _ _ _ pR h1
      (fun k hk => by rw [hk] at h4; exact h4.head) (fun k hk => by rw [hk] at h2; exact h2.head)
      hR st ar rg
    have hs := hs'.pre (step1 hat rfl)
    have hcs := cnd_steps L hw.2 rfl h3 (pJ := pc) (fun k hk => ?_) hc st ar rg
    · rw [if_neg (by simp)] at hcs
      refine ⟨_, (hs.steps.trans ?_).trans (hcs.trans (steps_printLab h4)), ?_⟩
      · rcases ho with rfl | rfl
        · cases he; exact steps_printLab h2
        · cases he; exact steps_printLab h2
      · simp only [Ends, List.length_append, List.length_cons, Cfg.mk.injEq, and_true]
        omega
    · rw [genCnd_label rfl] at hk; cases hk; exact hat.head
  | @doL b c s o s1 s2 o' s3 hx ho hc hl ih ih2 =>
    intro hw p t pc pB pC pR hat hB hC hR st ar rg
    have hat0 := hat
    have hB0 := hB
    have hC0 := hC
    have hR0 := hR
    simp only [genS] at hat hB hC hR ⊢
    obtain ⟨h1, h234⟩ := at_append.1 hat.tail
    obtain ⟨h2, h34⟩ := at_append.1 h234
    obtain ⟨h3, h4⟩ := at_append.1 h34
    obtain ⟨c', hs', he⟩ := ih hw.1 .inner _ _ _ _ pR h1
      (fun k hk => by rw [hk] at h4; exact h4.head) (fun k hk => by rw [hk] at h2; exact h2.head)
      hR st ar rg
    have hs := hs'.pre (step1 hat rfl)
    obtain ⟨c2, hs2, he2⟩ := ih2 hw p t pc pB pC pR hat0 hB0 hC0 hR0 st ar rg
    have hcs := cnd_steps L hw.2 rfl h3 (pJ := pc) (fun k hk => ?_) hc st ar rg
    · rw [if_pos rfl] at hcs
      refine ⟨_, hs2.pre ((hs.steps.trans ?_).trans hcs), he2⟩
      rcases ho with rfl | rfl
      · cases he; exact steps_printLab h2
      · cases he; exact steps_printLab h2
    · rw [genCnd_label rfl] at hk; cases hk; exact hat.head
  | brk =>
    intro hw p t pc pB pC pR hat hB hC hR st ar rg
    simp only [genS] at hat hB hC hR ⊢
    cases h : t.brk with
    | some k =>
      simp only [h] at hat hB ⊢
      exact ⟨_, jmp_steps hat (hB k rfl) _, rfl⟩
    | none =>
      simp only [h] at hat hB ⊢
      exact ⟨_, jmp_steps hat (hB _ rfl) _, rfl⟩
  | cnt =>
    intro hw p t pc pB pC pR hat hB hC hR st ar rg
    simp only [genS] at hat hB hC hR ⊢
    cases h : t.cnt with
    | some k =>
      simp only [h] at hat hC ⊢
      exact ⟨_, jmp_steps hat (hC k rfl) _, rfl⟩
    | none =>
      simp only [h] at hat hC ⊢
      exact ⟨_, jmp_steps hat (hC _ rfl) _, rfl⟩
  | ret0 => exact genRet_ok L .ret0
  | ret h => exact genRet_ok L (.ret h)
  | @seqN k a b s s1 o s2 h1 h2 ih1 ih2 =>
    intro hw p t pc pB pC pR hat hB hC hR st ar rg
    simp only [genS] at hat hB hC hR ⊢
    obtain ⟨ha, hb⟩ := at_append.1 hat
    have hk := genS_keep (nt := nt) b p.right (genS nt .inner a t).2
    obtain ⟨c', hs, he⟩ := ih1 hw.1 .inner t pc pB pC pR ha (hk.brk.res hB) (hk.cnt.res hC)
      (hk.ret.res hR) st ar rg
    cases he
    obtain ⟨c', hs', he⟩ := ih2 hw.2 p.right _ _ pB pC pR hb hB hC hR st ar rg
    refine ⟨c', hs'.pre hs.steps, ?_⟩
    cases o with
    | normal =>
      cases he
      simp only [Ends, List.length_append, Nat.add_assoc]
    | brk => exact he
    | cnt => exact he
    | ret v =>
      rcases he.2 with h | ⟨h, hp⟩
      · exact ⟨he.1, .inl h⟩
      · refine ⟨he.1, .inr ⟨?_, right_inner hp⟩⟩
        rw [h]
        simp only [List.length_append, Nat.add_assoc]
  | @seqX k a b s o s1 h1 ho ih =>
    intro hw p t pc pB pC pR hat hB hC hR st ar rg
    simp only [genS] at hat hB hC hR ⊢
    obtain ⟨ha, hb⟩ := at_append.1 hat
    have hk := genS_keep (nt := nt) b p.right (genS nt .inner a t).2
    obtain ⟨c', hs, he⟩ := ih hw.1 .inner t pc pB pC pR ha (hk.brk.res hB) (hk.cnt.res hC)
      (hk.ret.res hR) st ar rg
    exact ⟨c', hs, ends_weaken he ho rfl⟩

end Cmm.Gen
