import Verif.Gen.StmtOk
import Verif.Props.C44

/-
C46: the code of statements and functions follows their execution.

The specification `Exec` (Verif/Tree/Stmt.lean) is a big-step semantics without labels and
jumps. The conditions are: the expressions are well-formed (`WfS`), and `break` and `continue`
are inside loops (`NoBC`), which the parser guarantees (parser.c:867-879).
-/
namespace Cmm.Gen
open Cmm.Tree Cmm.Opt

variable {σ : Type}

/-- No `break` or `continue` outside of a loop. -/
def NoBC : Stmt → Prop
  | .brk | .cnt => False
  | .ifs _ a => NoBC a
  | .els _ a b => NoBC a ∧ NoBC b
  | .seq _ a b => NoBC a ∧ NoBC b
  | _ => True

theorem NoBC.exec {ev : Expr → Den σ} {S : Stmt} {s o s'} (h : Exec ev S s o s') :
    NoBC S → o ≠ .brk ∧ o ≠ .cnt := by
  induction h with
  | brk => exact fun h => h.elim
  | cnt => exact fun h => h.elim
  | ifT _ _ ih => exact ih
  | elsT _ _ ih => exact fun h => ih h.1
  | elsF _ _ ih => exact fun h => ih h.2
  | whlL _ _ _ _ _ _ ih2 => exact fun h => ih2 h
  | doL _ _ _ _ _ ih2 => exact fun h => ih2 h
  | seqN _ _ _ ih2 => exact fun h => ih2 h.2
  | seqX _ _ ih => exact fun h => ih h.1
  | _ => intro _; simp

/-- The labels for `break` and `continue` do not matter for such statements. -/
theorem NoBC.gen (nt : NT) {S : Stmt} : NoBC S → ∀ (p : Pos) (t : St) (b c : Option Nat),
    genS nt p S { t with brk := b, cnt := c } =
      ((genS nt p S t).1, { (genS nt p S t).2 with brk := b, cnt := c }) := by
  induction S with
  | empty => intro _ p t b c; rfl
  | exp e => intro _ p t b c; rfl
  | ifs c a ih =>
    intro h p t b' c'
    have := ih h p.right { t with n := (genCnd nt c false ⟨none, 0⟩ t.n).2.2 } b' c'
    simp only [genS, this]
  | els c a b iha ihb =>
    intro h p t b' c'
    have h1 := iha h.1 .inner { t with n := (genCnd nt c false ⟨none, 0⟩ t.n).2.2 } b' c'
    simp only [genS, h1]
    split
    · have h2 := ihb h.2 p.right
        (genS nt .inner a { t with n := (genCnd nt c false ⟨none, 0⟩ t.n).2.2 }).2 b' c'
      simp only [h2]
    · have h2 := ihb h.2 p.right
        { (genS nt .inner a { t with n := (genCnd nt c false ⟨none, 0⟩ t.n).2.2 }).2 with
          n := (genS nt .inner a { t with n := (genCnd nt c false ⟨none, 0⟩ t.n).2.2 }).2.n + 1 } b' c'
      simp only [h2]
  | whl c a re ih => intro _ p t b' c'; rfl
  | dos a c ih => intro _ p t b' c'; rfl
  | brk => exact fun h => h.elim
  | cnt => exact fun h => h.elim
  | ret e =>
    intro _ p t b' c'
    simp only [genS, genRet]
    split
    · cases h : t.ret with
      | some k => rfl
      | none => rfl
    · rfl
  | seq k a b iha ihb =>
    intro h p t b' c'
    have h1 := iha h.1 .inner t b' c'
    have h2 := ihb h.2 p.right (genS nt .inner a t).2 b' c'
    simp only [genS, h1, h2]

/-- **Statements**, wherever they are in a function: a statement that ends normally reaches the
end of its code, `break` and `continue` reach the labels of the loop around, `return` moves
the value to the register and reaches the end of the function (`pR`) or, for the last
statement, the end of the code. The stack is as before. -/
theorem C46_statement (w : World σ) (nt : NT) (L : Layout w nt) (S : Stmt) (hw : WfS w nt S)
    (P : List Instr) (p : Pos) (t : St) (pc pB pC pR : Nat) (hat : At P pc (genS nt p S t).1)
    (hB : ∀ k, (genS nt p S t).2.brk = some k → P[pB]? = some (.lab k))
    (hC : ∀ k, (genS nt p S t).2.cnt = some k → P[pC]? = some (.lab k))
    (hR : ∀ k, (genS nt p S t).2.ret = some k → P[pR]? = some (.lab k))
    (st ar : List Word) (rg : Word) (s : σ) (o : Outcome) (s' : σ)
    (h : Exec (evalG w) S s o s') :
    ∃ pc', Steps w P ⟨pc, ⟨st, ar, rg, s⟩⟩
        ⟨pc', ⟨st, ar, match o with | .ret (some v) => v | _ => rg, s'⟩⟩ ∧
      match o with
      | .normal => pc' = pc + (genS nt p S t).1.length
      | .brk => pc' = pB
      | .cnt => pc' = pC
      | .ret _ => pc' = pR ∨ pc' = pc + (genS nt p S t).1.length ∧ p ≠ .inner := by
  obtain ⟨⟨pc', d⟩, hs, he⟩ := genS_ok L h hw p t pc pB pC pR hat hB hC hR st ar rg
  cases o with
  | normal => cases he; exact ⟨_, hs, rfl⟩
  | brk => cases he; exact ⟨_, hs, rfl⟩
  | cnt => cases he; exact ⟨_, hs, rfl⟩
  | ret v =>
    obtain ⟨h1, h2⟩ := he
    simp only at h1
    subst h1
    refine ⟨pc', ?_, h2⟩
    cases v with
    | none => exact hs
    | some v => exact hs.steps

/-- **Functions**: from behind the entry instruction the code of a function reaches its return
instruction, with the state after the execution of the body, the stack as before and the
returned value, if there is one, in the register. -/
theorem C46_function (w : World σ) (nt : NT) (L : Layout w nt) (S : Stmt) (hw : WfS w nt S)
    (hbc : NoBC S) (P : List Instr) (idx : Int) (intr krn : Bool) (depth : Int) (n pc : Nat)
    (hat : At P pc (genFunc nt idx intr krn depth S n).1)
    (st ar : List Word) (rg : Word) (s : σ) (o : Outcome) (s' : σ)
    (h : Exec (evalG w) S s o s') :
    ∃ pc', P[pc']? = some (if intr then .retI else .ret) ∧
      pc' + 1 = pc + (genFunc nt idx intr krn depth S n).1.length ∧
      Steps w P ⟨pc + 2, ⟨st, ar, rg, s⟩⟩
        ⟨pc', ⟨st, ar, match o with | .ret (some v) => v | _ => rg, s'⟩⟩ := by
  have hg := NoBC.gen nt hbc .root ⟨n, none, none, none⟩ (some 0) (some 0)
  have hg0 := NoBC.gen nt hbc .root ⟨n, none, none, none⟩ none none
  simp only at hg hg0
  unfold genFunc at hat ⊢
  rw [hg] at hat ⊢
  dsimp only at hat ⊢
  generalize hr : genS nt .root S ⟨n, none, none, none⟩ = r at hat hg0
  obtain ⟨h1, h23⟩ := at_append.1 hat.tail.tail
  obtain ⟨h2, h3⟩ := at_append.1 h23
  have hb : r.2.brk = none := by rw [hg0]
  have hc : r.2.cnt = none := by rw [hg0]
  obtain ⟨pc', hs, he⟩ := C46_statement w nt L S hw P .root ⟨n, none, none, none⟩ (pc + 2) 0 0
    (pc + 2 + r.1.length) (by rw [hr]; exact h1) (by rw [hr, hb]; simp) (by rw [hr, hc]; simp)
    (by rw [hr]; intro k hk; rw [hk] at h2; exact h2.head) st ar rg s o s' h
  have hpc : pc' = pc + 2 + r.1.length := by
    rw [hr] at he
    obtain ⟨hn1, hn2⟩ := NoBC.exec h hbc
    cases o with
    | normal => exact he
    | brk => exact absurd rfl hn1
    | cnt => exact absurd rfl hn2
    | ret v => rcases he with h | ⟨h, -⟩ <;> exact h
  subst hpc
  refine ⟨_, h3.head, ?_, hs.trans (steps_printLab h2)⟩
  simp only [List.length_cons, List.length_append, List.length_nil]
  omega

/-- If the operands of the expressions are ordered as in C44, the executions are those with
evaluation from left to right. -/
def OrderedS : Stmt → Prop
  | .empty | .brk | .cnt => True
  | .exp e => Ordered e
  | .ifs c a => Ordered c ∧ OrderedS a
  | .els c a b => Ordered c ∧ OrderedS a ∧ OrderedS b
  | .whl c a re => (∀ e, c = some e → Ordered e) ∧ OrderedS a ∧ (∀ e, re = some e → Ordered e)
  | .dos a c => OrderedS a ∧ Ordered c
  | .ret e => ∀ x, e = some x → Ordered x
  | .seq _ a b => OrderedS a ∧ OrderedS b

theorem cond_ordered {w : World σ} {c : Expr} (h : Ordered c) {s b s'} :
    Cond (evalLR w) c s b s' → Cond (evalG w) c s b s' := by
  rintro ⟨vs, hv, hb⟩
  exact ⟨vs, by rw [C44_ordered_guarded w c h]; exact hv, hb⟩

theorem C46_ordered_guarded (w : World σ) (S : Stmt) (hS : OrderedS S) (s : σ) (o : Outcome) (s' : σ)
    (h : Exec (evalLR w) S s o s') : Exec (evalG w) S s o s' := by
  have condO : ∀ {c : Option Expr}, (∀ e, c = some e → Ordered e) → ∀ {s b s'},
      CondO (evalLR w) c s b s' → CondO (evalG w) c s b s' := by
    intro c hc s b s' h
    cases c with
    | none => exact h
    | some e => exact cond_ordered (hc e rfl) h
  have eff : ∀ {c : Option Expr}, (∀ e, c = some e → Ordered e) → ∀ {s s'},
      Eff (evalLR w) c s s' → Eff (evalG w) c s s' := by
    intro c hc s s' h
    cases c with
    | none => exact h
    | some e => obtain ⟨vs, hv⟩ := h; exact ⟨vs, by rw [C44_ordered_guarded w e (hc e rfl)]; exact hv⟩
  induction h with
  | empty => exact .empty
  | @exp e _ _ _ h => exact .exp (by rw [C44_ordered_guarded w e hS]; exact h)
  | ifT hc _ ih => exact .ifT (cond_ordered hS.1 hc) (ih hS.2)
  | ifF hc => exact .ifF (cond_ordered hS.1 hc)
  | elsT hc _ ih => exact .elsT (cond_ordered hS.1 hc) (ih hS.2.1)
  | elsF hc _ ih => exact .elsF (cond_ordered hS.1 hc) (ih hS.2.2)
  | whlF hc => exact .whlF (condO hS.1 hc)
  | whlB hc _ ih => exact .whlB (condO hS.1 hc) (ih hS.2.1)
  | whlR hc _ ih => exact .whlR (condO hS.1 hc) (ih hS.2.1)
  | whlL hc _ ho he _ ih ih2 =>
    exact .whlL (condO hS.1 hc) (ih hS.2.1) ho (eff hS.2.2 he) (ih2 hS)
  | doB _ ih => exact .doB (ih hS.1)
  | doR _ ih => exact .doR (ih hS.1)
  | doF _ ho hc ih => exact .doF (ih hS.1) ho (cond_ordered hS.2 hc)
  | doL _ ho hc _ ih ih2 => exact .doL (ih hS.1) ho (cond_ordered hS.2 hc) (ih2 hS)
  | brk => exact .brk
  | cnt => exact .cnt
  | ret0 => exact .ret0
  | @ret e _ _ _ h => exact .ret (by rw [C44_ordered_guarded w e (hS e rfl)]; exact h)
  | seqN _ _ ih ih2 => exact .seqN (ih hS.1) (ih2 hS.2)
  | seqX _ ho ih => exact .seqX (ih hS.1) ho

/-- The same for worlds in which everything is defined. -/
theorem C46_ordered (w : World σ) (ht : w.Total) (S : Stmt) (hS : OrderedS S) (s : σ) (o : Outcome) (s' : σ)
    (h : Exec (eval w) S s o s') : Exec (evalG w) S s o s' := by
  have : evalLR w = eval w := funext (evalP_false w ht)
  rw [← this] at h
  exact C46_ordered_guarded w S hS s o s' h

/-! ### Examples -/

/-- `for (;x<10;x=x+1) { if (x==3) continue; if (x==5) return x; y=y+x; } return y;` -/
def exLoop : Stmt :=
  .seq true (.whl (some (.bin .lt (.leaf .loc 1) (.cnst 10)))
    (.seq true (.ifs (.bin .equ (.leaf .loc 1) (.cnst 3)) .cnt)
      (.seq false (.ifs (.bin .equ (.leaf .loc 1) (.cnst 5)) (.ret (some (.leaf .loc 1))))
        (.exp (.assV .loc 2 (.bin .add (.leaf .loc 2) (.leaf .loc 1))))))
    (some (.assV .loc 1 (.bin .add (.leaf .loc 1) (.cnst 1)))))
    (.ret (some (.leaf .loc 2)))

example : WfS exGW0 exNT0 exLoop ∧ NoBC exLoop := by
  simp [exLoop, WfS, Wf, NoBC]

/-- The last return needs no jump. -/
example : (genFunc exNT0 7 false false 2 exLoop 0).1 =
    [.nam 7, .entry 2, .lab 1, .ldL 1, .ldC 10, .a2 .LT, .jf 2,
     .ldL 1, .ldC 3, .a2 .EQ, .jf 3, .jmp 4, .lab 3,
     .ldL 1, .ldC 5, .a2 .EQ, .jf 5, .ldL 1, .mreg, .jmp 6, .lab 5,
     .ldL 2, .ldL 1, .a2 .ADD, .stL 2, .pop,
     .lab 4, .ldL 1, .ldC 1, .a2 .ADD, .stL 1, .pop, .jmp 1, .lab 2,
     .ldL 2, .mreg, .lab 6, .ret] := by decide

/-- From x = 3 and y = 0 it skips 3, adds 4 and returns 5. -/
example : ∃ v s', Exec (evalG exGW0) exLoop (fun m => if m = 1 then 3 else 0) (.ret (some v)) s' ∧
    v = 5 ∧ s' 2 = 4 := by
  refine ⟨_, _, .seqX (.whlL (.intro _ ⟨rfl, ?_⟩) (.seqX (.ifT (.intro _ ⟨rfl, ?_⟩) .cnt) (by simp))
    (.inr rfl) (.intro _ rfl) (.whlL (.intro _ ⟨rfl, ?_⟩) (.seqN (.ifF (.intro _ ⟨rfl, ?_⟩))
      (.seqN (.ifF (.intro _ ⟨rfl, ?_⟩)) (.exp rfl))) (.inl rfl) (.intro _ rfl)
      (.whlR (.intro _ ⟨rfl, ?_⟩) (.seqN (.ifF (.intro _ ⟨rfl, ?_⟩))
        (.seqX (.ifT (.intro _ ⟨rfl, ?_⟩) (.ret rfl)) (by simp)))))) (by simp),
    ?_, ?_⟩ <;> decide

end Cmm.Gen
