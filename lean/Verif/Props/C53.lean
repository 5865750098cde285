import Verif.Tac.Machine
import Verif.Tac.Forms2

/-
C53: comparison results and conditional jumps of src/vm2tac.c.

True: the negated jump (n+3)%6, the mirrored jump swapJcc, and the meaning of the six jumps after
CMP (`C53_neg`, `C53_swap`, `C53_jump`, `C53_boolJmp`).
False: a value tested by JT/JF or compared with 0 is not always tested on its own value
(`C53_assigned_false`, `C53_compared_false`, `C53_overflow_false`).
-/
namespace Cmm.Tac

/-- Specification: the six conditions on signed numbers, in the order of the array jcc. -/
def cond (n : Nat) (x y : Word) : Prop :=
  match n with
  | 0 => x.toInt < y.toInt
  | 1 => x.toInt ≤ y.toInt
  | 2 => x.toInt = y.toInt
  | 3 => x.toInt ≥ y.toInt
  | 4 => x.toInt > y.toInt
  | _ => x.toInt ≠ y.toInt

/-- Negating a condition by (n+3)%6 (vm2tac.c:427, 865). -/
theorem C53_neg (n : Nat) (hn : n < 6) (x y : Word) : cond ((n + 3) % 6) x y ↔ ¬ cond n x y := by
  rcases n with _ | _ | _ | _ | _ | _ | n <;> simp [cond]
  omega

/-- Mirroring a condition by swapJcc. -/
theorem C53_swap (n : Nat) (hn : n < 6) (x y : Word) : cond (swapJcc n) x y ↔ cond n y x := by
  rcases n with _ | _ | _ | _ | _ | _ | n <;>
    simp [cond, swapJcc, JLT, JLE, JGE, JGT]
  · exact eq_comm
  · exact not_congr eq_comm
  · omega

theorem holds_cmp (n : Nat) (x y : Word) : holds n (x.slt y) (x == y) = true ↔ cond n x y := by
  have e : (x == y) = true ↔ x.toInt = y.toInt := by
    rw [beq_iff_eq, BitVec.toInt_inj]
  have l : x.slt y = true ↔ x.toInt < y.toInt := by simp [BitVec.slt]
  have e' : (x == y) = false ↔ ¬ x.toInt = y.toInt := by rw [← e]; simp
  have l' : x.slt y = false ↔ ¬ x.toInt < y.toInt := by rw [← l]; simp
  rcases n with _ | _ | _ | _ | _ | _ | n <;>
    simp only [holds, cond, Bool.or_eq_true, Bool.not_eq_true', Bool.or_eq_false_iff, e, l, e', l'] <;> omega

/-- After `CMP Gr,s` the jump jcc[n] is taken iff the condition holds of the two operands. -/
theorem C53_jump (E : Env) (m : M) (r : Int) (s : Src) (n : Nat) (l : Lbl) :
    ∃ m', exec E [.op .CMP (.g r) s, .jcc n l] ⟨m, none⟩ =
        some ⟨m', if holds n ((m.g r).slt (srcVal E m s)) (m.g r == srcVal E m s) then some l else none⟩ ∧
      (holds n ((m.g r).slt (srcVal E m s)) (m.g r == srcVal E m s) = true ↔
        cond n (m.g r) (srcVal E m s)) := by
  refine ⟨m.doOp E .CMP (.g r) s, ?_, holds_cmp n _ _⟩
  simp only [exec, X.line, M.line, Option.map_some, Option.bind_some, M.doOp, flags, M.reg]
  split <;> rfl

/-- JT and JF on the result of a comparison that is still in the flags (boolJmp, vm2tac.c:421-439,
first branch): the jump is taken iff the compared values satisfy (JT) or do not satisfy (JF) the
condition remembered in `jcc`. -/
theorem C53_boolJmp (E : Env) (m : M) (t t' : T) (a : Int) (es : List Ent) (tf : Bool) (l : Nat)
    (x y : Word) (hs : t.stk = ⟨.FLAG, a⟩ :: es) (hj : t.jcc < 6)
    (hlt : m.lt = x.slt y) (hz : m.z = (x == y)) (h : boolJmp tf l t = some t') :
    ∃ line b, t'.out = t.out ++ [line] ∧ exec E [line] ⟨m, none⟩ = some ⟨m, b⟩ ∧
      (b = some (.L l) ↔ if tf then cond t.jcc x y else ¬ cond t.jcc x y) ∧
      (b ≠ some (.L l) → b = none) := by
  have key : ∃ n, (n = if tf then t.jcc else (t.jcc + 3) % 6) ∧
      t'.out = t.out ++ [.jcc n (.L l)] := by
    refine ⟨_, rfl, ?_⟩
    unfold boolJmp at h
    simp only [top, hs, List.head?_cons, Option.bind_eq_bind, Option.bind_some, if_true, T.print] at h
    by_cases hp : t.flg ≠ t.ptr
    · rw [if_pos hp] at h; cases h
    · rw [if_neg hp] at h
      rw [relPop (e := ⟨.FLAG, a⟩) (es := es) rfl h]
      rfl
  obtain ⟨n, hn, ho⟩ := key
  refine ⟨.jcc n (.L l), if holds n m.lt m.z then some (.L l) else none, ho, ?_, ?_, ?_⟩
  · simp only [exec, X.line, Option.bind_some]
    split <;> rfl
  · rw [hlt, hz]
    have hc := holds_cmp n x y
    cases tf with
    | true =>
      simp only [if_true] at hn ⊢
      subst hn
      rw [← hc]
      cases holds t.jcc (x.slt y) (x == y) <;> simp
    | false =>
      simp only [Bool.false_eq_true, if_false] at hn ⊢
      subst hn
      rw [← C53_neg _ hj, ← hc]
      cases holds ((t.jcc + 3) % 6) (x.slt y) (x == y) <;> simp
  · split <;> simp

/-- A comparison that is in the flags and tested by JF. -/
example : ∃ t t' : T, emits (fun n => n) [.i (.ldL 1), .i (.ldL 2), .i (.a2 .LT)] T.init = some t ∧
    t.stk = [⟨.FLAG, 0⟩] ∧ boolJmp false 7 t = some t' ∧
    t'.out = [.op .CMP (.g 3) (.reg (.g 4)), .jcc 3 (.L 7)] := by
  refine ⟨_, _, rfl, rfl, rfl, rfl⟩

/-- The code of `if (b = x < y)`: x and y are the first two local variables, b is the global
variable with name index 5. -/
def assignedCode : List Vm :=
  [.i (.ldL 1), .i (.ldL 2), .i (.a2 .LT), .i (.stG 5), .i (.jf 7)]

/-- `if (b = x < y)`: whenever x > y, b becomes 0 but JF does not jump. -/
theorem C53_assigned_false (E : Env) (m : M) (h : (m.g 3).toInt > (m.g 4).toInt) :
    ∃ t m', emits (fun n => n) assignedCode T.init = some t ∧
      exec E t.out ⟨m, none⟩ = some ⟨m', none⟩ ∧ m'.mem.lw (E.adr 5) = 0 := by
  have hlt : (m.g 3).slt (m.g 4) = false := by
    simp [BitVec.slt]; omega
  have heq : (m.g 3 == m.g 4) = false := by
    simp only [beq_eq_false_iff_ne, ne_eq]
    intro he; rw [he] at h; omega
  obtain ⟨t, ht, ho⟩ : ∃ t, emits (fun n => n) assignedCode T.init = some t ∧
      t.out = [.op .CMP (.g 3) (.reg (.g 4)), .op .LD (.g 0) (.imm 1), .jcc 0 (.T 0),
        .op .LD (.g 0) (.imm 0), .lab (.T 0), .st 0 (.glb 5), .jcc 2 (.L 7)] := ⟨_, rfl, rfl⟩
  refine ⟨t, { m with
      g := setG (setG (setG m.g 3 (m.g 3)) 0 1) 0 0
      lt := false, z := false, mem := m.mem.sw (E.adr 5) 0 }, ht, ?_, ?_⟩
  · rw [ho]
    simp [exec, X.line, M.line, M.doOp, M.reg, srcVal, flags, alu, M.setReg, holds, hlt,
      heq, M.doSt]
    simp [setG]
  · simp [Mem.lw_sw_same]

example : ((3 : Word).toInt > (2 : Word).toInt) := by decide

/-- The code of `if ((x < y) == false)`, tested by JT. -/
def comparedCode : List Vm :=
  [.i (.ldL 1), .i (.ldL 2), .i (.a2 .LT), .i (.ldC 0), .i (.a2 .EQ), .i (.jt 7)]

/-- `(x < y) == 0`: whenever x > y the value is true, but JT does not jump: the comparison with 0
is left out (vm2tac.c:755) and the flags still tell whether x equals y. -/
theorem C53_compared_false (E : Env) (m : M) (h : (m.g 3).toInt > (m.g 4).toInt) :
    ∃ t m', emits (fun n => n) comparedCode T.init = some t ∧
      exec E t.out ⟨m, none⟩ = some ⟨m', none⟩ := by
  have hlt : (m.g 3).slt (m.g 4) = false := by
    simp [BitVec.slt]; omega
  have heq : (m.g 3 == m.g 4) = false := by
    simp only [beq_eq_false_iff_ne, ne_eq]
    intro he; rw [he] at h; omega
  obtain ⟨t, ht, ho⟩ : ∃ t, emits (fun n => n) comparedCode T.init = some t ∧
      t.out = [.op .CMP (.g 3) (.reg (.g 4)), .jcc 2 (.L 7)] := ⟨_, rfl, rfl⟩
  refine ⟨t, m.doOp E .CMP (.g 3) (.reg (.g 4)), ht, ?_⟩
  rw [ho]
  simp [exec, X.line, M.line, M.doOp, M.reg, srcVal, flags, alu, M.setReg, holds, heq]

/-- The code of `if (x - y < 0)`, tested by JT. -/
def overflowCode : List Vm :=
  [.i (.ldL 1), .i (.ldL 2), .i (.a2 .SUB), .i (.ldC 0), .i (.a2 .LT), .i (.jt 7)]

/-- `x - y < 0` with x = -32768, y = 1, on a machine whose V flag after SUB is the signed
overflow: the difference is 32767, which is not negative, but JT jumps. -/
theorem C53_overflow_false (E : Env) (m : M)
    (hv : ∀ x y : Word, E.v .SUB x y = decide ((x - y).toInt ≠ x.toInt - y.toInt))
    (hx : m.g 3 = 0x8000) (hy : m.g 4 = 1) :
    ∃ t m', emits (fun n => n) overflowCode T.init = some t ∧
      exec E t.out ⟨m, none⟩ = some ⟨m', some (.L 7)⟩ ∧ ¬ (m.g 3 - m.g 4).toInt < 0 := by
  obtain ⟨t, ht, ho⟩ : ∃ t, emits (fun n => n) overflowCode T.init = some t ∧
      t.out = [.op .LD (.g 0) (.reg (.g 3)), .op .SUB (.g 0) (.reg (.g 4)), .jcc 0 (.L 7)] :=
    ⟨_, rfl, rfl⟩
  refine ⟨t, (m.doOp E .LD (.g 0) (.reg (.g 3))).doOp E .SUB (.g 0) (.reg (.g 4)), ht, ?_, ?_⟩
  · rw [ho]
    simp only [exec, X.line, M.line, Option.map_some, Option.bind_some]
    rw [if_pos]
    simp [M.doOp, M.reg, srcVal, flags, alu, M.setReg, setG, holds, hx, hy, ovf, hv]
    rfl
  · rw [hx, hy]; decide

end Cmm.Tac
