import Verif.Tac.Step3

/-
Conditional jumps: JT and JF (boolJmp, vm2tac.c:421-439) jump iff the value on top of the stack of the
stack machine says so.
-/
namespace Cmm.Tac
open Cmm.Tree (World ofB)
open Cmm.Gen (Instr A1 A2 Data)

theorem holds_neg {j : Nat} (hj : j < 6) (lt z : Bool) : holds ((j + 3) % 6) lt z = !holds j lt z := by
  rcases j with _ | _ | _ | _ | _ | _ | j <;> first | omega | (cases lt <;> cases z <;> rfl)

theorem holds_jmpOf {j : Nat} (hj : j < 6) (tf lt z : Bool) : holds (jmpOf tf j) lt z = (holds j lt z == tf) := by
  cases tf
  · simp only [jmpOf, Bool.false_eq_true, if_false]
    rw [holds_neg hj]
    cases holds j lt z <;> rfl
  · simp only [jmpOf, if_true]
    cases holds j lt z <;> rfl

theorem ofB_ne_zero (b : Bool) : decide (ofB b ≠ 0) = b := by
  cases b <;> decide

theorem exec_jcc (E : Env) (m : M) (j : Nat) (l : Lbl) :
    exec E [.jcc j l] ⟨m, none⟩ = some ⟨m, if holds j m.lt m.z then some l else none⟩ := by
  simp only [exec, X.line, Option.bind_some]
  split <;> rfl

theorem Rel.weak {E : Env} {F : Fr} {g : Gh} {t : T} {its : List It} {s : Sto} {m : M} (h : Rel E F g t its s m) :
    Rel E F .no t its s m := by
  obtain ⟨hw, h⟩ := h
  exact ⟨hw, h.repr, h.hwm, h.sp, h.fp, h.room, h.lim, h.mem, h.reg, fun hg => absurd rfl hg⟩

theorem Rel.out {E : Env} {F : Fr} {g : Gh} {t : T} {its : List It} {s : Sto} {m : M} (h : Rel E F g t its s m)
    (o : List Line) : Rel E F g { t with out := o } its s m := by
  obtain ⟨hw, h⟩ := h
  exact ⟨hw, h.repr, h.hwm, h.sp, h.fp, h.room, h.lim, h.mem, h.reg, h.fl⟩

theorem not_zero (v : Word) : (!(v == 0)) = decide (v ≠ 0) := by
  by_cases h : v = 0
  · subst h; rfl
  · rw [beq_eq_false_iff_ne.2 h, decide_eq_true h]; rfl

/-- JT (`tf` true) and JF. If no CMP is printed although the value is not in the flags, the flags have
to belong to the value (`g`). -/
theorem boolJmp_rel {E : Env} {F : Fr} {g : Gh} {tf : Bool} {lab : Nat} {t t' : T} {its : List It} {s : Sto} {m : M}
    {v p : Word} {e : Ent} {es : List Ent} (w : W t) (hs : t.stk = e :: es) (h0 : e.sta ≠ .STK)
    (hr : Rel E F g t (.val v p :: its) s m) (hg : e.sta ≠ .FLAG → t.flg = some es.length → g ≠ .no)
    (h : boolJmp tf lab t = some t') :
    ∃ m' c, t'.out = t.out ++ c ∧
      exec E c ⟨m, none⟩ = some ⟨m', if decide (v ≠ 0) = tf then some (.L lab) else none⟩ ∧ Rel E F .no t' its s m' := by
  have hv := hr.top hs h0
  rcases boolJmp_form w hs h0 h with ⟨hf, hp, rfl⟩ | ⟨hf, hp, rfl⟩ | ⟨t1, e', es', mi, hs1, he, hl, hf1, rfl⟩
  · refine ⟨m, [.jcc (jmpOf tf t.jcc) (.L lab)], rfl, ?_, ((pop_rel hs h0 hr).weak.out _)⟩
    rw [exec_jcc, holds_jmpOf w.jcc]
    have : ofB (holds t.jcc m.lt m.z) = v := by
      obtain ⟨sta, a⟩ := e
      simp only at hf
      subst hf
      exact hv
    rw [← this, ofB_ne_zero]
    simp only [beq_iff_eq]
  · refine ⟨m, [.jcc (jmpOf tf JNZ) (.L lab)], rfl, ?_, ((pop_rel hs h0 hr).weak.out _)⟩
    rw [exec_jcc, holds_jmpOf (by decide)]
    obtain ⟨hw, hr⟩ := hr
    have hvl := hr.repr.vals_length
    rw [hs] at hvl
    simp only [vals, List.length_cons, Nat.add_right_cancel_iff] at hvl
    have := (hr.fl (hg hf hp)).2 es.length v hp (by simp [vals, ← hvl])
    show some (X.mk m (if ((!m.z) == tf) = true then _ else _)) = _
    rw [this.1]
    rw [not_zero]
    simp only [beq_iff_eq]
  · obtain ⟨m1, c1, o1, r1, hr1, -⟩ := mics_rel mi w hr (by simp [It.isVal])
    have w1 := mi.W w
    have h1 : e'.sta ≠ .STK := by rcases he with he | he <;> rw [he] <;> simp
    have hv1 : m1.g e'.aux = v := by
      have := hr1.top hs1 h1
      obtain ⟨sta, a⟩ := e'
      rcases he with he | he <;> (simp only at he; subst he; exact this)
    have hnf := w1.noFlag hf1
    refine ⟨m1.doOp E .CMP (.g e'.aux) (.imm 0), c1 ++ [.op .CMP (.g e'.aux) (.imm 0), .jcc (jmpOf tf JNZ) (.L lab)],
      ?_, ?_, ?_⟩
    · show t1.out ++ _ = _
      rw [o1, List.append_assoc]
    · rw [exec_append, r1]
      show exec E [.jcc (jmpOf tf JNZ) (.L lab)] ⟨_, none⟩ = _
      rw [exec_jcc, holds_jmpOf (by decide)]
      have hz : (m1.doOp E .CMP (.g e'.aux) (.imm 0)).z = (v == 0) := by
        show (m1.g e'.aux == _) = _
        rw [hv1]; rfl
      show some (X.mk _ (if ((!(m1.doOp E .CMP (.g e'.aux) (.imm 0)).z) == tf) = true then _ else _)) = _
      rw [hz]
      rw [not_zero]
      simp only [beq_iff_eq]
    · have hp := pop_rel hs1 h1 hr1
      obtain ⟨hw, hp⟩ := hp
      have hreg : ∀ r, (m1.doOp E .CMP (.g e'.aux) (.imm 0)).g r = m1.g r := by
        intro r
        show setG m1.g e'.aux (m1.g e'.aux) r = _
        unfold setG
        split
        · rename_i h; rw [h]
        · rfl
      refine ⟨hw, ?_, hp.hwm, hp.sp, hp.fp, hp.room, hp.lim, hp.mem, ?_, fun hg => absurd rfl hg⟩
      · have := hp.repr
        show Repr _ _ t1.stk.tail hw
        rw [hs1]
        simp only [relDrop, hs1] at this
        refine this.mono fun x hx u q hu => hu.frame (fun _ _ => rfl) (fun _ => hreg _) fun hh => ?_
        exact absurd hh (hnf x (by rw [hs1]; simp only [List.tail_cons] at hx; simp [hx]))
      · intro r h1 h2
        rw [hreg]; exact hp.reg r h1 h2

end Cmm.Tac
