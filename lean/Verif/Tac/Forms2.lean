import Verif.Tac.Forms

/-
Continuation of Verif/Tac/Forms.lean: comparisons, conditional jumps, indirect access, stores,
calls.
-/
namespace Cmm.Tac

theorem cutFlg_cutFlg (f : Option Nat) (n : Nat) : cutFlg (cutFlg f (n + 1)) n = cutFlg f n := by
  cases f with
  | none => rfl
  | some p =>
    unfold cutFlg
    by_cases h : n + 1 ≤ p
    · simp [h, show n ≤ p by omega]
    · simp [h]

theorem W.relDrop {t : T} {e : Ent} {es : List Ent} (w : W t) (hs : t.stk = e :: es) :
    W (relDrop e t) := by
  have hst : (Tac.relDrop e t).stk = es := by simp [Tac.relDrop, hs]
  have hf : (Tac.relDrop e t).flg = cutFlg t.flg es.length := by simp [Tac.relDrop, hs]
  have hcut : ∀ p, cutFlg t.flg es.length = some p → t.flg = some p ∧ p < es.length := by
    intro p hp
    unfold cutFlg at hp
    split at hp
    · rename_i q hq
      split at hp
      · cases hp
      · cases hp; exact ⟨hq, by omega⟩
    · cases hp
  have hflag : ∀ l : List Ent, l.length ≤ es.length → FlagOk t.flg l → FlagOk (cutFlg t.flg es.length) l := by
    intro l
    induction l with
    | nil => intros; trivial
    | cons x l ih =>
      intro hl h
      refine ⟨fun hx => ?_, ih (by simp at hl; omega) h.2⟩
      have := h.1 hx
      rw [this]
      unfold cutFlg
      simp only [List.length_cons] at hl
      simp only [show ¬ es.length ≤ l.length by omega, if_false]
  have hlow := w.low
  have hfl := w.flag
  rw [hs] at hlow hfl
  by_cases ha : isAcc e = true
  · have hacc : accs t.stk = e.aux :: accs es := by rw [hs, accs_cons, acc1_acc ha]; rfl
    have hnd := w.nodup
    rw [hacc] at hnd
    obtain ⟨hnot, hnd'⟩ := List.nodup_cons.1 hnd
    refine ⟨?_, by rw [hst]; exact hnd', ?_, ?_, by rw [hst]; exact hlow.2, ?_, ?_, ?_, w.jcc⟩
    · intro r
      rw [hst]
      have : (Tac.relDrop e t).bsy = upd t.bsy e.aux false := by simp [Tac.relDrop, ha]
      rw [this, upd_false, w.own, hacc]
      simp only [List.mem_cons]
      constructor
      · rintro ⟨h1, h2 | h2⟩
        · exact absurd h2 h1
        · exact h2
      · intro h
        exact ⟨fun he => hnot (he ▸ h), .inr h⟩
    · rw [hst]; intro r hr; exact w.rng r (by rw [hacc]; exact List.mem_cons_of_mem _ hr)
    · rw [hst]
      have : (Tac.relDrop e t).cnt = t.cnt - 1 := by simp [Tac.relDrop, ha]
      rw [this, w.cnt, hacc]; simp
    · rw [hst, hf]; exact hflag _ (Nat.le_refl _) hfl.2
    · rw [hst, hf]; intro p hp; exact (hcut p hp).2
    · rw [hst]; intro x hx; exact w.regs x (by rw [hs]; exact List.mem_cons_of_mem _ hx)
  · have ha : isAcc e = false := by simpa using ha
    have hacc : accs t.stk = accs es := by rw [hs, accs_cons, acc1_not ha]; rfl
    have hb : (Tac.relDrop e t).bsy = t.bsy := by simp [Tac.relDrop, ha]
    have hc : (Tac.relDrop e t).cnt = t.cnt := by simp [Tac.relDrop, ha]
    refine ⟨?_, by rw [hst, ← hacc]; exact w.nodup, ?_, ?_, by rw [hst]; exact hlow.2, ?_, ?_, ?_, w.jcc⟩
    · intro r; rw [hst, hb, w.own, hacc]
    · rw [hst, ← hacc]; exact w.rng
    · rw [hst, hc, w.cnt, hacc]
    · rw [hst, hf]; exact hflag _ (Nat.le_refl _) hfl.2
    · rw [hst, hf]; intro p hp; exact (hcut p hp).2
    · rw [hst]; intro x hx; exact w.regs x (by rw [hs]; exact List.mem_cons_of_mem _ hx)

/-- Lines printed are not part of the bookkeeping. -/
theorem W.out {t : T} (w : W t) (o : List Line) : W { t with out := o } :=
  ⟨w.own, w.nodup, w.rng, w.cnt, w.low, w.flag, w.flt, w.regs, w.jcc⟩

/-- A FLAG entry on top of the stack, with a newly taken accumulator. -/
def pushFlag (j : Nat) (a : Int) (t : T) : T :=
  { t with
    bsy := upd t.bsy a true
    cnt := t.cnt + 1
    stk := ⟨.FLAG, a⟩ :: t.stk
    flg := some t.stk.length
    jcc := j }

theorem cmpEnd_form {j : Nat} {t t' : T} {e0 e1 : Ent} {es : List Ent} (w : W t)
    (hs : t.stk = e0 :: e1 :: es) (h : cmpEnd j t = some t') :
    ∃ t2 a, Mics 0 (relDrop e1 (relDrop e0 t)) t2 ∧ t2.bsy a = false ∧ (0 ≤ a ∧ a < 3) ∧
      t2.stk.length = es.length ∧ t2.flg = (relDrop e1 (relDrop e0 t)).flg ∧ t' = pushFlag j a t2 := by
  have w0 := w.relDrop hs
  have hs0 : (relDrop e0 t).stk = e1 :: es := by simp [relDrop, hs]
  have w1 := w0.relDrop hs0
  have hs1 : (relDrop e1 (relDrop e0 t)).stk = es := by simp [relDrop, hs]
  unfold cmpEnd at h
  simp only [Option.bind_eq_bind] at h
  -- the two entries are given up
  have hrel : ∃ F : T → Option T, (((relTop t).bind relSec).bind (popStk 2)).bind F = some t' ∧
      F = fun t => (if t.cnt ≥ AccSIZ then outStk t else some t).bind fun t =>
        (allocAcc t).bind fun x => (pushStk ⟨.FLAG, x.1⟩ x.2).bind fun t =>
          some { t with flg := t.ptr, jcc := j } := by
    refine ⟨_, ?_, rfl⟩
    rw [← h]
    cases relTop t with
    | none => rfl
    | some ta =>
      simp only [Option.bind_some]
      cases relSec ta with
      | none => rfl
      | some tb =>
        simp only [Option.bind_some]
        cases popStk 2 tb with
        | none => rfl
        | some tc =>
          simp only [Option.bind_some]
          split <;> rfl
  obtain ⟨F, h, hF⟩ := hrel
  have hrel : ((relTop t).bind relSec).bind (popStk 2) = some (relDrop e1 (relDrop e0 t)) := by
    cases hx : ((relTop t).bind relSec).bind (popStk 2) with
    | none => rw [hx] at h; cases h
    | some tx =>
      congr 1
      have e2 : t.stk.length - 2 = es.length := by rw [hs]; simp
      have pop2 : ∀ u v : T, u.stk = e0 :: e1 :: es → u.flg = t.flg → popStk 2 u = some v →
          v = { u with stk := es, flg := cutFlg t.flg es.length } := by
        intro u v hu hv hk
        unfold popStk at hk
        rw [hu] at hk
        split at hk
        · cases hk
        · cases hk
          rw [hv, ← hs, e2, hs]
          rfl
      have e3 : (relDrop e1 (relDrop e0 t)).flg = cutFlg t.flg es.length := by
        simp only [relDrop, hs, List.tail_cons, List.length_cons]
        exact cutFlg_cutFlg _ _
      unfold relTop at hx
      simp only [top, hs, List.head?_cons, Option.bind_eq_bind, Option.bind_some] at hx
      by_cases ha : isAcc e0 = true
      · simp only [ha, if_true] at hx
        unfold relAcc at hx
        split at hx
        · cases hx
        · simp only [Option.bind_some, relSec, sec, hs, List.tail_cons, List.head?_cons,
            Option.bind_eq_bind] at hx
          by_cases hb : isAcc e1 = true
          · simp only [hb, if_true] at hx
            unfold relAcc at hx
            split at hx
            · cases hx
            · rw [pop2 _ _ (by simp [hs]) (by rfl) hx]
              simp [relDrop, ha, hb, hs, cutFlg_cutFlg]
          · simp only [hb, if_false, Bool.false_eq_true, Option.bind_some] at hx
            rw [pop2 _ _ (by simp [hs]) (by rfl) hx]
            simp [relDrop, ha, hb, hs, cutFlg_cutFlg]
      · simp only [ha, if_false, Bool.false_eq_true, Option.bind_some, relSec, sec, hs,
          List.tail_cons, List.head?_cons, Option.bind_eq_bind] at hx
        by_cases hb : isAcc e1 = true
        · simp only [hb, if_true] at hx
          unfold relAcc at hx
          split at hx
          · cases hx
          · rw [pop2 _ _ (by simp [hs]) (by rfl) hx]
            simp [relDrop, ha, hb, hs, cutFlg_cutFlg]
        · simp only [hb, if_false, Bool.false_eq_true, Option.bind_some] at hx
          rw [pop2 _ _ (by simp [hs]) (by rfl) hx]
          simp [relDrop, ha, hb, hs, cutFlg_cutFlg]
  rw [hrel, hF] at h
  simp only [Option.bind_some] at h
  -- room for the result
  cases h2 : (if (relDrop e1 (relDrop e0 t)).cnt ≥ AccSIZ then outStk (relDrop e1 (relDrop e0 t))
      else some (relDrop e1 (relDrop e0 t))) with
  | none => rw [h2] at h; cases h
  | some t2 =>
    rw [h2] at h
    have room : Mics 0 (relDrop e1 (relDrop e0 t)) t2 ∧ t2.flg = (relDrop e1 (relDrop e0 t)).flg := by
      split at h2
      · obtain ⟨_, _, _, _, _, _, hm, _, hf, _⟩ := outStk_mics w1 h2
        exact ⟨hm, hf⟩
      · cases h2; exact ⟨.refl, rfl⟩
    simp only [Option.bind_some] at h
    cases h3 : allocAcc t2 with
    | none => rw [h3] at h; cases h
    | some x =>
      obtain ⟨hb, h0, hx⟩ := allocAcc_some h3
      obtain ⟨a, t3⟩ := x
      rw [h3] at h
      simp only at hb h0 hx
      subst hx
      simp only [Option.bind_some] at h
      refine ⟨t2, a, room.1, hb, h0, by rw [room.1.same.1, hs1], room.2, ?_⟩
      unfold pushStk at h
      split at h
      · cases h
      · simp only [Option.bind_some, T.ptr, List.length_cons, Option.some.injEq] at h
        rw [← h]
        simp [pushFlag]

/-- The jump boolJmp prints. -/
def jmpOf (tf : Bool) (j : Nat) : Nat := if tf then j else (j + 3) % 6

/-- boolJmp (vm2tac.c:421-439). -/
theorem boolJmp_form {tf : Bool} {lab : Nat} {t t' : T} {e : Ent} {es : List Ent} (w : W t)
    (hs : t.stk = e :: es) (h0 : e.sta ≠ .STK) (h : boolJmp tf lab t = some t') :
    (e.sta = .FLAG ∧ t.flg = some es.length ∧
      t' = relDrop e { t with out := t.out ++ [.jcc (jmpOf tf t.jcc) (.L lab)] }) ∨
    (e.sta ≠ .FLAG ∧ t.flg = some es.length ∧
      t' = relDrop e { t with out := t.out ++ [.jcc (jmpOf tf JNZ) (.L lab)] }) ∨
    (∃ t1 e' es', Mics 1 t t1 ∧ t1.stk = e' :: es' ∧ (e'.sta = .RVAR ∨ e'.sta = .ACC) ∧
      es'.length = es.length ∧ t1.flg = none ∧
      t' = relDrop e' { t1 with
        out := t1.out ++ [.op .CMP (.g e'.aux) (.imm 0), .jcc (jmpOf tf JNZ) (.L lab)] }) := by
  have hptr : t.ptr = some es.length := by simp [T.ptr, hs]
  have hj : (if tf then JNZ else JEQ) = jmpOf tf JNZ := by cases tf <;> rfl
  unfold boolJmp at h
  simp only [top, hs, List.head?_cons, Option.bind_eq_bind, Option.bind_some, hptr, T.print] at h
  by_cases hf : e.sta = .FLAG
  · simp only [hf, if_true] at h
    split at h
    · cases h
    · rename_i hp
      rw [← hs] at h
      exact .inl ⟨hf, by simpa using hp, relPop (e := e) (es := es) (by simp [hs]) h⟩
  · simp only [hf, if_false] at h
    by_cases hp : t.flg = some es.length
    · rw [if_neg (by simpa using hp)] at h
      rw [hj, ← hs] at h
      exact .inr (.inl ⟨hf, hp, relPop (e := e) (es := es) (by simp [hs]) h⟩)
    · rw [if_pos hp] at h
      refine .inr (.inr ?_)
      cases h1 : clearFlg t with
      | none => rw [h1] at h; cases h
      | some ta =>
        rw [h1] at h
        obtain ⟨m1, hf1, hs1⟩ := clearFlg_form w h1
        rw [hs] at hs1
        simp only [List.map_cons, unflag_not hf] at hs1
        simp only [Option.bind_some] at h
        by_cases hr : e.sta = .RVAR
        · simp only [hr, ne_eq, not_true_eq_false, if_false, hs1, List.head?_cons, Option.bind_some,
            hj] at h
          have := relPop (e := e) (es := es.map unflag) rfl h
          refine ⟨ta, e, es.map unflag, m1, hs1, .inl hr, by simp, hf1, ?_⟩
          rw [this]
          simp [relDrop, hs1]
        · simp only [hr, ne_eq, not_false_eq_true, if_true] at h
          cases h2 : loadStk 0 ta with
          | none => rw [h2] at h; cases h
          | some tb =>
            rw [h2] at h
            obtain ⟨a, es', m2, hs2, hl, hf2⟩ := loadStk0_form (m1.W w) hs1 h2
            simp only [Option.bind_some, hs2, List.head?_cons, hj] at h
            have := relPop (e := ⟨.ACC, a⟩) (es := es') rfl h
            refine ⟨tb, ⟨.ACC, a⟩, es', m1.trans m2, hs2, .inr rfl, by simpa using hl, hf2.trans hf1, ?_⟩
            rw [this]
            simp [relDrop, hs2]

/-- What vmLdWrd and vmLdByt do: `o` is the operation that adds the index, `k` the new kind. -/
def LdForm (o : TOp) (k : Sta) (t t' : T) (e0 e1 : Ent) (es : List Ent) : Prop :=
  (isCnst0 e0 = true ∧ e1.sta = .RVAR ∧ t' = { relDrop e0 t with stk := ⟨k, e1.aux⟩ :: es }) ∨
  (isCnst0 e0 = true ∧ ∃ t1 a es', Mics 2 t t1 ∧ t1.stk = e0 :: ⟨.ACC, a⟩ :: es' ∧
    es'.length = es.length ∧ t' = { relDrop e0 t1 with stk := ⟨k, a⟩ :: es' }) ∨
  (∃ t1 a es' s, Mics 2 t t1 ∧ t1.stk = unflag e0 :: ⟨.ACC, a⟩ :: es' ∧ es'.length = es.length ∧
    operand (unflag e0) = some s ∧ t1.flg = none ∧
    t' = { relDrop (unflag e0) { t1 with out := t1.out ++ [.op o (.g a) s] } with
      stk := ⟨k, a⟩ :: es' })

/-- vmLdWrd (vm2tac.c:522-533). -/
theorem vmLdWrd_form {t t' : T} {e0 e1 : Ent} {es : List Ent} (w : W t)
    (hs : t.stk = e0 :: e1 :: es) (h0 : e0.sta ≠ .STK) (h : vmLdWrd t = some t') :
    LdForm .ADDS .WINDR t t' e0 e1 es := by
  unfold vmLdWrd at h
  simp only [top, sec, hs, List.head?_cons, List.tail_cons, Option.bind_eq_bind, Option.bind_some] at h
  -- the end
  have fin : ∀ (u : T) (x y : Ent) (l : List Ent), u.stk = x :: y :: l →
      ((relTop u).bind fun t => (popStk 1 t).bind fun t => t.stk.head?.bind fun e =>
        some (setTop ⟨.WINDR, e.aux⟩ t)) = some t' →
      t' = { relDrop x u with stk := ⟨.WINDR, y.aux⟩ :: l } := by
    intro u x y l hu hk
    cases h1 : (relTop u).bind (popStk 1) with
    | none =>
      cases h2 : relTop u with
      | none => rw [h2] at hk; cases hk
      | some v =>
        rw [h2] at hk h1
        simp only [Option.bind_some] at hk h1
        rw [h1] at hk; cases hk
    | some v =>
      have hv := relPop hu h1
      cases h2 : relTop u with
      | none => rw [h2] at hk; cases hk
      | some v' =>
        rw [h2] at hk h1
        simp only [Option.bind_some] at hk h1
        rw [h1] at hk
        have hvs : v.stk = y :: l := by rw [hv]; simp [relDrop, hu]
        simp only [Option.bind_some, hvs, List.head?_cons, Option.some.injEq] at hk
        rw [← hk, setTop, hvs, hv]
        simp
  by_cases hc : isCnst0 e0 = true
  · by_cases hr : e1.sta = .RVAR
    · rw [if_neg (by simp [hc, hr])] at h
      exact .inl ⟨hc, hr, fin t e0 e1 es hs h⟩
    · rw [if_pos (.inr hr)] at h
      cases h1 : loadStk 1 t with
      | none => rw [h1] at h; cases h
      | some ta =>
        rw [h1] at h
        obtain ⟨a, es', m1, hs1, hl, _⟩ := loadStk1_form w hs h0 h1
        simp only [Option.bind_some, hc, not_true_eq_false, if_false] at h
        exact .inr (.inl ⟨hc, ta, a, es', m1, hs1, hl, fin ta e0 ⟨.ACC, a⟩ es' hs1 h⟩)
  · rw [if_pos (.inl hc)] at h
    cases h1 : loadStk 1 t with
    | none => rw [h1] at h; cases h
    | some ta =>
      rw [h1] at h
      obtain ⟨a, es', m1, hs1, hl, _⟩ := loadStk1_form w hs h0 h1
      simp only [Option.bind_some, hc, not_false_eq_true, if_true] at h
      cases h2 : clearFlg ta with
      | none => rw [h2] at h; cases h
      | some tb =>
        rw [h2] at h
        obtain ⟨m2, hf2, hs2⟩ := clearFlg_form (m1.W w) h2
        rw [hs1] at hs2
        simp only [List.map_cons, unflag_not (e := ⟨.ACC, a⟩) (by simp)] at hs2
        simp only [Option.bind_some, hs2, List.tail_cons, List.head?_cons] at h
        rw [← hs2] at h
        cases h3 : calReg .ADDS a (tb.stk.length - 1) tb with
        | none => rw [h3] at h; cases h
        | some tc =>
          rw [h3] at h
          obtain ⟨s, ho, hc'⟩ := calReg_form (by rw [hs2]; exact get_top _ _) h3
          simp only [Option.bind_some] at h
          have := fin tc (unflag e0) ⟨.ACC, a⟩ (es'.map unflag) (by rw [hc']; exact hs2) h
          exact .inr (.inr ⟨tb, a, es'.map unflag, s, m1.trans m2, hs2, by simpa using hl, ho, hf2,
            by rw [this, hc']⟩)

/-- vmLdByt (vm2tac.c:537-555). -/
theorem vmLdByt_form {t t' : T} {e0 e1 : Ent} {es : List Ent} (w : W t)
    (hs : t.stk = e0 :: e1 :: es) (h0 : e0.sta ≠ .STK) (h : vmLdByt t = some t') :
    LdForm .ADD .BINDR t t' e0 e1 es ∨
    (e0.sta = .ACC ∧ e1.sta ≠ .STK ∧ ∃ t1 s es', Mics 2 t t1 ∧ t1.stk = e0 :: unflag e1 :: es' ∧
      es'.length = es.length ∧ operand (unflag e1) = some s ∧ t1.flg = none ∧
      t' = { relDrop (unflag e1) (setTwo (unflag e1) e0
          { t1 with out := t1.out ++ [.op .ADD (.g e0.aux) s] }) with
        stk := ⟨.BINDR, e0.aux⟩ :: es' }) := by
  unfold vmLdByt at h
  simp only [top, sec, hs, List.head?_cons, List.tail_cons, Option.bind_eq_bind, Option.bind_some] at h
  by_cases hA : (e0.sta = .ACC ∨ e0.sta = .STK) ∧ e1.sta ≠ .ACC ∧ e1.sta ≠ .STK
  · rw [if_pos hA] at h
    have hacc : e0.sta = .ACC := by rcases hA.1 with h | h; exact h; exact absurd h h0
    right
    refine ⟨hacc, hA.2.2, ?_⟩
    obtain ⟨st0, a0⟩ := e0
    simp only at hacc
    subst hacc
    cases h1 : clearFlg t with
    | none => rw [h1] at h; cases h
    | some ta =>
      rw [h1] at h
      obtain ⟨m1, hf1, hs1⟩ := clearFlg_form w h1
      rw [hs] at hs1
      simp only [List.map_cons, unflag_not (e := ⟨.ACC, a0⟩) (by simp)] at hs1
      have hld : loadStk 0 ta = some ta := by
        unfold loadStk
        simp only [hs1, List.length_cons]
        rw [if_neg (by omega)]
        simp [get]
      simp only [Option.bind_some, hld, hs1, List.head?_cons] at h
      rw [← hs1] at h
      cases h3 : calReg .ADD a0 (ta.stk.length - 2) ta with
      | none => rw [h3] at h; cases h
      | some tc =>
        rw [h3] at h
        obtain ⟨s, ho, hc⟩ := calReg_form (by rw [hs1]; exact get_sec _ _ _) h3
        simp only [Option.bind_some] at h
        refine ⟨ta, s, es.map unflag, m1, hs1, by simp, ho, hf1, ?_⟩
        have hs3 : tc.stk = ⟨.ACC, a0⟩ :: unflag e1 :: es.map unflag := by rw [hc]; exact hs1
        unfold relSec at h
        simp only [sec, hs3, List.tail_cons, List.head?_cons, Option.bind_eq_bind,
          Option.bind_some] at h
        by_cases hb : isAcc (unflag e1) = true
        · simp only [hb, if_true] at h
          unfold relAcc at h
          split at h
          · cases h
          · simp only [Option.bind_some, hs3, List.tail_cons, List.head?_cons] at h
            cases h4 : popStk 1 (setTwo ⟨.ACC, a0⟩ ⟨(unflag e1).sta, a0⟩
                { tc with bsy := upd tc.bsy (unflag e1).aux false, cnt := tc.cnt - 1 }) with
            | none => simp only [hs3] at h4; rw [h4] at h; cases h
            | some td =>
              have hp := popStk_one h4
              simp only [hs3] at h4
              rw [h4] at h
              simp only [setTwo, hs3, List.drop_succ_cons, List.drop_zero, List.tail_cons,
                List.length_cons] at hp
              rw [hp] at h
              simp only [Option.bind_some, List.head?_cons, Option.some.injEq] at h
              rw [← h]
              simp [setTop, relDrop, hb, setTwo, hs1, hc]
        · simp only [hb, if_false, Bool.false_eq_true, Option.bind_some, hs3, List.tail_cons,
            List.head?_cons] at h
          cases h4 : popStk 1 (setTwo ⟨.ACC, a0⟩ ⟨(unflag e1).sta, a0⟩ tc) with
          | none => rw [h4] at h; cases h
          | some td =>
            have hp := popStk_one h4
            rw [h4] at h
            simp only [setTwo, hs3, List.drop_succ_cons, List.drop_zero, List.tail_cons,
              List.length_cons] at hp
            rw [hp] at h
            simp only [Option.bind_some, List.head?_cons, Option.some.injEq] at h
            rw [← h]
            simp [setTop, relDrop, hb, setTwo, hs1, hc]
  · rw [if_neg hA] at h
    left
    have fin : ∀ (u : T) (x y : Ent) (l : List Ent), u.stk = x :: y :: l →
        ((relTop u).bind fun t => (popStk 1 t).bind fun t => t.stk.head?.bind fun e =>
          some (setTop ⟨.BINDR, e.aux⟩ t)) = some t' →
        t' = { relDrop x u with stk := ⟨.BINDR, y.aux⟩ :: l } := by
      intro u x y l hu hk
      cases h1 : (relTop u).bind (popStk 1) with
      | none =>
        cases h2 : relTop u with
        | none => rw [h2] at hk; cases hk
        | some v =>
          rw [h2] at hk h1
          simp only [Option.bind_some] at hk h1
          rw [h1] at hk; cases hk
      | some v =>
        have hv := relPop hu h1
        cases h2 : relTop u with
        | none => rw [h2] at hk; cases hk
        | some v' =>
          rw [h2] at hk h1
          simp only [Option.bind_some] at hk h1
          rw [h1] at hk
          have hvs : v.stk = y :: l := by rw [hv]; simp [relDrop, hu]
          simp only [Option.bind_some, hvs, List.head?_cons, Option.some.injEq] at hk
          rw [← hk, setTop, hvs, hv]
          simp
    by_cases hc : isCnst0 e0 = true
    · by_cases hr : e1.sta = .RVAR
      · rw [if_neg (by simp [hc, hr])] at h
        refine .inl ⟨hc, hr, fin t e0 e1 es hs ?_⟩
        have : relTop t = some t := by
          have : isAcc e0 = false := by
            unfold isCnst0 at hc
            simp at hc
            unfold isAcc
            simp [hc.1]
          simp [relTop, top, hs, this]
        rw [this]
        exact h
      · rw [if_pos (.inr hr)] at h
        cases h1 : loadStk 1 t with
        | none => rw [h1] at h; cases h
        | some ta =>
          rw [h1] at h
          obtain ⟨a, es', m1, hs1, hl, _⟩ := loadStk1_form w hs h0 h1
          simp only [Option.bind_some, hc, not_true_eq_false, if_false] at h
          exact .inr (.inl ⟨hc, ta, a, es', m1, hs1, hl, fin ta e0 ⟨.ACC, a⟩ es' hs1 h⟩)
    · rw [if_pos (.inl hc)] at h
      cases h1 : loadStk 1 t with
      | none => rw [h1] at h; cases h
      | some ta =>
        rw [h1] at h
        obtain ⟨a, es', m1, hs1, hl, _⟩ := loadStk1_form w hs h0 h1
        simp only [Option.bind_some, hc, not_false_eq_true, if_true] at h
        cases h2 : clearFlg ta with
        | none => rw [h2] at h; cases h
        | some tb =>
          rw [h2] at h
          obtain ⟨m2, hf2, hs2⟩ := clearFlg_form (m1.W w) h2
          rw [hs1] at hs2
          simp only [List.map_cons, unflag_not (e := ⟨.ACC, a⟩) (by simp)] at hs2
          simp only [Option.bind_some, hs2, List.tail_cons, List.head?_cons] at h
          rw [← hs2] at h
          cases h3 : calReg .ADD a (tb.stk.length - 1) tb with
          | none => rw [h3] at h; cases h
          | some tc =>
            rw [h3] at h
            obtain ⟨s, ho, hc'⟩ := calReg_form (by rw [hs2]; exact get_top _ _) h3
            simp only [Option.bind_some] at h
            have := fin tc (unflag e0) ⟨.ACC, a⟩ (es'.map unflag) (by rw [hc']; exact hs2) h
            exact .inr (.inr ⟨tb, a, es'.map unflag, s, m1.trans m2, hs2, by simpa using hl, ho, hf2,
              by rw [this, hc']⟩)

/-- The end of vmStWrd and vmStByt (vm2tac.c:562-567, 575-579). -/
theorem storeInd_form {d : Int → Src} {t t' : T} {k : Sta} {r : Int} {e1 : Ent} {es : List Ent}
    (w : W t) (hs : t.stk = ⟨k, r⟩ :: e1 :: es) (hk : k = .WINDR ∨ k = .BINDR)
    (h : storeInd d t = some t') :
    ∃ t1 e' es', Mics 2 t t1 ∧ t1.stk = ⟨k, r⟩ :: e' :: es' ∧
      (e'.sta = .RVAR ∨ e'.sta = .ACC) ∧ es'.length = es.length ∧
      t' = relDrop ⟨k, r⟩ { t1 with out := t1.out ++ [.st e'.aux (d r)] } := by
  have h0 : (⟨k, r⟩ : Ent).sta ≠ .STK := by rcases hk with rfl | rfl <;> simp
  have hacc : isAcc ⟨k, r⟩ = true ↔ r < AccSIZ := by
    unfold isAcc; rcases hk with rfl | rfl <;> simp
  unfold storeInd at h
  simp only [sec, top, hs, List.head?_cons, List.tail_cons, Option.bind_eq_bind, Option.bind_some] at h
  have fin : ∀ (u : T) (y : Ent) (l : List Ent), u.stk = ⟨k, r⟩ :: y :: l →
      (if r < AccSIZ then (relAcc r (u.print (.st y.aux (d r)))).bind (popStk 1)
        else popStk 1 (u.print (.st y.aux (d r)))) = some t' →
      t' = relDrop ⟨k, r⟩ { u with out := u.out ++ [.st y.aux (d r)] } := by
    intro u y l hu hx
    refine relPop (es := y :: l) (by simp [hu]) ?_
    rw [← hx]
    unfold relTop
    simp only [top, hu, List.head?_cons, Option.bind_eq_bind, Option.bind_some, T.print]
    by_cases hr : r < AccSIZ
    · rw [if_pos (hacc.2 hr), if_pos hr]
    · rw [if_neg (fun hh => hr (hacc.1 hh)), if_neg hr]; rfl
  by_cases hr : e1.sta = .RVAR
  · simp only [hr, ne_eq, not_true_eq_false, if_false, hs, List.head?_cons, List.tail_cons,
      Option.bind_some] at h
    exact ⟨t, e1, es, .refl, hs, .inl hr, rfl, fin t e1 es hs h⟩
  · simp only [hr, ne_eq, not_false_eq_true, if_true] at h
    cases h1 : loadStk 1 t with
    | none => rw [h1] at h; cases h
    | some ta =>
      rw [h1] at h
      obtain ⟨a, es', m1, hs1, hl, _⟩ := loadStk1_form w hs h0 h1
      simp only [Option.bind_some, hs1, List.head?_cons, List.tail_cons] at h
      exact ⟨ta, ⟨.ACC, a⟩, es', m1, hs1, .inr rfl, hl, fin ta ⟨.ACC, a⟩ es' hs1 h⟩

/-- The value on top brought into a register, as in vmStGlb, vmStLoc and vmStPrm. -/
theorem regTop_form {t t1 : T} {e : Ent} {es : List Ent} (w : W t) (hs : t.stk = e :: es)
    (h : (if e.sta ≠ .RVAR then loadStk 0 t else some t) = some t1) :
    ∃ e' es', Mics 1 t t1 ∧ t1.stk = e' :: es' ∧ (e'.sta = .RVAR ∨ e'.sta = .ACC) ∧
      es'.length = es.length ∧ t1.flg = t.flg := by
  split at h
  · obtain ⟨a, es', m1, hs1, hl, hf⟩ := loadStk0_form w hs h
    exact ⟨⟨.ACC, a⟩, es', m1, hs1, .inr rfl, hl, hf⟩
  · rename_i hr
    cases h
    exact ⟨e, es, .refl, hs, .inl (by simpa using hr), rfl, rfl⟩

/-- vmStGlb, vmStPrm and vmStLoc for a variable in memory. -/
def StForm (d : Src) (t t' : T) (es : List Ent) : Prop :=
  ∃ t1 e' es', Mics 1 t t1 ∧ t1.stk = e' :: es' ∧ (e'.sta = .RVAR ∨ e'.sta = .ACC) ∧
    es'.length = es.length ∧ t' = { t1 with out := t1.out ++ [.st e'.aux d] }

theorem st_form {d : Src} {t t' : T} {e : Ent} {es : List Ent} (w : W t) (hs : t.stk = e :: es)
    (h : ((if e.sta ≠ .RVAR then loadStk 0 t else some t).bind fun t => t.stk.head?.bind fun e =>
      some (t.print (.st e.aux d))) = some t') : StForm d t t' es := by
  cases h1 : (if e.sta ≠ .RVAR then loadStk 0 t else some t) with
  | none => rw [h1] at h; cases h
  | some t1 =>
    obtain ⟨e', es', m, hs1, hr, hl, _⟩ := regTop_form w hs h1
    rw [h1] at h
    simp only [Option.bind_some, hs1, List.head?_cons, Option.some.injEq] at h
    exact ⟨t1, e', es', m, hs1, hr, hl, h.symm⟩

theorem vmStGlb_form {n : Int} {t t' : T} {e : Ent} {es : List Ent} (w : W t) (hs : t.stk = e :: es)
    (h : vmStGlb n t = some t') : StForm (.glb n) t t' es := by
  refine st_form w hs ?_
  rw [← h]
  unfold vmStGlb
  simp only [top, hs, List.head?_cons, Option.bind_eq_bind, Option.bind_some]
  split
  · rfl
  · simp [hs]

theorem vmStPrm_form {n : Int} {t t' : T} {e : Ent} {es : List Ent} (w : W t) (hs : t.stk = e :: es)
    (h : vmStPrm n t = some t') : StForm (.fp ((n + 2) * 2)) t t' es := by
  refine st_form w hs ?_
  rw [← h]
  unfold vmStPrm
  simp only [top, hs, List.head?_cons, Option.bind_eq_bind, Option.bind_some]
  split
  · rfl
  · simp [hs]

/-- vmStLoc (vm2tac.c:494-510). -/
theorem vmStLoc_form {n : Int} {t t' : T} {e : Ent} {es : List Ent} (w : W t) (hs : t.stk = e :: es)
    (h0 : e.sta ≠ .STK) (h : vmStLoc n t = some t') :
    (RVarSIZ < n ∧ StForm (.fp (-((n - RVarSIZ) * 2))) t t' es) ∨
    (n ≤ RVarSIZ ∧ e = ⟨.RVAR, n + 2⟩ ∧ t' = t) ∨
    (n ≤ RVarSIZ ∧ e.sta = .ACC ∧ e.aux ≠ n + 2 ∧
      t' = { t with out := t.out ++ [.op .LD (.g (n + 2)) (.reg (.g e.aux))] }) ∨
    (n ≤ RVarSIZ ∧ e.sta = .FLAG ∧
      t' = { relDrop e { t with
          out := t.out ++ flgCode (n + 2) t.jcc t.tlab, tlab := t.tlab + 1 } with
        stk := ⟨.RVAR, n + 2⟩ :: es, flg := t.flg }) ∨
    (n ≤ RVarSIZ ∧ e.sta ≠ .FLAG ∧ e.sta ≠ .ACC ∧ e ≠ ⟨.RVAR, n + 2⟩ ∧ ∃ s, operand e = some s ∧
      t' = { relDrop e { t with out := t.out ++ [.op .LD (.g (n + 2)) s] } with
        stk := ⟨.RVAR, n + 2⟩ :: es, flg := t.flg }) := by
  unfold vmStLoc at h
  simp only [top, hs, List.head?_cons, Option.bind_eq_bind, Option.bind_some] at h
  by_cases hn : n ≤ RVarSIZ
  · right
    rw [if_pos hn] at h
    have hr2 : n - 1 + AccSIZ = n + 2 := by unfold AccSIZ; omega
    rw [hr2] at h
    have hp : (e :: es).length - 1 = es.length := by simp
    rw [hp] at h
    have hg : get t.stk es.length = some e := by rw [hs]; simp [get]
    obtain ⟨sta, aux⟩ := e
    -- the new top
    have fin : ∀ u : T, u.stk = t.stk → u.flg = t.flg →
        ((relTop u).bind fun t => some (setTop ⟨.RVAR, n + 2⟩ t)) = some t' →
        t' = { relDrop ⟨sta, aux⟩ u with stk := ⟨.RVAR, n + 2⟩ :: es, flg := t.flg } := by
      intro u hu hf hx
      unfold relTop at hx
      simp only [top, hu, hs, List.head?_cons, Option.bind_eq_bind, Option.bind_some] at hx
      by_cases ha : isAcc ⟨sta, aux⟩ = true
      · simp only [ha, if_true] at hx
        unfold relAcc at hx
        split at hx
        · cases hx
        · simp only [Option.bind_some, setTop, hu, hs, List.drop_succ_cons, List.drop_zero,
            Option.some.injEq] at hx
          rw [← hx]; simp [relDrop, ha, hf]
      · simp only [ha, if_false, Bool.false_eq_true, Option.bind_some, setTop, hu, hs,
          List.drop_succ_cons, List.drop_zero, Option.some.injEq] at hx
        rw [← hx]; simp [relDrop, ha, hf]
    by_cases hsame : sta = .RVAR ∧ aux = n + 2
    · obtain ⟨rfl, rfl⟩ := hsame
      refine .inl ⟨hn, rfl, ?_⟩
      simp [relTop, top, hs, isAcc, setTop] at h
      rw [← h]
      cases t; simp_all
    · rw [if_pos (by simp only [ne_eq]; by_cases h1 : sta = .RVAR; exact .inr fun h2 => hsame ⟨h1, h2⟩; exact .inl h1)] at h
      right
      cases hl : loadReg (n + 2) es.length t with
      | none => rw [hl] at h; cases h
      | some u =>
        rw [hl] at h
        simp only [Option.bind_some] at h
        simp only [loadReg, hg, Option.bind_eq_bind, Option.bind_some] at hl
        have hS : sta ≠ .STK := h0
        simp only [hS, if_false] at hl
        by_cases hA : sta = .ACC
        · subst hA
          simp only [ne_eq, not_true_eq_false, if_false, Option.some.injEq] at h
          simp only [reduceCtorEq, if_false, true_or, true_and] at hl
          split at hl
          · cases hl
          · rename_i hne
            obtain ⟨s, ho, hu⟩ := calReg_form hg hl
            refine .inl ⟨hn, rfl, hne, ?_⟩
            simp only [operand, Option.some.injEq] at ho
            rw [← h, hu, ho]
        · right
          simp only [ne_eq, hA, not_false_eq_true, if_true] at h
          by_cases hF : sta = .FLAG
          · subst hF
            left
            have hfl : t.flg = some es.length := by
              have := w.flag
              rw [hs] at this
              exact this.1 rfl
            simp only [if_true, loadFlg, hg, Option.bind_eq_bind, Option.bind_some, hfl] at hl
            simp only [ne_eq, not_true_eq_false, or_self, if_false, T.print, Option.some.injEq] at hl
            refine ⟨hn, rfl, ?_⟩
            have hu : u = { t with out := t.out ++ flgCode (n + 2) t.jcc t.tlab, tlab := t.tlab + 1 } := by
              rw [← hl]; simp [flgCode, hs]
            rw [hu] at h
            exact fin _ rfl rfl h
          · right
            simp only [hF, if_false] at hl
            split at hl
            · cases hl
            · obtain ⟨s, ho, hu⟩ := calReg_form hg hl
              refine ⟨hn, hF, hA, ?_, s, ho, ?_⟩
              · intro he
                simp only [Ent.mk.injEq] at he
                exact hsame he
              · rw [hu] at h
                exact fin _ rfl rfl h
  · left
    refine ⟨by omega, ?_⟩
    rw [if_neg hn] at h
    refine st_form w hs ?_
    rw [← h]
    split
    · rfl
    · simp [hs]

/-- vmNeg … vmBool (vm2tac.c:584-627). -/
theorem unary_form {o : Gen.A1} {t t' : T} {e : Ent} {es : List Ent} (w : W t) (hs : t.stk = e :: es)
    (h : unary o t = some t') :
    ∃ t1 a es', Mics 1 t t1 ∧ t1.stk = ⟨.ACC, a⟩ :: es' ∧ es'.length = es.length ∧ t1.flg = none ∧
      t' = { t1 with
        out := t1.out ++ (unLines o).map fun (l : TOp × Int) => Line.op l.1 (.g a) (.imm l.2)
        flg := some es'.length } := by
  unfold unary at h
  simp only [Option.bind_eq_bind] at h
  cases h1 : clearFlg t with
  | none => rw [h1] at h; cases h
  | some ta =>
    rw [h1] at h
    simp only [Option.bind_some] at h
    obtain ⟨m1, hf1, hs1⟩ := clearFlg_form w h1
    rw [hs] at hs1
    simp only [List.map_cons] at hs1
    cases h2 : loadStk 0 ta with
    | none => rw [h2] at h; cases h
    | some tb =>
      rw [h2] at h
      obtain ⟨a, es', m2, hs2, hl, hf2⟩ := loadStk0_form (m1.W w) hs1 h2
      simp only [Option.bind_some, top, hs2, List.head?_cons, Option.some.injEq] at h
      refine ⟨tb, a, es', m1.trans m2, hs2, by simpa using hl, by rw [hf2, hf1], ?_⟩
      rw [← h]
      simp [T.ptr, hs2]

/-- vmPop (vm2tac.c:818-822). -/
theorem vmPop_form {t t' : T} {e : Ent} {es : List Ent} (hs : t.stk = e :: es)
    (h : vmPop t = some t') : t' = relDrop e t := relPop hs h

/-- vmMReg (vm2tac.c:374-379). -/
theorem vmMReg_form {t t' : T} {e : Ent} {es : List Ent} (w : W t) (hs : t.stk = e :: es)
    (h0 : e.sta ≠ .STK) (h : vmMReg t = some t') :
    (e = ⟨.ACC, 0⟩ ∧ t' = relDrop e t) ∨
    (e.sta = .FLAG ∧ t' = relDrop e { t with
      out := t.out ++ flgCode 0 t.jcc t.tlab, tlab := t.tlab + 1 }) ∨
    (∃ s, operand e = some s ∧ e ≠ ⟨.ACC, 0⟩ ∧
      t' = relDrop e { t with out := t.out ++ [.op .LD (.g 0) s] }) := by
  unfold vmMReg at h
  simp only [top, hs, List.head?_cons, Option.bind_eq_bind, Option.bind_some] at h
  have hp : (e :: es).length - 1 = es.length := by simp
  rw [hp] at h
  have hg : get t.stk es.length = some e := by rw [hs]; simp [get]
  obtain ⟨sta, aux⟩ := e
  by_cases hA : sta = .ACC ∧ aux = 0
  · obtain ⟨rfl, rfl⟩ := hA
    rw [if_neg (by simp)] at h
    exact .inl ⟨rfl, relPop hs h⟩
  · rw [if_pos (by simp only [ne_eq]; by_cases h1 : sta = .ACC; exact .inr fun h2 => hA ⟨h1, h2⟩; exact .inl h1)] at h
    right
    cases hl : loadReg 0 es.length t with
    | none => rw [hl] at h; cases h
    | some u =>
      rw [hl] at h
      simp only [loadReg, hg, Option.bind_eq_bind, Option.bind_some] at hl
      have hS : sta ≠ .STK := h0
      simp only [hS, if_false] at hl
      by_cases hF : sta = .FLAG
      · subst hF
        left
        have hfl : t.flg = some es.length := by
          have := w.flag
          rw [hs] at this
          exact this.1 rfl
        simp only [if_true, loadFlg, hg, Option.bind_eq_bind, Option.bind_some, hfl] at hl
        simp only [ne_eq, not_true_eq_false, or_self, if_false, T.print, Option.some.injEq] at hl
        have hu : u = { t with out := t.out ++ flgCode 0 t.jcc t.tlab, tlab := t.tlab + 1 } := by
          rw [← hl]; simp [flgCode, hs]
        refine ⟨rfl, ?_⟩
        rw [hu] at h
        exact relPop (es := es) (by simp [hs]) h
      · right
        simp only [hF, if_false] at hl
        split at hl
        · cases hl
        · obtain ⟨s, ho, hu⟩ := calReg_form hg hl
          refine ⟨s, ho, ?_, ?_⟩
          · intro he
            simp only [Ent.mk.injEq] at he
            exact hA he
          · rw [hu] at h
            exact relPop (es := es) (by simp [hs]) h

/-- vmArg (vm2tac.c:382-391). -/
theorem vmArg_form {t t' : T} {e : Ent} {es : List Ent} (w : W t) (hs : t.stk = e :: es)
    (h : vmArg t = some t') :
    (e.sta = .RVAR ∧ ∃ t1 es', Mics 1 t t1 ∧ t1.stk = e :: es' ∧ es'.length = es.length ∧ accs es' = [] ∧
      t' = relDrop e { t1 with out := t1.out ++ [.push (.g e.aux)] }) ∨
    (∃ t1 a es', Mics 1 t t1 ∧ t1.stk = ⟨.STK, a⟩ :: es' ∧ es'.length = es.length ∧ accs es' = [] ∧
      t' = relDrop ⟨.STK, a⟩ t1) := by
  unfold vmArg at h
  simp only [top, hs, List.head?_cons, Option.bind_eq_bind, Option.bind_some] at h
  by_cases hr : e.sta = .RVAR
  · left
    refine ⟨hr, ?_⟩
    simp only [hr, ne_eq, not_true_eq_false, if_false] at h
    cases h1 : outStkAll t with
    | none => rw [h1] at h; cases h
    | some t1 =>
      rw [h1] at h
      obtain ⟨m1, ha, hf, hs1⟩ := outStkAll_mics w h1
      have hn : isAcc e = false := by unfold isAcc; simp [hr]
      rw [hs] at hs1
      simp only [List.map_cons, hn, Bool.false_eq_true, if_false] at hs1
      refine ⟨t1, _, m1, hs1, by simp, ?_, ?_⟩
      · rw [hs1, accs_cons] at ha
        simp at ha
        exact ha.2
      · simp only [Option.map_some, Option.bind_some] at h
        have := popStk_one h
        rw [this]
        simp [relDrop, hn, T.print]
  · right
    simp only [hr, ne_eq, not_false_eq_true, if_true] at h
    cases h1 : loadStk 0 t with
    | none => rw [h1] at h; cases h
    | some t1 =>
      rw [h1] at h
      obtain ⟨a, es', m1, hs1, hl, _⟩ := loadStk0_form w hs h1
      simp only [Option.bind_some] at h
      cases h2 : outStkAll t1 with
      | none => rw [h2] at h; cases h
      | some t2 =>
        rw [h2] at h
        obtain ⟨m2, ha, hf, hs2⟩ := outStkAll_mics (m1.W w) h2
        rw [hs1] at hs2
        simp only [List.map_cons, show isAcc ⟨.ACC, a⟩ = true from rfl, if_true] at hs2
        refine ⟨t2, a, _, m1.trans m2, hs2, by simpa using hl, ?_, ?_⟩
        · rw [hs2, accs_cons] at ha
          simp at ha
          exact ha.2
        · simp only [Option.bind_some] at h
          have := popStk_one h
          rw [this]
          simp [relDrop, isAcc]

/-- The lines of call (vm2tac.c:394-400). -/
def callLines (n : Nat) (f : Int) : List Line :=
  .call f :: if n ≠ 0 then [.op .ADD .sp (.imm (n * 2))] else []

theorem call_form {n : Nat} {f : Int} {t t' : T} (w : W t) (h : call n f t = some t') :
    ∃ t1, Mics 0 t t1 ∧ accs t1.stk = [] ∧ t1.flg = t.flg ∧
      t1.stk = (t.stk.map fun e => if isAcc e then ⟨.STK, e.aux⟩ else e) ∧
      t' = { t1 with out := t1.out ++ callLines n f } := by
  unfold call at h
  simp only [Option.bind_eq_bind] at h
  cases h1 : outStkAll t with
  | none => rw [h1] at h; cases h
  | some t1 =>
    rw [h1] at h
    obtain ⟨m1, ha, hf, hs1⟩ := outStkAll_mics w h1
    refine ⟨t1, m1, ha, hf, hs1, ?_⟩
    simp only [Option.bind_some, Option.some.injEq] at h
    rw [← h]
    unfold callLines
    split <;> simp [T.print]

/-- vmCallF (vm2tac.c:408-413): the accumulator allocated is G0. -/
theorem vmCallF_form {n : Nat} {f : Int} {t t' : T} (w : W t) (h : vmCallF n f t = some t') :
    ∃ t1, Mics 0 t t1 ∧ accs t1.stk = [] ∧ t1.flg = t.flg ∧
      t1.stk = (t.stk.map fun e => if isAcc e then ⟨.STK, e.aux⟩ else e) ∧
      t' = { t1 with
        out := t1.out ++ callLines n f
        bsy := upd t1.bsy 0 true
        cnt := t1.cnt + 1
        stk := ⟨.ACC, 0⟩ :: t1.stk } := by
  unfold vmCallF at h
  simp only [Option.bind_eq_bind] at h
  cases h1 : call n f t with
  | none => rw [h1] at h; cases h
  | some t1 =>
    rw [h1] at h
    obtain ⟨t2, m, ha, hf, hs, ht⟩ := call_form w h1
    refine ⟨t2, m, ha, hf, hs, ?_⟩
    have hb : t1.bsy 0 = false := by
      cases hb : t1.bsy 0 with
      | false => rfl
      | true =>
        rw [ht] at hb
        have := ((m.W w).own 0).1 hb
        rw [ha] at this; simp at this
    have hal : allocAcc t1 = some (0, { t1 with bsy := upd t1.bsy 0 true, cnt := t1.cnt + 1 }) := by
      unfold allocAcc; rw [if_pos hb]
    simp only [Option.bind_some, hal] at h
    simp only [ne_eq, not_true_eq_false, if_false] at h
    unfold pushStk at h
    split at h
    · cases h
    · cases h
      rw [ht]

/-- boolOrAnd, flagOrAnd (vm2tac.c:828-860): the lines after the value of the right operand. -/
theorem vmBoolOR_form {l1 l3 : Nat} {l2 : Option Nat} {t t' : T} {e : Ent} {es : List Ent} (w : W t)
    (hs : t.stk = e :: es) (h : vmBoolOR l1 l2 l3 t = some t') :
    ∃ t1 a es' o, Mics 1 t t1 ∧ es'.length = es.length ∧
      (t1.stk = ⟨.ACC, a⟩ :: es' ∨ t1.stk = ⟨.FLAG, a⟩ :: es') ∧
      t' = { t1 with stk := ⟨.ACC, a⟩ :: es', out := o } := by
  unfold vmBoolOR at h
  simp only [top, hs, List.head?_cons, Option.bind_eq_bind, Option.bind_some] at h
  by_cases hF : e.sta = .FLAG
  · rw [if_pos hF] at h
    obtain ⟨sta, a⟩ := e
    simp only at hF
    subst hF
    unfold flagOrAnd at h
    simp only [top, hs, List.head?_cons, Option.bind_eq_bind, Option.bind_some,
      Option.some.injEq] at h
    refine ⟨t, a, es, t'.out, .refl, rfl, .inr hs, ?_⟩
    rw [← h]
    simp [setTop, hs]
  · rw [if_neg hF] at h
    unfold boolOrAnd at h
    simp only [Option.bind_eq_bind] at h
    cases h1 : loadStk 0 t with
    | none => rw [h1] at h; cases h
    | some ta =>
      rw [h1] at h
      obtain ⟨a, es', m, hs1, hl, _⟩ := loadStk0_form w hs h1
      simp only [Option.bind_some, top, hs1, List.head?_cons, Option.some.injEq] at h
      refine ⟨ta, a, es', t'.out, m, hl, .inl hs1, ?_⟩
      rw [← h]

theorem vmBoolAND_form {l1 l3 : Nat} {l2 : Option Nat} {t t' : T} {e : Ent} {es : List Ent} (w : W t)
    (hs : t.stk = e :: es) (h : vmBoolAND l1 l2 l3 t = some t') :
    ∃ t1 a es' o, Mics 1 t t1 ∧ es'.length = es.length ∧
      (t1.stk = ⟨.ACC, a⟩ :: es' ∨ t1.stk = ⟨.FLAG, a⟩ :: es') ∧
      t' = { t1 with stk := ⟨.ACC, a⟩ :: es', out := o } := by
  unfold vmBoolAND at h
  simp only [top, hs, List.head?_cons, Option.bind_eq_bind, Option.bind_some] at h
  by_cases hF : e.sta = .FLAG
  · rw [if_pos hF] at h
    obtain ⟨sta, a⟩ := e
    simp only at hF
    subst hF
    unfold flagOrAnd at h
    simp only [top, hs, List.head?_cons, Option.bind_eq_bind, Option.bind_some,
      Option.some.injEq] at h
    refine ⟨t, a, es, t'.out, .refl, rfl, .inr hs, ?_⟩
    rw [← h]
    simp [setTop, hs]
  · rw [if_neg hF] at h
    unfold boolOrAnd at h
    simp only [Option.bind_eq_bind] at h
    cases h1 : loadStk 0 t with
    | none => rw [h1] at h; cases h
    | some ta =>
      rw [h1] at h
      obtain ⟨a, es', m, hs1, hl, _⟩ := loadStk0_form w hs h1
      simp only [Option.bind_some, top, hs1, List.head?_cons, Option.some.injEq] at h
      refine ⟨ta, a, es', t'.out, m, hl, .inl hs1, ?_⟩
      rw [← h]

end Cmm.Tac
