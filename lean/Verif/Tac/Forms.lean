import Verif.Tac.Acc

/-
What the functions of src/vm2tac.c (Verif/Tac/Model.lean) do, as small steps (`Mics`) followed by
one explicit change. The entry on top of the virtual stack is never on the hardware stack when it
is used (`e.sta ≠ .STK`).
-/
namespace Cmm.Tac

/-- flgPtr after popStk. -/
def cutFlg (f : Option Nat) (n : Nat) : Option Nat :=
  match f with
  | some p => if n ≤ p then none else some p
  | none => none

/-- The entry on top is removed and its accumulator released. -/
def relDrop (e : Ent) (t : T) : T :=
  { t with
    stk := t.stk.tail
    bsy := if isAcc e then upd t.bsy e.aux false else t.bsy
    cnt := if isAcc e then t.cnt - 1 else t.cnt
    flg := cutFlg t.flg (t.stk.length - 1) }

/-- An entry in the flags, moved to its accumulator. -/
def unflag (e : Ent) : Ent := if e.sta = .FLAG then ⟨.ACC, e.aux⟩ else e

theorem popStk_one {t t' : T} (h : popStk 1 t = some t') :
    t' = { t with stk := t.stk.tail, flg := cutFlg t.flg (t.stk.length - 1) } := by
  unfold popStk at h
  split at h
  · cases h
  · cases h
    simp only [List.drop_one]
    rfl

theorem relPop {t t' : T} {e : Ent} {es : List Ent} (hs : t.stk = e :: es)
    (h : (relTop t).bind (popStk 1) = some t') : t' = relDrop e t := by
  unfold relTop at h
  simp only [top, hs, List.head?_cons, Option.bind_eq_bind, Option.bind_some] at h
  unfold relDrop
  split at h
  · rename_i ha
    unfold relAcc at h
    split at h
    · cases h
    · have := popStk_one h
      rw [this]; simp [ha]
  · rename_i ha
    have := popStk_one h
    rw [this]; simp [ha]

theorem unflag_sta (e : Ent) : (unflag e).sta ≠ .FLAG := by
  unfold unflag; split
  · simp
  · assumption

theorem unflag_not {e : Ent} (h : e.sta ≠ .FLAG) : unflag e = e := if_neg h

theorem unflag_isAcc (e : Ent) : isAcc (unflag e) = isAcc e ∧ (unflag e).aux = e.aux := by
  unfold unflag
  split
  · rename_i h; constructor
    · unfold isAcc; simp [h]
    · rfl
  · exact ⟨rfl, rfl⟩

theorem unflag_stk {e : Ent} (h : e.sta ≠ .STK) : (unflag e).sta ≠ .STK := by
  unfold unflag; split
  · simp
  · exact h

theorem clearFlg_form {κ : Nat} {t t' : T} (w : W t) (h : clearFlg t = some t') :
    Mics κ t t' ∧ t'.flg = none ∧ t'.stk = t.stk.map unflag := clearFlg_mics w h

theorem get_top (e : Ent) (es : List Ent) : get (e :: es) ((e :: es).length - 1) = some e := by
  simp [get]

theorem get_sec (e0 e1 : Ent) (es : List Ent) :
    get (e0 :: e1 :: es) ((e0 :: e1 :: es).length - 2) = some e1 := by
  simp [get]

theorem calReg_form {o : TOp} {r : Int} {p : Nat} {t t' : T} {e : Ent} (hg : get t.stk p = some e)
    (h : calReg o r p t = some t') :
    ∃ s, operand e = some s ∧ t' = { t with out := t.out ++ [.op o (.g r) s] } := by
  unfold calReg at h
  rw [hg] at h
  simp only [Option.bind_eq_bind, Option.bind_some] at h
  cases ho : operand e with
  | none => rw [ho] at h; cases h
  | some s => rw [ho] at h; cases h; exact ⟨s, rfl, rfl⟩

/-- loadStk(0). -/
theorem loadStk0_form {t t' : T} {e : Ent} {es : List Ent} (w : W t) (hs : t.stk = e :: es)
    (h : loadStk 0 t = some t') :
    ∃ a es', Mics 1 t t' ∧ t'.stk = ⟨.ACC, a⟩ :: es' ∧ es'.length = es.length ∧ t'.flg = t.flg := by
  have := loadStk_mics (hi := []) (e := e) (lo := es) w hs (by simp) (by simp) h
  exact this

/-- loadStk(1). -/
theorem loadStk1_form {t t' : T} {e0 e1 : Ent} {es : List Ent} (w : W t) (hs : t.stk = e0 :: e1 :: es)
    (h0 : e0.sta ≠ .STK) (h : loadStk 1 t = some t') :
    ∃ a es', Mics 2 t t' ∧ t'.stk = e0 :: ⟨.ACC, a⟩ :: es' ∧ es'.length = es.length ∧
      t'.flg = t.flg := by
  have := loadStk_mics (hi := [e0]) (e := e1) (lo := es) w hs (by simp) (by simpa using h0) h
  exact this

/-- cal (vm2tac.c:630-638). -/
theorem cal_form {o : TOp} {t t' : T} {e0 e1 : Ent} {es : List Ent} (w : W t)
    (hs : t.stk = e0 :: e1 :: es) (h0 : e0.sta ≠ .STK) (h : cal o t = some t') :
    ∃ t1 a es' s, Mics 2 t t1 ∧ t1.stk = unflag e0 :: ⟨.ACC, a⟩ :: es' ∧ es'.length = es.length ∧
      operand (unflag e0) = some s ∧ t1.flg = none ∧
      t' = { relDrop (unflag e0) { t1 with out := t1.out ++ [.op o (.g a) s] } with
        flg := some es'.length } := by
  unfold cal at h
  simp only [Option.bind_eq_bind] at h
  cases h1 : clearFlg t with
  | none => rw [h1] at h; cases h
  | some ta =>
    rw [h1] at h
    simp only [Option.bind_some] at h
    obtain ⟨m1, hf1, hs1⟩ := clearFlg_form w h1
    rw [hs] at hs1
    simp only [List.map_cons] at hs1
    cases h2 : loadStk 1 ta with
    | none => rw [h2] at h; cases h
    | some tb =>
      rw [h2] at h
      obtain ⟨a, es', m2, hs2, hl, hf2⟩ := loadStk1_form (m1.W w) hs1 (unflag_stk h0) h2
      simp only [Option.bind_some, top, hs2, List.head?_cons] at h
      rw [if_neg (by
        rintro (h3 | h3)
        · exact unflag_stk h0 h3
        · exact unflag_sta e0 h3)] at h
      simp only [sec, hs2, List.tail_cons, List.head?_cons, Option.bind_some] at h
      cases h3 : calReg o a (tb.stk.length - 1) tb with
      | none => rw [hs2] at h3; rw [h3] at h; cases h
      | some tc =>
        have hg : get tb.stk (tb.stk.length - 1) = some (unflag e0) := by rw [hs2]; exact get_top _ _
        obtain ⟨s, ho, hc⟩ := calReg_form hg h3
        rw [hs2] at h3
        rw [h3] at h
        simp only [Option.bind_some] at h
        refine ⟨tb, a, es', s, m1.trans m2, hs2, by simpa using hl, ho, by rw [hf2, hf1], ?_⟩
        cases h4 : (relTop tc).bind (popStk 1) with
        | none =>
          exfalso
          cases h5 : relTop tc with
          | none => rw [h5] at h; cases h
          | some td =>
            rw [h5] at h h4
            simp only [Option.bind_some] at h h4
            rw [h4] at h; cases h
        | some td =>
          have hd := relPop (e := unflag e0) (es := ⟨.ACC, a⟩ :: es') (by rw [hc]; exact hs2) h4
          have h' : t' = { td with flg := td.ptr } := by
            cases h5 : relTop tc with
            | none => rw [h5] at h; cases h
            | some te =>
              rw [h5] at h h4
              simp only [Option.bind_some] at h h4
              rw [h4] at h
              simp only [Option.bind_some, Option.some.injEq] at h
              exact h.symm
          have hp : td.ptr = some es'.length := by
            have : td.stk = ⟨.ACC, a⟩ :: es' := by rw [hd, hc]; simp [relDrop, hs2]
            simp [T.ptr, this]
          rw [h', hp, hd, hc]

theorem W.swap {t : T} {e0 e1 : Ent} {es : List Ent} (w : W t) (hs : t.stk = e0 :: e1 :: es)
    (h0 : e0.sta ≠ .STK ∧ e0.sta ≠ .FLAG) (h1 : e1.sta ≠ .STK ∧ e1.sta ≠ .FLAG) :
    W (setTwo e1 e0 t) := by
  have hs' : (setTwo e1 e0 t).stk = e1 :: e0 :: es := by simp [setTwo, hs]
  have hp : (accs (setTwo e1 e0 t).stk).Perm (accs t.stk) := by
    rw [hs', hs, accs_cons, accs_cons, accs_cons, accs_cons, ← List.append_assoc,
      ← List.append_assoc]
    exact List.Perm.append_right _ List.perm_append_comm
  refine ⟨fun r => ?_, hp.nodup_iff.2 w.nodup, fun r hr => w.rng r (hp.mem_iff.1 hr), ?_, ?_, ?_, ?_,
    ?_, w.jcc⟩
  · rw [hp.mem_iff]; exact w.own r
  · rw [hp.length_eq]; exact w.cnt
  · rw [hs']
    have := w.low
    rw [hs] at this
    exact ⟨fun h => absurd h h1.1, fun h => absurd h h0.1, this.2.2⟩
  · rw [hs']
    have := w.flag
    rw [hs] at this
    exact ⟨fun h => absurd h h1.2, fun h => absurd h h0.2, this.2.2⟩
  · intro p hp
    have := w.flt p hp
    rw [hs] at this; rw [hs']; simpa using this
  · intro x hx
    rw [hs'] at hx
    apply w.regs
    rw [hs]
    simp only [List.mem_cons] at hx ⊢
    tauto

/-- rcal (vm2tac.c:643-650). -/
theorem rcal_form {o : TOp} {t t' : T} {e0 e1 : Ent} {es : List Ent} (hs : t.stk = e0 :: e1 :: es)
    (h : rcal o t = some t') :
    cal o t = some t' ∨ (e0.sta = .ACC ∧ e1.sta ≠ .STK ∧ e1.sta ≠ .FLAG ∧
      cal o (setTwo e1 e0 t) = some t') := by
  unfold rcal at h
  simp only [top, sec, hs, List.head?_cons, List.tail_cons, Option.bind_eq_bind, Option.bind_some] at h
  split at h
  · rename_i hc
    exact .inr ⟨hc.1, hc.2.2.1, hc.2.2.2, h⟩
  · exact .inl h

/-- An exchange that takes a value out of the flags ends in an error. -/
theorem cal_swapped_flag {o : TOp} {t : T} {a c : Int} {es : List Ent}
    (hs : t.stk = ⟨.CNST, c⟩ :: ⟨.FLAG, a⟩ :: es) (hf : t.flg = some (es.length + 1)) :
    cal o t = none := by
  have hc : clearFlg t = some { t with flg := none } := by
    unfold clearFlg
    simp only [hf, hs, get, List.length_cons, if_true, Option.bind_eq_bind, Option.bind_some]
    rfl
  unfold cal
  simp only [Option.bind_eq_bind, hc, Option.bind_some]
  have : loadStk 1 { t with flg := none } = none := by
    unfold loadStk
    simp only [hs, List.length_cons]
    rw [if_neg (by omega)]
    have hp : es.length + 1 + 1 - 1 - 1 = es.length := by omega
    simp only [hp, Option.bind_eq_bind]
    have hg : get (⟨.CNST, c⟩ :: ⟨.FLAG, a⟩ :: es) es.length = some ⟨.FLAG, a⟩ := by simp [get]
    simp [hg, isAcc, loadReg, loadFlg, hs]
  rw [this]
  rfl

/-- vmMul (vm2tac.c:706-719). -/
theorem vmMul_form {t t' : T} {e0 e1 : Ent} {es : List Ent} (w : W t)
    (hs : t.stk = e0 :: e1 :: es) (h : vmMul t = some t') :
    (e0.sta = .CNST ∧ isPower2 e0.aux > 0 ∧
      cal .SHLA (setTop ⟨.CNST, isPower2 e0.aux⟩ t) = some t') ∨
    (e1.sta = .CNST ∧ isPower2 e1.aux > 0 ∧ e0.sta ≠ .FLAG ∧
      cal .SHLA (setTwo ⟨.CNST, isPower2 e1.aux⟩ e0 t) = some t') ∨ rcal .MUL t = some t' := by
  unfold vmMul at h
  simp only [top, sec, hs, List.head?_cons, List.tail_cons, Option.bind_eq_bind, Option.bind_some] at h
  split at h
  · rename_i hc; exact .inl ⟨hc.1, hc.2, h⟩
  · split at h
    · rename_i hc
      refine .inr (.inl ⟨hc.1, hc.2, ?_, h⟩)
      intro hf
      obtain ⟨sta, a⟩ := e0
      simp only at hf
      subst hf
      have := w.flag
      rw [hs] at this
      have hn := cal_swapped_flag (o := .SHLA) (a := a) (es := es) (c := isPower2 e1.aux)
        (t := setTwo ⟨.CNST, isPower2 e1.aux⟩ ⟨.FLAG, a⟩ t) (by simp [setTwo, hs])
        (show t.flg = _ by simpa using this.1 rfl)
      rw [hn] at h
      cases h
    · exact .inr (.inr h)

theorem vmDiv_form {t t' : T} {e0 : Ent} {es : List Ent} (hs : t.stk = e0 :: es)
    (h : vmDiv t = some t') :
    (e0.sta = .CNST ∧ isPower2 e0.aux > 0 ∧
      cal .SHRA (setTop ⟨.CNST, isPower2 e0.aux⟩ t) = some t') ∨ cal .DIV t = some t' := by
  unfold vmDiv at h
  simp only [top, hs, List.head?_cons, Option.bind_eq_bind, Option.bind_some] at h
  split at h
  · rename_i hc; exact .inl ⟨hc.1, hc.2, h⟩
  · exact .inr h

theorem vmMod_form {t t' : T} {e0 e1 : Ent} {es : List Ent} (hs : t.stk = e0 :: e1 :: es)
    (h : vmMod t = some t') :
    (e0.sta = .CNST ∧ isPower2 e0.aux > 0 ∧
      cal .AND (setTop ⟨.CNST, 2 ^ (isPower2 e0.aux).toNat - 1⟩ t) = some t') ∨
      cal .MOD t = some t' := by
  unfold vmMod at h
  simp only [top, hs, List.head?_cons, Option.bind_eq_bind, Option.bind_some] at h
  split at h
  · rename_i hc
    refine .inl ⟨hc.1, hc.2, ?_⟩
    rcases rcal_form (e0 := ⟨.CNST, 2 ^ (isPower2 e0.aux).toNat - 1⟩) (e1 := e1) (es := es)
      (by simp [setTop, hs]) h with h | h
    · exact h
    · cases h.1
  · exact .inr h

/-- The state with another constant on top. -/
theorem W.setCst {t : T} {c c' : Int} {es : List Ent} (w : W t) (hs : t.stk = ⟨.CNST, c⟩ :: es) :
    W (setTop ⟨.CNST, c'⟩ t) := by
  refine w.replace (hi := []) (e := ⟨.CNST, c⟩) (e' := ⟨.CNST, c'⟩) (lo := es) hs (by simp [setTop, hs])
    rfl rfl rfl rfl rfl (by simp) (by simp) ⟨fun h => (by cases h), fun h => by simp at h⟩ (.inl rfl)

/-! ### Comparisons -/

/-- The part of cmp after the comparison (vm2tac.c:771-778). -/
def cmpEnd (jcc : Nat) (t : T) : Option T := do
  let t ← relTop t
  let t ← relSec t
  let t ← popStk 2 t
  let t ← if t.cnt ≥ AccSIZ then outStk t else some t
  let (acc, t) ← allocAcc t
  let t ← pushStk ⟨.FLAG, acc⟩ t
  some { t with flg := t.ptr, jcc := jcc }

/-- cmp (vm2tac.c:752-779). -/
theorem cmp_eq (j : Nat) {t : T} {e0 e1 : Ent} {es : List Ent} (hs : t.stk = e0 :: e1 :: es) :
    cmp j t =
      if isCnst0 e0 ∧ t.flg = some es.length then cmpEnd j t
      else if isCnst0 e1 ∧ t.flg = some (es.length + 1) then cmpEnd (swapJcc j) t
      else (cmpCode j t).bind fun x => cmpEnd x.1 x.2 := by
  unfold cmp cmpEnd
  simp only [top, sec, hs, List.head?_cons, List.tail_cons, Option.bind_eq_bind, Option.bind_some,
    T.ptr, List.length_cons]
  have e1 : es.length + 1 + 1 - 2 = es.length := by omega
  have e2 : es.length + 1 + 1 - 1 = es.length + 1 := by omega
  simp only [e1, e2, Nat.add_eq_zero_iff, Nat.succ_ne_self, and_false, if_false]

/-- The lines that compare. -/
theorem cmpCode_form {j : Nat} {t : T} {x : Nat × T} {e0 e1 : Ent} {es : List Ent} (w : W t)
    (hs : t.stk = e0 :: e1 :: es) (h0 : e0.sta ≠ .STK) (h : cmpCode j t = some x) :
    ∃ (sw : Bool) (f0 f1 : Ent) (t1 : T) (r : Int) (es' : List Ent) (s : Src),
      (sw = true → (e0.sta = .ACC ∨ e0.sta = .RVAR) ∧ e1.sta ≠ .STK ∧ e1.sta ≠ .FLAG) ∧
      (f0, f1) = (if sw then (e1, e0) else (e0, e1)) ∧
      Mics 2 (if sw then setTwo e1 e0 t else t) t1 ∧
      (f1.sta = .RVAR ∧ f1.aux = r ∧ t1.stk = unflag f0 :: f1 :: es' ∨
        t1.stk = unflag f0 :: ⟨.ACC, r⟩ :: es') ∧
      es'.length = es.length ∧ operand (unflag f0) = some s ∧ t1.flg = none ∧
      x = (if sw then swapJcc j else j, { t1 with out := t1.out ++ [.op .CMP (.g r) s] }) := by
  unfold cmpCode at h
  simp only [top, sec, hs, List.head?_cons, List.tail_cons, Option.bind_eq_bind, Option.bind_some] at h
  -- after the exchange
  have key : ∀ (j' : Nat) (tt : T) (f0 f1 : Ent), W tt → tt.stk = f0 :: f1 :: es → f0.sta ≠ .STK →
      ((clearFlg tt).bind fun t => t.stk.tail.head?.bind fun e1 =>
        (if e1.sta ≠ .RVAR then loadStk 1 t else some t).bind fun t => t.stk.head?.bind fun e0 =>
        (if e0.sta = .STK ∨ e0.sta = .FLAG then loadStk 0 t else some t).bind fun t =>
        t.stk.tail.head?.bind fun e1 =>
        (calReg .CMP e1.aux (t.stk.length - 1) t).bind fun t => some (j', t)) = some x →
      ∃ (t1 : T) (r : Int) (es' : List Ent) (s : Src), Mics 2 tt t1 ∧
        (f1.sta = .RVAR ∧ f1.aux = r ∧ t1.stk = unflag f0 :: f1 :: es' ∨
          t1.stk = unflag f0 :: ⟨.ACC, r⟩ :: es') ∧
        es'.length = es.length ∧ operand (unflag f0) = some s ∧ t1.flg = none ∧
        x = (j', { t1 with out := t1.out ++ [.op .CMP (.g r) s] }) := by
    intro j' tt f0 f1 wt hst hf0 hk
    cases h1 : clearFlg tt with
    | none => rw [h1] at hk; cases hk
    | some ta =>
      rw [h1] at hk
      obtain ⟨m1, hf1, hs1⟩ := clearFlg_form wt h1
      rw [hst] at hs1
      simp only [List.map_cons] at hs1
      simp only [Option.bind_some, hs1, List.tail_cons, List.head?_cons] at hk
      -- the register
      have reg : ∃ tb r es', Mics 2 ta tb ∧ (if (unflag f1).sta ≠ .RVAR then loadStk 1 ta else some ta) =
          some tb ∧ (f1.sta = .RVAR ∧ f1.aux = r ∧ tb.stk = unflag f0 :: f1 :: es' ∨
          tb.stk = unflag f0 :: ⟨.ACC, r⟩ :: es') ∧ es'.length = es.length ∧ tb.flg = none := by
        by_cases hr : (unflag f1).sta ≠ .RVAR
        · rw [if_pos hr] at hk ⊢
          cases h2 : loadStk 1 ta with
          | none => rw [h2] at hk; cases hk
          | some tb =>
            obtain ⟨a, es', m2, hs2, hl, hf2⟩ := loadStk1_form (m1.W wt) hs1 (unflag_stk hf0) h2
            exact ⟨tb, a, es', m2, rfl, .inr hs2, by simpa using hl, by rw [hf2, hf1]⟩
        · rw [if_neg hr]
          have hr : (unflag f1).sta = .RVAR := by simpa using hr
          have hr' : f1.sta = .RVAR := by
            unfold unflag at hr
            split at hr
            · simp at hr
            · exact hr
          have hu : unflag f1 = f1 := unflag_not (by rw [hr']; simp)
          exact ⟨ta, f1.aux, es.map unflag, .refl, rfl, .inl ⟨hr', rfl, by rw [hs1, hu]⟩, by simp, hf1⟩
      obtain ⟨tb, r, es', m2, heq, hst2, hl, hf2⟩ := reg
      rw [heq] at hk
      have hst3 : ∃ y, tb.stk = unflag f0 :: y :: es' ∧ y.aux = r := by
        rcases hst2 with ⟨_, h2, h3⟩ | h3
        · exact ⟨f1, h3, h2⟩
        · exact ⟨_, h3, rfl⟩
      obtain ⟨y, hy, hyr⟩ := hst3
      simp only [Option.bind_some, hy, List.head?_cons] at hk
      rw [if_neg (by
        rintro (h3 | h3)
        · exact unflag_stk hf0 h3
        · exact unflag_sta f0 h3)] at hk
      simp only [Option.bind_some, hy, List.tail_cons, List.head?_cons, hyr] at hk
      rw [← hy] at hk
      cases h3 : calReg .CMP r (tb.stk.length - 1) tb with
      | none => rw [h3] at hk; cases hk
      | some tc =>
        have hg : get tb.stk (tb.stk.length - 1) = some (unflag f0) := by rw [hy]; exact get_top _ _
        obtain ⟨s, ho, hc⟩ := calReg_form hg h3
        rw [h3] at hk
        simp only [Option.bind_some, Option.some.injEq] at hk
        exact ⟨tb, r, es', s, m1.trans m2, hst2, hl, ho, hf2, by rw [← hk, hc]⟩
  by_cases hc : (e0.sta = .ACC ∨ e0.sta = .RVAR) ∧ e1.sta ≠ .ACC ∧ e1.sta ≠ .RVAR ∧ e1.sta ≠ .STK ∧
      e1.sta ≠ .FLAG
  · simp only [if_pos hc] at h
    have ws : W (setTwo e1 e0 t) := w.swap hs ⟨h0, by rcases hc.1 with h | h <;> rw [h] <;> simp⟩
      ⟨hc.2.2.2.1, hc.2.2.2.2⟩
    obtain ⟨t1, r, es', s, k1, k2, k3, k4, k5, k6⟩ := key (swapJcc j) (setTwo e1 e0 t) e1 e0 ws
      (by simp [setTwo, hs]) hc.2.2.2.1 (by
        rw [← h]
        cases clearFlg (setTwo e1 e0 t) with
        | none => rfl
        | some ta =>
          simp only [Option.bind_some]
          cases hy : ta.stk.tail.head? with
          | none => rfl
          | some y =>
            simp only [Option.bind_some]
            have hF : ∀ a : T, (a.stk.head?.bind fun e0 =>
                (if e0.sta = .STK ∨ e0.sta = .FLAG then loadStk 0 a else some a).bind fun t =>
                t.stk.tail.head?.bind fun e1 =>
                (calReg .CMP e1.aux (t.stk.length - 1) t).bind fun t => some (swapJcc j, t)) =
                (a.stk.head?.bind fun e0 =>
                if e0.sta = .STK ∨ e0.sta = .FLAG then (loadStk 0 a).bind fun t =>
                  t.stk.tail.head?.bind fun e1 =>
                  (calReg .CMP e1.aux (t.stk.length - 1) t).bind fun t => some (swapJcc j, t)
                else a.stk.tail.head?.bind fun e1 =>
                  (calReg .CMP e1.aux (a.stk.length - 1) a).bind fun t => some (swapJcc j, t)) := by
              intro a
              cases a.stk.head? with
              | none => rfl
              | some z =>
                simp only [Option.bind_some]
                split <;> rfl
            simp only [hF]
            split
            · rfl
            · simp only [Option.bind_some, hy])
    exact ⟨true, e1, e0, t1, r, es', s, fun _ => ⟨hc.1, hc.2.2.2.1, hc.2.2.2.2⟩, rfl, k1, k2, k3, k4,
      k5, k6⟩
  · simp only [if_neg hc] at h
    obtain ⟨t1, r, es', s, k1, k2, k3, k4, k5, k6⟩ := key j t e0 e1 w hs h0 (by
        rw [← h]
        cases clearFlg t with
        | none => rfl
        | some ta =>
          simp only [Option.bind_some]
          cases hy : ta.stk.tail.head? with
          | none => rfl
          | some y =>
            simp only [Option.bind_some]
            have hF : ∀ a : T, (a.stk.head?.bind fun e0 =>
                (if e0.sta = .STK ∨ e0.sta = .FLAG then loadStk 0 a else some a).bind fun t =>
                t.stk.tail.head?.bind fun e1 =>
                (calReg .CMP e1.aux (t.stk.length - 1) t).bind fun t => some (j, t)) =
                (a.stk.head?.bind fun e0 =>
                if e0.sta = .STK ∨ e0.sta = .FLAG then (loadStk 0 a).bind fun t =>
                  t.stk.tail.head?.bind fun e1 =>
                  (calReg .CMP e1.aux (t.stk.length - 1) t).bind fun t => some (j, t)
                else a.stk.tail.head?.bind fun e1 =>
                  (calReg .CMP e1.aux (a.stk.length - 1) a).bind fun t => some (j, t)) := by
              intro a
              cases a.stk.head? with
              | none => rfl
              | some z =>
                simp only [Option.bind_some]
                split <;> rfl
            simp only [hF]
            split
            · rfl
            · simp only [Option.bind_some, hy])
    exact ⟨false, e0, e1, t1, r, es', s, fun h => (by cases h), rfl, k1, k2, k3, k4, k5, k6⟩

end Cmm.Tac
