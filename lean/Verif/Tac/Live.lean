import Mathlib.Data.List.Perm.Subperm
import Verif.Tac.Static

/-
The functions of src/vm2tac.c (Verif/Tac/Model.lean) do not end in an internal error when the invariant `W` holds and
there are enough entries on the virtual stack. For Verif/Props/C62.lean.
-/
namespace Cmm.Tac
open Cmm.Gen (Instr A1 A2)

/-- There is a result. -/
def Ok {α : Type} (o : Option α) : Prop := ∃ x, o = some x

theorem Ok.intro {α : Type} (x : α) : Ok (some x) := ⟨x, rfl⟩

theorem Ok.bind {α β : Type} {o : Option α} {f : α → Option β} (h : Ok o) (hf : ∀ x, o = some x → Ok (f x)) :
    Ok (o.bind f) := by
  obtain ⟨x, hx⟩ := h
  rw [hx]
  exact hf x hx

theorem relAcc_ok {t : T} {r : Int} (w : W t) (h : r ∈ accs t.stk) :
    relAcc r t = some { t with bsy := upd t.bsy r false, cnt := t.cnt - 1 } := by
  unfold relAcc
  have h1 := w.rng r h
  have h2 := (w.own r).2 h
  rw [if_neg]
  rw [h2]
  unfold AccSIZ
  simp
  omega

theorem popStk_ok {n : Nat} {t : T} (h : n ≤ t.stk.length) : Ok (popStk n t) := by
  unfold popStk
  rw [if_neg (by omega)]
  exact .intro _

theorem relTop_ok {t : T} {e : Ent} {es : List Ent} (w : W t) (hs : t.stk = e :: es) :
    ∃ t', relTop t = some t' ∧ t'.stk = t.stk := by
  unfold relTop
  simp only [top, hs, List.head?_cons, Option.bind_eq_bind, Option.bind_some]
  split
  · rename_i ha
    rw [relAcc_ok w (by rw [hs, accs_cons, acc1_acc ha]; simp)]
    exact ⟨_, rfl, by simp [hs]⟩
  · exact ⟨_, rfl, by simp [hs]⟩

theorem relPop_ok {t : T} {e : Ent} {es : List Ent} (w : W t) (hs : t.stk = e :: es) :
    (relTop t).bind (popStk 1) = some (relDrop e t) := by
  obtain ⟨t', h1, h2⟩ := relTop_ok w hs
  obtain ⟨t'', h3⟩ := popStk_ok (n := 1) (t := t') (by rw [h2, hs]; simp)
  have h4 : (relTop t).bind (popStk 1) = some t'' := by rw [h1]; exact h3
  rw [h4, relPop hs h4]

theorem clearFlg_ok {t : T} (w : W t) : Ok (clearFlg t) := by
  unfold clearFlg
  split
  · exact .intro _
  · rename_i p hp
    obtain ⟨e, he⟩ := get_lt (w.flt p hp)
    rw [he]
    simp only [Option.bind_eq_bind, Option.bind_some]
    split
    · rename_i hf
      unfold loadFlg
      rw [he]
      simp only [Option.bind_eq_bind, Option.bind_some]
      rw [if_neg (by simp [hp, hf])]
      exact .intro _
    · exact .intro _

theorem allocAcc_ok {t : T} (w : W t) (h : t.cnt < 3) : Ok (allocAcc t) := by
  unfold allocAcc
  split
  · exact .intro _
  · split
    · exact .intro _
    · split
      · exact .intro _
      · rename_i h0 h1 h2
        exfalso
        have m : ∀ r, ¬ t.bsy r = false → r ∈ accs t.stk := fun r hr => (w.own r).1 (by simpa using hr)
        have hsub : [0, 1, 2] ⊆ accs t.stk := by
          intro r hr
          simp only [List.mem_cons, List.not_mem_nil, or_false] at hr
          rcases hr with rfl | rfl | rfl
          · exact m _ h0
          · exact m _ h1
          · exact m _ h2
        have := ((by decide : ([0, 1, 2] : List Int).Nodup).subperm hsub).length_le
        have hc := w.cnt
        simp only [List.length_cons, List.length_nil] at this
        omega

theorem cnt_le {t : T} (w : W t) : t.cnt ≤ 3 := by
  have hsub : accs t.stk ⊆ [0, 1, 2] := by
    intro r hr
    have := w.rng r hr
    simp only [List.mem_cons, List.not_mem_nil, or_false]
    omega
  have := (w.nodup.subperm hsub).length_le
  have hc := w.cnt
  simp only [List.length_cons, List.length_nil] at this
  omega

theorem get_other {hi lo : List Ent} {e e' : Ent} {p : Nat} (h : p ≠ lo.length) :
    get (hi ++ e :: lo) p = get (hi ++ e' :: lo) p := by
  induction hi with
  | nil => simp [get, h]
  | cons x hi ih =>
    show get (x :: (hi ++ e :: lo)) p = get (x :: (hi ++ e' :: lo)) p
    unfold get
    rw [ih]
    simp

theorem operand_ok {e : Ent} (h1 : e.sta ≠ .STK) (h2 : e.sta ≠ .FLAG) : Ok (operand e) := by
  unfold operand
  split <;> first | exact .intro _ | (exfalso; simp_all)

theorem calReg_ok {o : TOp} {r : Int} {p : Nat} {t : T} {e : Ent} (hg : get t.stk p = some e) (h1 : e.sta ≠ .STK)
    (h2 : e.sta ≠ .FLAG) : Ok (calReg o r p t) := by
  unfold calReg
  rw [hg]
  obtain ⟨s, hs⟩ := operand_ok h1 h2
  simp only [Option.bind_eq_bind, Option.bind_some, hs]
  exact .intro _

/-- Room for one accumulator. -/
theorem room_ok {t : T} (w : W t) : ∃ t1, (if t.cnt ≥ AccSIZ then outStk t else some t) = some t1 ∧ W t1 ∧ t1.cnt < 3 ∧
    t1.stk.length = t.stk.length ∧ t1.flg = t.flg ∧
    ∀ p e, get t.stk p = some e → isAcc e = false → get t1.stk p = some e := by
  have hc := cnt_le w
  by_cases h : t.cnt ≥ AccSIZ
  · rw [if_pos h]
    unfold AccSIZ at h
    obtain ⟨t1, h1⟩ := outStk_total w (by omega)
    obtain ⟨hi, e, lo, hst, ha, _, m, hs1, hf, _, hc1⟩ := outStk_mics (κ := 0) w h1
    refine ⟨t1, h1, m.W w, by omega, m.same.1, hf, fun p x hx hxa => ?_⟩
    rw [hs1]
    by_cases hp : p = lo.length
    · rw [hst, hp, get_split] at hx
      cases hx
      rw [ha] at hxa
      cases hxa
    · rw [get_other hp (e' := e), ← hst]
      exact hx
  · rw [if_neg h]
    unfold AccSIZ at h
    exact ⟨t, rfl, w, by omega, rfl, rfl, fun _ _ h _ => h⟩

/-- An entry that is not in an accumulator can be brought into register `r`. -/
theorem loadReg_ok {r : Int} {p : Nat} {t : T} {e : Ent} (w : W t) (hg : get t.stk p = some e)
    (hr : ¬ ((e.sta = .ACC ∨ e.sta = .RVAR) ∧ e.aux = r)) : ∃ t', loadReg r p t = some t' ∧ t'.stk = t.stk ∧
      t'.bsy = t.bsy ∧ t'.cnt = t.cnt ∧ t'.flg = t.flg := by
  unfold loadReg
  rw [hg]
  simp only [Option.bind_eq_bind, Option.bind_some]
  split
  · exact ⟨_, rfl, rfl, rfl, rfl, rfl⟩
  · rename_i h1
    split
    · rename_i h2
      obtain ⟨hi, lo, hst, hp⟩ := get_some hg
      have hf := w.flag
      rw [hst] at hf
      have := (flag_split hf).1 h2
      unfold loadFlg
      rw [hg]
      simp only [Option.bind_eq_bind, Option.bind_some]
      rw [if_neg (by rw [this, hp]; simp [h2])]
      exact ⟨_, rfl, rfl, rfl, rfl, rfl⟩
    · rename_i h2
      try rw [if_neg hr]
      obtain ⟨t', h⟩ := calReg_ok (o := .LD) (r := r) hg h1 h2
      obtain ⟨s, _, h3⟩ := calReg_form hg h
      exact ⟨t', h, by rw [h3], by rw [h3], by rw [h3], by rw [h3]⟩

theorem loadStk_ok {offs : Nat} {t : T} (w : W t) (h : offs < t.stk.length) : Ok (loadStk offs t) := by
  unfold loadStk
  rw [if_neg (by omega)]
  obtain ⟨e, he⟩ := get_lt (es := t.stk) (p := t.stk.length - 1 - offs) (by omega)
  simp only [he, Option.bind_eq_bind, Option.bind_some]
  split
  · exact .intro _
  · rename_i hA
    by_cases ha : isAcc e = true
    · rw [if_pos ha]
      obtain ⟨t', h', _⟩ := loadReg_ok (r := e.aux) w he (by
        rintro ⟨h1 | h1, _⟩
        · exact hA h1
        · simp [isAcc, h1] at ha)
      simp only [Option.bind_some, h']
      exact .intro _
    · have ha : isAcc e = false := by simpa using ha
      simp only [ha, Bool.false_eq_true, if_false]
      obtain ⟨t1, h1, w1, hc, hl, _, hk⟩ := room_ok w
      rw [h1]
      obtain ⟨x, hx⟩ := allocAcc_ok w1 hc
      obtain ⟨hb, h0, hx2⟩ := allocAcc_some hx
      simp only [Option.bind_some, hx]
      have hg1 := hk _ _ he ha
      have hne : ¬ ((e.sta = .ACC ∨ e.sta = .RVAR) ∧ e.aux = x.1) := by
        rintro ⟨h2 | h2, h3⟩
        · exact hA h2
        · obtain ⟨hi, lo, hst, _⟩ := get_some he
          have := (w.regs e (by rw [hst]; simp)).1 h2
          omega
      -- the state with the accumulator taken prints the same
      have hF : e.sta ≠ .FLAG := by intro hF; simp [isAcc, hF] at ha
      have : Ok (loadReg x.1 (t.stk.length - 1 - offs) x.2) := by
        rw [hx2]
        unfold loadReg
        simp only [hg1, Option.bind_eq_bind, Option.bind_some]
        split
        · exact .intro _
        · rename_i hS
          try rw [if_neg hF]
          try rw [if_neg hne]
          exact calReg_ok (e := e) hg1 hS hF
      obtain ⟨t', h'⟩ := this
      rw [h']
      exact .intro _

theorem cal_ok {o : TOp} {t : T} {e0 e1 : Ent} {es : List Ent} (w : W t) (hs : t.stk = e0 :: e1 :: es)
    (h0 : e0.sta ≠ .STK) : Ok (cal o t) := by
  unfold cal
  simp only [Option.bind_eq_bind]
  refine (clearFlg_ok w).bind fun ta h1 => ?_
  obtain ⟨m1, hf1, hs1⟩ := clearFlg_form (κ := 2) w h1
  rw [hs] at hs1
  simp only [List.map_cons] at hs1
  have w1 := m1.W w
  refine (loadStk_ok w1 (by rw [hs1]; simp)).bind fun tb h2 => ?_
  obtain ⟨a, es', m2, hs2, hl, hf2⟩ := loadStk1_form w1 hs1 (unflag_stk h0) h2
  have w2 := m2.W w1
  simp only [Option.bind_some, top, hs2, List.head?_cons]
  rw [if_neg (by
    rintro (h3 | h3)
    · exact unflag_stk h0 h3
    · exact unflag_sta e0 h3)]
  simp only [sec, hs2, List.tail_cons, List.head?_cons, Option.bind_some]
  rw [← hs2]
  have hg : get tb.stk (tb.stk.length - 1) = some (unflag e0) := by rw [hs2]; exact get_top _ _
  refine (calReg_ok hg (unflag_stk h0) (unflag_sta e0)).bind fun tc h3 => ?_
  obtain ⟨s, _, hc⟩ := calReg_form hg h3
  have w3 : W tc := by rw [hc]; exact w2.out _
  obtain ⟨td, h4, h5⟩ := relTop_ok (e := unflag e0) (es := ⟨.ACC, a⟩ :: es') w3 (by rw [hc]; exact hs2)
  rw [h4]
  simp only [Option.bind_some]
  exact (popStk_ok (by rw [h5, hc]; show 1 ≤ tb.stk.length; rw [hs2]; simp)).bind fun _ _ => .intro _

theorem rcal_ok {o : TOp} {t : T} {e0 e1 : Ent} {es : List Ent} (w : W t) (hs : t.stk = e0 :: e1 :: es)
    (h0 : e0.sta ≠ .STK) : Ok (rcal o t) := by
  unfold rcal
  simp only [top, sec, hs, List.head?_cons, List.tail_cons, Option.bind_eq_bind, Option.bind_some]
  split
  · rename_i hc
    exact cal_ok (e0 := e1) (e1 := e0) (es := es)
      (w.swap hs ⟨h0, by rw [hc.1]; simp⟩ ⟨hc.2.2.1, hc.2.2.2⟩) (by simp [setTwo, hs]) hc.2.2.1
  · exact cal_ok w hs h0

theorem vmMul_ok {t : T} {e0 e1 : Ent} {es : List Ent} (w : W t) (hs : t.stk = e0 :: e1 :: es)
    (h0 : e0.sta ≠ .STK) (hf : e0.sta ≠ .FLAG) : Ok (vmMul t) := by
  unfold vmMul
  simp only [top, sec, hs, List.head?_cons, List.tail_cons, Option.bind_eq_bind, Option.bind_some]
  split
  · rename_i hc
    exact cal_ok (e1 := e1) (es := es) (w.setCst' hs hc.1) (by simp [setTop, hs]; rfl) (by simp)
  · split
    · rename_i hc
      exact cal_ok (e1 := e0) (es := es) (mul_left_swap w hs hc.1 h0 hf) (by simp [setTwo, hs]; rfl) (by simp)
    · exact rcal_ok w hs h0

theorem vmDiv_ok {t : T} {e0 e1 : Ent} {es : List Ent} (w : W t) (hs : t.stk = e0 :: e1 :: es)
    (h0 : e0.sta ≠ .STK) : Ok (vmDiv t) := by
  unfold vmDiv
  simp only [top, hs, List.head?_cons, Option.bind_eq_bind, Option.bind_some]
  split
  · rename_i hc
    exact cal_ok (e1 := e1) (es := es) (w.setCst' hs hc.1) (by simp [setTop, hs]; rfl) (by simp)
  · exact cal_ok w hs h0

theorem vmMod_ok {t : T} {e0 e1 : Ent} {es : List Ent} (w : W t) (hs : t.stk = e0 :: e1 :: es)
    (h0 : e0.sta ≠ .STK) : Ok (vmMod t) := by
  unfold vmMod
  simp only [top, hs, List.head?_cons, Option.bind_eq_bind, Option.bind_some]
  split
  · rename_i hc
    exact rcal_ok (e1 := e1) (es := es) (w.setCst' hs hc.1) (by simp [setTop, hs]; rfl) (by simp)
  · exact cal_ok w hs h0

theorem cmpTail_ok {j : Nat} {t : T} {e0 e1 : Ent} {es : List Ent} (hs : t.stk = e0 :: e1 :: es)
    (h0 : e0.sta ≠ .STK) (hf : e0.sta ≠ .FLAG) :
    Ok (t.stk.head?.bind fun e0 =>
      if e0.sta = .STK ∨ e0.sta = .FLAG then (loadStk 0 t).bind fun t =>
        t.stk.tail.head?.bind fun e1 => (calReg .CMP e1.aux (t.stk.length - 1) t).bind fun t => some (j, t)
      else t.stk.tail.head?.bind fun e1 =>
        (calReg .CMP e1.aux (t.stk.length - 1) t).bind fun t => some (j, t)) := by
  simp only [hs, List.head?_cons, Option.bind_some]
  rw [if_neg (by
    rintro (h3 | h3)
    · exact h0 h3
    · exact hf h3)]
  simp only [List.tail_cons, List.head?_cons, Option.bind_some]
  rw [← hs]
  have hg : get t.stk (t.stk.length - 1) = some e0 := by rw [hs]; exact get_top _ _
  exact (calReg_ok hg h0 hf).bind fun _ _ => .intro _

theorem cmpMid_ok {j : Nat} {t : T} {e0 e1 : Ent} {es : List Ent} (w : W t) (hs : t.stk = e0 :: e1 :: es)
    (h0 : e0.sta ≠ .STK) :
    Ok ((clearFlg t).bind fun t => t.stk.tail.head?.bind fun e1 =>
      if e1.sta ≠ .RVAR then (loadStk 1 t).bind fun t => t.stk.head?.bind fun e0 =>
        if e0.sta = .STK ∨ e0.sta = .FLAG then (loadStk 0 t).bind fun t =>
          t.stk.tail.head?.bind fun e1 => (calReg .CMP e1.aux (t.stk.length - 1) t).bind fun t => some (j, t)
        else t.stk.tail.head?.bind fun e1 =>
          (calReg .CMP e1.aux (t.stk.length - 1) t).bind fun t => some (j, t)
      else t.stk.head?.bind fun e0 =>
        if e0.sta = .STK ∨ e0.sta = .FLAG then (loadStk 0 t).bind fun t =>
          t.stk.tail.head?.bind fun e1 => (calReg .CMP e1.aux (t.stk.length - 1) t).bind fun t => some (j, t)
        else t.stk.tail.head?.bind fun e1 =>
          (calReg .CMP e1.aux (t.stk.length - 1) t).bind fun t => some (j, t)) := by
  refine (clearFlg_ok w).bind fun ta h1 => ?_
  obtain ⟨m1, hf1, hs1⟩ := clearFlg_form (κ := 2) w h1
  rw [hs] at hs1
  simp only [List.map_cons] at hs1
  have w1 := m1.W w
  have e : ta.stk.tail.head? = some (unflag e1) := by rw [hs1]; rfl
  refine Ok.bind ⟨_, e⟩ fun y hy => ?_
  rw [e] at hy
  cases hy
  split
  · refine (loadStk_ok (offs := 1) w1 (by rw [hs1]; simp)).bind fun tb h2 => ?_
    obtain ⟨a, es', m2, hs2, _, _⟩ := loadStk1_form w1 hs1 (unflag_stk h0) h2
    exact cmpTail_ok hs2 (unflag_stk h0) (unflag_sta e0)
  · exact cmpTail_ok hs1 (unflag_stk h0) (unflag_sta e0)

theorem cmpCode_ok {j : Nat} {t : T} {e0 e1 : Ent} {es : List Ent} (w : W t) (hs : t.stk = e0 :: e1 :: es)
    (h0 : e0.sta ≠ .STK) : Ok (cmpCode j t) := by
  unfold cmpCode
  simp only [top, sec, hs, List.head?_cons, List.tail_cons, Option.bind_eq_bind, Option.bind_some]
  by_cases hc : (e0.sta = .ACC ∨ e0.sta = .RVAR) ∧ e1.sta ≠ .ACC ∧ e1.sta ≠ .RVAR ∧ e1.sta ≠ .STK ∧
      e1.sta ≠ .FLAG
  · simp only [if_pos hc]
    exact cmpMid_ok (w.swap hs ⟨h0, by rcases hc.1 with h | h <;> rw [h] <;> simp⟩
      ⟨hc.2.2.2.1, hc.2.2.2.2⟩) (e1 := e0) (es := es) (by simp [setTwo, hs]) hc.2.2.2.1
  · simp only [if_neg hc]
    exact cmpMid_ok w hs h0

theorem relSec_ok {t : T} {e0 e1 : Ent} {es : List Ent} (w : W t) (hs : t.stk = e0 :: e1 :: es) :
    ∃ t', relSec t = some t' ∧ t'.stk = t.stk := by
  unfold relSec
  simp only [sec, hs, List.tail_cons, List.head?_cons, Option.bind_eq_bind, Option.bind_some]
  split
  · rename_i ha
    rw [relAcc_ok w (by rw [hs, accs_cons, accs_cons, acc1_acc ha]; simp)]
    exact ⟨_, rfl, by simp [hs]⟩
  · exact ⟨_, rfl, by simp [hs]⟩

/-- The two entries of a comparison are given up. -/
theorem relTwo_ok {t : T} {e0 e1 : Ent} {es : List Ent} (w : W t) (hs : t.stk = e0 :: e1 :: es) :
    ((relTop t).bind relSec).bind (popStk 2) = some (relDrop e1 (relDrop e0 t)) := by
  have e2 : t.stk.length - 2 = es.length := by rw [hs]; simp
  have pop2 : ∀ u : T, u.stk = e0 :: e1 :: es → u.flg = t.flg →
      popStk 2 u = some { u with stk := es, flg := cutFlg t.flg es.length } := by
    intro u hu hv
    unfold popStk
    rw [hu, if_neg (by simp), hv]
    simp only [List.drop_succ_cons, List.drop_zero, List.length_cons]
    rfl
  have hnd := w.nodup
  rw [hs, accs_cons, accs_cons] at hnd
  have fin0 : ∀ (b : Int → Bool) (c : Int),
      ({ t with bsy := b, cnt := c } : T).stk = e0 :: e1 :: es := fun _ _ => hs
  unfold relTop
  simp only [top, hs, List.head?_cons, Option.bind_eq_bind, Option.bind_some]
  by_cases ha : isAcc e0 = true
  · have h0 : e0.aux ∈ accs t.stk := by rw [hs, accs_cons, acc1_acc ha]; simp
    simp only [ha, if_true, relAcc_ok w h0, Option.bind_some, relSec, sec, hs, List.tail_cons, List.head?_cons,
      Option.bind_eq_bind]
    by_cases hb : isAcc e1 = true
    · have h1 : e1.aux ∈ accs t.stk := by rw [hs, accs_cons, accs_cons, acc1_acc hb]; simp
      have hne : e1.aux ≠ e0.aux := by
        rw [acc1_acc ha, acc1_acc hb] at hnd
        intro h
        simp [h] at hnd
      simp only [hb, if_true]
      unfold relAcc
      have hr := w.rng _ h1
      have hbb := (w.own _).2 h1
      rw [if_neg (by unfold AccSIZ; simp [upd, hne, hbb]; omega)]
      simp only [Option.bind_some]
      rw [pop2 _ (by simp [hs]) (by rfl)]
      simp [relDrop, ha, hb, hs, cutFlg_cutFlg]
    · simp only [hb, if_false, Bool.false_eq_true, Option.bind_some]
      rw [pop2 _ (by simp [hs]) (by rfl)]
      simp [relDrop, ha, hb, hs, cutFlg_cutFlg]
  · simp only [ha, if_false, Bool.false_eq_true, Option.bind_some, relSec, sec, hs, List.tail_cons,
      List.head?_cons, Option.bind_eq_bind]
    by_cases hb : isAcc e1 = true
    · have h1 : e1.aux ∈ accs t.stk := by rw [hs, accs_cons, accs_cons, acc1_acc hb]; simp
      simp only [hb, if_true, relAcc_ok w h1, Option.bind_some]
      rw [pop2 _ (by simp [hs]) (by rfl)]
      simp [relDrop, ha, hb, hs, cutFlg_cutFlg]
    · simp only [hb, if_false, Bool.false_eq_true, Option.bind_some]
      rw [pop2 _ hs (by rfl)]
      simp [relDrop, ha, hb, hs, cutFlg_cutFlg]

theorem cmpEnd_ok {j : Nat} {t : T} {e0 e1 : Ent} {es : List Ent} (w : W t) (hs : t.stk = e0 :: e1 :: es)
    (hl : t.stk.length ≤ 20) : Ok (cmpEnd j t) := by
  have w0 := w.relDrop hs
  have hs0 : (relDrop e0 t).stk = e1 :: es := by simp [relDrop, hs]
  have w1 := w0.relDrop hs0
  have hs1 : (relDrop e1 (relDrop e0 t)).stk = es := by simp [relDrop, hs]
  have h := relTwo_ok w hs
  have hE : cmpEnd j t = (((relTop t).bind relSec).bind (popStk 2)).bind fun t =>
      (if t.cnt ≥ AccSIZ then outStk t else some t).bind fun t =>
        (allocAcc t).bind fun x => (pushStk ⟨.FLAG, x.1⟩ x.2).bind fun t =>
          some { t with flg := t.ptr, jcc := j } := by
    unfold cmpEnd
    simp only [Option.bind_eq_bind]
    cases relTop t with
    | none => rfl
    | some ta =>
      simp only [Option.bind_some]
      cases relSec ta with
      | none => rfl
      | some tb =>
        simp only [Option.bind_some]
        cases popStk 2 tb with
        | none => rfl
        | some tc =>
          simp only [Option.bind_some]
          split <;> rfl
  rw [hE, h]
  simp only [Option.bind_some]
  obtain ⟨t2, h2, w2, hc, hl2, _, _⟩ := room_ok w1
  rw [h2]
  simp only [Option.bind_some]
  obtain ⟨x, hx⟩ := allocAcc_ok w2 hc
  obtain ⟨_, _, hx2⟩ := allocAcc_some hx
  rw [hx]
  simp only [Option.bind_some, hx2, pushStk]
  rw [if_neg (by
    unfold StkSIZ
    simp only [hl2, hs1]
    rw [hs] at hl
    simp only [List.length_cons] at hl
    omega)]
  exact .intro _

theorem cmp_ok {j : Nat} {t : T} {e0 e1 : Ent} {es : List Ent} (w : W t) (hs : t.stk = e0 :: e1 :: es)
    (h0 : e0.sta ≠ .STK) (hl : t.stk.length ≤ 20) : Ok (cmp j t) := by
  rw [cmp_eq j hs]
  split
  · exact cmpEnd_ok w hs hl
  · split
    · exact cmpEnd_ok w hs hl
    · refine (cmpCode_ok w hs h0).bind fun x hx => ?_
      obtain ⟨sw, f0, f1, t1, r, es', sr, hsw, hff, mi, hst, hl', ho, hf, rfl⟩ := cmpCode_form w hs h0 hx
      have w1 : W t1 := by
        refine mi.W ?_
        cases sw with
        | true =>
          have := hsw rfl
          exact w.swap hs ⟨h0, by rcases this.1 with h | h <;> rw [h] <;> simp⟩ this.2
        | false => exact w
      have hlen : t1.stk.length = t.stk.length := by
        rw [mi.same.1]
        cases sw <;> simp [setTwo, hs]
      rcases hst with ⟨_, _, hst⟩ | hst
      · exact cmpEnd_ok (w1.out _) hst (by show t1.stk.length ≤ 20; omega)
      · exact cmpEnd_ok (w1.out _) hst (by show t1.stk.length ≤ 20; omega)

theorem boolJmp_ok {tf : Bool} {lab : Nat} {t : T} {e : Ent} {es : List Ent} (w : W t) (hs : t.stk = e :: es) :
    Ok (boolJmp tf lab t) := by
  have hptr : t.ptr = some es.length := by simp [T.ptr, hs]
  unfold boolJmp
  simp only [top, hs, List.head?_cons, Option.bind_eq_bind, Option.bind_some, hptr, T.print]
  by_cases hf : e.sta = .FLAG
  · have hfl := w.flag
    rw [hs] at hfl
    simp only [hf, if_true]
    rw [if_neg (by simp [hfl.1 hf]), ← hs]
    exact ⟨_, relPop_ok (e := e) (es := es) (w.out _) hs⟩
  · simp only [hf, if_false]
    by_cases hp : t.flg = some es.length
    · rw [if_neg (by simpa using hp), ← hs]
      exact ⟨_, relPop_ok (e := e) (es := es) (w.out _) hs⟩
    · rw [if_pos hp]
      refine (clearFlg_ok w).bind fun ta h1 => ?_
      obtain ⟨m1, hf1, hs1⟩ := clearFlg_form (κ := 1) w h1
      have w1 := m1.W w
      rw [hs] at hs1
      simp only [List.map_cons] at hs1
      split
      · refine (loadStk_ok (offs := 0) w1 (by rw [hs1]; simp)).bind fun tb h2 => ?_
        obtain ⟨a, es', m2, hs2, hl, hf2⟩ := loadStk0_form w1 hs1 h2
        simp only [hs2, List.head?_cons, Option.bind_some]
        rw [← hs2]
        exact ⟨_, relPop_ok (e := ⟨.ACC, a⟩) (es := es') ((m2.W w1).out _) hs2⟩
      · simp only [hs1, List.head?_cons, Option.bind_some]
        rw [← hs1]
        exact ⟨_, relPop_ok (e := unflag e) (es := es.map unflag) (w1.out _) hs1⟩

theorem ldEnd_ok {k : Sta} {u : T} {x y : Ent} {l : List Ent} (w : W u) (hu : u.stk = x :: y :: l) :
    Ok ((relTop u).bind fun t => (popStk 1 t).bind fun t => t.stk.head?.bind fun e =>
      some (setTop ⟨k, e.aux⟩ t)) := by
  have h := relPop_ok w hu
  obtain ⟨v, h1, _⟩ := relTop_ok w hu
  rw [h1] at h ⊢
  simp only [Option.bind_some] at h ⊢
  rw [h]
  simp only [Option.bind_some, relDrop, hu, List.tail_cons, List.head?_cons]
  exact .intro _

theorem vmLdWrd_ok {t : T} {e0 e1 : Ent} {es : List Ent} (w : W t) (hs : t.stk = e0 :: e1 :: es)
    (h0 : e0.sta ≠ .STK) : Ok (vmLdWrd t) := by
  unfold vmLdWrd
  simp only [top, sec, hs, List.head?_cons, List.tail_cons, Option.bind_eq_bind, Option.bind_some]
  by_cases hc : isCnst0 e0 = true
  · by_cases hr : e1.sta = .RVAR
    · rw [if_neg (by simp [hc, hr])]
      exact ldEnd_ok w hs
    · rw [if_pos (.inr hr)]
      refine (loadStk_ok (offs := 1) w (by rw [hs]; simp)).bind fun ta h1 => ?_
      obtain ⟨a, es', m1, hs1, hl, _⟩ := loadStk1_form w hs h0 h1
      simp only [hc, not_true_eq_false, if_false]
      exact ldEnd_ok (m1.W w) hs1
  · rw [if_pos (.inl hc)]
    refine (loadStk_ok (offs := 1) w (by rw [hs]; simp)).bind fun ta h1 => ?_
    obtain ⟨a, es', m1, hs1, hl, _⟩ := loadStk1_form w hs h0 h1
    have w1 := m1.W w
    simp only [hc, Bool.false_eq_true, not_false_eq_true, if_true]
    refine (clearFlg_ok w1).bind fun tb h2 => ?_
    obtain ⟨m2, hf2, hs2⟩ := clearFlg_form (κ := 2) w1 h2
    rw [hs1] at hs2
    simp only [List.map_cons] at hs2
    have hg : get tb.stk (tb.stk.length - 1) = some (unflag e0) := by rw [hs2]; exact get_top _ _
    refine Ok.bind ⟨_, by rw [hs2]; rfl⟩ fun y hy => ?_
    refine (calReg_ok hg (unflag_stk h0) (unflag_sta e0)).bind fun tc h3 => ?_
    obtain ⟨s, _, hc'⟩ := calReg_form hg h3
    exact ldEnd_ok (by rw [hc']; exact (m2.W w1).out _) (by rw [hc']; exact hs2)

theorem ldbEnd_ok {k : Sta} {u : T} {x y : Ent} {l : List Ent} (hu : u.stk = x :: y :: l) :
    Ok ((popStk 1 u).bind fun t => t.stk.head?.bind fun e => some (setTop ⟨k, e.aux⟩ t)) := by
  refine (popStk_ok (by rw [hu]; simp)).bind fun v hv => ?_
  rw [popStk_one hv]
  simp only [hu, List.tail_cons, List.head?_cons, Option.bind_some]
  exact .intro _

theorem vmLdByt_ok {t : T} {e0 e1 : Ent} {es : List Ent} (w : W t) (hs : t.stk = e0 :: e1 :: es)
    (h0 : e0.sta ≠ .STK) : Ok (vmLdByt t) := by
  unfold vmLdByt
  simp only [top, sec, hs, List.head?_cons, List.tail_cons, Option.bind_eq_bind, Option.bind_some]
  by_cases hA : (e0.sta = .ACC ∨ e0.sta = .STK) ∧ e1.sta ≠ .ACC ∧ e1.sta ≠ .STK
  · rw [if_pos hA]
    refine (clearFlg_ok w).bind fun ta h1 => ?_
    obtain ⟨m1, hf1, hs1⟩ := clearFlg_form (κ := 2) w h1
    have w1 := m1.W w
    rw [hs] at hs1
    simp only [List.map_cons] at hs1
    have hacc : e0.sta = .ACC := hA.1.resolve_right h0
    have hu0 : unflag e0 = e0 := unflag_not (by rw [hacc]; simp)
    rw [hu0] at hs1
    have hld : loadStk 0 ta = some ta := by
      unfold loadStk
      rw [if_neg (by rw [hs1]; simp)]
      have hg : get ta.stk (ta.stk.length - 1 - 0) = some e0 := by rw [hs1]; exact get_top _ _
      simp only [hg, Option.bind_eq_bind, Option.bind_some, hacc, if_true]
    refine Ok.bind ⟨_, hld⟩ fun tb h2 => ?_
    rw [hld] at h2
    cases h2
    refine Ok.bind ⟨_, by rw [hs1]; rfl⟩ fun y hy => ?_
    have hg : get ta.stk (ta.stk.length - 2) = some (unflag e1) := by rw [hs1]; exact get_sec _ _ _
    refine (calReg_ok hg (unflag_stk hA.2.2) (unflag_sta e1)).bind fun tc h3 => ?_
    obtain ⟨s, _, hc'⟩ := calReg_form hg h3
    have w2 : W tc := by rw [hc']; exact w1.out _
    have hs2 : tc.stk = e0 :: unflag e1 :: es.map unflag := by rw [hc']; exact hs1
    obtain ⟨td, h4, h5⟩ := relSec_ok w2 hs2
    rw [h4]
    simp only [Option.bind_some, h5, hs2, List.tail_cons, List.head?_cons]
    exact ldbEnd_ok (u := setTwo y ⟨(unflag e1).sta, y.aux⟩ td) rfl
  · rw [if_neg hA]
    by_cases hc : isCnst0 e0 = true
    · by_cases hr : e1.sta = .RVAR
      · rw [if_neg (by simp [hc, hr])]
        exact ldbEnd_ok hs
      · rw [if_pos (.inr hr)]
        refine (loadStk_ok (offs := 1) w (by rw [hs]; simp)).bind fun ta h1 => ?_
        obtain ⟨a, es', m1, hs1, hl, _⟩ := loadStk1_form w hs h0 h1
        simp only [hc, not_true_eq_false, if_false]
        obtain ⟨tb, h2, h3⟩ := relTop_ok (m1.W w) hs1
        refine Ok.bind ⟨_, h2⟩ fun td h4 => ?_
        rw [h2] at h4
        cases h4
        exact ldbEnd_ok (h3.trans hs1)
    · rw [if_pos (.inl hc)]
      refine (loadStk_ok (offs := 1) w (by rw [hs]; simp)).bind fun ta h1 => ?_
      obtain ⟨a, es', m1, hs1, hl, _⟩ := loadStk1_form w hs h0 h1
      have w1 := m1.W w
      simp only [hc, Bool.false_eq_true, not_false_eq_true, if_true]
      refine (clearFlg_ok w1).bind fun tb h2 => ?_
      obtain ⟨m2, hf2, hs2⟩ := clearFlg_form (κ := 2) w1 h2
      rw [hs1] at hs2
      simp only [List.map_cons] at hs2
      have hg : get tb.stk (tb.stk.length - 1) = some (unflag e0) := by rw [hs2]; exact get_top _ _
      refine Ok.bind ⟨_, by rw [hs2]; rfl⟩ fun y hy => ?_
      refine (calReg_ok hg (unflag_stk h0) (unflag_sta e0)).bind fun tc h3 => ?_
      obtain ⟨s, _, hc'⟩ := calReg_form hg h3
      have hs3 : tc.stk = unflag e0 :: unflag ⟨.ACC, a⟩ :: es'.map unflag := by rw [hc']; exact hs2
      obtain ⟨td, h4, h5⟩ := relTop_ok (t := tc) (by rw [hc']; exact (m2.W w1).out _) hs3
      refine Ok.bind ⟨_, h4⟩ fun te h6 => ?_
      rw [h4] at h6
      cases h6
      exact ldbEnd_ok (h5.trans hs3)

theorem storeInd_ok {d : Int → Src} {t : T} {k : Sta} {r : Int} {e1 : Ent} {es : List Ent} (w : W t)
    (hs : t.stk = ⟨k, r⟩ :: e1 :: es) (hk : k = .WINDR ∨ k = .BINDR) : Ok (storeInd d t) := by
  have h0 : (⟨k, r⟩ : Ent).sta ≠ .STK := by rcases hk with rfl | rfl <;> simp
  have hacc : r < AccSIZ → isAcc ⟨k, r⟩ = true := by
    intro h; unfold isAcc; rcases hk with rfl | rfl <;> simp [h]
  have fin : ∀ (u : T) (y : Ent) (l : List Ent), W u → u.stk = ⟨k, r⟩ :: y :: l →
      Ok (if r < AccSIZ then (relAcc r (u.print (.st y.aux (d r)))).bind (popStk 1)
        else popStk 1 (u.print (.st y.aux (d r)))) := by
    intro u y l wu hu
    split
    · rename_i hr
      rw [relAcc_ok (t := u.print (.st y.aux (d r))) (wu.out _) (by
        show r ∈ accs u.stk
        rw [hu, accs_cons, acc1_acc (hacc hr)]; simp)]
      exact popStk_ok (by show 1 ≤ u.stk.length; rw [hu]; simp)
    · exact popStk_ok (by show 1 ≤ u.stk.length; rw [hu]; simp)
  unfold storeInd
  simp only [sec, top, hs, List.head?_cons, List.tail_cons, Option.bind_eq_bind, Option.bind_some]
  by_cases hr : e1.sta = .RVAR
  · simp only [hr, ne_eq, not_true_eq_false, if_false, hs, List.head?_cons, List.tail_cons,
      Option.bind_some]
    exact fin t e1 es w hs
  · simp only [hr, ne_eq, not_false_eq_true, if_true]
    refine (loadStk_ok (offs := 1) w (by rw [hs]; simp)).bind fun ta h1 => ?_
    obtain ⟨a, es', m1, hs1, hl, _⟩ := loadStk1_form w hs h0 h1
    simp only [hs1, List.head?_cons, List.tail_cons, Option.bind_some]
    exact fin ta ⟨.ACC, a⟩ es' (m1.W w) hs1

theorem st_ok {d : Src} {t : T} {e : Ent} {es : List Ent} (w : W t) (hs : t.stk = e :: es) :
    Ok (if e.sta ≠ .RVAR then (loadStk 0 t).bind fun t => t.stk.head?.bind fun e =>
      some (t.print (.st e.aux d)) else t.stk.head?.bind fun e => some (t.print (.st e.aux d))) := by
  split
  · refine (loadStk_ok (offs := 0) w (by rw [hs]; simp)).bind fun ta h1 => ?_
    obtain ⟨a, es', m1, hs1, hl, _⟩ := loadStk0_form w hs h1
    simp only [hs1, List.head?_cons, Option.bind_some]
    exact .intro _
  · simp only [hs, List.head?_cons, Option.bind_some]
    exact .intro _

theorem vmStGlb_ok {n : Int} {t : T} {e : Ent} {es : List Ent} (w : W t) (hs : t.stk = e :: es) :
    Ok (vmStGlb n t) := by
  have := st_ok (d := .glb n) w hs
  unfold vmStGlb
  simp only [top, Option.bind_eq_bind]
  refine Ok.bind ⟨_, by rw [hs]; rfl⟩ fun y hy => ?_
  rw [hs] at hy
  cases hy
  exact this

theorem vmStPrm_ok {n : Int} {t : T} {e : Ent} {es : List Ent} (w : W t) (hs : t.stk = e :: es) :
    Ok (vmStPrm n t) := by
  have := st_ok (d := .fp ((n + 2) * 2)) w hs
  unfold vmStPrm
  simp only [top, Option.bind_eq_bind]
  refine Ok.bind ⟨_, by rw [hs]; rfl⟩ fun y hy => ?_
  rw [hs] at hy
  cases hy
  exact this

theorem acc_lt {t : T} {e : Ent} {es : List Ent} (w : W t) (hs : t.stk = e :: es) (h : e.sta = .ACC) : e.aux < 3 :=
  (w.rng e.aux (by rw [hs, accs_cons, acc1_acc (by simp [isAcc, h])]; simp)).2

theorem vmStLoc_ok {n : Int} {t : T} {e : Ent} {es : List Ent} (w : W t) (hs : t.stk = e :: es) (hn : 1 ≤ n) :
    Ok (vmStLoc n t) := by
  unfold vmStLoc
  simp only [top, Option.bind_eq_bind]
  refine Ok.bind ⟨_, by rw [hs]; rfl⟩ fun y hy => ?_
  rw [hs] at hy
  cases hy
  by_cases hr : n ≤ RVarSIZ
  · rw [if_pos hr]
    have fin : ∀ u : T, u.stk = t.stk → u.bsy = t.bsy → u.cnt = t.cnt → Ok (if e.sta ≠ .ACC then
        (relTop u).bind fun t => some (setTop ⟨.RVAR, n - 1 + AccSIZ⟩ t) else some u) := by
      intro u h1 h2 h3
      split
      · have : Ok (relTop u) := by
          unfold relTop
          simp only [top, h1, hs, List.head?_cons, Option.bind_eq_bind, Option.bind_some]
          split
          · rename_i ha
            unfold relAcc
            have hm : e.aux ∈ accs t.stk := by rw [hs, accs_cons, acc1_acc ha]; simp
            have hr := w.rng _ hm
            have hb := (w.own _).2 hm
            rw [if_neg (by rw [h2, hb]; unfold AccSIZ; simp; omega)]
            exact .intro _
          · exact .intro _
        exact this.bind fun _ _ => .intro _
      · exact .intro _
    by_cases hsame : e.sta ≠ .RVAR ∨ e.aux ≠ n - 1 + AccSIZ
    · rw [if_pos hsame]
      have hg : get t.stk (t.stk.length - 1) = some e := by rw [hs]; exact get_top _ _
      obtain ⟨u, h1, h2, h3, h4, _⟩ := loadReg_ok (r := n - 1 + AccSIZ) w hg (by
        rintro ⟨h1 | h1, h2⟩
        · have := acc_lt w hs h1
          unfold AccSIZ at h2
          omega
        · exact hsame.elim (fun h => h h1) (fun h => h h2))
      rw [h1]
      simp only [Option.bind_some]
      exact fin u h2 h3 h4
    · rw [if_neg hsame]
      exact fin t rfl rfl rfl
  · rw [if_neg hr]
    exact st_ok w hs

theorem unary_ok {o : A1} {t : T} {e : Ent} {es : List Ent} (w : W t) (hs : t.stk = e :: es) : Ok (unary o t) := by
  unfold unary
  simp only [Option.bind_eq_bind]
  refine (clearFlg_ok w).bind fun ta h1 => ?_
  obtain ⟨m1, hf1, hs1⟩ := clearFlg_form (κ := 1) w h1
  rw [hs] at hs1
  simp only [List.map_cons] at hs1
  refine (loadStk_ok (offs := 0) (m1.W w) (by rw [hs1]; simp)).bind fun tb h2 => ?_
  obtain ⟨a, es', m2, hs2, hl, hf2⟩ := loadStk0_form (m1.W w) hs1 h2
  simp only [top, hs2, List.head?_cons, Option.bind_some]
  exact .intro _

theorem outStkAll_ok {t : T} (w : W t) : Ok (outStkAll t) :=
  outStkN_total (n := t.cnt.toNat) w (by have := w.cnt; omega)

theorem vmMReg_ok {t : T} {e : Ent} {es : List Ent} (w : W t) (hs : t.stk = e :: es) : Ok (vmMReg t) := by
  unfold vmMReg
  simp only [top, Option.bind_eq_bind]
  refine Ok.bind ⟨_, by rw [hs]; rfl⟩ fun y hy => ?_
  rw [hs] at hy
  cases hy
  have fin : ∀ u : T, u.stk = t.stk → u.bsy = t.bsy → Ok ((relTop u).bind (popStk 1)) := by
    intro u h1 h2
    unfold relTop
    simp only [top, h1, hs, List.head?_cons, Option.bind_eq_bind, Option.bind_some]
    split
    · rename_i ha
      unfold relAcc
      have hm : e.aux ∈ accs t.stk := by rw [hs, accs_cons, acc1_acc ha]; simp
      have hr := w.rng _ hm
      have hb := (w.own _).2 hm
      rw [if_neg (by rw [h2, hb]; unfold AccSIZ; simp; omega)]
      exact popStk_ok (by show 1 ≤ u.stk.length; rw [h1, hs]; simp)
    · exact popStk_ok (by rw [h1, hs]; simp)
  split
  · rename_i hne
    have hg : get t.stk (t.stk.length - 1) = some e := by rw [hs]; exact get_top _ _
    obtain ⟨u, h1, h2, h3, h4, _⟩ := loadReg_ok (r := 0) w hg (by
      rintro ⟨h1 | h1, h2⟩
      · exact hne.elim (fun h => h h1) (fun h => h h2)
      · have := (w.regs e (by rw [hs]; simp)).1 h1
        omega)
    rw [h1]
    exact fin u h2 h3
  · exact fin t rfl rfl

theorem vmArg_ok {t : T} {e : Ent} {es : List Ent} (w : W t) (hs : t.stk = e :: es) : Ok (vmArg t) := by
  unfold vmArg
  simp only [top, hs, List.head?_cons, Option.bind_eq_bind, Option.bind_some]
  split
  · refine Ok.bind ?_ fun u hu => ?_
    · refine (loadStk_ok (offs := 0) w (by rw [hs]; simp)).bind fun ta h1 => ?_
      obtain ⟨a, es', m1, hs1, hl, hf1⟩ := loadStk0_form w hs h1
      exact outStkAll_ok (m1.W w)
    · cases h1 : loadStk 0 t with
      | none => rw [h1] at hu; cases hu
      | some ta =>
        rw [h1] at hu
        obtain ⟨a, es', m1, hs1, hl, hf1⟩ := loadStk0_form w hs h1
        obtain ⟨m2, _⟩ := outStkAll_mics (κ := 0) (m1.W w) hu
        exact popStk_ok (by rw [m2.same.1, hs1]; simp)
  · obtain ⟨ta, h1⟩ := outStkAll_ok w
    obtain ⟨m2, _⟩ := outStkAll_mics (κ := 0) w h1
    rw [h1]
    exact popStk_ok (by show 1 ≤ ta.stk.length; rw [m2.same.1, hs]; simp)

theorem call_ok {n : Nat} {f : Int} {t : T} (w : W t) : Ok (call n f t) := by
  unfold call
  simp only [Option.bind_eq_bind]
  exact (outStkAll_ok w).bind fun _ _ => .intro _

theorem vmCallF_ok {n : Nat} {f : Int} {t : T} (w : W t) (hl : t.stk.length < 20) : Ok (vmCallF n f t) := by
  unfold vmCallF
  simp only [Option.bind_eq_bind]
  refine (call_ok w).bind fun t' h => ?_
  obtain ⟨t1, m, ha, hf, hs, rfl⟩ := call_form w h
  have w1 := m.W w
  have hb : t1.bsy 0 = false := by
    cases hb : t1.bsy 0 with
    | false => rfl
    | true => have := (w1.own 0).1 hb; rw [ha] at this; simp at this
  simp only [allocAcc, hb, if_true, Option.bind_some, ne_eq, not_true_eq_false, if_false, pushStk]
  rw [if_neg (by rw [m.same.1]; unfold StkSIZ; omega)]
  exact .intro _

theorem cancelFrame_ok {t : T} (w : W t) (h : t.stk = []) : Ok (cancelFrame t) := by
  unfold cancelFrame
  have hc := w.cnt
  rw [h] at hc
  rw [if_neg (by rw [h]; simp), if_neg (by rw [hc]; simp [accs])]
  exact .intro _

end Cmm.Tac
