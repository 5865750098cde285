import Verif.Tac.Rel

/-
The small steps (`Mic`) keep the relation `Rel`: moving a value to an accumulator or to the
hardware stack does not change it.
-/
namespace Cmm.Tac
open Cmm.Tree (World ofB)
open Cmm.Gen (Instr A1 A2 Data)

/-- Two states of the machine that differ only in the accumulators, SP and the hardware stack. -/
structure Same (F : Fr) (m m' : M) : Prop where
  lt : m'.lt = m.lt
  z : m'.z = m.z
  fp : m'.fp = m.fp
  g : ∀ r, ¬ (0 ≤ r ∧ r < 3) → m'.g r = m.g r
  mem : ∀ a, Out F a → m'.mem a = m.mem a

theorem Same.refl (F : Fr) (m : M) : Same F m m := ⟨rfl, rfl, rfl, fun _ _ => rfl, fun _ _ => rfl⟩

theorem Same.trans {F : Fr} {a b c : M} (h : Same F a b) (h' : Same F b c) : Same F a c :=
  ⟨h'.lt.trans h.lt, h'.z.trans h.z, h'.fp.trans h.fp, fun r hr => (h'.g r hr).trans (h.g r hr),
    fun x hx => (h'.mem x hx).trans (h.mem x hx)⟩

theorem setG_same (g : Int → Word) (i : Int) (v : Word) : setG g i v i = v := if_pos rfl

theorem setG_ne (g : Int → Word) {i r : Int} (v : Word) (h : r ≠ i) : setG g i v r = g r := if_neg h

/-- The lines loadFlg prints. -/
theorem flgCode_runs (E : Env) (r : Int) (j n : Nat) (m : M) :
    Runs E (flgCode r j n) m { m with g := setG m.g r (ofB (holds j m.lt m.z)) } := by
  unfold Runs flgCode
  simp only [exec, X.line, M.line, M.doOp, M.setReg, alu, srcVal, flags, Option.map_some,
    Option.bind_some]
  by_cases h : holds j m.lt m.z = true
  · simp [h, X.line, ofB]
  · simp only [h, Bool.false_eq_true, if_false, X.line, M.line, M.doOp, M.setReg, alu, srcVal, flags,
      Option.map_some, Option.bind_some]
    have hh : holds j m.lt m.z = false := by simpa using h
    simp only [ofB, Bool.false_eq_true, if_false]
    congr 2
    have : setG (setG m.g r (BitVec.ofInt 16 1)) r (BitVec.ofInt 16 0) = setG m.g r 0 := by
      funext i; unfold setG; split <;> rfl
    rw [this]

/-- An accumulator no entry uses may change. -/
theorem Repr.acc {E : Env} {F : Fr} {j : Nat} {m m' : M} {its : List It} {es : List Ent} {hw : List Word}
    {a : Int} (h : Repr (Val E F j m) its es hw) (ha : a < 3) (hn : a ∉ accs es)
    (hr : ∀ e ∈ es, RegOk e) (hg : ∀ r, r ≠ a → m'.g r = m.g r)
    (hm : ∀ x, Out F x → m'.mem x = m.mem x)
    (hf : ∀ e ∈ es, e.sta = .FLAG → m'.lt = m.lt ∧ m'.z = m.z) : Repr (Val E F j m') its es hw :=
  h.mono fun e he _ _ hv => hv.frame hm (fun hh => hg _ (other_acc hn ha hr he hh)) (hf e he)

theorem Up.acc {E : Env} {F : Fr} {j : Nat} {m m' : M} {its : List It} {es : List Ent}
    {a : Int} (h : Up (Val E F j m) its es) (ha : a < 3) (hn : a ∉ accs es)
    (hr : ∀ e ∈ es, RegOk e) (hg : ∀ r, r ≠ a → m'.g r = m.g r)
    (hm : ∀ x, Out F x → m'.mem x = m.mem x)
    (hf : ∀ e ∈ es, e.sta = .FLAG → m'.lt = m.lt ∧ m'.z = m.z) : Up (Val E F j m') its es :=
  h.mono fun e he _ _ hv => hv.frame hm (fun hh => hg _ (other_acc hn ha hr he hh)) (hf e he)

/-- No register at all changes. -/
theorem Repr.keep {E : Env} {F : Fr} {j : Nat} {m m' : M} {its : List It} {es : List Ent} {hw : List Word}
    (h : Repr (Val E F j m) its es hw) (hg : ∀ r, m'.g r = m.g r)
    (hm : ∀ x, Out F x → m'.mem x = m.mem x)
    (hf : ∀ e ∈ es, e.sta = .FLAG → m'.lt = m.lt ∧ m'.z = m.z) : Repr (Val E F j m') its es hw :=
  h.mono fun e he _ _ hv => hv.frame hm (fun _ => hg _) (hf e he)

theorem Up.keep {E : Env} {F : Fr} {j : Nat} {m m' : M} {its : List It} {es : List Ent}
    (h : Up (Val E F j m) its es) (hg : ∀ r, m'.g r = m.g r)
    (hm : ∀ x, Out F x → m'.mem x = m.mem x)
    (hf : ∀ e ∈ es, e.sta = .FLAG → m'.lt = m.lt ∧ m'.z = m.z) : Up (Val E F j m') its es :=
  h.mono fun e he _ _ hv => hv.frame hm (fun _ => hg _) (hf e he)

theorem nodup_split {hi : List Ent} {e : Ent} {lo : List Ent} {a : Int}
    (h : (accs (hi ++ e :: lo)).Nodup) (ha : a ∈ acc1 e) : a ∉ accs hi ∧ a ∉ accs lo := by
  rw [accs_split] at h
  obtain ⟨_, h2, h3⟩ := List.nodup_append.1 h
  obtain ⟨_, _, h5⟩ := List.nodup_append.1 h2
  exact ⟨fun h => h3 a h a (by simp [ha]) rfl, fun h => h5 a ha a h rfl⟩

theorem reg_ne {a r : Int} (h0 : 0 ≤ a ∧ a < 3) (hr : ¬ (0 ≤ r ∧ r < 3)) : r ≠ a := by
  rintro rfl; exact hr h0

theorem FlOk.same {g : Gh} {f : Option Nat} {its : List It} {es es' : List Ent} {m m' : M}
    (h : FlOk g f its es m) (hl : m'.lt = m.lt) (hz : m'.z = m.z)
    (he : (∀ e ∈ es, e.sta ≠ .FLAG) → ∀ e ∈ es', e.sta ≠ .FLAG) : FlOk g f its es' m' := by
  intro hg
  obtain ⟨h1, h2⟩ := h hg
  exact ⟨he h1, fun p v hp hv => by rw [hl, hz]; exact h2 p v hp hv⟩

theorem noFlag_replace {hi lo : List Ent} {e e' : Ent} (hs : e'.sta ≠ .FLAG)
    (h : ∀ x ∈ hi ++ e :: lo, x.sta ≠ .FLAG) : ∀ x ∈ hi ++ e' :: lo, x.sta ≠ .FLAG := by
  intro x hx
  simp only [List.mem_append, List.mem_cons] at hx h
  rcases hx with hx | rfl | hx
  · exact h x (.inl hx)
  · exact hs
  · exact h x (.inr (.inr hx))

theorem mic_rel {E : Env} {F : Fr} {g : Gh} {κ : Nat} {t t' : T} {its : List It} {s : Sto} {m : M}
    (h : Mic κ t t') (w : W t) (hr : Rel E F g t its s m) (hv : ∀ i ∈ its.take κ, i.isVal = true) :
    ∃ m' c, t'.out = t.out ++ c ∧ Runs E c m m' ∧ Rel E F g t' its s m' ∧ Same F m m' := by
  obtain ⟨hw, hr⟩ := hr
  cases h with
  | clr h =>
    refine ⟨m, [], by simp, Runs.nil E m, ⟨hw, hr.repr, hr.hwm, hr.sp, hr.fp, hr.room, hr.lim, hr.mem, hr.reg,
      fun hg => ⟨(hr.fl hg).1, fun p v hp => by cases hp⟩⟩, Same.refl F m⟩
  | @unflag hi a lo h =>
    have hn := w.nodup
    have hrg := w.rng a (by rw [h, accs_split]; simp [acc1_FLAG])
    have hregs := w.regs
    have hrepr := hr.repr
    have hfl := hr.fl
    rw [h] at hn hrepr hregs hfl
    obtain ⟨n1, n2⟩ := nodup_split (a := a) hn (by simp [acc1_FLAG])
    obtain ⟨vs, v, p, rest, rfl, hup, hlow⟩ := hrepr.split (.inl (by simp [accs, acc1_FLAG]))
    cases hlow with
    | val k1 k2 k3 =>
      refine ⟨{ m with g := setG m.g a (ofB (holds t.jcc m.lt m.z)) }, _, rfl, flgCode_runs E a _ _ m, ⟨hw,
        ?_, hr.hwm, hr.sp, hr.fp, hr.room, hr.lim, hr.mem, ?_, ?_⟩, ⟨rfl, rfl, rfl, ?_, fun _ _ => rfl⟩⟩
      · refine Up.build (hup.acc hrg.2 n1 (fun e he => hregs e (by simp [he])) (fun r hne => setG_ne _ _ hne)
          (fun _ _ => rfl) fun _ _ _ => ⟨rfl, rfl⟩) (.val (by simp) ?_ (k3.acc hrg.2 n2
            (fun e he => hregs e (by simp [he])) (fun r hne => setG_ne _ _ hne) (fun _ _ => rfl)
            fun _ _ _ => ⟨rfl, rfl⟩))
        simp only [Val, setG_same]
        exact k2
      · intro r h1 h2
        show setG m.g a _ r = _
        rw [setG_ne _ _ (by omega)]
        exact hr.reg r h1 h2
      · intro hg
        exact absurd rfl ((hfl hg).1 ⟨.FLAG, a⟩ (by simp))
      · intro r hne
        exact setG_ne _ _ (reg_ne hrg hne)
  | @reload hi e lo sr h ha hww ho =>
    have hn := w.nodup
    have hrg := w.rng e.aux (by rw [h, accs_split]; simp [acc1_acc ha])
    have hregs := w.regs
    have hrepr := hr.repr
    have hfl := hr.fl
    rw [h] at hn hrepr hregs hfl
    obtain ⟨n1, n2⟩ := nodup_split (a := e.aux) hn (by simp [acc1_acc ha])
    obtain ⟨vs, v, p, rest, rfl, hup, hlow⟩ := hrepr.split (.inl (by simp [accs, acc1_acc ha]))
    have hk : Val E F t.jcc m e v p ∧ Repr (Val E F t.jcc m) rest lo hw := by
      cases hlow with
      | val k1 k2 k3 => exact ⟨k2, k3⟩
      | stk => rcases hww with h | h <;> cases h
    refine ⟨_, _, rfl, runs_op m .LD (.g e.aux) sr, ⟨hw,
        ?_, hr.hwm, hr.sp, hr.fp, hr.room, hr.lim, hr.mem, ?_, ?_⟩, ⟨rfl, rfl, rfl, ?_, fun _ _ => rfl⟩⟩
    · have hval := hk.1.src ho hr.fp
      refine Up.build (hup.acc hrg.2 n1 (fun e he => hregs e (by simp [he])) (fun r hne => setG_ne _ _ hne)
          (fun _ _ => rfl) fun _ _ _ => ⟨rfl, rfl⟩) (.val (by simp) ?_ (hk.2.acc hrg.2 n2
            (fun e he => hregs e (by simp [he])) (fun r hne => setG_ne _ _ hne) (fun _ _ => rfl)
            fun _ _ _ => ⟨rfl, rfl⟩))
      simp only [Val, M.doOp, M.setReg, setG_same, alu]
      exact hval
    · intro r h1 h2
      show setG m.g e.aux _ r = _
      rw [setG_ne _ _ (by omega)]
      exact hr.reg r h1 h2
    · exact hfl.same rfl rfl (noFlag_replace (by simp))
    · intro r hne
      exact setG_ne _ _ (reg_ne hrg hne)
  | @spill hi a lo h hl =>
    have hrepr := hr.repr
    have hfl := hr.fl
    rw [h] at hrepr hfl
    obtain ⟨vs, v, p, rest, rfl, hup, hlow⟩ := hrepr.split (.inl (by simp [accs, acc1_ACC]))
    have hk : m.g a = v ∧ Repr (Val E F t.jcc m) rest lo hw := by
      cases hlow with
      | val k1 k2 k3 => exact ⟨k2, k3⟩
    have hlen := hk.2.hw_length
    have hroom : 2 * (hw.length + 1) ≤ F.lim := by
      have := hr.room
      simp only [List.length_append, List.length_cons] at this
      omega
    have hsp : m.sp - 2 = dn F.base (hw.length + 1) := by rw [hr.sp, dn_succ]
    have hmem : ∀ x, Out F x → (m.doPush (.g a)).mem x = m.mem x := by
      intro x hx
      show m.mem.sw (m.sp - 2) (m.g a) x = _
      rw [hsp]
      have := hx.dn (k := hw.length + 1) (by omega) hroom
      exact Mem.sw_ne _ _ this.1 this.2
    refine ⟨_, _, rfl, runs_push m (.g a), ⟨v :: hw,
        ?_, ?_, hsp, hr.fp, hr.room, hr.lim, ?_, hr.reg, ?_⟩, ⟨rfl, rfl, rfl, fun _ _ => rfl, hmem⟩⟩
    · exact Up.build (hup.keep (fun _ => rfl) hmem fun _ _ _ => ⟨rfl, rfl⟩)
        (.stk hl (hk.2.keep (fun _ => rfl) hmem fun _ _ _ => ⟨rfl, rfl⟩))
    · show HwMem F.base (m.mem.sw (m.sp - 2) (m.g a)) _
      rw [hsp, hk.1]
      exact hr.hwm.push v (by have := hr.lim; omega)
    · intro x hx
      rw [hmem x hx]; exact hr.mem x hx
    · exact hfl.same rfl rfl (noFlag_replace (by simp))
  | @load hi e lo sr a h hh h1 ha ho hb h0 =>
    have hn : a ∉ accs t.stk := fun hx => by rw [← w.own a, hb] at hx; cases hx
    have hregs := w.regs
    have hrepr := hr.repr
    have hfl := hr.fl
    rw [h] at hn hrepr hregs hfl
    rw [accs_split] at hn
    obtain ⟨vs, v, p, rest, rfl, hup, hlow⟩ := hrepr.split (.inr ⟨hh, fun i hi' => hv i
      (List.take_subset_take_left _ (by omega) hi')⟩)
    have hk : Val E F t.jcc m e v p ∧ Repr (Val E F t.jcc m) rest lo hw := by
      cases hlow with
      | val k1 k2 k3 => exact ⟨k2, k3⟩
      | stk => cases ho
    have hval := hk.1.src ho hr.fp
    refine ⟨_, _, rfl, runs_op m .LD (.g a) sr, ⟨hw,
        ?_, hr.hwm, hr.sp, hr.fp, hr.room, hr.lim, hr.mem, ?_, ?_⟩, ⟨rfl, rfl, rfl, ?_, fun _ _ => rfl⟩⟩
    · refine Up.build (hup.acc h0.2 (fun hx => hn (by simp [hx])) (fun e he => hregs e (by simp [he]))
          (fun r hne => setG_ne _ _ hne) (fun _ _ => rfl) fun _ _ _ => ⟨rfl, rfl⟩) (.val (by simp) ?_ (hk.2.acc h0.2
            (fun hx => hn (by simp [hx])) (fun e he => hregs e (by simp [he]))
            (fun r hne => setG_ne _ _ hne) (fun _ _ => rfl) fun _ _ _ => ⟨rfl, rfl⟩))
      simp only [Val, M.doOp, M.setReg, setG_same, alu]
      exact hval
    · intro r h1 h2
      show setG m.g a _ r = _
      rw [setG_ne _ _ (by omega)]
      exact hr.reg r h1 h2
    · exact hfl.same rfl rfl (noFlag_replace (by simp))
    · intro r hne
      exact setG_ne _ _ (reg_ne h0 hne)
  | @pop hi b lo a h hh h1 hb h0 =>
    have hn : a ∉ accs t.stk := fun hx => by rw [← w.own a, hb] at hx; cases hx
    have hregs := w.regs
    have hrepr := hr.repr
    have hfl := hr.fl
    rw [h] at hn hrepr hregs hfl
    rw [accs_split] at hn
    obtain ⟨vs, v, p, rest, rfl, hup, hlow⟩ := hrepr.split (.inr ⟨hh, fun i hi' => hv i
      (List.take_subset_take_left _ (by omega) hi')⟩)
    cases hlow with
    | val k1 => exact absurd rfl k1
    | @stk _ _ _ _ _ hw' k1 k2 =>
      have hval : m.mem.lw m.sp = v := by rw [hr.sp]; exact hr.hwm.1
      refine ⟨_, _, rfl, runs_pop m (.g a), ⟨hw',
        ?_, hr.hwm.2, ?_, hr.fp, hr.room, hr.lim, hr.mem, ?_, ?_⟩, ⟨rfl, rfl, rfl, ?_, fun _ _ => rfl⟩⟩
      · refine Up.build (hup.acc h0.2 (fun hx => hn (by simp [hx])) (fun e he => hregs e (by simp [he]))
          (fun r hne => setG_ne _ _ hne) (fun _ _ => rfl) fun _ _ _ => ⟨rfl, rfl⟩) (.val (by simp) ?_ (k2.acc h0.2
            (fun hx => hn (by simp [hx])) (fun e he => hregs e (by simp [he]))
            (fun r hne => setG_ne _ _ hne) (fun _ _ => rfl) fun _ _ _ => ⟨rfl, rfl⟩))
        simp only [Val, M.doPop, M.setReg, setG_same]
        exact hval
      · show m.sp + 2 = _
        rw [hr.sp]
        exact dn_pred _ _
      · intro r h1 h2
        show setG m.g a _ r = _
        rw [setG_ne _ _ (by omega)]
        exact hr.reg r h1 h2
      · exact hfl.same rfl rfl (noFlag_replace (by simp))
      · intro r hne
        exact setG_ne _ _ (reg_ne h0 hne)

theorem mics_rel {E : Env} {F : Fr} {g : Gh} {κ : Nat} {t t' : T} {its : List It} {s : Sto} {m : M}
    (h : Mics κ t t') (w : W t) (hr : Rel E F g t its s m) (hv : ∀ i ∈ its.take κ, i.isVal = true) :
    ∃ m' c, t'.out = t.out ++ c ∧ Runs E c m m' ∧ Rel E F g t' its s m' ∧ Same F m m' := by
  induction h with
  | refl => exact ⟨m, [], by simp, Runs.nil E m, hr, Same.refl F m⟩
  | tail h1 h2 ih =>
    obtain ⟨m1, c1, o1, r1, k1, s1⟩ := ih
    obtain ⟨m2, c2, o2, r2, k2, s2⟩ := mic_rel h2 (Mics.W h1 w) k1 hv
    exact ⟨m2, c1 ++ c2, by rw [o2, o1, List.append_assoc], r1.append r2, k2, s1.trans s2⟩

end Cmm.Tac
