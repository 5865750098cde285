import Verif.Tac.Step2

/-
The operations of src/vm2tac.c keep the relation `Rel`, continued: stores and calls. The entries
below may be lazy: they name a variable, a register or an address instead of holding a value. They
must not be changed by the store or the call (`Pend`).
-/
namespace Cmm.Tac
open Cmm.Tree (World ofB)
open Cmm.Gen (Instr A1 A2 Data)

/-! ### Entries that are moved -/

/-- An entry stays as it is or is moved to an accumulator or the hardware stack. -/
def Moved (e e' : Ent) : Prop := e' = e ∨ e'.sta = .ACC ∨ e'.sta = .STK

theorem moved_refl (es : List Ent) : List.Forall₂ Moved es es := by
  induction es with
  | nil => exact .nil
  | cons e es ih => exact .cons (.inl rfl) ih

theorem moved_replace {hi lo : List Ent} {e e' : Ent} (h : Moved e e') :
    List.Forall₂ Moved (hi ++ e :: lo) (hi ++ e' :: lo) := by
  induction hi with
  | nil => exact .cons h (moved_refl lo)
  | cons x hi ih => exact .cons (.inl rfl) ih

theorem moved_trans {a b c : List Ent} (h : List.Forall₂ Moved a b) (h' : List.Forall₂ Moved b c) :
    List.Forall₂ Moved a c := by
  induction h generalizing c with
  | nil => exact h'
  | cons h1 _ ih =>
    cases h' with
    | cons h2 h3 =>
      refine .cons ?_ (ih h3)
      rcases h2 with rfl | h2
      · exact h1
      · exact .inr h2

theorem Mic.moved {κ : Nat} {t t' : T} (h : Mic κ t t') : List.Forall₂ Moved t.stk t'.stk := by
  cases h with
  | clr h => exact moved_refl _
  | unflag h => rw [h]; exact moved_replace (.inr (.inl rfl))
  | reload h => rw [h]; exact moved_replace (.inr (.inl rfl))
  | spill h => rw [h]; exact moved_replace (.inr (.inr rfl))
  | load h => rw [h]; exact moved_replace (.inr (.inl rfl))
  | pop h => rw [h]; exact moved_replace (.inr (.inl rfl))

theorem Mics.moved {κ : Nat} {t t' : T} (h : Mics κ t t') : List.Forall₂ Moved t.stk t'.stk := by
  induction h with
  | refl => exact moved_refl _
  | tail _ h ih => exact moved_trans ih h.moved

/-! ### Lazy entries -/

/-- The entry would still stand for the value if memory and register variables were as in `s`. -/
def Later (E : Env) (F : Fr) (s : Sto) (e : Ent) (v p : Word) : Prop :=
  match e.sta with
  | .GVAR => s.mem.lw (E.adr e.aux) = v
  | .LVAR => s.mem.lw (F.fp + BitVec.ofInt 16 (-e.aux)) = v
  | .PRM => s.mem.lw (F.fp + BitVec.ofInt 16 e.aux) = v
  | .RVAR => s.reg e.aux = v
  | .WINDR => s.mem.lw p = v ∧ (3 ≤ e.aux → s.reg e.aux = p)
  | .BINDR => (s.mem p).setWidth 16 = v ∧ (3 ≤ e.aux → s.reg e.aux = p)
  | _ => True

/-- `P` for all values of the stack and their entries. -/
def Pend (P : Ent → Word → Word → Prop) : List It → List Ent → Prop
  | .val v p :: its, e :: es => P e v p ∧ Pend P its es
  | .arg _ :: its, es => Pend P its es
  | _, _ => True

theorem Pend.moved {E : Env} {F : Fr} {s : Sto} {its : List It} : ∀ {es es' : List Ent},
    Pend (Later E F s) its es → List.Forall₂ Moved es es' → Pend (Later E F s) its es' := by
  induction its with
  | nil => intro es es' h hm; simp [Pend]
  | cons i its ih =>
    intro es es' h hm
    cases i with
    | arg v => exact ih h hm
    | val v p =>
      cases hm with
      | nil => simp [Pend]
      | @cons _ e' _ _ h1 h2 =>
        refine ⟨?_, ih h.2 h2⟩
        rcases h1 with rfl | h1 | h1
        · exact h.1
        · simp [Later, h1]
        · simp [Later, h1]

/-- Entries before a call: those in accumulators are pushed. -/
theorem Pend.call {P : Ent → Word → Word → Prop} {its : List It} (hp : ∀ a v p, P ⟨.STK, a⟩ v p) :
    ∀ {es : List Ent}, Pend (fun e v p => isAcc e = false → P e v p) its es →
    Pend P its (es.map fun e => if isAcc e then ⟨.STK, e.aux⟩ else e) := by
  induction its with
  | nil => intro es h; simp [Pend]
  | cons i its ih =>
    intro es h
    cases i with
    | arg v => exact ih h
    | val v p =>
      cases es with
      | nil => simp [Pend]
      | cons e es =>
        refine ⟨?_, ih h.2⟩
        show P (if isAcc e then ⟨.STK, e.aux⟩ else e) v p
        split
        · exact hp _ _ _
        · rename_i hh; exact h.1 (by simpa using hh)

theorem Repr.later {E : Env} {F : Fr} {j : Nat} {m m2 : M} {s : Sto} {its : List It} {es : List Ent} {hw : List Word}
    (h : Repr (Val E F j m) its es hw) (hp : Pend (Later E F s) its es)
    (hm : ∀ a, Out F a → m2.mem a = s.mem a) (hg : ∀ r, 3 ≤ r → r ≤ 11 → m2.g r = s.reg r)
    (hr : ∀ e ∈ es, RegOk e) (ha : ∀ r ∈ accs es, m2.g r = m.g r)
    (hf : ∀ e ∈ es, e.sta = .FLAG → m2.lt = m.lt ∧ m2.z = m.z) : Repr (Val E F j m2) its es hw := by
  induction h with
  | nil => exact .nil
  | stk h1 _ ih =>
    exact .stk h1 (ih hp.2 (fun e he => hr e (by simp [he])) (fun r hx => ha r (by rw [accs_cons]; simp [hx]))
      fun e he => hf e (by simp [he]))
  | arg h1 _ ih => exact .arg h1 (ih hp hr ha hf)
  | @val v p e its es hw h1 h2 _ ih =>
    refine .val h1 ?_ (ih hp.2 (fun e he => hr e (by simp [he])) (fun r hx => ha r (by rw [accs_cons]; simp [hx]))
      fun e he => hf e (by simp [he]))
    have hl := hp.1
    have hre := hr e (by simp)
    have hae : isAcc e = true → m2.g e.aux = m.g e.aux := fun h => ha _ (by rw [accs_cons, acc1_acc h]; simp)
    have hfe := hf e (by simp)
    obtain ⟨sta, a⟩ := e
    cases sta <;> simp only [Val, Later, RegOk, isAcc] at h2 hl hre hae hfe ⊢
    · exact h2
    · exact ⟨h2.1, by rw [h2.1.lw hm]; exact hl⟩
    · exact ⟨h2.1, by rw [h2.1.lw hm]; exact hl⟩
    · have := hre.1 trivial
      rw [hg _ this.1 this.2]; exact hl
    · exact ⟨h2.1, by rw [h2.1.lw hm]; exact hl⟩
    · exact h2
    · exact h2
    · refine ⟨?_, h2.2.1, by rw [h2.2.1.lw hm]; exact hl.1⟩
      by_cases h3 : 3 ≤ a
      · rw [hg _ h3 (hre.2 (.inl trivial)).2]; exact hl.2 h3
      · rw [hae (by unfold AccSIZ; simp; omega)]; exact h2.1
    · refine ⟨?_, h2.2.1, by rw [hm _ h2.2.1]; exact hl.1⟩
      by_cases h3 : 3 ≤ a
      · rw [hg _ h3 (hre.2 (.inr trivial)).2]; exact hl.2 h3
      · rw [hae (by unfold AccSIZ; simp; omega)]; exact h2.1
    · rw [hae (by simp)]; exact h2
    · rw [(hfe trivial).1, (hfe trivial).2]; exact h2

/-! ### Stores -/

theorem sw_out {F : Fr} {mem mem' : Mem} {a v : Word} (h : ∀ x, Out F x → mem x = mem' x) :
    ∀ x, Out F x → mem.sw a v x = mem'.sw a v x := by
  intro x hx
  unfold Mem.sw Mem.set
  split
  · rfl
  · split
    · rfl
    · exact h x hx

/-- The value on top is stored at address `a`. -/
theorem stForm_rel {E : Env} {F : Fr} {g : Gh} {t t' : T} {its : List It} {s : Sto} {m : M} {e : Ent} {es : List Ent}
    {v p a : Word} {d : Src} (w : W t) (hs : t.stk = e :: es) (hr : Rel E F g t (.val v p :: its) s m)
    (ha : OutW F a)
    (hd : ∀ (m1 : M) r, m1.fp = F.fp → m1.doSt E r d = some { m1 with mem := m1.mem.sw a (m1.g r) })
    (hp : Pend (Later E F { s with mem := s.mem.sw a v }) its es) (h : StForm d t t' es) :
    Goes E F g t t' (.val v p :: its) { s with mem := s.mem.sw a v } m := by
  obtain ⟨t1, e', es', mi, hs1, he', hl, rfl⟩ := h
  have hmv := mi.moved
  rw [hs, hs1] at hmv
  have hp1 := hp.moved (List.forall₂_cons.1 hmv).2
  refine Goes.after mi w hr take1 fun m1 hr1 _ => ?_
  have w1 := mi.W w
  obtain ⟨hw, hr1⟩ := hr1
  have hrepr := hr1.repr
  have hregs := w1.regs
  rw [hs1] at hrepr hregs
  have hne : e'.sta ≠ .STK := by rcases he' with h | h <;> rw [h] <;> simp
  obtain ⟨hv, hrest⟩ := val_cons hrepr hne
  have hval : m1.g e'.aux = v := by
    obtain ⟨sta, r⟩ := e'
    rcases he' with h | h <;> (simp only at h; subst h; exact hv)
  have hmem : ∀ x, Out F x → m1.mem.sw a v x = s.mem.sw a v x := sw_out hr1.mem
  refine ⟨{ m1 with mem := m1.mem.sw a (m1.g e'.aux) }, _, rfl, Runs.one (hd m1 _ hr1.fp), hw, ?_, ?_, hr1.sp, hr1.fp, hr1.room,
    hr1.lim, ?_, hr1.reg, ?_⟩
  · show Repr _ _ t1.stk hw
    rw [hs1, hval]
    refine .val hne (by
      obtain ⟨sta, r⟩ := e'
      rcases he' with h | h <;> (simp only at h; subst h; exact hv)) (hrest.later hp1 hmem hr1.reg (fun e he => hregs e (by simp [he])) (fun _ _ => rfl)
      fun _ _ _ => ⟨rfl, rfl⟩)
  · exact hr1.hwm.sw ha (by
      have := hrepr.hw_length
      have := hr1.room
      omega)
  · rw [hval]; exact hmem
  · exact fun hg => hr1.fl hg

theorem stG_rel {E : Env} {F : Fr} {g : Gh} {t t' : T} {its : List It} {s : Sto} {m : M} {e : Ent} {es : List Ent}
    {v p : Word} {n : Int} (w : W t) (hs : t.stk = e :: es) (hr : Rel E F g t (.val v p :: its) s m)
    (ha : OutW F (E.adr n)) (hp : Pend (Later E F { s with mem := s.mem.sw (E.adr n) v }) its es)
    (h : vmStGlb n t = some t') :
    Goes E F g t t' (.val v p :: its) { s with mem := s.mem.sw (E.adr n) v } m :=
  stForm_rel w hs hr ha (fun _ _ _ => rfl) hp (vmStGlb_form w hs h)

theorem stP_rel {E : Env} {F : Fr} {g : Gh} {t t' : T} {its : List It} {s : Sto} {m : M} {e : Ent} {es : List Ent}
    {v p : Word} {n : Int} (w : W t) (hs : t.stk = e :: es) (hr : Rel E F g t (.val v p :: its) s m)
    (ha : OutW F (prmA F n)) (hp : Pend (Later E F { s with mem := s.mem.sw (prmA F n) v }) its es)
    (h : vmStPrm n t = some t') :
    Goes E F g t t' (.val v p :: its) { s with mem := s.mem.sw (prmA F n) v } m :=
  stForm_rel w hs hr ha (fun m1 _ hf => by simp only [M.doSt, hf]; rfl) hp (vmStPrm_form w hs h)

/-- A local variable in memory. -/
theorem stM_rel {E : Env} {F : Fr} {g : Gh} {t t' : T} {its : List It} {s : Sto} {m : M} {e : Ent} {es : List Ent}
    {v p : Word} {n : Int} (w : W t) (hs : t.stk = e :: es) (h0 : e.sta ≠ .STK)
    (hr : Rel E F g t (.val v p :: its) s m) (hn : ¬ n ≤ 9)
    (ha : OutW F (locA F n)) (hp : Pend (Later E F { s with mem := s.mem.sw (locA F n) v }) its es)
    (h : vmStLoc n t = some t') :
    Goes E F g t t' (.val v p :: its) { s with mem := s.mem.sw (locA F n) v } m := by
  rcases vmStLoc_form w hs h0 h with ⟨_, h⟩ | ⟨h, _⟩ | ⟨h, _⟩ | ⟨h, _⟩ | ⟨h, _⟩
  · exact stForm_rel w hs hr ha (fun m1 _ hf => by simp only [M.doSt, hf]; rfl) hp h
  all_goals exact absurd h hn

/-- A local variable in a register. -/
theorem stR_rel {E : Env} {F : Fr} {g : Gh} {t t' : T} {its : List It} {s : Sto} {m : M} {e : Ent} {es : List Ent}
    {v p : Word} {n : Int} (w : W t) (hs : t.stk = e :: es) (h0 : e.sta ≠ .STK)
    (hr : Rel E F g t (.val v p :: its) s m) (h1 : 1 ≤ n) (hn : n ≤ 9)
    (hp : Pend (Later E F { s with reg := setR s.reg (n + 2) v }) its es)
    (h : vmStLoc n t = some t') :
    Goes E F g t t' (.val v p :: its) { s with reg := setR s.reg (n + 2) v } m := by
  have hv := hr.top hs h0
  obtain ⟨hw, hr⟩ := hr
  have hrepr := hr.repr
  have hregs := w.regs
  have hrng := w.rng
  have hfl := hr.fl
  rw [hs] at hrepr hregs hrng hfl
  obtain ⟨_, hrest⟩ := val_cons hrepr h0
  -- the machine with the variable changed
  have hreg : ∀ g2 : Int → Word, (∀ r, r ≠ n + 2 → g2 r = m.g r) → g2 (n + 2) = v →
      ∀ r, 3 ≤ r → r ≤ 11 → g2 r = setR s.reg (n + 2) v r := by
    intro g2 k1 k2 r k3 k4
    unfold setR
    split
    · rename_i h; rw [h]; exact k2
    · rename_i h; rw [k1 r h]; exact hr.reg r k3 k4
  have fin : ∀ (t2 : T) (e2 : Ent) (g2 : Int → Word), t2.stk = e2 :: es → t2.jcc = t.jcc → t2.flg = t.flg →
      (∀ r, r ≠ n + 2 → g2 r = m.g r) → g2 (n + 2) = v → e2.sta ≠ .STK → Val E F t.jcc { m with g := g2 } e2 v p →
      (e2.sta = .FLAG → e.sta = .FLAG) → (g ≠ .no → e.sta ≠ .FLAG) →
      Rel E F g t2 (.val v p :: its) { s with reg := setR s.reg (n + 2) v } { m with g := g2 } := by
    intro t2 e2 g2 hs2 hj2 hf2 k1 k2 k3 k4 k5 k6
    refine ⟨hw, ?_, hr.hwm, hr.sp, hr.fp, hr.room, hr.lim, hr.mem, hreg g2 k1 k2, ?_⟩
    · rw [hs2, hj2]
      refine .val k3 k4 (hrest.later hp hr.mem (hreg g2 k1 k2) (fun e he => hregs e (by simp [he])) ?_
        fun _ _ _ => ⟨rfl, rfl⟩)
      intro r hx
      have := hrng r (by rw [accs_cons]; simp [hx])
      exact k1 r (by omega)
    · rw [hs2, hf2]
      intro hg
      obtain ⟨q1, q2⟩ := hfl hg
      refine ⟨fun x hx => ?_, q2⟩
      simp only [List.mem_cons] at hx
      rcases hx with rfl | hx
      · exact fun h => k6 hg (k5 h)
      · exact q1 x (by simp [hx])
  have hnf : g ≠ .no → e.sta ≠ .FLAG := fun hg => (hfl hg).1 e (by simp)
  rcases vmStLoc_form w hs h0 h with ⟨h, _⟩ | ⟨_, he, rfl⟩ | ⟨_, he, hne, rfl⟩ | ⟨_, he, rfl⟩ | ⟨_, hf, ha, hne, sr, ho, rfl⟩
  · unfold RVarSIZ at h; omega
  · refine ⟨m, [], by simp, Runs.nil E m, fin _ e m.g hs rfl rfl (fun _ _ => rfl) ?_ h0 hv (fun h => h) hnf⟩
    rw [he] at hv
    exact hv
  · obtain ⟨sta, a⟩ := e
    simp only at he hne
    subst he
    refine ⟨_, _, rfl, runs_op m .LD (.g (n + 2)) (.reg (.g a)),
      fin _ ⟨.ACC, a⟩ (setG m.g (n + 2) (m.g a)) hs rfl rfl (fun r hr => setG_ne _ _ hr) ?_ h0 ?_ (fun h => h) hnf⟩
    · rw [setG_same]; exact hv
    · show setG m.g (n + 2) (m.g a) a = v
      rw [setG_ne _ _ hne]; exact hv
  · obtain ⟨sta, a⟩ := e
    simp only at he
    subst he
    refine ⟨_, _, rfl, flgCode_runs E (n + 2) _ _ m,
      fin _ ⟨.RVAR, n + 2⟩ _ rfl rfl rfl (fun r hr => setG_ne _ _ hr) ?_ (by simp) ?_ (fun h => by cases h) hnf⟩
    · rw [setG_same]; exact hv
    · show setG m.g (n + 2) _ (n + 2) = v
      rw [setG_same]; exact hv
  · have hsv := hv.src ho hr.fp
    refine ⟨_, _, rfl, runs_op m .LD (.g (n + 2)) sr,
      fin _ ⟨.RVAR, n + 2⟩ (setG m.g (n + 2) (srcVal E m sr)) rfl rfl rfl (fun r hr => setG_ne _ _ hr) ?_ (by simp) ?_ (fun h => by cases h) hnf⟩
    · rw [setG_same]; exact hsv
    · show setG m.g (n + 2) _ (n + 2) = v
      rw [setG_same]; exact hsv

theorem set_out {F : Fr} {mem mem' : Mem} {a : Word} {v : Byte} (h : ∀ x, Out F x → mem x = mem' x) :
    ∀ x, Out F x → mem.set a v x = mem'.set a v x := by
  intro x hx
  unfold Mem.set
  split
  · rfl
  · exact h x hx

/-- A store through an address. -/
theorem storeInd_rel {E : Env} {F : Fr} {g : Gh} {t t' : T} {its : List It} {s : Sto} {m : M} {e1 : Ent} {es : List Ent}
    {v p a u : Word} {k : Sta} {r : Int} {d : Int → Src} (w : W t) (hs : t.stk = ⟨k, r⟩ :: e1 :: es)
    (hr : Rel E F g t (.val u a :: .val v p :: its) s m) {s' : Sto}
    (hk : (k = .WINDR ∧ d = .ind ∧ s' = { s with mem := s.mem.sw a v }) ∨
      (k = .BINDR ∧ d = .byt ∧ s' = { s with mem := s.mem.set a (v.setWidth 8) }))
    (hp : Pend (Later E F s') its es) (h : storeInd d t = some t') :
    Goes E F .no t t' (.val v p :: its) s' m := by
  obtain ⟨t1, e', es', mi, hs1, he', hl, rfl⟩ := storeInd_form w hs (hk.imp (·.1) (·.1)) h
  have hmv := mi.moved
  rw [hs, hs1] at hmv
  have hp1 := hp.moved (List.forall₂_cons.1 (List.forall₂_cons.1 hmv).2).2
  refine Goes.after mi w hr take2 fun m1 hr1 _ => ?_
  have w1 := mi.W w
  obtain ⟨hw, hr1⟩ := hr1
  have hrepr := hr1.repr
  have hregs := w1.regs
  rw [hs1] at hrepr hregs
  have hne : e'.sta ≠ .STK := by rcases he' with h | h <;> rw [h] <;> simp
  have hkn : k ≠ .STK := by rcases hk with ⟨rfl, _⟩ | ⟨rfl, _⟩ <;> simp
  obtain ⟨hu, hrepr⟩ := val_cons hrepr hkn
  obtain ⟨hv, hrest⟩ := val_cons hrepr hne
  have hval : m1.g e'.aux = v := by
    obtain ⟨sta, r⟩ := e'
    rcases he' with h | h <;> (simp only at h; subst h; exact hv)
  have hhw := hrest.hw_length
  have hroom := hr1.room
  simp only [List.length_cons] at hroom
  obtain ⟨mem2, hst, hmem, hhwm, hsm⟩ : ∃ mem2 : Mem, m1.doSt E e'.aux (d r) = some { m1 with mem := mem2 } ∧
      (∀ x, Out F x → mem2 x = s'.mem x) ∧ HwMem F.base mem2 hw ∧ s'.reg = s.reg := by
    rcases hk with ⟨rfl, rfl, rfl⟩ | ⟨rfl, rfl, rfl⟩
    · obtain ⟨h1, h2, _⟩ := hu
      refine ⟨m1.mem.sw a v, ?_, sw_out hr1.mem, hr1.hwm.sw h2 (by omega), rfl⟩
      show some { m1 with mem := m1.mem.sw (m1.g r) (m1.g e'.aux) } = _
      rw [h1, hval]
    · obtain ⟨h1, h2, _⟩ := hu
      refine ⟨m1.mem.set a (v.setWidth 8), ?_, set_out hr1.mem, hr1.hwm.set h2 (by omega), rfl⟩
      show some { m1 with mem := m1.mem.set (m1.g r) ((m1.g e'.aux).setWidth 8) } = _
      rw [h1, hval]
  have hstk : (relDrop ⟨k, r⟩ { t1 with out := t1.out ++ [Line.st e'.aux (d r)] }).stk = e' :: es' := by
    simp [relDrop, hs1]
  refine ⟨{ m1 with mem := mem2 }, _, rfl, Runs.one hst, hw, ?_, hhwm, hr1.sp, hr1.fp, ?_, hr1.lim, hmem, ?_,
    fun hg => absurd rfl hg⟩
  · rw [hstk]
    refine .val hne (by
      obtain ⟨sta, r⟩ := e'
      rcases he' with h | h <;> (simp only at h; subst h; exact hv)) (hrest.later hp1 hmem (by rw [hsm]; exact hr1.reg)
      (fun e he => hregs e (by simp [he])) (fun _ _ => rfl) fun _ _ _ => ⟨rfl, rfl⟩)
  · simp only [List.length_cons]; omega
  · rw [hsm]; exact hr1.reg

/-- The entries below the two that LDW or LDB uses. -/
theorem ldForm_moved {o : TOp} {k : Sta} {t t' : T} {e0 e1 : Ent} {es : List Ent} (hs : t.stk = e0 :: e1 :: es)
    (h : LdForm o k t t' e0 e1 es) : ∃ r es', t'.stk = ⟨k, r⟩ :: es' ∧ List.Forall₂ Moved es es' := by
  rcases h with ⟨_, _, rfl⟩ | ⟨_, t1, a, es', mi, hs1, _, rfl⟩ | ⟨t1, a, es', sr, mi, hs1, _, _, _, rfl⟩
  · exact ⟨_, _, rfl, moved_refl _⟩
  all_goals
    have hmv := mi.moved
    rw [hs, hs1] at hmv
    exact ⟨_, _, rfl, (List.forall₂_cons.1 (List.forall₂_cons.1 hmv).2).2⟩

theorem stW_rel {E : Env} {F : Fr} {g : Gh} {t t' : T} {its : List It} {s : Sto} {m : M}
    {x y v p q r : Word} {e0 e1 e2 : Ent} {es : List Ent} (w : W t) (hs : t.stk = e0 :: e1 :: e2 :: es)
    (h0 : e0.sta ≠ .STK) (hr : Rel E F g t (.val y q :: .val x p :: .val v r :: its) s m)
    (hk : OutW F (x + 2 * y)) (hp : Pend (Later E F { s with mem := s.mem.sw (x + 2 * y) v }) its es)
    (h : vmStWrd t = some t') :
    Goes E F .no t t' (.val v r :: its) { s with mem := s.mem.sw (x + 2 * y) v } m := by
  have h : (vmLdWrd t).bind (storeInd .ind) = some t' := h
  cases h1 : vmLdWrd t with
  | none => rw [h1] at h; cases h
  | some t1 =>
    rw [h1] at h
    have hl := ldW_rel w hs h0 hr hk h1
    obtain ⟨a, es', hs1, hmv⟩ := ldForm_moved hs (vmLdWrd_form w hs h0 h1)
    obtain ⟨w1, _⟩ := vmLdWrd_step w ⟨e0, _, hs, h0⟩ h1
    cases hmv with
    | @cons _ e' _ es'' _ k2 =>
      exact hl.then fun m1 hr1 => storeInd_rel w1 hs1 hr1 (.inl ⟨rfl, rfl, rfl⟩) (hp.moved k2) h

theorem stB_rel {E : Env} {F : Fr} {g : Gh} {t t' : T} {its : List It} {s : Sto} {m : M}
    {x y v p q r : Word} {e0 e1 e2 : Ent} {es : List Ent} (w : W t) (hs : t.stk = e0 :: e1 :: e2 :: es)
    (h0 : e0.sta ≠ .STK) (hr : Rel E F g t (.val y q :: .val x p :: .val v r :: its) s m)
    (hk : Out F (x + y)) (hp : Pend (Later E F { s with mem := s.mem.set (x + y) (v.setWidth 8) }) its es)
    (h : vmStByt t = some t') :
    Goes E F .no t t' (.val v r :: its) { s with mem := s.mem.set (x + y) (v.setWidth 8) } m := by
  have h : (vmLdByt t).bind (storeInd .byt) = some t' := h
  cases h1 : vmLdByt t with
  | none => rw [h1] at h; cases h
  | some t1 =>
    rw [h1] at h
    have hl := ldB_rel w hs h0 hr hk h1
    obtain ⟨a, es', hs1, hmv⟩ : ∃ a es', t1.stk = ⟨.BINDR, a⟩ :: es' ∧ List.Forall₂ Moved (e2 :: es) es' := by
      rcases vmLdByt_form w hs h0 h1 with h | ⟨ha, _, t1, sr, es', mi, hs1, hl, hop, hf, rfl⟩
      · exact ldForm_moved hs h
      · have hmv := mi.moved
        rw [hs, hs1] at hmv
        exact ⟨_, _, rfl, (List.forall₂_cons.1 (List.forall₂_cons.1 hmv).2).2⟩
    obtain ⟨w1, _⟩ := vmLdByt_step w ⟨e0, _, hs, h0⟩ h1
    cases hmv with
    | @cons _ e' _ es'' _ k2 =>
      exact hl.then fun m1 hr1 => storeInd_rel w1 hs1 hr1 (.inr ⟨rfl, rfl, rfl⟩) (hp.moved k2) h

/-! ### Calls -/

/-- The functions that are called do what `callee` says, for the arguments on the hardware stack:
they return with SP and FP as before, the result (if they have one) in G0, and leave the words above the arguments and
the memory outside of the hardware stack and the registers G3 to G11 as `callee` says. -/
def CallOk (E : Env) (F : Fr) (callee : Int → List Word → Sto → Option (Word × Sto)) : Prop :=
  ∀ f vs s v s' m hw, callee f vs s = some (v, s') → m.fp = F.fp → m.sp = dn F.base (vs ++ hw).length →
    2 * (vs ++ hw).length ≤ F.lim → 2 * (vs ++ hw).length ≤ F.use → HwMem F.base m.mem (vs ++ hw) → (∀ a, Out F a → m.mem a = s.mem a) →
    (∀ r, 3 ≤ r → r ≤ 11 → m.g r = s.reg r) →
    ∃ m', E.fn f m = some m' ∧ m'.sp = m.sp ∧ m'.fp = m.fp ∧ (E.val f = true → m'.g 0 = v) ∧ HwMem F.base m'.mem hw ∧
      (∀ a, Out F a → m'.mem a = s'.mem a) ∧ ∀ r, 3 ≤ r → r ≤ 11 → m'.g r = s'.reg r

theorem repr_args {V : Ent → Word → Word → Prop} {vs : List Word} {its : List It} {es : List Ent} {hw : List Word}
    (h : Repr V (vs.map .arg ++ its) es hw) : ∃ hw', hw = vs ++ hw' ∧ Repr V its es hw' := by
  induction vs generalizing hw with
  | nil => exact ⟨hw, rfl, h⟩
  | cons v vs ih =>
    cases h with
    | arg _ h2 =>
      obtain ⟨hw', rfl, h3⟩ := ih h2
      exact ⟨hw', rfl, h3⟩

theorem dn_back (b : Word) (n k : Nat) : dn b (n + k) + BitVec.ofInt 16 (n * 2) = dn b k := by
  unfold dn
  rw [show (BitVec.ofInt 16 (n * 2) : Word) = BitVec.ofInt 16 (n * 2) from rfl]
  show ad (ad b _) _ = _
  rw [ad_ad]
  congr 1
  omega

/-- The call and the removal of the arguments. -/
theorem callLines_run {E : Env} {n : Nat} {f : Int} {m m' : M} (h : E.fn f m = some m') :
    ∃ m2, Runs E (callLines n f) m m2 ∧ m2.g = m'.g ∧ m2.fp = m'.fp ∧ m2.mem = m'.mem ∧
      m2.sp = m'.sp + BitVec.ofInt 16 (n * 2) := by
  unfold callLines
  split
  · exact ⟨_, (Runs.one (l := .call f) h).append (runs_op m' .ADD .sp (.imm (n * 2))), rfl, rfl, rfl, rfl⟩
  · rename_i hn
    have : n = 0 := by omega
    subst this
    exact ⟨m', Runs.one (l := .call f) h, rfl, rfl, rfl, by simp⟩

theorem call_rel {E : Env} {F : Fr} {g : Gh} {t t1 : T} {its : List It} {vs : List Word} {s s' : Sto} {m : M} {v : Word}
    {f : Int} {callee : Int → List Word → Sto → Option (Word × Sto)} (hc : CallOk E F callee) (w : W t)
    (hr : Rel E F g t (vs.map .arg ++ its) s m) (hv : callee f vs s = some (v, s'))
    (hu : 2 * (vs.map It.arg ++ its).length ≤ F.use)
    (hp : Pend (fun e v p => isAcc e = false → Later E F s' e v p) its t.stk)
    (mi : Mics 0 t t1) (ha : accs t1.stk = [])
    (hs : t1.stk = (t.stk.map fun e => if isAcc e then ⟨.STK, e.aux⟩ else e)) :
    ∃ m' c, t1.out ++ callLines vs.length f = t.out ++ c ∧ Runs E c m m' ∧ (E.val f = true → m'.g 0 = v) ∧
      ∀ o, Rel E F .no { t1 with out := o } its s' m' := by
  obtain ⟨m1, c1, o1, r1, k1, s1⟩ := mics_rel mi w hr take0
  have w1 := mi.W w
  obtain ⟨hw, k1⟩ := k1
  obtain ⟨hw', rfl, hrest⟩ := repr_args k1.repr
  have hp1 := hp.call (fun a v p => by simp [Later])
  rw [← hs] at hp1
  have hlen := k1.repr.hw_length
  have hroom := k1.room
  have hlen2 := hrest.hw_length
  obtain ⟨m2, q1, q2, q3, q4, q5, q6, q7⟩ := hc f vs s v s' m1 hw' hv k1.fp k1.sp (by omega)
    (by simp only [List.length_append, List.length_map] at *; omega) k1.hwm k1.mem k1.reg
  obtain ⟨m3, r3, p1, p2, p3, p4⟩ := callLines_run (n := vs.length) q1
  refine ⟨m3, c1 ++ callLines vs.length f, by rw [o1, List.append_assoc], r1.append r3, fun hv => by rw [p1, q4 hv], fun o => ?_⟩
  refine ⟨hw', ?_, by rw [p3]; exact q5, ?_, by rw [p2, q3, k1.fp], ?_, k1.lim, by rw [p3]; exact q6, by rw [p1]; exact q7,
    fun hg => absurd rfl hg⟩
  · refine hrest.later hp1 (by rw [p3]; exact q6) (by rw [p1]; exact q7) w1.regs (fun r hx => ?_) fun e he hf => ?_
    · rw [ha] at hx; cases hx
    · exfalso
      have : e.aux ∈ accs t1.stk := mem_accs.2 ⟨e, he, by rw [acc1_acc (by unfold isAcc; simp [hf])]; simp⟩
      rw [ha] at this; cases this
  · rw [p4, q2, k1.sp, List.length_append, dn_back]
  · simp only [List.length_append, List.length_map] at hroom
    omega

theorem callF_rel {E : Env} {F : Fr} {g : Gh} {t t' : T} {its : List It} {vs : List Word} {s s' : Sto} {m : M} {v : Word}
    {f : Int} {callee : Int → List Word → Sto → Option (Word × Sto)} (hc : CallOk E F callee) (w : W t)
    (hr : Rel E F g t (vs.map .arg ++ its) s m) (hv : callee f vs s = some (v, s'))
    (hu : 2 * (vs.map It.arg ++ its).length ≤ F.use) (hval : E.val f = true)
    (hp : Pend (fun e v p => isAcc e = false → Later E F s' e v p) its t.stk)
    (hl : 2 * (its.length + 1) ≤ F.lim) (h : vmCallF vs.length f t = some t') :
    Goes E F .no t t' (.val v 0 :: its) s' m := by
  obtain ⟨t1, mi, ha, hf, hs, rfl⟩ := vmCallF_form w h
  obtain ⟨m', c, o1, r1, g0, hr1⟩ := call_rel hc w hr hv hu hp mi ha hs
  obtain ⟨hw, hr1⟩ := hr1 []
  refine ⟨m', c, o1, r1, hw, .val (by simp) (g0 hval) hr1.repr, hr1.hwm, hr1.sp, hr1.fp, by simpa using hl, hr1.lim, hr1.mem, hr1.reg,
    fun hg => absurd rfl hg⟩

theorem callP_rel {E : Env} {F : Fr} {g : Gh} {t t' : T} {its : List It} {vs : List Word} {s s' : Sto} {m : M} {v : Word}
    {f : Int} {callee : Int → List Word → Sto → Option (Word × Sto)} (hc : CallOk E F callee) (w : W t)
    (hr : Rel E F g t (vs.map .arg ++ its) s m) (hv : callee f vs s = some (v, s'))
    (hu : 2 * (vs.map It.arg ++ its).length ≤ F.use)
    (hp : Pend (fun e v p => isAcc e = false → Later E F s' e v p) its t.stk)
    (h : vmCallP vs.length f t = some t') :
    Goes E F .no t t' its s' m := by
  obtain ⟨t1, mi, ha, hf, hs, rfl⟩ := call_form w h
  obtain ⟨m', c, o1, r1, g0, hr1⟩ := call_rel hc w hr hv hu hp mi ha hs
  exact ⟨m', c, o1, r1, hr1 _⟩

end Cmm.Tac
