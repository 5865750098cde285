import Verif.Tac.Machine
import Verif.Tac.Addr
import Mathlib.Tactic.Set

/-
C54: function entry and exit preserve the caller's registers and stack.

Model: Verif/Tac/Model.lean (makeFrame, cancelFrame, vmEntry, vmEntryK, vmEntryI, vmRet, vmRetI),
executed by Verif/Tac/Machine.lean.
-/
set_option linter.unusedSimpArgs false

namespace Cmm.Tac

/-- Specification: the number of registers a function with `d` locals saves. -/
def saved (d : Nat) : Nat := min d 9

/-- Specification: the bytes a function with `d` locals needs for those not in registers. -/
def memLocals (d : Nat) : Nat := 2 * (d - 9)

/-- Specification: the function body, started in `m1`, ends in `m2`: it leaves SP and FP as it
found them, does not write the words in which the entry sequence saved FP and the registers of
the caller, and does not write the registers beyond its own register variables. Local variables,
all other memory, G0 to G2 and the flags may have changed. -/
structure Body (d : Nat) (m1 m2 : M) : Prop where
  sp : m2.sp = m1.sp
  fp : m2.fp = m1.fp
  regs : ∀ i, i < saved d → m2.mem.lw (m1.sp + BitVec.ofNat 16 (2 * i)) =
    m1.mem.lw (m1.sp + BitVec.ofNat 16 (2 * i))
  link : m2.mem.lw m1.fp = m1.mem.lw m1.fp
  rest : ∀ r : Int, saved d + 3 ≤ r → r ≤ 11 → m2.g r = m1.g r

/-- Specification: the caller's registers are as they were. -/
structure Restored (m0 m3 : M) : Prop where
  sp : m3.sp = m0.sp
  fp : m3.fp = m0.fp
  regs : ∀ r : Int, 3 ≤ r → r ≤ 11 → m3.g r = m0.g r

/-- Specification: `__stkChk` (lib/SrcTac/crt0.s:227-232), if it returns, has changed G0, the
flags and the word below the stack pointer (the return address) only. -/
def ChkOk (E : Env) : Prop :=
  ∀ m, ∃ m', E.chk m = some m' ∧ m'.sp = m.sp ∧ m'.fp = m.fp ∧ (∀ r, r ≠ 0 → m'.g r = m.g r) ∧
    ∀ a, a ≠ m.sp - 1 → a ≠ m.sp - 2 → m'.mem a = m.mem a

/-! ### Lemmas -/

theorem runs_push {E : Env} (m : M) (r : Reg) : Runs E [.push r] m (m.doPush r) := Runs.one rfl

theorem runs_pop {E : Env} (m : M) (r : Reg) : Runs E [.pop r] m (m.doPop r) := Runs.one rfl

theorem runs_op {E : Env} (m : M) (o : TOp) (r : Reg) (s : Src) :
    Runs E [.op o r s] m (m.doOp E o r s) := Runs.one rfl

/-- Address of the word `k` words below `b`. -/
def dn (b : Word) (k : Nat) : Word := ad b (-(2 * k))

theorem dn_zero (b : Word) : dn b 0 = b := ad_zero b

theorem dn_succ (b : Word) (k : Nat) : dn b k - 2 = dn b (k + 1) := by
  unfold dn
  rw [sub_two_eq_ad, ad_ad]
  congr 1
  omega

theorem dn_pred (b : Word) (k : Nat) : dn b (k + 1) + 2 = dn b k := by
  unfold dn
  rw [add_two_eq_ad, ad_ad]
  congr 1
  omega

theorem dn_apart {b : Word} {j k : Nat} (h : j < k) (hk : 2 * k < 65535) :
    WordApart (dn b j) (dn b k) := ad_apart (by omega) (by omega) (by omega)

/-- The pushes of makeFrame. -/
theorem pushes_run {E : Env} (m : M) (n : Nat) (hn : n ≤ 9) :
    ∃ m', Runs E (pushes n) m m' ∧ m'.g = m.g ∧ m'.fp = m.fp ∧ m'.sp = dn m.sp n ∧
      (∀ i, i < n → m'.mem.lw (dn m.sp (i + 1)) = m.g (i + 3)) ∧
      ∀ a, (∀ i, i < n → a ≠ dn m.sp (i + 1) ∧ a ≠ dn m.sp (i + 1) + 1) → m'.mem a = m.mem a := by
  induction n with
  | zero =>
    refine ⟨m, Runs.nil E m, rfl, rfl, ?_, by omega, fun _ _ => rfl⟩
    exact (dn_zero _).symm
  | succ n ih =>
    obtain ⟨m1, r1, hg, hf, hs, hw, ho⟩ := ih (by omega)
    refine ⟨m1.doPush (.g (n + AccSIZ)), r1.append (runs_push _ _), hg, hf, ?_, ?_, ?_⟩
    · show m1.sp - 2 = _
      rw [hs, dn_succ]
    · intro i hi
      show (m1.mem.sw (m1.sp - 2) (m1.g (n + 3))).lw _ = _
      rw [hs, dn_succ]
      by_cases h : i = n
      · subst h; rw [Mem.lw_sw_same, hg]
      · rw [Mem.lw_sw_ne _ _ (dn_apart (by omega) (by omega))]
        exact hw i (by omega)
    · intro a ha
      show (m1.mem.sw (m1.sp - 2) (m1.g (n + 3))) a = _
      rw [hs, dn_succ, Mem.sw_ne _ _ (ha n (by omega)).1 (ha n (by omega)).2]
      exact ho a fun i hi => ha i (by omega)

/-- The pops of cancelFrame. -/
theorem pops_run {E : Env} (b : Word) (n : Nat) (m : M) (hs : m.sp = dn b n) :
    ∃ m', Runs E (pops n) m m' ∧ m'.fp = m.fp ∧ m'.sp = b ∧ m'.mem = m.mem ∧
      m'.lt = m.lt ∧ m'.z = m.z ∧
      (∀ i : Nat, i < n → m'.g (i + 3) = m.mem.lw (dn b (i + 1))) ∧
      ∀ r : Int, (r < 3 ∨ n + 3 ≤ r) → m'.g r = m.g r := by
  induction n generalizing m with
  | zero =>
    refine ⟨m, Runs.nil E m, rfl, ?_, rfl, rfl, rfl, by omega, fun _ _ => rfl⟩
    rw [hs, dn_zero]
  | succ n ih =>
    obtain ⟨m1, r1, hf, hs1, hm, hl, hz, hw, ho⟩ := ih (m.doPop (.g (n + AccSIZ))) (by
      show m.sp + 2 = _
      rw [hs, dn_pred])
    refine ⟨m1, (runs_pop _ _).append r1, hf, hs1, hm, hl, hz, ?_, ?_⟩
    · intro i hi
      by_cases h : i = n
      · subst h
        rw [ho _ (by omega)]
        show setG m.g (i + 3) (m.mem.lw m.sp) (i + 3) = _
        rw [hs]; simp [setG]
      · rw [hw i (by omega)]; rfl
    · intro r hr
      rw [ho r (by omega)]
      show setG m.g (n + 3) (m.mem.lw m.sp) r = _
      unfold setG
      rw [if_neg (by omega)]

/-- The lines makeFrame prints. -/
def frameIn (d : Nat) : List Line :=
  [.push .fp, .op .LD .fp (.reg .sp)] ++
    (if memLocals d > 0 then [.op .SUB .sp (.imm (memLocals d))] else []) ++ pushes (saved d)

/-- The lines cancelFrame prints. -/
def frameOut (d : Nat) : List Line :=
  pops (saved d) ++ (if memLocals d > 0 then [.op .LD .sp (.reg .fp)] else []) ++ [.pop .fp]

theorem makeFrame_out (d : Nat) (t : T) :
    (makeFrame d t).out = t.out ++ frameIn d ∧ (makeFrame d t).rvCnt = saved d ∧
      (makeFrame d t).frSize = memLocals d := by
  unfold makeFrame frameIn RVarSIZ
  by_cases h : d > 9
  · have h1 : (d : Int) > 9 := by omega
    have h2 : memLocals d > 0 := by unfold memLocals; omega
    have h3 : ((d : Int) - 9) * 2 = (memLocals d : Int) := by unfold memLocals; omega
    have h4 : saved d = 9 := by unfold saved; omega
    simp only [if_pos h1, if_pos h2, h3, h4]
    have : ((memLocals d : Nat) : Int) > 0 := by omega
    simp only [if_pos this, List.append_assoc, and_true, true_and]
    exact ⟨rfl, rfl⟩
  · have h1 : ¬ (d : Int) > 9 := by omega
    have h2 : ¬ memLocals d > 0 := by unfold memLocals; omega
    have h3 : memLocals d = 0 := by omega
    have h4 : saved d = d := by unfold saved; omega
    simp only [if_neg h1, if_neg h2, h3, h4, Int.toNat_natCast]
    simp

theorem cancelFrame_out (d : Nat) {t : T} (hs : t.stk = []) (hc : t.cnt = 0)
    (hr : t.rvCnt = saved d) (hf : t.frSize = memLocals d) :
    cancelFrame t = some { t with out := t.out ++ frameOut d } := by
  unfold cancelFrame frameOut
  rw [if_neg (by simp [hs]), if_neg (by simp [hc]), hr, hf]
  have : ((memLocals d : Int) > 0) ↔ memLocals d > 0 := by omega
  simp only [this, Int.toNat_natCast, List.append_assoc]

/-- The entry sequence. `b` is where the pushes of the register variables begin. -/
theorem frameIn_run {E : Env} (d : Nat) (hd : memLocals d + 2 * saved d + 2 < 65536) (m0 : M) :
    ∃ m1, Runs E (frameIn d) m0 m1 ∧ m1.fp = m0.sp - 2 ∧ m1.g = m0.g ∧
      m1.sp = dn (m0.sp - 2 - BitVec.ofNat 16 (memLocals d)) (saved d) ∧
      m1.mem.lw (m0.sp - 2) = m0.fp ∧
      ∀ i, i < saved d →
        m1.mem.lw (dn (m0.sp - 2 - BitVec.ofNat 16 (memLocals d)) (i + 1)) = m0.g (i + 3) := by
  have hs9 : saved d ≤ 9 := by unfold saved; omega
  -- after PUSH FP; LD FP,SP; SUB SP,#n
  have hpre : ∃ m, Runs E ([.push .fp, .op .LD .fp (.reg .sp)] ++
      (if memLocals d > 0 then [.op .SUB .sp (.imm (memLocals d))] else [])) m0 m ∧
      m.fp = m0.sp - 2 ∧ m.g = m0.g ∧ m.sp = m0.sp - 2 - BitVec.ofNat 16 (memLocals d) ∧
      m.mem = m0.mem.sw (m0.sp - 2) m0.fp := by
    have r1 : Runs E [.push .fp, .op .LD .fp (.reg .sp)] m0
        ((m0.doPush .fp).doOp E .LD .fp (.reg .sp)) := (runs_push m0 .fp).append (runs_op _ _ _ _)
    by_cases h : memLocals d > 0
    · rw [if_pos h]
      refine ⟨_, r1.append (runs_op _ _ _ _), rfl, rfl, ?_, rfl⟩
      show (m0.sp - 2) - BitVec.ofInt 16 (memLocals d : Int) = _
      rw [BitVec.ofInt_natCast]
    · rw [if_neg h]
      refine ⟨_, r1.append (Runs.nil E _), rfl, rfl, ?_, rfl⟩
      rw [show memLocals d = 0 by omega]
      show m0.sp - 2 = m0.sp - 2 - 0
      simp
  obtain ⟨m, r1, hf, hg, hs, hm⟩ := hpre
  obtain ⟨m1, r2, hg1, hf1, hs1, hw1, ho1⟩ := pushes_run (E := E) m (saved d) hs9
  refine ⟨m1, r1.append r2, hf1.trans hf, hg1.trans hg, hs1.trans (by rw [hs]), ?_, ?_⟩
  · have hne : ∀ (i k : Nat), i < saved d → k < 2 →
        m0.sp - 2 + BitVec.ofNat 16 k ≠ dn m.sp (i + 1) ∧
        m0.sp - 2 + BitVec.ofNat 16 k ≠ dn m.sp (i + 1) + 1 := by
      intro i k hi hk
      rw [hs]
      have key : ∀ j, j < 2 → m0.sp - 2 + BitVec.ofNat 16 k ≠
          dn (m0.sp - 2 - BitVec.ofNat 16 (memLocals d)) (i + 1) + BitVec.ofNat 16 j := by
        intro j hj e
        simp only [dn, add_eq_ad, sub_eq_ad, add_one_eq_ad, add_two_eq_ad, sub_one_eq_ad, sub_two_eq_ad, ad_ad] at e
        have := ad_inj e (by omega) (by omega)
        omega
      refine ⟨by simpa using key 0 (by omega), by simpa using key 1 (by omega)⟩
    have h1 := ho1 (m0.sp - 2) fun i hi => by simpa using hne i 0 hi (by omega)
    have h2 := ho1 (m0.sp - 2 + 1) fun i hi => by simpa using hne i 1 hi (by omega)
    rw [lw_congr h1 h2, hm, Mem.lw_sw_same]
  · intro i hi
    rw [← hs, hw1 i hi, hg]

/-- The exit sequence. -/
theorem frameOut_run {E : Env} (d : Nat) (b : Word) (m2 : M) (hs : m2.sp = dn b (saved d))
    (hf : m2.fp = b + BitVec.ofNat 16 (memLocals d)) :
    ∃ m3, Runs E (frameOut d) m2 m3 ∧ m3.sp = m2.fp + 2 ∧ m3.fp = m2.mem.lw m2.fp ∧
      m3.mem = m2.mem ∧ m3.lt = m2.lt ∧ m3.z = m2.z ∧
      (∀ i : Nat, i < saved d → m3.g (i + 3) = m2.mem.lw (dn b (i + 1))) ∧
      ∀ r : Int, (r < 3 ∨ saved d + 3 ≤ r) → m3.g r = m2.g r := by
  obtain ⟨m, r1, hf1, hs1, hm1, hl, hz, hw, ho⟩ := pops_run (E := E) b (saved d) m2 hs
  unfold frameOut
  by_cases h : memLocals d > 0
  · rw [if_pos h]
    refine ⟨_, (r1.append (runs_op _ _ _ _)).append (runs_pop _ _), ?_, ?_, hm1, hl, hz, hw, ho⟩
    · show m.fp + 2 = _
      rw [hf1]
    · show m.mem.lw m.fp = _
      rw [hf1, hm1]
  · rw [if_neg h]
    have hb : b = m2.fp := by
      rw [hf, show memLocals d = 0 by omega]; simp
    refine ⟨_, (r1.append (Runs.nil E _)).append (runs_pop _ _), ?_, ?_, hm1, hl, hz, hw, ho⟩
    · show m.sp + 2 = _
      rw [hs1, hb]
    · show m.mem.lw m.sp = _
      rw [hs1, hm1, hb]

theorem sub_add_cancel16 (a b : Word) : a - b + b = a := BitVec.sub_add_cancel a b

/-- Entry, body, exit. -/
theorem frame_run {E : Env} (d : Nat) (hd : memLocals d + 2 * saved d + 2 < 65536) (m0 : M) :
    ∃ m1, Runs E (frameIn d) m0 m1 ∧ m1.g = m0.g ∧
      ∀ m2, Body d m1 m2 → ∃ m3, Runs E (frameOut d) m2 m3 ∧ Restored m0 m3 ∧
        m3.mem = m2.mem ∧ m3.lt = m2.lt ∧ m3.z = m2.z ∧ ∀ r, r < 3 → m3.g r = m2.g r := by
  obtain ⟨m1, r1, hf, hg, hs, hl, hw⟩ := frameIn_run (E := E) d hd m0
  refine ⟨m1, r1, hg, fun m2 hb => ?_⟩
  obtain ⟨m3, r2, hs3, hf3, hm3, hl3, hz3, hw3, ho3⟩ := frameOut_run (E := E) d
    (m0.sp - 2 - BitVec.ofNat 16 (memLocals d)) m2 (by rw [hb.sp, hs])
    (by rw [hb.fp, hf, sub_add_cancel16])
  refine ⟨m3, r2, ⟨?_, ?_, ?_⟩, hm3, hl3, hz3, fun r hr => ho3 r (by omega)⟩
  · rw [hs3, hb.fp, hf, sub_add_cancel16]
  · rw [hf3, hb.fp, hb.link, hf, hl]
  · intro r h1 h2
    by_cases h : r < saved d + 3
    · obtain ⟨i, rfl⟩ : ∃ i : Nat, r = i + 3 := ⟨(r - 3).toNat, by omega⟩
      have hi : i < saved d := by omega
      rw [hw3 i hi, ← hw i hi]
      have e : dn (m0.sp - 2 - BitVec.ofNat 16 (memLocals d)) (i + 1) =
          m1.sp + BitVec.ofNat 16 (2 * (saved d - 1 - i)) := by
        rw [hs]
        simp only [dn, add_eq_ad, sub_eq_ad, add_one_eq_ad, add_two_eq_ad, sub_one_eq_ad, sub_two_eq_ad, ad_ad]
        congr 1
        omega
      rw [e, hb.regs _ (by omega)]
    · rw [ho3 r (by omega), hb.rest r (by omega) h2, hg]

/-! ### Theorems -/

/-- C54 for ordinary functions (vmEntry, vmRet): whatever the number `d` of locals (as long as
the frame fits into the address space) and the state of the machine, the entry sequence followed
by any body and the exit sequence gives the caller its SP, FP and register variables back. The
result in G0 and all memory are those the body left. -/
theorem C54 {E : Env} (hE : ChkOk E) (d : Nat) (hd : memLocals d + 2 * saved d + 4 < 65536)
    (t0 t2 : T) (hs : t2.stk = []) (hc : t2.cnt = 0) (hr : t2.rvCnt = (vmEntry d t0).rvCnt)
    (hf : t2.frSize = (vmEntry d t0).frSize) :
    ∃ cin cout t3, (vmEntry d t0).out = t0.out ++ cin ∧
      vmRet t2 = some t3 ∧ t3.out = t2.out ++ cout ++ [.ret] ∧
      ∀ m0, ∃ m1, Runs E cin m0 m1 ∧ (∀ r, r ≠ 0 → m1.g r = m0.g r) ∧
        ∀ m2, Body d m1 m2 → ∃ m3, Runs E cout m2 m3 ∧ Restored m0 m3 ∧
          m3.mem = m2.mem ∧ m3.g 0 = m2.g 0 := by
  obtain ⟨ho, h1, h2⟩ := makeFrame_out d t0
  refine ⟨frameIn d ++ [.stkChk], frameOut d, ({ t2 with out := t2.out ++ frameOut d } : T).print .ret,
    ?_, ?_, rfl, ?_⟩
  · show (makeFrame d t0).out ++ _ = _
    rw [ho, List.append_assoc]
  · unfold vmRet
    rw [cancelFrame_out d hs hc (hr.trans h1) (hf.trans h2)]
    rfl
  · intro m0
    obtain ⟨m1, r1, hf1, hg1, hs1, hl1, hw1⟩ := frameIn_run (E := E) d (by omega) m0
    obtain ⟨m1', hchk, hsp, hfp, hg, hmem⟩ := hE m1
    refine ⟨m1', r1.append (Runs.one hchk), fun r hr => by rw [hg r hr, hg1], fun m2 hb => ?_⟩
    have hs9 : saved d ≤ 9 := by unfold saved; omega
    -- the call did not touch what was saved
    have same : ∀ (k : Nat), k ≤ 2 * saved d + memLocals d →
        m1'.mem (m1.sp + BitVec.ofNat 16 k) = m1.mem (m1.sp + BitVec.ofNat 16 k) := by
      intro k hk
      apply hmem
      · intro e
        simp only [dn, add_eq_ad, sub_eq_ad, add_one_eq_ad, add_two_eq_ad, sub_one_eq_ad, sub_two_eq_ad, ad_ad] at e
        have := ad_inj e (by omega) (by omega)
        omega
      · intro e
        simp only [dn, add_eq_ad, sub_eq_ad, add_one_eq_ad, add_two_eq_ad, sub_one_eq_ad, sub_two_eq_ad, ad_ad] at e
        have := ad_inj e (by omega) (by omega)
        omega
    have same1 : m1'.mem (m1.sp + BitVec.ofNat 16 (2 * saved d + memLocals d + 1)) =
        m1.mem (m1.sp + BitVec.ofNat 16 (2 * saved d + memLocals d + 1)) := by
      apply hmem
      · intro e
        simp only [dn, add_eq_ad, sub_eq_ad, add_one_eq_ad, add_two_eq_ad, sub_one_eq_ad, sub_two_eq_ad, ad_ad] at e
        have := ad_inj e (by omega) (by omega)
        omega
      · intro e
        simp only [dn, add_eq_ad, sub_eq_ad, add_one_eq_ad, add_two_eq_ad, sub_one_eq_ad, sub_two_eq_ad, ad_ad] at e
        have := ad_inj e (by omega) (by omega)
        omega
    have add1 : ∀ k, m1.sp + BitVec.ofNat 16 k + 1 = m1.sp + BitVec.ofNat 16 (k + 1) := by
      intro k
      rw [BitVec.add_assoc, add_ofNat_succ]
    have samew : ∀ i, i < saved d → m1'.mem.lw (m1.sp + BitVec.ofNat 16 (2 * i)) =
        m1.mem.lw (m1.sp + BitVec.ofNat 16 (2 * i)) := fun i hi =>
      lw_congr (same _ (by omega)) (by rw [add1]; exact same _ (by omega))
    have hfp' : m1.fp = m1.sp + BitVec.ofNat 16 (2 * saved d + memLocals d) := by
      rw [hf1, hs1]
      simp only [dn, add_eq_ad, sub_eq_ad, add_one_eq_ad, add_two_eq_ad, sub_one_eq_ad, sub_two_eq_ad, ad_ad]
      congr 1
      omega
    have samel : m1'.mem.lw m1.fp = m1.mem.lw m1.fp := by
      rw [hfp']
      exact lw_congr (same _ (by omega)) (by rw [add1]; exact same1)
    obtain ⟨m3, r3, hres, hm3, _, _, ho3⟩ := (frame_run (E := E) d (by omega) m0).choose_spec.2.2 m2 (by
      have hdet : (frame_run (E := E) d (by omega) m0).choose = m1 := by
        have := (frame_run (E := E) d (by omega) m0).choose_spec.1
        unfold Runs at this r1
        rw [this] at r1
        injection r1 with e
        injection e
      rw [hdet]
      refine ⟨hb.sp.trans hsp, hb.fp.trans hfp, fun i hi => ?_, ?_, fun r h1 h2 => ?_⟩
      · have := hb.regs i hi
        rw [hsp] at this
        rw [this, samew i hi]
      · have := hb.link
        rw [hfp] at this
        rw [this, samel]
      · rw [hb.rest r h1 h2, hg r (by omega)])
    exact ⟨m3, r3, hres, hm3, ho3 0 (by omega)⟩

/-- C54 for kernel functions (vmEntryK, vmRet), which do not check the stack. -/
theorem C54_kernel {E : Env} (d : Nat) (hd : memLocals d + 2 * saved d + 2 < 65536)
    (t0 t2 : T) (hs : t2.stk = []) (hc : t2.cnt = 0) (hr : t2.rvCnt = (vmEntryK d t0).rvCnt)
    (hf : t2.frSize = (vmEntryK d t0).frSize) :
    ∃ cin cout t3, (vmEntryK d t0).out = t0.out ++ cin ∧
      vmRet t2 = some t3 ∧ t3.out = t2.out ++ cout ++ [.ret] ∧
      ∀ m0, ∃ m1, Runs E cin m0 m1 ∧ m1.g = m0.g ∧
        ∀ m2, Body d m1 m2 → ∃ m3, Runs E cout m2 m3 ∧ Restored m0 m3 ∧
          m3.mem = m2.mem ∧ m3.g 0 = m2.g 0 := by
  obtain ⟨ho, h1, h2⟩ := makeFrame_out d t0
  refine ⟨frameIn d, frameOut d, ({ t2 with out := t2.out ++ frameOut d } : T).print .ret, ho, ?_,
    rfl, ?_⟩
  · unfold vmRet
    rw [cancelFrame_out d hs hc (hr.trans h1) (hf.trans h2)]
    rfl
  · intro m0
    obtain ⟨m1, r1, hg1, hb⟩ := frame_run (E := E) d hd m0
    refine ⟨m1, r1, hg1, fun m2 h => ?_⟩
    obtain ⟨m3, r3, hres, hm3, _, _, ho3⟩ := hb m2 h
    exact ⟨m3, r3, hres, hm3, ho3 0 (by omega)⟩

/-- C54 for interrupt functions (vmEntryI, vmRetI): moreover G0, G1 and G2 are those of the
interrupted program. (RETI restores the flags.) The body must not write the three words in which
they were saved either. -/
theorem C54_interrupt {E : Env} (d : Nat) (hd : memLocals d + 2 * saved d + 8 < 65536)
    (t0 t2 : T) (hs : t2.stk = []) (hc : t2.cnt = 0) (hr : t2.rvCnt = (vmEntryI d t0).rvCnt)
    (hf : t2.frSize = (vmEntryI d t0).frSize) :
    ∃ cin cout t3, (vmEntryI d t0).out = t0.out ++ cin ∧
      vmRetI t2 = some t3 ∧ t3.out = t2.out ++ cout ++ [.reti] ∧
      ∀ m0, ∃ m1, Runs E cin m0 m1 ∧ m1.g = m0.g ∧
        ∀ m2, Body d m1 m2 →
          (∀ k : Nat, 1 ≤ k → k ≤ 3 → m2.mem.lw (m1.fp + BitVec.ofNat 16 (2 * k)) =
            m1.mem.lw (m1.fp + BitVec.ofNat 16 (2 * k))) →
          ∃ m3, Runs E cout m2 m3 ∧ m3.sp = m0.sp ∧ m3.fp = m0.fp ∧ m3.mem = m2.mem ∧
            ∀ r : Int, 0 ≤ r → r ≤ 11 → m3.g r = m0.g r := by
  obtain ⟨ho, h1, h2⟩ := makeFrame_out d
    ({ t0 with out := t0.out ++ [.push (.g 0), .push (.g 1), .push (.g 2)] } : T)
  refine ⟨[.push (.g 0), .push (.g 1), .push (.g 2)] ++ frameIn d,
    frameOut d ++ [.pop (.g 2), .pop (.g 1), .pop (.g 0)],
    { t2 with out := t2.out ++ frameOut d ++ [.pop (.g 2), .pop (.g 1), .pop (.g 0), .reti] },
    ?_, ?_, ?_, ?_⟩
  · show (makeFrame d _).out = _
    rw [ho, List.append_assoc]
  · unfold vmRetI
    rw [cancelFrame_out d hs hc (hr.trans h1) (hf.trans h2)]
    rfl
  · simp
  · intro m0
    set a := ((m0.doPush (.g 0)).doPush (.g 1)).doPush (.g 2) with ha
    have r0 : Runs E [.push (.g 0), .push (.g 1), .push (.g 2)] m0 a :=
      ((runs_push m0 (.g 0)).append (runs_push _ (.g 1))).append (runs_push _ (.g 2))
    have hasp : a.sp = dn m0.sp 3 := by
      show m0.sp - 2 - 2 - 2 = _
      rw [show m0.sp - 2 = dn m0.sp 1 from sub_two_eq_ad _, dn_succ, dn_succ]
    have hamem : ∀ k : Nat, k < 3 → a.mem.lw (dn m0.sp (k + 1)) = m0.g k := by
      have e1 : m0.sp - 2 = dn m0.sp 1 := sub_two_eq_ad _
      have hm : a.mem = ((m0.mem.sw (dn m0.sp 1) (m0.g 0)).sw (dn m0.sp 2) (m0.g 1)).sw
          (dn m0.sp 3) (m0.g 2) := by
        show ((m0.mem.sw (m0.sp - 2) (m0.g 0)).sw (m0.sp - 2 - 2) (m0.g 1)).sw (m0.sp - 2 - 2 - 2)
          (m0.g 2) = _
        rw [e1, dn_succ, dn_succ]
      intro k hk
      rw [hm]
      match k, hk with
      | 0, _ =>
        rw [Mem.lw_sw_ne _ _ (dn_apart (by omega) (by omega)),
          Mem.lw_sw_ne _ _ (dn_apart (by omega) (by omega)), Mem.lw_sw_same]
        rfl
      | 1, _ => rw [Mem.lw_sw_ne _ _ (dn_apart (by omega) (by omega)), Mem.lw_sw_same]; rfl
      | 2, _ => rw [Mem.lw_sw_same]; rfl
    obtain ⟨m1, r1, hf1, hg1, hs1, hl1, hw1⟩ := frameIn_run (E := E) d (by omega) a
    have hs9 : saved d ≤ 9 := by unfold saved; omega
    -- the frame lies below the three words
    have hkeep : ∀ k : Nat, k < 3 → m1.mem.lw (dn m0.sp (k + 1)) = m0.g k := by
      intro k hk
      rw [← hamem k hk]
      have : ∃ m, Runs E ([.push .fp, .op .LD .fp (.reg .sp)] ++
          (if memLocals d > 0 then [.op .SUB .sp (.imm (memLocals d))] else [])) a m ∧
          m.sp = a.sp - 2 - BitVec.ofNat 16 (memLocals d) ∧
          m.mem = a.mem.sw (a.sp - 2) a.fp := by
        have r1 : Runs E [.push .fp, .op .LD .fp (.reg .sp)] a
            ((a.doPush .fp).doOp E .LD .fp (.reg .sp)) := (runs_push a .fp).append (runs_op _ _ _ _)
        by_cases h : memLocals d > 0
        · rw [if_pos h]
          refine ⟨_, r1.append (runs_op _ _ _ _), ?_, rfl⟩
          show (a.sp - 2) - BitVec.ofInt 16 (memLocals d : Int) = _
          rw [BitVec.ofInt_natCast]
        · rw [if_neg h]
          refine ⟨_, r1.append (Runs.nil E _), ?_, rfl⟩
          rw [show memLocals d = 0 by omega]
          show a.sp - 2 = a.sp - 2 - 0
          simp
      obtain ⟨m, rp, hms, hmm⟩ := this
      obtain ⟨m1', rq, _, _, _, _, hoq⟩ := pushes_run (E := E) m (saved d) hs9
      have : m1' = m1 := by
        have h3 : Runs E (frameIn d) a m1' := rp.append rq
        unfold Runs at h3 r1
        rw [h3] at r1
        injection r1 with e
        injection e
      subst this
      have hb : ∀ j, j < 2 → m1'.mem (dn m0.sp (k + 1) + BitVec.ofNat 16 j) =
          a.mem (dn m0.sp (k + 1) + BitVec.ofNat 16 j) := by
        intro j hj
        rw [hoq, hmm, Mem.sw_ne]
        · intro e
          rw [hasp] at e
          simp only [dn, add_eq_ad, sub_eq_ad, add_one_eq_ad, add_two_eq_ad, sub_one_eq_ad, sub_two_eq_ad, ad_ad] at e
          have := ad_inj e (by omega) (by omega)
          omega
        · intro e
          rw [hasp] at e
          simp only [dn, add_eq_ad, sub_eq_ad, add_one_eq_ad, add_two_eq_ad, sub_one_eq_ad, sub_two_eq_ad, ad_ad] at e
          have := ad_inj e (by omega) (by omega)
          omega
        · intro i hi
          rw [hms, hasp]
          constructor
          · intro e
            simp only [dn, add_eq_ad, sub_eq_ad, add_one_eq_ad, add_two_eq_ad, sub_one_eq_ad, sub_two_eq_ad, ad_ad] at e
            have := ad_inj e (by omega) (by omega)
            omega
          · intro e
            simp only [dn, add_eq_ad, sub_eq_ad, add_one_eq_ad, add_two_eq_ad, sub_one_eq_ad, sub_two_eq_ad, ad_ad] at e
            have := ad_inj e (by omega) (by omega)
            omega
      exact lw_congr (by simpa using hb 0 (by omega)) (by simpa using hb 1 (by omega))
    refine ⟨m1, r0.append r1, hg1.trans rfl, fun m2 hb hk => ?_⟩
    obtain ⟨mA, rA, hgA, hbA⟩ := frame_run (E := E) d (by omega) a
    have : mA = m1 := by
      unfold Runs at rA r1
      rw [rA] at r1
      injection r1 with e
      injection e
    subst this
    obtain ⟨m3, r3, hres, hm3, _, _, ho3⟩ := hbA m2 hb
    refine ⟨_, r3.append (((runs_pop m3 (.g 2)).append (runs_pop _ (.g 1))).append
      (runs_pop _ (.g 0))), ?_, hres.fp, hm3, ?_⟩
    · show m3.sp + 2 + 2 + 2 = _
      rw [hres.sp, hasp, dn_pred, dn_pred, dn_pred]
      exact dn_zero _
    · have hv : ∀ k : Nat, k < 3 → m3.mem.lw (dn m0.sp (k + 1)) = m0.g k := by
        intro k hk3
        rw [hm3, ← hkeep k hk3]
        have e : dn m0.sp (k + 1) = mA.fp + BitVec.ofNat 16 (2 * (3 - k)) := by
          rw [hf1, hasp]
          simp only [dn, add_eq_ad, sub_eq_ad, add_one_eq_ad, add_two_eq_ad, sub_one_eq_ad, sub_two_eq_ad, ad_ad]
          congr 1
          omega
        rw [e]
        exact hk (3 - k) (by omega) (by omega)
      have hsp3 : m3.sp = dn m0.sp 3 := hres.sp.trans hasp
      intro r h1 h2
      show setG (setG (setG m3.g 2 (m3.mem.lw m3.sp)) 1 (m3.mem.lw (m3.sp + 2))) 0
        (m3.mem.lw (m3.sp + 2 + 2)) r = _
      rw [hsp3, dn_pred, dn_pred]
      unfold setG
      by_cases e0 : r = 0
      · rw [if_pos e0, e0]; exact hv 0 (by omega)
      · rw [if_neg e0]
        by_cases e1 : r = 1
        · rw [if_pos e1, e1]; exact hv 1 (by omega)
        · rw [if_neg e1]
          by_cases e2 : r = 2
          · rw [if_pos e2, e2]; exact hv 2 (by omega)
          · rw [if_neg e2, hres.regs r (by omega) h2]
            rfl

/-! ### Examples -/

/-- An environment whose `__stkChk` clears G0. -/
def exEnv : Env where
  adr _ := 0
  lab _ := 0
  fn _ _ := none
  val _ := false
  chk m := some { m with g := setG m.g 0 0 }
  div _ _ := 0
  mod _ _ := 0
  v _ _ _ := false

example : ChkOk exEnv := fun m =>
  ⟨_, rfl, rfl, rfl, fun r hr => by simp [setG, hr], fun _ _ _ => rfl⟩

/-- Eleven locals: nine registers saved and four bytes of memory. -/
example : saved 11 = 9 ∧ memLocals 11 = 4 ∧ memLocals 11 + 2 * saved 11 + 8 < 65536 := by decide

/-- A body that changes a register variable, G0 and a local variable in memory. -/
example (m1 : M) (h : m1.fp = m1.sp + 22) : Body 11 m1
    { m1 with g := setG (setG m1.g 3 7) 0 5, mem := m1.mem.sw (m1.fp - 2) 9 } := by
  have h9 : saved 11 = 9 := by decide
  refine ⟨rfl, rfl, fun i hi => ?_, ?_, fun r h1 h2 => ?_⟩
  · rw [h9] at hi
    show (m1.mem.sw (m1.fp - 2) 9).lw _ = _
    have e : m1.fp - 2 = ad m1.sp 20 := by
      rw [h, show m1.sp + 22 = ad m1.sp 22 from rfl, sub_two_eq_ad, ad_ad]; rfl
    rw [e, add_eq_ad, Mem.lw_sw_ne _ _ (ad_apart (by omega) (by omega) (by omega))]
  · show (m1.mem.sw (m1.fp - 2) 9).lw m1.fp = _
    refine Mem.lw_sw_ne _ _ ?_
    have := ad_apart (b := m1.fp) (j := 0) (k := -2) (by omega) (by omega) (by omega)
    rwa [ad_zero, ← sub_two_eq_ad] at this
  · replace h1 : (9:Int) + 3 ≤ r := by simpa [h9] using h1
    show setG (setG m1.g 3 7) 0 5 r = _
    unfold setG
    rw [if_neg (by omega), if_neg (by omega)]

end Cmm.Tac
