import Verif.Tac.Full4

/-
One call of a function on the machine with CALL and RET, and the text of a whole program.
For Verif/Props/C60.lean.
-/
namespace Cmm.Tac
open Cmm.Tree (World)
open Cmm.Gen (Instr A1 A2 Data Cfg Step Steps Idle)

theorem TSteps.plain {E : Env} {A : Nat → Word} {Q : List Line} {a b : TC} (h : TSteps E Q a b) : FSteps E A Q a b := by
  induction h with
  | refl => exact .refl
  | head h _ ih => exact .head (.plain h) ih

/-! ### The text -/

/-- Lines of the entry. -/
def Fn.entryLines (fn : Fn) : List Line := .nam fn.f :: frameIn fn.d ++ if fn.ker then [] else [.stkChk]

theorem emits_append {cnt : Int → Int} (p q : List Vm) (t : T) : emits cnt (p ++ q) t = (emits cnt p t).bind (emits cnt q) := by
  induction p generalizing t with
  | nil => rfl
  | cons v p ih =>
    simp only [List.cons_append, emits]
    cases emitV cnt v t with
    | none => rfl
    | some t1 => exact ih t1

theorem Fn.entered_out (fn : Fn) (t : T) : (fn.entered t).out = t.out ++ fn.entryLines := by
  obtain ⟨h1, -⟩ := makeFrame_out fn.d (t.print (.nam fn.f))
  unfold Fn.entered Fn.entryLines
  split
  · show (makeFrame _ _).out = _
    rw [h1]; simp [T.print]
  · show (makeFrame _ _).out ++ [_] = _
    rw [h1]; simp [T.print]

theorem Fn.entered_frame (fn : Fn) (t : T) : (fn.entered t).rvCnt = saved fn.d ∧ (fn.entered t).frSize = memLocals fn.d := by
  obtain ⟨-, h1, h2⟩ := makeFrame_out fn.d (t.print (.nam fn.f))
  unfold Fn.entered
  split
  · exact ⟨h1, h2⟩
  · exact ⟨h1, h2⟩

theorem Fn.entered_w {fn : Fn} {t : T} (w : W t) (hs : t.stk = []) : W (fn.entered t) ∧ (fn.entered t).stk = [] := by
  unfold Fn.entered
  split
  · exact ⟨⟨w.own, w.nodup, w.rng, w.cnt, w.low, w.flag, w.flt, w.regs, w.jcc⟩, hs⟩
  · exact ⟨⟨w.own, w.nodup, w.rng, w.cnt, w.low, w.flag, w.flt, w.regs, w.jcc⟩, hs⟩

theorem FnOk.counted {E : Env} {L : Lay} {S : Nat} {fn : Fn} {t : T} (h : FnOk E L S fn t) : Counted fn.cnt (fn.body.map .i) := by
  intro n hn
  simp only [List.mem_map, Vm.i.injEq, exists_eq_right] at hn
  exact (h.loc n hn).1

/-- The lines of one function. -/
theorem fn_text {E : Env} {L : Lay} {S : Nat} {fn : Fn} {t t' : T} (w : W t) (hs : t.stk = []) (hf : FnOk E L S fn (fn.entered t))
    (he : emits fn.cnt (fn.code.map .i) t = some t') :
    ∃ tB c, emits fn.cnt (fn.body.map .i) (fn.entered t) = some tB ∧ tB.out = t.out ++ fn.entryLines ++ c ∧
      t'.out = tB.out ++ (frameOut fn.d ++ [.ret]) ∧ W t' ∧ t'.stk = [] := by
  obtain ⟨w1, hs1⟩ := Fn.entered_w (fn := fn) w hs
  unfold Fn.code at he
  rw [List.map_append, List.map_append, emits_append, emits_append] at he
  have h0 : emits fn.cnt (([.nam fn.f, if fn.ker then .entryK fn.d else .entry fn.d] : List Instr).map .i) t = some (fn.entered t) := by
    unfold Fn.entered
    cases fn.ker <;> rfl
  rw [h0, Option.bind_some] at he
  cases hB : emits fn.cnt (fn.body.map .i) (fn.entered t) with
  | none => rw [hB] at he; cases he
  | some tB =>
    rw [hB, Option.bind_some] at he
    have he : (vmRet tB).bind some = some t' := he
    have he : vmRet tB = some t' := by
      cases h : vmRet tB with
      | none => rw [h] at he; cases he
      | some a => rw [h] at he; exact he
    have hx := shapesF_inExpr fn.body hf.shape
    have wB := emits_step w1 (b := false) nofun hf.disc hf.counted hB
    have hfr := emits_frame fn.body (b := false) w1 nofun hf.disc hf.counted hx hB
    obtain ⟨c, hc, -⟩ := emits_grow (fn.body.map .i) (b := false) w1 nofun hf.disc hf.counted (fun v hv => by
      obtain ⟨i, hi, rfl⟩ := List.mem_map.1 hv
      exact hx i hi) hB
    have hsB : tB.stk = [] ∧ tB.cnt = 0 := by
      unfold vmRet cancelFrame at he
      by_cases k1 : tB.stk.length ≠ 0
      · rw [if_pos k1] at he; cases he
      · rw [if_neg k1] at he
        by_cases k2 : tB.cnt ≠ 0
        · rw [if_pos k2] at he; cases he
        · exact ⟨List.eq_nil_of_length_eq_zero (by omega), by omega⟩
    have hcan := cancelFrame_out fn.d hsB.1 hsB.2 (hfr.1.trans (fn.entered_frame t).1) (hfr.2.trans (fn.entered_frame t).2)
    unfold vmRet at he
    rw [hcan] at he
    have he := Option.some.inj he
    subst he
    refine ⟨tB, c, rfl, by rw [hc, fn.entered_out], by simp [T.print], (wB.out _).out _, hsB.1⟩

theorem prog_out {E : Env} {L : Lay} {S : Nat} (fns : List Fn) : ∀ {t tQ : T}, W t → t.stk = [] → ProgOk E L S fns t →
    emitProg fns t = some tQ → ∃ c, tQ.out = t.out ++ c := by
  induction fns with
  | nil => intro t tQ _ _ _ h; cases h; exact ⟨[], by simp⟩
  | cons fn fns ih =>
    intro t tQ w hs hp h
    simp only [emitProg] at h
    cases h1 : emits fn.cnt (fn.code.map .i) t with
    | none => rw [h1] at h; cases h
    | some t1 =>
      rw [h1] at h
      obtain ⟨tB, c, -, k2, k3, k4, k5⟩ := fn_text w hs hp.1 h1
      obtain ⟨c', hc⟩ := ih k4 k5 (hp.2 t1 h1) h
      exact ⟨_, by rw [hc, k3, k2, List.append_assoc, List.append_assoc, List.append_assoc]⟩

/-- Where a function of the program is. -/
theorem prog_place {E : Env} {L : Lay} {S : Nat} (fns : List Fn) : ∀ {t tQ : T}, W t → t.stk = [] → ProgOk E L S fns t →
    emitProg fns t = some tQ → ∀ fn ∈ fns, ∃ t0 tB c rest, W t0 ∧ t0.stk = [] ∧ FnOk E L S fn (fn.entered t0) ∧
      emits fn.cnt (fn.body.map .i) (fn.entered t0) = some tB ∧ tB.out = t0.out ++ fn.entryLines ++ c ∧
      tQ.out = tB.out ++ (frameOut fn.d ++ [.ret] ++ rest) := by
  induction fns with
  | nil => intro t tQ _ _ _ _ fn hfn; cases hfn
  | cons fn0 fns ih =>
    intro t tQ w hs hp h fn hfn
    simp only [emitProg] at h
    cases h1 : emits fn0.cnt (fn0.code.map .i) t with
    | none => rw [h1] at h; cases h
    | some t1 =>
      rw [h1] at h
      obtain ⟨tB, c, k1, k2, k3, k4, k5⟩ := fn_text w hs hp.1 h1
      rcases List.mem_cons.1 hfn with rfl | hfn
      · obtain ⟨c', hc⟩ := prog_out fns k4 k5 (hp.2 t1 h1) h
        exact ⟨t, tB, c, c', w, hs, hp.1, k1, k2, by rw [hc, k3, List.append_assoc]⟩
      · exact ih k4 k5 (hp.2 t1 h1) h fn hfn

/-! ### Calls -/

/-- On the machine, calls do what `call` says, if there are `B` bytes of stack. -/
def Works (E : Env) (A : Nat → Word) (Q : List Line) (L : Lay) (B : Nat) (call : Int → List Word → Mem → Option (Word × Mem)) :
    Prop :=
  ∀ f vs v mem' pc m x, call f vs (L.clean m.mem) = some (v, mem') → Q[pc]? = some (.call f) → Ready L vs m x → B ≤ x →
    ∃ m', FSteps E A Q ⟨pc, m⟩ ⟨pc + 1, m'⟩ ∧ Returns L (E.val f) v mem' (x + 2 * vs.length) m m'

theorem HwMem.get {base : Word} {mem : Mem} : ∀ {l : List Word}, HwMem base mem l → ∀ (i : Nat) w, l[i]? = some w →
    mem.lw (dn base (l.length - i)) = w := by
  intro l
  induction l with
  | nil => intro _ i w h; simp at h
  | cons v l ih =>
    intro h i w hi
    cases i with
    | zero => simp only [List.getElem?_cons_zero, Option.some.injEq] at hi; rw [← hi]; exact h.1
    | succ i =>
      simp only [List.getElem?_cons_succ] at hi
      have := ih h.2 i w hi
      simpa using this

theorem HwMem.app {base : Word} {mem : Mem} {a b : List Word} (h : HwMem base mem (a ++ b)) : HwMem base mem b := by
  induction a with
  | nil => exact h
  | cons v a ih => exact ih h.2

theorem callR_of {E : Env} {A : Nat → Word} {Q : List Line} {L : Lay} {B : Nat} {F : Fr} {fn : Fn} {x1 xf : Int}
    {call : Int → List Word → Mem → Option (Word × Mem)} (h : Act L F fn x1 xf) (hw : Works E A Q L B call)
    (hB : (B : Int) + F.use ≤ x1) : CallR E A Q F (liftCall L call) := by
  intro f vs s v s' pc m hwd hc hpc hfp hsp huse hmem hout hreg
  have g1 := h.geo
  have g2 := h.top
  have g3 := h.nn
  have g4 := h.size
  simp only [liftCall, Option.map_eq_some_iff] at hc
  obtain ⟨⟨v', mem'⟩, hc, hr⟩ := hc
  cases hr
  have hpub : ∀ a, L.pub a = true → m.mem a = s.mem a := fun a ha => hout a ((h.out a).2 (.inl ha))
  have hdn : ∀ k : Nat, dn F.base k = ad L.low (x1 - 2 * k) := fun k => by
    rw [dn, h.base, ad_ad]; rfl
  have hlen : (vs ++ hwd).length = vs.length + hwd.length := List.length_append
  rw [hlen] at huse hsp
  obtain ⟨m', r, hret⟩ := hw f vs v' mem' pc m (x1 - 2 * (vs.length + hwd.length : Nat)) (by rw [Lay.clean_eq hpub]; exact hc) hpc
    ⟨by rw [hsp, hdn], by omega, fun i w hi => by
      have hi1 : i < vs.length := (List.getElem?_eq_some_iff.1 hi).1
      have := hmem.get i w (by rw [List.getElem?_append_left hi1]; exact hi)
      rw [hdn, hlen] at this
      rw [← this]
      congr 2
      omega⟩ (by omega)
  have hstk : ∀ y : Int, x1 - 2 * hwd.length ≤ y → y < L.size → m'.mem (ad L.low y) = m.mem (ad L.low y) := fun y h1 h2 =>
    hret.stk y (by omega) h2
  refine ⟨m', r, hret.sp, hret.fp, hret.val, ?_, ?_, fun r h1 h2 => by rw [hret.reg r h1 h2, hreg r h1 h2]⟩
  · refine hmem.app.congr fun k h1 hk => ?_
    rw [hdn]
    refine lw_congr (hstk _ (by omega) (by omega)) ?_
    rw [add_one_eq_ad, ad_ad]
    exact hstk _ (by omega) (by omega)
  · intro a ha
    simp only
    rcases (h.out a).1 ha with hp | ⟨y, y1, y2, rfl⟩
    · rw [if_pos hp, hret.pub a hp]
    · have : L.pub (ad L.low y) = false := by
        rw [Lay.pub_ad (by omega) (by omega)]
        simp only [decide_eq_false_iff_not]
        omega
      rw [this, if_neg (by simp), hstk y (by omega) y2]
      exact hout _ ha

/-- One function. -/
theorem fn_works {E : Env} {A : Nat → Word} {L : Lay} {B S X : Nat} {fn : Fn} {t0 tB : T} {c rest : List Line}
    {call : Int → List Word → Mem → Option (Word × Mem)} (hz : L.size < 65535) (hX : 2 ≤ X) (hchk : ChkAt E L X) (hdv : DivOk E)
    (hBX : X ≤ B) (w0 : W t0) (hs0 : t0.stk = []) (hf : FnOk E L S fn (fn.entered t0))
    (hB : emits fn.cnt (fn.body.map .i) (fn.entered t0) = some tB) (hout : tB.out = t0.out ++ fn.entryLines ++ c)
    (hw : Works E A (tB.out ++ (frameOut fn.d ++ [.ret] ++ rest)) L B call)
    {vs : List Word} {v : Word} {mem' : Mem} {pc : Nat} {m : M} {x : Int} (hret : Ret E L call fn vs (L.clean m.mem) v mem')
    (hpc : (tB.out ++ (frameOut fn.d ++ [.ret] ++ rest))[pc]? = some (.call fn.f)) (hrdy : Ready L vs m x) (hx : (S : Int) + B ≤ x) :
    ∃ m', FSteps E A (tB.out ++ (frameOut fn.d ++ [.ret] ++ rest)) ⟨pc, m⟩ ⟨pc + 1, m'⟩ ∧
      Returns L (E.val fn.f) v mem' (x + 2 * vs.length) m m' := by
  obtain ⟨U, hU, hS⟩ := hf.frame
  obtain ⟨hnp, hrun⟩ := hret
  have htop := hrdy.top
  have hs9 : saved fn.d ≤ 9 := by unfold saved; omega
  -- the frame
  let x1 : Int := x - 4 - memLocals fn.d - 2 * saved fn.d
  have hx1 : x1 = x - 4 - memLocals fn.d - 2 * saved fn.d := rfl
  have hx1B : (B : Int) + U ≤ x1 := by omega
  let F : Fr := ⟨ad L.low x1, x1.toNat, ad L.low (x - 4), U⟩
  have hact : Act L F fn x1 (x - 4) := ⟨rfl, by show (x1.toNat : Int) = x1; omega, rfl, rfl, by omega, by omega, hz⟩
  generalize hQ : tB.out ++ (frameOut fn.d ++ [.ret] ++ rest) = Q at *
  have hcode : Code E.mute F fn.cnt fn.keep fn.body (fn.entered t0) tB :=
    ⟨(Fn.entered_w w0 hs0).1, (Fn.entered_w w0 hs0).2, hf.disc, hf.counted, ⟨_, hf.shape⟩, hB, hf.fits, hact.varsOut hf, hU,
      by show U ≤ x1.toNat; omega, hf.vals, by show x1.toNat < 65535; omega⟩
  have hcall : CallR E A Q F (liftCall L call) := callR_of hact hw hx1B
  -- CALL
  have hnam : Q[t0.out.length]? = some (.nam fn.f) := by
    rw [← hQ, hout]
    simp [Fn.entryLines]
  let m0 : M := { m with sp := m.sp - 2, mem := m.mem.sw (m.sp - 2) (A (pc + 1)) }
  have s1 : FSteps E A Q ⟨pc, m⟩ ⟨t0.out.length, m0⟩ := (FStep.call hpc hnam).steps
  have hsp0 : m0.sp = ad L.low (x - 2) := by
    show m.sp - 2 = _
    rw [hrdy.sp, sub_two_eq_ad, ad_ad]; rfl
  have hmem0 : ∀ a, a ≠ ad L.low (x - 2) → a ≠ ad L.low (x - 1) → m0.mem a = m.mem a := by
    intro a h1 h2
    refine Mem.sw_ne _ _ ?_ ?_
    · rw [show m.sp - 2 = ad L.low (x - 2) from hsp0]; exact h1
    · rw [show m.sp - 2 = ad L.low (x - 2) from hsp0, add_one_eq_ad, ad_ad, show x - 2 + 1 = x - 1 by omega]; exact h2
  have hra : m0.mem.lw (ad L.low (x - 2)) = A (pc + 1) := by
    rw [← hsp0]; exact Mem.lw_sw_same _ _ _
  -- entry
  obtain ⟨m1, r1, hfp1, hg1, hsp1, hmem1⟩ := frameIn_mem (E := E) fn.d (by omega) m0
  have hsp1 : m1.sp = ad L.low x1 := by
    rw [hsp1, hsp0, ad_ad]; congr 1; omega
  have hfp1 : m1.fp = ad L.low (x - 4) := by
    rw [hfp1, hsp0, ad_ad]; congr 1; omega
  have hchk1 : ∃ m1', Runs E (if fn.ker then [] else [.stkChk]) m1 m1' ∧ m1'.sp = m1.sp ∧ m1'.fp = m1.fp ∧
      (∀ r, r ≠ 0 → m1'.g r = m1.g r) ∧ ∀ a, a ≠ m1.sp - 1 → a ≠ m1.sp - 2 → m1'.mem a = m1.mem a := by
    cases fn.ker with
    | true => exact ⟨m1, Runs.nil E m1, rfl, rfl, fun _ _ => rfl, fun _ _ _ => rfl⟩
    | false =>
      obtain ⟨m1', k, k1, k2, k3, k4⟩ := hchk m1 x1 hsp1 (by omega) (by omega)
      exact ⟨m1', Runs.one k, k1, k2, k3, k4⟩
  obtain ⟨m1', r1', k1, k2, k3, k4⟩ := hchk1
  rw [hsp1, sub_one_eq_ad, sub_two_eq_ad, ad_ad, ad_ad] at k4
  have r2 : Runs E fn.entryLines m0 m1' := by
    have : Runs E ([.nam fn.f] ++ frameIn fn.d ++ if fn.ker then [] else [.stkChk]) m0 m1' :=
      ((Runs.one (l := .nam fn.f) rfl).append r1).append r1'
    exact this
  have hat2 : LAt Q t0.out.length fn.entryLines := by
    rw [← hQ, hout, List.append_assoc _ c]; exact LAt.mid _ _ _
  have hlen2 : (fn.entered t0).out.length = t0.out.length + fn.entryLines.length := by
    rw [fn.entered_out, List.length_append]
  have s2 : FSteps E A Q ⟨t0.out.length, m0⟩ ⟨(fn.entered t0).out.length, m1'⟩ := by
    rw [hlen2]; exact (Runs.steps hat2 r2).plain
  -- what is left alone by the entry
  have keep1 : ∀ y : Int, x1 ≤ y → y < L.size → m1'.mem (ad L.low y) = m1.mem (ad L.low y) := fun y h1 h2 =>
    k4 _ (ad_ne (by omega) (by omega) (by omega)) (ad_ne (by omega) (by omega) (by omega))
  have keep0 : ∀ y : Int, x - 2 ≤ y → y < L.size → m1'.mem (ad L.low y) = m0.mem (ad L.low y) := fun y h1 h2 => by
    rw [keep1 y (by omega) h2]
    refine hmem1 _ fun k k1 k2 => ?_
    rw [hsp0, ad_ad]
    exact ad_ne (by omega) (by omega) (by omega)
  have keep : ∀ y : Int, x ≤ y → y < L.size → m1'.mem (ad L.low y) = m.mem (ad L.low y) := fun y h1 h2 => by
    rw [keep0 y (by omega) h2]
    exact hmem0 _ (ad_ne (by omega) (by omega) (by omega)) (ad_ne (by omega) (by omega) (by omega))
  have keepP : ∀ a, L.pub a = true → m1'.mem a = m.mem a := fun a ha => by
    have ne : ∀ y : Int, 0 ≤ y → y < L.size → a ≠ ad L.low y := fun y h1 h2 => (stk_ne hz ha h1 h2).symm
    rw [k4 _ (ne _ (by omega) (by omega)) (ne _ (by omega) (by omega)), hmem1 _ fun k k1 k2 => ?_,
      hmem0 _ (ne _ (by omega) (by omega)) (ne _ (by omega) (by omega))]
    rw [hsp0, ad_ad]
    exact ne _ (by omega) (by omega)
  -- the body
  let σ0 : Sto := ⟨m1'.mem, m1'.g⟩
  let loc : Int → Word := fun c => if c ≤ 9 then m1'.g (c + 2) else m1'.mem.lw (ad L.low (x - 4 - 2 * (c - 9)))
  obtain ⟨s', rg', hs', hrun⟩ := hrun loc 0
  have hlk : Lk L fn x1 (x - 4) σ0 ⟨L.clean m.mem, loc, fun c => vs.getD c.toNat 0⟩ σ0 := by
    refine ⟨fun a ha => ?_, fun c c1 c2 c3 => ?_, fun c c1 c2 => ?_, fun c c1 c2 => ?_, fun _ _ _ => rfl, fun _ _ _ _ => rfl⟩
    · show m1'.mem a = L.clean m.mem a
      unfold Lay.clean
      rw [if_pos ha]; exact keepP a ha
    · show m1'.g (c + 2) = loc c
      simp only [loc, if_pos c3]
    · show m1'.mem.lw _ = loc c
      simp only [loc, if_neg (show ¬ c ≤ 9 by omega)]
    · show m1'.mem.lw _ = vs.getD c.toNat 0
      have hci : c.toNat < vs.length := by omega
      have := hrdy.arg c.toNat vs[c.toNat] (List.getElem?_eq_getElem hci)
      rw [List.getD_eq_getElem?_getD, List.getElem?_eq_getElem hci, Option.getD_some, ← this]
      have e : x - 4 + 4 + 2 * c = x + 2 * (c.toNat : Int) := by omega
      rw [e]
      refine lw_congr (keep _ (by omega) (by omega)) ?_
      rw [add_one_eq_ad, ad_ad]
      exact keep _ (by omega) (by omega)
  have hag : Agree F σ0 m1' := ⟨by rw [k1, hsp1], by rw [k2, hfp1], fun _ _ => rfl, fun _ _ _ => rfl⟩
  have hsim := hag.sim hcode (rg := 0)
  have hbody : ∃ σ' m2, FSteps E A Q ⟨(fn.entered t0).out.length, m1'⟩ ⟨tB.out.length, m2⟩ ∧ Lk L fn x1 (x - 4) σ0 s' σ' ∧
      Agree F σ' m2 ∧ (E.val fn.f = true → m2.g 0 = v) := by
    rw [← hQ] at hcall ⊢
    by_cases hv : E.val fn.f = true
    · rw [if_pos hv] at hrun
      obtain ⟨pc', hrun, hmr, hidle⟩ := hrun
      obtain ⟨σ', q1, e1, e2, e3⟩ := Lk.sim hact hf hcode hcall hdv hrun hlk hsim
      obtain ⟨q2, e4, e5, e6, -⟩ := full_step hcode hcall hact.keeps hdv e3 (by simp [CfgOk, hmr])
        (.next (d' := ⟨[], [], v, σ'⟩) hmr rfl)
      have hidle' : Idle fn.body (⟨pc' + 1, ⟨[], [], v, σ'⟩⟩ : Cfg Sto) ⟨fn.body.length, ⟨[], [], v, σ'⟩⟩ := by
        generalize ha : (⟨pc' + 1, ⟨[], [], v, s'⟩⟩ : Cfg AS) = a at hidle
        generalize hb : (⟨fn.body.length, ⟨[], [], v, s'⟩⟩ : Cfg AS) = b at hidle
        have gen : ∀ {a b : Cfg AS}, Idle fn.body a b → ∀ d : Data Sto, Idle fn.body (⟨a.pc, d⟩ : Cfg Sto) ⟨b.pc, d⟩ := by
          intro a b hi
          induction hi with
          | refl => intro d; exact .refl
          | lab h _ ih => intro d; exact .lab h (ih d)
          | jmp h h' _ ih => intro d; exact .jmp h h' (ih d)
        have := gen hidle ⟨[], [], v, σ'⟩
        rw [← ha, ← hb] at this
        exact this
      obtain ⟨⟨k, m2⟩, e7, e8, e9⟩ := full_idle hcode hcall hact.keeps hdv hidle' e5
      have hpl := e8.place
      simp only [lineOf, List.take_length, hcode.emits, Option.map_some, Option.some.injEq] at hpl
      subst hpl
      refine ⟨σ', m2, (e1.trans e4).trans e7, e2, e8.agree rfl rfl, fun _ => ?_⟩
      simp only at e9
      rw [e9]
      exact e6 hmr
    · rw [if_neg hv] at hrun
      obtain ⟨σ', ⟨k, m2⟩, e1, e2, e3⟩ := Lk.sim hact hf hcode hcall hdv hrun.1 hlk hsim
      have hpl := e3.place
      simp only [lineOf, List.take_length, hcode.emits, Option.map_some, Option.some.injEq] at hpl
      subst hpl
      exact ⟨σ', m2, e1, e2, e3.agree rfl rfl, fun h => absurd h hv⟩
  obtain ⟨σ', m2, s3, hlk', hag', hval⟩ := hbody
  -- memory of the frame after the body
  have fr : ∀ y : Int, x1 ≤ y → y < L.size →
      (y < x - 4 - memLocals fn.d ∨ (x - 4 ≤ y ∧ y < x - 4 + 4) ∨ x - 4 + 4 + 2 * fn.np ≤ y) → m2.mem (ad L.low y) = m1'.mem (ad L.low y) :=
    fun y h1 h2 h3 => by
      rw [hag'.mem _ ((hact.out _).2 (.inr ⟨y, h1, h2, rfl⟩)), hlk'.frm y h1 h2 h3]
  -- exit
  obtain ⟨m1'', r1'', -, hexit⟩ := frame_run (E := E) fn.d (by omega) m0
  have hdet : m1'' = m1 := by
    unfold Runs at r1 r1''
    rw [r1] at r1''
    injection r1'' with e
    injection e with e
    exact e.symm
  subst hdet
  obtain ⟨m3, r3, hres, hm3, -, -, hg3⟩ := hexit m2 (by
    refine ⟨by rw [hag'.sp, hsp1], by rw [hag'.fp, hfp1], fun i hi => ?_, ?_, fun r h1 h2 => ?_⟩
    · rw [hsp1, add_eq_ad, ad_ad]
      refine lw_congr ?_ ?_
      · rw [fr _ (by omega) (by omega) (.inl (by omega)), keep1 _ (by omega) (by omega)]
      · rw [add_one_eq_ad, ad_ad, fr _ (by omega) (by omega) (.inl (by omega)), keep1 _ (by omega) (by omega)]
    · rw [hfp1]
      refine lw_congr ?_ ?_
      · rw [fr _ (by omega) (by omega) (.inr (.inl (by omega))), keep1 _ (by omega) (by omega)]
      · rw [add_one_eq_ad, ad_ad, fr _ (by omega) (by omega) (.inr (.inl (by omega))), keep1 _ (by omega) (by omega)]
    · rw [hag'.reg r (by omega) h2, hlk'.regs r h1 h2]
      exact k3 r (by omega))
  have hat3 : LAt Q tB.out.length (frameOut fn.d ++ [.ret]) := by
    rw [← hQ, ← List.append_assoc]; exact LAt.mid _ _ _
  have hatF : LAt Q tB.out.length (frameOut fn.d) := by
    rw [← hQ, List.append_assoc, ← List.append_assoc]; exact LAt.mid _ _ _
  have s4 : FSteps E A Q ⟨tB.out.length, m2⟩ ⟨tB.out.length + (frameOut fn.d).length, m3⟩ := (Runs.steps hatF r3).plain
  have hretl : Q[tB.out.length + (frameOut fn.d).length]? = some .ret := by
    have := hat3 (frameOut fn.d).length (by simp)
    rw [this]; simp
  have hra3 : m3.mem.lw m3.sp = A (pc + 1) := by
    rw [hres.sp, hsp0, hm3, ← hra]
    refine lw_congr ?_ ?_
    · rw [fr _ (by omega) (by omega) (.inr (.inl (by omega))), keep0 _ (by omega) (by omega)]
    · rw [add_one_eq_ad, ad_ad, fr _ (by omega) (by omega) (.inr (.inl (by omega))), keep0 _ (by omega) (by omega)]
  refine ⟨_, (((s1.trans s2).trans s3).trans s4).trans (FStep.ret hretl hra3 (List.getElem?_eq_some_iff.1 hpc).1).steps, ?_, ?_, fun hv => ?_, fun a ha => ?_,
    fun y y1 y2 => ?_, fun r h1 h2 => ?_⟩
  · show m3.sp + 2 = m.sp
    rw [hres.sp, hsp0, hrdy.sp, add_two_eq_ad, ad_ad]; congr 1; omega
  · exact hres.fp
  · show m3.g 0 = v
    rw [hg3 0 (by omega), hval hv]
  · show m3.mem a = mem' a
    rw [hm3, hag'.mem a ((hact.out a).2 (.inl ha)), hlk'.mem a ha, hs']
  · show m3.mem (ad L.low y) = m.mem (ad L.low y)
    rw [hm3, fr y (by omega) y2 (.inr (.inr (by omega))), keep y (by omega) y2]
  · exact hres.regs r h1 h2

end Cmm.Tac
