import Verif.Tac.Full3
import Mathlib.Tactic.ByContra

/-
One activation of a function: variables and memory of the specification (`AS`) and as they are in the frame (`Sto`).
For Verif/Props/C60.lean.
-/
namespace Cmm.Tac
open Cmm.Tree (World)
open Cmm.Gen (Instr A1 A2 Data Cfg Step Steps Idle)

/-- The next instruction does not access the stack through a reference, and does not divide a negative number by a
power of two with a remainder (C52). -/
def AOk (L : Lay) (P : List Instr) (c : Cfg AS) : Prop :=
  match P[c.pc]?, c.d.stk with
  | some .ldW, y :: x :: _ | some .stW, y :: x :: _ => L.pubW (x + 2 * y)
  | some .ldB, y :: x :: _ | some .stB, y :: x :: _ => L.pub (x + y) = true
  | some (.a2 .DIV), y :: x :: _ | some (.a2 .MOD), y :: x :: _ =>
    (∃ k : Nat, y.toInt = 2 ^ k) → 0 ≤ x.toInt ∨ y.toInt ∣ x.toInt
  | _, _ => True

theorem okDiv_of {x y : Word} (h : okDiv x y = true) : (∃ k : Nat, y.toInt = 2 ^ k) → 0 ≤ x.toInt ∨ y.toInt ∣ x.toInt := by
  rintro ⟨k, hk⟩
  have hb : y.toInt < 32768 := by have := BitVec.toInt_lt (x := y); simpa using this
  have hk15 : k < 15 := by
    by_contra hn
    have : (2 : Int) ^ 15 ≤ 2 ^ k := by
      exact_mod_cast Nat.pow_le_pow_right (by omega : 0 < 2) (by omega : 15 ≤ k)
    omega
  unfold okDiv at h
  rw [List.all_eq_true] at h
  have := h k (List.mem_range.2 hk15)
  simp only [Bool.or_eq_true, decide_eq_true_eq] at this
  rcases this with (h1 | h1) | h1
  · exact absurd hk h1
  · exact .inl h1
  · exact .inr h1

theorem aok_of_step {E : Env} {L : Lay} {cnt : Int → Int} {call : Int → List Word → Mem → Option (Word × Mem)} {P : List Instr}
    {a b : Cfg AS} (h : Step (aworld E L cnt call) P a b) : AOk L P a := by
  cases h with
  | @next pc d i d' hi hr =>
    obtain ⟨st, ar, rg, s⟩ := d
    unfold AOk
    rw [hi]
    cases i with
    | ldW =>
      rcases st with _ | ⟨y, _ | ⟨x, st⟩⟩ <;> try trivial
      simp only [Gen.run] at hr
      split at hr
      · rename_i h; simpa [aworld, Lay.pubW] using h
      · cases hr
    | ldB =>
      rcases st with _ | ⟨y, _ | ⟨x, st⟩⟩ <;> try trivial
      simp only [Gen.run] at hr
      split at hr
      · rename_i h; exact h
      · cases hr
    | stW =>
      rcases st with _ | ⟨y, _ | ⟨x, _ | ⟨v, st⟩⟩⟩ <;> try trivial
      · simp only [Gen.run] at hr
        split at hr
        · rename_i h; simpa [aworld, Lay.pubW] using h
        · cases hr
    | stB =>
      rcases st with _ | ⟨y, _ | ⟨x, _ | ⟨v, st⟩⟩⟩ <;> try trivial
      · simp only [Gen.run] at hr
        split at hr
        · rename_i h; exact h
        · cases hr
    | a2 o =>
      rcases st with _ | ⟨y, _ | ⟨x, st⟩⟩ <;> try (cases o <;> trivial)
      simp only [Gen.run] at hr
      split at hr
      · rename_i h
        cases o <;> first | trivial | exact okDiv_of h
      · cases hr
    | _ => trivial
  | jmp h _ => unfold AOk; rw [h]; trivial
  | jtT h _ _ => unfold AOk; rw [h]; trivial
  | jtF h _ => unfold AOk; rw [h]; trivial
  | jfT h _ => unfold AOk; rw [h]; trivial
  | jfF h _ _ => unfold AOk; rw [h]; trivial

/-- The frame `F` of an activation of `fn`: SP is at offset `x1`, FP at offset `xf` of the stack. -/
structure Act (L : Lay) (F : Fr) (fn : Fn) (x1 xf : Int) : Prop where
  base : F.base = ad L.low x1
  lim : (F.lim : Int) = x1
  fp : F.fp = ad L.low xf
  geo : x1 = xf - memLocals fn.d - 2 * saved fn.d
  top : xf + 4 + 2 * fn.np ≤ L.size
  nn : 0 ≤ x1
  size : L.size < 65535

/-- `σ` is how `s` looks like in the frame; `σ0` is the beginning of the activation. -/
structure Lk (L : Lay) (fn : Fn) (x1 xf : Int) (σ0 : Sto) (s : AS) (σ : Sto) : Prop where
  mem : ∀ a, L.pub a = true → σ.mem a = s.mem a
  locR : ∀ c : Int, 1 ≤ c → c ≤ fn.d → c ≤ 9 → σ.reg (c + 2) = s.loc c
  locM : ∀ c : Int, c ≤ fn.d → 9 < c → σ.mem.lw (ad L.low (xf - 2 * (c - 9))) = s.loc c
  prm : ∀ c : Int, 0 ≤ c → c < fn.np → σ.mem.lw (ad L.low (xf + 4 + 2 * c)) = s.prm c
  regs : ∀ r : Int, saved fn.d + 3 ≤ r → r ≤ 11 → σ.reg r = σ0.reg r
  frm : ∀ y : Int, x1 ≤ y → y < L.size → (y < xf - memLocals fn.d ∨ (xf ≤ y ∧ y < xf + 4) ∨ xf + 4 + 2 * fn.np ≤ y) →
    σ.mem (ad L.low y) = σ0.mem (ad L.low y)

/-- Called functions change the memory outside of the stack only. -/
def liftCall (L : Lay) (call : Int → List Word → Mem → Option (Word × Mem)) (f : Int) (vs : List Word) (σ : Sto) :
    Option (Word × Sto) :=
  (call f vs (L.clean σ.mem)).map fun r => (r.1, ⟨fun a => if L.pub a then r.2 a else σ.mem a, σ.reg⟩)

section
variable {E : Env} {L : Lay} {F : Fr} {fn : Fn} {x1 xf : Int} {σ0 σ : Sto} {s : AS}
  {call : Int → List Word → Mem → Option (Word × Mem)}

theorem Act.locA (h : Act L F fn x1 xf) (c : Int) : locA F c = ad L.low (xf - 2 * (c - 9)) := by
  show ad F.fp _ = _
  rw [h.fp, ad_ad]; congr 1; omega

theorem Act.prmA (h : Act L F fn x1 xf) (c : Int) : prmA F c = ad L.low (xf + 4 + 2 * c) := by
  show ad F.fp _ = _
  rw [h.fp, ad_ad]; congr 1; omega

theorem Act.out (h : Act L F fn x1 xf) (a : Word) :
    Out F a ↔ L.pub a = true ∨ ∃ y : Int, x1 ≤ y ∧ y < L.size ∧ a = ad L.low y :=
  out_iff h.base h.lim h.nn (by have := h.geo; have := h.top; omega) h.size a

theorem Act.outW_pub (h : Act L F fn x1 xf) {a : Word} (ha : L.pubW a) : OutW F a :=
  ⟨(h.out a).2 (.inl ha.1), (h.out _).2 (.inl ha.2)⟩

theorem Act.outW_stk (h : Act L F fn x1 xf) {y : Int} (h1 : x1 ≤ y) (h2 : y + 1 < L.size) : OutW F (ad L.low y) :=
  ⟨(h.out _).2 (.inr ⟨y, h1, by omega, rfl⟩), (h.out _).2 (.inr ⟨y + 1, by omega, h2, by rw [add_one_eq_ad, ad_ad]⟩)⟩

theorem memLocals_of {d : Nat} {c : Int} (h : 9 < c) (hd : c ≤ d) : (memLocals d : Int) = 2 * (d - 9) ∧ saved d = 9 := by
  unfold memLocals saved; omega

/-- The local variables in memory are in the frame. -/
theorem Act.locOut (h : Act L F fn x1 xf) {c : Int} (h9 : 9 < c) (hd : c ≤ fn.d) : OutW F (Tac.locA F c) := by
  rw [h.locA]
  have := memLocals_of h9 hd
  have := h.geo
  have := h.top
  exact h.outW_stk (by omega) (by omega)

theorem Act.prmOut (h : Act L F fn x1 xf) {c : Int} (h0 : 0 ≤ c) (hp : c < fn.np) : OutW F (Tac.prmA F c) := by
  rw [h.prmA]
  have := h.geo
  have := h.top
  exact h.outW_stk (by omega) (by omega)

theorem Act.varsOut {S : Nat} {t : T} (h : Act L F fn x1 xf) (hf : FnOk E L S fn t) : VarsOut E.mute F fn.cnt fn.body :=
  ⟨fun n hn => h.outW_pub (hf.glb n hn), fun n hn h9 => h.locOut h9 (hf.loc n hn).2,
    fun n hn => h.prmOut (hf.prm n hn).1 (hf.prm n hn).2⟩

theorem Act.keeps (h : Act L F fn x1 xf) : Keeps F fn.keep (liftCall L call) := by
  intro f vs s v s' hc
  simp only [liftCall, Option.map_eq_some_iff] at hc
  obtain ⟨r, -, hr⟩ := hc
  cases hr
  refine ⟨fun _ _ _ => rfl, fun k hk => ?_⟩
  simp only [Fn.keep, Bool.and_eq_true, decide_eq_true_eq] at hk
  have g1 := h.geo
  have g2 := h.top
  have g3 := h.nn
  have g4 := h.size
  have : L.pub (F.fp + BitVec.ofInt 16 k) = false := by
    rw [h.fp]
    show L.pub (ad (ad L.low xf) k) = false
    rw [ad_ad, Lay.pub_ad (by omega) (by omega)]
    simp only [decide_eq_false_iff_not]
    omega
  show (if L.pub _ = true then _ else _) = _
  rw [this]
  simp

/-- The safety of the specification is that of C59. -/
theorem Act.cfgOk (h : Act L F fn x1 xf) {P : List Instr} {pc : Nat} {st ar : List Word} {rg : Word}
    (ha : AOk L P ⟨pc, ⟨st, ar, rg, s⟩⟩) : CfgOk F P ⟨pc, ⟨st, ar, rg, σ⟩⟩ := by
  unfold AOk at ha
  unfold CfgOk
  simp only at ha ⊢
  cases hP : P[pc]? with
  | none => trivial
  | some i =>
    rw [hP] at ha
    rcases st with _ | ⟨y, _ | ⟨x, st⟩⟩
    · cases i <;> first | trivial | (rename_i o; cases o <;> trivial)
    · cases i <;> first | trivial | (rename_i o; cases o <;> trivial)
    · cases i with
      | ldW => exact h.outW_pub ha
      | stW => exact h.outW_pub ha
      | ldB => exact (h.out _).2 (.inl ha)
      | stB => exact (h.out _).2 (.inl ha)
      | a2 o => cases o <;> trivial
      | _ => trivial

theorem stk_ne {a : Word} {y : Int} (hz : L.size < 65535) (ha : L.pub a = true) (h0 : 0 ≤ y) (h1 : y < L.size) : ad L.low y ≠ a := by
  rintro rfl
  rw [Lay.pub_ad h0 (by omega)] at ha
  simp only [decide_eq_true_eq] at ha
  omega

/-- Writing outside of the stack. -/
theorem Lk.pubMem (h : Act L F fn x1 xf) (hk : Lk L fn x1 xf σ0 s σ) {m m' : Mem} (hp : ∀ a, L.pub a = true → m' a = m a)
    (hs : ∀ y : Int, 0 ≤ y → y < L.size → m' (ad L.low y) = σ.mem (ad L.low y)) :
    Lk L fn x1 xf σ0 { s with mem := m } { σ with mem := m' } := by
  have g1 := h.geo
  have g2 := h.top
  have g3 := h.nn
  have lw : ∀ y : Int, 0 ≤ y → y + 1 < L.size → m'.lw (ad L.low y) = σ.mem.lw (ad L.low y) := fun y h0 h1 =>
    lw_congr (hs y h0 (by omega)) (by rw [add_one_eq_ad, ad_ad]; exact hs _ (by omega) h1)
  refine ⟨hp, hk.locR, fun c hc h9 => ?_, fun c hc hn => ?_, hk.regs, fun y h1 h2 h3 => ?_⟩
  · have := memLocals_of h9 hc
    rw [← hk.locM c hc h9]
    exact lw _ (by omega) (by omega)
  · rw [← hk.prm c hc hn]
    exact lw _ (by omega) (by omega)
  · rw [← hk.frm y h1 h2 h3]
    exact hs y (by omega) h2

theorem Lk.sw (h : Act L F fn x1 xf) (hk : Lk L fn x1 xf σ0 s σ) {a v : Word} (ha : L.pubW a) :
    Lk L fn x1 xf σ0 { s with mem := s.mem.sw a v } { σ with mem := σ.mem.sw a v } := by
  refine hk.pubMem h (fun b hb => ?_) fun y h0 h1 => ?_
  · have := hk.mem b hb
    show Mem.sw _ _ _ b = Mem.sw _ _ _ b
    unfold Mem.sw Mem.set
    split
    · rfl
    · split
      · rfl
      · exact this
  · exact Mem.sw_ne _ _ (stk_ne h.size ha.1 h0 h1) (stk_ne h.size ha.2 h0 h1)

theorem Lk.set (h : Act L F fn x1 xf) (hk : Lk L fn x1 xf σ0 s σ) {a : Word} {v : Byte} (ha : L.pub a = true) :
    Lk L fn x1 xf σ0 { s with mem := s.mem.set a v } { σ with mem := σ.mem.set a v } := by
  refine hk.pubMem h (fun b hb => ?_) fun y h0 h1 => ?_
  · have := hk.mem b hb
    show Mem.set _ _ _ b = Mem.set _ _ _ b
    unfold Mem.set
    split
    · rfl
    · exact this
  · exact Mem.set_ne _ _ (stk_ne h.size ha h0 h1)

theorem Lk.lw (hk : Lk L fn x1 xf σ0 s σ) {a : Word} (ha : L.pubW a) : σ.mem.lw a = s.mem.lw a :=
  lw_congr (hk.mem _ ha.1) (hk.mem _ ha.2)

/-- A local variable in a register. -/
theorem Lk.stR (hk : Lk L fn x1 xf σ0 s σ) {c : Int} {v : Word} (h1 : 1 ≤ c) (hd : c ≤ fn.d) (h9 : c ≤ 9) :
    Lk L fn x1 xf σ0 { s with loc := setR s.loc c v } { σ with reg := setR σ.reg (c + 2) v } := by
  refine ⟨hk.mem, fun c' k1 k2 k3 => ?_, fun c' k2 k3 => ?_, hk.prm, fun r r1 r2 => ?_, hk.frm⟩
  · show setR σ.reg (c + 2) v (c' + 2) = setR s.loc c v c'
    unfold setR
    by_cases e : c' = c
    · rw [if_pos (by omega), if_pos e]
    · rw [if_neg (by omega), if_neg e]; exact hk.locR c' k1 k2 k3
  · show _ = setR s.loc c v c'
    unfold setR
    rw [if_neg (by omega)]; exact hk.locM c' k2 k3
  · show setR σ.reg (c + 2) v r = _
    unfold setR
    have : c ≤ saved fn.d := by unfold saved; omega
    rw [if_neg (by omega)]; exact hk.regs r r1 r2

/-- Writing a word of the frame. -/
theorem sw_at {mem : Mem} {v : Word} {y0 y : Int} (hz : L.size < 65535) (h1 : 0 ≤ y0) (h2 : y0 + 1 < L.size) (h3 : 0 ≤ y)
    (h4 : y < L.size) (h5 : y ≠ y0) (h6 : y ≠ y0 + 1) : (mem.sw (ad L.low y0) v) (ad L.low y) = mem (ad L.low y) := by
  refine Mem.sw_ne _ _ (ad_ne h5 (by omega) (by omega)) ?_
  rw [add_one_eq_ad, ad_ad]
  exact ad_ne h6 (by omega) (by omega)

theorem sw_pub {mem : Mem} {a v : Word} {y0 : Int} (hz : L.size < 65535) (h1 : 0 ≤ y0) (h2 : y0 + 1 < L.size) (ha : L.pub a = true) :
    (mem.sw (ad L.low y0) v) a = mem a := by
  refine Mem.sw_ne _ _ (stk_ne hz ha h1 (by omega)).symm ?_
  rw [add_one_eq_ad, ad_ad]
  exact (stk_ne hz ha (by omega) h2).symm

theorem sw_lw {mem : Mem} {v : Word} {y0 y : Int} (hz : L.size < 65535) (h1 : 0 ≤ y0) (h2 : y0 + 1 < L.size) (h3 : 0 ≤ y)
    (h4 : y + 1 < L.size) (h5 : y + 1 < y0 ∨ y0 + 1 < y) : (mem.sw (ad L.low y0) v).lw (ad L.low y) = mem.lw (ad L.low y) :=
  Mem.lw_sw_ne _ _ (ad_apart h5 (by omega) (by omega))

theorem Lk.stM (h : Act L F fn x1 xf) (hk : Lk L fn x1 xf σ0 s σ) {c : Int} {v : Word} (hd : c ≤ fn.d) (h9 : 9 < c) :
    Lk L fn x1 xf σ0 { s with loc := setR s.loc c v } { σ with mem := σ.mem.sw (ad L.low (xf - 2 * (c - 9))) v } := by
  have g1 := h.geo
  have g2 := h.top
  have g3 := h.nn
  have hm := memLocals_of h9 hd
  refine ⟨fun a ha => ?_, fun c' k1 k2 k3 => ?_, fun c' k2 k3 => ?_, fun c' k1 k2 => ?_, hk.regs, fun y y1 y2 y3 => ?_⟩
  · exact (sw_pub h.size (by omega) (by omega) ha).trans (hk.mem a ha)
  · show σ.reg (c' + 2) = setR s.loc c v c'
    unfold setR
    rw [if_neg (by omega)]; exact hk.locR c' k1 k2 k3
  · show _ = setR s.loc c v c'
    unfold setR
    by_cases e : c' = c
    · rw [if_pos e, e]; exact Mem.lw_sw_same _ _ _
    · rw [if_neg e, sw_lw h.size (by omega) (by omega) (by omega) (by omega) (by omega)]; exact hk.locM c' k2 k3
  · rw [sw_lw h.size (by omega) (by omega) (by omega) (by omega) (by omega)]; exact hk.prm c' k1 k2
  · exact (sw_at h.size (by omega) (by omega) (by omega) (by omega) (by omega) (by omega)).trans (hk.frm y y1 y2 y3)

theorem Lk.stP (h : Act L F fn x1 xf) (hk : Lk L fn x1 xf σ0 s σ) {c : Int} {v : Word} (h0 : 0 ≤ c) (hp : c < fn.np) :
    Lk L fn x1 xf σ0 { s with prm := setR s.prm c v } { σ with mem := σ.mem.sw (ad L.low (xf + 4 + 2 * c)) v } := by
  have g1 := h.geo
  have g2 := h.top
  have g3 := h.nn
  refine ⟨fun a ha => ?_, hk.locR, fun c' k2 k3 => ?_, fun c' k1 k2 => ?_, hk.regs, fun y y1 y2 y3 => ?_⟩
  · exact (sw_pub h.size (by omega) (by omega) ha).trans (hk.mem a ha)
  · have hm := memLocals_of k3 k2
    rw [sw_lw h.size (by omega) (by omega) (by omega) (by omega) (by omega)]; exact hk.locM c' k2 k3
  · show _ = setR s.prm c v c'
    unfold setR
    by_cases e : c' = c
    · rw [if_pos e, e]; exact Mem.lw_sw_same _ _ _
    · rw [if_neg e, sw_lw h.size (by omega) (by omega) (by omega) (by omega) (by omega)]; exact hk.prm c' k1 k2
  · exact (sw_at h.size (by omega) (by omega) (by omega) (by omega) (by omega) (by omega)).trans (hk.frm y y1 y2 y3)

/-- A call. -/
theorem Lk.fcall (h : Act L F fn x1 xf) (hk : Lk L fn x1 xf σ0 s σ) {f : Int} {vs : List Word} {v : Word} {mem' : Mem}
    (hc : call f vs (L.clean s.mem) = some (v, mem')) :
    ∃ σ', liftCall L call f vs σ = some (v, σ') ∧ Lk L fn x1 xf σ0 { s with mem := mem' } σ' := by
  refine ⟨_, by rw [liftCall, Lay.clean_eq hk.mem, hc]; rfl, hk.pubMem h (fun a ha => ?_) fun y h0 h1 => ?_⟩
  · simp only
    rw [if_pos ha]
  · have : L.pub (ad L.low y) = false := by
      rw [Lay.pub_ad h0 (by have := h.size; omega)]
      simp only [decide_eq_false_iff_not]
      omega
    simp only
    rw [this]
    simp

theorem ite_some {α : Type} {b : Bool} {x y : α} (h : (if b = true then some x else none) = some y) : y = x := by
  split at h
  · exact (Option.some.inj h).symm
  · cases h

/-- One instruction. -/
theorem Lk.run {S : Nat} {t : T} {i : Instr} {pc : Nat} {st ar : List Word} {rg : Word} {d' : Data AS} (h : Act L F fn x1 xf)
    (hf : FnOk E L S fn t) (hk : Lk L fn x1 xf σ0 s σ) (hi : fn.body[pc]? = some i)
    (ha : AOk L fn.body ⟨pc, ⟨st, ar, rg, s⟩⟩) (hr : Gen.run (aworld E L fn.cnt call) i ⟨st, ar, rg, s⟩ = some d') :
    ∃ σ', Gen.run (world E.mute F fn.cnt (liftCall L call)) i ⟨st, ar, rg, σ⟩ = some ⟨d'.stk, d'.args, d'.reg, σ'⟩ ∧
      Lk L fn x1 xf σ0 d'.s σ' := by
  have hm : i ∈ fn.body := List.mem_of_getElem? hi
  unfold AOk at ha
  rw [hi] at ha
  cases i with
  | ldG n =>
    cases hr
    refine ⟨σ, ?_, hk⟩
    show some (⟨σ.mem.lw (E.adr n) :: st, ar, rg, σ⟩ : Data Sto) = some ⟨s.mem.lw (E.adr n) :: st, ar, rg, σ⟩
    rw [hk.lw (hf.glb n (.inl hm))]
  | ldL n =>
    cases hr
    refine ⟨σ, ?_, hk⟩
    obtain ⟨h1, h2⟩ := hf.loc n (.inl hm)
    show some (⟨(if fn.cnt n ≤ 9 then σ.reg (fn.cnt n + 2) else σ.mem.lw (Tac.locA F (fn.cnt n))) :: st, ar, rg, σ⟩ : Data Sto) =
      some ⟨s.loc (fn.cnt n) :: st, ar, rg, σ⟩
    by_cases h9 : fn.cnt n ≤ 9
    · rw [if_pos h9, hk.locR _ h1 h2 h9]
    · rw [if_neg h9, h.locA, hk.locM _ h2 (by omega)]
  | ldP n =>
    cases hr
    refine ⟨σ, ?_, hk⟩
    obtain ⟨h1, h2⟩ := hf.prm n (.inl hm)
    show some (⟨σ.mem.lw (Tac.prmA F (fn.cnt n)) :: st, ar, rg, σ⟩ : Data Sto) = some ⟨s.prm (fn.cnt n) :: st, ar, rg, σ⟩
    rw [h.prmA, hk.prm _ h1 h2]
  | ldW =>
    rcases st with _ | ⟨y, _ | ⟨x, st⟩⟩
    · cases hr
    · cases hr
    simp only [Gen.run] at hr
    rw [ite_some hr]
    refine ⟨σ, ?_, hk⟩
    show some (⟨σ.mem.lw (x + 2 * y) :: st, ar, rg, σ⟩ : Data Sto) = some ⟨s.mem.lw (x + 2 * y) :: st, ar, rg, σ⟩
    rw [hk.lw ha]
  | ldB =>
    rcases st with _ | ⟨y, _ | ⟨x, st⟩⟩
    · cases hr
    · cases hr
    simp only [Gen.run] at hr
    rw [ite_some hr]
    refine ⟨σ, ?_, hk⟩
    show some (⟨(σ.mem (x + y)).setWidth 16 :: st, ar, rg, σ⟩ : Data Sto) = some ⟨(s.mem (x + y)).setWidth 16 :: st, ar, rg, σ⟩
    rw [hk.mem _ ha]
  | stG n =>
    rcases st with _ | ⟨v, st⟩ <;> try cases hr
    exact ⟨_, rfl, hk.sw h (hf.glb n (.inr hm))⟩
  | stL n =>
    rcases st with _ | ⟨v, st⟩ <;> try cases hr
    obtain ⟨h1, h2⟩ := hf.loc n (.inr hm)
    refine ⟨_, rfl, ?_⟩
    show Lk L fn x1 xf σ0 { s with loc := setR s.loc (fn.cnt n) v } (if fn.cnt n ≤ 9 then _ else _)
    by_cases h9 : fn.cnt n ≤ 9
    · rw [if_pos h9]; exact hk.stR h1 h2 h9
    · rw [if_neg h9, h.locA]; exact hk.stM h h2 (by omega)
  | stP n =>
    rcases st with _ | ⟨v, st⟩ <;> try cases hr
    obtain ⟨h1, h2⟩ := hf.prm n (.inr hm)
    refine ⟨_, rfl, ?_⟩
    show Lk L fn x1 xf σ0 { s with prm := setR s.prm (fn.cnt n) v } { σ with mem := σ.mem.sw (Tac.prmA F (fn.cnt n)) v }
    rw [h.prmA]; exact hk.stP h h1 h2
  | stW =>
    rcases st with _ | ⟨y, _ | ⟨x, _ | ⟨v, st⟩⟩⟩
    · cases hr
    · cases hr
    · cases hr
    simp only [Gen.run] at hr
    rw [ite_some hr]
    exact ⟨_, rfl, hk.sw h ha⟩
  | stB =>
    rcases st with _ | ⟨y, _ | ⟨x, _ | ⟨v, st⟩⟩⟩
    · cases hr
    · cases hr
    · cases hr
    simp only [Gen.run] at hr
    rw [ite_some hr]
    exact ⟨_, rfl, hk.set h ha⟩
  | callF n f =>
    cases hc : call f (ar.take n) (L.clean s.mem) with
    | none =>
      simp only [Gen.run, aworld, hc, Option.map_none] at hr
      cases hr
    | some r =>
      obtain ⟨v, mem'⟩ := r
      simp only [Gen.run, aworld, hc, Option.map_some] at hr
      obtain ⟨σ', h1, h2⟩ := hk.fcall h hc
      cases hr
      refine ⟨σ', ?_, h2⟩
      simp only [Gen.run, world, h1]
  | callP n f =>
    cases hc : call f (ar.take n) (L.clean s.mem) with
    | none =>
      simp only [Gen.run, aworld, hc, Option.map_none] at hr
      cases hr
    | some r =>
      obtain ⟨v, mem'⟩ := r
      simp only [Gen.run, aworld, hc, Option.map_some] at hr
      obtain ⟨σ', h1, h2⟩ := hk.fcall h hc
      cases hr
      refine ⟨σ', ?_, h2⟩
      simp only [Gen.run, world, h1]
  | a1 o => rcases st with _ | ⟨v, st⟩ <;> cases hr; exact ⟨σ, rfl, hk⟩
  | a2 o =>
    rcases st with _ | ⟨y, _ | ⟨x, st⟩⟩
    · cases hr
    · cases hr
    simp only [Gen.run] at hr
    rw [ite_some hr]
    refine ⟨σ, ?_, hk⟩
    cases o <;> rfl
  | pop => rcases st with _ | ⟨v, st⟩ <;> cases hr; exact ⟨σ, rfl, hk⟩
  | arg => rcases st with _ | ⟨v, st⟩ <;> cases hr; exact ⟨σ, rfl, hk⟩
  | mreg => rcases st with _ | ⟨v, st⟩ <;> cases hr; exact ⟨σ, rfl, hk⟩
  | lab n => cases hr; exact ⟨σ, rfl, hk⟩
  | ldC n => cases hr; exact ⟨σ, rfl, hk⟩
  | ldLab n => cases hr; exact ⟨σ, rfl, hk⟩
  | ldNam n => cases hr; exact ⟨σ, rfl, hk⟩
  | jmp n => cases hr
  | jt n => cases hr
  | jf n => cases hr
  | nam f => cases hr
  | entry d => cases hr
  | entryK d => cases hr
  | entryI d => cases hr
  | ret => cases hr
  | retI => cases hr
  | bug => cases hr

/-- One step. -/
theorem Lk.step {S : Nat} {t : T} {c c' : Cfg AS} (h : Act L F fn x1 xf) (hf : FnOk E L S fn t) (hk : Lk L fn x1 xf σ0 c.d.s σ)
    (hr : Step (aworld E L fn.cnt call) fn.body c c') :
    ∃ σ', Step (world E.mute F fn.cnt (liftCall L call)) fn.body ⟨c.pc, ⟨c.d.stk, c.d.args, c.d.reg, σ⟩⟩
      ⟨c'.pc, ⟨c'.d.stk, c'.d.args, c'.d.reg, σ'⟩⟩ ∧ Lk L fn x1 xf σ0 c'.d.s σ' := by
  have ha := aok_of_step hr
  cases hr with
  | @next pc d i d' hi hrun =>
    obtain ⟨st, ar, rg, s⟩ := d
    obtain ⟨σ', h1, h2⟩ := hk.run h hf hi ha hrun
    exact ⟨σ', .next hi h1, h2⟩
  | jmp hi hj => exact ⟨σ, .jmp hi hj, hk⟩
  | jtT hi hj hv => exact ⟨σ, .jtT hi hj hv, hk⟩
  | jtF hi hv => exact ⟨σ, .jtF hi hv, hk⟩
  | jfT hi hv => exact ⟨σ, .jfT hi hv, hk⟩
  | jfF hi hj hv => exact ⟨σ, .jfF hi hj hv, hk⟩

/-- A run of the specification is followed by the lines. -/
theorem Lk.sim {S : Nat} {t tE : T} {A : Nat → Word} {rest : List Line} (h : Act L F fn x1 xf) (hf : FnOk E L S fn t)
    (hcode : Code E.mute F fn.cnt fn.keep fn.body t tE) (hc : CallR E A (tE.out ++ rest) F (liftCall L call)) (hdv : DivOk E)
    {c c' : Cfg AS} (hr : Steps (aworld E L fn.cnt call) fn.body c c') : ∀ {σ : Sto} {q : TC}, Lk L fn x1 xf σ0 c.d.s σ →
    Sim E.mute F fn.cnt fn.body t ⟨c.pc, ⟨c.d.stk, c.d.args, c.d.reg, σ⟩⟩ q →
    ∃ σ' q', FSteps E A (tE.out ++ rest) q q' ∧ Lk L fn x1 xf σ0 c'.d.s σ' ∧
      Sim E.mute F fn.cnt fn.body t ⟨c'.pc, ⟨c'.d.stk, c'.d.args, c'.d.reg, σ'⟩⟩ q' := by
  induction hr with
  | refl => intro σ q hk hs; exact ⟨σ, q, .refl, hk, hs⟩
  | @head a b c h1 _ ih =>
    intro σ q hk hs
    obtain ⟨σ1, k1, k2⟩ := hk.step h hf h1
    obtain ⟨q1, r1, s1, -⟩ := full_step hcode hc h.keeps hdv hs (h.cfgOk (aok_of_step h1)) k1
    obtain ⟨σ2, q2, r2, k3, s2⟩ := ih k2 s1
    exact ⟨σ2, q2, r1.trans r2, k3, s2⟩

end

end Cmm.Tac
