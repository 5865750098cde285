import Verif.Tac.Full

/-
Lemmas for Verif/Props/C60.lean.
-/
namespace Cmm.Tac
open Cmm.Tree (World)
open Cmm.Gen (Instr A1 A2 Data Cfg Step Steps Idle)

/-! ### Runs -/

theorem FSteps.trans {E : Env} {A : Nat → Word} {Q : List Line} {a b c : TC} (h : FSteps E A Q a b) (h' : FSteps E A Q b c) :
    FSteps E A Q a c := by
  induction h with
  | refl => exact h'
  | head h1 _ ih => exact .head h1 (ih h')

theorem FStep.steps {E : Env} {A : Nat → Word} {Q : List Line} {a b : TC} (h : FStep E A Q a b) : FSteps E A Q a b := .head h .refl

/-- The environment without functions: lines that run in it are no calls. -/
def Env.mute (E : Env) : Env := { E with fn := fun _ _ => none }

theorem line_mute {E : Env} {m m' : M} {l : Line} (h : m.line E.mute l = some m') : m.line E l = some m' := by
  cases l with
  | call f => cases h
  | st r d => cases d <;> exact h
  | _ => exact h

theorem getElem_prefix {Q c : List Line} {i : Nat} {l : Line} (h : Q[i]? = some l) : (Q ++ c)[i]? = some l := by
  rw [List.getElem?_append_left (List.getElem?_eq_some_iff.1 h).1]; exact h

/-- More lines behind. -/
theorem TStep.mute {E : Env} {Q c : List Line} {a b : TC} (h : TStep E.mute Q a b) : TStep E (Q ++ c) a b := by
  cases h with
  | line h1 h2 => exact .line (getElem_prefix h1) (line_mute h2)
  | lab h1 => exact .lab (getElem_prefix h1)
  | jmp h1 h2 => exact .jmp (getElem_prefix h1) (getElem_prefix h2)
  | jccT h1 hh h2 => exact .jccT (getElem_prefix h1) hh (getElem_prefix h2)
  | jccF h1 hh => exact .jccF (getElem_prefix h1) hh

theorem TSteps.full {E : Env} {A : Nat → Word} {Q c : List Line} {a b : TC} (h : TSteps E.mute Q a b) : FSteps E A (Q ++ c) a b := by
  induction h with
  | refl => exact .refl
  | head h1 _ ih => exact .head (.plain h1.mute) ih

/-! ### The stack -/

theorem Lay.pub_ad {L : Lay} {y : Int} (h0 : 0 ≤ y) (h1 : y < 65536) : L.pub (ad L.low y) = decide ((L.size : Int) ≤ y) := by
  unfold Lay.pub ad
  rw [BitVec.add_comm, BitVec.add_sub_cancel, BitVec.toNat_ofInt]
  congr 1
  apply propext
  omega

theorem ad_of (L : Lay) (a : Word) : a = ad L.low ((a - L.low).toNat : Int) := by
  rw [← add_eq_ad, BitVec.ofNat_toNat, BitVec.setWidth_eq, BitVec.add_comm, BitVec.sub_add_cancel]

theorem Lay.pub_false {L : Lay} {a : Word} (h : L.pub a = false) : ∃ y : Int, 0 ≤ y ∧ y < L.size ∧ a = ad L.low y := by
  unfold Lay.pub at h
  simp only [decide_eq_false_iff_not, Nat.not_le] at h
  exact ⟨_, by omega, by omega, ad_of L a⟩

theorem Lay.clean_eq {L : Lay} {m m' : Mem} (h : ∀ a, L.pub a = true → m a = m' a) : L.clean m = L.clean m' := by
  funext a
  unfold Lay.clean
  by_cases hp : L.pub a = true
  · rw [if_pos hp, if_pos hp, h a hp]
  · rw [if_neg hp, if_neg hp]

/-- Addresses below `base` that the hardware stack uses. -/
theorem out_iff {L : Lay} {F : Fr} {x : Int} (hb : F.base = ad L.low x) (hl : F.lim = x) (hx : 0 ≤ x) (hs : x ≤ L.size) (hz : L.size < 65535) (a : Word) :
    Out F a ↔ L.pub a = true ∨ ∃ y, x ≤ y ∧ y < L.size ∧ a = ad L.low y := by
  constructor
  · intro h
    by_cases hp : L.pub a = true
    · exact .inl hp
    · obtain ⟨y, h0, h1, rfl⟩ := Lay.pub_false (by simpa using hp)
      refine .inr ⟨y, ?_, h1, rfl⟩
      by_cases hy : x ≤ y
      · exact hy
      · exfalso
        refine h (x - y) (by omega) (by omega) ?_
        rw [hb, ad_ad]
        congr 1
        omega
  · rintro (h | ⟨y, h0, h1, rfl⟩) k k1 k2 e
    · subst e
      rw [hb, ad_ad, Lay.pub_ad (by omega) (by omega)] at h
      simp only [decide_eq_true_eq] at h
      omega
    · rw [hb, ad_ad] at e
      have := ad_inj e (by omega) (by omega)
      omega

/-! ### The entry -/

/-- The entry sequence, with what it leaves alone. -/
theorem frameIn_mem {E : Env} (d : Nat) (hd : memLocals d + 2 * saved d + 2 < 65535) (m0 : M) :
    ∃ m1, Runs E (frameIn d) m0 m1 ∧ m1.fp = ad m0.sp (-2) ∧ m1.g = m0.g ∧
      m1.sp = ad m0.sp (-(2 + memLocals d + 2 * saved d : Int)) ∧
      ∀ a, (∀ k : Int, 1 ≤ k → k ≤ 2 + memLocals d + 2 * saved d → a ≠ ad m0.sp (-k)) → m1.mem a = m0.mem a := by
  have hs9 : saved d ≤ 9 := by unfold saved; omega
  have hpre : ∃ m, Runs E ([.push .fp, .op .LD .fp (.reg .sp)] ++
      (if memLocals d > 0 then [.op .SUB .sp (.imm (memLocals d))] else [])) m0 m ∧
      m.fp = m0.sp - 2 ∧ m.g = m0.g ∧ m.sp = m0.sp - 2 - BitVec.ofNat 16 (memLocals d) ∧
      m.mem = m0.mem.sw (m0.sp - 2) m0.fp := by
    have r1 : Runs E [.push .fp, .op .LD .fp (.reg .sp)] m0
        ((m0.doPush .fp).doOp E .LD .fp (.reg .sp)) := (runs_push m0 .fp).append (runs_op _ _ _ _)
    by_cases h : memLocals d > 0
    · rw [if_pos h]
      refine ⟨_, r1.append (runs_op _ _ _ _), rfl, rfl, ?_, rfl⟩
      show (m0.sp - 2) - BitVec.ofInt 16 (memLocals d : Int) = _
      rw [BitVec.ofInt_natCast]
    · rw [if_neg h]
      refine ⟨_, r1.append (Runs.nil E _), rfl, rfl, ?_, rfl⟩
      rw [show memLocals d = 0 by omega]
      show m0.sp - 2 = m0.sp - 2 - 0
      simp
  obtain ⟨m, r1, hf, hg, hs, hm⟩ := hpre
  obtain ⟨m1, r2, hg1, hf1, hs1, hw1, ho1⟩ := pushes_run (E := E) m (saved d) hs9
  refine ⟨m1, r1.append r2, by rw [hf1, hf, sub_two_eq_ad], hg1.trans hg, ?_, ?_⟩
  · rw [hs1, hs, dn, sub_two_eq_ad, sub_eq_ad, ad_ad, ad_ad]
    congr 1
    omega
  · intro a ha
    rw [ho1 a, hm, Mem.sw_ne]
    · rw [sub_two_eq_ad]; exact ha 2 (by omega) (by omega)
    · rw [sub_two_eq_ad, add_one_eq_ad, ad_ad]; exact ha 1 (by omega) (by omega)
    · intro i hi
      rw [hs, dn, sub_two_eq_ad, sub_eq_ad, add_one_eq_ad, ad_ad, ad_ad, ad_ad]
      constructor
      · have := ha (2 + memLocals d + 2 * (i + 1)) (by omega) (by omega)
        refine fun e => this (e.trans ?_)
        congr 1
        omega
      · have := ha (2 + memLocals d + 2 * (i + 1) - 1) (by omega) (by omega)
        refine fun e => this (e.trans ?_)
        congr 1
        omega

/-! ### A call in the middle of an expression -/

/-- As `call_rel`; the call itself is given. -/
theorem call_parts {E : Env} {F : Fr} {g : Gh} {t t1 : T} {its : List It} {vs : List Word} {s s' : Sto} {m : M} {v : Word} {val : Bool}
    {R : M → M → Prop} (w : W t) (hr : Rel E F g t (vs.map .arg ++ its) s m)
    (hcall : ∀ m1 hw, m1.fp = F.fp → m1.sp = dn F.base (vs ++ hw).length → 2 * (vs ++ hw).length ≤ F.use →
      HwMem F.base m1.mem (vs ++ hw) → (∀ a, Out F a → m1.mem a = s.mem a) → (∀ r, 3 ≤ r → r ≤ 11 → m1.g r = s.reg r) →
      ∃ m2, R m1 m2 ∧ m2.sp = m1.sp ∧ m2.fp = m1.fp ∧ (val = true → m2.g 0 = v) ∧ HwMem F.base m2.mem hw ∧
        (∀ a, Out F a → m2.mem a = s'.mem a) ∧ ∀ r, 3 ≤ r → r ≤ 11 → m2.g r = s'.reg r)
    (hu : 2 * (vs.map It.arg ++ its).length ≤ F.use)
    (hp : Pend (fun e v p => isAcc e = false → Later E F s' e v p) its t.stk)
    (mi : Mics 0 t t1) (ha : accs t1.stk = [])
    (hs : t1.stk = (t.stk.map fun e => if isAcc e then ⟨.STK, e.aux⟩ else e)) :
    ∃ m1 m2 m3 c1, t1.out = t.out ++ c1 ∧ Runs E c1 m m1 ∧ R m1 m2 ∧
      Runs E (if vs.length ≠ 0 then [.op .ADD .sp (.imm (vs.length * 2))] else []) m2 m3 ∧ (val = true → m3.g 0 = v) ∧
      ∀ o, Rel E F .no { t1 with out := o } its s' m3 := by
  obtain ⟨m1, c1, o1, r1, k1, s1⟩ := mics_rel mi w hr take0
  have w1 := mi.W w
  obtain ⟨hw, k1⟩ := k1
  obtain ⟨hw', rfl, hrest⟩ := repr_args k1.repr
  have hp1 := hp.call (fun a v p => by simp [Later])
  rw [← hs] at hp1
  have hlen := k1.repr.hw_length
  have hroom := k1.room
  have hlen2 := hrest.hw_length
  obtain ⟨m2, q1, q2, q3, q4, q5, q6, q7⟩ := hcall m1 hw' k1.fp k1.sp
    (by simp only [List.length_append, List.length_map] at *; omega) k1.hwm k1.mem k1.reg
  have tail : ∃ m3, Runs E (if vs.length ≠ 0 then [.op .ADD .sp (.imm (vs.length * 2))] else []) m2 m3 ∧ m3.g = m2.g ∧
      m3.fp = m2.fp ∧ m3.mem = m2.mem ∧ m3.sp = m2.sp + BitVec.ofInt 16 (vs.length * 2) := by
    split
    · exact ⟨_, runs_op m2 .ADD .sp (.imm (vs.length * 2)), rfl, rfl, rfl, rfl⟩
    · rename_i hn
      have hn : vs.length = 0 := by omega
      rw [hn]
      exact ⟨m2, Runs.nil E m2, rfl, rfl, rfl, by simp⟩
  obtain ⟨m3, r3, p1, p2, p3, p4⟩ := tail
  refine ⟨m1, m2, m3, c1, o1, r1, q1, r3, fun hv => by rw [p1, q4 hv], fun o => ?_⟩
  refine ⟨hw', ?_, by rw [p3]; exact q5, ?_, by rw [p2, q3, k1.fp], ?_, k1.lim, by rw [p3]; exact q6, by rw [p1]; exact q7,
    fun hg => absurd rfl hg⟩
  · refine hrest.later hp1 (by rw [p3]; exact q6) (by rw [p1]; exact q7) w1.regs (fun r hx => ?_) fun e he hf => ?_
    · rw [ha] at hx; cases hx
    · exfalso
      have : e.aux ∈ accs t1.stk := mem_accs.2 ⟨e, he, by rw [acc1_acc (by unfold isAcc; simp [hf])]; simp⟩
      rw [ha] at this; cases this
  · rw [p4, q2, k1.sp, List.length_append, dn_back]
  · simp only [List.length_append, List.length_map] at hroom
    omega

end Cmm.Tac
