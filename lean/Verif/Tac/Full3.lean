import Verif.Tac.Full2

/-
The body of a function on the machine with CALL and RET (for Verif/Props/C60.lean).
-/
namespace Cmm.Tac
open Cmm.Tree (World)
open Cmm.Gen (Instr A1 A2 Data Cfg Step Steps Idle)

def isCall : Instr → Bool
  | .callF .. | .callP .. => true
  | _ => false

theorem run_nocall {E : Env} {F : Fr} {cnt : Int → Int} {callee callee' : Int → List Word → Sto → Option (Word × Sto)} {i : Instr}
    (h : isCall i = false) (d : Data Sto) : Gen.run (world E F cnt callee) i d = Gen.run (world E F cnt callee') i d := by
  rcases d with ⟨_ | ⟨y, _ | ⟨x, _ | ⟨v, st⟩⟩⟩, ar, rg, s⟩ <;> cases i <;> first | rfl | cases h

section
variable {E : Env} {F : Fr} {cnt : Int → Int} {K : Int → Bool} {A : Nat → Word}
  {callee : Int → List Word → Sto → Option (Word × Sto)} {P : List Instr} {t tE : T} {rest : List Line}

/-- As `CallOk`, for the machine with CALL and RET. -/
def CallR (E : Env) (A : Nat → Word) (Q : List Line) (F : Fr) (callee : Int → List Word → Sto → Option (Word × Sto)) : Prop :=
  ∀ f vs s v s' pc m hw, callee f vs s = some (v, s') → Q[pc]? = some (.call f) → m.fp = F.fp → m.sp = dn F.base (vs ++ hw).length →
    2 * (vs ++ hw).length ≤ F.use → HwMem F.base m.mem (vs ++ hw) → (∀ a, Out F a → m.mem a = s.mem a) →
    (∀ r, 3 ≤ r → r ≤ 11 → m.g r = s.reg r) →
    ∃ m', FSteps E A Q ⟨pc, m⟩ ⟨pc + 1, m'⟩ ∧ m'.sp = m.sp ∧ m'.fp = m.fp ∧ (E.val f = true → m'.g 0 = v) ∧ HwMem F.base m'.mem hw ∧
      (∀ a, Out F a → m'.mem a = s'.mem a) ∧ ∀ r, 3 ≤ r → r ≤ 11 → m'.g r = s'.reg r

theorem mute_callOk : CallOk E.mute F fun _ _ _ => none := by
  intro f vs s v s' m hw h
  cases h

theorem none_keeps : Keeps F K fun _ _ _ => none := by
  intro f vs s v s' h
  cases h

/-- The lines of a call. -/
theorem call_block {t1 : T} {z : T} {c1 c' : List Line} {f : Int} {n : Nat} {x : T} (h1 : t1.out = x.out ++ c1)
    (h2 : z.out = t1.out ++ callLines n f) (h3 : tE.out = z.out ++ c') {m m1 m2 m3 : M} (r1 : Runs E.mute c1 m m1)
    (r2 : FSteps E A (tE.out ++ rest) ⟨t1.out.length, m1⟩ ⟨t1.out.length + 1, m2⟩)
    (r3 : Runs E.mute (if n ≠ 0 then [.op .ADD .sp (.imm (n * 2))] else []) m2 m3) :
    FSteps E A (tE.out ++ rest) ⟨x.out.length, m⟩ ⟨z.out.length, m3⟩ := by
  have hat1 : LAt tE.out x.out.length c1 := by
    rw [h3, h2, List.append_assoc]
    rw [h1]
    exact LAt.mid _ _ _
  have e1 : TSteps E.mute tE.out ⟨x.out.length, m⟩ ⟨t1.out.length, m1⟩ := by
    rw [h1, List.length_append]; exact Runs.steps hat1 r1
  have hat3 : LAt tE.out (t1.out.length + 1) (if n ≠ 0 then [.op .ADD .sp (.imm (n * 2))] else []) := by
    have : LAt tE.out t1.out.length (callLines n f) := by rw [h3, h2]; exact LAt.mid _ _ _
    exact this.tail
  have e3 := Runs.steps hat3 r3
  refine (e1.full.trans r2).trans ?_
  have : z.out.length = t1.out.length + 1 + (if n ≠ 0 then [Line.op .ADD .sp (.imm (n * 2))] else []).length := by
    rw [h2, List.length_append, callLines, List.length_cons]
    omega
  rw [this]
  exact e3.full

theorem call_line {t1 z : T} {c' : List Line} {f : Int} {n : Nat} (h2 : z.out = t1.out ++ callLines n f) (h3 : tE.out = z.out ++ c') :
    (tE.out ++ rest)[t1.out.length]? = some (.call f) := by
  have : LAt tE.out t1.out.length (callLines n f) := by rw [h3, h2]; exact LAt.mid _ _ _
  exact getElem_prefix this.head

/-- One step of the stack machine. -/
theorem full_step (hcode : Code E.mute F cnt K P t tE) (hc : CallR E A (tE.out ++ rest) F callee) (hk : Keeps F K callee)
    (hdv : DivOk E) {c c' : Cfg Sto} {q : TC} (hs : Sim E.mute F cnt P t c q) (hok : CfgOk F P c)
    (h : Step (world E.mute F cnt callee) P c c') :
    ∃ q', FSteps E A (tE.out ++ rest) q q' ∧ Sim E.mute F cnt P t c' q' ∧ (P[c.pc]? = some .mreg → q'.m.g 0 = c'.d.reg) ∧
      ((∃ n, P[c.pc]? = some (.lab n) ∨ P[c.pc]? = some (.jmp n)) → q'.m = q.m) := by
  have quiet : Step (world E.mute F cnt fun _ _ _ => none) P c c' →
      ∃ q', FSteps E A (tE.out ++ rest) q q' ∧ Sim E.mute F cnt P t c' q' ∧ (P[c.pc]? = some .mreg → q'.m.g 0 = c'.d.reg) ∧
        ((∃ n, P[c.pc]? = some (.lab n) ∨ P[c.pc]? = some (.jmp n)) → q'.m = q.m) := by
    intro h
    obtain ⟨q', r, h1, h2, h3⟩ := sim_step hcode mute_callOk none_keeps hdv hs hok h
    exact ⟨q', r.full, h1, h2, h3⟩
  cases h with
  | jmp hi hk => exact quiet (.jmp hi hk)
  | jtT hi hk hv => exact quiet (.jtT hi hk hv)
  | jtF hi hv => exact quiet (.jtF hi hv)
  | jfT hi hv => exact quiet (.jfT hi hv)
  | jfF hi hk hv => exact quiet (.jfF hi hk hv)
  | @next pc d i d' hi hrun =>
    by_cases hcl : isCall i = false
    · exact quiet (.next hi (by rw [← hrun]; exact run_nocall hcl d))
    obtain ⟨x, its, s1, ok, hr, hstk, har, hsh, hpc⟩ := hs
    obtain ⟨y, z, h1, h2, h3, h4, h5, h6, h7, cc, c', h8, h9⟩ := hcode.place hi
    rw [s1] at h1
    cases h1
    obtain ⟨k1, k2, k3, -⟩ := walk_some h2
    obtain ⟨qpc, qm⟩ := q
    simp only at hpc hr
    subst hpc
    obtain ⟨stk, args, rg, s⟩ := d
    simp only at hstk har hr
    subst hstk har
    have hroom : ∀ its' : List It, its'.map It.isVal = z.sh → 2 * its'.length ≤ F.lim := by
      intro its' hi2
      have := hcode.room (pc + 1) z.sh (walks_emits _ h3).2
      rw [← hi2, List.length_map] at this
      exact this.trans hcode.use
    have huse : 2 * its.length ≤ F.use := by
      have := hcode.room pc x.sh (walks_emits _ s1).2
      rw [← hsh, List.length_map] at this
      exact this
    cases i with
    | callF n f =>
      have k2' : Tac.shape (.callF n f) (its.map It.isVal) = some z.sh := by rw [hsh]; exact k2
      obtain ⟨its', s', hi1, hi2, hi3⟩ := istep_run k2' hrun
      have hso := fit_ok (cnt := cnt) (P := P) (c := ⟨pc, ⟨vals its, argl its, rg, s⟩⟩) h4.w (fun hu => h4.hot (h6 hu)) hr hk hdv hi rfl hok
        hcode.vars h7 (hroom _ hi2) huse hcode.vals hi1
      subst hi3
      have hi1' := hi1
      simp only [istep] at hi1
      cases hsp : splitArgs n its with
      | none => rw [hsp] at hi1; cases hi1
      | some xx =>
        obtain ⟨vs, l⟩ := xx
        rw [hsp] at hi1
        obtain ⟨hits, hn⟩ := splitArgs_some hsp
        simp only [Option.map_eq_some_iff] at hi1
        obtain ⟨⟨v, s1'⟩, hcl', h1'⟩ := hi1
        cases h1'
        have hd : its.drop n = l := by rw [hits, List.drop_left' (by simpa using hn)]
        obtain ⟨-, ⟨-, hval⟩, hp⟩ := hso
        rw [hd] at hp
        rw [hits] at hr
        obtain ⟨t1, mi, ha, hf, hs, hz⟩ := vmCallF_form h4.w k1
        have hcl2 := call_line (tE := tE) (rest := rest) (t1 := t1) (z := z.t) (n := n) (f := f) (by rw [hz]) h9
        obtain ⟨m1, m2, m3, c1, o1, r1, r2, r3, g0, hr1⟩ := call_parts (val := true) (v := v) h4.w hr (R := fun a b => FSteps E A (tE.out ++ rest) ⟨t1.out.length, a⟩
          ⟨t1.out.length + 1, b⟩) (fun m1 hw a1 a2 a3 a4 a5 a6 => by
            obtain ⟨m', b1, b2, b3, b4, b5⟩ := hc f vs s v _ t1.out.length m1 hw hcl' hcl2 a1 a2 a3 a4 a5 a6
            exact ⟨m', b1, b2, b3, fun _ => b4 hval, b5⟩) (by rw [← hits]; exact huse) hp mi ha hs
        obtain ⟨hw, hr1⟩ := hr1 []
        refine ⟨⟨z.t.out.length, m3⟩, ?_, ⟨z, .val v 0 :: l, h3, h5, ?_, rfl, rfl, hi2, rfl⟩, fun h => (by rw [hi] at h; cases h),
          fun ⟨n, h⟩ => (by rw [hi] at h; rcases h with h | h <;> cases h)⟩
        · exact call_block (f := f) o1 (by rw [hz, hn]) h9 r1 r2 r3
        · rw [k3, hz]
          exact ⟨hw, .val (by simp) (g0 rfl) hr1.repr, hr1.hwm, hr1.sp, hr1.fp, hroom _ hi2, hr1.lim, hr1.mem, hr1.reg,
            fun hg => absurd rfl hg⟩
    | callP n f =>
      have k2' : Tac.shape (.callP n f) (its.map It.isVal) = some z.sh := by rw [hsh]; exact k2
      obtain ⟨its', s', hi1, hi2, hi3⟩ := istep_run k2' hrun
      have hso := fit_ok (cnt := cnt) (P := P) (c := ⟨pc, ⟨vals its, argl its, rg, s⟩⟩) h4.w (fun hu => h4.hot (h6 hu)) hr hk hdv hi rfl hok
        hcode.vars h7 (hroom _ hi2) huse hcode.vals hi1
      subst hi3
      have hi1' := hi1
      simp only [istep] at hi1
      cases hsp : splitArgs n its with
      | none => rw [hsp] at hi1; cases hi1
      | some xx =>
        obtain ⟨vs, l⟩ := xx
        rw [hsp] at hi1
        obtain ⟨hits, hn⟩ := splitArgs_some hsp
        simp only [Option.map_eq_some_iff] at hi1
        obtain ⟨⟨v, s1'⟩, hcl', h1'⟩ := hi1
        cases h1'
        have hd : its.drop n = its' := by rw [hits, List.drop_left' (by simpa using hn)]
        obtain ⟨-, -, hp⟩ := hso
        rw [hd] at hp
        rw [hits] at hr
        obtain ⟨t1, mi, ha, hf, hs, hz⟩ := call_form h4.w k1
        have hcl2 := call_line (tE := tE) (rest := rest) (t1 := t1) (z := z.t) (n := n) (f := f) (by rw [hz]) h9
        obtain ⟨m1, m2, m3, c1, o1, r1, r2, r3, g0, hr1⟩ := call_parts (val := false) (v := v) h4.w hr (R := fun a b => FSteps E A (tE.out ++ rest) ⟨t1.out.length, a⟩
          ⟨t1.out.length + 1, b⟩) (fun m1 hw a1 a2 a3 a4 a5 a6 => by
            obtain ⟨m', b1, b2, b3, b4, b5⟩ := hc f vs s v _ t1.out.length m1 hw hcl' hcl2 a1 a2 a3 a4 a5 a6
            exact ⟨m', b1, b2, b3, nofun, b5⟩) (by rw [← hits]; exact huse) hp mi ha hs
        refine ⟨⟨z.t.out.length, m3⟩, ?_, ⟨z, its', h3, h5, ?_, rfl, rfl, hi2, rfl⟩, fun h => (by rw [hi] at h; cases h),
          fun ⟨n, h⟩ => (by rw [hi] at h; rcases h with h | h <;> cases h)⟩
        · exact call_block (f := f) o1 (by rw [hz, hn]) h9 r1 r2 r3
        · rw [k3, hz]
          exact hr1 _
    | _ => exact absurd rfl hcl

theorem full_idle (hcode : Code E.mute F cnt K P t tE) (hc : CallR E A (tE.out ++ rest) F callee) (hk : Keeps F K callee)
    (hdv : DivOk E) {c c' : Cfg Sto} (h : Idle P c c') : ∀ {q : TC}, Sim E.mute F cnt P t c q →
    ∃ q', FSteps E A (tE.out ++ rest) q q' ∧ Sim E.mute F cnt P t c' q' ∧ q'.m = q.m := by
  induction h with
  | refl => intro q hs; exact ⟨q, .refl, hs, rfl⟩
  | @lab pc n d c hi _ ih =>
    intro q hs
    obtain ⟨q1, r1, s1, -, e1⟩ := full_step (rest := rest) (callee := callee) (c := ⟨pc, d⟩) hcode hc hk hdv hs
      (by simp [CfgOk, hi]) (.next (d' := d) hi rfl)
    obtain ⟨q2, r2, s2, e2⟩ := ih s1
    exact ⟨q2, r1.trans r2, s2, by rw [e2, e1 ⟨n, .inl hi⟩]⟩
  | @jmp pc n k d c hi hk' _ ih =>
    intro q hs
    obtain ⟨q1, r1, s1, -, e1⟩ := full_step (rest := rest) (callee := callee) (c := ⟨pc, d⟩) hcode hc hk hdv hs
      (by simp [CfgOk, hi]) (.jmp hi hk')
    obtain ⟨q2, r2, s2, e2⟩ := ih s1
    exact ⟨q2, r1.trans r2, s2, by rw [e2, e1 ⟨n, .inr hi⟩]⟩

end

end Cmm.Tac
