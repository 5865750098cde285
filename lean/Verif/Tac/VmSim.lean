import Verif.Tac.VmTextLemmas
import Verif.Tac.Src
import Verif.Props.C61
import Mathlib.Tactic.ByContra

/-
The machine of Verif/Tac/VmText.lean does what `ev` says.
-/
namespace Cmm.Tac
open Cmm.Gen (Instr A1 A2 Data Cfg Step Steps Idle UniqueLabels)

variable {E : Env} {ext : Int → List Cmm.Word → Mem → Option (Cmm.Word × Mem)} {new : VM → Int → Cmm.Word} {P : List Instr}

theorem VSteps.trans {a b c : VM} (h : VSteps E ext new P a b) (h' : VSteps E ext new P b c) : VSteps E ext new P a c := by
  induction h with
  | refl => exact h'
  | head h1 _ ih => exact .head h1 (ih h')

theorem VStep.steps {a b : VM} (h : VStep E ext new P a b) : VSteps E ext new P a b := .head h .refl

theorem noStack_clean (mem : Mem) : noStack.clean mem = mem := by
  funext a
  simp [Lay.clean, Lay.pub, noStack]

/-- The instructions `b` are at place `o` of `P`. -/
def Here (P : List Instr) (o : Nat) (b : List Instr) : Prop := ∀ i, i < b.length → P[o + i]? = b[i]?

theorem Here.get {o : Nat} {b : List Instr} (h : Here P o b) {k : Nat} {i : Instr} (hk : b[k]? = some i) : P[o + k]? = some i := by
  have hl : k < b.length := by
    by_contra hc
    rw [List.getElem?_eq_none (by omega)] at hk
    cases hk
  rw [h k hl, hk]

/-- Not a call. -/
def calling : Instr → Bool
  | .callF _ _ | .callP _ _ => true
  | _ => false

/-- Below the words that an instruction uses there may be others on the stack, and the register may contain anything. -/
theorem run_slot {cnt : Int → Int} {call : Int → List Cmm.Word → Mem → Option (Cmm.Word × Mem)} {i : Instr} {d d' : Data AS}
    (hc : calling i = false) (h : Gen.run (aworld E noStack cnt call) i d = some d') (st : List Cmm.Word) (rg : Cmm.Word) :
    ∃ rg', Gen.run (vworld E) (slot cnt i) ⟨d.stk ++ st, d.args, rg, d.s⟩ = some ⟨d'.stk ++ st, d'.args, rg', d'.s⟩ ∧
      (i = .mreg → rg' = d'.reg) ∧ (i ≠ .mreg → rg' = rg) := by
  obtain ⟨stk, ar, rg0, s⟩ := d
  cases i with
  | lab n | ldC n | ldG n | ldL n | ldP n | ldLab n | ldNam n => cases h; exact ⟨_, rfl, nofun, fun _ => rfl⟩
  | ldW | ldB =>
    match stk, h with
    | i :: a :: stk, h =>
      simp only [Gen.run] at h
      split at h
      · rename_i hk
        cases h
        exact ⟨rg, if_pos (e := none) hk, nofun, fun _ => rfl⟩
      · cases h
  | stG n | stL n | stP n =>
    match stk, h with
    | v :: stk, h => cases h; exact ⟨_, rfl, nofun, fun _ => rfl⟩
  | stW | stB =>
    match stk, h with
    | i :: a :: v :: stk, h =>
      simp only [Gen.run] at h
      split at h
      · rename_i hk
        cases h
        exact ⟨rg, if_pos (e := none) hk, nofun, fun _ => rfl⟩
      · cases h
  | a1 o =>
    match stk, h with
    | v :: stk, h => cases h; exact ⟨_, rfl, nofun, fun _ => rfl⟩
  | a2 o =>
    match stk, h with
    | y :: x :: stk, h =>
      simp only [Gen.run] at h
      split at h
      · rename_i hk
        cases h
        refine ⟨rg, ?_, nofun, fun _ => rfl⟩
        have e1 : Gen.okA (vworld E) o x y = true := by cases o <;> exact hk
        show (if Gen.okA (vworld E) o x y = true then _ else _) = _
        rw [if_pos e1]
        cases o <;> rfl
      · cases h
  | pop | arg =>
    match stk, h with
    | v :: stk, h => cases h; exact ⟨_, rfl, nofun, fun _ => rfl⟩
  | mreg =>
    match stk, h with
    | v :: stk, h => cases h; exact ⟨_, rfl, fun _ => rfl, fun h => absurd rfl h⟩
  | callF n f | callP n f => cases hc
  | _ => cases h

theorem vcall_steps {call : Int → List Cmm.Word → Mem → Option (Cmm.Word × Mem)} (hc : Calls E ext new P call) {pc n : Nat} {b : Bool}
    {f : Int} (hp : P[pc]? = some (vcall b n f)) (hv : b = true → E.val f = true) {st ar : List Cmm.Word} {rg : Cmm.Word} {s : AS} {v : Cmm.Word}
    {mem' : Mem} (h : call f (ar.take n) s.mem = some (v, mem')) (acts : List Saved) :
    ∃ rg', VSteps E ext new P ⟨pc, ⟨st, ar, rg, s⟩, acts⟩
      ⟨pc + 1, ⟨if b then v :: st else st, ar.drop n, rg', { s with mem := mem' }⟩, acts⟩ := by
  obtain ⟨mem, loc, prm⟩ := s
  rcases hc f _ _ v mem' h with ⟨h1, h2⟩ | ⟨k, h1, h2⟩
  · exact ⟨rg, (VStep.ext hp h1 h2).steps⟩
  · obtain ⟨rg', h3⟩ := h2 st rg (new ⟨pc, ⟨st, ar, rg, ⟨mem, loc, prm⟩⟩, acts⟩) ⟨pc + 1, b, ar.drop n, loc, prm⟩ acts hv
    exact ⟨rg', .head (.call hp h1) h3⟩

/-- One step of the body of a function. -/
theorem step_v {cnt : Int → Int} {call : Int → List Cmm.Word → Mem → Option (Cmm.Word × Mem)} (hc : Calls E ext new P call) {o : Nat}
    {body : List Instr} (hP : Here P o (body.map (slot cnt))) (hv : ∀ n f, .callF n f ∈ body → E.val f = true) {a b : Cfg AS}
    (h : Step (aworld E noStack cnt call) body a b) (st : List Cmm.Word) (rg : Cmm.Word) (acts : List Saved) :
    ∃ rg', VSteps E ext new P ⟨o + a.pc, ⟨a.d.stk ++ st, a.d.args, rg, a.d.s⟩, acts⟩ ⟨o + b.pc, ⟨b.d.stk ++ st, b.d.args, rg', b.d.s⟩, acts⟩ := by
  have at_ : ∀ {k : Nat} {i : Instr}, body[k]? = some i → P[o + k]? = some (slot cnt i) := by
    intro k i hk
    exact hP.get (by rw [List.getElem?_map, hk]; rfl)
  cases h with
  | @next pc d i d' h1 h2 =>
    by_cases hi : calling i = true
    · obtain ⟨stk, ar, rg0, s⟩ := d
      cases i with
      | callF n f =>
        simp only [Gen.run, aworld] at h2
        cases hx : call f (ar.take n) (noStack.clean s.mem) with
        | none => rw [hx] at h2; cases h2
        | some r =>
          rw [hx] at h2
          cases h2
          rw [noStack_clean] at hx
          obtain ⟨rg', h3⟩ := vcall_steps hc (b := true) (at_ h1) (fun _ => hv n f (List.mem_of_getElem? h1)) (st := stk ++ st) (rg := rg) hx acts
          exact ⟨rg', h3⟩
      | callP n f =>
        simp only [Gen.run, aworld] at h2
        cases hx : call f (ar.take n) (noStack.clean s.mem) with
        | none => rw [hx] at h2; cases h2
        | some r =>
          rw [hx] at h2
          cases h2
          rw [noStack_clean] at hx
          obtain ⟨rg', h3⟩ := vcall_steps hc (b := false) (at_ h1) nofun (st := stk ++ st) (rg := rg) hx acts
          exact ⟨rg', h3⟩
      | _ => cases hi
    · obtain ⟨rg', h3, -⟩ := run_slot (Bool.eq_false_iff.2 hi) h2 st rg
      exact ⟨rg', (VStep.step (.next (at_ h1) h3)).steps⟩
  | jmp h1 h2 => exact ⟨rg, (VStep.step (.jmp (at_ h1) (at_ h2))).steps⟩
  | jtT h1 h2 h3 => exact ⟨rg, (VStep.step (.jtT (at_ h1) (at_ h2) h3)).steps⟩
  | jtF h1 h2 => exact ⟨rg, (VStep.step (.jtF (at_ h1) h2)).steps⟩
  | jfT h1 h2 => exact ⟨rg, (VStep.step (.jfT (at_ h1) h2)).steps⟩
  | jfF h1 h2 h3 => exact ⟨rg, (VStep.step (.jfF (at_ h1) (at_ h2) h3)).steps⟩

theorem steps_v {cnt : Int → Int} {call : Int → List Cmm.Word → Mem → Option (Cmm.Word × Mem)} (hc : Calls E ext new P call) {o : Nat}
    {body : List Instr} (hP : Here P o (body.map (slot cnt))) (hv : ∀ n f, .callF n f ∈ body → E.val f = true) {a b : Cfg AS}
    (h : Steps (aworld E noStack cnt call) body a b) (st : List Cmm.Word) (acts : List Saved) : ∀ rg : Cmm.Word,
    ∃ rg', VSteps E ext new P ⟨o + a.pc, ⟨a.d.stk ++ st, a.d.args, rg, a.d.s⟩, acts⟩ ⟨o + b.pc, ⟨b.d.stk ++ st, b.d.args, rg', b.d.s⟩, acts⟩ := by
  induction h with
  | refl => exact fun rg => ⟨rg, .refl⟩
  | head h1 _ ih =>
    intro rg
    obtain ⟨rg1, h2⟩ := step_v hc hP hv h1 st rg acts
    obtain ⟨rg2, h3⟩ := ih rg1
    exact ⟨rg2, h2.trans h3⟩

theorem idle_v {cnt : Int → Int} {o : Nat} {body : List Instr} (hP : Here P o (body.map (slot cnt))) {a b : Cfg AS} (h : Idle body a b)
    (st : List Cmm.Word) (acts : List Saved) :
    VSteps E ext new P ⟨o + a.pc, ⟨a.d.stk ++ st, a.d.args, a.d.reg, a.d.s⟩, acts⟩ ⟨o + b.pc, ⟨b.d.stk ++ st, b.d.args, b.d.reg, b.d.s⟩, acts⟩ := by
  have at_ : ∀ {k : Nat} {i : Instr}, body[k]? = some i → P[o + k]? = some (slot cnt i) := by
    intro k i hk
    exact hP.get (by rw [List.getElem?_map, hk]; rfl)
  induction h with
  | refl => exact .refl
  | lab h1 _ ih => exact .head (.step (.next (at_ h1) rfl)) ih
  | jmp h1 h2 _ ih => exact .head (.step (.jmp (at_ h1) (at_ h2))) ih

/-! ### The program -/

/-- The instructions of bodies of functions: no names, entries and exits; CALLF for functions with a value only. -/
structure BodyOk (E : Env) (body : List Instr) : Prop where
  ins : ∀ i ∈ body, inExpr (.i i) = true
  val : ∀ n f, .callF n f ∈ body → E.val f = true

theorem inExpr_slot {cnt : Int → Int} (i : Instr) : inExpr (.i (slot cnt i)) = inExpr (.i i) := by cases i <;> rfl

theorem nam_code {fn : Fn} (h : BodyOk E fn.body) {f : Int} : .nam f ∈ fn.code.map (slot fn.cnt) ↔ fn.f = f := by
  constructor
  · intro hm
    obtain ⟨i, hi, he⟩ := List.mem_map.1 hm
    have hi' : i = .nam f := by cases i <;> simp_all [slot]
    subst hi'
    unfold Fn.code at hi
    simp only [List.mem_append, List.mem_cons, List.not_mem_nil, or_false] at hi
    rcases hi with ((hi | hi) | hi) | hi
    · cases hi; rfl
    · split at hi <;> cases hi
    · exact absurd (h.ins _ hi) (by simp [inExpr])
    · cases hi
  · rintro rfl
    simp [Fn.code, slot]

theorem nam_prog {fns : List Fn} (h : ∀ fn ∈ fns, BodyOk E fn.body) {f : Int} :
    .nam f ∈ vmCode fns ↔ ∃ fn ∈ fns, fn.f = f := by
  simp only [vmCode, List.mem_flatMap]
  constructor
  · rintro ⟨fn, hm, hn⟩; exact ⟨fn, hm, (nam_code (h fn hm)).1 hn⟩
  · rintro ⟨fn, hm, hn⟩; exact ⟨fn, hm, (nam_code (h fn hm)).2 hn⟩

/-- The code of the function that is found is where its name is defined. -/
theorem vm_place {fns : List Fn} (h : ∀ fn ∈ fns, BodyOk E fn.body) {f : Int} {fn : Fn} (hf : fns.find? (fun fn => fn.f = f) = some fn) :
    ∃ k, Defined (vmCode fns) f k ∧ Here (vmCode fns) k (fn.code.map (slot fn.cnt)) := by
  obtain ⟨hff, pre, post, rfl, hpre⟩ := List.find?_eq_some_iff_append.1 hf
  have hff : fn.f = f := by simpa using hff
  have e : vmCode (pre ++ fn :: post) = vmCode pre ++ (fn.code.map (slot fn.cnt) ++ vmCode post) := by simp [vmCode]
  have hn : Instr.nam f ∉ vmCode pre := by
    intro hm
    obtain ⟨g, hg, hgf⟩ := (nam_prog (fun g hg => h g (by simp [hg]))).1 hm
    have := hpre g hg
    simp [hgf] at this
  have hl : ∀ i, i < (fn.code.map (slot fn.cnt)).length → (vmCode (pre ++ fn :: post))[(vmCode pre).length + i]? = (fn.code.map (slot fn.cnt))[i]? := by
    intro i hi
    rw [e, List.getElem?_append_right (by omega), Nat.add_sub_cancel_left, List.getElem?_append_left hi]
  refine ⟨(vmCode pre).length, ⟨?_, ?_⟩, hl⟩
  · have := hl 0 (by simp [Fn.code])
    rw [Nat.add_zero] at this
    rw [this]
    simp [Fn.code, slot, hff]
  · intro j hj hc
    rw [e, List.getElem?_append_left hj] at hc
    exact hn (List.mem_of_getElem? hc)

/-- A function that returns, returns on the machine. -/
theorem ret_v {call : Int → List Cmm.Word → Mem → Option (Cmm.Word × Mem)} (hc : Calls E ext new P call) {fn : Fn} (hb : BodyOk E fn.body)
    {k : Nat} (hd : Defined P fn.f k) (hP : Here P k (fn.code.map (slot fn.cnt))) {vs : List Cmm.Word} {mem : Mem} {v : Cmm.Word} {mem' : Mem}
    (h : Ret E noStack call fn vs mem v mem') : Does E ext new P fn.f vs mem v mem' := by
  refine ⟨k, hd, fun st rg loc a acts ha => ?_⟩
  have e0 : P[k]? = some (.nam fn.f) := hd.1
  have e1 : P[k + 1]? = some (.entry fn.d) ∨ P[k + 1]? = some (.entryK fn.d) := by
    have := hP 1 (by simp [Fn.code])
    rw [this]
    simp only [Fn.code]
    cases fn.ker <;> simp [slot]
  have e2 : Here P (k + 2) (fn.body.map (slot fn.cnt)) := by
    intro i hi
    have := hP (2 + i) (by simp [Fn.code] at hi ⊢; omega)
    rw [Nat.add_assoc, this]
    simp only [Fn.code, List.map_append, List.map_cons, List.map_nil, List.append_assoc]
    rw [List.getElem?_append_right (by simp), List.getElem?_append_left (by simpa using hi)]
    simp
  have e3 : P[k + 2 + fn.body.length]? = some .ret := by
    have := hP (2 + fn.body.length) (by simp [Fn.code]; omega)
    rw [Nat.add_assoc, this]
    simp only [Fn.code, List.map_append, List.map_cons, List.map_nil]
    rw [List.getElem?_append_right (by simp; omega)]
    simp only [List.length_append, List.length_map, List.length_cons, List.length_nil]
    rw [show 2 + fn.body.length - (0 + 1 + 1 + fn.body.length) = 0 by omega]
    rfl
  have hin : ∀ {c : VM} {d : Data AS}, VSteps E ext new P ⟨k + 2 + 0, d, a :: acts⟩ c → VSteps E ext new P ⟨k, d, a :: acts⟩ c :=
    fun hs => .head (.nam e0) (.head (.entry e1) hs)
  obtain ⟨⟨sm, sl, sp⟩, rg', rfl, hh⟩ := h.2 loc rg
  clear h
  rename' hh => h
  dsimp only at h ⊢
  by_cases hval : E.val fn.f = true
  · rw [if_pos hval] at h
    obtain ⟨pc, h1, h2, h3⟩ := h
    obtain ⟨rg1, k1⟩ := steps_v hc e2 hb.val h1 st (a :: acts) rg
    refine ⟨v, hin (k1.trans (.head (.step (.next (e2.get (i := .mreg) (by rw [List.getElem?_map, h2]; rfl)) rfl)) ?_))⟩
    have := idle_v (E := E) (ext := ext) (new := new) e2 h3 st (a :: acts)
    exact this.trans (VStep.ret e3).steps
  · rw [if_neg hval] at h
    obtain ⟨rg1, k1⟩ := steps_v hc e2 hb.val h.1 st (a :: acts) rg
    refine ⟨rg1, hin (k1.trans ?_)⟩
    have hfa : a.fn = false := by
      cases hx : a.fn
      · rfl
      · exact absurd (ha hx) hval
    have := (VStep.ret (E := E) (ext := ext) (new := new) (st := st) (ar := []) (rg := rg1) (mem := sm) (loc := sl) (prm := sp) (a := a)
      (acts := acts) e3).steps
    rw [hfa] at this ⊢
    exact this

/-- The machine does what `ev` says. -/
theorem ev_calls {fns : List Fn} (h : ∀ fn ∈ fns, BodyOk E fn.body) (n : Nat) :
    Calls E ext new (vmCode fns) (ev E noStack fns ext n) := by
  have hnone : ∀ {f : Int}, fns.find? (fun fn => fn.f = f) = none → Instr.nam f ∉ vmCode fns := by
    intro f hf hm
    obtain ⟨fn, h1, h2⟩ := (nam_prog h).1 hm
    have := List.find?_eq_none.1 hf fn h1
    simp [h2] at this
  induction n with
  | zero =>
    intro f vs mem v mem' he
    rw [ev] at he
    cases hf : fns.find? (fun fn => fn.f = f) with
    | none => rw [hf] at he; exact .inl ⟨hnone hf, he⟩
    | some fn => rw [hf] at he; cases he
  | succ n ih =>
    intro f vs mem v mem' he
    rw [ev] at he
    cases hf : fns.find? (fun fn => fn.f = f) with
    | none => rw [hf] at he; exact .inl ⟨hnone hf, he⟩
    | some fn =>
      rw [hf] at he
      simp only at he
      split at he
      · rename_i hx
        have hs := hx.choose_spec
        rw [Option.some.inj he] at hs
        obtain ⟨k, h1, h2⟩ := vm_place h hf
        have hff : fn.f = f := by simpa using List.find?_some hf
        subst hff
        exact .inr (ret_v ih (h fn (List.mem_of_find?_eq_some hf)) h1 h2 hs)
      · cases he

end Cmm.Tac
