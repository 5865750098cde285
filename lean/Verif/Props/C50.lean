import Verif.Tac.Step3

/-
C50: the lines printed by src/vm2tac.c for a sequence of stack instructions without jumps compute
what the stack machine (Verif/Gen/VM.lean) computes.

The claim is false in general (`C50_lazy_false`, `C52_div_false`, `C53_overflow_false`): an entry
that names a variable is read when it is used, after a store in between; SHRA replaces a division;
a comparison with 0 is left out after an overflow. `C50_partial` proves the claim for the sequences
in which none of this happens (`Safe`), `C50_statement` and `C50_return` for a class of sequences that
can be read off from the instructions (`Quiet`).
-/
namespace Cmm.Tac
open Cmm.Tree (World ofB)
open Cmm.Gen (Instr A1 A2 Data a1Val a2Val)

/-! ### Specification -/

/-- The stack machine on a sequence without jumps. -/
def runAll (w : World Sto) : List Instr → Data Sto → Option (Data Sto)
  | [], d => some d
  | i :: is, d => (Gen.run w i d).bind (runAll w is)

/-- Values (`true`) and arguments (`false`) in the order in which they were pushed, after an
instruction. An instruction never takes a value from below an argument, and a call has its arguments
on top: that is how vmCode.c nests calls. -/
def shape : Instr → List Bool → Option (List Bool)
  | .ldC _, l | .ldG _, l | .ldL _, l | .ldP _, l | .ldLab _, l | .ldNam _, l => some (true :: l)
  | .lab _, l => some l
  | .ldW, true :: true :: l | .ldB, true :: true :: l => some (true :: l)
  | .stG _, true :: l | .stL _, true :: l | .stP _, true :: l => some (true :: l)
  | .stW, true :: true :: true :: l | .stB, true :: true :: true :: l => some (true :: l)
  | .a1 _, true :: l => some (true :: l)
  | .a2 _, true :: true :: l => some (true :: l)
  | .pop, true :: l => some l
  | .arg, true :: l => some (false :: l)
  | .callF n _, l => if l.take n = List.replicate n false then some (true :: l.drop n) else none
  | .callP n _, l => if l.take n = List.replicate n false then some (l.drop n) else none
  | _, _ => none

def shapes : List Instr → List Bool → Option (List Bool)
  | [], l => some l
  | i :: is, l => (shape i l).bind (shapes is)

/-- The instruction does not meet one of the defects: a comparison is not left out although the
flags do not belong to the value, or a division by a power of two is exact or of a number that is not
negative. -/
def OpOk (E : Env) (g : Gh) (t : T) (o : A2) (x y : Word) : Prop :=
  match o with
  | .DIV => (PowTop t → 0 ≤ x.toInt ∨ y.toInt ∣ x.toInt) ∧ (¬ PowTop t → y ≠ 0 → E.div x y = x.sdiv y)
  | .MOD => (PowTop t → 0 ≤ x.toInt ∨ y.toInt ∣ x.toInt) ∧ (¬ PowTop t → y ≠ 0 → E.mod x y = x.srem y)
  | .EQ | .NE => Elided t → (∀ e0 e1 es, t.stk = e0 :: e1 :: es → e1.sta ≠ .STK) ∧ g ≠ .no
  | .GT | .GE | .LT | .LE => Elided t → (∀ e0 e1 es, t.stk = e0 :: e1 :: es → e1.sta ≠ .STK) ∧ g = .all
  | _ => True

open Classical in
/-- What is known about the flags after an instruction. -/
noncomputable def gh (E : Env) (g : Gh) : Instr → List It → Gh
  | .a1 o, .val x _ :: _ => if o = .NEG ∧ E.v .ADD (~~~x) 1 = true then .z else .all
  | .a2 o, .val y _ :: .val x _ :: _ =>
    match o with
    | .ADD => if E.v .ADD x y = false ∧ E.v .ADD y x = false then .all else .z
    | .SUB => if E.v .SUB x y = false then .all else .z
    | .SHL => if E.v .SHLA x y = false then .all else .z
    | .SHR => if E.v .SHRA x y = false then .all else .z
    | .BAND | .BXOR | .BOR => .all
    | .MUL => if E.v .MUL x y = false ∧ E.v .MUL y x = false ∧
        ∀ k, E.v .SHLA x k = false ∧ E.v .SHLA y k = false then .all else .z
    | .DIV => if E.v .DIV x y = false ∧ ∀ k, E.v .SHRA x k = false then .all else .z
    | .MOD => if E.v .MOD x y = false then .all else .z
    | _ => .no
  | .ldW, _ | .ldB, _ | .stW, _ | .stB, _ | .callF .., _ | .callP .., _ => .no
  | _, _ => g

/-- A step that does not meet one of the defects, and does not touch the memory the hardware stack
uses. `its'` and `s'` are the values and the memory after the step. -/
def StepOk (E : Env) (F : Fr) (cnt : Int → Int) (g : Gh) (t : T) (i : Instr) (its its' : List It)
    (s' : Sto) : Prop :=
  2 * its'.length ≤ F.lim ∧
  match i with
  | .ldG n => OutW F (E.adr n)
  | .ldL n => 9 < cnt n → OutW F (locA F (cnt n))
  | .ldP n => OutW F (prmA F (cnt n))
  | .ldW => ∀ y q x p l, its = .val y q :: .val x p :: l → OutW F (x + 2 * y)
  | .ldB => ∀ y q x p l, its = .val y q :: .val x p :: l → Out F (x + y)
  | .stG n => OutW F (E.adr n) ∧ Pend (Later E F s') its.tail t.stk.tail
  | .stL n => (9 < cnt n → OutW F (locA F (cnt n))) ∧ Pend (Later E F s') its.tail t.stk.tail
  | .stP n => OutW F (prmA F (cnt n)) ∧ Pend (Later E F s') its.tail t.stk.tail
  | .stW => (∀ y q x p l, its = .val y q :: .val x p :: l → OutW F (x + 2 * y)) ∧
      Pend (Later E F s') its.tail.tail.tail t.stk.tail.tail.tail
  | .stB => (∀ y q x p l, its = .val y q :: .val x p :: l → Out F (x + y)) ∧
      Pend (Later E F s') its.tail.tail.tail t.stk.tail.tail.tail
  | .a2 o => ∀ y q x p l, its = .val y q :: .val x p :: l → OpOk E g t o x y
  | .callF n f => (2 * its.length ≤ F.use ∧ E.val f = true) ∧
      Pend (fun e v p => isAcc e = false → Later E F s' e v p) (its.drop n) t.stk
  | .callP n _ => 2 * its.length ≤ F.use ∧ Pend (fun e v p => isAcc e = false → Later E F s' e v p) (its.drop n) t.stk
  | _ => True

/-- The arguments on top. -/
def splitArgs : Nat → List It → Option (List Word × List It)
  | 0, its => some ([], its)
  | n + 1, .arg v :: its => (splitArgs n its).map fun x => (v :: x.1, x.2)
  | _, _ => none

/-- The stack machine with one list for values and arguments. -/
def istep (w : World Sto) : Instr → List It × Sto → Option (List It × Sto)
  | .lab _, x => some x
  | .ldC v, (its, s) => some (.val (BitVec.ofInt 16 v) 0 :: its, s)
  | .ldG n, (its, s) => some (.val (w.read .glb n s) 0 :: its, s)
  | .ldL n, (its, s) => some (.val (w.read .loc n s) 0 :: its, s)
  | .ldP n, (its, s) => some (.val (w.read .prm n s) 0 :: its, s)
  | .ldLab n, (its, s) => some (.val (w.read .str n s) 0 :: its, s)
  | .ldNam n, (its, s) => some (.val (w.read .addr n s) 0 :: its, s)
  | .ldW, (.val i _ :: .val a _ :: its, s) => some (.val (w.load .idxi a i s) (a + 2 * i) :: its, s)
  | .ldB, (.val i _ :: .val a _ :: its, s) => some (.val (w.load .idxc a i s) (a + i) :: its, s)
  | .stG n, (.val v p :: its, s) => some (.val v p :: its, w.write .glb n v s)
  | .stL n, (.val v p :: its, s) => some (.val v p :: its, w.write .loc n v s)
  | .stP n, (.val v p :: its, s) => some (.val v p :: its, w.write .prm n v s)
  | .stW, (.val i _ :: .val a _ :: .val v p :: its, s) => some (.val v p :: its, w.store .idxi a i v s)
  | .stB, (.val i _ :: .val a _ :: .val v p :: its, s) => some (.val v p :: its, w.store .idxc a i v s)
  | .a1 o, (.val v _ :: its, s) => some (.val (a1Val o v) 0 :: its, s)
  | .a2 o, (.val y _ :: .val x _ :: its, s) => some (.val (a2Val w o x y) 0 :: its, s)
  | .pop, (.val _ _ :: its, s) => some (its, s)
  | .arg, (.val v _ :: its, s) => some (.arg v :: its, s)
  | .callF n f, (its, s) =>
    match splitArgs n its with
    | some (vs, l) => (w.call f vs s).map fun x => (.val x.1 0 :: l, x.2)
    | none => none
  | .callP n f, (its, s) =>
    match splitArgs n its with
    | some (vs, l) => (w.call f vs s).map fun x => (l, x.2)
    | none => none
  | _, _ => none

/-- Every step is `StepOk`. -/
def Safe (E : Env) (F : Fr) (cnt : Int → Int) (w : World Sto) : List Instr → Gh → T → List It → Sto → Prop
  | [], _, _, _, _ => True
  | i :: is, g, t, its, s => ∀ t' its' s', emit cnt i t = some t' → istep w i (its, s) = some (its', s') →
      StepOk E F cnt g t i its its' s' ∧ Safe E F cnt w is (gh E g i its) t' its' s'

/-! ### The stack machine with one list -/

theorem splitArgs_some {n : Nat} {its : List It} {vs : List Word} {l : List It}
    (h : splitArgs n its = some (vs, l)) : its = vs.map .arg ++ l ∧ vs.length = n := by
  induction n generalizing its vs l with
  | zero => cases h; exact ⟨rfl, rfl⟩
  | succ n ih =>
    cases its with
    | nil => cases h
    | cons i its =>
      cases i with
      | val => cases h
      | arg v =>
        simp only [splitArgs, Option.map_eq_some_iff] at h
        obtain ⟨⟨vs', l'⟩, h1, h2⟩ := h
        cases h2
        obtain ⟨rfl, rfl⟩ := ih h1
        exact ⟨rfl, rfl⟩

theorem splitArgs_shape {n : Nat} {its : List It}
    (h : (its.map It.isVal).take n = List.replicate n false) : ∃ vs l, splitArgs n its = some (vs, l) := by
  induction n generalizing its with
  | zero => exact ⟨[], its, rfl⟩
  | succ n ih =>
    cases its with
    | nil => simp [List.replicate_succ] at h
    | cons i its =>
      rw [List.replicate_succ] at h
      simp only [List.map_cons, List.take_succ_cons, List.cons.injEq] at h
      cases i with
      | val => cases h.1
      | arg v =>
        obtain ⟨vs, l, hh⟩ := ih h.2
        exact ⟨v :: vs, l, by simp [splitArgs, hh]⟩

theorem vals_args (vs : List Word) (l : List It) : vals (vs.map .arg ++ l) = vals l := by
  induction vs with
  | nil => rfl
  | cons v vs ih => exact ih

theorem argl_args (vs : List Word) (l : List It) : argl (vs.map .arg ++ l) = vs ++ argl l := by
  induction vs with
  | nil => rfl
  | cons v vs ih => simp [argl, ih]

/-- With the right shape the two machines do the same. -/
theorem istep_run {w : World Sto} {i : Instr} {its : List It} {s : Sto} {rg : Word} {sh : List Bool} {d : Data Sto}
    (h : shape i (its.map It.isVal) = some sh) (hd : Gen.run w i ⟨vals its, argl its, rg, s⟩ = some d) :
    ∃ its' s', istep w i (its, s) = some (its', s') ∧ its'.map It.isVal = sh ∧
      d = ⟨vals its', argl its', rg, s'⟩ := by
  cases i with
  | lab n => cases h; cases hd; exact ⟨its, s, rfl, rfl, rfl⟩
  | ldC v => cases h; cases hd; exact ⟨_, s, rfl, rfl, rfl⟩
  | ldG v => cases h; cases hd; exact ⟨_, s, rfl, rfl, rfl⟩
  | ldL v => cases h; cases hd; exact ⟨_, s, rfl, rfl, rfl⟩
  | ldP v => cases h; cases hd; exact ⟨_, s, rfl, rfl, rfl⟩
  | ldLab v => cases h; cases hd; exact ⟨_, s, rfl, rfl, rfl⟩
  | ldNam v => cases h; cases hd; exact ⟨_, s, rfl, rfl, rfl⟩
  | jmp n => cases h
  | jt n => cases h
  | jf n => cases h
  | mreg => cases h
  | nam f => cases h
  | entry d => cases h
  | entryK d => cases h
  | entryI d => cases h
  | ret => cases h
  | retI => cases h
  | bug => cases h
  | callF n f =>
    simp only [shape] at h
    split at h
    · rename_i hh
      cases h
      obtain ⟨vs, l, hs⟩ := splitArgs_shape hh
      obtain ⟨rfl, rfl⟩ := splitArgs_some hs
      simp only [Gen.run, argl_args, vals_args, List.take_left', List.drop_left'] at hd
      cases hc : w.call f vs s with
      | none => rw [hc] at hd; cases hd
      | some x =>
        rw [hc] at hd
        cases hd
        refine ⟨.val x.1 0 :: l, x.2, by simp [istep, hs, hc], ?_, rfl⟩
        simp [It.isVal]
    · cases h
  | callP n f =>
    simp only [shape] at h
    split at h
    · rename_i hh
      cases h
      obtain ⟨vs, l, hs⟩ := splitArgs_shape hh
      obtain ⟨rfl, rfl⟩ := splitArgs_some hs
      simp only [Gen.run, argl_args, vals_args, List.take_left', List.drop_left'] at hd
      cases hc : w.call f vs s with
      | none => rw [hc] at hd; cases hd
      | some x =>
        rw [hc] at hd
        cases hd
        refine ⟨l, x.2, by simp [istep, hs, hc], ?_, rfl⟩
        simp
    · cases h
  | _ =>
    rcases its with _ | ⟨_ | _, _ | ⟨_ | _, _ | ⟨_ | _, its⟩⟩⟩ <;>
      simp only [List.map_nil, List.map_cons, It.isVal, shape, reduceCtorEq, Option.some.injEq] at h <;>
      (subst h
       first
       | (cases hd; exact ⟨_, _, rfl, rfl, rfl⟩)
       | (simp only [vals, argl, Gen.run] at hd
          split at hd
          · cases hd; exact ⟨_, _, rfl, rfl, rfl⟩
          · cases hd))

/-! ### One step -/

theorem two_ents {V : Ent → Word → Word → Prop} {x y p q : Word} {its : List It} {es : List Ent} {hw : List Word}
    (h : Repr V (.val y q :: .val x p :: its) es hw) : ∃ e0 e1 l, es = e0 :: e1 :: l := by
  have := h.vals_length
  rcases es with _ | ⟨e0, _ | ⟨e1, l⟩⟩
  · simp [vals] at this
  · simp [vals] at this
  · exact ⟨e0, e1, l, rfl⟩

theorem Rel.two {E : Env} {F : Fr} {g : Gh} {t : T} {x y p q : Word} {its : List It} {s : Sto} {m : M} {e : Ent} {es : List Ent}
    (h : Rel E F g t (.val y q :: .val x p :: its) s m) (hs : t.stk = e :: es) : ∃ e1 l, t.stk = e :: e1 :: l := by
  obtain ⟨hw, h⟩ := h
  obtain ⟨e0, e1, l, hh⟩ := two_ents h.repr
  rw [hs] at hh
  cases hh
  exact ⟨e1, l, hs⟩

theorem Rel.three {E : Env} {F : Fr} {g : Gh} {t : T} {x y v p q r : Word} {its : List It} {s : Sto} {m : M} {e : Ent} {es : List Ent}
    (h : Rel E F g t (.val y q :: .val x p :: .val v r :: its) s m) (hs : t.stk = e :: es) :
    ∃ e1 e2 l, t.stk = e :: e1 :: e2 :: l := by
  obtain ⟨hw, h⟩ := h
  have := h.repr.vals_length
  rw [hs] at this
  rcases es with _ | ⟨e1, _ | ⟨e2, l⟩⟩
  · simp [vals] at this
  · simp [vals] at this
  · exact ⟨e1, e2, l, hs⟩

theorem gh_if {p : Prop} {inst : Decidable p} (h : (if p then Gh.all else Gh.z) = .all) : p := by
  by_contra hh
  rw [if_neg hh] at h
  cases h

theorem binary_rel {E : Env} {F : Fr} {cnt : Int → Int} {callee : Int → List Word → Sto → Option (Word × Sto)} {g : Gh} {o : A2}
    {t t' : T} {its : List It} {s : Sto} {m : M} {x y p q : Word} {e0 e1 : Ent} {es : List Ent} (w : W t)
    (hs : t.stk = e0 :: e1 :: es) (h0 : e0.sta ≠ .STK) (hr : Rel E F g t (.val y q :: .val x p :: its) s m)
    (hok : OpOk E g t o x y) (h : binary o t = some t') :
    Goes E F (gh E g (.a2 o) (.val y q :: .val x p :: its)) t t'
      (.val (a2Val (world E F cnt callee) o x y) 0 :: its) s m := by
  have cmpv : ∀ (j : Nat) (P : Prop) [Decidable P], (cond j x y ↔ P) →
      ofB (holds j (x.slt y) (x == y)) = ofB (decide P) := by
    intro j P _ hP
    congr 1
    rw [Bool.eq_iff_iff, holds_cmp, hP, decide_eq_true_iff]
  cases o with
  | ADD =>
    refine rcal_rel (o := .ADD) w hs h0 (by simp) (by simp) (BitVec.add_comm y x) hr (fun hg => ?_) h
    exact gh_if hg
  | SUB =>
    refine cal_rel (o := .SUB) w hs h0 (by simp) (by simp) hr (fun hg => ?_) h
    exact gh_if hg
  | SHL =>
    refine cal_rel (o := .SHLA) w hs h0 (by simp) (by simp) hr (fun hg => ?_) h
    exact gh_if hg
  | SHR =>
    refine cal_rel (o := .SHRA) w hs h0 (by simp) (by simp) hr (fun hg => ?_) h
    exact gh_if hg
  | BAND => exact rcal_rel (o := .AND) w hs h0 (by simp) (by simp) (BitVec.and_comm y x) hr (fun _ => ⟨rfl, rfl⟩) h
  | BXOR => exact rcal_rel (o := .XOR) w hs h0 (by simp) (by simp) (BitVec.xor_comm y x) hr (fun _ => ⟨rfl, rfl⟩) h
  | BOR => exact rcal_rel (o := .OR) w hs h0 (by simp) (by simp) (BitVec.or_comm y x) hr (fun _ => ⟨rfl, rfl⟩) h
  | MUL => exact vmMul_rel w hs h0 hr (fun hg => gh_if hg) h
  | DIV => exact vmDiv_rel w hs h0 hr hok.1 hok.2 (fun hg => gh_if hg) h
  | MOD => exact vmMod_rel w hs h0 hr hok.1 hok.2 (fun hg => gh_if hg) h
  | GT =>
    have := cmp_rel (j := 4) w (by omega) hs h0 hr (fun hel => ⟨(hok hel).1 _ _ _ hs, .inl (hok hel).2⟩) h
    rw [cmpv 4 (y.toInt < x.toInt) Iff.rfl] at this
    exact this
  | GE =>
    have := cmp_rel (j := 3) w (by omega) hs h0 hr (fun hel => ⟨(hok hel).1 _ _ _ hs, .inl (hok hel).2⟩) h
    rw [cmpv 3 (y.toInt ≤ x.toInt) Iff.rfl] at this
    exact this
  | LT =>
    have := cmp_rel (j := 0) w (by omega) hs h0 hr (fun hel => ⟨(hok hel).1 _ _ _ hs, .inl (hok hel).2⟩) h
    rw [cmpv 0 (x.toInt < y.toInt) Iff.rfl] at this
    exact this
  | LE =>
    have := cmp_rel (j := 1) w (by omega) hs h0 hr (fun hel => ⟨(hok hel).1 _ _ _ hs, .inl (hok hel).2⟩) h
    rw [cmpv 1 (x.toInt ≤ y.toInt) Iff.rfl] at this
    exact this
  | EQ =>
    have := cmp_rel (j := 2) w (by omega) hs h0 hr (fun hel => ⟨(hok hel).1 _ _ _ hs, by
      have := (hok hel).2
      cases g <;> simp_all⟩) h
    rw [cmpv 2 (x = y) BitVec.toInt_inj] at this
    exact this
  | NE =>
    have := cmp_rel (j := 5) w (by omega) hs h0 hr (fun hel => ⟨(hok hel).1 _ _ _ hs, by
      have := (hok hel).2
      cases g <;> simp_all⟩) h
    rw [cmpv 5 (x ≠ y) (not_congr BitVec.toInt_inj)] at this
    exact this

/-- One instruction. -/
theorem step_rel {E : Env} {F : Fr} {cnt : Int → Int} {callee : Int → List Word → Sto → Option (Word × Sto)}
    (hc : CallOk E F callee) {i : Instr} {g : Gh} {t t' : T} {its its' : List It} {s s' : Sto} {m : M} (w : W t)
    (hot : uses (.i i) = true → Hot t) (hcnt : Counted cnt [.i i]) (hr : Rel E F g t its s m)
    (hi : istep (world E F cnt callee) i (its, s) = some (its', s')) (hok : StepOk E F cnt g t i its its' s')
    (h : emit cnt i t = some t') : Goes E F (gh E g i its) t t' its' s' m := by
  obtain ⟨hroom, hok⟩ := hok
  have hmr := hr
  obtain ⟨hw, hmr⟩ := hmr
  cases i with
  | lab n =>
    cases hi; cases h
    exact ⟨m, [.lab (.L n)], rfl, rfl, hw, hmr.repr, hmr.hwm, hmr.sp, hmr.fp, hmr.room, hmr.lim, hmr.mem, hmr.reg, hmr.fl⟩
  | ldC v =>
    cases hi
    exact push_rel w hr (by rfl) (by simp) (by simp) (by simpa using hroom) h
  | ldG n =>
    cases hi
    refine push_rel w hr ?_ (by simp) (by simp) (by simpa using hroom) h
    exact ⟨hok, by rw [hok.lw hmr.mem]; rfl⟩
  | ldL n =>
    cases hi
    have h1 := hcnt n (.inl (by simp))
    have h : vmLdLoc (cnt n) t = some t' := h
    unfold vmLdLoc RVarSIZ AccSIZ at h
    have hroom' : 2 * (its.length + 1) ≤ F.lim := by simpa using hroom
    split at h
    · rename_i hh
      refine push_rel w hr ?_ (by simp) (by simp) hroom' h
      show m.g (cnt n - 1 + 3) = if cnt n ≤ 9 then _ else _
      rw [if_pos hh, hmr.reg _ (by omega) (by omega)]
      congr 1
      omega
    · rename_i hh
      refine push_rel w hr ?_ (by simp) (by simp) hroom' h
      have := hok (by omega)
      refine ⟨this, ?_⟩
      show m.mem.lw (locA F (cnt n)) = if cnt n ≤ 9 then _ else _
      rw [if_neg hh, this.lw hmr.mem]
  | ldP n =>
    cases hi
    have hok : OutW F (prmA F (cnt n)) := hok
    refine push_rel w hr ?_ (by simp) (by simp) (by simpa using hroom) h
    refine ⟨hok, ?_⟩
    show m.mem.lw (prmA F (cnt n)) = _
    rw [hok.lw hmr.mem]; rfl
  | ldLab n =>
    cases hi
    exact push_rel w hr (by rfl) (by simp) (by simp) (by simpa using hroom) h
  | ldNam n =>
    cases hi
    exact push_rel w hr (by rfl) (by simp) (by simp) (by simpa using hroom) h
  | jmp n => cases hi
  | jt n => cases hi
  | jf n => cases hi
  | mreg => cases hi
  | nam f => cases hi
  | entry d => cases hi
  | entryK d => cases hi
  | entryI d => cases hi
  | ret => cases hi
  | retI => cases hi
  | bug => cases hi
  | callF n f =>
    simp only [istep] at hi
    cases hs : splitArgs n its with
    | none => rw [hs] at hi; cases hi
    | some x =>
      obtain ⟨vs, l⟩ := x
      rw [hs] at hi
      simp only [Option.map_eq_some_iff, Prod.exists, Prod.mk.injEq] at hi
      obtain ⟨v, s1, hcall, rfl, rfl⟩ := hi
      obtain ⟨rfl, rfl⟩ := splitArgs_some hs
      obtain ⟨hu, hok⟩ := hok
      have hok : Pend _ ((vs.map It.arg ++ l).drop vs.length) t.stk := hok
      rw [List.drop_left' (by simp)] at hok
      exact callF_rel hc w hr hcall hu.1 hu.2 hok (by simpa using hroom) h
  | callP n f =>
    simp only [istep] at hi
    cases hs : splitArgs n its with
    | none => rw [hs] at hi; cases hi
    | some x =>
      obtain ⟨vs, l⟩ := x
      rw [hs] at hi
      simp only [Option.map_eq_some_iff, Prod.exists, Prod.mk.injEq] at hi
      obtain ⟨v, s1, hcall, rfl, rfl⟩ := hi
      obtain ⟨rfl, rfl⟩ := splitArgs_some hs
      obtain ⟨hu, hok⟩ := hok
      have hok : Pend _ ((vs.map It.arg ++ l).drop vs.length) t.stk := hok
      rw [List.drop_left' (by simp)] at hok
      exact callP_rel hc w hr hcall hu hok h
  | ldW =>
    obtain ⟨e, es, hs, h0⟩ := hot rfl
    rcases its with _ | ⟨⟨y, q⟩ | _, _ | ⟨⟨x, p⟩ | _, its⟩⟩ <;> simp only [istep, reduceCtorEq] at hi
    cases hi
    obtain ⟨e1, l, hs⟩ := hr.two hs
    exact ldW_rel w hs h0 hr (hok _ _ _ _ _ rfl) h
  | ldB =>
    obtain ⟨e, es, hs, h0⟩ := hot rfl
    rcases its with _ | ⟨⟨y, q⟩ | _, _ | ⟨⟨x, p⟩ | _, its⟩⟩ <;> simp only [istep, reduceCtorEq] at hi
    cases hi
    obtain ⟨e1, l, hs⟩ := hr.two hs
    exact ldB_rel w hs h0 hr (hok _ _ _ _ _ rfl) h
  | stG n =>
    obtain ⟨e, es, hs, h0⟩ := hot rfl
    rcases its with _ | ⟨⟨v, p⟩ | _, its⟩ <;> simp only [istep, reduceCtorEq] at hi
    cases hi
    obtain ⟨ha, hp⟩ := hok
    rw [hs] at hp
    exact stG_rel w hs hr ha hp h
  | stL n =>
    obtain ⟨e, es, hs, h0⟩ := hot rfl
    rcases its with _ | ⟨⟨v, p⟩ | _, its⟩ <;> simp only [istep, reduceCtorEq] at hi
    cases hi
    obtain ⟨ha, hp⟩ := hok
    rw [hs] at hp
    by_cases hn : cnt n ≤ 9
    · have hw : (world E F cnt callee).write .loc n v s = { s with reg := setR s.reg (cnt n + 2) v } := if_pos hn
      rw [hw] at hp ⊢
      exact stR_rel w hs h0 hr (hcnt n (.inr (by simp))) hn hp h
    · have hw : (world E F cnt callee).write .loc n v s = { s with mem := s.mem.sw (locA F (cnt n)) v } := if_neg hn
      rw [hw] at hp ⊢
      exact stM_rel w hs h0 hr hn (ha (by omega)) hp h
  | stP n =>
    obtain ⟨e, es, hs, h0⟩ := hot rfl
    rcases its with _ | ⟨⟨v, p⟩ | _, its⟩ <;> simp only [istep, reduceCtorEq] at hi
    cases hi
    obtain ⟨ha, hp⟩ := hok
    rw [hs] at hp
    exact stP_rel w hs hr ha hp h
  | stW =>
    obtain ⟨e, es, hs, h0⟩ := hot rfl
    rcases its with _ | ⟨⟨y, q⟩ | _, _ | ⟨⟨x, p⟩ | _, _ | ⟨⟨v, r⟩ | _, its⟩⟩⟩ <;> simp only [istep, reduceCtorEq] at hi
    cases hi
    obtain ⟨e1, e2, l, hs⟩ := hr.three hs
    obtain ⟨ha, hp⟩ := hok
    rw [hs] at hp
    exact stW_rel w hs h0 hr (ha _ _ _ _ _ rfl) hp h
  | stB =>
    obtain ⟨e, es, hs, h0⟩ := hot rfl
    rcases its with _ | ⟨⟨y, q⟩ | _, _ | ⟨⟨x, p⟩ | _, _ | ⟨⟨v, r⟩ | _, its⟩⟩⟩ <;> simp only [istep, reduceCtorEq] at hi
    cases hi
    obtain ⟨e1, e2, l, hs⟩ := hr.three hs
    obtain ⟨ha, hp⟩ := hok
    rw [hs] at hp
    exact stB_rel w hs h0 hr (ha _ _ _ _ _ rfl) hp h
  | a1 o =>
    obtain ⟨e, es, hs, h0⟩ := hot rfl
    rcases its with _ | ⟨⟨x, p⟩ | _, its⟩ <;> simp only [istep, reduceCtorEq] at hi
    cases hi
    refine unary_rel w hs hr (fun hg ho => ?_) h
    have hg : (if _ then _ else _) = Gh.all := hg
    by_contra hh
    rw [if_pos ⟨ho, by simpa using hh⟩] at hg
    cases hg
  | a2 o =>
    obtain ⟨e, es, hs, h0⟩ := hot rfl
    rcases its with _ | ⟨⟨y, q⟩ | _, _ | ⟨⟨x, p⟩ | _, its⟩⟩ <;> simp only [istep, reduceCtorEq] at hi
    cases hi
    obtain ⟨e1, l, hs⟩ := hr.two hs
    exact binary_rel w hs h0 hr (hok _ _ _ _ _ rfl) h
  | pop =>
    obtain ⟨e, es, hs, h0⟩ := hot rfl
    rcases its with _ | ⟨⟨x, p⟩ | _, its⟩ <;> simp only [istep, reduceCtorEq] at hi
    cases hi
    have := vmPop_form hs h
    rw [this]
    exact ⟨m, [], by simp [relDrop], Runs.nil E m, pop_rel hs h0 hr⟩
  | arg =>
    obtain ⟨e, es, hs, h0⟩ := hot rfl
    rcases its with _ | ⟨⟨x, p⟩ | _, its⟩ <;> simp only [istep, reduceCtorEq] at hi
    cases hi
    exact arg_rel w hs hr h

/-! ### The claim -/

/-- From any state of the translator and a machine that agrees with it: when the stack machine runs
the instructions, the machine runs the lines printed for them, and afterwards every entry of the
virtual stack stands for the value on the stack (`Rel`, `Repr`, `Val`), arguments and spilled values
are on the hardware stack, memory and register variables are the same.
Missing: the sequences excluded by `Safe`, for which the claim is false. -/
theorem C50_partial {E : Env} {F : Fr} {cnt : Int → Int} {callee : Int → List Word → Sto → Option (Word × Sto)}
    (hc : CallOk E F callee) (p : List Instr) : ∀ {b : Bool} {g : Gh} {t t' : T} {its : List It} {s : Sto} {m : M}
    {rg : Word} {sh : List Bool} {d : Data Sto}, W t → (b = true → Hot t) → Disc b (p.map .i) →
    Counted cnt (p.map .i) → Rel E F g t its s m → shapes p (its.map It.isVal) = some sh →
    emits cnt (p.map .i) t = some t' → Safe E F cnt (world E F cnt callee) p g t its s →
    runAll (world E F cnt callee) p ⟨vals its, argl its, rg, s⟩ = some d →
    ∃ m' c its' g', t'.out = t.out ++ c ∧ Runs E c m m' ∧ Rel E F g' t' its' d.s m' ∧
      d.stk = vals its' ∧ d.args = argl its' ∧ its'.map It.isVal = sh := by
  induction p with
  | nil =>
    intro b g t t' its s m rg sh d w hot hd hcn hr hsh he hsafe hrun
    cases he; cases hrun; cases hsh
    exact ⟨m, [], its, g, by simp, Runs.nil E m, hr, rfl, rfl, rfl⟩
  | cons i p ih =>
    intro b g t t' its s m rg sh d w hot hd hcn hr hsh he hsafe hrun
    simp only [List.map_cons, emits, emitV] at he
    simp only [shapes] at hsh
    simp only [runAll] at hrun
    cases h1 : emit cnt i t with
    | none => rw [h1] at he; cases he
    | some t1 =>
      rw [h1] at he
      cases h2 : shape i (its.map It.isVal) with
      | none => rw [h2] at hsh; cases hsh
      | some sh1 =>
        rw [h2] at hsh
        cases h3 : Gen.run (world E F cnt callee) i ⟨vals its, argl its, rg, s⟩ with
        | none => rw [h3] at hrun; cases hrun
        | some d1 =>
          rw [h3] at hrun
          obtain ⟨its1, s1, hi, hsh1, rfl⟩ := istep_run h2 h3
          obtain ⟨hok, hsafe⟩ := hsafe t1 its1 s1 h1 hi
          have hcn1 : Counted cnt [.i i] := fun n hn => hcn n (by
            simp only [List.mem_singleton] at hn
            rcases hn with hn | hn <;> simp [hn])
          obtain ⟨m1, c1, o1, r1, k1⟩ := step_rel hc w (fun hu => hot (hd.1 hu)) hcn1 hr hi hok h1
          obtain ⟨w1, hot1⟩ := emitV_step (v := .i i) w hot hd.1 hcn1 h1
          obtain ⟨m2, c2, its2, g2, o2, r2, k2, q1, q2, q3⟩ := ih w1 hot1 hd.2
            (fun n hn => hcn n (hn.imp (List.mem_cons_of_mem _) (List.mem_cons_of_mem _))) k1 (by rw [hsh1]; exact hsh) he
            hsafe hrun
          exact ⟨m2, c1 ++ c2, its2, g2, by rw [o2, o1, List.append_assoc], r1.append r2, k2, q1, q2, q3⟩

/-! ### Sequences for which `Safe` can be read off -/

/-- The instruction compares. -/
def isCmp : Instr → Bool
  | .a2 .GT | .a2 .GE | .a2 .LT | .a2 .LE | .a2 .EQ | .a2 .NE => true
  | _ => false

/-- A store or a call does not have values below its operands (assignments and calls of statements
and in arguments), and there is no division. `l` is the shape before the instruction. -/
def quiet : Instr → List Bool → Prop
  | .stG _, l | .stL _, l | .stP _, l => ∀ b ∈ l.tail, b = false
  | .stW, l | .stB, l => ∀ b ∈ l.tail.tail.tail, b = false
  | .callF n _, l | .callP n _, l => ∀ b ∈ l.drop n, b = false
  | .a2 .DIV, _ | .a2 .MOD, _ => False
  | _, _ => True

def Quiet : List Instr → List Bool → Prop
  | [], _ => True
  | i :: is, l => quiet i l ∧ ∀ l', shape i l = some l' → Quiet is l'

/-- The stack machine does not access the memory used as hardware stack through references. -/
def AddrOk (F : Fr) (w : World Sto) : List Instr → Data Sto → Prop
  | [], _ => True
  | i :: is, d =>
    (match i with
      | .ldW | .stW => ∀ y x l, d.stk = y :: x :: l → OutW F (x + 2 * y)
      | .ldB | .stB => ∀ y x l, d.stk = y :: x :: l → Out F (x + y)
      | _ => True) ∧ ∀ d', Gen.run w i d = some d' → AddrOk F w is d'

/-- The variables are not in the memory used as hardware stack. -/
structure VarsOut (E : Env) (F : Fr) (cnt : Int → Int) (p : List Instr) : Prop where
  glb : ∀ n, .ldG n ∈ p ∨ .stG n ∈ p → OutW F (E.adr n)
  loc : ∀ n, .ldL n ∈ p ∨ .stL n ∈ p → 9 < cnt n → OutW F (locA F (cnt n))
  prm : ∀ n, .ldP n ∈ p ∨ .stP n ∈ p → OutW F (prmA F (cnt n))

theorem istep_back {w : World Sto} (ht : w.Total) {i : Instr} {its its' : List It} {s s' : Sto} (rg : Word)
    (h : istep w i (its, s) = some (its', s')) :
    Gen.run w i ⟨vals its, argl its, rg, s⟩ = some ⟨vals its', argl its', rg, s'⟩ ∧
      shape i (its.map It.isVal) = some (its'.map It.isVal) ∧ its'.length ≤ its.length + 1 := by
  cases i with
  | callF n f =>
    simp only [istep] at h
    cases hs : splitArgs n its with
    | none => rw [hs] at h; cases h
    | some x =>
      obtain ⟨vs, l⟩ := x
      rw [hs] at h
      simp only [Option.map_eq_some_iff, Prod.exists, Prod.mk.injEq] at h
      obtain ⟨v, s1, hcall, rfl, rfl⟩ := h
      obtain ⟨rfl, rfl⟩ := splitArgs_some hs
      refine ⟨?_, ?_, ?_⟩
      · simp only [Gen.run, argl_args, vals_args, List.take_left', List.drop_left', hcall]
        rfl
      · have h1 : (List.map It.isVal (List.map It.arg vs ++ l)).take vs.length = List.replicate vs.length false := by
          rw [List.map_append, List.take_left' (by simp), List.map_map]
          exact List.eq_replicate_iff.2 ⟨by simp, fun b hb => by
            simp only [List.mem_map, Function.comp] at hb
            obtain ⟨_, _, rfl⟩ := hb; rfl⟩
        simp only [shape, h1, if_true, List.map_cons, It.isVal]
        rw [List.map_append, List.drop_left' (by simp)]
      · simp
  | callP n f =>
    simp only [istep] at h
    cases hs : splitArgs n its with
    | none => rw [hs] at h; cases h
    | some x =>
      obtain ⟨vs, l⟩ := x
      rw [hs] at h
      simp only [Option.map_eq_some_iff, Prod.exists, Prod.mk.injEq] at h
      obtain ⟨v, s1, hcall, rfl, rfl⟩ := h
      obtain ⟨rfl, rfl⟩ := splitArgs_some hs
      refine ⟨?_, ?_, ?_⟩
      · simp only [Gen.run, argl_args, vals_args, List.take_left', List.drop_left', hcall]
      · have h1 : (List.map It.isVal (List.map It.arg vs ++ l)).take vs.length = List.replicate vs.length false := by
          rw [List.map_append, List.take_left' (by simp), List.map_map]
          exact List.eq_replicate_iff.2 ⟨by simp, fun b hb => by
            simp only [List.mem_map, Function.comp] at hb
            obtain ⟨_, _, rfl⟩ := hb; rfl⟩
        simp only [shape, h1, if_true]
        rw [List.map_append, List.drop_left' (by simp)]
      · simp; omega
  | lab n => cases h; exact ⟨rfl, rfl, by omega⟩
  | ldC v => cases h; exact ⟨rfl, rfl, by simp⟩
  | ldG v => cases h; exact ⟨rfl, rfl, by simp⟩
  | ldL v => cases h; exact ⟨rfl, rfl, by simp⟩
  | ldP v => cases h; exact ⟨rfl, rfl, by simp⟩
  | ldLab v => cases h; exact ⟨rfl, rfl, by simp⟩
  | ldNam v => cases h; exact ⟨rfl, rfl, by simp⟩
  | _ =>
    rcases its with _ | ⟨_ | _, _ | ⟨_ | _, _ | ⟨_ | _, its⟩⟩⟩ <;>
      simp only [istep, reduceCtorEq] at h <;>
      (cases h
       first
       | exact ⟨rfl, rfl, by simp⟩
       | exact ⟨if_pos (ht _ _ _), rfl, by simp⟩
       | exact ⟨if_pos (Gen.okA_total ht _ _ _), rfl, by simp⟩)

/-! No constant 0 among the entries, so no comparison is left out. -/

def NoZero (es : List Ent) : Prop := ∀ e ∈ es, isCnst0 e = false

theorem noZero_cons {e : Ent} {es : List Ent} (h : e.sta ≠ .CNST) (hn : NoZero es) : NoZero (e :: es) := by
  intro x hx
  simp only [List.mem_cons] at hx
  rcases hx with rfl | hx
  · simp [isCnst0, h]
  · exact hn x hx

theorem NoZero.tail {e : Ent} {es : List Ent} (h : NoZero (e :: es)) : NoZero es := fun x hx => h x (by simp [hx])

theorem NoZero.moved {es es' : List Ent} (h : NoZero es) (hm : List.Forall₂ Moved es es') : NoZero es' := by
  induction hm with
  | nil => exact h
  | @cons e e' _ _ h1 _ ih =>
    rcases h1 with rfl | h1 | h1
    · intro x hx
      simp only [List.mem_cons] at hx
      rcases hx with rfl | hx
      · exact h _ (by simp)
      · exact ih h.tail x hx
    · exact noZero_cons (by rw [h1]; simp) (ih h.tail)
    · exact noZero_cons (by rw [h1]; simp) (ih h.tail)

theorem cal_moved {o : TOp} {t t' : T} {e0 e1 : Ent} {es : List Ent} (w : W t) (hs : t.stk = e0 :: e1 :: es)
    (h0 : e0.sta ≠ .STK) (h : cal o t = some t') :
    ∃ a es', t'.stk = ⟨.ACC, a⟩ :: es' ∧ List.Forall₂ Moved es es' := by
  obtain ⟨t1, a, es', sr, mi, hs1, hl, ho, hf, rfl⟩ := cal_form w hs h0 h
  have hmv := mi.moved
  rw [hs, hs1] at hmv
  exact ⟨a, es', by simp [relDrop, hs1], (List.forall₂_cons.1 (List.forall₂_cons.1 hmv).2).2⟩

theorem rcal_moved {o : TOp} {t t' : T} {e0 e1 : Ent} {es : List Ent} (w : W t) (hs : t.stk = e0 :: e1 :: es)
    (h0 : e0.sta ≠ .STK) (h : rcal o t = some t') :
    ∃ a es', t'.stk = ⟨.ACC, a⟩ :: es' ∧ List.Forall₂ Moved es es' := by
  rcases rcal_form hs h with h | ⟨ha, k1, k2, h⟩
  · exact cal_moved w hs h0 h
  · exact cal_moved (w.swap hs ⟨h0, by rw [ha]; simp⟩ ⟨k1, k2⟩) (e0 := e1) (e1 := e0) (es := es) (by simp [setTwo, hs]) k1 h

theorem cmpEnd_moved {j : Nat} {t t' : T} {e0 e1 : Ent} {es : List Ent} (w : W t) (hs : t.stk = e0 :: e1 :: es)
    (h : cmpEnd j t = some t') : ∃ a es', t'.stk = ⟨.FLAG, a⟩ :: es' ∧ List.Forall₂ Moved es es' := by
  obtain ⟨t2, a, mi, _, _, hl, _, rfl⟩ := cmpEnd_form w hs h
  have hmv := mi.moved
  have hs2 : (relDrop e1 (relDrop e0 t)).stk = es := by simp [relDrop, hs]
  rw [hs2] at hmv
  exact ⟨a, t2.stk, rfl, hmv⟩

theorem cmp_moved {j : Nat} {t t' : T} {e0 e1 : Ent} {es : List Ent} (w : W t) (hs : t.stk = e0 :: e1 :: es)
    (h0 : e0.sta ≠ .STK) (h : cmp j t = some t') :
    ∃ a es', t'.stk = ⟨.FLAG, a⟩ :: es' ∧ List.Forall₂ Moved es es' := by
  rw [cmp_eq j hs] at h
  split at h
  · exact cmpEnd_moved w hs h
  · split at h
    · exact cmpEnd_moved w hs h
    · cases h1 : cmpCode j t with
      | none => rw [h1] at h; cases h
      | some xx =>
        rw [h1] at h
        simp only [Option.bind_some] at h
        obtain ⟨sw, f0, f1, t1, r, es', sr, hsw, hff, mi, hst, hl, ho, hf, rfl⟩ := cmpCode_form w hs h0 h1
        have hmv := mi.moved
        have hs0 : ((if sw = true then setTwo e1 e0 t else t).stk) = f0 :: f1 :: es := by
          cases sw with
          | false => simp only [Bool.false_eq_true, if_false, Prod.mk.injEq] at hff ⊢; rw [hs, hff.1, hff.2]
          | true => simp only [if_true, Prod.mk.injEq] at hff; rw [hff.1, hff.2]; simp [setTwo, hs]
        rw [hs0] at hmv
        have w0 : W (if sw = true then setTwo e1 e0 t else t) := by
          cases sw with
          | false => exact w
          | true =>
            simp only [if_true, Prod.mk.injEq] at hff ⊢
            obtain ⟨rfl, rfl⟩ := hff
            obtain ⟨ha, k1, k2⟩ := hsw rfl
            exact w.swap hs ⟨h0, by rcases ha with h | h <;> rw [h] <;> simp⟩ ⟨k1, k2⟩
        have w1 := mi.W w0
        have hst' : ∃ y0 y1, t1.stk = y0 :: y1 :: es' := by
          rcases hst with ⟨_, _, h⟩ | h <;> exact ⟨_, _, h⟩
        obtain ⟨y0, y1, hst'⟩ := hst'
        rw [hst'] at hmv
        obtain ⟨a, es'', h1, h2⟩ := cmpEnd_moved (w1.out (t1.out ++ [.op .CMP (.g r) sr])) hst' h
        exact ⟨a, es'', h1, moved_trans (List.forall₂_cons.1 (List.forall₂_cons.1 hmv).2).2 h2⟩

theorem binary_moved {o : A2} {t t' : T} {e0 e1 : Ent} {es : List Ent} (w : W t) (hs : t.stk = e0 :: e1 :: es)
    (h0 : e0.sta ≠ .STK) (h : binary o t = some t') :
    ∃ e es', t'.stk = e :: es' ∧ e.sta ≠ .CNST ∧ List.Forall₂ Moved es es' := by
  have fin : (∃ a es', t'.stk = ⟨.ACC, a⟩ :: es' ∧ List.Forall₂ Moved es es') ∨
      (∃ a es', t'.stk = ⟨.FLAG, a⟩ :: es' ∧ List.Forall₂ Moved es es') →
      ∃ e es', t'.stk = e :: es' ∧ e.sta ≠ .CNST ∧ List.Forall₂ Moved es es' := by
    rintro (⟨a, es', h1, h2⟩ | ⟨a, es', h1, h2⟩)
    · exact ⟨_, es', h1, by simp, h2⟩
    · exact ⟨_, es', h1, by simp, h2⟩
  apply fin
  cases o with
  | ADD => exact .inl (rcal_moved w hs h0 h)
  | SUB => exact .inl (cal_moved w hs h0 h)
  | SHL => exact .inl (cal_moved w hs h0 h)
  | SHR => exact .inl (cal_moved w hs h0 h)
  | BAND => exact .inl (rcal_moved w hs h0 h)
  | BXOR => exact .inl (rcal_moved w hs h0 h)
  | BOR => exact .inl (rcal_moved w hs h0 h)
  | MUL =>
    rcases vmMul_form w hs h with ⟨hc, hp, h⟩ | ⟨hc, hp, hnf, h⟩ | h
    · exact .inl (cal_moved (w.setCst' hs hc) (e0 := ⟨.CNST, isPower2 e0.aux⟩) (e1 := e1) (es := es) (by simp [setTop, hs]) (by simp) h)
    · exact .inl (cal_moved (mul_left_swap (c := isPower2 e1.aux) w hs hc h0 hnf) (e0 := ⟨.CNST, isPower2 e1.aux⟩) (e1 := e0) (es := es)
        (by simp [setTwo, hs]) (by simp) h)
    · exact .inl (rcal_moved w hs h0 h)
  | DIV =>
    have h : vmDiv t = some t' := h
    unfold vmDiv at h
    simp only [Tac.top, hs, List.head?_cons, Option.bind_eq_bind, Option.bind_some] at h
    split at h
    · rename_i hc
      exact .inl (cal_moved (w.setCst' hs hc.1) (e0 := ⟨.CNST, isPower2 e0.aux⟩) (e1 := e1) (es := es) (by simp [setTop, hs]) (by simp) h)
    · exact .inl (cal_moved w hs h0 h)
  | MOD =>
    have h : vmMod t = some t' := h
    unfold vmMod at h
    simp only [Tac.top, hs, List.head?_cons, Option.bind_eq_bind, Option.bind_some] at h
    split at h
    · rename_i hc
      exact .inl (rcal_moved (w.setCst' hs hc.1) (e0 := ⟨.CNST, 2 ^ (isPower2 e0.aux).toNat - 1⟩) (e1 := e1) (es := es) (by simp [setTop, hs]) (by simp) h)
    · exact .inl (cal_moved w hs h0 h)
  | GT => exact .inr (cmp_moved w hs h0 h)
  | GE => exact .inr (cmp_moved w hs h0 h)
  | LT => exact .inr (cmp_moved w hs h0 h)
  | LE => exact .inr (cmp_moved w hs h0 h)
  | EQ => exact .inr (cmp_moved w hs h0 h)
  | NE => exact .inr (cmp_moved w hs h0 h)

theorem storeInd_moved {d : Int → Src} {t t' : T} {k : Sta} {r : Int} {e1 : Ent} {es : List Ent}
    (w : W t) (hs : t.stk = ⟨k, r⟩ :: e1 :: es) (hk : k = .WINDR ∨ k = .BINDR)
    (h : storeInd d t = some t') : List.Forall₂ Moved (e1 :: es) t'.stk := by
  obtain ⟨t1, e', es', mi, hs1, he', hl, rfl⟩ := storeInd_form w hs hk h
  have hmv := mi.moved
  rw [hs, hs1] at hmv
  simpa [relDrop, hs1] using (List.forall₂_cons.1 hmv).2

theorem vmLdByt_moved {t t' : T} {e0 e1 : Ent} {es : List Ent} (w : W t) (hs : t.stk = e0 :: e1 :: es)
    (h0 : e0.sta ≠ .STK) (h : vmLdByt t = some t') :
    ∃ r es', t'.stk = ⟨.BINDR, r⟩ :: es' ∧ List.Forall₂ Moved es es' := by
  rcases vmLdByt_form w hs h0 h with h | ⟨ha, _, t1, sr, es', mi, hs1, hl, hop, hf, rfl⟩
  · exact ldForm_moved hs h
  · have hmv := mi.moved
    rw [hs, hs1] at hmv
    exact ⟨_, _, rfl, (List.forall₂_cons.1 (List.forall₂_cons.1 hmv).2).2⟩

theorem emit_noZero {w' : World Sto} {cnt : Int → Int} {i : Instr} {t t' : T} {its its' : List It} {s s' : Sto} (w : W t)
    (hot : uses (.i i) = true → Hot t) (hl : (vals its).length = t.stk.length)
    (hi : istep w' i (its, s) = some (its', s')) (hz : i ≠ .ldC 0) (hn : NoZero t.stk)
    (h : emit cnt i t = some t') : NoZero t'.stk := by
  have push : ∀ e : Ent, isCnst0 e = false → pushStk e t = some t' → NoZero t'.stk := by
    intro e he hp
    rw [pushStk_form hp]
    intro x hx
    simp only [List.mem_cons] at hx
    rcases hx with rfl | hx
    · exact he
    · exact hn x hx
  have two : ∀ {y q x p l e es}, its = .val y q :: .val x p :: l → t.stk = e :: es → ∃ e1 l, t.stk = e :: e1 :: l := by
    intro y q x p l e es h1 h2
    rw [h1, h2] at hl
    rcases es with _ | ⟨e1, l⟩
    · simp [vals] at hl
    · exact ⟨e1, l, h2⟩
  have three : ∀ {y q x p v r l e es}, its = .val y q :: .val x p :: .val v r :: l → t.stk = e :: es →
      ∃ e1 e2 l, t.stk = e :: e1 :: e2 :: l := by
    intro y q x p v r l e es h1 h2
    rw [h1, h2] at hl
    rcases es with _ | ⟨e1, _ | ⟨e2, l⟩⟩
    · simp [vals] at hl
    · simp [vals] at hl
    · exact ⟨e1, e2, l, h2⟩
  have st : ∀ {d es}, StForm d t t' es → NoZero t'.stk := by
    rintro d es ⟨t1, e', es', mi, hs1, he', hl, rfl⟩
    exact hn.moved mi.moved
  cases i with
  | lab n => cases h; exact hn
  | ldC v =>
    refine push _ ?_ h
    simp only [isCnst0, Bool.and_eq_false_iff, decide_eq_false_iff_not]
    exact .inr fun hv => hz (by rw [hv])
  | ldG n => exact push _ rfl h
  | ldL n =>
    have h : vmLdLoc (cnt n) t = some t' := h
    unfold vmLdLoc at h
    split at h
    · exact push _ rfl h
    · exact push _ rfl h
  | ldP n => exact push _ rfl h
  | ldLab n => exact push _ rfl h
  | ldNam n => exact push _ rfl h
  | jmp n => cases hi
  | jt n => cases hi
  | jf n => cases hi
  | mreg => cases hi
  | nam f => cases hi
  | entry d => cases hi
  | entryK d => cases hi
  | entryI d => cases hi
  | ret => cases hi
  | retI => cases hi
  | bug => cases hi
  | callF n f =>
    obtain ⟨t1, mi, ha, hf, hs, rfl⟩ := vmCallF_form w h
    exact noZero_cons (by simp) (hn.moved mi.moved)
  | callP n f =>
    obtain ⟨t1, mi, ha, hf, hs, rfl⟩ := call_form w h
    exact hn.moved mi.moved
  | ldW =>
    obtain ⟨e, es, hs, h0⟩ := hot rfl
    rcases its with _ | ⟨⟨y, q⟩ | _, _ | ⟨⟨x, p⟩ | _, its⟩⟩ <;> simp only [istep, reduceCtorEq] at hi
    obtain ⟨e1, l, hs⟩ := two rfl hs
    obtain ⟨r, es', h1, h2⟩ := ldForm_moved hs (vmLdWrd_form w hs h0 h)
    rw [hs] at hn
    rw [h1]
    exact noZero_cons (by simp) (hn.tail.tail.moved h2)
  | ldB =>
    obtain ⟨e, es, hs, h0⟩ := hot rfl
    rcases its with _ | ⟨⟨y, q⟩ | _, _ | ⟨⟨x, p⟩ | _, its⟩⟩ <;> simp only [istep, reduceCtorEq] at hi
    obtain ⟨e1, l, hs⟩ := two rfl hs
    obtain ⟨r, es', h1, h2⟩ := vmLdByt_moved w hs h0 h
    rw [hs] at hn
    rw [h1]
    exact noZero_cons (by simp) (hn.tail.tail.moved h2)
  | stG n =>
    obtain ⟨e, es, hs, h0⟩ := hot rfl
    exact st (vmStGlb_form w hs h)
  | stP n =>
    obtain ⟨e, es, hs, h0⟩ := hot rfl
    exact st (vmStPrm_form w hs h)
  | stL n =>
    obtain ⟨e, es, hs, h0⟩ := hot rfl
    rcases vmStLoc_form w hs h0 h with ⟨_, h⟩ | ⟨_, he, rfl⟩ | ⟨_, he, hne, rfl⟩ | ⟨_, he, rfl⟩ | ⟨_, hf, ha, hne, sr, ho, rfl⟩
    · exact st h
    · exact hn
    · exact hn
    · rw [hs] at hn; exact noZero_cons (by simp) hn.tail
    · rw [hs] at hn; exact noZero_cons (by simp) hn.tail
  | stW =>
    obtain ⟨e, es, hs, h0⟩ := hot rfl
    rcases its with _ | ⟨⟨y, q⟩ | _, _ | ⟨⟨x, p⟩ | _, _ | ⟨⟨v, r⟩ | _, its⟩⟩⟩ <;> simp only [istep, reduceCtorEq] at hi
    obtain ⟨e1, e2, l, hs⟩ := three rfl hs
    have h : (vmLdWrd t).bind (storeInd .ind) = some t' := h
    cases h1 : vmLdWrd t with
    | none => rw [h1] at h; cases h
    | some t1 =>
      rw [h1] at h
      obtain ⟨a, es', hs1, hmv⟩ := ldForm_moved hs (vmLdWrd_form w hs h0 h1)
      obtain ⟨w1, _⟩ := vmLdWrd_step w ⟨e, _, hs, h0⟩ h1
      rw [hs] at hn
      cases hmv with
      | cons k1 k2 =>
        exact (hn.tail.tail.moved (.cons k1 k2)).moved (storeInd_moved w1 hs1 (.inl rfl) h)
  | stB =>
    obtain ⟨e, es, hs, h0⟩ := hot rfl
    rcases its with _ | ⟨⟨y, q⟩ | _, _ | ⟨⟨x, p⟩ | _, _ | ⟨⟨v, r⟩ | _, its⟩⟩⟩ <;> simp only [istep, reduceCtorEq] at hi
    obtain ⟨e1, e2, l, hs⟩ := three rfl hs
    have h : (vmLdByt t).bind (storeInd .byt) = some t' := h
    cases h1 : vmLdByt t with
    | none => rw [h1] at h; cases h
    | some t1 =>
      rw [h1] at h
      obtain ⟨a, es', hs1, hmv⟩ := vmLdByt_moved w hs h0 h1
      obtain ⟨w1, _⟩ := vmLdByt_step w ⟨e, _, hs, h0⟩ h1
      rw [hs] at hn
      cases hmv with
      | cons k1 k2 =>
        exact (hn.tail.tail.moved (.cons k1 k2)).moved (storeInd_moved w1 hs1 (.inr rfl) h)
  | a1 o =>
    obtain ⟨e, es, hs, h0⟩ := hot rfl
    obtain ⟨t1, a, es', mi, hs1, hl, hf, rfl⟩ := unary_form w hs h
    exact hn.moved mi.moved
  | a2 o =>
    obtain ⟨e, es, hs, h0⟩ := hot rfl
    rcases its with _ | ⟨⟨y, q⟩ | _, _ | ⟨⟨x, p⟩ | _, its⟩⟩ <;> simp only [istep, reduceCtorEq] at hi
    obtain ⟨e1, l, hs⟩ := two rfl hs
    obtain ⟨r, es', h1, h2, h3⟩ := binary_moved w hs h0 h
    rw [hs] at hn
    rw [h1]
    exact noZero_cons h2 (hn.tail.tail.moved h3)
  | pop =>
    obtain ⟨e, es, hs, h0⟩ := hot rfl
    have := vmPop_form hs h
    rw [this]
    rw [hs] at hn
    simpa [relDrop, hs] using hn.tail
  | arg =>
    obtain ⟨e, es, hs, h0⟩ := hot rfl
    rcases vmArg_form w hs h with ⟨hrv, t1, es', mi, hs1, hl, ha, rfl⟩ | ⟨t1, a, es', mi, hs1, hl, ha, rfl⟩
    · have := hn.moved mi.moved
      rw [hs1] at this
      simpa [relDrop, hs1] using this.tail
    · have := hn.moved mi.moved
      rw [hs1] at this
      simpa [relDrop, hs1] using this.tail

theorem pend_args (P : Ent → Word → Word → Prop) : ∀ (its : List It) (es : List Ent),
    (∀ b ∈ its.map It.isVal, b = false) → Pend P its es
  | [], _, _ => by simp [Pend]
  | .val _ _ :: _, _, h => by have := h true (by simp [It.isVal]); cases this
  | .arg _ :: its, es, h => pend_args P its es fun b hb => h b (by simp [hb])

theorem VarsOut.tail {E : Env} {F : Fr} {cnt : Int → Int} {i : Instr} {p : List Instr} (h : VarsOut E F cnt (i :: p)) :
    VarsOut E F cnt p :=
  ⟨fun n hn => h.glb n (hn.imp (List.mem_cons_of_mem _) (List.mem_cons_of_mem _)),
    fun n hn => h.loc n (hn.imp (List.mem_cons_of_mem _) (List.mem_cons_of_mem _)),
    fun n hn => h.prm n (hn.imp (List.mem_cons_of_mem _) (List.mem_cons_of_mem _))⟩

theorem elided_zero {t : T} (h : Elided t) : ¬ NoZero t.stk := by
  obtain ⟨e0, e1, es, hs, h⟩ := h
  intro hn
  rw [hs] at hn
  rcases h with h | h
  · rw [hn e0 (by simp)] at h; cases h.1
  · rw [hn e1 (by simp)] at h; cases h.1

/-- No step of a quiet sequence meets a defect. -/
theorem quiet_ok {E : Env} {F : Fr} {cnt : Int → Int} {callee : Int → List Word → Sto → Option (Word × Sto)}
    {i : Instr} {p : List Instr} {g : Gh} {t : T} {its its' : List It} {s s' : Sto} {rg : Word}
    (hq : quiet i (its.map It.isVal)) (hz : NoZero t.stk ∨ isCmp i = false)
    (ha : AddrOk F (world E F cnt callee) (i :: p) ⟨vals its, argl its, rg, s⟩) (hv : VarsOut E F cnt (i :: p))
    (hroom : 2 * its'.length ≤ F.lim) (huse : 2 * its.length ≤ F.use) (hval : ∀ n f, i = .callF n f → E.val f = true) : StepOk E F cnt g t i its its' s' := by
  have hz' : isCmp i = true → ¬ Elided t := fun hc he => by
    rcases hz with hz | hz
    · exact elided_zero he hz
    · rw [hz] at hc; cases hc
  have hd : ∀ (n : Nat) (P : Ent → Word → Word → Prop) (es : List Ent),
      (∀ b ∈ (its.map It.isVal).drop n, b = false) → Pend P (its.drop n) es := fun n P es h =>
    pend_args P _ es (by rw [List.map_drop]; exact h)
  have h3 : ∀ {α : Type} (l : List α), l.tail.tail.tail = l.drop 3 := fun l => by
    rw [← List.drop_one, ← List.drop_one, ← List.drop_one, List.drop_drop, List.drop_drop]
  refine ⟨hroom, ?_⟩
  cases i with
  | ldG n => exact hv.glb n (by simp)
  | ldL n => exact hv.loc n (by simp)
  | ldP n => exact hv.prm n (by simp)
  | stG n => exact ⟨hv.glb n (by simp), by have := hd 1 (Later E F s') t.stk.tail (by simpa [quiet] using hq); simpa using this⟩
  | stL n => exact ⟨hv.loc n (by simp), by have := hd 1 (Later E F s') t.stk.tail (by simpa [quiet] using hq); simpa using this⟩
  | stP n => exact ⟨hv.prm n (by simp), by have := hd 1 (Later E F s') t.stk.tail (by simpa [quiet] using hq); simpa using this⟩
  | ldW =>
    rintro y q x p l rfl
    exact ha.1 y x _ rfl
  | ldB =>
    rintro y q x p l rfl
    exact ha.1 y x _ rfl
  | stW =>
    refine ⟨?_, ?_⟩
    · rintro y q x p l rfl
      exact ha.1 y x _ rfl
    · have := hd 3 (Later E F s') t.stk.tail.tail.tail (by rw [← h3]; exact hq)
      rwa [← h3] at this
  | stB =>
    refine ⟨?_, ?_⟩
    · rintro y q x p l rfl
      exact ha.1 y x _ rfl
    · have := hd 3 (Later E F s') t.stk.tail.tail.tail (by rw [← h3]; exact hq)
      rwa [← h3] at this
  | callF n f => exact ⟨⟨huse, hval n f rfl⟩, hd n _ _ hq⟩
  | callP n f => exact ⟨huse, hd n _ _ hq⟩
  | a2 o =>
    intro y q x p l _
    cases o with
    | DIV => exact hq.elim
    | MOD => exact hq.elim
    | GT => exact fun he => absurd he (hz' rfl)
    | GE => exact fun he => absurd he (hz' rfl)
    | LT => exact fun he => absurd he (hz' rfl)
    | LE => exact fun he => absurd he (hz' rfl)
    | EQ => exact fun he => absurd he (hz' rfl)
    | NE => exact fun he => absurd he (hz' rfl)
    | _ => trivial
  | _ => trivial

theorem quiet_run {E : Env} {F : Fr} {cnt : Int → Int} {callee : Int → List Word → Sto → Option (Word × Sto)}
    (hc : CallOk E F callee) (p : List Instr) : ∀ {b : Bool} {g : Gh} {t t' : T} {its : List It} {s : Sto} {m : M}
    {rg : Word} {sh : List Bool} {d : Data Sto}, W t → (b = true → Hot t) → Disc b (p.map .i) →
    Counted cnt (p.map .i) → Rel E F g t its s m → shapes p (its.map It.isVal) = some sh →
    emits cnt (p.map .i) t = some t' → Quiet p (its.map It.isVal) →
    ((∀ i ∈ p, i ≠ .ldC 0) ∧ NoZero t.stk ∨ ∀ i ∈ p, isCmp i = false) →
    AddrOk F (world E F cnt callee) p ⟨vals its, argl its, rg, s⟩ → VarsOut E F cnt p →
    2 * (its.length + p.length) ≤ F.lim → 2 * (its.length + p.length) ≤ F.use → (∀ n f, .callF n f ∈ p → E.val f = true) →
    runAll (world E F cnt callee) p ⟨vals its, argl its, rg, s⟩ = some d →
    ∃ m' c its' g' b', t'.out = t.out ++ c ∧ Runs E c m m' ∧ W t' ∧ (b' = true → Hot t') ∧
      (∀ q, Disc b ((p ++ q).map .i) → Disc b' (q.map .i)) ∧ Rel E F g' t' its' d.s m' ∧
      d.stk = vals its' ∧ d.args = argl its' ∧ its'.map It.isVal = sh := by
  induction p with
  | nil =>
    intro b g t t' its s m rg sh d w hot hd hcn hr hsh he hq hz ha hv hroom huse hval hrun
    cases he; cases hrun; cases hsh
    exact ⟨m, [], its, g, b, by simp, Runs.nil E m, w, hot, fun q h => h, hr, rfl, rfl, rfl⟩
  | cons i p ih =>
    intro b g t t' its s m rg sh d w hot hd hcn hr hsh he hq hz ha hv hroom huse hval hrun
    simp only [List.map_cons, emits, emitV] at he
    simp only [shapes] at hsh
    simp only [runAll] at hrun
    cases h1 : emit cnt i t with
    | none => rw [h1] at he; cases he
    | some t1 =>
      rw [h1] at he
      cases h2 : shape i (its.map It.isVal) with
      | none => rw [h2] at hsh; cases hsh
      | some sh1 =>
        rw [h2] at hsh
        cases h3 : Gen.run (world E F cnt callee) i ⟨vals its, argl its, rg, s⟩ with
        | none => rw [h3] at hrun; cases hrun
        | some d1 =>
          rw [h3] at hrun
          obtain ⟨its1, s1, hi, hsh1, rfl⟩ := istep_run h2 h3
          obtain ⟨-, -, hlen⟩ := istep_back (fun _ _ _ => rfl) rg hi
          simp only [List.length_cons] at hroom huse
          have hz0 : NoZero t.stk ∨ isCmp i = false := hz.imp (fun h => h.2) fun h => h i (by simp)
          have hok : StepOk E F cnt g t i its its1 s1 := quiet_ok hq.1 hz0 ha hv (by omega) (by omega)
            fun n f e => hval n f (by simp [e])
          have hcn1 : Counted cnt [.i i] := fun n hn => hcn n (by
            simp only [List.mem_singleton] at hn
            rcases hn with hn | hn <;> simp [hn])
          obtain ⟨m1, c1, o1, r1, k1⟩ := step_rel hc w (fun hu => hot (hd.1 hu)) hcn1 hr hi hok h1
          obtain ⟨w1, hot1⟩ := emitV_step (v := .i i) w hot hd.1 hcn1 h1
          have hz1 : (∀ i ∈ p, i ≠ .ldC 0) ∧ NoZero t1.stk ∨ ∀ i ∈ p, isCmp i = false := by
            rcases hz with ⟨ha, hb⟩ | hz
            · obtain ⟨hw, hr⟩ := hr
              exact .inl ⟨fun j hj => ha j (by simp [hj]),
                emit_noZero w (fun hu => hot (hd.1 hu)) hr.repr.vals_length hi (ha i (by simp)) hb h1⟩
            · exact .inr fun j hj => hz j (by simp [hj])
          obtain ⟨m2, c2, its2, g2, b2, o2, r2, w2, hot2, hd2, k2, q1, q2, q3⟩ := ih w1 hot1 hd.2
            (fun n hn => hcn n (hn.imp (List.mem_cons_of_mem _) (List.mem_cons_of_mem _))) k1 (by rw [hsh1]; exact hsh) he
            (by rw [hsh1]; exact hq.2 _ h2) hz1 (ha.2 _ h3) hv.tail (by omega) (by omega) (fun n f h => hval n f (by simp [h])) hrun
          exact ⟨m2, c1 ++ c2, its2, g2, b2, by rw [o2, o1, List.append_assoc], r1.append r2, w2, hot2,
            fun q h => hd2 q h.2, k2, q1, q2, q3⟩

theorem dn0 (b : Word) : dn b 0 = b := by simp [dn, ad]

/-- Between two statements the entries and the hardware stack are empty. -/
theorem rel_start {E : Env} {F : Fr} {t : T} {m : M} {s : Sto} (hs : t.stk = []) (hsp : m.sp = F.base)
    (hfp : m.fp = F.fp) (hl : F.lim < 65535) (hm : ∀ a, Out F a → m.mem a = s.mem a)
    (hg : ∀ r, 3 ≤ r → r ≤ 11 → m.g r = s.reg r) : Rel E F .no t [] s m := by
  refine ⟨[], by rw [hs]; exact .nil, trivial, by rw [hsp, List.length_nil, dn0], hfp, by simp, hl, hm, hg, ?_⟩
  exact fun h => absurd rfl h

/-- C50 for a statement: the entries are empty before and after. The code then changes the memory
outside of the hardware stack and the variables in registers exactly as the stack machine does, and
leaves SP and FP as they were. `Quiet`: stores and calls have no values below their operands, and
there is no division. No comparison is left out: the constant 0 does not occur, or no comparison. -/
theorem C50_statement {E : Env} {F : Fr} {cnt : Int → Int} {callee : Int → List Word → Sto → Option (Word × Sto)}
    (hc : CallOk E F callee) {p : List Instr} {t t' : T} {s : Sto} {m : M} {rg : Word} {d : Data Sto}
    (w : W t) (hs : t.stk = []) (hd : Disc false (p.map .i)) (hcn : Counted cnt (p.map .i))
    (hsh : shapes p [] = some []) (hq : Quiet p []) (hz : (∀ i ∈ p, i ≠ .ldC 0) ∨ ∀ i ∈ p, isCmp i = false)
    (hv : VarsOut E F cnt p) (hl : 2 * p.length ≤ F.lim) (hl' : F.lim < 65535) (hu : 2 * p.length ≤ F.use)
    (hval : ∀ n f, .callF n f ∈ p → E.val f = true)
    (hsp : m.sp = F.base) (hfp : m.fp = F.fp) (hm : ∀ a, Out F a → m.mem a = s.mem a)
    (hg : ∀ r, 3 ≤ r → r ≤ 11 → m.g r = s.reg r)
    (ha : AddrOk F (world E F cnt callee) p ⟨[], [], rg, s⟩) (he : emits cnt (p.map .i) t = some t')
    (hrun : runAll (world E F cnt callee) p ⟨[], [], rg, s⟩ = some d) :
    ∃ m' c, t'.out = t.out ++ c ∧ Runs E c m m' ∧ t'.stk = [] ∧ m'.sp = F.base ∧ m'.fp = F.fp ∧
      (∀ a, Out F a → m'.mem a = d.s.mem a) ∧ ∀ r, 3 ≤ r → r ≤ 11 → m'.g r = d.s.reg r := by
  obtain ⟨m', c, its', g', b', o, r, w', -, -, k, -, -, q3⟩ := quiet_run hc p (b := false) (its := []) (rg := rg) w
    (fun h => by cases h) hd hcn (rel_start (E := E) hs hsp hfp hl' hm hg) hsh he hq
    (hz.imp_left fun h => ⟨h, by rw [hs]; intro e he; cases he⟩) ha hv (by simpa using hl) (by simpa using hu) hval hrun
  have : its' = [] := by simpa using q3
  subst this
  obtain ⟨hw, k⟩ := k
  have hrep := k.repr
  generalize hst : t'.stk = es at hrep
  cases hrep
  exact ⟨m', c, o, r, rfl, by rw [k.sp, List.length_nil, dn0], k.fp, k.mem, k.reg⟩

/-- C50 for the value of a function: after the sequence and vmMReg the value is in G0. -/
theorem C50_return {E : Env} {F : Fr} {cnt : Int → Int} {callee : Int → List Word → Sto → Option (Word × Sto)}
    (hc : CallOk E F callee) {p : List Instr} {t t' : T} {s : Sto} {m : M} {rg v : Word} {s' : Sto} {as : List Word}
    (w : W t) (hs : t.stk = []) (hd : Disc false ((p ++ [Instr.mreg]).map .i)) (hcn : Counted cnt (p.map .i))
    (hsh : shapes p [] = some [true]) (hq : Quiet p []) (hz : (∀ i ∈ p, i ≠ .ldC 0) ∨ ∀ i ∈ p, isCmp i = false)
    (hv : VarsOut E F cnt p) (hl : 2 * p.length ≤ F.lim) (hl' : F.lim < 65535) (hu : 2 * p.length ≤ F.use)
    (hval : ∀ n f, .callF n f ∈ p → E.val f = true)
    (hsp : m.sp = F.base) (hfp : m.fp = F.fp) (hm : ∀ a, Out F a → m.mem a = s.mem a)
    (hg : ∀ r, 3 ≤ r → r ≤ 11 → m.g r = s.reg r)
    (ha : AddrOk F (world E F cnt callee) p ⟨[], [], rg, s⟩)
    (he : emits cnt ((p ++ [Instr.mreg]).map .i) t = some t')
    (hrun : runAll (world E F cnt callee) p ⟨[], [], rg, s⟩ = some ⟨[v], as, rg, s'⟩) :
    ∃ m' c, t'.out = t.out ++ c ∧ Runs E c m m' ∧ t'.stk = [] ∧ m'.g 0 = v ∧ m'.sp = F.base ∧ m'.fp = F.fp ∧
      (∀ a, Out F a → m'.mem a = s'.mem a) ∧ ∀ r, 3 ≤ r → r ≤ 11 → m'.g r = s'.reg r := by
  have hap : ∀ (l : List Instr) (x : T), emits cnt ((l ++ [Instr.mreg]).map .i) x =
      (emits cnt (l.map .i) x).bind fun y => vmMReg y := by
    intro l
    induction l with
    | nil => intro x; simp [emits, emitV, emit]
    | cons i l ih =>
      intro x
      simp only [List.cons_append, List.map_cons, emits]
      cases emitV cnt (.i i) x with
      | none => rfl
      | some y => exact ih y
  have hdp : ∀ (l : List Instr) (b : Bool), Disc b ((l ++ [Instr.mreg]).map .i) → Disc b (l.map .i) := by
    intro l
    induction l with
    | nil => intro b _; trivial
    | cons i l ih => intro b h; exact ⟨h.1, ih _ h.2⟩
  rw [hap] at he
  cases he1 : emits cnt (p.map .i) t with
  | none => rw [he1] at he; cases he
  | some t1 =>
    rw [he1] at he
    have he : vmMReg t1 = some t' := he
    obtain ⟨m1, c, its', g', b', o, r, w', hot', hd', k, q1, q2, q3⟩ := quiet_run hc p (b := false) (its := []) (rg := rg) w
      (fun h => by cases h) (hdp p false hd) hcn (rel_start (E := E) hs hsp hfp hl' hm hg) hsh he1 hq
      (hz.imp_left fun h => ⟨h, by rw [hs]; intro e he; cases he⟩) ha hv (by simpa using hl) (by simpa using hu) hval hrun
    rcases its' with _ | ⟨⟨v', p'⟩ | _, _ | ⟨_, _⟩⟩
    · simp at q3
    · have : v = v' := by simpa [vals] using q1
      subst this
      have hhot := hot' ((hd' [.mreg] hd).1 rfl)
      obtain ⟨e, es, hst, h0⟩ := hhot
      have hes : es = [] := by
        obtain ⟨hw, k⟩ := k
        have := k.repr.vals_length
        rw [hst] at this
        simpa [vals] using this
      subst hes
      obtain ⟨m2, c2, o2, r2, k2, g2⟩ := mreg_rel w' hst h0 k he
      obtain ⟨hw, k2⟩ := k2
      have hrep := k2.repr
      generalize hst : t'.stk = es at hrep
      cases hrep
      exact ⟨m2, c ++ c2, by rw [o2, o, List.append_assoc], r.append r2, rfl, g2, by rw [k2.sp, List.length_nil, dn0], k2.fp, k2.mem, k2.reg⟩
    · simp at q3
    · simp [It.isVal] at q3
    · simp at q3

/-! ### Examples -/

/-- Names at 0x100, one function that adds 1 to its argument. -/
def incEnv : Env where
  adr n := 0x100 + 2 * BitVec.ofInt 16 n
  lab n := 0x200 + 2 * BitVec.ofInt 16 n
  fn _ m := some { m with g := setG m.g 0 (m.mem.lw m.sp + 1) }
  val _ := true
  chk m := some m
  div := BitVec.sdiv
  mod := BitVec.srem
  v _ _ _ := false

def incFr : Fr := ⟨0xf000, 100, 0xf010, 100⟩

def exCallee : Int → List Word → Sto → Option (Word × Sto)
  | _, [v], s => some (v + 1, s)
  | _, _, _ => none

theorem exCall : CallOk incEnv incFr exCallee := by
  intro f vs s v s' m hw h hfp hsp hl _ hh hm hg
  rcases vs with _ | ⟨a, _ | ⟨b, vs⟩⟩
  · cases h
  · cases h
    refine ⟨_, rfl, rfl, rfl, fun _ => ?_, hh.2, hm, fun r h3 h11 => ?_⟩
    · rw [show m.sp = dn incFr.base (hw.length + 1) from hsp]
      simp only [setG, if_true]
      rw [show m.mem.lw (dn incFr.base (hw.length + 1)) = a from hh.1]
    · rw [← hg r h3 h11]
      show setG m.g 0 _ r = _
      exact if_neg (by omega)
  · cases h

theorem out_low {a : Word} (h : a.toNat < 0xef00) : Out incFr a := by
  intro k h1 h2 he
  rw [he] at h
  have h2 : k ≤ 100 := h2
  have : (ad incFr.base (-k)).toNat = 0xf000 - k.toNat := by
    show ((0xf000 : Word) + BitVec.ofInt 16 (-k)).toNat = _
    rw [BitVec.toNat_add, BitVec.toNat_ofInt]
    show (0xf000 + ((-k) % 65536).toNat) % 65536 = _
    omega
  omega

/-- `g = f(a + 3)` with a register variable a and a global variable g. -/
def exCode : List Instr := [.ldL 1, .ldC 3, .a2 .ADD, .arg, .callF 1 7, .stG 5, .pop]

/-- The hypotheses of `C50_statement` hold for `g = f(a + 3)`; the code stores a + 4 in g. -/
example (s : Sto) (m : M) (hsp : m.sp = 0xf000) (hfp : m.fp = 0xf010) (hm : m.mem = s.mem) (hg : m.g = s.reg) :
    ∃ t' m', emits (fun n => n) (exCode.map .i) T.init = some t' ∧ Runs incEnv t'.out m m' ∧
      m'.mem.lw 0x10a = m.g 3 + 4 ∧ m'.sp = 0xf000 := by
  obtain ⟨t', ht⟩ : ∃ t', emits (fun n => n) (exCode.map .i) T.init = some t' := ⟨_, rfl⟩
  obtain ⟨m', c, o, r, -, h1, -, h2, -⟩ := C50_statement exCall (p := exCode) (t := T.init) (s := s) (m := m) (rg := 0)
    (cnt := fun n => n) W.init rfl
    (by simp [exCode, Disc, uses, fresh])
    (by intro n hn; have : n = 1 := by simpa [exCode] using hn
        subst this; decide) (by decide)
    (by simp [exCode, Quiet, quiet, shape]) (.inl (by simp [exCode]))
    ⟨fun n hn => by
        have : n = 5 := by simpa [exCode] using hn
        subst this
        exact ⟨out_low (by decide), out_low (by decide)⟩,
      fun n hn h9 => by
        have : n = 1 := by simpa [exCode] using hn
        subst this; omega,
      fun n hn => by simp [exCode] at hn⟩
    (by decide) (by decide) (by decide) (fun _ _ _ => rfl) hsp hfp (fun a _ => by rw [hm]) (fun r _ _ => by rw [hg])
    (by simp [exCode, AddrOk]) ht rfl
  refine ⟨t', m', ht, by rw [o]; exact r, ?_, h1⟩
  have e : ∀ x : Mem, x.lw 0x10a = x 0x10a ++ x 0x10b := fun _ => rfl
  rw [e, h2 _ (out_low (by decide)), h2 _ (out_low (by decide)), ← e]
  show ((s.mem.sw (0x100 + 2 * 5) (s.reg 3 + 3 + 1)).lw 0x10a) = _
  rw [show (0x100 + 2 * 5 : Word) = 0x10a from rfl, Mem.lw_sw_same, hg, BitVec.add_assoc]
  rfl

/-- Variables are read too late: in `a - (a = 5)` with a register variable a the stack machine gives
a - 5, the code always 0. -/
theorem C50_lazy_false (E : Env) (F : Fr) (callee : Int → List Word → Sto → Option (Word × Sto)) (m : M) :
    ∃ t m', emits (fun n => n) ([Instr.ldL 1, .ldC 5, .stL 1, .a2 .SUB, .mreg].map .i) T.init = some t ∧
      Runs E t.out m m' ∧ m'.g 0 = 0 ∧
      (runAll (world E F (fun n => n) callee) [.ldL 1, .ldC 5, .stL 1, .a2 .SUB]
        ⟨[], [], 0, ⟨m.mem, m.g⟩⟩).map Data.stk = some [m.g 3 - 5] := by
  refine ⟨_, _, rfl, rfl, ?_, ?_⟩
  · simp [M.doOp, M.setReg, setG, M.reg, alu, srcVal]
  · simp [runAll, Gen.run, world, a2Val, Gen.okA]

end Cmm.Tac
