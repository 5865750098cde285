import Verif.Tac.Static
import Verif.Tac.Step4
import Verif.Tac.Labs

/-
C59: the TaC code of a function body with jumps (loops, conditions, returns) does what the stack code
does (src/vm2tac.c as a whole, without entry and exit code).

The stack code runs on the machine of Verif/Gen/VM.lean, the printed lines on the machine of
Verif/Tac/Flow.lean. The conditions on the code (`Fits`) can be read off by running vm2tac.c on it: they
exclude the defects of C50, C52 and C53. `C59` says that every run of the stack code, as far as it gets, is
followed by the lines; `C59_end` and `C59_return` say what that means at the end of a statement and at the
end of a function.
-/
namespace Cmm.Tac
open Cmm.Tree (World ofB)
open Cmm.Gen (Instr A1 A2 Data Cfg Step Steps Idle)

/-! ### Specification -/

/-- What is known about the flags after an instruction, whatever the values are. -/
def sgh (g : Gh) : Instr → Gh
  | .lab _ | .jmp _ | .jt _ | .jf _ | .mreg => .all
  | .a1 .NEG => .z
  | .a1 _ => .all
  | .a2 .BAND | .a2 .BXOR | .a2 .BOR => .all
  | .a2 .GT | .a2 .GE | .a2 .LT | .a2 .LE | .a2 .EQ | .a2 .NE => .no
  | .a2 _ => .z
  | .ldW | .ldB | .stW | .stB | .callF .. | .callP .. => .no
  | _ => g

/-- The comparison is left out (as `Elided`). -/
def elided (t : T) : Bool :=
  match t.stk with
  | e0 :: e1 :: es => (isCnst0 e0 && t.flg == some es.length) || (isCnst0 e1 && t.flg == some (es.length + 1))
  | _ => false

/-- The second entry is not on the hardware stack. -/
def secondIn (t : T) : Bool :=
  match t.stk with
  | _ :: e1 :: _ => e1.sta != .STK
  | _ => true

/-- JT and JF use the flags of an earlier operation. -/
def borrowed (t : T) : Bool :=
  match t.stk with
  | e :: es => e.sta != .FLAG && t.flg == some es.length
  | _ => false

/-- The entry does not depend on the memory. -/
def memFree (e : Ent) : Bool :=
  match e.sta with
  | .GVAR | .LVAR | .PRM | .WINDR | .BINDR => false
  | _ => true

/-- The entry does not depend on register `r`. -/
def regFree (r : Int) (e : Ent) : Bool :=
  match e.sta with
  | .RVAR | .WINDR | .BINDR => e.aux != r
  | _ => true

/-- The entry keeps its value during a call. `K` are the offsets to FP that calls leave alone. -/
def callFree (K : Int → Bool) (e : Ent) : Bool :=
  isAcc e || (match e.sta with
    | .GVAR | .WINDR | .BINDR => false
    | .LVAR => K (-e.aux) && K (-e.aux + 1)
    | .PRM => K e.aux && K (e.aux + 1)
    | _ => true)

/-- The instruction does not meet one of the known defects. -/
def fit (cnt : Int → Int) (K : Int → Bool) (g : Gh) (t : T) : Instr → Bool
  | .jt _ | .jf _ => !borrowed t || g != .no
  | .a2 .EQ | .a2 .NE => !elided t || (secondIn t && g != .no)
  | .a2 .GT | .a2 .GE | .a2 .LT | .a2 .LE => !elided t || (secondIn t && g == .all)
  | .stG _ | .stP _ => t.stk.tail.all memFree
  | .stL n => t.stk.tail.all (if cnt n ≤ 9 then regFree (cnt n + 2) else memFree)
  | .stW | .stB => t.stk.tail.tail.tail.all memFree
  | .callF .. | .callP .. => t.stk.all (callFree K)
  | _ => true

/-- No instruction meets one of the known defects. -/
def Fits (cnt : Int → Int) (K : Int → Bool) : List Instr → Gh → T → Bool
  | [], _, _ => true
  | i :: is, g, t => fit cnt K g t i &&
      match emit cnt i t with
      | some t' => Fits cnt K is (sgh g i) t'
      | none => true

/-- What a called function leaves alone: the variables in registers, and the part `K` of the frame of the
caller. -/
def Keeps (F : Fr) (K : Int → Bool) (callee : Int → List Word → Sto → Option (Word × Sto)) : Prop :=
  ∀ f vs s v s', callee f vs s = some (v, s') → (∀ r, 3 ≤ r → r ≤ 11 → s'.reg r = s.reg r) ∧
    ∀ k, K k = true → s'.mem (F.fp + BitVec.ofInt 16 k) = s.mem (F.fp + BitVec.ofInt 16 k)

/-- A configuration in which the next instruction does not access the hardware stack through a reference,
and does not divide a negative number by a power of two with a remainder. -/
def CfgOk (F : Fr) (P : List Instr) (c : Cfg Sto) : Prop :=
  match P[c.pc]?, c.d.stk with
  | some .ldW, y :: x :: _ | some .stW, y :: x :: _ => OutW F (x + 2 * y)
  | some .ldB, y :: x :: _ | some .stB, y :: x :: _ => Out F (x + y)
  | some (.a2 .DIV), y :: x :: _ | some (.a2 .MOD), y :: x :: _ =>
    (∃ k : Nat, y.toInt = 2 ^ k) → 0 ≤ x.toInt ∨ y.toInt ∣ x.toInt
  | _, _ => True

/-- The processor divides as the stack machine does. -/
def DivOk (E : Env) : Prop := ∀ x y, y ≠ 0 → E.div x y = x.sdiv y ∧ E.mod x y = x.srem y

/-- The code of a function body: `P` is translated, beginning in state `t` with an empty stack. -/
structure Code (E : Env) (F : Fr) (cnt : Int → Int) (K : Int → Bool) (P : List Instr) (t tE : T) : Prop where
  w : W t
  emp : t.stk = []
  disc : Disc false (P.map .i)
  counted : Counted cnt (P.map .i)
  shape : ∃ l, shapesF P [] = some l
  emits : emits cnt (P.map .i) t = some tE
  fits : Fits cnt K P .all t = true
  vars : VarsOut E F cnt P
  room : ∀ n l, shapesF (P.take n) [] = some l → 2 * l.length ≤ F.use
  use : F.use ≤ F.lim
  vals : ∀ n f, .callF n f ∈ P → E.val f = true
  lim : F.lim < 65535

/-- The line that belongs to an instruction. -/
def lineOf (cnt : Int → Int) (P : List Instr) (t : T) (pc : Nat) : Option Nat :=
  (emits cnt ((P.take pc).map .i) t).map fun t' => t'.out.length

/-- Machine and stack machine agree between two statements. -/
structure Agree (F : Fr) (s : Sto) (m : M) : Prop where
  sp : m.sp = F.base
  fp : m.fp = F.fp
  mem : ∀ a, Out F a → m.mem a = s.mem a
  reg : ∀ r, 3 ≤ r → r ≤ 11 → m.g r = s.reg r

/-! ### What is known about the flags -/

def Gh.le : Gh → Gh → Prop
  | .no, _ => True
  | .z, g => g ≠ .no
  | .all, g => g = .all

theorem Gh.le_refl (g : Gh) : g.le g := by cases g <;> simp [Gh.le]

theorem Rel.mono {E : Env} {F : Fr} {g g' : Gh} {t : T} {its : List It} {s : Sto} {m : M} (h : Rel E F g t its s m)
    (hg : g'.le g) : Rel E F g' t its s m := by
  obtain ⟨hw, h⟩ := h
  refine ⟨hw, h.repr, h.hwm, h.sp, h.fp, h.room, h.lim, h.mem, h.reg, fun h' => ?_⟩
  have hn : g ≠ .no := by cases g' <;> cases g <;> simp_all [Gh.le]
  obtain ⟨h1, h2⟩ := h.fl hn
  refine ⟨h1, fun p v hp hv => ?_⟩
  obtain ⟨h3, h4⟩ := h2 p v hp hv
  refine ⟨h3, fun h' => h4 ?_⟩
  subst h'
  exact hg

/-- With an empty stack the flags do not matter. -/
theorem Rel.empty {E : Env} {F : Fr} {g g' : Gh} {t t' : T} {s : Sto} {m : M} (h : Rel E F g t [] s m)
    (hs : t'.stk = []) : Rel E F g' t' [] s m := by
  obtain ⟨hw, h⟩ := h
  have hr := h.repr
  generalize t.stk = es at hr
  cases hr
  refine ⟨[], by rw [hs]; exact .nil, trivial, h.sp, h.fp, h.room, h.lim, h.mem, h.reg, fun _ => ?_⟩
  rw [hs]
  exact ⟨by simp, fun p v _ hv => by simp [vals] at hv⟩

theorem le_if {p : Prop} {inst : Decidable p} : Gh.le .z (if p then Gh.all else Gh.z) := by
  by_cases h : p
  · rw [if_pos h]; simp [Gh.le]
  · rw [if_neg h]; simp [Gh.le]

theorem sgh_le {E : Env} {w : World Sto} {g : Gh} {i : Instr} {its its' : List It} {s s' : Sto}
    (h : istep w i (its, s) = some (its', s')) (hl : ∀ n, i ≠ .lab n) : (sgh g i).le (gh E g i its) := by
  cases i with
  | lab n => exact absurd rfl (hl n)
  | a1 o =>
    rcases its with _ | ⟨_ | _, its⟩ <;> try (simp only [istep, reduceCtorEq] at h)
    cases o
    case NEG =>
      simp only [sgh, gh]
      split <;> simp [Gh.le]
    all_goals simp [sgh, gh, Gh.le]
  | a2 o =>
    rcases its with _ | ⟨_ | _, _ | ⟨_ | _, its⟩⟩ <;> try (simp only [istep, reduceCtorEq] at h)
    cases o <;> simp only [sgh, gh] <;> first | exact le_if | exact Gh.le_refl _
  | jmp n => cases h
  | jt n => cases h
  | jf n => cases h
  | mreg => cases h
  | _ => exact Gh.le_refl _

/-! ### The conditions of a step -/

theorem elided_iff {t : T} : Elided t ↔ elided t = true := by
  unfold Elided elided
  rcases t.stk with _ | ⟨e0, _ | ⟨e1, es⟩⟩
  · simp
  · simp
  · simp [Bool.or_eq_true]

theorem second_iff {t : T} (h : secondIn t = true) : ∀ e0 e1 es, t.stk = e0 :: e1 :: es → e1.sta ≠ .STK := by
  intro e0 e1 es hs
  rw [secondIn, hs] at h
  simpa using h

/-- Entries and values in order. -/
theorem pend_of {E : Env} {F : Fr} {V P : Ent → Word → Word → Prop} {its : List It} {es : List Ent} {hw : List Word}
    (h : Repr V its es hw) (hp : ∀ e ∈ es, e.sta = .STK ∨ ∀ v p, V e v p → P e v p) (h0 : ∀ a v p, P ⟨.STK, a⟩ v p) :
    Pend P its es := by
  induction h with
  | nil => simp [Pend]
  | @val v p e its es hw h1 h2 _ ih =>
    refine ⟨?_, ih fun e he => hp e (by simp [he])⟩
    rcases hp e (by simp) with h | h
    · exact absurd h h1
    · exact h _ _ h2
  | stk _ _ ih => exact ⟨h0 _ _ _, ih fun e he => hp e (by simp [he])⟩
  | arg _ _ ih => exact ih hp

theorem repr_tail {V : Ent → Word → Word → Prop} {v p : Word} {its : List It} {es : List Ent} {hw : List Word}
    (h : Repr V (.val v p :: its) es hw) : ∃ hw', Repr V its es.tail hw' := by
  cases h with
  | val _ _ h => exact ⟨_, h⟩
  | stk _ h => exact ⟨_, h⟩

section
variable {E : Env} {F : Fr} {cnt : Int → Int} {K : Int → Bool}
  {callee : Int → List Word → Sto → Option (Word × Sto)} {t : T} {m : M} {s s' : Sto}

theorem later_mem {j : Nat} {e : Ent} {v p : Word} (hreg : ∀ r, 3 ≤ r → r ≤ 11 → m.g r = s.reg r) (hs : s'.reg = s.reg)
    (hr : RegOk e) (hf : memFree e = true) (hv : Val E F j m e v p) : Later E F s' e v p := by
  obtain ⟨sta, a⟩ := e
  cases sta <;> simp only [memFree, Bool.false_eq_true] at hf <;> try trivial
  show s'.reg a = v
  have h := hr.1 rfl
  rw [hs, ← hreg a h.1 h.2]
  exact hv

theorem later_reg {j : Nat} {e : Ent} {v p x : Word} {r : Int} (hreg : ∀ r, 3 ≤ r → r ≤ 11 → m.g r = s.reg r)
    (hmem : ∀ a, Out F a → m.mem a = s.mem a) (h1 : s'.mem = s.mem) (h2 : s'.reg = setR s.reg r x)
    (hr : RegOk e) (hf : regFree r e = true) (hv : Val E F j m e v p) : Later E F s' e v p := by
  obtain ⟨sta, a⟩ := e
  have rg : 3 ≤ a → a ≤ 11 → (a != r) = true → s'.reg a = m.g a := by
    intro h3 h11 ha
    rw [h2, hreg a h3 h11, setR, if_neg (by simpa using ha)]
  cases sta <;> try trivial
  · show s'.mem.lw _ = v
    rw [h1, ← hv.1.lw hmem]; exact hv.2
  · show s'.mem.lw _ = v
    rw [h1, ← hv.1.lw hmem]; exact hv.2
  · show s'.reg a = v
    have h := hr.1 rfl
    rw [rg h.1 h.2 hf]; exact hv
  · show s'.mem.lw _ = v
    rw [h1, ← hv.1.lw hmem]; exact hv.2
  · obtain ⟨k1, k2, k3⟩ := hv
    refine ⟨by rw [h1, ← k2.lw hmem]; exact k3, fun h3 => ?_⟩
    rw [rg h3 (hr.2 (.inl rfl)).2 hf]; exact k1
  · obtain ⟨k1, k2, k3⟩ := hv
    refine ⟨by rw [h1, ← hmem p k2]; exact k3, fun h3 => ?_⟩
    rw [rg h3 (hr.2 (.inr rfl)).2 hf]; exact k1

theorem ofInt_succ (a : Word) (k : Int) : a + BitVec.ofInt 16 (k + 1) = a + BitVec.ofInt 16 k + 1 := by
  rw [BitVec.ofInt_add, BitVec.add_assoc]; rfl

theorem later_call {j : Nat} {e : Ent} {v p x : Word} {f : Int} {vs : List Word} (hk : Keeps F K callee)
    (hc : callee f vs s = some (x, s')) (hreg : ∀ r, 3 ≤ r → r ≤ 11 → m.g r = s.reg r)
    (hmem : ∀ a, Out F a → m.mem a = s.mem a)
    (hr : RegOk e) (hf : callFree K e = true) (hv : Val E F j m e v p) : isAcc e = false → Later E F s' e v p := by
  intro hia
  obtain ⟨h1, h2⟩ := hk _ _ _ _ _ hc
  rw [callFree, hia, Bool.false_or] at hf
  have lw : ∀ k : Int, K k = true → K (k + 1) = true → OutW F (F.fp + BitVec.ofInt 16 k) →
      s'.mem.lw (F.fp + BitVec.ofInt 16 k) = m.mem.lw (F.fp + BitVec.ofInt 16 k) := by
    intro k k1 k2 ho
    rw [ho.lw hmem]
    show s'.mem _ ++ s'.mem _ = s.mem _ ++ s.mem _
    rw [h2 k k1, ← ofInt_succ, h2 _ k2]
  obtain ⟨sta, a⟩ := e
  cases sta <;> simp only [Bool.false_eq_true, Bool.and_eq_true] at hf <;> try trivial
  · show s'.mem.lw _ = v
    rw [lw _ hf.1 hf.2 hv.1]; exact hv.2
  · show s'.reg a = v
    have h := hr.1 rfl
    rw [h1 a h.1 h.2, ← hreg a h.1 h.2]; exact hv
  · show s'.mem.lw _ = v
    rw [lw _ hf.1 hf.2 hv.1]; exact hv.2

theorem pow_top {y q : Word} {its : List It} {g : Gh} (hot : Hot t) (hr : Rel E F g t (.val y q :: its) s m) (h : PowTop t) :
    ∃ k : Nat, y.toInt = 2 ^ k := by
  obtain ⟨e, es, hs, hc, hp⟩ := h
  obtain ⟨e', es', hs', h0⟩ := hot
  rw [hs] at hs'
  cases hs'
  obtain ⟨k, hk1, hk2, hk3, hk4⟩ := isPower2_pos hp
  refine ⟨k, ?_⟩
  rw [cnst_val hc (hr.top hs h0), hk3, toInt_pow hk2]

theorem tail3 {α : Type} (l : List α) : l.tail.tail.tail = l.drop 3 := by
  rw [← List.drop_one, ← List.drop_one, ← List.drop_one, List.drop_drop, List.drop_drop]

/-- The conditions of a step of C50. -/
theorem fit_ok {P : List Instr} {c : Cfg Sto} {i : Instr} {g : Gh} {its its' : List It} (w : W t)
    (hot : uses (.i i) = true → Hot t) (hr : Rel E F g t its s m) (hk : Keeps F K callee) (hdv : DivOk E)
    (hP : P[c.pc]? = some i) (hcs : c.d.stk = vals its) (hcfg : CfgOk F P c) (hv : VarsOut E F cnt P)
    (hf : fit cnt K g t i = true) (hroom : 2 * its'.length ≤ F.lim) (huse : 2 * its.length ≤ F.use)
    (hval : ∀ n f, .callF n f ∈ P → E.val f = true)
    (hi : istep (world E F cnt callee) i (its, s) = some (its', s')) :
    StepOk E F cnt g t i its its' s' := by
  have hmem : i ∈ P := List.mem_of_getElem? hP
  have hr' := hr
  obtain ⟨hw, hrl⟩ := hr'
  refine ⟨hroom, ?_⟩
  have pend : ∀ (b : Ent → Bool) (Q : Ent → Word → Word → Prop) {v p : Word} {l : List It}, its = .val v p :: l →
      t.stk.tail.all b = true →
      (∀ e, RegOk e → b e = true → ∀ v p, Val E F t.jcc m e v p → Q e v p) → (∀ a v p, Q ⟨.STK, a⟩ v p) →
      Pend Q its.tail t.stk.tail := by
    intro b Q v p l hl hb hq h0
    have hrp := hrl.repr
    rw [hl] at hrp
    obtain ⟨hw', hrp⟩ := repr_tail hrp
    rw [hl]
    refine pend_of (E := E) (F := F) hrp (fun e he => .inr ?_) h0
    exact hq e (w.regs e (List.mem_of_mem_tail he)) (List.all_eq_true.1 hb e he)
  cases i with
  | ldG n => exact hv.glb n (.inl hmem)
  | ldL n => exact fun h => hv.loc n (.inl hmem) h
  | ldP n => exact hv.prm n (.inl hmem)
  | ldW =>
    intro y q x p l hl
    rw [CfgOk, hP, hcs, hl] at hcfg
    exact hcfg
  | ldB =>
    intro y q x p l hl
    rw [CfgOk, hP, hcs, hl] at hcfg
    exact hcfg
  | stG n =>
    refine ⟨hv.glb n (.inr hmem), ?_⟩
    rcases its with _ | ⟨⟨v, p⟩ | v, its⟩ <;> simp only [istep, reduceCtorEq] at hi
    cases hi
    exact pend memFree _ rfl hf (fun e h1 h2 v p h3 => later_mem hrl.reg rfl h1 h2 h3) fun _ _ _ => trivial
  | stP n =>
    refine ⟨hv.prm n (.inr hmem), ?_⟩
    rcases its with _ | ⟨⟨v, p⟩ | v, its⟩ <;> simp only [istep, reduceCtorEq] at hi
    cases hi
    exact pend memFree _ rfl hf (fun e h1 h2 v p h3 => later_mem hrl.reg rfl h1 h2 h3) fun _ _ _ => trivial
  | stL n =>
    refine ⟨hv.loc n (.inr hmem), ?_⟩
    rcases its with _ | ⟨⟨v, p⟩ | v, its⟩ <;> simp only [istep, reduceCtorEq] at hi
    simp only [Option.some.injEq, Prod.mk.injEq] at hi
    obtain ⟨rfl, hi⟩ := hi
    simp only [fit] at hf
    by_cases h9 : cnt n ≤ 9
    · rw [if_pos h9] at hf
      have : s' = { s with reg := setR s.reg (cnt n + 2) v } := by rw [← hi]; exact if_pos h9
      subst this
      exact pend _ _ rfl hf (fun e h1 h2 v p h3 => later_reg hrl.reg hrl.mem rfl rfl h1 h2 h3) fun _ _ _ => trivial
    · rw [if_neg h9] at hf
      have : s' = { s with mem := s.mem.sw (locA F (cnt n)) v } := by rw [← hi]; exact if_neg h9
      subst this
      exact pend memFree _ rfl hf (fun e h1 h2 v p h3 => later_mem hrl.reg rfl h1 h2 h3) fun _ _ _ => trivial
  | stW =>
    rcases its with _ | ⟨⟨y, q⟩ | _, _ | ⟨⟨x, p⟩ | _, _ | ⟨⟨v, r⟩ | _, its⟩⟩⟩ <;> simp only [istep, reduceCtorEq] at hi
    cases hi
    refine ⟨fun y q x p l hl => ?_, ?_⟩
    · rw [CfgOk, hP, hcs, hl] at hcfg
      exact hcfg
    · obtain ⟨_, h1⟩ := repr_tail hrl.repr
      obtain ⟨_, h2⟩ := repr_tail h1
      obtain ⟨_, h3⟩ := repr_tail h2
      refine pend_of (E := E) (F := F) h3 (fun e he => .inr fun v p hv => ?_) fun _ _ _ => trivial
      exact later_mem hrl.reg rfl (w.regs e (by rw [tail3] at he; exact List.mem_of_mem_drop he)) (List.all_eq_true.1 hf e he) hv
  | stB =>
    rcases its with _ | ⟨⟨y, q⟩ | _, _ | ⟨⟨x, p⟩ | _, _ | ⟨⟨v, r⟩ | _, its⟩⟩⟩ <;> simp only [istep, reduceCtorEq] at hi
    cases hi
    refine ⟨fun y q x p l hl => ?_, ?_⟩
    · rw [CfgOk, hP, hcs, hl] at hcfg
      exact hcfg
    · obtain ⟨_, h1⟩ := repr_tail hrl.repr
      obtain ⟨_, h2⟩ := repr_tail h1
      obtain ⟨_, h3⟩ := repr_tail h2
      refine pend_of (E := E) (F := F) h3 (fun e he => .inr fun v p hv => ?_) fun _ _ _ => trivial
      exact later_mem hrl.reg rfl (w.regs e (by rw [tail3] at he; exact List.mem_of_mem_drop he)) (List.all_eq_true.1 hf e he) hv
  | callF n f =>
    simp only [istep] at hi
    cases hsp : splitArgs n its with
    | none => rw [hsp] at hi; cases hi
    | some x =>
      obtain ⟨vs, l⟩ := x
      rw [hsp] at hi
      obtain ⟨hits, hn⟩ := splitArgs_some hsp
      simp only [Option.map_eq_some_iff] at hi
      obtain ⟨⟨x, s1⟩, hc, h1⟩ := hi
      cases h1
      have hrp := hrl.repr
      rw [hits] at hrp
      obtain ⟨hw', -, hrp⟩ := repr_args hrp
      have hd : its.drop n = l := by rw [hits, List.drop_left' (by simpa using hn)]
      refine ⟨⟨huse, hval n f hmem⟩, ?_⟩
      show Pend _ (its.drop n) t.stk
      rw [hd]
      refine pend_of (E := E) (F := F) hrp (fun e he => .inr fun v p hv => ?_) fun _ _ _ _ => trivial
      exact later_call hk hc hrl.reg hrl.mem (w.regs e he) (List.all_eq_true.1 hf e he) hv
  | callP n f =>
    simp only [istep] at hi
    cases hsp : splitArgs n its with
    | none => rw [hsp] at hi; cases hi
    | some x =>
      obtain ⟨vs, l⟩ := x
      rw [hsp] at hi
      obtain ⟨hits, hn⟩ := splitArgs_some hsp
      simp only [Option.map_eq_some_iff] at hi
      obtain ⟨⟨x, s1⟩, hc, h1⟩ := hi
      cases h1
      have hrp := hrl.repr
      rw [hits] at hrp
      obtain ⟨hw', -, hrp⟩ := repr_args hrp
      have hd : its.drop n = its' := by rw [hits, List.drop_left' (by simpa using hn)]
      refine ⟨huse, ?_⟩
      show Pend _ (its.drop n) t.stk
      rw [hd]
      refine pend_of (E := E) (F := F) hrp (fun e he => .inr fun v p hv => ?_) fun _ _ _ _ => trivial
      exact later_call hk hc hrl.reg hrl.mem (w.regs e he) (List.all_eq_true.1 hf e he) hv
  | a2 o =>
    intro y q x p l hl
    subst hl
    have eqc : ∀ g' : Gh → Bool, (!elided t || (secondIn t && g' g)) = true →
        Elided t → (∀ e0 e1 es, t.stk = e0 :: e1 :: es → e1.sta ≠ .STK) ∧ g' g = true := by
      intro g' h he
      rw [elided_iff.1 he] at h
      simp only [Bool.not_true, Bool.false_or, Bool.and_eq_true] at h
      exact ⟨second_iff h.1, h.2⟩
    have ne : Elided t → (!elided t || (secondIn t && g != .no)) = true →
        (∀ e0 e1 es, t.stk = e0 :: e1 :: es → e1.sta ≠ .STK) ∧ g ≠ .no := fun he h => by
      have := eqc (fun g => g != .no) h he
      exact ⟨this.1, by simpa using this.2⟩
    have al : Elided t → (!elided t || (secondIn t && g == .all)) = true →
        (∀ e0 e1 es, t.stk = e0 :: e1 :: es → e1.sta ≠ .STK) ∧ g = .all := fun he h => by
      have := eqc (fun g => g == .all) h he
      exact ⟨this.1, by simpa using this.2⟩
    cases o with
    | DIV =>
      rw [CfgOk, hP, hcs] at hcfg
      exact ⟨fun hp => hcfg (pow_top (hot rfl) hr hp), fun _ hy => (hdv x y hy).1⟩
    | MOD =>
      rw [CfgOk, hP, hcs] at hcfg
      exact ⟨fun hp => hcfg (pow_top (hot rfl) hr hp), fun _ hy => (hdv x y hy).2⟩
    | EQ => exact fun he => ne he hf
    | NE => exact fun he => ne he hf
    | GT => exact fun he => al he hf
    | GE => exact fun he => al he hf
    | LT => exact fun he => al he hf
    | LE => exact fun he => al he hf
    | _ => trivial
  | _ => trivial

end

/-! ### The translation without running it -/

/-- State of vm2tac.c, what is known about the flags, shape of the stack, whether the value on top was just
produced. -/
structure St where
  t : T
  g : Gh
  sh : List Bool
  b : Bool

def walk (cnt : Int → Int) (i : Instr) (x : St) : Option St :=
  (emit cnt i x.t).bind fun t' => (shapeF i x.sh).map fun sh' => ⟨t', sgh x.g i, sh', fresh (.i i) x.b⟩

def walks (cnt : Int → Int) : List Instr → St → Option St
  | [], x => some x
  | i :: is, x => (walk cnt i x).bind (walks cnt is)

theorem walk_some {cnt : Int → Int} {i : Instr} {x y : St} (h : walk cnt i x = some y) :
    emit cnt i x.t = some y.t ∧ shapeF i x.sh = some y.sh ∧ y.g = sgh x.g i ∧ y.b = fresh (.i i) x.b := by
  unfold walk at h
  cases h1 : emit cnt i x.t with
  | none => rw [h1] at h; cases h
  | some t' =>
    rw [h1] at h
    simp only [Option.bind_some, Option.map_eq_some_iff] at h
    obtain ⟨sh, h2, rfl⟩ := h
    exact ⟨rfl, h2, rfl, rfl⟩

/-- What holds at every place. -/
structure SOk (x : St) : Prop where
  w : W x.t
  hot : x.b = true → Hot x.t
  len : x.t.stk.length = x.sh.count true

theorem shapeF_inExpr {i : Instr} {l l' : List Bool} (h : shapeF i l = some l') : inExpr (.i i) = true := by
  cases i <;> first | rfl | cases h

theorem walk_ok {cnt : Int → Int} {i : Instr} {x y : St} (ok : SOk x) (hu : uses (.i i) = true → x.b = true)
    (hc : Counted cnt [.i i]) (h : walk cnt i x = some y) : SOk y ∧ ∃ c, y.t.out = x.t.out ++ c := by
  obtain ⟨h1, h2, -, h4⟩ := walk_some h
  have hot : uses (.i i) = true → Hot x.t := fun h => ok.hot (hu h)
  obtain ⟨w, hh⟩ := emitV_step (v := .i i) ok.w ok.hot hu hc h1
  obtain ⟨c, hc, -⟩ := emitV_grow (v := .i i) ok.w hot (shapeF_inExpr h2) h1
  exact ⟨⟨w, by rw [h4]; exact hh, emit_len ok.w hot ok.len h2 h1⟩, c, hc⟩

theorem place {cnt : Int → Int} {K : Int → Bool} (P : List Instr) : ∀ {x : St} {tE : T} {l : List Bool}, SOk x →
    Disc x.b (P.map .i) → Counted cnt (P.map .i) → Fits cnt K P x.g x.t = true → emits cnt (P.map .i) x.t = some tE →
    shapesF P x.sh = some l →
    (∃ xE, walks cnt P x = some xE ∧ xE.t = tE ∧ SOk xE) ∧ (∃ c, tE.out = x.t.out ++ c) ∧
    ∀ pc i, P[pc]? = some i → ∃ y z, walks cnt (P.take pc) x = some y ∧ walk cnt i y = some z ∧
      walks cnt (P.take (pc + 1)) x = some z ∧ SOk y ∧ SOk z ∧ (uses (.i i) = true → y.b = true) ∧
      fit cnt K y.g y.t i = true ∧ ∃ c c', z.t.out = y.t.out ++ c ∧ tE.out = z.t.out ++ c' := by
  induction P with
  | nil =>
    intro x tE l ok _ _ _ he _
    cases he
    exact ⟨⟨x, rfl, rfl, ok⟩, ⟨[], by simp⟩, fun pc i h => by simp at h⟩
  | cons j P ih =>
    intro x tE l ok hd hc hf he hs
    have he' : (emit cnt j x.t).bind (emits cnt (P.map .i)) = some tE := he
    simp only [shapesF] at hs
    simp only [Fits, Bool.and_eq_true] at hf
    cases h1 : emit cnt j x.t with
    | none => rw [h1] at he'; cases he'
    | some t1 =>
      cases h2 : shapeF j x.sh with
      | none => rw [h2] at hs; cases hs
      | some sh1 =>
        rw [h1] at he' hf
        rw [h2] at hs
        have hw : walk cnt j x = some ⟨t1, sgh x.g j, sh1, fresh (.i j) x.b⟩ := by
          simp [walk, h1, h2]
        have hcj : Counted cnt [Vm.i j] := fun n hn => hc n (by
          simp only [List.mem_singleton, Vm.i.injEq] at hn
          rcases hn with hn | hn
          · left; simp [hn]
          · right; simp [hn])
        obtain ⟨ok1, c1, ho1⟩ := walk_ok ok hd.1 hcj hw
        have hcr : Counted cnt (P.map .i) := fun n hn => hc n
          (hn.imp (List.mem_cons_of_mem _) (List.mem_cons_of_mem _))
        obtain ⟨⟨xE, e1, e2, e3⟩, ⟨c2, ho2⟩, hpl⟩ := ih ok1 hd.2 hcr hf.2 he' hs
        refine ⟨⟨xE, by simp [walks, hw, e1], e2, e3⟩, ⟨c1 ++ c2, by rw [ho2, ho1, List.append_assoc]⟩, ?_⟩
        intro pc i hi
        cases pc with
        | zero =>
          simp only [List.getElem?_cons_zero, Option.some.injEq] at hi
          subst hi
          exact ⟨x, _, rfl, hw, by simp [walks, hw], ok, ok1, hd.1, hf.1, c1, c2, ho1, ho2⟩
        | succ pc =>
          simp only [List.getElem?_cons_succ] at hi
          obtain ⟨y, z, g1, g2, g3, g4⟩ := hpl pc i hi
          exact ⟨y, z, by simp [walks, hw, g1], g2, by simp [walks, hw, g3], g4⟩

theorem walks_emits {cnt : Int → Int} (P : List Instr) : ∀ {x y : St}, walks cnt P x = some y →
    emits cnt (P.map .i) x.t = some y.t ∧ shapesF P x.sh = some y.sh := by
  induction P with
  | nil => intro x y h; cases h; exact ⟨rfl, rfl⟩
  | cons i P ih =>
    intro x y h
    simp only [walks] at h
    cases h1 : walk cnt i x with
    | none => rw [h1] at h; cases h
    | some z =>
      rw [h1] at h
      obtain ⟨g1, g2, -⟩ := walk_some h1
      obtain ⟨k1, k2⟩ := ih h
      refine ⟨?_, by simp [shapesF, g2, k2]⟩
      show (emit cnt i x.t).bind _ = _
      rw [g1]; exact k1

/-! ### Simulation -/

section
variable {E : Env} {F : Fr} {cnt : Int → Int} {K : Int → Bool}
  {callee : Int → List Word → Sto → Option (Word × Sto)} {P : List Instr} {t tE : T}

/-- The stack machine at `c` and the TaC machine at `q` are at the same place and agree. -/
def Sim (E : Env) (F : Fr) (cnt : Int → Int) (P : List Instr) (t : T) (c : Cfg Sto) (q : TC) : Prop :=
  ∃ x its, walks cnt (P.take c.pc) ⟨t, .all, [], false⟩ = some x ∧ SOk x ∧ Rel E F x.g x.t its c.d.s q.m ∧
    c.d.stk = vals its ∧ c.d.args = argl its ∧ its.map It.isVal = x.sh ∧ q.pc = x.t.out.length

theorem Code.start (h : Code E F cnt K P t tE) : SOk ⟨t, .all, [], false⟩ :=
  ⟨h.w, nofun, by simp [h.emp]⟩

theorem Code.place (h : Code E F cnt K P t tE) {pc : Nat} {i : Instr} (hi : P[pc]? = some i) :
    ∃ y z, walks cnt (P.take pc) ⟨t, .all, [], false⟩ = some y ∧ walk cnt i y = some z ∧
      walks cnt (P.take (pc + 1)) ⟨t, .all, [], false⟩ = some z ∧ SOk y ∧ SOk z ∧ (uses (.i i) = true → y.b = true) ∧
      fit cnt K y.g y.t i = true ∧ ∃ c c', z.t.out = y.t.out ++ c ∧ tE.out = z.t.out ++ c' := by
  obtain ⟨l, hl⟩ := h.shape
  exact (Tac.place P h.start h.disc h.counted h.fits h.emits hl).2.2 pc i hi

/-- A label is found where the stack code has it. -/
theorem Code.label (h : Code E F cnt K P t tE) {k n : Nat} (hk : P[k]? = some (.lab n)) :
    ∃ y, walks cnt (P.take k) ⟨t, .all, [], false⟩ = some y ∧ SOk y ∧ y.sh = [] ∧ y.t.stk = [] ∧
      tE.out[y.t.out.length]? = some (.lab (.L n)) := by
  obtain ⟨y, z, h1, h2, -, h4, -, -, -, c, c', h8, h9⟩ := h.place hk
  obtain ⟨k1, k2, -⟩ := walk_some h2
  simp only [shapeF] at k2
  split at k2
  · rename_i hh
    refine ⟨y, h1, h4, hh, ?_, ?_⟩
    · have := h4.len
      rw [hh] at this
      simpa using this
    · have k1 : some (y.t.print (.lab (.L n))) = some z.t := k1
      rw [h9, ← Option.some.inj k1]
      simp [T.print]
  · cases k2

theorem lat_of {a b : T} {c c' : List Line} (h1 : b.out = a.out ++ c)
    (h2 : tE.out = b.out ++ c') : LAt tE.out a.out.length c := by
  rw [h2, h1]; exact LAt.mid _ _ _

theorem no_items {its : List It} {l : List Bool} (h : its.map It.isVal = l) (hl : l = []) : its = [] := by
  subst hl; simpa using h

theorem one_item {its : List It} {l : List Bool} (h : its.map It.isVal = l) (hl : l = [true]) : ∃ v p, its = [.val v p] := by
  subst hl
  rcases its with _ | ⟨⟨v, p⟩ | v, _ | ⟨_, its⟩⟩ <;> simp [It.isVal] at h
  exact ⟨v, p, rfl⟩

/-- The jumps of boolJmp. -/
theorem sim_cond (hcode : Code E F cnt K P t tE) {tf : Bool} {n : Nat} {c : Cfg Sto} {q : TC} {v : Word} {st ar : List Word}
    {rg : Word} {s : Sto} (hi : P[c.pc]? = some (if tf then .jt n else .jf n)) (hd : c.d = ⟨v :: st, ar, rg, s⟩)
    (hs : Sim E F cnt P t c q) :
    (∀ k, P[k]? = some (.lab n) → decide (v ≠ 0) = tf →
      ∃ q', TSteps E tE.out q q' ∧ Sim E F cnt P t ⟨k, ⟨st, ar, rg, s⟩⟩ q') ∧
    (decide (v ≠ 0) ≠ tf → ∃ q', TSteps E tE.out q q' ∧ Sim E F cnt P t ⟨c.pc + 1, ⟨st, ar, rg, s⟩⟩ q') := by
  obtain ⟨x, its, s1, ok, hr, hstk, har, hsh, hpc⟩ := hs
  obtain ⟨y, z, h1, h2, h3, h4, h5, h6, h7, cc, c', h8, h9⟩ := hcode.place hi
  rw [s1] at h1
  cases h1
  obtain ⟨k1, k2, k3, -⟩ := walk_some h2
  have hu : uses (.i (if tf then Instr.jt n else Instr.jf n)) = true := by cases tf <;> rfl
  obtain ⟨e, es, hs, h0⟩ := ok.hot (h6 hu)
  have hx : x.sh = [true] ∧ z.sh = [] := by
    cases tf <;>
    · simp only [Bool.false_eq_true, if_false, if_true, shapeF] at k2
      split at k2
      · rename_i hh; exact ⟨hh, (Option.some.inj k2).symm⟩
      · cases k2
  obtain ⟨v', p, rfl⟩ := one_item hsh hx.1
  rw [hd] at hstk har hr
  simp only [vals, argl] at hstk har
  cases hstk
  subst har
  have hb : boolJmp tf n x.t = some z.t := by cases tf <;> exact k1
  have hfit : e.sta ≠ .FLAG → x.t.flg = some es.length → x.g ≠ .no := by
    intro e1 e2
    have : fit cnt K x.g x.t (.jt n) = true := by cases tf <;> exact h7
    simp only [fit, borrowed, hs, e2] at this
    simpa [e1] using this
  obtain ⟨m', c2, o2, r2, hr2⟩ := boolJmp_rel ok.w hs h0 hr hfit hb
  have hcc : c2 = cc := List.append_cancel_left (o2.symm.trans h8)
  subst hcc
  have hat := lat_of h8 h9
  have hz : z.t.stk = [] := by
    have := h5.len
    rw [hx.2] at this
    simpa using this
  obtain ⟨qpc, qm⟩ := q
  simp only at hpc
  subst hpc
  refine ⟨fun k hk hv => ?_, fun hv => ?_⟩
  · rw [if_pos hv] at r2
    obtain ⟨y, g1, g2, g3, g4, g5⟩ := hcode.label hk
    exact ⟨⟨_, m'⟩, exec_jump hat r2 g5, y, [], g1, g2, hr2.empty g4, rfl, rfl, by simp [g3], rfl⟩
  · rw [if_neg hv] at r2
    refine ⟨⟨z.t.out.length, m'⟩, ?_, z, [], h3, h5, hr2.empty hz, rfl, rfl, by simp [hx.2], rfl⟩
    rw [h8, List.length_append]
    exact Runs.steps hat r2

theorem shapeF_plain {i : Instr} (h1 : ∀ n, i ≠ .lab n) (h2 : ∀ n, i ≠ .jmp n) (h3 : ∀ n, i ≠ .jt n) (h4 : ∀ n, i ≠ .jf n)
    (h5 : i ≠ .mreg) (l : List Bool) : shapeF i l = Tac.shape i l := by
  cases i with
  | lab n => exact absurd rfl (h1 n)
  | jmp n => exact absurd rfl (h2 n)
  | jt n => exact absurd rfl (h3 n)
  | jf n => exact absurd rfl (h4 n)
  | mreg => exact absurd rfl h5
  | _ => rfl

/-- One step of the stack machine. -/
theorem sim_step (hcode : Code E F cnt K P t tE) (hc : CallOk E F callee) (hk : Keeps F K callee) (hdv : DivOk E)
    {c c' : Cfg Sto} {q : TC} (hs : Sim E F cnt P t c q) (hok : CfgOk F P c)
    (h : Step (world E F cnt callee) P c c') :
    ∃ q', TSteps E tE.out q q' ∧ Sim E F cnt P t c' q' ∧ (P[c.pc]? = some .mreg → q'.m.g 0 = c'.d.reg) ∧
      ((∃ n, P[c.pc]? = some (.lab n) ∨ P[c.pc]? = some (.jmp n)) → q'.m = q.m) := by
  cases h with
  | @jmp pc d n k hi hk =>
    obtain ⟨x, its, s1, ok, hr, hstk, har, hsh, hpc⟩ := hs
    obtain ⟨y, z, h1, h2, h3, h4, h5, h6, h7, cc, c', h8, h9⟩ := hcode.place hi
    rw [s1] at h1
    cases h1
    obtain ⟨k1, k2, -, -⟩ := walk_some h2
    have hx : x.sh = [] := by
      simp only [shapeF] at k2
      split at k2
      · rename_i hh; exact hh
      · cases k2
    have := no_items hsh hx
    subst this
    obtain ⟨y, g1, g2, g3, g4, g5⟩ := hcode.label hk
    have k1 : some (x.t.print (.jmp (.L n))) = some z.t := k1
    have hl : tE.out[x.t.out.length]? = some (.jmp (.L n)) := by
      rw [h9, ← Option.some.inj k1]
      simp [T.print]
    obtain ⟨qpc, qm⟩ := q
    simp only at hpc
    subst hpc
    exact ⟨⟨y.t.out.length, qm⟩, .head (.jmp hl g5) .refl,
      ⟨y, [], g1, g2, hr.empty g4, hstk, har, by simp [g3], rfl⟩, fun h => by simp [hi] at h, fun _ => rfl⟩
  | jtT hi hk hv =>
    obtain ⟨q', a, b⟩ := (sim_cond hcode (tf := true) hi rfl hs).1 _ hk (by simpa using hv)
    exact ⟨q', a, b, fun h => by simp [hi] at h, fun ⟨n, h⟩ => by simp [hi] at h⟩
  | jtF hi hv =>
    obtain ⟨q', a, b⟩ := (sim_cond hcode (tf := true) hi rfl hs).2 (by simpa using hv)
    exact ⟨q', a, b, fun h => by simp [hi] at h, fun ⟨n, h⟩ => by simp [hi] at h⟩
  | jfT hi hv =>
    obtain ⟨q', a, b⟩ := (sim_cond hcode (tf := false) hi rfl hs).2 (by simpa using hv)
    exact ⟨q', a, b, fun h => by simp [hi] at h, fun ⟨n, h⟩ => by simp [hi] at h⟩
  | jfF hi hk hv =>
    obtain ⟨q', a, b⟩ := (sim_cond hcode (tf := false) hi rfl hs).1 _ hk (by simpa using hv)
    exact ⟨q', a, b, fun h => by simp [hi] at h, fun ⟨n, h⟩ => by simp [hi] at h⟩
  | @next pc d i d' hi hrun =>
    obtain ⟨x, its, s1, ok, hr, hstk, har, hsh, hpc⟩ := hs
    obtain ⟨y, z, h1, h2, h3, h4, h5, h6, h7, cc, c', h8, h9⟩ := hcode.place hi
    rw [s1] at h1
    cases h1
    obtain ⟨k1, k2, k3, -⟩ := walk_some h2
    have hat := lat_of h8 h9
    obtain ⟨qpc, qm⟩ := q
    simp only at hpc hr
    subst hpc
    by_cases hlab : ∃ n, i = .lab n
    · obtain ⟨n, rfl⟩ := hlab
      cases hrun
      obtain ⟨y, g1, g2, g3, g4, g5⟩ := hcode.label hi
      rw [s1] at g1
      cases g1
      have := no_items hsh g3
      subst this
      have hz : z.sh = [] := by
        simp only [shapeF, g3, if_true, Option.some.injEq] at k2
        exact k2.symm
      have hzs : z.t.stk = [] := by
        have := h5.len
        rw [hz] at this
        simpa using this
      have k1 : some (x.t.print (.lab (.L n))) = some z.t := k1
      refine ⟨⟨z.t.out.length, qm⟩, ?_, ⟨z, [], h3, h5, hr.empty hzs, hstk, har, by simp [hz], rfl⟩,
        fun h => by simp [hi] at h, fun _ => rfl⟩
      have : z.t.out.length = x.t.out.length + 1 := by
        rw [← Option.some.inj k1]; simp [T.print]
      rw [this]
      exact .head (.lab g5) .refl
    by_cases hm : i = .mreg
    · subst hm
      have hx : x.sh = [true] ∧ z.sh = [] := by
        simp only [shapeF] at k2
        split at k2
        · rename_i hh; exact ⟨hh, (Option.some.inj k2).symm⟩
        · cases k2
      obtain ⟨v', p, rfl⟩ := one_item hsh hx.1
      obtain ⟨stk, args, rg, s⟩ := d
      simp only [vals, argl] at hstk har hr
      subst hstk har
      cases hrun
      obtain ⟨e, es, hst, h0⟩ := h4.hot (h6 rfl)
      have hes : es = [] := by
        have := h4.len
        rw [hst, hx.1] at this
        simpa using this
      subst hes
      obtain ⟨m2, c2, o2, r2, hr2, g2⟩ := mreg_rel h4.w hst h0 hr k1
      have hcc : c2 = cc := List.append_cancel_left (o2.symm.trans h8)
      subst hcc
      have hzs : z.t.stk = [] := by
        have := h5.len
        rw [hx.2] at this
        simpa using this
      refine ⟨⟨z.t.out.length, m2⟩, ?_, ⟨z, [], h3, h5, hr2.empty hzs, rfl, rfl, by simp [hx.2], rfl⟩,
        fun _ => g2, fun ⟨n, h⟩ => by simp [hi] at h⟩
      rw [h8, List.length_append]
      exact Runs.steps hat r2
    have hjmp : ∀ n, i ≠ .jmp n := fun n hh => by subst hh; simp [Gen.run] at hrun
    have hjt : ∀ n, i ≠ .jt n := fun n hh => by subst hh; simp [Gen.run] at hrun
    have hjf : ∀ n, i ≠ .jf n := fun n hh => by subst hh; simp [Gen.run] at hrun
    rw [shapeF_plain (fun n hh => hlab ⟨n, hh⟩) hjmp hjt hjf hm, ← hsh] at k2
    obtain ⟨stk, args, rg, s⟩ := d
    simp only at hstk har hr
    subst hstk har
    obtain ⟨its', s', hi1, hi2, hi3⟩ := istep_run k2 hrun
    have hcn : Counted cnt [Vm.i i] := fun n hn => hcode.counted n (by
      simp only [List.mem_singleton, Vm.i.injEq] at hn
      have := List.mem_of_getElem? hi
      rcases hn with rfl | rfl
      · left; exact List.mem_map_of_mem this
      · right; exact List.mem_map_of_mem this)
    have hroom : 2 * its'.length ≤ F.lim := by
      have := hcode.room (pc + 1) z.sh (walks_emits _ h3).2
      rw [← hi2, List.length_map] at this
      exact this.trans hcode.use
    have huse : 2 * its.length ≤ F.use := by
      have := hcode.room pc x.sh (walks_emits _ s1).2
      rw [← hsh, List.length_map] at this
      exact this
    have hso := fit_ok (cnt := cnt) (P := P) (c := ⟨pc, ⟨vals its, argl its, rg, s⟩⟩) h4.w (fun hu => h4.hot (h6 hu)) hr hk hdv hi rfl hok
      hcode.vars h7 hroom huse hcode.vals hi1
    obtain ⟨m2, c2, o2, r2, hr2⟩ := step_rel hc h4.w (fun hu => h4.hot (h6 hu)) hcn hr hi1 hso k1
    have hcc : c2 = cc := List.append_cancel_left (o2.symm.trans h8)
    subst hcc
    subst hi3
    refine ⟨⟨z.t.out.length, m2⟩, ?_, ⟨z, its', h3, h5, ?_, rfl, rfl, hi2, rfl⟩, fun h => ?_, fun ⟨n, h⟩ => ?_⟩
    · rw [h8, List.length_append]
      exact Runs.steps hat r2
    · rw [k3]
      exact hr2.mono (sgh_le hi1 fun n hh => hlab ⟨n, hh⟩)
    · rw [hi] at h; cases h; exact absurd rfl hm
    · rw [hi] at h
      rcases h with h | h <;> cases h
      · exact absurd ⟨n, rfl⟩ hlab
      · exact absurd rfl (hjmp n)

theorem Agree.sim {s : Sto} {m : M} {rg : Word} (hcode : Code E F cnt K P t tE) (h : Agree F s m) :
    Sim E F cnt P t ⟨0, ⟨[], [], rg, s⟩⟩ ⟨t.out.length, m⟩ :=
  ⟨⟨t, .all, [], false⟩, [], rfl, hcode.start,
    (rel_start (E := E) hcode.emp h.sp h.fp hcode.lim h.mem h.reg).empty hcode.emp, rfl, rfl, rfl, rfl⟩

theorem sim_steps (hcode : Code E F cnt K P t tE) (hc : CallOk E F callee) (hk : Keeps F K callee) (hdv : DivOk E)
    {c c' : Cfg Sto} {q : TC} (hs : Sim E F cnt P t c q)
    (hok : ∀ c', Steps (world E F cnt callee) P c c' → CfgOk F P c')
    (h : Steps (world E F cnt callee) P c c') : ∃ q', TSteps E tE.out q q' ∧ Sim E F cnt P t c' q' := by
  induction h generalizing q with
  | refl => exact ⟨q, .refl, hs⟩
  | head h1 _ ih =>
    obtain ⟨q1, r1, s1, -⟩ := sim_step hcode hc hk hdv hs (hok _ .refl) h1
    obtain ⟨q2, r2, s2⟩ := ih s1 fun c' hc' => hok c' (.head h1 hc')
    exact ⟨q2, r1.trans r2, s2⟩

theorem Sim.place {c : Cfg Sto} {q : TC} (h : Sim E F cnt P t c q) : lineOf cnt P t c.pc = some q.pc := by
  obtain ⟨x, its, s1, -, -, -, -, -, hpc⟩ := h
  rw [lineOf, (walks_emits _ s1).1, hpc]
  rfl

theorem Sim.agree {c : Cfg Sto} {q : TC} (h : Sim E F cnt P t c q) (h1 : c.d.stk = []) (h2 : c.d.args = []) :
    Agree F c.d.s q.m := by
  obtain ⟨x, its, -, -, ⟨hw, hr⟩, e1, e2, -, -⟩ := h
  have : its = [] := by
    rcases its with _ | ⟨_ | _, its⟩
    · rfl
    · rw [h1] at e1; cases e1
    · rw [h2] at e2; cases e2
  subst this
  have hl := hr.repr.hw_length
  have : hw = [] := List.eq_nil_of_length_eq_zero (by simpa using hl)
  subst this
  exact ⟨by rw [hr.sp, List.length_nil, dn0], hr.fp, hr.mem, hr.reg⟩

/-- Every run of the stack code is followed by the printed lines: they get to the corresponding line with the
same memory, variables in registers and FP; when the stack and the argument area are empty, SP is as at the
beginning. -/
theorem C59 (hcode : Code E F cnt K P t tE) (hc : CallOk E F callee) (hk : Keeps F K callee) (hdv : DivOk E)
    {s : Sto} {m : M} {rg : Word} (hag : Agree F s m)
    (hok : ∀ c, Steps (world E F cnt callee) P ⟨0, ⟨[], [], rg, s⟩⟩ c → CfgOk F P c)
    {c : Cfg Sto} (h : Steps (world E F cnt callee) P ⟨0, ⟨[], [], rg, s⟩⟩ c) :
    ∃ k m', lineOf cnt P t c.pc = some k ∧ TSteps E tE.out ⟨t.out.length, m⟩ ⟨k, m'⟩ ∧
      m'.fp = m.fp ∧ (∀ a, Out F a → m'.mem a = c.d.s.mem a) ∧ (∀ r, 3 ≤ r → r ≤ 11 → m'.g r = c.d.s.reg r) ∧
      (c.d.stk = [] → c.d.args = [] → m'.sp = m.sp) := by
  obtain ⟨⟨k, m'⟩, r, hs⟩ := sim_steps hcode hc hk hdv (hag.sim hcode) hok h
  have hsp := hs.agree
  have hpl := hs.place
  obtain ⟨x, its, -, -, ⟨hw, hr⟩, -⟩ := hs
  exact ⟨k, m', hpl, r, by rw [hr.fp, hag.fp], hr.mem, hr.reg, fun h1 h2 => by rw [(hsp h1 h2).sp, hag.sp]⟩

/-- A run to the end of the stack code becomes a run to the end of the lines. -/
theorem C59_end (hcode : Code E F cnt K P t tE) (hc : CallOk E F callee) (hk : Keeps F K callee) (hdv : DivOk E)
    {s : Sto} {m : M} {rg : Word} (hag : Agree F s m)
    (hok : ∀ c, Steps (world E F cnt callee) P ⟨0, ⟨[], [], rg, s⟩⟩ c → CfgOk F P c) {rg' : Word} {s' : Sto}
    (h : Steps (world E F cnt callee) P ⟨0, ⟨[], [], rg, s⟩⟩ ⟨P.length, ⟨[], [], rg', s'⟩⟩) :
    ∃ m', TSteps E tE.out ⟨t.out.length, m⟩ ⟨tE.out.length, m'⟩ ∧ Agree F s' m' := by
  obtain ⟨⟨k, m'⟩, r, hs⟩ := sim_steps hcode hc hk hdv (hag.sim hcode) hok h
  have hpl := hs.place
  simp only [lineOf, List.take_length, hcode.emits, Option.map_some, Option.some.injEq] at hpl
  subst hpl
  exact ⟨m', r, hs.agree rfl rfl⟩

theorem sim_idle (hcode : Code E F cnt K P t tE) (hc : CallOk E F callee) (hk : Keeps F K callee) (hdv : DivOk E)
    {c c' : Cfg Sto} (h : Idle P c c') : ∀ {q : TC}, Sim E F cnt P t c q →
    ∃ q', TSteps E tE.out q q' ∧ Sim E F cnt P t c' q' ∧ q'.m = q.m ∧ c'.d = c.d := by
  induction h with
  | refl => intro q hs; exact ⟨q, .refl, hs, rfl, rfl⟩
  | @lab pc n d c hi _ ih =>
    intro q hs
    obtain ⟨q1, r1, s1, -, e1⟩ := sim_step (callee := callee) (c := ⟨pc, d⟩) hcode hc hk hdv hs
      (by simp [CfgOk, hi]) (.next (d' := d) hi rfl)
    obtain ⟨q2, r2, s2, e2, e3⟩ := ih s1
    exact ⟨q2, r1.trans r2, s2, by rw [e2, e1 ⟨n, .inl hi⟩], e3⟩
  | @jmp pc n k d c hi hk' _ ih =>
    intro q hs
    obtain ⟨q1, r1, s1, -, e1⟩ := sim_step (callee := callee) (c := ⟨pc, d⟩) hcode hc hk hdv hs
      (by simp [CfgOk, hi]) (.jmp hi hk')
    obtain ⟨q2, r2, s2, e2, e3⟩ := ih s1
    exact ⟨q2, r1.trans r2, s2, by rw [e2, e1 ⟨n, .inr hi⟩], e3⟩

/-- A return: the run gets to MREG with value `v` and from there to the end over labels and jumps (the jump to
the end of the function). Then G0 contains the value at the end of the lines. -/
theorem C59_return (hcode : Code E F cnt K P t tE) (hc : CallOk E F callee) (hk : Keeps F K callee) (hdv : DivOk E)
    {s : Sto} {m : M} {rg : Word} (hag : Agree F s m)
    (hok : ∀ c, Steps (world E F cnt callee) P ⟨0, ⟨[], [], rg, s⟩⟩ c → CfgOk F P c) {pc : Nat} {v rg' : Word} {s' : Sto}
    (h : Steps (world E F cnt callee) P ⟨0, ⟨[], [], rg, s⟩⟩ ⟨pc, ⟨[v], [], rg', s'⟩⟩) (hm : P[pc]? = some .mreg)
    (hidle : Idle P (⟨pc + 1, ⟨[], [], v, s'⟩⟩ : Cfg Sto) ⟨P.length, ⟨[], [], v, s'⟩⟩) :
    ∃ m', TSteps E tE.out ⟨t.out.length, m⟩ ⟨tE.out.length, m'⟩ ∧ m'.g 0 = v ∧ Agree F s' m' := by
  obtain ⟨q1, r1, s1⟩ := sim_steps hcode hc hk hdv (hag.sim hcode) hok h
  obtain ⟨q2, r2, s2, e2, -⟩ := sim_step hcode hc hk hdv s1 (hok _ h)
    (.next (d' := ⟨[], [], v, s'⟩) hm rfl)
  obtain ⟨⟨k, m'⟩, r3, s3, e3, -⟩ := sim_idle hcode hc hk hdv hidle s2
  have hpl := s3.place
  simp only [lineOf, List.take_length, hcode.emits, Option.map_some, Option.some.injEq] at hpl
  subst hpl
  refine ⟨m', (r1.trans r2).trans r3, ?_, s3.agree rfl rfl⟩
  simp only at e3
  rw [e3]
  exact e2 hm

theorem shapesF_inExpr (P : List Instr) : ∀ {l l' : List Bool}, shapesF P l = some l' → ∀ i ∈ P, inExpr (.i i) = true := by
  induction P with
  | nil => intro l l' _ i hi; cases hi
  | cons j P ih =>
    intro l l' h i hi
    simp only [shapesF] at h
    cases h1 : shapeF j l with
    | none => rw [h1] at h; cases h
    | some l1 =>
      rw [h1] at h
      rcases List.mem_cons.1 hi with rfl | hi
      · exact shapeF_inExpr h1
      · exact ih h i hi

/-- Every label is defined once in the lines, if that is so in the stack code and what was printed before
uses other labels. -/
theorem C59_labels (hcode : Code E F cnt K P t tE) (hu : Gen.UniqueLabels P) (h0 : (labs t.out).Nodup)
    (hT : ∀ n, .T n ∈ labs t.out → n < t.tlab) (hL : ∀ n, .L n ∈ labs t.out → .lab n ∉ P) : UniqueLabs tE.out := by
  obtain ⟨l, hl⟩ := hcode.shape
  obtain ⟨-, c, h1, h2, h3⟩ := emits_labs P (b := false) hcode.w nofun hcode.disc hcode.counted (shapesF_inExpr P hl) hcode.emits
    (labsI_nodup hu)
  refine uniqueLabs_of ?_
  rw [h1, labs_append]
  refine List.nodup_append.2 ⟨h0, h2, fun a ha b hb he => ?_⟩
  subst he
  rcases h3 a hb with ⟨n, rfl, n1, -⟩ | ⟨n, hn, rfl⟩
  · have := hT n ha
    omega
  · obtain ⟨j, hj, hjn⟩ := List.mem_filterMap.1 hn
    cases j <;> simp at hjn
    subst hjn
    exact hL _ ha hj

/-- So the run of `C59_end` is the only one: if the stack code ends in `s'`, the lines cannot end in another
way. -/
theorem C59_only (hcode : Code E F cnt K P t tE) (hc : CallOk E F callee) (hk : Keeps F K callee) (hdv : DivOk E)
    (hu : Gen.UniqueLabels P) (h0 : (labs t.out).Nodup)
    (hT : ∀ n, .T n ∈ labs t.out → n < t.tlab) (hL : ∀ n, .L n ∈ labs t.out → .lab n ∉ P)
    {s : Sto} {m : M} {rg : Word} (hag : Agree F s m)
    (hok : ∀ c, Steps (world E F cnt callee) P ⟨0, ⟨[], [], rg, s⟩⟩ c → CfgOk F P c) {rg' : Word} {s' : Sto}
    (h : Steps (world E F cnt callee) P ⟨0, ⟨[], [], rg, s⟩⟩ ⟨P.length, ⟨[], [], rg', s'⟩⟩)
    {q : TC} (hq : TSteps E tE.out ⟨t.out.length, m⟩ q) (hst : ∀ x, ¬ TStep E tE.out q x) :
    q.pc = tE.out.length ∧ Agree F s' q.m := by
  obtain ⟨m', r, ha⟩ := C59_end hcode hc hk hdv hag hok h
  have hend : ∀ x, ¬ TStep E tE.out ⟨tE.out.length, m'⟩ x := by
    intro x hx
    have : tE.out[tE.out.length]? = none := List.getElem?_eq_none (Nat.le_refl _)
    cases hx <;> simp_all
  have := TSteps.det (C59_labels hcode hu h0 hT hL) hq r hst hend
  subst this
  exact ⟨rfl, ha⟩

/-- C53, as far as it is true: JT (`tf` true) and JF test the value on top of the stack, if the value is still in
the flags, or a CMP is printed, or the flags the jump relies on are known to belong to the value (`fit`). -/
theorem C53_tested_partial {g : Gh} {tf : Bool} {lab : Nat} {t t' : T} {its : List It} {s : Sto} {m : M} {v p : Word}
    {e : Ent} {es : List Ent} (w : W t) (hs : t.stk = e :: es) (h0 : e.sta ≠ .STK)
    (hr : Rel E F g t (.val v p :: its) s m) (hf : fit cnt K g t (if tf then .jt lab else .jf lab) = true)
    (h : boolJmp tf lab t = some t') :
    ∃ m' c, t'.out = t.out ++ c ∧ Rel E F .no t' its s m' ∧
      exec E c ⟨m, none⟩ = some ⟨m', if decide (v ≠ 0) = tf then some (.L lab) else none⟩ := by
  obtain ⟨m', c, h1, h2, h3⟩ := boolJmp_rel w hs h0 hr (fun e1 e2 => by
    have : fit cnt K g t (.jt lab) = true := by cases tf <;> exact hf
    simp only [fit, borrowed, hs, e2] at this
    simpa [e1] using this) h
  exact ⟨m', c, h1, h3, h2⟩

end

/-! ### Example -/

/-- The instruction uses references or divides. -/
def touchy : Instr → Bool
  | .ldW | .ldB | .stW | .stB | .a2 .DIV | .a2 .MOD => true
  | _ => false

theorem cfg_triv {F : Fr} {P : List Instr} (h : ∀ i ∈ P, touchy i = false) (c : Cfg Sto) : CfgOk F P c := by
  unfold CfgOk
  have hh : ∀ i, P[c.pc]? = some i → touchy i = false := fun i hi => h i (List.mem_of_getElem? hi)
  split <;> try trivial
  all_goals
    rename_i h1 _
    exact absurd (hh _ h1) (by decide)

/-- `while (n > 0) { s = s + f(2); n = n - 1; } return s;` with n and s in registers. -/
def loopCode : List Instr :=
  [.lab 1, .ldL 1, .ldC 0, .a2 .GT, .jf 2, .ldL 2, .ldC 2, .arg, .callF 1 7, .a2 .ADD, .stL 2, .pop,
   .ldL 1, .ldC 1, .a2 .SUB, .stL 1, .pop, .jmp 1, .lab 2, .ldL 2, .mreg, .jmp 3, .lab 3]

theorem loop_code : ∃ tE, Code incEnv incFr (fun n => n) (fun _ => true) loopCode T.init tE := by
  obtain ⟨tE, ht⟩ : ∃ t', emits (fun n => n) (loopCode.map .i) T.init = some t' := ⟨_, rfl⟩
  refine ⟨tE, W.init, rfl, by simp [loopCode, Disc, uses, fresh], ?_, ⟨[], by decide⟩, ht, by decide, ⟨?_, ?_, ?_⟩, ?_, by decide, fun _ _ _ => rfl, by decide⟩
  · intro n hn
    have : n = 1 ∨ n = 2 := by
      simp [loopCode] at hn
      omega
    show 1 ≤ n
    omega
  · intro n hn; simp [loopCode] at hn
  · intro n hn h9
    have : n = 1 ∨ n = 2 := by
      simp [loopCode] at hn
      omega
    omega
  · intro n hn; simp [loopCode] at hn
  · intro n l hl
    by_cases h : n < 23
    · have : ∀ n < 23, ∀ l ∈ shapesF (loopCode.take n) [], 2 * l.length ≤ 100 := by decide
      exact this n h l hl
    · rw [List.take_of_length_le (by show 23 ≤ n; omega)] at hl
      have : shapesF loopCode [] = some [] := by decide
      rw [this] at hl
      cases hl
      exact Nat.zero_le _

theorem ex_keeps : Keeps incFr (fun _ => true) exCallee := by
  intro f vs s v s' h
  rcases vs with _ | ⟨a, _ | ⟨b, vs⟩⟩ <;> cases h
  exact ⟨fun _ _ _ => rfl, fun _ _ => rfl⟩

/-- `if (x & y)` uses the flags of AND, `if (x - y == 0)` those of SUB. `if (b = x < y)`, `if (x - y < 0)` and
`a - (a = 5)` (C53, C50) do not fit. -/
example :
    Fits (fun n => n) (fun _ => false) [.ldL 1, .ldL 2, .a2 .BAND, .jf 5] .all T.init = true ∧
    Fits (fun n => n) (fun _ => false) [.ldL 1, .ldL 2, .a2 .SUB, .ldC 0, .a2 .EQ, .jf 5] .all T.init = true ∧
    Fits (fun n => n) (fun _ => false) [.ldL 1, .ldL 2, .a2 .LT, .stL 3, .jf 5] .all T.init = false ∧
    Fits (fun n => n) (fun _ => false) [.ldL 1, .ldL 2, .a2 .SUB, .ldC 0, .a2 .LT, .jf 5] .all T.init = false ∧
    Fits (fun n => n) (fun _ => false) [.ldL 1, .ldC 5, .stL 1, .a2 .SUB, .pop] .all T.init = false := by
  decide

/-- The stack code of the example: `k` rounds. -/
theorem loop_run (k : Nat) : k < 32768 → ∀ (s : Sto) (rg : Word), s.reg 3 = BitVec.ofNat 16 k →
    ∃ s', Steps (world incEnv incFr (fun n => n) exCallee) loopCode ⟨0, ⟨[], [], rg, s⟩⟩
      ⟨20, ⟨[s.reg 4 + 3 * BitVec.ofNat 16 k], [], rg, s'⟩⟩ := by
  induction k with
  | zero =>
    intro _ s rg h
    refine ⟨s, .head (.next rfl rfl) <| .head (.next rfl rfl) <| .head (.next rfl rfl) <| .head (.next rfl rfl) <|
      .head (.jfF rfl (k := 18) rfl ?_) <| .head (.next rfl rfl) <| .head (.next rfl ?_) .refl⟩
    · show ofB (decide ((0 : Int) < (s.reg 3).toInt)) = 0
      rw [h]; rfl
    · show some (⟨[s.reg 4], [], rg, s⟩ : Data Sto) = _
      simp
  | succ k ih =>
    intro hk s rg h
    obtain ⟨s', hs⟩ := ih (by omega)
      (⟨s.mem, setR (setR s.reg 4 (s.reg 4 + 3)) 3 (s.reg 3 - 1)⟩ : Sto) rg (by
        show s.reg 3 - 1 = _
        rw [h]
        apply BitVec.eq_of_toNat_eq
        simp only [BitVec.toNat_sub, BitVec.toNat_ofNat]
        show (65536 - 1 + (k + 1) % 65536) % 65536 = k % 65536
        omega)
    refine ⟨s', .head (.next rfl rfl) <| .head (.next rfl rfl) <| .head (.next rfl rfl) <| .head (.next rfl rfl) <|
      .head (.jfT rfl ?_) <| .head (.next rfl rfl) <| .head (.next rfl rfl) <| .head (.next rfl rfl) <| .head (.next rfl rfl) <|
      .head (.next rfl rfl) <| .head (.next rfl rfl) <| .head (.next rfl rfl) <| .head (.next rfl rfl) <| .head (.next rfl rfl) <|
      .head (.next rfl rfl) <| .head (.next rfl rfl) <| .head (.next rfl rfl) <| .head (.jmp rfl (k := 0) rfl) ?_⟩
    · show ofB (decide ((0 : Int) < (s.reg 3).toInt)) ≠ 0
      have : (s.reg 3).toInt = (k + 1 : Nat) := by
        rw [h, BitVec.toInt_eq_toNat_of_lt (by rw [BitVec.toNat_ofNat]; omega), BitVec.toNat_ofNat]
        omega
      rw [this, decide_eq_true (by omega)]
      decide
    · have e : (setR (setR s.reg 4 (s.reg 4 + 3)) 3 (s.reg 3 - 1)) 4 + 3 * BitVec.ofNat 16 k =
          s.reg 4 + 3 * BitVec.ofNat 16 (k + 1) := by
        show s.reg 4 + 3 + 3 * BitVec.ofNat 16 k = _
        rw [BitVec.ofNat_add, BitVec.mul_add, BitVec.add_assoc]
        congr 1
        exact BitVec.add_comm _ _
      simp only at hs
      rw [e] at hs
      exact hs

/-- The lines printed for the example return s + 3 * n, for every n from 0 to 32767. -/
example (k : Nat) (hk : k < 32768) (m : M) (hsp : m.sp = 0xf000) (hfp : m.fp = 0xf010) (h3 : m.g 3 = BitVec.ofNat 16 k) :
    ∃ tE m', emits (fun n => n) (loopCode.map .i) T.init = some tE ∧
      TSteps incEnv tE.out ⟨0, m⟩ ⟨tE.out.length, m'⟩ ∧ m'.g 0 = m.g 4 + 3 * m.g 3 ∧ m'.sp = 0xf000 := by
  obtain ⟨tE, hcode⟩ := loop_code
  obtain ⟨s', hs⟩ := loop_run k hk ⟨m.mem, m.g⟩ 0 h3
  obtain ⟨m', r, hv, ha⟩ := C59_return (s := ⟨m.mem, m.g⟩) (rg := 0) hcode exCall ex_keeps (fun x y _ => ⟨rfl, rfl⟩)
    ⟨hsp, hfp, fun _ _ => rfl, fun _ _ _ => rfl⟩ (fun c _ => cfg_triv (by decide) c) hs rfl
    (.jmp rfl (k := 22) rfl (.lab rfl .refl))
  exact ⟨tE, m', hcode.emits, r, by rw [hv, ← h3], ha.sp⟩

end Cmm.Tac
