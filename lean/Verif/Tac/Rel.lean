import Verif.Tac.Forms2
import Verif.Props.C54

/-
What the virtual stack of src/vm2tac.c says about the TaC machine: the relation between the stack
of the stack machine (Verif/Gen/VM.lean), the descriptions (Verif/Tac/Model.lean) and the registers
and the memory of the machine (Verif/Tac/Machine.lean).
-/
namespace Cmm.Tac
open Cmm.Tree (World ofB)
open Cmm.Gen (Instr A1 A2 Data)

/-! ### Specification -/

/-- What the instructions of the stack machine work on: memory and register variables (G3 to
G11). -/
structure Sto where
  mem : Mem
  reg : Int → Word

/-- The frame of a function while it evaluates an expression: SP before the expression, the number
of bytes below it that the hardware stack may use (also by called functions), FP, and the number of bytes
that may be in use when a function is called. -/
structure Fr where
  base : Word
  lim : Nat
  fp : Word
  use : Nat

/-- The address is not in the part of the memory used as hardware stack. -/
def Out (F : Fr) (a : Word) : Prop := ∀ k : Int, 1 ≤ k → k ≤ F.lim → a ≠ ad F.base (-k)

/-- The same for a word. -/
def OutW (F : Fr) (a : Word) : Prop := Out F a ∧ Out F (a + 1)

/-- Address of local variable number `c` (vm2tac.c:462-468). -/
def locA (F : Fr) (c : Int) : Word := F.fp + BitVec.ofInt 16 (-((c - 9) * 2))

/-- Address of parameter number `c` (vm2tac.c:471-474). -/
def prmA (F : Fr) (c : Int) : Word := F.fp + BitVec.ofInt 16 ((c + 2) * 2)

def setR (f : Int → Word) (r : Int) (v : Word) : Int → Word := fun i => if i = r then v else f i

/-- What the stack machine refers to, as it is in the TaC machine: the first nine local variables
are in registers, the others and the parameters in the frame. -/
def world (E : Env) (F : Fr) (cnt : Int → Int)
    (callee : Int → List Word → Sto → Option (Word × Sto)) : World Sto where
  read k n s :=
    match k with
    | .glb => s.mem.lw (E.adr n)
    | .loc => if cnt n ≤ 9 then s.reg (cnt n + 2) else s.mem.lw (locA F (cnt n))
    | .prm => s.mem.lw (prmA F (cnt n))
    | .str => E.lab n
    | .addr => E.adr n
    | _ => 0
  write k n v s :=
    match k with
    | .glb => { s with mem := s.mem.sw (E.adr n) v }
    | .loc => if cnt n ≤ 9 then { s with reg := setR s.reg (cnt n + 2) v }
      else { s with mem := s.mem.sw (locA F (cnt n)) v }
    | .prm => { s with mem := s.mem.sw (prmA F (cnt n)) v }
    | _ => s
  load b a i s :=
    match b with
    | .idxi => s.mem.lw (a + 2 * i)
    | .idxc => (s.mem (a + i)).setWidth 16
    | _ => 0
  store b a i v s :=
    match b with
    | .idxi => { s with mem := s.mem.sw (a + 2 * i) v }
    | .idxc => { s with mem := s.mem.set (a + i) (v.setWidth 8) }
    | _ => s
  call := callee
  div0 x := E.div x 0
  mod0 x := E.mod x 0

/-- An element of the stack and the argument area of the stack machine together, in the order in
which they were pushed. `p` is the address a value was loaded from by LDW or LDB. -/
inductive It
  | val (v p : Word)
  | arg (v : Word)
deriving DecidableEq

def It.isVal : It → Bool
  | .val .. => true
  | .arg _ => false

/-- The stack. -/
def vals : List It → List Word
  | [] => []
  | .val v _ :: l => v :: vals l
  | .arg _ :: l => vals l

/-- The argument area. -/
def argl : List It → List Word
  | [] => []
  | .val _ _ :: l => argl l
  | .arg v :: l => v :: argl l

/-- The description `e` stands for the value `v` (loaded from `p`) in machine `m`; `j` is jcc. A
value on the hardware stack is described by `Repr`. -/
def Val (E : Env) (F : Fr) (j : Nat) (m : M) (e : Ent) (v p : Word) : Prop :=
  match e.sta with
  | .CNST => BitVec.ofInt 16 e.aux = v
  | .GVAR => OutW F (E.adr e.aux) ∧ m.mem.lw (E.adr e.aux) = v
  | .LVAR => OutW F (F.fp + BitVec.ofInt 16 (-e.aux)) ∧ m.mem.lw (F.fp + BitVec.ofInt 16 (-e.aux)) = v
  | .PRM => OutW F (F.fp + BitVec.ofInt 16 e.aux) ∧ m.mem.lw (F.fp + BitVec.ofInt 16 e.aux) = v
  | .RVAR | .ACC => m.g e.aux = v
  | .LABEL => E.lab e.aux = v
  | .NAME => E.adr e.aux = v
  | .WINDR => m.g e.aux = p ∧ OutW F p ∧ m.mem.lw p = v
  | .BINDR => m.g e.aux = p ∧ Out F p ∧ (m.mem p).setWidth 16 = v
  | .FLAG => ofB (holds j m.lt m.z) = v
  | .STK => False

/-- The stack of the stack machine is described by the virtual stack and the list of words on
the hardware stack (top first). -/
inductive Repr (V : Ent → Word → Word → Prop) : List It → List Ent → List Word → Prop
  | nil : Repr V [] [] []
  | val {v p e its es hw} : e.sta ≠ .STK → V e v p → Repr V its es hw →
      Repr V (.val v p :: its) (e :: es) hw
  | stk {v p a its es hw} : accs es = [] → Repr V its es hw →
      Repr V (.val v p :: its) (⟨.STK, a⟩ :: es) (v :: hw)
  | arg {v its es hw} : accs es = [] → Repr V its es hw → Repr V (.arg v :: its) es (v :: hw)

/-- The words on the hardware stack. -/
def HwMem (base : Word) (mem : Mem) : List Word → Prop
  | [] => True
  | v :: hw => mem.lw (dn base (hw.length + 1)) = v ∧ HwMem base mem hw

/-- What is known about the flags: nothing, Z, or both Z and S xor V. -/
inductive Gh | no | z | all
deriving DecidableEq

/-- The flags belong to the value flgPtr points to. -/
def FlOk (g : Gh) (f : Option Nat) (its : List It) (es : List Ent) (m : M) : Prop :=
  g ≠ .no → (∀ e ∈ es, e.sta ≠ .FLAG) ∧
    ∀ p v, f = some p → (vals its).reverse[p]? = some v →
      m.z = (v == 0) ∧ (g = .all → m.lt = v.msb)

/-- The relation between the states. -/
structure RelH (E : Env) (F : Fr) (g : Gh) (t : T) (its : List It) (s : Sto) (m : M)
    (hw : List Word) : Prop where
  repr : Repr (Val E F t.jcc m) its t.stk hw
  hwm : HwMem F.base m.mem hw
  sp : m.sp = dn F.base hw.length
  fp : m.fp = F.fp
  room : 2 * its.length ≤ F.lim
  lim : F.lim < 65535
  mem : ∀ a, Out F a → m.mem a = s.mem a
  reg : ∀ r, 3 ≤ r → r ≤ 11 → m.g r = s.reg r
  fl : FlOk g t.flg its t.stk m

def Rel (E : Env) (F : Fr) (g : Gh) (t : T) (its : List It) (s : Sto) (m : M) : Prop :=
  ∃ hw, RelH E F g t its s m hw

/-! ### Lists -/

theorem Repr.vals_length {V : Ent → Word → Word → Prop} {its : List It} {es : List Ent} {hw : List Word}
    (h : Repr V its es hw) : (vals its).length = es.length := by
  induction h with
  | nil => rfl
  | val _ _ _ ih => simp [vals, ih]
  | stk _ _ ih => simp [vals, ih]
  | arg _ _ ih => simp [vals, ih]

theorem Repr.hw_length {V : Ent → Word → Word → Prop} {its : List It} {es : List Ent} {hw : List Word}
    (h : Repr V its es hw) : hw.length ≤ its.length := by
  induction h with
  | nil => simp
  | val _ _ _ ih => simp; omega
  | stk _ _ ih => simp; omega
  | arg _ _ ih => simp; omega

theorem Repr.mono {V V' : Ent → Word → Word → Prop} {its : List It} {es : List Ent} {hw : List Word}
    (h : Repr V its es hw) (hv : ∀ e ∈ es, ∀ v p, V e v p → V' e v p) : Repr V' its es hw := by
  induction h with
  | nil => exact .nil
  | val h1 h2 _ ih => exact .val h1 (hv _ (by simp) _ _ h2) (ih fun e he => hv e (by simp [he]))
  | stk h1 _ ih => exact .stk h1 (ih fun e he => hv e (by simp [he]))
  | arg h1 _ ih => exact .arg h1 (ih hv)

/-- Values above an entry. -/
inductive Up (V : Ent → Word → Word → Prop) : List It → List Ent → Prop
  | nil : Up V [] []
  | cons {v p e its es} : e.sta ≠ .STK → V e v p → Up V its es → Up V (.val v p :: its) (e :: es)

theorem Up.build {V : Ent → Word → Word → Prop} {vs its : List It} {hi es : List Ent} {hw : List Word}
    (h : Up V vs hi) (h' : Repr V its es hw) : Repr V (vs ++ its) (hi ++ es) hw := by
  induction h with
  | nil => exact h'
  | cons h1 h2 _ ih => exact .val h1 h2 ih

theorem Up.mono {V V' : Ent → Word → Word → Prop} {vs : List It} {hi : List Ent} (h : Up V vs hi)
    (hv : ∀ e ∈ hi, ∀ v p, V e v p → V' e v p) : Up V' vs hi := by
  induction h with
  | nil => exact .nil
  | cons h1 h2 _ ih => exact .cons h1 (hv _ (by simp) _ _ h2) (ih fun e he => hv e (by simp [he]))

theorem Repr.split {V : Ent → Word → Word → Prop} {its : List It} {hi : List Ent} {e : Ent} {lo : List Ent}
    {hw : List Word} (h : Repr V its (hi ++ e :: lo) hw)
    (hc : accs (e :: lo) ≠ [] ∨ ((∀ x ∈ hi, x.sta ≠ .STK) ∧ ∀ i ∈ its.take (hi.length + 1), i.isVal = true)) :
    ∃ vs v p rest, its = vs ++ .val v p :: rest ∧ Up V vs hi ∧ Repr V (.val v p :: rest) (e :: lo) hw := by
  induction hi generalizing its with
  | nil =>
    cases h with
    | val h1 h2 h3 => exact ⟨[], _, _, _, rfl, .nil, .val h1 h2 h3⟩
    | stk h1 h2 => exact ⟨[], _, _, _, rfl, .nil, .stk h1 h2⟩
    | arg h1 h2 =>
      rcases hc with hc | hc
      · exact absurd h1 hc
      · have := hc.2 (.arg _) (List.mem_cons_self ..)
        cases this
  | cons x hi ih =>
    cases h with
    | val h1 h2 h3 =>
      obtain ⟨vs, v, p, rest, k1, k2, k3⟩ := ih h3 (by
        rcases hc with hc | hc
        · exact .inl hc
        · exact .inr ⟨fun y hy => hc.1 y (by simp [hy]), fun i hi' => hc.2 i (by
            simp only [List.length_cons, List.take_succ_cons]
            exact List.mem_cons_of_mem _ hi')⟩)
      exact ⟨_ :: vs, v, p, rest, by rw [k1]; rfl, .cons h1 h2 k2, k3⟩
    | stk h1 h2 =>
      rcases hc with hc | hc
      · have h1 : accs (hi ++ e :: lo) = [] := h1
        rw [accs_append] at h1
        exact absurd (List.append_eq_nil_iff.1 h1).2 hc
      · exact absurd rfl (hc.1 ⟨.STK, _⟩ (List.mem_cons_self ..))
    | arg h1 h2 =>
      rcases hc with hc | hc
      · exfalso
        have h1 : accs ((x :: hi) ++ e :: lo) = [] := h1
        rw [accs_append] at h1
        exact hc (List.append_eq_nil_iff.1 h1).2
      · have := hc.2 (.arg _) (List.mem_cons_self ..)
        cases this

/-! ### Memory -/

theorem Out.dn {F : Fr} {a : Word} (h : Out F a) {k : Nat} (h1 : 1 ≤ k) (h2 : 2 * k ≤ F.lim) :
    a ≠ dn F.base k ∧ a ≠ dn F.base k + 1 := by
  constructor
  · exact h (2 * k) (by omega) (by omega)
  · have : Tac.dn F.base k + 1 = ad F.base (-(2 * k - 1)) := by
      unfold Tac.dn
      rw [add_one_eq_ad, ad_ad]
      congr 1
      omega
    rw [this]
    exact h (2 * k - 1) (by omega) (by omega)

theorem OutW.lw {F : Fr} {a : Word} (h : OutW F a) {mem mem' : Mem}
    (hm : ∀ x, Out F x → mem' x = mem x) : mem'.lw a = mem.lw a :=
  lw_congr (hm _ h.1) (hm _ h.2)

theorem HwMem.congr {base : Word} {mem mem' : Mem} {hw : List Word} (h : HwMem base mem hw)
    (hm : ∀ k, 1 ≤ k → k ≤ hw.length → mem'.lw (dn base k) = mem.lw (dn base k)) :
    HwMem base mem' hw := by
  induction hw with
  | nil => trivial
  | cons v hw ih =>
    exact ⟨by rw [hm _ (by omega) (by simp)]; exact h.1,
      ih h.2 fun k h1 h2 => hm k h1 (by simp only [List.length_cons]; omega)⟩

/-- A store outside of the hardware stack. -/
theorem HwMem.sw {F : Fr} {mem : Mem} {hw : List Word} (h : HwMem F.base mem hw) {a v : Word}
    (ha : OutW F a) (hl : 2 * hw.length ≤ F.lim) : HwMem F.base (mem.sw a v) hw := by
  refine h.congr fun k h1 h2 => ?_
  have d1 := ha.1.dn h1 (by omega)
  have d2 := ha.2.dn h1 (by omega)
  exact lw_congr (Mem.sw_ne _ _ d1.1.symm d2.1.symm) (Mem.sw_ne _ _ d1.2.symm d2.2.symm)

theorem HwMem.set {F : Fr} {mem : Mem} {hw : List Word} (h : HwMem F.base mem hw) {a : Word} {v : Byte}
    (ha : Out F a) (hl : 2 * hw.length ≤ F.lim) : HwMem F.base (mem.set a v) hw := by
  refine h.congr fun k h1 h2 => ?_
  have d1 := ha.dn h1 (by omega)
  exact lw_congr (Mem.set_ne _ _ d1.1.symm) (Mem.set_ne _ _ d1.2.symm)

/-- A push. -/
theorem HwMem.push {base : Word} {mem : Mem} {hw : List Word} (h : HwMem base mem hw) (v : Word)
    (hl : 2 * (hw.length + 1) < 65535) : HwMem base (mem.sw (dn base (hw.length + 1)) v) (v :: hw) :=
  ⟨Mem.lw_sw_same _ _ _, h.congr fun k _ h2 => Mem.lw_sw_ne _ _ (dn_apart (by omega) hl)⟩

/-! ### Values -/

/-- The entry reads a register. -/
def Ent.hasReg (e : Ent) : Prop := e.sta = .ACC ∨ e.sta = .RVAR ∨ e.sta = .WINDR ∨ e.sta = .BINDR

theorem Val.frame {E : Env} {F : Fr} {j : Nat} {m m' : M} {e : Ent} {v p : Word} (h : Val E F j m e v p)
    (hm : ∀ a, Out F a → m'.mem a = m.mem a) (hg : e.hasReg → m'.g e.aux = m.g e.aux)
    (hf : e.sta = .FLAG → m'.lt = m.lt ∧ m'.z = m.z) : Val E F j m' e v p := by
  obtain ⟨sta, a⟩ := e
  unfold Ent.hasReg at hg
  cases sta <;> simp only [Val] at h ⊢
  · exact h
  · exact ⟨h.1, by rw [h.1.lw hm]; exact h.2⟩
  · exact ⟨h.1, by rw [h.1.lw hm]; exact h.2⟩
  · rw [hg (by simp)]; exact h
  · exact ⟨h.1, by rw [h.1.lw hm]; exact h.2⟩
  · exact h
  · exact h
  · exact ⟨by rw [hg (by simp)]; exact h.1, h.2.1, by rw [h.2.1.lw hm]; exact h.2.2⟩
  · exact ⟨by rw [hg (by simp)]; exact h.1, h.2.1, by rw [hm _ h.2.1]; exact h.2.2⟩
  · rw [hg (by simp)]; exact h
  · rw [(hf rfl).1, (hf rfl).2]; exact h

/-- The operand printed for an entry has its value. -/
theorem Val.src {E : Env} {F : Fr} {j : Nat} {m : M} {e : Ent} {v p : Word} {s : Src}
    (h : Val E F j m e v p) (ho : operand e = some s) (hfp : m.fp = F.fp) : srcVal E m s = v := by
  obtain ⟨sta, a⟩ := e
  cases sta <;> simp only [Val, operand, Option.some.injEq] at h ho
  all_goals first
    | cases ho; done
    | (subst ho; simp only [srcVal, M.reg, hfp]; first | exact h | exact h.2 | (rw [h.1]; exact h.2.2))

/-- An accumulator that another entry uses may change. -/
theorem other_acc {es : List Ent} {a : Int} (hn : a ∉ accs es) (ha : a < 3)
    (hr : ∀ e ∈ es, RegOk e) {e : Ent} (he : e ∈ es) (hh : e.hasReg) : e.aux ≠ a := by
  intro hx
  have : a ∉ acc1 e := by
    intro h
    apply hn
    obtain ⟨hi, lo, rfl⟩ := List.append_of_mem he
    rw [accs_split]; simp [h]
  obtain ⟨sta, b⟩ := e
  have hrk := hr _ he
  simp only at hx
  subst hx
  unfold Ent.hasReg at hh
  unfold RegOk at hrk
  unfold acc1 isAcc AccSIZ at this
  cases sta <;> simp_all
  all_goals omega

end Cmm.Tac
