import Verif.Tree.Expr

/-
The stack machine whose instructions src/vmCode.c emits (src/vm.h:48-140, doc/vm.tex).

Simplifications:
* What lies behind variables, references and functions is the `World` of the expressions:
  LDW/STW access it as `idxi`, LDB/STB as `idxc` (`Layout` says that references and fields
  are accessed as words and booleans as bytes).
* Accesses and divisions that the world calls undefined stop the machine.
* A called function takes its arguments from the argument area and either returns a word and
  a new state or does not return; the machine then has no further step.
* doc/vm.tex:562-570, 649-657, 675-709 describe SUB, DIV, MOD and the comparisons with the
  operand on top of the stack as the left one. vmCode.c pushes the left operand first and
  src/vm2tac.c:630-640, 752-770 computes second-from-top op top; that is modelled.
-/
namespace Cmm.Gen
open Cmm.Tree

/-- One-operand instructions (vm.h: vmNeg, vmNot, vmBNot, vmChr, vmBool). -/
inductive A1 | NEG | NOT | BNOT | CHR | BOOL
deriving DecidableEq, Repr

/-- Two-operand instructions (vm.h: vmAdd … vmNe). -/
inductive A2
  | ADD | SUB | SHL | SHR | BAND | BXOR | BOR | MUL | DIV | MOD
  | GT | GE | LT | LE | EQ | NE
deriving DecidableEq, Repr

/-- Instructions (vm.h). `bug` stands for a call of error("バグ...") in the code generator. -/
inductive Instr
  | lab (n : Nat) | jmp (n : Nat) | jt (n : Nat) | jf (n : Nat)
  | ldC (v : Int) | ldG (n : Int) | ldL (n : Int) | ldP (n : Int) | ldLab (n : Int) | ldNam (n : Int)
  | ldW | ldB
  | stG (n : Int) | stL (n : Int) | stP (n : Int) | stW | stB
  | a1 (o : A1) | a2 (o : A2)
  | pop | arg | callF (n : Nat) (f : Int) | callP (n : Nat) (f : Int)
  | mreg | nam (f : Int) | entry (d : Int) | entryK (d : Int) | entryI (d : Int) | ret | retI
  | bug
deriving DecidableEq, Repr

/-- Data of the machine: stack (top first), argument area (last ARG first), the register for
return values and the world. -/
structure Data (σ : Type) where
  stk : List Word
  args : List Word
  reg : Word
  s : σ

structure Cfg (σ : Type) where
  pc : Nat
  d : Data σ

variable {σ : Type}

/-- doc/vm.tex:490-548. -/
def a1Val : A1 → Word → Word
  | .NEG, v => 0 - v
  | .NOT, v => v ^^^ 1
  | .BNOT, v => ~~~v
  | .CHR, v => v &&& 255
  | .BOOL, v => v &&& 1

/-- doc/vm.tex:550-750, `x` second from top, `y` on top. -/
def a2Val (w : World σ) : A2 → Word → Word → Word
  | .ADD, x, y => x + y
  | .SUB, x, y => x - y
  | .SHL, x, y => x <<< y.toNat
  | .SHR, x, y => x.sshiftRight y.toNat
  | .BAND, x, y => x &&& y
  | .BXOR, x, y => x ^^^ y
  | .BOR, x, y => x ||| y
  | .MUL, x, y => x * y
  | .DIV, x, y => if y = 0 then w.div0 x else x.sdiv y
  | .MOD, x, y => if y = 0 then w.mod0 x else x.srem y
  | .GT, x, y => ofB (decide (y.toInt < x.toInt))
  | .GE, x, y => ofB (decide (y.toInt ≤ x.toInt))
  | .LT, x, y => ofB (decide (x.toInt < y.toInt))
  | .LE, x, y => ofB (decide (x.toInt ≤ y.toInt))
  | .EQ, x, y => ofB (decide (x = y))
  | .NE, x, y => ofB (decide (x ≠ y))

/-- The division is defined. -/
def okA (w : World σ) : A2 → Word → Word → Bool
  | .DIV, x, y => w.ok .div x y
  | .MOD, x, y => w.ok .mod x y
  | _, _, _ => true

theorem okA_total {w : World σ} (h : w.Total) (o : A2) (x y : Word) : okA w o x y = true := by
  cases o <;> first | rfl | exact h _ _ _

/-- Instructions that continue with the next instruction. -/
def run (w : World σ) : Instr → Data σ → Option (Data σ)
  | .lab _, d => some d
  | .ldC v, d => some { d with stk := BitVec.ofInt 16 v :: d.stk }
  | .ldG n, d => some { d with stk := w.read .glb n d.s :: d.stk }
  | .ldL n, d => some { d with stk := w.read .loc n d.s :: d.stk }
  | .ldP n, d => some { d with stk := w.read .prm n d.s :: d.stk }
  | .ldLab n, d => some { d with stk := w.read .str n d.s :: d.stk }
  | .ldNam n, d => some { d with stk := w.read .addr n d.s :: d.stk }
  | .ldW, ⟨i :: a :: st, ar, rg, s⟩ =>
    if w.ok .idxi a i then some ⟨w.load .idxi a i s :: st, ar, rg, s⟩ else none
  | .ldB, ⟨i :: a :: st, ar, rg, s⟩ =>
    if w.ok .idxc a i then some ⟨w.load .idxc a i s :: st, ar, rg, s⟩ else none
  | .stG n, ⟨v :: st, ar, rg, s⟩ => some ⟨v :: st, ar, rg, w.write .glb n v s⟩
  | .stL n, ⟨v :: st, ar, rg, s⟩ => some ⟨v :: st, ar, rg, w.write .loc n v s⟩
  | .stP n, ⟨v :: st, ar, rg, s⟩ => some ⟨v :: st, ar, rg, w.write .prm n v s⟩
  | .stW, ⟨i :: a :: v :: st, ar, rg, s⟩ =>
    if w.ok .idxi a i then some ⟨v :: st, ar, rg, w.store .idxi a i v s⟩ else none
  | .stB, ⟨i :: a :: v :: st, ar, rg, s⟩ =>
    if w.ok .idxc a i then some ⟨v :: st, ar, rg, w.store .idxc a i v s⟩ else none
  | .a1 o, ⟨v :: st, ar, rg, s⟩ => some ⟨a1Val o v :: st, ar, rg, s⟩
  | .a2 o, ⟨y :: x :: st, ar, rg, s⟩ =>
    if okA w o x y then some ⟨a2Val w o x y :: st, ar, rg, s⟩ else none
  | .pop, ⟨_ :: st, ar, rg, s⟩ => some ⟨st, ar, rg, s⟩
  | .arg, ⟨v :: st, ar, rg, s⟩ => some ⟨st, v :: ar, rg, s⟩
  | .callF n f, ⟨st, ar, rg, s⟩ =>
    match w.call f (ar.take n) s with
    | some (v, s) => some ⟨v :: st, ar.drop n, rg, s⟩
    | none => none
  | .callP n f, ⟨st, ar, rg, s⟩ =>
    match w.call f (ar.take n) s with
    | some (_, s) => some ⟨st, ar.drop n, rg, s⟩
    | none => none
  | .mreg, ⟨v :: st, ar, _, s⟩ => some ⟨st, ar, v, s⟩
  | _, _ => none

/-- One step of program `P`. Labels are pseudo instructions. -/
inductive Step (w : World σ) (P : List Instr) : Cfg σ → Cfg σ → Prop
  | next {pc d i d'} : P[pc]? = some i → run w i d = some d' → Step w P ⟨pc, d⟩ ⟨pc + 1, d'⟩
  | jmp {pc d n k} : P[pc]? = some (.jmp n) → P[k]? = some (.lab n) → Step w P ⟨pc, d⟩ ⟨k, d⟩
  | jtT {pc v st ar rg s n k} : P[pc]? = some (.jt n) → P[k]? = some (.lab n) → v ≠ 0 →
      Step w P ⟨pc, ⟨v :: st, ar, rg, s⟩⟩ ⟨k, ⟨st, ar, rg, s⟩⟩
  | jtF {pc v st ar rg s n} : P[pc]? = some (.jt n) → v = 0 →
      Step w P ⟨pc, ⟨v :: st, ar, rg, s⟩⟩ ⟨pc + 1, ⟨st, ar, rg, s⟩⟩
  | jfT {pc v st ar rg s n} : P[pc]? = some (.jf n) → v ≠ 0 →
      Step w P ⟨pc, ⟨v :: st, ar, rg, s⟩⟩ ⟨pc + 1, ⟨st, ar, rg, s⟩⟩
  | jfF {pc v st ar rg s n k} : P[pc]? = some (.jf n) → P[k]? = some (.lab n) → v = 0 →
      Step w P ⟨pc, ⟨v :: st, ar, rg, s⟩⟩ ⟨k, ⟨st, ar, rg, s⟩⟩

/-- Any number of steps. -/
inductive Steps (w : World σ) (P : List Instr) : Cfg σ → Cfg σ → Prop
  | refl {c} : Steps w P c c
  | head {a b c} : Step w P a b → Steps w P b c → Steps w P a c

/-- The machine waits for a called function that does not return. -/
def Hung (w : World σ) (P : List Instr) (c : Cfg σ) : Prop :=
  ∃ n f, (P[c.pc]? = some (.callF n f) ∨ P[c.pc]? = some (.callP n f)) ∧
    w.call f (c.d.args.take n) c.d.s = none

theorem Steps.trans {w : World σ} {P : List Instr} {a b c : Cfg σ} (h : Steps w P a b)
    (h' : Steps w P b c) : Steps w P a c := by
  induction h with
  | refl => exact h'
  | head h1 _ ih => exact .head h1 (ih h')

theorem Step.steps {w : World σ} {P : List Instr} {a b : Cfg σ} (h : Step w P a b) :
    Steps w P a b := .head h .refl

/-- Every label is defined at most once. -/
def UniqueLabels (P : List Instr) : Prop :=
  ∀ (i j n : Nat), P[i]? = some (Instr.lab n) → P[j]? = some (Instr.lab n) → i = j

/-- With unique labels the machine is deterministic. -/
theorem Step.det {w : World σ} {P : List Instr} (hu : UniqueLabels P) {a b c : Cfg σ}
    (h : Step w P a b) (h' : Step w P a c) : b = c := by
  cases h with
  | next h1 h2 =>
    cases h' with
    | next h3 h4 => rw [h1] at h3; cases h3; rw [h2] at h4; cases h4; rfl
    | jmp h3 _ => rw [h1] at h3; cases h3; simp [run] at h2
    | jtT h3 _ _ => rw [h1] at h3; cases h3; simp [run] at h2
    | jtF h3 _ => rw [h1] at h3; cases h3; simp [run] at h2
    | jfT h3 _ => rw [h1] at h3; cases h3; simp [run] at h2
    | jfF h3 _ _ => rw [h1] at h3; cases h3; simp [run] at h2
  | jmp h1 h2 =>
    cases h' with
    | next h3 h4 => rw [h1] at h3; cases h3; simp [run] at h4
    | jmp h3 h4 => rw [h1] at h3; cases h3; rw [hu _ _ _ h2 h4]
    | _ h3 => exfalso; simp_all
  | jtT h1 h2 hv =>
    cases h' with
    | next h3 h4 => rw [h1] at h3; cases h3; simp [run] at h4
    | jtT h3 h4 _ => rw [h1] at h3; cases h3; rw [hu _ _ _ h2 h4]
    | jtF h3 h4 => exact absurd h4 hv
    | _ h3 => exfalso; simp_all
  | jtF h1 hv =>
    cases h' with
    | next h3 h4 => rw [h1] at h3; cases h3; simp [run] at h4
    | jtT h3 h4 h5 => exact absurd hv h5
    | jtF h3 h4 => rfl
    | _ h3 => exfalso; simp_all
  | jfT h1 hv =>
    cases h' with
    | next h3 h4 => rw [h1] at h3; cases h3; simp [run] at h4
    | jfF h3 h4 h5 => exact absurd h5 hv
    | jfT h3 h4 => rfl
    | _ h3 => exfalso; simp_all
  | jfF h1 h2 hv =>
    cases h' with
    | next h3 h4 => rw [h1] at h3; cases h3; simp [run] at h4
    | jfF h3 h4 _ => rw [h1] at h3; cases h3; rw [hu _ _ _ h2 h4]
    | jfT h3 h4 => exact absurd hv h4
    | _ h3 => exfalso; simp_all

/-- Two runs to configurations without a further step end in the same configuration. -/
theorem Steps.det {w : World σ} {P : List Instr} (hu : UniqueLabels P) {a b c : Cfg σ}
    (h : Steps w P a b) (h' : Steps w P a c) (hb : ∀ x, ¬ Step w P b x)
    (hc : ∀ x, ¬ Step w P c x) : b = c := by
  induction h with
  | refl =>
    cases h' with
    | refl => rfl
    | head h1 _ => exact absurd h1 (hb _)
  | head h1 _ ih =>
    cases h' with
    | refl => exact absurd h1 (hc _)
    | head h2 h3 => rw [h1.det hu h2] at ih; exact ih h3 hb

/-- Steps over labels and along unconditional jumps. -/
inductive Idle (P : List Instr) : Cfg σ → Cfg σ → Prop
  | refl {c} : Idle P c c
  | lab {pc n d c} : P[pc]? = some (.lab n) → Idle P ⟨pc + 1, d⟩ c → Idle P ⟨pc, d⟩ c
  | jmp {pc n k d c} : P[pc]? = some (.jmp n) → P[k]? = some (.lab n) → Idle P ⟨k, d⟩ c → Idle P ⟨pc, d⟩ c

theorem Idle.steps {w : World σ} {P : List Instr} {a b : Cfg σ} (h : Idle P a b) : Steps w P a b := by
  induction h with
  | refl => exact .refl
  | lab h _ ih => exact .head (.next h rfl) ih
  | jmp h h' _ ih => exact .head (.jmp h h') ih

theorem Idle.trans {P : List Instr} {a b c : Cfg σ} (h : Idle P a b) (h' : Idle P b c) : Idle P a c := by
  induction h with
  | refl => exact h'
  | lab h _ ih => exact .lab h (ih h')
  | jmp h h1 _ ih => exact .jmp h h1 (ih h')

end Cmm.Gen
