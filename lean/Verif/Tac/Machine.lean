import Verif.Tac.Model
import Verif.Lib.Mem

/-
The TaC machine, as far as the lines printed by src/vm2tac.c need it. The repository contains no
description of the TaC processor. What is assumed:
* LD, ST, PUSH, POP and the jumps leave the flags alone (vm2tac.c:155-163 relies on it: it prints
  LD between a comparison and the jump that tests it).
* An arithmetic operation sets Z if the result is 0, and S and V as usual; JLT and its relatives
  test S xor V, here the flag `lt`. CMP compares signed numbers.
* AND, OR and XOR clear V. V after another operation and the results of DIV and MOD are
  parameters of the model (`Env`).
* The hardware stack grows downwards; PUSH decrements SP by 2 first.
-/
namespace Cmm.Tac
open Cmm.Tree (ofB)

/-- Registers, flags and memory. `g i` is the register regs[i] (G0 to G11). -/
structure M where
  g : Int → Word
  fp : Word
  sp : Word
  lt : Bool
  z : Bool
  mem : Mem

/-- What surrounds the function: addresses of names and labels, the functions that are called
(as functions of the whole machine state at the CALL, giving the state after the return; `val` are
those that return a value), and the parameters of the processor. -/
structure Env where
  adr : Int → Word
  lab : Int → Word
  fn : Int → M → Option M
  val : Int → Bool
  chk : M → Option M
  div : Word → Word → Word
  mod : Word → Word → Word
  v : TOp → Word → Word → Bool

def M.reg (m : M) : Reg → Word
  | .g i => m.g i
  | .fp => m.fp
  | .sp => m.sp

def setG (g : Int → Word) (i : Int) (v : Word) : Int → Word := fun r => if r = i then v else g r

def M.setReg (m : M) (r : Reg) (v : Word) : M :=
  match r with
  | .g i => { m with g := setG m.g i v }
  | .fp => { m with fp := v }
  | .sp => { m with sp := v }

/-- Value of an operand. -/
def srcVal (E : Env) (m : M) : Src → Word
  | .imm n => BitVec.ofInt 16 n
  | .glb idx => m.mem.lw (E.adr idx)
  | .fp n => m.mem.lw (m.fp + BitVec.ofInt 16 n)
  | .reg r => m.reg r
  | .lab n => E.lab n
  | .nam idx => E.adr idx
  | .ind r => m.mem.lw (m.g r)
  | .byt r => (m.mem (m.g r)).setWidth 16

/-- Result of an operation. -/
def alu (E : Env) : TOp → Word → Word → Word
  | .LD, _, y => y
  | .ADD, x, y => x + y
  | .SUB, x, y => x - y
  | .CMP, x, _ => x
  | .AND, x, y => x &&& y
  | .OR, x, y => x ||| y
  | .XOR, x, y => x ^^^ y
  | .ADDS, x, y => x + 2 * y
  | .MUL, x, y => x * y
  | .DIV, x, y => E.div x y
  | .MOD, x, y => E.mod x y
  | .SHLA, x, y => x <<< y.toNat
  | .SHRA, x, y => x.sshiftRight y.toNat

/-- Overflow: never for the bitwise operations. -/
def ovf (E : Env) : TOp → Word → Word → Bool
  | .AND, _, _ | .OR, _, _ | .XOR, _, _ => false
  | o, x, y => E.v o x y

/-- Flags after an operation: (lt, z). -/
def flags (E : Env) (m : M) : TOp → Word → Word → Bool × Bool
  | .LD, _, _ => (m.lt, m.z)
  | .CMP, x, y => (x.slt y, x == y)
  | o, x, y => ((alu E o x y).msb ^^ ovf E o x y, alu E o x y == 0)

/-- The condition of the jump jcc[j] (vm2tac.c:113-119). -/
def holds (j : Nat) (lt z : Bool) : Bool :=
  match j with
  | 0 => lt
  | 1 => lt || z
  | 2 => z
  | 3 => !lt
  | 4 => !(lt || z)
  | _ => !z

/-- Execution state: the machine and, after a jump, the label that is looked for. -/
structure X where
  m : M
  skip : Option Lbl

def M.doOp (E : Env) (m : M) (o : TOp) (r : Reg) (s : Src) : M :=
  let x := m.reg r
  let y := srcVal E m s
  let m' := m.setReg r (alu E o x y)
  { m' with lt := (flags E m o x y).1, z := (flags E m o x y).2 }

def M.doSt (E : Env) (m : M) (r : Int) : Src → Option M
  | .glb idx => some { m with mem := m.mem.sw (E.adr idx) (m.g r) }
  | .fp n => some { m with mem := m.mem.sw (m.fp + BitVec.ofInt 16 n) (m.g r) }
  | .ind d => some { m with mem := m.mem.sw (m.g d) (m.g r) }
  | .byt d => some { m with mem := m.mem.set (m.g d) ((m.g r).setWidth 8) }
  | _ => none

def M.doPush (m : M) (r : Reg) : M := { m with sp := m.sp - 2, mem := m.mem.sw (m.sp - 2) (m.reg r) }

def M.doPop (m : M) (r : Reg) : M := ({ m with sp := m.sp + 2 } : M).setReg r (m.mem.lw m.sp)

/-- One line that is not a jump. `ret` and `reti` end the code of a function. -/
def M.line (E : Env) (m : M) : Line → Option M
  | .op o r s => some (m.doOp E o r s)
  | .st r d => m.doSt E r d
  | .push r => some (m.doPush r)
  | .pop r => some (m.doPop r)
  | .call idx => E.fn idx m
  | .stkChk => E.chk m
  | .nam _ => some m
  | _ => none

/-- One line. A jump skips all lines up to its label: expressions only contain jumps forward,
and a label is defined once. -/
def X.line (E : Env) (x : X) (l : Line) : Option X :=
  match x.skip with
  | some b => if l = .lab b then some ⟨x.m, none⟩ else some x
  | none =>
    match l with
    | .lab _ => some x
    | .jmp b => some ⟨x.m, some b⟩
    | .jcc j b => some (if holds j x.m.lt x.m.z then ⟨x.m, some b⟩ else x)
    | l => (x.m.line E l).map fun m => ⟨m, none⟩

/-- A list of lines. -/
def exec (E : Env) : List Line → X → Option X
  | [], x => some x
  | l :: ls, x => (x.line E l).bind (exec E ls)

theorem exec_append (E : Env) (a b : List Line) (x : X) :
    exec E (a ++ b) x = (exec E a x).bind (exec E b) := by
  induction a generalizing x with
  | nil => rfl
  | cons l ls ih =>
    simp only [List.cons_append, exec]
    cases x.line E l with
    | none => rfl
    | some y => exact ih y

/-- Running `c` from machine `m` without pending jump ends in `m'` without pending jump. -/
def Runs (E : Env) (c : List Line) (m m' : M) : Prop :=
  exec E c ⟨m, none⟩ = some ⟨m', none⟩

theorem Runs.nil (E : Env) (m : M) : Runs E [] m m := rfl

theorem Runs.append {E : Env} {a b : List Line} {m m' m'' : M} (h : Runs E a m m')
    (h' : Runs E b m' m'') : Runs E (a ++ b) m m'' := by
  unfold Runs at *
  rw [exec_append, h]; exact h'

theorem Runs.one {E : Env} {l : Line} {m m' : M} (h : m.line E l = some m') :
    Runs E [l] m m' := by
  cases l <;> simp_all [Runs, exec, X.line, M.line]

end Cmm.Tac
