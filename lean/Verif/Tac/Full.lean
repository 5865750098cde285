import Verif.Props.C59

/-
A whole program: the lines printed by src/vm2tac.c for several functions, one after the other, on the TaC
machine with CALL and RET. CALL pushes the address of the line after it and goes to the line with the name;
RET pops an address and goes there.
-/
namespace Cmm.Tac
open Cmm.Tree (World)
open Cmm.Gen (Instr A1 A2 Data Cfg Step Steps Idle)

/-! ### The machine -/

/-- One line of the program `Q`, whose line number `i` is at address `A i`. A call of a function that is not in
`Q` is a step `line` (`E.fn`). -/
inductive FStep (E : Env) (A : Nat → Word) (Q : List Line) : TC → TC → Prop
  | plain {a b} : TStep E Q a b → FStep E A Q a b
  | call {pc k m f} : Q[pc]? = some (.call f) → Q[k]? = some (.nam f) →
      FStep E A Q ⟨pc, m⟩ ⟨k, { m with sp := m.sp - 2, mem := m.mem.sw (m.sp - 2) (A (pc + 1)) }⟩
  | ret {pc r m} : Q[pc]? = some .ret → m.mem.lw m.sp = A r → r ≤ Q.length →
      FStep E A Q ⟨pc, m⟩ ⟨r, { m with sp := m.sp + 2 }⟩

/-- Any number of lines. -/
inductive FSteps (E : Env) (A : Nat → Word) (Q : List Line) : TC → TC → Prop
  | refl {c} : FSteps E A Q c c
  | head {a b c} : FStep E A Q a b → FSteps E A Q b c → FSteps E A Q a c

/-! ### The text of a program -/

/-- A function as src/vmCode.c passes it to vm2tac.c: index of its name, number of local variables, number of
parameters, whether it is compiled with the option -K (no stack check), positions of its variables (ntGetCnt),
and the instructions between the entry and the exit. -/
structure Fn where
  f : Int
  d : Nat
  np : Nat
  ker : Bool
  cnt : Int → Int
  body : List Instr

/-- vmCode.c:662-682 genFunc calls vmNam, vmEntry or vmEntryK, the functions for the body and vmRet (interrupt functions,
which are not called, are left out). -/
def Fn.code (fn : Fn) : List Instr :=
  [.nam fn.f, if fn.ker then .entryK fn.d else .entry fn.d] ++ fn.body ++ [.ret]

/-- The functions of a program. -/
def emitProg : List Fn → T → Option T
  | [], t => some t
  | fn :: fns, t => (emits fn.cnt (fn.code.map .i) t).bind (emitProg fns)

/-- The state of vm2tac.c after the entry of a function. -/
def Fn.entered (fn : Fn) (t : T) : T :=
  if fn.ker then vmEntryK fn.d (t.print (.nam fn.f)) else vmEntry fn.d (t.print (.nam fn.f))

/-! ### Specification: what a program of stack code means -/

/-- The part of the memory that is the stack. -/
structure Lay where
  low : Word
  size : Nat

/-- The address does not belong to the stack. -/
def Lay.pub (L : Lay) (a : Word) : Bool := decide (L.size ≤ (a - L.low).toNat)

def Lay.pubW (L : Lay) (a : Word) : Prop := L.pub a = true ∧ L.pub (a + 1) = true

/-- Memory without the stack. -/
def Lay.clean (L : Lay) (mem : Mem) : Mem := fun a => if L.pub a then mem a else 0

/-- What one activation of a function works on: memory, its local variables and its parameters. -/
structure AS where
  mem : Mem
  loc : Int → Word
  prm : Int → Word

/-- No negative number is divided by a power of two with a remainder (there the generated code is wrong: C52). -/
def okDiv (x y : Word) : Bool :=
  (List.range 15).all fun k => decide (y.toInt ≠ 2 ^ k) || decide (0 ≤ x.toInt) || decide (y.toInt ∣ x.toInt)

/-- The world of an activation. `cnt` is ntGetCnt: the number of a variable or parameter and the offset of a field.
Local variables and parameters are not part of the memory. A called function gets the memory without the stack.
References into the stack are undefined. -/
def aworld (E : Env) (L : Lay) (cnt : Int → Int) (call : Int → List Word → Mem → Option (Word × Mem)) : World AS where
  read k n s :=
    match k with
    | .glb => s.mem.lw (E.adr n)
    | .loc => s.loc (cnt n)
    | .prm => s.prm (cnt n)
    | .str => E.lab n
    | .addr => E.adr n
    | _ => 0
  write k n v s :=
    match k with
    | .glb => { s with mem := s.mem.sw (E.adr n) v }
    | .loc => { s with loc := setR s.loc (cnt n) v }
    | .prm => { s with prm := setR s.prm (cnt n) v }
    | _ => s
  load b a i s :=
    match b with
    | .idxi | .idxr => s.mem.lw (a + 2 * i)
    | .idxc | .idxb => (s.mem (a + i)).setWidth 16
    | .dot => s.mem.lw (a + 2 * BitVec.ofInt 16 (cnt i.toInt))
    | _ => 0
  store b a i v s :=
    match b with
    | .idxi | .idxr => { s with mem := s.mem.sw (a + 2 * i) v }
    | .idxc | .idxb => { s with mem := s.mem.set (a + i) (v.setWidth 8) }
    | .dot => { s with mem := s.mem.sw (a + 2 * BitVec.ofInt 16 (cnt i.toInt)) v }
    | _ => s
  call f vs s := (call f vs (L.clean s.mem)).map fun r => (r.1, { s with mem := r.2 })
  div0 x := E.div x 0
  mod0 x := E.mod x 0
  ok b a i :=
    match b with
    | .idxi | .idxr => L.pub (a + 2 * i) && L.pub (a + 2 * i + 1)
    | .idxc | .idxb => L.pub (a + i)
    | .dot => L.pub (a + 2 * BitVec.ofInt 16 (cnt i.toInt)) && L.pub (a + 2 * BitVec.ofInt 16 (cnt i.toInt) + 1)
    | .div | .mod => okDiv a i
    | _ => true

/-- The function `fn`, called with arguments `vs` (the first one first) and memory `mem`, returns `v` and leaves
`mem'`: whatever its local variables contain at the beginning, the stack code gets to the end. A function that returns
a value gets there by a return statement (MREG, then only labels and jumps). -/
def Ret (E : Env) (L : Lay) (call : Int → List Word → Mem → Option (Word × Mem)) (fn : Fn) (vs : List Word) (mem : Mem)
    (v : Word) (mem' : Mem) : Prop :=
  vs.length = fn.np ∧ ∀ (loc : Int → Word) (rg : Word), ∃ s' rg', s'.mem = mem' ∧
    let c0 : Cfg AS := ⟨0, ⟨[], [], rg, ⟨mem, loc, fun c => vs.getD c.toNat 0⟩⟩⟩
    let w := aworld E L fn.cnt call
    if E.val fn.f then
      ∃ pc, Steps w fn.body c0 ⟨pc, ⟨[v], [], rg', s'⟩⟩ ∧ fn.body[pc]? = some .mreg ∧
        Idle fn.body (⟨pc + 1, ⟨[], [], v, s'⟩⟩ : Cfg AS) ⟨fn.body.length, ⟨[], [], v, s'⟩⟩
    else Steps w fn.body c0 ⟨fn.body.length, ⟨[], [], rg', s'⟩⟩ ∧ v = 0

open Classical in
/-- The result of calling function `f` in the program `fns`, if calls are nested at most `n` deep and every function
returns. `ext` are the functions that are not part of the program. -/
noncomputable def ev (E : Env) (L : Lay) (fns : List Fn) (ext : Int → List Word → Mem → Option (Word × Mem)) :
    Nat → Int → List Word → Mem → Option (Word × Mem)
  | 0, f, vs, mem =>
    match fns.find? fun fn => fn.f = f with
    | none => ext f vs mem
    | some _ => none
  | n + 1, f, vs, mem =>
    match fns.find? fun fn => fn.f = f with
    | none => ext f vs mem
    | some fn =>
      if h : ∃ r : Word × Mem, Ret E L (ev E L fns ext n) fn vs mem r.1 r.2 then some h.choose else none

/-! ### Specification: what a call does on the machine -/

/-- After the call: SP, FP and the registers G3 to G11 are as before, the value is in G0, the memory outside of the stack
is `mem'`, and the stack from offset `top` on is as before. -/
structure Returns (L : Lay) (val : Bool) (v : Word) (mem' : Mem) (top : Int) (m m' : M) : Prop where
  sp : m'.sp = m.sp
  fp : m'.fp = m.fp
  val : val = true → m'.g 0 = v
  pub : ∀ a, L.pub a = true → m'.mem a = mem' a
  stk : ∀ y : Int, top ≤ y → y < L.size → m'.mem (ad L.low y) = m.mem (ad L.low y)
  reg : ∀ r, 3 ≤ r → r ≤ 11 → m'.g r = m.g r

/-- Before the call: SP is at offset `x` of the stack, the arguments are on top of the stack, the first one on top. -/
structure Ready (L : Lay) (vs : List Word) (m : M) (x : Int) : Prop where
  sp : m.sp = ad L.low x
  top : x + 2 * vs.length ≤ L.size
  arg : ∀ (i : Nat) w, vs[i]? = some w → m.mem.lw (ad L.low (x + 2 * i)) = w

/-- Contract of the functions that are not part of the program: with `X` bytes of stack they do what `ext` says. -/
def ExtOk (E : Env) (L : Lay) (X : Nat) (ext : Int → List Word → Mem → Option (Word × Mem)) : Prop :=
  ∀ f vs v mem' m (x : Int), ext f vs (L.clean m.mem) = some (v, mem') → X ≤ x → Ready L vs m x →
    ∃ m', E.fn f m = some m' ∧ Returns L (E.val f) v mem' (x + 2 * vs.length) m m'

/-- Contract of `__stkChk` (lib/SrcTac/crt0.s:227-232): with `X` bytes of stack it returns, having changed G0, the flags
and the word below the stack pointer only. -/
def ChkAt (E : Env) (L : Lay) (X : Nat) : Prop :=
  ∀ m x, m.sp = ad L.low x → X ≤ x → x ≤ L.size →
    ∃ m', E.chk m = some m' ∧ m'.sp = m.sp ∧ m'.fp = m.fp ∧ (∀ r, r ≠ 0 → m'.g r = m.g r) ∧
      ∀ a, a ≠ m.sp - 1 → a ≠ m.sp - 2 → m'.mem a = m.mem a

/-- Offsets to FP of the local variables in memory and of the parameters; in between are the FP of the caller and the
return address. -/
def Fn.keep (fn : Fn) (k : Int) : Bool := decide (-(memLocals fn.d : Int) ≤ k) && decide (k < 4 + 2 * fn.np)

/-- Conditions on a function: `t` is the state of vm2tac.c after its entry, `U` the number of bytes its expressions
need, `S` a bound for its frame. -/
structure FnOk (E : Env) (L : Lay) (S : Nat) (fn : Fn) (t : T) : Prop where
  disc : Disc false (fn.body.map .i)
  shape : shapesF fn.body [] = some []
  fits : Fits fn.cnt fn.keep fn.body .all t = true
  glb : ∀ n, .ldG n ∈ fn.body ∨ .stG n ∈ fn.body → L.pubW (E.adr n)
  loc : ∀ n, .ldL n ∈ fn.body ∨ .stL n ∈ fn.body → 1 ≤ fn.cnt n ∧ fn.cnt n ≤ fn.d
  prm : ∀ n, .ldP n ∈ fn.body ∨ .stP n ∈ fn.body → 0 ≤ fn.cnt n ∧ fn.cnt n < fn.np
  vals : ∀ n f, .callF n f ∈ fn.body → E.val f = true
  frame : ∃ U, (∀ n l, shapesF (fn.body.take n) [] = some l → 2 * l.length ≤ U) ∧
    4 + memLocals fn.d + 2 * saved fn.d + U ≤ S

/-- Conditions on a program. -/
def ProgOk (E : Env) (L : Lay) (S : Nat) : List Fn → T → Prop
  | [], _ => True
  | fn :: fns, t => FnOk E L S fn (fn.entered t) ∧
      ∀ t', emits fn.cnt (fn.code.map .i) t = some t' → ProgOk E L S fns t'

end Cmm.Tac
