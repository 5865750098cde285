import Verif.Gen.VM

/-
Model of the TaC back end, src/vm2tac.c: the functions vm… called by src/vmCode.c keep track of
the stack of the virtual machine in an array of descriptions ("virtual stack") and print TaC
assembly lines.

Simplifications:
* The static variables are the fields of `T`; every function maps a state to a new one, or to
  `none` if it calls error() (the macro BUG and "stack overflow...pushStk") or reads the virtual
  stack below its bottom.
* `T.stk` is the part stkSta/stkAux[0..stkPtr] of the arrays, top first; indices count from the
  bottom as in C. `flgPtr = -1` is `none`. No function reads an entry above stkPtr: flgPtr is
  reset by popStk and pushStk writes both arrays (vmDwName, which reads topAux outside of
  functions, is not modelled here).
* A printed line is a value of `Line`; a name is its index in the name table (getPref and
  ntGetName turn it into text); a register is its index in `regs`. ntGetCnt is a parameter.
* `inFunc` only decides whether vmLab prints a newline and is left out.
-/
namespace Cmm.Tac

/-- vm2tac.c:122-133 Where a value is. -/
inductive Sta
  | CNST | GVAR | LVAR | RVAR | PRM | LABEL | NAME | WINDR | BINDR | ACC | FLAG | STK
deriving DecidableEq, Repr

/-- vm2tac.c:137-138 One element of stkSta and stkAux. -/
structure Ent where
  sta : Sta
  aux : Int
deriving DecidableEq, Repr

/-- Mnemonics of the operations the translator prints. -/
inductive TOp
  | LD | ADD | SUB | CMP | AND | OR | XOR | ADDS | MUL | DIV | MOD | SHLA | SHRA
deriving DecidableEq, Repr

/-- vm2tac.c:65-69 Registers: `g i` is regs[i]. -/
inductive Reg | g (i : Int) | fp | sp
deriving DecidableEq, Repr

/-- vm2tac.c:175-203 Operands: `#n`, `_name`, `n,FP`, a register, `#.Ln`, `#_name`, `0,Gr`,
`@Gr`. -/
inductive Src
  | imm (n : Int) | glb (idx : Int) | fp (n : Int) | reg (r : Reg) | lab (n : Int) | nam (idx : Int)
  | ind (r : Int) | byt (r : Int)
deriving DecidableEq, Repr

/-- Labels `.Ln` and `.Tn`. -/
inductive Lbl | L (n : Nat) | T (n : Nat)
deriving DecidableEq, Repr

/-- Printed lines. `jcc j` is the instruction jcc[j] (vm2tac.c:113). -/
inductive Line
  | op (o : TOp) (r : Reg) (s : Src)
  | st (r : Int) (d : Src)
  | push (r : Reg) | pop (r : Reg)
  | jmp (l : Lbl) | jcc (j : Nat) (l : Lbl) | lab (l : Lbl)
  | call (idx : Int) | stkChk | ret | reti | nam (idx : Int)
deriving DecidableEq, Repr

/-- vm2tac.c:70 -/
def AccSIZ : Int := 3
/-- vm2tac.c:71 -/
def RVarSIZ : Int := 9
/-- vm2tac.c:136 -/
def StkSIZ : Nat := 20

/-- vm2tac.c:114-119 Indices into jcc. -/
def JLT : Nat := 0
def JLE : Nat := 1
def JEQ : Nat := 2
def JGE : Nat := 3
def JGT : Nat := 4
def JNZ : Nat := 5

/-- The static variables of vm2tac.c and the lines printed so far. -/
structure T where
  bsy : Int → Bool
  cnt : Int
  stk : List Ent
  flg : Option Nat
  jcc : Nat
  tlab : Nat
  rvCnt : Int
  frSize : Int
  out : List Line

/-- Initial values of the static variables. -/
def T.init : T := ⟨fun _ => false, 0, [], none, 0, 0, 0, 0, []⟩

/-- printf of one line. -/
def T.print (t : T) (l : Line) : T := { t with out := t.out ++ [l] }

/-- stkPtr. -/
def T.ptr (t : T) : Option Nat := if t.stk.length = 0 then none else some (t.stk.length - 1)

/-- Element with index `p` from the bottom. -/
def get : List Ent → Nat → Option Ent
  | [], _ => none
  | e :: es, p => if p = es.length then some e else get es p

/-- Assignment to the element with index `p` from the bottom. -/
def put : List Ent → Nat → Ent → List Ent
  | [], _, _ => []
  | e :: es, p, x => if p = es.length then x :: es else e :: put es p x

/-- Assignment to an element of accBsy. -/
def upd (f : Int → Bool) (i : Int) (b : Bool) : Int → Bool := fun r => if r = i then b else f r

/-- vm2tac.c:80-84 relAcc. -/
def relAcc (acc : Int) (t : T) : Option T :=
  if acc < 0 ∨ AccSIZ ≤ acc ∨ t.bsy acc = false then none
  else some { t with bsy := upd t.bsy acc false, cnt := t.cnt - 1 }

/-- vm2tac.c:87-96 allocAcc. -/
def allocAcc (t : T) : Option (Int × T) :=
  if t.bsy 0 = false then some (0, { t with bsy := upd t.bsy 0 true, cnt := t.cnt + 1 })
  else if t.bsy 1 = false then
    some (1, { t with bsy := upd t.bsy 1 true, cnt := t.cnt + 1 })
  else if t.bsy 2 = false then
    some (2, { t with bsy := upd t.bsy 2 true, cnt := t.cnt + 1 })
  else none

/-- vm2tac.c:155-163 loadFlg. -/
def loadFlg (r : Int) (p : Nat) (t : T) : Option T := do
  let e ← get t.stk p
  if t.flg ≠ some p ∨ e.sta ≠ .FLAG then none
  else
    let t := t.print (.op .LD (.g r) (.imm 1))
    let t := t.print (.jcc t.jcc (.T t.tlab))
    let t := t.print (.op .LD (.g r) (.imm 0))
    let t := t.print (.lab (.T t.tlab))
    some { t with tlab := t.tlab + 1 }

/-- vm2tac.c:166-172 clearFlg. -/
def clearFlg (t : T) : Option T :=
  match t.flg with
  | none => some t
  | some p => do
    let e ← get t.stk p
    if e.sta = .FLAG then
      let t ← loadFlg e.aux p t
      some { t with stk := put t.stk p ⟨.ACC, e.aux⟩, flg := none }
    else some { t with flg := none }

/-- vm2tac.c:175-203 The operand calReg prints. -/
def operand (e : Ent) : Option Src :=
  match e.sta with
  | .CNST => some (.imm e.aux)
  | .GVAR => some (.glb e.aux)
  | .LVAR => some (.fp (-e.aux))
  | .RVAR => some (.reg (.g e.aux))
  | .PRM => some (.fp e.aux)
  | .LABEL => some (.lab e.aux)
  | .NAME => some (.nam e.aux)
  | .WINDR => some (.ind e.aux)
  | .BINDR => some (.byt e.aux)
  | .ACC => some (.reg (.g e.aux))
  | .FLAG | .STK => none

/-- vm2tac.c:175-203 calReg. -/
def calReg (o : TOp) (r : Int) (p : Nat) (t : T) : Option T := do
  let e ← get t.stk p
  let s ← operand e
  some (t.print (.op o (.g r) s))

/-- vm2tac.c:206-217 loadReg. -/
def loadReg (r : Int) (p : Nat) (t : T) : Option T := do
  let e ← get t.stk p
  if e.sta = .STK then some (t.print (.pop (.g r)))
  else if e.sta = .FLAG then loadFlg r p t
  else if (e.sta = .ACC ∨ e.sta = .RVAR) ∧ e.aux = r then none
  else calReg .LD r p t

/-- vm2tac.c:220-225 pushStk. -/
def pushStk (e : Ent) (t : T) : Option T :=
  if t.stk.length ≥ StkSIZ then none else some { t with stk := e :: t.stk }

/-- vm2tac.c:228-233 popStk. `newPtr < flgPtr` with newPtr = stkPtr - n. -/
def popStk (n : Nat) (t : T) : Option T :=
  if t.stk.length < n then none
  else
    some { t with
      flg := match t.flg with
        | some p => if t.stk.length - n ≤ p then none else some p
        | none => none
      stk := t.stk.drop n }

/-- vm2tac.c:236-239 isCnst0, of an entry. -/
def isCnst0 (e : Ent) : Bool := e.sta = .CNST && e.aux = 0

/-- vm2tac.c:242-248 isAcc, of an entry. -/
def isAcc (e : Ent) : Bool :=
  e.sta = .ACC || e.sta = .FLAG || ((e.sta = .WINDR || e.sta = .BINDR) && e.aux < AccSIZ)

/-- vm2tac.c:251-256 srchAcc: the lowest index. -/
def srchAcc : List Ent → Option Nat
  | [] => none
  | e :: es =>
    match srchAcc es with
    | some p => some p
    | none => if isAcc e then some es.length else none

/-- vm2tac.c:259-268 outStk. -/
def outStk (t : T) : Option T := do
  let idx ← srchAcc t.stk
  let e ← get t.stk idx
  let t ← if e.sta ≠ .ACC then loadReg e.aux idx t else some t
  let t := t.print (.push (.g e.aux))
  let t ← relAcc e.aux t
  some { t with stk := put t.stk idx ⟨.STK, e.aux⟩ }

/-- vm2tac.c:271-275 outStkAll, at most `n` turns of the loop. -/
def outStkN : Nat → T → Option T
  | 0, t => some t
  | n + 1, t => if t.cnt > 0 then (outStk t).bind (outStkN n) else some t

/-- vm2tac.c:271-275 outStkAll. Every turn reduces accCnt by one (relAcc), so there are no more
than accCnt turns. -/
def outStkAll (t : T) : Option T := outStkN t.cnt.toNat t

/-- vm2tac.c:279-292 loadStk. -/
def loadStk (offs : Nat) (t : T) : Option T :=
  if t.stk.length ≤ offs then none
  else do
    let p := t.stk.length - 1 - offs
    let e ← get t.stk p
    if e.sta = .ACC then some t
    else
      let (acc, t) ←
        if isAcc e then some (e.aux, t)
        else (if t.cnt ≥ AccSIZ then outStk t else some t).bind allocAcc
      let t ← loadReg acc p t
      some { t with stk := put t.stk p ⟨.ACC, acc⟩ }

/-- topSta, topAux (vm2tac.c:148-149). -/
def top (t : T) : Option Ent := t.stk.head?

/-- secSta, secAux (vm2tac.c:150-151). -/
def sec (t : T) : Option Ent := t.stk.tail.head?

/-- Assignment to topSta and topAux. -/
def setTop (e : Ent) (t : T) : T := { t with stk := e :: t.stk.drop 1 }

/-- Assignment to the two upper elements. -/
def setTwo (e0 e1 : Ent) (t : T) : T := { t with stk := e0 :: e1 :: t.stk.drop 2 }

/-- `if (isAcc(stkPtr)) relAcc(topAux);` -/
def relTop (t : T) : Option T := do
  let e ← top t
  if isAcc e then relAcc e.aux t else some t

/-- `if (isAcc(stkPtr-1)) relAcc(secAux);` -/
def relSec (t : T) : Option T := do
  let e ← sec t
  if isAcc e then relAcc e.aux t else some t

/-- The loop `for (int i=0; i<depth; i=i+1) printf("\tPUSH\t%s\n", regs[i+AccSIZ])`. -/
def pushes : Nat → List Line
  | 0 => []
  | n + 1 => pushes n ++ [.push (.g (n + AccSIZ))]

/-- The loop `for (int i=rvCnt-1; i>=0; i=i-1) printf("\tPOP\t%s\n", regs[i+AccSIZ])`. -/
def pops : Nat → List Line
  | 0 => []
  | n + 1 => .pop (.g (n + AccSIZ)) :: pops n

/-- vm2tac.c:313-327 makeFrame. -/
def makeFrame (depth : Int) (t : T) : T :=
  let fr := if depth > RVarSIZ then (depth - RVarSIZ) * 2 else 0
  let d := if depth > RVarSIZ then RVarSIZ else depth
  { t with
    frSize := fr
    rvCnt := d
    out := t.out ++ [.push .fp, .op .LD .fp (.reg .sp)] ++
      (if fr > 0 then [.op .SUB .sp (.imm fr)] else []) ++ pushes d.toNat }

/-- vm2tac.c:330-339 cancelFrame. -/
def cancelFrame (t : T) : Option T :=
  if t.stk.length ≠ 0 then none
  else if t.cnt ≠ 0 then none
  else some { t with
    out := t.out ++ pops t.rvCnt.toNat ++
      (if t.frSize > 0 then [.op .LD .sp (.reg .fp)] else []) ++ [.pop .fp] }

/-- vm2tac.c:342-345 vmEntry. -/
def vmEntry (depth : Int) (t : T) : T := (makeFrame depth t).print .stkChk

/-- vm2tac.c:348-350 vmEntryK. -/
def vmEntryK (depth : Int) (t : T) : T := makeFrame depth t

/-- vm2tac.c:353-356 vmRet. -/
def vmRet (t : T) : Option T := do
  let t ← cancelFrame t
  some (t.print .ret)

/-- vm2tac.c:359-363 vmEntryI. -/
def vmEntryI (depth : Int) (t : T) : T :=
  makeFrame depth { t with out := t.out ++ [.push (.g 0), .push (.g 1), .push (.g 2)] }

/-- vm2tac.c:366-371 vmRetI. -/
def vmRetI (t : T) : Option T := do
  let t ← cancelFrame t
  some { t with out := t.out ++ [.pop (.g 2), .pop (.g 1), .pop (.g 0), .reti] }

/-- vm2tac.c:374-379 vmMReg. -/
def vmMReg (t : T) : Option T := do
  let e ← top t
  let t ← if e.sta ≠ .ACC ∨ e.aux ≠ 0 then loadReg 0 (t.stk.length - 1) t else some t
  let t ← relTop t
  popStk 1 t

/-- vm2tac.c:382-391 vmArg. -/
def vmArg (t : T) : Option T := do
  let e ← top t
  let t ←
    if e.sta ≠ .RVAR then (loadStk 0 t).bind outStkAll
    else (outStkAll t).map fun t => t.print (.push (.g e.aux))
  popStk 1 t

/-- vm2tac.c:394-400 call. -/
def call (n : Nat) (idx : Int) (t : T) : Option T := do
  let t ← outStkAll t
  let t := t.print (.call idx)
  some (if n ≠ 0 then t.print (.op .ADD .sp (.imm (n * 2))) else t)

/-- vm2tac.c:403-405 vmCallP. -/
def vmCallP (n : Nat) (idx : Int) (t : T) : Option T := call n idx t

/-- vm2tac.c:408-413 vmCallF. -/
def vmCallF (n : Nat) (idx : Int) (t : T) : Option T := do
  let t ← call n idx t
  let (acc, t) ← allocAcc t
  if acc ≠ 0 then none else pushStk ⟨.ACC, acc⟩ t

/-- vm2tac.c:421-439 boolJmp. -/
def boolJmp (tf : Bool) (lab : Nat) (t : T) : Option T := do
  let e ← top t
  let t ←
    if e.sta = .FLAG then
      if t.flg ≠ t.ptr then none
      else some (t.print (.jcc (if tf then t.jcc else (t.jcc + 3) % 6) (.L lab)))
    else do
      let t ←
        if t.flg ≠ t.ptr then do
          let t ← clearFlg t
          let t ← if e.sta ≠ .RVAR then loadStk 0 t else some t
          let e ← top t
          some (t.print (.op .CMP (.g e.aux) (.imm 0)))
        else some t
      some (t.print (.jcc (if tf then JNZ else JEQ) (.L lab)))
  let t ← relTop t
  popStk 1 t

/-- vm2tac.c:462-468 vmLdLoc. `n` is ntGetCnt(idx). -/
def vmLdLoc (n : Int) (t : T) : Option T :=
  if n ≤ RVarSIZ then pushStk ⟨.RVAR, n - 1 + AccSIZ⟩ t
  else pushStk ⟨.LVAR, (n - RVarSIZ) * 2⟩ t

/-- vm2tac.c:471-474 vmLdPrm. -/
def vmLdPrm (n : Int) (t : T) : Option T := pushStk ⟨.PRM, (n + 2) * 2⟩ t

/-- vm2tac.c:487-491 vmStGlb. -/
def vmStGlb (idx : Int) (t : T) : Option T := do
  let e ← top t
  let t ← if e.sta ≠ .RVAR then loadStk 0 t else some t
  let e ← top t
  some (t.print (.st e.aux (.glb idx)))

/-- vm2tac.c:494-510 vmStLoc. -/
def vmStLoc (n : Int) (t : T) : Option T := do
  let e ← top t
  if n ≤ RVarSIZ then
    let reg := n - 1 + AccSIZ
    let t ← if e.sta ≠ .RVAR ∨ e.aux ≠ reg then loadReg reg (t.stk.length - 1) t else some t
    if e.sta ≠ .ACC then
      let t ← relTop t
      some (setTop ⟨.RVAR, reg⟩ t)
    else some t
  else
    let t ← if e.sta ≠ .RVAR then loadStk 0 t else some t
    let e ← top t
    some (t.print (.st e.aux (.fp (-((n - RVarSIZ) * 2)))))

/-- vm2tac.c:513-518 vmStPrm. -/
def vmStPrm (n : Int) (t : T) : Option T := do
  let e ← top t
  let t ← if e.sta ≠ .RVAR then loadStk 0 t else some t
  let e ← top t
  some (t.print (.st e.aux (.fp ((n + 2) * 2))))

/-- vm2tac.c:522-533 vmLdWrd. -/
def vmLdWrd (t : T) : Option T := do
  let e0 ← top t
  let e1 ← sec t
  let t ←
    if ¬ isCnst0 e0 ∨ e1.sta ≠ .RVAR then do
      let t ← loadStk 1 t
      if ¬ isCnst0 e0 then
        let t ← clearFlg t
        let e1 ← sec t
        calReg .ADDS e1.aux (t.stk.length - 1) t
      else some t
    else some t
  let t ← relTop t
  let t ← popStk 1 t
  let e ← top t
  some (setTop ⟨.WINDR, e.aux⟩ t)

/-- vm2tac.c:537-555 vmLdByt. -/
def vmLdByt (t : T) : Option T := do
  let e0 ← top t
  let e1 ← sec t
  let t ←
    if (e0.sta = .ACC ∨ e0.sta = .STK) ∧ e1.sta ≠ .ACC ∧ e1.sta ≠ .STK then do
      let t ← clearFlg t
      let t ← loadStk 0 t
      let e0 ← top t
      let t ← calReg .ADD e0.aux (t.stk.length - 2) t
      let t ← relSec t
      let e1 ← sec t
      some (setTwo e0 ⟨e1.sta, e0.aux⟩ t)
    else if ¬ isCnst0 e0 ∨ e1.sta ≠ .RVAR then do
      let t ← loadStk 1 t
      let t ← if ¬ isCnst0 e0 then do
          let t ← clearFlg t
          let e1 ← sec t
          calReg .ADD e1.aux (t.stk.length - 1) t
        else some t
      relTop t
    else some t
  let t ← popStk 1 t
  let e ← top t
  some (setTop ⟨.BINDR, e.aux⟩ t)

/-- vm2tac.c:562-567, 575-579 The common part of vmStWrd and vmStByt after the address is computed. -/
def storeInd (d : Int → Src) (t : T) : Option T := do
  let e1 ← sec t
  let t ← if e1.sta ≠ .RVAR then loadStk 1 t else some t
  let e0 ← top t
  let e1 ← sec t
  let t := t.print (.st e1.aux (d e0.aux))
  let t ← if e0.aux < AccSIZ then relAcc e0.aux t else some t
  popStk 1 t

/-- vm2tac.c:560-568 vmStWrd. -/
def vmStWrd (t : T) : Option T := do
  let t ← vmLdWrd t
  storeInd .ind t

/-- vm2tac.c:573-580 vmStByt. -/
def vmStByt (t : T) : Option T := do
  let t ← vmLdByt t
  storeInd .byt t

/-- vm2tac.c:584-627 vmNeg, vmNot, vmBNot, vmChr, vmBool: the operations with a constant. -/
def unLines : Gen.A1 → List (TOp × Int)
  | .NEG => [(.XOR, -1), (.ADD, 1)]
  | .NOT => [(.XOR, 1)]
  | .BNOT => [(.XOR, -1)]
  | .CHR => [(.AND, 0x00ff)]
  | .BOOL => [(.AND, 1)]

/-- vm2tac.c:584-627 vmNeg, vmNot, vmBNot, vmChr, vmBool. -/
def unary (o : Gen.A1) (t : T) : Option T := do
  let t ← clearFlg t
  let t ← loadStk 0 t
  let e ← top t
  let t := { t with out := t.out ++ (unLines o).map fun (l : TOp × Int) => Line.op l.1 (.g e.aux) (.imm l.2) }
  some { t with flg := t.ptr }

/-- vm2tac.c:630-638 cal. -/
def cal (o : TOp) (t : T) : Option T := do
  let t ← clearFlg t
  let t ← loadStk 1 t
  let e0 ← top t
  let t ← if e0.sta = .STK ∨ e0.sta = .FLAG then loadStk 0 t else some t
  let e1 ← sec t
  let t ← calReg o e1.aux (t.stk.length - 1) t
  let t ← relTop t
  let t ← popStk 1 t
  some { t with flg := t.ptr }

/-- vm2tac.c:643-650 rcal. -/
def rcal (o : TOp) (t : T) : Option T := do
  let e0 ← top t
  let e1 ← sec t
  if e0.sta = .ACC ∧ e1.sta ≠ .ACC ∧ e1.sta ≠ .STK ∧ e1.sta ≠ .FLAG then cal o (setTwo e1 e0 t)
  else cal o t

/-- vm2tac.c:695-702 isPower2: the loop from `i` on with `p` = 1 << i and `k` turns left. -/
def isPower2Loop (n : Int) : Nat → Int → Int → Int
  | 0, _, _ => -1
  | k + 1, i, p => if n = p then i else isPower2Loop n k (i + 1) (p * 2)

/-- vm2tac.c:695-702 isPower2, NWORD = 16. -/
def isPower2 (n : Int) : Int := isPower2Loop n 15 0 1

/-- vm2tac.c:706-719 vmMul. -/
def vmMul (t : T) : Option T := do
  let e0 ← top t
  let e1 ← sec t
  if e0.sta = .CNST ∧ isPower2 e0.aux > 0 then
    cal .SHLA (setTop ⟨.CNST, isPower2 e0.aux⟩ t)
  else if e1.sta = .CNST ∧ isPower2 e1.aux > 0 then
    cal .SHLA (setTwo ⟨.CNST, isPower2 e1.aux⟩ e0 t)
  else rcal .MUL t

/-- vm2tac.c:723-729 vmDiv. -/
def vmDiv (t : T) : Option T := do
  let e0 ← top t
  if e0.sta = .CNST ∧ isPower2 e0.aux > 0 then
    cal .SHRA (setTop ⟨.CNST, isPower2 e0.aux⟩ t)
  else cal .DIV t

/-- vm2tac.c:733-739 vmMod. -/
def vmMod (t : T) : Option T := do
  let e0 ← top t
  if e0.sta = .CNST ∧ isPower2 e0.aux > 0 then
    rcal .AND (setTop ⟨.CNST, 2 ^ (isPower2 e0.aux).toNat - 1⟩ t)
  else cal .MOD t

/-- vm2tac.c:742-749 swapJcc. -/
def swapJcc (cc : Nat) : Nat :=
  if cc = JGT then JLT
  else if cc = JGE then JLE
  else if cc = JLT then JGT
  else if cc = JLE then JGE
  else cc

/-- vm2tac.c:760-770 The branch of cmp that prints a comparison. -/
def cmpCode (jcc : Nat) (t : T) : Option (Nat × T) := do
  let e0 ← top t
  let e1 ← sec t
  let (jcc, t) :=
    if (e0.sta = .ACC ∨ e0.sta = .RVAR) ∧ e1.sta ≠ .ACC ∧ e1.sta ≠ .RVAR ∧ e1.sta ≠ .STK ∧
        e1.sta ≠ .FLAG then (swapJcc jcc, setTwo e1 e0 t)
    else (jcc, t)
  let t ← clearFlg t
  let e1 ← sec t
  let t ← if e1.sta ≠ .RVAR then loadStk 1 t else some t
  let e0 ← top t
  let t ← if e0.sta = .STK ∨ e0.sta = .FLAG then loadStk 0 t else some t
  let e1 ← sec t
  let t ← calReg .CMP e1.aux (t.stk.length - 1) t
  some (jcc, t)

/-- vm2tac.c:752-779 cmp. -/
def cmp (jcc : Nat) (t : T) : Option T := do
  let e0 ← top t
  let e1 ← sec t
  let (jcc, t) ←
    if isCnst0 e0 ∧ t.flg = some (t.stk.length - 2) then some (jcc, t)
    else if isCnst0 e1 ∧ t.flg = t.ptr then some (swapJcc jcc, t)
    else cmpCode jcc t
  let t ← relTop t
  let t ← relSec t
  let t ← popStk 2 t
  let t ← if t.cnt ≥ AccSIZ then outStk t else some t
  let (acc, t) ← allocAcc t
  let t ← pushStk ⟨.FLAG, acc⟩ t
  some { t with flg := t.ptr, jcc := jcc }

/-- vm2tac.c:818-822 vmPop. -/
def vmPop (t : T) : Option T := do
  let t ← relTop t
  popStk 1 t

/-- vm2tac.c:828-840 boolOrAnd. -/
def boolOrAnd (lab1 : Nat) (lab2 : Option Nat) (lab3 : Nat) (x nx : Int) (t : T) : Option T := do
  let t ← loadStk 0 t
  let e ← top t
  some { t with
    out := t.out ++ [.jmp (.L lab3), .lab (.L lab1), .op .LD (.g e.aux) (.imm x)] ++
      (match lab2 with
       | some l2 => [.jmp (.L lab3), .lab (.L l2), .op .LD (.g e.aux) (.imm nx)]
       | none => []) ++ [.lab (.L lab3)] }

/-- vm2tac.c:843-860 flagOrAnd. -/
def flagOrAnd (lab1 : Nat) (lab2 : Option Nat) (lab3 : Nat) (jcc : Nat) (x nx : Int) (t : T) :
    Option T := do
  let e ← top t
  some (setTop ⟨.ACC, e.aux⟩ { t with
    out := t.out ++
      (match lab2 with
       | none => [.op .LD (.g e.aux) (.imm nx), .jcc jcc (.L lab3), .lab (.L lab1),
           .op .LD (.g e.aux) (.imm x)]
       | some l2 => [.jcc jcc (.L l2), .lab (.L lab1), .op .LD (.g e.aux) (.imm x),
           .jmp (.L lab3), .lab (.L l2), .op .LD (.g e.aux) (.imm nx)]) ++ [.lab (.L lab3)] })

/-- vm2tac.c:863-868 vmBoolOR. -/
def vmBoolOR (lab1 : Nat) (lab2 : Option Nat) (lab3 : Nat) (t : T) : Option T := do
  let e ← top t
  if e.sta = .FLAG then flagOrAnd lab1 lab2 lab3 ((t.jcc + 3) % 6) 1 0 t
  else boolOrAnd lab1 lab2 lab3 1 0 t

/-- vm2tac.c:871-876 vmBoolAND. -/
def vmBoolAND (lab1 : Nat) (lab2 : Option Nat) (lab3 : Nat) (t : T) : Option T := do
  let e ← top t
  if e.sta = .FLAG then flagOrAnd lab1 lab2 lab3 t.jcc 0 1 t
  else boolOrAnd lab1 lab2 lab3 0 1 t

/-- vm2tac.c:654-739, 783-815 vmAdd … vmNe. -/
def binary : Gen.A2 → T → Option T
  | .ADD => rcal .ADD
  | .SUB => cal .SUB
  | .SHL => cal .SHLA
  | .SHR => cal .SHRA
  | .BAND => rcal .AND
  | .BXOR => rcal .XOR
  | .BOR => rcal .OR
  | .MUL => vmMul
  | .DIV => vmDiv
  | .MOD => vmMod
  | .GT => cmp JGT
  | .GE => cmp JGE
  | .LT => cmp JLT
  | .LE => cmp JLE
  | .EQ => cmp JEQ
  | .NE => cmp JNZ

/-- The calls vmCode.c makes: an instruction of the stack machine, or one of the two macro
instructions (vm.h:98-127). -/
inductive Vm
  | i (i : Gen.Instr)
  | boolOR (l1 : Nat) (l2 : Option Nat) (l3 : Nat)
  | boolAND (l1 : Nat) (l2 : Option Nat) (l3 : Nat)
deriving DecidableEq, Repr

/-- One call of a function of vm2tac.c. `cnt` is ntGetCnt. `bug` (error in vmCode.c) ends the
compiler. -/
def emit (cnt : Int → Int) : Gen.Instr → T → Option T
  | .lab n, t => some (t.print (.lab (.L n)))
  | .jmp n, t => some (t.print (.jmp (.L n)))
  | .jt n, t => boolJmp true n t
  | .jf n, t => boolJmp false n t
  | .ldC v, t => pushStk ⟨.CNST, v⟩ t
  | .ldG n, t => pushStk ⟨.GVAR, n⟩ t
  | .ldL n, t => vmLdLoc (cnt n) t
  | .ldP n, t => vmLdPrm (cnt n) t
  | .ldLab n, t => pushStk ⟨.LABEL, n⟩ t
  | .ldNam n, t => pushStk ⟨.NAME, n⟩ t
  | .ldW, t => vmLdWrd t
  | .ldB, t => vmLdByt t
  | .stG n, t => vmStGlb n t
  | .stL n, t => vmStLoc (cnt n) t
  | .stP n, t => vmStPrm (cnt n) t
  | .stW, t => vmStWrd t
  | .stB, t => vmStByt t
  | .a1 o, t => unary o t
  | .a2 o, t => binary o t
  | .pop, t => vmPop t
  | .arg, t => vmArg t
  | .callF n f, t => vmCallF n f t
  | .callP n f, t => vmCallP n f t
  | .mreg, t => vmMReg t
  | .nam f, t => some (t.print (.nam f))
  | .entry d, t => some (vmEntry d t)
  | .entryK d, t => some (vmEntryK d t)
  | .entryI d, t => some (vmEntryI d t)
  | .ret, t => vmRet t
  | .retI, t => vmRetI t
  | .bug, _ => none

/-- A call of a function of vm2tac.c or of a macro instruction. -/
def emitV (cnt : Int → Int) : Vm → T → Option T
  | .i i, t => emit cnt i t
  | .boolOR a b c, t => vmBoolOR a b c t
  | .boolAND a b c, t => vmBoolAND a b c t

/-- A sequence of calls. -/
def emits (cnt : Int → Int) : List Vm → T → Option T
  | [], t => some t
  | i :: is, t => (emitV cnt i t).bind (emits cnt is)

end Cmm.Tac
