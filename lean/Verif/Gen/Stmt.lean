import Verif.Gen.Main
import Verif.Tree.Stmt

/-
Code for statements and functions (src/vmCode.c:523-683).

The static variables curLab, brkLab, cntLab and retLab are the fields of `St`; -1 is `none`.
-/
namespace Cmm.Gen
open Cmm.Tree

structure St where
  n : Nat
  brk : Option Nat
  cnt : Option Nat
  ret : Option Nat

/-- Where a node is in the tree of the function (for vmCode.c:629-630): the root, the right
child of the root, or elsewhere. -/
inductive Pos | root | last | inner
deriving DecidableEq

/-- Position of the right child. -/
def Pos.right : Pos → Pos
  | .root => .last
  | _ => .inner

/-- vmCode.c:533-541 jmpBlock. -/
def jmpBlock : Stmt → Bool
  | .cnt | .ret _ | .brk => true
  | .seq true _ t => jmpBlock t
  | _ => false

/-- vmCode.c:651-656 Expression statement. -/
def genX (nt : NT) (e : Expr) (n : Nat) : Code × Nat :=
  (((gen nt e).bool n).1 ++ popP ((gen nt e).bool n).2.1, ((gen nt e).bool n).2.2)

/-- vmCode.c:571-576 The condition of `while` and `for`, with the label for leaving. -/
def genWhlCnd (nt : NT) (c : Option Expr) (n : Nat) : Code × Option Nat × Nat :=
  match c with
  | none => ([], none, n)
  | some c =>
    let (cc, J, n) := genCnd nt c false ⟨none, 0⟩ n
    (cc, J.no, n)

/-- vmCode.c:578-584 The reinitialisation of `for` and the jump back. -/
def genWhlEnd (nt : NT) (re : Option Expr) (jb : Bool) (cnt : Option Nat) (loop n : Nat) :
    Code × Nat :=
  match re with
  | some e =>
    if !jb || cnt.isSome then
      (printLab cnt ++ (genX nt e n).1 ++ [.jmp loop], (genX nt e n).2)
    else ([], n)
  | none => (if jb then [] else [.jmp loop], n)

/-- vmCode.c:623-628 The value of a return statement. -/
def genRetV (nt : NT) (e : Option Expr) (n : Nat) : Code × Nat :=
  match e with
  | none => ([], n)
  | some e => ((genE (gen nt e).bool n).1 ++ [.mreg], (genE (gen nt e).bool n).2)

/-- vmCode.c:622-634 genRet. -/
def genRet (nt : NT) (p : Pos) (e : Option Expr) (st : St) : Code × St :=
  let (c, n) := genRetV nt e st.n
  if p = .inner then
    match st.ret with
    | some k => (c ++ [.jmp k], { st with n := n })
    | none => (c ++ [.jmp (n + 1)], { st with n := n + 1, ret := some (n + 1) })
  else (c, { st with n := n })

/-- vmCode.c:637-658 traceTree with genIf 524, genEls 544, genWhl 561, genDo 591, genBrk 610,
genCnt 616. -/
def genS (nt : NT) (p : Pos) : Stmt → St → Code × St
  | .empty, st => ([], st)
  | .exp e, st => ((genX nt e st.n).1, { st with n := (genX nt e st.n).2 })
  | .ifs c a, st =>
    let (cc, J, n) := genCnd nt c false ⟨none, 0⟩ st.n
    let (ca, st) := genS nt p.right a { st with n := n }
    (cc ++ (ca ++ printLab J.no), st)
  | .els c a b, st =>
    let (cc, J, n) := genCnd nt c false ⟨none, 0⟩ st.n
    let (ca, st) := genS nt .inner a { st with n := n }
    if jmpBlock a then
      let (cb, st) := genS nt p.right b st
      (cc ++ (ca ++ (printLab J.no ++ cb)), st)
    else
      let k := st.n + 1
      let (cb, st) := genS nt p.right b { st with n := k }
      (cc ++ (ca ++ (.jmp k :: (printLab J.no ++ (cb ++ [.lab k])))), st)
  | .whl c a re, st =>
    let loop := st.n + 1
    let (cc, b, n) := genWhlCnd nt c loop
    let (ca, st1) := genS nt .inner a ⟨n, b, if re.isNone then some loop else none, st.ret⟩
    let (ce, n) := genWhlEnd nt re (jmpBlock a) st1.cnt loop st1.n
    (.lab loop :: (cc ++ (ca ++ (ce ++ printLab st1.brk))), ⟨n, st.brk, st.cnt, st1.ret⟩)
  | .dos a c, st =>
    let loop := st.n + 1
    let (ca, st1) := genS nt .inner a ⟨loop, none, none, st.ret⟩
    let (cc, _, n) := genCnd nt c true ⟨some loop, 0⟩ st1.n
    (.lab loop :: (ca ++ (printLab st1.cnt ++ (cc ++ printLab st1.brk))),
      ⟨n, st.brk, st.cnt, st1.ret⟩)
  | .brk, st =>
    match st.brk with
    | some k => ([.jmp k], st)
    | none => ([.jmp (st.n + 1)], { st with n := st.n + 1, brk := some (st.n + 1) })
  | .cnt, st =>
    match st.cnt with
    | some k => ([.jmp k], st)
    | none => ([.jmp (st.n + 1)], { st with n := st.n + 1, cnt := some (st.n + 1) })
  | .ret e, st => genRet nt p e st
  | .seq _ a b, st =>
    let (ca, st) := genS nt .inner a st
    let (cb, st) := genS nt p.right b st
    (ca ++ cb, st)

/-- vmCode.c:661-683 genFunc. `intr` says that the function is an interrupt function. Outside
of loops brkLab and cntLab are 0, their initial value. -/
def genFunc (nt : NT) (idx : Int) (intr krn : Bool) (depth : Int) (root : Stmt) (n : Nat) :
    Code × Nat :=
  let (c, st) := genS nt .root root ⟨n, some 0, some 0, none⟩
  (.nam idx :: (if intr then .entryI depth else if krn then .entryK depth else .entry depth) ::
    (c ++ (printLab st.ret ++ [if intr then .retI else .ret])), st.n)

end Cmm.Gen
