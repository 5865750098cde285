import Verif.Tree.Stmt
import Verif.Opt.Optree

/-
Model of the statement part of src/optree.c. A node overwritten by a constant
(optree.c:524, 557) is the expression statement with that constant; a node overwritten by
SyNULL becomes the empty statement (copyNode, optree.c:61-69).
-/
namespace Cmm.Opt
open Cmm.Tree

/-- optree.c:506-507 optExp of an optional expression. -/
def optExpO : Option Expr → Option (Option Expr)
  | none => some none
  | some e => (optExp e).map some

/-- optree.c:516-527 optIf, 530-545 optEls, 548-563 optWhl, 566-582 optDo, 585-601 optBrk,
optCnt, optRet, optBlk, 604-620 optTree. -/
def optTree : Stmt → Option Stmt
  | .empty => some .empty
  | .exp e => (optExp e).map .exp
  | .ifs c b => do
    let c ← optExp c
    match c with
    | .cnst v => if getB v then optTree b else some (.exp (.cnst v))
    | c => (optTree b).map (.ifs c)
  | .els c a b => do
    let c ← optExp c
    match c with
    | .cnst v => if getB v then optTree a else optTree b
    | c => do
      let b ← optTree b
      let a ← optTree a
      some (.els c a b)
  | .whl c b r => do
    let c ← optExpO c
    match c with
    | some (.cnst v) =>
      if getB v then do
        let b ← optTree b
        let r ← optExpO r
        some (.whl none b r)
      else some (.exp (.cnst v))
    | c => do
      let b ← optTree b
      let r ← optExpO r
      some (.whl c b r)
  | .dos b c => do
    let c ← optExp c
    let b ← optTree b
    match c with
    | .cnst v => if getB v then some (.whl none b none) else some b
    | c => some (.dos b c)
  | .brk => some .brk
  | .cnt => some .cnt
  | .ret e => (optExpO e).map .ret
  | .seq k a b => do
    let a ← optTree a
    let b ← optTree b
    some (.seq k a b)

end Cmm.Opt
