import Verif.Parse.Ready
import Verif.Opt.OptStmt

/- The optimizer does not look at names: it commutes with `ren` (Verif/Parse/Ready.lean). -/
namespace Cmm.Parse
open Cmm.Tree Cmm.Opt

variable {g : Int → Int}

theorem ren_isCnstN (e : Expr) (n : Int) : isCnstN (ren g e) n = isCnstN e n := by cases e <;> rfl

theorem ren_isCnst (e : Expr) : isCnst (ren g e) = isCnst e := by cases e <;> rfl

theorem ren_fix (e : Expr) : fix (ren g e) = ren g (fix e) := by cases e <;> rfl

theorem ren_optUn (op : Un) (e : Expr) : optUn op (ren g e) = ren g (optUn op e) := by cases e <;> cases op <;> rfl

theorem ren_ite {p : Prop} [Decidable p] (a b : Expr) : ren g (if p then a else b) = if p then ren g a else ren g b := by
  split <;> rfl

theorem map_ite {p : Prop} [Decidable p] (a b : Option Expr) :
    (if p then a else b).map (ren g) = if p then a.map (ren g) else b.map (ren g) := by
  split <;> rfl

theorem ren_optBin (op : Bin) (l r : Expr) : optBin op (ren g l) (ren g r) = (optBin op l r).map (ren g) := by
  cases op <;> cases l <;> cases r <;> first
    | rfl
    | (simp only [optBin, optAdd, optSub, optShl, optShr, optBAnd, optBOr, optBXor, optMul, optDiv, optMod, optCmp, optAnd,
         optOr, cB]
       simp only [Option.map_some, map_ite, ren_ite]
       rfl)
    | (simp only [optBin, optAdd, optSub, optShl, optShr, optBAnd, optBOr, optBXor, optMul, optDiv, optMod, optCmp, optAnd,
         optOr, cB]
       simp only [Option.map_some, map_ite, ren_ite]
       simp only [ren, isCnstN, Option.map_some, Option.map_none]
       done)

theorem ren_calExp (e : Expr) : calExp (ren g e) = (calExp e).map (ren g) := by
  induction e with
  | cnst v => rfl
  | leaf k n => rfl
  | func0 f => rfl
  | func f a ih => simp only [ren, calExp, ih, Option.map_map]; rfl
  | un op e ih =>
    simp only [ren, calExp, ih, Option.map_map]
    congr 1
    funext x
    simp only [Function.comp, ren_optUn, ren_fix]
  | bin op l r ih1 ih2 =>
    simp only [ren, calExp, ih1, ih2, Option.bind_eq_bind]
    cases calExp l with
    | none => rfl
    | some l =>
      cases calExp r with
      | none => rfl
      | some r =>
        simp only [Option.map_some, Option.bind_some, ren_optBin, Option.map_map]
        congr 1
        funext x
        simp only [Function.comp, ren_fix]
  | assV k n r ih => simp only [ren, calExp, ih, Option.map_map]; rfl
  | assM op a i r h1 h2 h3 =>
    simp only [ren, calExp, h1, h2, h3, Option.bind_eq_bind]
    cases calExp a <;> cases calExp i <;> cases calExp r <;> rfl

theorem ren_pull (e : Expr) : pull (ren g e) none = ren g (pull e none) ∧
    ∀ op a, pull (ren g e) (some (op, ren g a)) = ren g (pull e (some (op, a))) := by
  induction e with
  | cnst v => exact ⟨rfl, fun _ _ => rfl⟩
  | leaf k n => exact ⟨rfl, fun _ _ => rfl⟩
  | func0 f => exact ⟨rfl, fun _ _ => rfl⟩
  | func f a ih => simp only [ren, pull, ih, and_self, implies_true]
  | un op e ih => simp only [ren, pull, ih, and_self, implies_true]
  | bin o c d ih1 ih2 =>
    refine ⟨by simp only [ren, pull, ih1.1, ih2.2], fun op a => ?_⟩
    simp only [ren, pull]
    split
    · rw [ih1.2, ih2.2]
    · rw [ih1.1, ih2.2]; rfl
  | assV k n r ih => simp only [ren, pull, ih, and_self, implies_true]
  | assM op a i r h1 h2 h3 => simp only [ren, pull, h1, h2, h3, and_self, implies_true]

theorem ren_mc (op : Bin) (l c : Expr) : mc op (ren g l) (ren g c) = ren g (mc op l c) := by
  induction l with
  | bin o x a ih1 =>
    simp only [ren, mc, ren_isCnst]
    split
    · rw [ih1]; rfl
    · split <;> rfl
  | _ => rfl

theorem ren_normSub (e : Expr) : normSub (ren g e) = ren g (normSub e) := by
  cases e with
  | bin op l r => cases op <;> first | rfl | (cases r <;> rfl)
  | _ => rfl

theorem ren_moveCnst (e : Expr) : moveCnst (ren g e) = ren g (moveCnst e) := by
  unfold moveCnst
  rw [ren_normSub]
  cases normSub e with
  | bin op l r =>
    simp only [ren, ren_isCnst]
    split
    · exact ren_mc op l r
    · rfl
  | _ => rfl

theorem ren_arrExp (e : Expr) : arrExp (ren g e) = (arrExp e).map (ren g) := by
  induction e with
  | cnst v => rfl
  | leaf k n => rfl
  | func0 f => rfl
  | func f a ih =>
    simp only [ren, arrExp, ih, Option.bind_eq_bind]
    cases arrExp a with
    | none => rfl
    | some a => exact ren_calExp (.func f a)
  | un op e ih =>
    simp only [ren, arrExp, ih, Option.bind_eq_bind]
    cases arrExp e with
    | none => rfl
    | some a =>
      simp only [Option.map_some, Option.bind_some]
      rw [← ren_calExp, ← ren_moveCnst]; rfl
  | bin op l r ih1 ih2 =>
    simp only [ren, arrExp, ih1, ih2, Option.bind_eq_bind]
    cases arrExp r with
    | none => rfl
    | some r =>
      cases arrExp l with
      | none => rfl
      | some l =>
        simp only [Option.map_some, Option.bind_some]
        rw [← ren_calExp, ← ren_moveCnst]; rfl
  | assV k n r ih =>
    simp only [ren, arrExp, ih, Option.bind_eq_bind]
    cases arrExp r with
    | none => rfl
    | some a => exact ren_calExp (.assV k n a)
  | assM op a i r h1 h2 h3 =>
    simp only [ren, arrExp, h1, h2, h3, Option.bind_eq_bind]
    cases arrExp r with
    | none => rfl
    | some r =>
      cases arrExp i with
      | none => rfl
      | some i =>
        cases arrExp a with
        | none => rfl
        | some a => exact ren_calExp (.assM op a i r)

theorem ren_optExp (e : Expr) : optExp (ren g e) = (optExp e).map (ren g) := by
  rw [optExp, moveLeft, (ren_pull e).1, ren_arrExp]; rfl

theorem ren_optExpO (e : Option Expr) : optExpO (e.map (ren g)) = (optExpO e).map (Option.map (ren g)) := by
  cases e with
  | none => rfl
  | some e => simp only [Option.map_some, optExpO, ren_optExp, Option.map_map]; rfl

theorem ren_optTree (S : Stmt) : optTree (renS g S) = (optTree S).map (renS g) := by
  induction S with
  | empty => rfl
  | brk => rfl
  | cnt => rfl
  | exp e => simp only [renS, optTree, ren_optExp, Option.map_map]; rfl
  | ret e => simp only [renS, optTree, ren_optExpO, Option.map_map]; rfl
  | seq k a b ih1 ih2 =>
    simp only [renS, optTree, ih1, ih2, Option.bind_eq_bind]
    cases optTree a <;> cases optTree b <;> rfl
  | ifs c a ih =>
    simp only [renS, optTree, ih, ren_optExp, Option.bind_eq_bind]
    cases optExp c with
    | none => rfl
    | some c =>
      simp only [Option.map_some, Option.bind_some]
      cases c with
      | cnst v => simp only [ren]; split <;> rfl
      | _ => cases optTree a <;> rfl
  | els c a b ih1 ih2 =>
    simp only [renS, optTree, ih1, ih2, ren_optExp, Option.bind_eq_bind]
    cases optExp c with
    | none => rfl
    | some c =>
      simp only [Option.map_some, Option.bind_some]
      cases c with
      | cnst v => simp only [ren]; split <;> rfl
      | _ => cases optTree a <;> cases optTree b <;> rfl
  | whl c a r ih =>
    simp only [renS, optTree, ih, ren_optExpO, Option.bind_eq_bind]
    cases optExpO c with
    | none => rfl
    | some c =>
      simp only [Option.map_some, Option.bind_some]
      cases c with
      | none => cases optTree a <;> cases optExpO r <;> rfl
      | some c =>
        cases c with
        | cnst v =>
          simp only [Option.map_some, ren]
          split
          · cases optTree a <;> cases optExpO r <;> rfl
          · rfl
        | _ => cases optTree a <;> cases optExpO r <;> rfl
  | dos a c ih =>
    simp only [renS, optTree, ih, ren_optExp, Option.bind_eq_bind]
    cases optExp c with
    | none => rfl
    | some c =>
      simp only [Option.map_some, Option.bind_some]
      cases optTree a with
      | none => rfl
      | some a =>
        cases c with
        | cnst v => simp only [Option.map_some, Option.bind_some, ren]; split <;> rfl
        | _ => rfl

end Cmm.Parse
