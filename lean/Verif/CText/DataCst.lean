import Verif.CText.DataOk

/-
Constants of basic types are no strings, for Verif/Props/C75.lean: an expression of such a type is not optimised to a string.
-/
namespace Cmm.CText
open Cmm Cmm.Tree
open Cmm.Opt
open Cmm.Gen (DT dimTree)
open Cmm.Parse (Tab Ent Says Basic Cst actual Assignable IsBin TyVOID TyINT TyCHAR TyBOOL ScVOID)

/-- Operators whose result can be an operand. -/
def isAr : Bin → Bool
  | .add | .sub | .shl | .shr | .band | .bor | .bxor | .mul | .div | .mod | .or | .and => true
  | _ => false

/-- Not a string, and no string is an operand of an operator whose result can be an operand. -/
def nos : Expr → Bool
  | .leaf .str _ => false
  | .bin op l r => if isAr op then nos l && nos r else true
  | _ => true

theorem nos_bin {op : Bin} {l r : Expr} (h : isAr op = true → nos l = true ∧ nos r = true) : nos (.bin op l r) = true := by
  unfold nos
  split
  · next ha => simp [h ha]
  · rfl

theorem nos_of_bin {op : Bin} {l r : Expr} (h : nos (.bin op l r) = true) (ha : isAr op = true) : nos l = true ∧ nos r = true := by
  simpa [nos, ha] using h

theorem canPull_ar {a b : Bin} (h : canPull a b = true) : isAr a = true ∧ isAr b = true := by
  revert h; cases a <;> cases b <;> decide

theorem pullN_ar {a b : Bin} (h : canPull a b = true) : isAr (pullN a b) = true ∧ isAr (pullB a b) = true := by
  revert h; cases a <;> cases b <;> decide

theorem pull_nos : ∀ (e : Expr) (c : Option (Bin × Expr)), (c = none → nos e = true) →
    (∀ op a, c = some (op, a) → isAr op = true → nos a = true ∧ nos e = true) → nos (pull e c) = true := by
  intro e
  induction e with
  | bin o l r ihl ihr =>
    intro c h1 h2
    cases c with
    | none =>
      simp only [pull]
      have h := h1 rfl
      refine ihr _ nofun ?_
      rintro op a ⟨⟩ ha
      have hb := nos_of_bin h ha
      exact ⟨ihl none (fun _ => hb.1) nofun, hb.2⟩
    | some p =>
      obtain ⟨op, a⟩ := p
      simp only [pull]
      split
      · next hc =>
        have ha := canPull_ar hc
        have hn := h2 op a rfl ha.1
        have hb := nos_of_bin hn.2 ha.2
        refine ihr _ nofun ?_
        rintro _ _ ⟨⟩ -
        refine ⟨ihl _ nofun ?_, hb.2⟩
        rintro _ _ ⟨⟩ -
        exact ⟨hn.1, hb.1⟩
      · refine nos_bin fun ha => ?_
        have hn := h2 op a rfl ha
        refine ⟨hn.1, ihr _ nofun ?_⟩
        rintro _ _ ⟨⟩ ho
        have hb := nos_of_bin hn.2 ho
        exact ⟨ihl none (fun _ => hb.1) nofun, hb.2⟩
  | _ =>
    intro c h1 h2
    cases c with
    | none => first | rfl | exact h1 rfl
    | some p =>
      obtain ⟨op, a⟩ := p
      simp only [pull]
      refine nos_bin fun ha => ?_
      have hn := h2 op a rfl ha
      exact ⟨hn.1, by first | rfl | exact hn.2⟩

theorem fix_nos {e : Expr} (h : nos e = true) : nos (fix e) = true := by
  cases e <;> first | rfl | exact h

theorem optUn_nos {op : Tree.Un} {l : Expr} : nos (optUn op l) = true := by
  unfold optUn
  split
  · cases op <;> rfl
  · rfl

theorem optCmp_nos {op : Bin} {l r : Expr} (h : isAr op = false) : nos (optCmp op l r) = true := by
  unfold optCmp
  split
  · cases op <;> first | rfl | cases h
  · simp [nos, h]

theorem optBin_nos {op : Bin} {l r e : Expr} (h : optBin op l r = some e) (hn : isAr op = true → nos l = true ∧ nos r = true) :
    nos e = true := by
  have hb : nos (.bin op l r) = true := nos_bin hn
  cases op
  all_goals first
    | (simp only [optBin] at h; cases h; exact optCmp_nos rfl)
    | (simp only [optBin] at h; cases h; rfl)
    | (have hl := (hn rfl).1; have hr := (hn rfl).2
       simp only [optBin, optAdd, optSub, optShl, optShr, optBAnd, optBOr, optBXor, optMul, optDiv, optMod, optOr, optAnd, cB] at h
       repeat' split at h
       all_goals first | (cases h; first | rfl | exact hl | exact hr | exact hb) | cases h)

theorem calExp_nos : ∀ {e e' : Expr}, calExp e = some e' → nos e = true → nos e' = true := by
  intro e
  induction e with
  | bin op l r ihl ihr =>
    intro e' h hn
    simp only [calExp, Option.bind_eq_bind, Option.bind_eq_some_iff, Option.map_eq_some_iff] at h
    obtain ⟨l', h1, r', h2, e2, h3, rfl⟩ := h
    exact fix_nos (optBin_nos h3 fun ha => ⟨ihl h1 (nos_of_bin hn ha).1, ihr h2 (nos_of_bin hn ha).2⟩)
  | un op e ih =>
    intro e' h hn
    simp only [calExp, Option.map_eq_some_iff] at h
    obtain ⟨a, -, rfl⟩ := h
    exact fix_nos optUn_nos
  | cnst v => intro e' h hn; cases h; rfl
  | leaf k n => intro e' h hn; cases h; exact hn
  | func0 f => intro e' h hn; cases h; rfl
  | _ =>
    intro e' h hn
    simp only [calExp, Option.bind_eq_bind, Option.bind_eq_some_iff, Option.map_eq_some_iff] at h
    first
    | (obtain ⟨a, -, rfl⟩ := h; rfl)
    | (obtain ⟨a, -, b, -, c, -, h⟩ := h; cases h; rfl)

theorem mc_nos {op : Bin} (ho : isAr op = true) {c : Expr} (hc : nos c = true) : ∀ {l : Expr}, nos l = true → nos (mc op l c) = true := by
  intro l
  induction l with
  | bin o x a ih1 ih2 =>
    intro h
    have hm : isAr (if op = .div then .mul else op) = true := by split <;> simp_all [isAr]
    unfold mc
    split
    · next h1 =>
      have hoa : isAr o = true := by
        rcases h1.1 with rfl | ⟨-, rfl⟩
        · exact ho
        · rfl
      have hb := nos_of_bin h hoa
      exact nos_bin fun _ => ⟨ih1 hb.1, hb.2⟩
    · split
      · next h1 =>
        subst h1
        have hb := nos_of_bin h ho
        exact nos_bin fun _ => ⟨hb.1, nos_bin fun _ => ⟨hb.2, hc⟩⟩
      · exact nos_bin fun _ => ⟨h, hc⟩
  | _ => intro h; exact nos_bin fun _ => ⟨h, hc⟩

theorem moveCnst_nos {e : Expr} (h : nos e = true) : nos (moveCnst e) = true := by
  have hs : nos (normSub e) = true := by
    unfold normSub
    split
    · next l v => exact nos_bin fun _ => ⟨(nos_of_bin h rfl).1, rfl⟩
    · exact h
  unfold moveCnst
  split
  · next op l r he =>
    rw [he] at hs
    split
    · next hm =>
      have ha : isAr op = true := by
        simp only [Bool.and_eq_true] at hm
        revert hm; cases op <;> simp [movable, isAr]
      exact mc_nos ha (nos_of_bin hs ha).2 (nos_of_bin hs ha).1
    · exact hs
  · exact hs

theorem arrExp_nos : ∀ {e e' : Expr}, arrExp e = some e' → nos e = true → nos e' = true := by
  intro e
  induction e with
  | bin op l r ihl ihr =>
    intro e' h hn
    simp only [arrExp, Option.bind_eq_bind, Option.bind_eq_some_iff] at h
    obtain ⟨r', h1, l', h2, h3⟩ := h
    exact calExp_nos h3 (moveCnst_nos (nos_bin fun ha => ⟨ihl h2 (nos_of_bin hn ha).1, ihr h1 (nos_of_bin hn ha).2⟩))
  | cnst v => intro e' h hn; exact calExp_nos h hn
  | leaf k n => intro e' h hn; exact calExp_nos h hn
  | func0 f => intro e' h hn; exact calExp_nos h hn
  | un op e ih =>
    intro e' h hn
    simp only [arrExp, Option.bind_eq_bind, Option.bind_eq_some_iff] at h
    obtain ⟨a, -, h⟩ := h
    exact calExp_nos h (moveCnst_nos rfl)
  | _ =>
    intro e' h hn
    simp only [arrExp, Option.bind_eq_bind, Option.bind_eq_some_iff] at h
    first
    | (obtain ⟨a, -, h⟩ := h; exact calExp_nos h rfl)
    | (obtain ⟨a, -, b, -, c, -, h⟩ := h; exact calExp_nos h rfl)

theorem optExp_nos {e e' : Expr} (h : optExp e = some e') (hn : nos e = true) : nos e' = true :=
  arrExp_nos h (pull_nos e none (fun _ => hn) nofun)

theorem ty_nos {T : Tab} {m : Nat} {x : Parse.SX} {ts : List (Int × Nat)} {e : Expr} (h : Parse.Ty actual T m x ts e) :
    ∀ ty, ts = [(ty, 0)] → nos e = true := by
  induction h with
  | str => rintro ty ⟨⟩
  | var _ hk =>
    intro ty _
    generalize Ent.scope _ = s at hk
    cases hk <;> rfl
  | args _ _ ih1 ih2 => intro ty _; rfl
  | par _ ih => exact fun ty h => ih ty h
  | conv hc _ ih =>
    intro ty _
    cases hc <;> first | rfl | exact ih _ rfl
  | idx _ _ he => intro ty _; cases he <;> rfl
  | pre hp _ ih =>
    intro ty _
    cases hp with
    | plus h => rcases h with rfl | rfl <;> exact ih _ rfl
    | _ => rfl
  | bin hk hb _ _ ih1 ih2 =>
    intro ty _
    cases hb with
    | arith _ ha hb => rcases ha with rfl | rfl <;> rcases hb with rfl | rfl <;> exact nos_bin fun _ => ⟨ih1 _ rfl, ih2 _ rfl⟩
    | order ha hb => rcases ha with rfl | rfl <;> rcases hb with rfl | rfl <;> exact nos_bin fun _ => ⟨ih1 _ rfl, ih2 _ rfl⟩
    | equal =>
      obtain ⟨row, h1, -, h2⟩ := hk
      cases h1
      simp only [List.mem_cons, Prod.mk.injEq, List.not_mem_nil, or_false] at h2
      rcases h2 with ⟨-, rfl⟩ | ⟨-, rfl⟩ <;> rfl
    | logic => exact nos_bin fun _ => ⟨ih1 _ rfl, ih2 _ rfl⟩
  | ass _ _ _ _ hs => intro ty _; cases hs <;> rfl
  | _ => intro ty _; rfl

/-- A constant of a basic type is a number or the address of a name. -/
theorem cst_num {T : Tab} {m : Nat} {ty : Int} {x : Parse.SX} {d : DT} (hb : Basic ty) (h : Cst T m ty x d) :
    (∃ v, d = .cnst v) ∨ ∃ n, d = .addr n := by
  obtain ⟨-, t, e, e', h1, h2, h3, h4⟩ := h
  obtain ⟨ty', rfl⟩ : ∃ ty', t = (ty', 0) := by
    cases h2 with
    | same => exact ⟨_, rfl⟩
    | char => exact ⟨_, rfl⟩
    | fromVoid _ h => exact absurd h (by simp)
    | toVoid _ h => exact absurd h (by simp)
    | fromNull h => rcases hb with rfl | rfl | rfl <;> exact absurd h (by decide)
  have hn := optExp_nos h3 (ty_nos h1 _ rfl)
  unfold Parse.cnstTree at h4
  split at h4
  · cases h4; exact .inl ⟨_, rfl⟩
  · cases h4; exact .inr ⟨_, rfl⟩
  · cases hn
  · cases h4

/-- No address of a name is in the tree. -/
def NoAddr : DT → Prop
  | .addr _ => False
  | .semi l r => NoAddr l ∧ NoAddr r
  | .list b _ => NoAddr b
  | .arry d _ => NoAddr d
  | _ => True

theorem says_init {T : Tab} {k : Parse.Kind} {m m' : Nat} {ts : List Parse.Tok} {d : DT} (h : Says T k m ts d m') (hn : NoAddr d) :
    Init T k d := by
  induction h with
  | cst hb hc => rcases cst_num hb hc with ⟨v, rfl⟩ | ⟨v, rfl⟩; exacts [.cst hb, hn.elim]
  | nulS h => exact .nulS h
  | nulA => exact .nulA
  | str => exact .str
  | arr _ ih => exact .arr (ih hn)
  | list _ ih => exact .list (ih hn)
  | struct h _ hj ih => exact .struct h (ih hn) hj
  | one _ ih => exact .one (ih hn)
  | more _ _ ih1 ih2 => exact .more (ih1 hn.1) (ih2 hn.2)
  | first h1 h2 _ ih => exact .first h1 h2 (ih hn)
  | next _ h1 h2 _ ih1 ih2 => exact .next (ih1 hn.1) h1 h2 (ih2 hn.2)
  | fldC hb hc => rcases cst_num hb hc with ⟨v, rfl⟩ | ⟨v, rfl⟩; exacts [.fldC hb, hn.elim]
  | fldN h => exact .fldN h
  | fldS => exact .fldS
  | size hc hv => rcases cst_num (.inl rfl) hc with ⟨v, rfl⟩ | ⟨v, rfl⟩; exacts [.size hv, hn.elim]
  | sizes hc hv _ ih => rcases cst_num (.inl rfl) hc with ⟨v, rfl⟩ | ⟨v, rfl⟩; exacts [.sizes hv (ih hn.1), hn.2.elim]

end Cmm.CText
