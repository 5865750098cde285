import Verif.Gen.Order
import Verif.Props.C56

/- Conditions on trees for the optimizer, and what each of its passes (Verif/Opt/Optree.lean) leaves as it was. -/
namespace Cmm.Opt
open Cmm.Tree

/-- The number of calls and assignments in an expression. -/
def eff : Expr → Nat
  | .cnst _ | .leaf _ _ => 0
  | .func0 _ => 1
  | .func _ a => eff a + 1
  | .un _ e => eff e
  | .bin _ l r => eff l + eff r
  | .assV _ _ r => eff r + 1
  | .assM _ a i r => eff a + eff i + eff r + 1

/-- Operators of which one operand may remain (`x + 0` and so on). -/
def opens : Bin → Bool
  | .add | .sub | .shl | .shr | .band | .bor | .bxor | .mul | .and | .or => true
  | _ => false

/-- The expression can not become a division. -/
def noDiv : Expr → Bool
  | .bin op l r => op != .div && (!opens op || (noDiv l && noDiv r))
  | _ => true

/-- If the expression becomes a constant, that is 0 or 1. -/
def bit : Expr → Bool
  | .cnst v => v == 0 || v == 1
  | .un op _ => op == .not || op == .bool
  | .bin op l r =>
    match op with
    | .gt | .ge | .lt | .le | .equ | .neq | .dot | .idxr | .idxi | .idxc | .idxb | .comm => true
    | .band | .bor | .bxor | .and | .or => bit l && bit r
    | _ => false
  | _ => true

/-- The place of an expression: a value, a condition, an argument list. -/
inductive Pos | val | cond | args
deriving DecidableEq, Repr

/-- `&&` and `||` are in conditions only; what they and `!` work on are truth values; no dividend is a division;
argument lists are arguments. -/
def fine : Pos → Expr → Bool
  | _, .cnst _ | _, .leaf _ _ | _, .func0 _ => true
  | _, .func _ a => fine .args a
  | _, .un op e => fine .val e && (op != .not || bit e)
  | p, .bin op l r =>
    match op with
    | .semi => p == .args && fine .args l && fine .val r
    | .and | .or => p == .cond && fine .cond l && fine .cond r && bit l && bit r
    | .div => fine .val l && fine .val r && noDiv l
    | _ => fine .val l && fine .val r
  | _, .assV _ _ r => fine .val r
  | _, .assM _ a i r => fine .val a && fine .val i && fine .val r

theorem fine_val {p : Pos} {e : Expr} (h : fine .val e = true) : fine p e = true := by
  cases e with
  | bin op l r => cases op <;> simp_all [fine]
  | _ => simpa [fine] using h

/-- The conditions are kept. -/
structure Keep (e e' : Expr) : Prop where
  fine : ∀ p, Opt.fine p e = true → Opt.fine p e' = true
  noDiv : Opt.noDiv e = true → Opt.noDiv e' = true
  bit : Opt.bit e = true → Opt.bit e' = true

theorem Keep.refl (e : Expr) : Keep e e := ⟨fun _ => id, id, id⟩

theorem Keep.trans {a b c : Expr} (h : Keep a b) (h' : Keep b c) : Keep a c :=
  ⟨fun p => h'.fine p ∘ h.fine p, h'.noDiv ∘ h.noDiv, h'.bit ∘ h.bit⟩

theorem Keep.bin {op : Bin} {l l' r r' : Expr} (hl : Keep l l') (hr : Keep r r') : Keep (.bin op l r) (.bin op l' r') := by
  have f1 := hl.fine .val
  have f2 := hl.fine .cond
  have f3 := hl.fine .args
  have g1 := hr.fine .val
  have g2 := hr.fine .cond
  have h1 := hl.noDiv
  have h2 := hl.bit
  have h3 := hr.noDiv
  have h4 := hr.bit
  refine ⟨fun p h => ?_, fun h => ?_, fun h => ?_⟩ <;>
    (cases op <;> simp_all [Opt.fine, Opt.noDiv, Opt.bit, opens])

theorem Keep.un {op : Un} {e e' : Expr} (h : Keep e e') : Keep (.un op e) (.un op e') := by
  have f1 := h.fine .val
  have h2 := h.bit
  refine ⟨fun p h => ?_, fun h => ?_, fun h => ?_⟩ <;>
    (cases op <;> simp_all [Opt.fine, Opt.noDiv, Opt.bit])

theorem Keep.func {f : Int} {e e' : Expr} (h : Keep e e') : Keep (.func f e) (.func f e') :=
  ⟨fun _ h' => h.fine .args h', fun _ => rfl, fun _ => rfl⟩

theorem Keep.assV {k : Kind} {n : Int} {e e' : Expr} (h : Keep e e') : Keep (.assV k n e) (.assV k n e') :=
  ⟨fun _ h' => h.fine .val h', fun _ => rfl, fun _ => rfl⟩

theorem Keep.assM {op : Bin} {a i e a' i' e' : Expr} (ha : Keep a a') (hi : Keep i i') (h : Keep e e') :
    Keep (.assM op a i e) (.assM op a' i' e') :=
  ⟨fun _ h' => by
    simp only [Opt.fine, Bool.and_eq_true] at h' ⊢
    exact ⟨⟨ha.fine _ h'.1.1, hi.fine _ h'.1.2⟩, h.fine _ h'.2⟩, fun _ => rfl, fun _ => rfl⟩

/-! ### moveLeft -/

theorem keep_pull {op o : Bin} (h : canPull op o = true) (a c d : Expr) :
    Keep (.bin op a (.bin o c d)) (.bin (pullN op o) (.bin (pullB op o) a c) d) := by
  cases op <;> cases o <;> first
    | (exfalso; revert h; decide)
    | (refine ⟨fun p h => ?_, fun h => ?_, fun h => ?_⟩ <;> simp_all [Opt.fine, Opt.noDiv, Opt.bit, opens, pullN, pullB])

theorem pull_keep (e : Expr) : ∀ c, Keep (plug e c) (pull e c) := by
  induction e with
  | bin o c d ih1 ih2 =>
    rintro (_ | ⟨op, a⟩)
    · exact ((ih1 none).bin (.refl _)).trans (ih2 (some (o, pull c none)))
    · simp only [pull, plug]
      split
      · rename_i h
        exact (keep_pull h a c d).trans (((ih1 (some (pullB op o, a))).bin (.refl _)).trans (ih2 (some (pullN op o, pull c (some (pullB op o, a))))))
      · exact .bin (.refl _) (((ih1 none).bin (.refl _)).trans (ih2 (some (o, pull c none))))
  | cnst v => rintro (_ | ⟨op, a⟩) <;> exact .refl _
  | leaf k n => rintro (_ | ⟨op, a⟩) <;> exact .refl _
  | func0 f => rintro (_ | ⟨op, a⟩) <;> exact .refl _
  | func f a ih => rintro (_ | ⟨op, b⟩); exacts [(ih none).func, .bin (.refl _) (ih none).func]
  | un u e ih => rintro (_ | ⟨op, b⟩); exacts [(ih none).un, .bin (.refl _) (ih none).un]
  | assV k n r ih => rintro (_ | ⟨op, b⟩); exacts [(ih none).assV, .bin (.refl _) (ih none).assV]
  | assM o a i r h1 h2 h3 =>
    rintro (_ | ⟨op, b⟩)
    exacts [.assM (h1 none) (h2 none) (h3 none), .bin (.refl _) (.assM (h1 none) (h2 none) (h3 none))]

theorem pull_eff (e : Expr) : ∀ c, eff (pull e c) = eff (plug e c) := by
  induction e with
  | bin o c d ih1 ih2 =>
    rintro (_ | ⟨op, a⟩)
    · simp only [pull, ih2, plug, eff, ih1]
    · simp only [pull]
      split <;> simp only [ih2, plug, eff, ih1] <;> omega
  | cnst v => rintro (_ | ⟨op, a⟩) <;> rfl
  | leaf k n => rintro (_ | ⟨op, a⟩) <;> rfl
  | func0 f => rintro (_ | ⟨op, a⟩) <;> rfl
  | func f a ih => rintro (_ | ⟨op, b⟩) <;> simp [pull, plug, eff, ih]
  | un u e ih => rintro (_ | ⟨op, b⟩) <;> simp [pull, plug, eff, ih]
  | assV k n r ih => rintro (_ | ⟨op, b⟩) <;> simp [pull, plug, eff, ih]
  | assM o a i r h1 h2 h3 => rintro (_ | ⟨op, b⟩) <;> simp [pull, plug, eff, h1, h2, h3]

/-! ### moveCnst -/

theorem keep_swap {op o : Bin} (hm : movable op = true) (h : o = op ∨ (op = .add ∧ o = .sub)) (x a : Expr) (v : Int) :
    Keep (.bin op (.bin o x a) (.cnst v)) (.bin o (.bin op x (.cnst v)) a) := by
  rcases h with rfl | ⟨rfl, rfl⟩
  · cases o <;> first
      | (exfalso; revert hm; decide)
      | (refine ⟨fun p h => ?_, fun h => ?_, fun h => ?_⟩ <;> simp_all [Opt.fine, Opt.noDiv, Opt.bit, opens])
  · refine ⟨fun p h => ?_, fun h => ?_, fun h => ?_⟩ <;> simp_all [Opt.fine, Opt.noDiv, Opt.bit, opens]

theorem keep_join {op : Bin} (hm : movable op = true) (x a c : Expr) :
    Keep (.bin op (.bin op x a) c) (.bin op x (.bin (if op = .div then .mul else op) a c)) := by
  cases op <;> first
    | (exfalso; revert hm; decide)
    | (refine ⟨fun p h => ?_, fun h => ?_, fun h => ?_⟩ <;> simp_all [Opt.fine, Opt.noDiv, Opt.bit, opens])

theorem mc_keep {op : Bin} (hm : movable op = true) (v : Int) (l : Expr) : Keep (.bin op l (.cnst v)) (mc op l (.cnst v)) := by
  induction l with
  | bin o x a ih1 =>
    simp only [mc]
    split
    · rename_i h
      exact (keep_swap hm h.1 x a v).trans (ih1.bin (.refl _))
    · split
      · rename_i h
        subst h
        exact keep_join hm x a _
      · exact .refl _
  | _ => exact .refl _

theorem mc_eff {op : Bin} (c : Expr) (l : Expr) : eff (mc op l c) = eff l + eff c := by
  induction l with
  | bin o x a ih1 =>
    simp only [mc]
    split
    · simp only [eff, ih1]; omega
    · split <;> simp only [eff]
      omega
  | _ => rfl

theorem normSub_keep (e : Expr) : Keep e (normSub e) := by
  unfold normSub
  split
  · refine ⟨fun p h => ?_, fun h => ?_, fun h => ?_⟩ <;> simp_all [Opt.fine, Opt.noDiv, Opt.bit, opens]
  · exact .refl _

theorem moveCnst_keep (e : Expr) : Keep e (moveCnst e) := by
  refine (normSub_keep e).trans ?_
  unfold moveCnst
  split
  · rename_i op l r h
    rw [h]
    split
    · rename_i h'
      obtain ⟨h1, h2⟩ := Bool.and_eq_true_iff.1 h'
      obtain ⟨v, rfl⟩ := isCnst_iff.1 h2
      exact mc_keep h1 v l
    · exact .refl _
  · exact .refl _

theorem moveCnst_eff (e : Expr) : eff (moveCnst e) = eff e := by
  have hn : eff (normSub e) = eff e := by
    unfold normSub
    split <;> rfl
  rw [← hn]
  unfold moveCnst
  split
  · rename_i op l r h
    rw [h]
    split
    · exact mc_eff r l
    · rfl
  · rfl

/-! ### calExp -/

theorem bit_msk {v : Int} (h : bit (.cnst v) = true) : bit (.cnst (msk v)) = true := by
  simp only [bit, Bool.or_eq_true, beq_iff_eq] at h
  rcases h with rfl | rfl <;> rfl

theorem keep_fix (e : Expr) : Keep e (fix e) := by
  cases e with
  | cnst v => exact ⟨fun _ _ => rfl, fun _ => rfl, bit_msk⟩
  | _ => exact .refl _

theorem eff_fix (e : Expr) : eff (fix e) = eff e := by cases e <;> rfl

theorem keep_cB {e : Expr} (b : Bool) : Keep e (cB b) := ⟨fun _ _ => rfl, fun _ => rfl, fun _ => by cases b <;> rfl⟩

theorem keep_un (op : Un) (e : Expr) : Keep (.un op e) (optUn op e) := by
  unfold optUn
  split
  · cases op <;> refine ⟨fun p h => ?_, fun h => ?_, fun h => ?_⟩ <;> simp_all [Opt.fine, Opt.noDiv, Opt.bit, cB]
  · exact .refl _

theorem eff_un (op : Un) (e : Expr) : eff (optUn op e) ≤ eff (.un op e) := by
  unfold optUn
  split
  · cases op <;> simp [eff, cB]
  · exact Nat.le_refl _

theorem keep_left {op : Bin} (ho : opens op = true ∨ op = .div) (l r : Expr) : Keep (.bin op l r) l := by
  refine ⟨fun p h => ?_, fun h => ?_, fun h => ?_⟩
  · cases op <;> first
      | (exfalso; revert ho; decide)
      | (simp only [Opt.fine, Bool.and_eq_true, beq_iff_eq] at h
         first | (exact fine_val h.1) | (exact fine_val h.1.1) | (obtain ⟨⟨⟨⟨rfl, h⟩, -⟩, -⟩, -⟩ := h; exact h))
  · cases op <;> simp_all [Opt.noDiv, opens]
  · cases op <;> simp_all [Opt.bit, opens]

theorem keep_right {op : Bin} (ho : opens op = true) (l r : Expr) : Keep (.bin op l r) r := by
  refine ⟨fun p h => ?_, fun h => ?_, fun h => ?_⟩
  · cases op <;> first
      | (exfalso; revert ho; decide)
      | (simp only [Opt.fine, Bool.and_eq_true, beq_iff_eq] at h
         first | (exact fine_val h.2) | (obtain ⟨⟨⟨⟨rfl, -⟩, h⟩, -⟩, -⟩ := h; exact h))
  · cases op <;> simp_all [Opt.noDiv, opens]
  · cases op <;> simp_all [Opt.bit, opens]

theorem keep_cnst {op : Bin} {l r : Expr} {v : Int} (h : bit (.bin op l r) = true → bit (.cnst v) = true) :
    Keep (.bin op l r) (.cnst v) := ⟨fun _ _ => rfl, fun _ => rfl, h⟩

theorem keep_unL {op : Bin} {u : Un} (ho : op = .sub ∨ op = .mul ∨ op = .bxor) (hu : u ≠ .not) {l r : Expr}
    (h : bit (.bin op l r) = false) : Keep (.bin op l r) (.un u l) := by
  refine ⟨fun p h => ?_, fun h => rfl, fun h' => by rw [h] at h'; cases h'⟩
  rcases ho with rfl | rfl | rfl <;> simp_all [Opt.fine]

theorem keep_unR {op : Bin} {u : Un} (ho : op = .sub ∨ op = .mul ∨ op = .bxor) (hu : u ≠ .not) {l r : Expr}
    (h : bit (.bin op l r) = false) : Keep (.bin op l r) (.un u r) := by
  refine ⟨fun p h => ?_, fun h => rfl, fun h' => by rw [h] at h'; cases h'⟩
  rcases ho with rfl | rfl | rfl <;> simp_all [Opt.fine]

theorem bit_ff {e : Expr} (h : isCnstN e 65535 = true) : bit e = false := by
  rw [isCnstN_iff] at h; subst h; rfl

theorem bit_nat2 {f : Nat → Nat → Nat} (hf : ∀ a b, a ≤ 1 → b ≤ 1 → f a b ≤ 1) {a b : Int}
    (h : (bit (.cnst a) && bit (.cnst b)) = true) : bit (.cnst (nat2 f a b)) = true := by
  simp only [bit, Bool.and_eq_true, Bool.or_eq_true, beq_iff_eq] at h ⊢
  have h1 : a.toNat ≤ 1 := by omega
  have h2 : b.toNat ≤ 1 := by omega
  have := hf _ _ h1 h2
  unfold nat2
  omega

theorem keep_bin {op : Bin} {l r e : Expr} (h : optBin op l r = some e) : Keep (.bin op l r) e := by
  have le1 : ∀ a : Nat, a ≤ 1 → a = 0 ∨ a = 1 := fun a h => by omega
  cases op <;> simp only [optBin, Option.some.injEq] at h <;> try (subst h)
  case add =>
    unfold optAdd
    split
    · exact keep_cnst nofun
    · split
      · exact keep_right rfl _ _
      · split
        · exact keep_left (.inl rfl) _ _
        · exact .refl _
  case sub =>
    unfold optSub
    split
    · exact keep_cnst nofun
    · split
      · exact keep_unR (.inl rfl) (by decide) rfl
      · split
        · exact keep_left (.inl rfl) _ _
        · exact .refl _
  case shl =>
    unfold optShl at h
    repeat' split at h
    all_goals cases h
    all_goals first | exact .refl _ | exact keep_left (.inl rfl) _ _ | exact keep_cnst nofun
  case shr =>
    unfold optShr at h
    repeat' split at h
    all_goals cases h
    all_goals first | exact .refl _ | exact keep_left (.inl rfl) _ _ | exact keep_cnst nofun
  case band =>
    unfold optBAnd
    split
    · exact keep_cnst (bit_nat2 fun a b ha hb => by rcases le1 a ha with rfl | rfl <;> rcases le1 b hb with rfl | rfl <;> decide)
    · split
      · exact keep_cnst fun _ => rfl
      · split
        · exact keep_right rfl _ _
        · split
          · exact keep_left (.inl rfl) _ _
          · exact .refl _
  case bor =>
    unfold optBOr
    split
    · exact keep_cnst (bit_nat2 fun a b ha hb => by rcases le1 a ha with rfl | rfl <;> rcases le1 b hb with rfl | rfl <;> decide)
    · split
      · rename_i h
        refine keep_cnst fun h' => ?_
        simp only [bit, Bool.and_eq_true] at h'
        rcases Bool.or_eq_true_iff.1 h with h | h
        · rw [bit_ff h] at h'; cases h'.1
        · rw [bit_ff h] at h'; cases h'.2
      · split
        · exact keep_right rfl _ _
        · split
          · exact keep_left (.inl rfl) _ _
          · exact .refl _
  case bxor =>
    unfold optBXor
    split
    · exact keep_cnst (bit_nat2 fun a b ha hb => by rcases le1 a ha with rfl | rfl <;> rcases le1 b hb with rfl | rfl <;> decide)
    · split
      · rename_i h
        exact keep_unR (.inr (.inr rfl)) (by decide) (by simp [bit, bit_ff h])
      · split
        · exact keep_right rfl _ _
        · split
          · rename_i h
            exact keep_unL (.inr (.inr rfl)) (by decide) (by simp [bit, bit_ff h])
          · split
            · exact keep_left (.inl rfl) _ _
            · exact .refl _
  case mul =>
    unfold optMul
    repeat' split
    all_goals first
      | exact .refl _
      | exact keep_cnst nofun
      | exact keep_left (.inl rfl) _ _
      | exact keep_right rfl _ _
      | exact keep_unR (.inr (.inl rfl)) (by decide) rfl
      | exact keep_unL (.inr (.inl rfl)) (by decide) rfl
  case div =>
    unfold optDiv at h
    repeat' split at h
    all_goals cases h
    all_goals first | exact .refl _ | exact keep_left (.inr rfl) _ _ | exact keep_cnst nofun
  case mod =>
    unfold optMod at h
    repeat' split at h
    all_goals cases h
    all_goals first | exact .refl _ | exact keep_cnst nofun
  case and =>
    unfold optAnd
    repeat' split
    all_goals first | exact .refl _ | exact keep_cB _ | exact keep_left (.inl rfl) _ _ | exact keep_right rfl _ _
  case or =>
    unfold optOr
    repeat' split
    all_goals first | exact .refl _ | exact keep_cB _ | exact keep_left (.inl rfl) _ _ | exact keep_right rfl _ _
  all_goals first
    | exact .refl _
    | (unfold optCmp; split <;> first | exact keep_cB _ | exact .refl _)

theorem eff_bin {op : Bin} {l r e : Expr} (h : optBin op l r = some e) : eff e ≤ eff l + eff r := by
  cases op <;> simp only [optBin, Option.some.injEq] at h <;> try (subst h)
  case shl =>
    unfold optShl at h
    repeat' split at h
    all_goals cases h
    all_goals simp [eff]
  case shr =>
    unfold optShr at h
    repeat' split at h
    all_goals cases h
    all_goals simp [eff]
  case div =>
    unfold optDiv at h
    repeat' split at h
    all_goals cases h
    all_goals simp [eff]
  case mod =>
    unfold optMod at h
    repeat' split at h
    all_goals cases h
    all_goals simp [eff]
  case add => unfold optAdd; repeat' split
              all_goals simp [eff]
  case sub => unfold optSub; repeat' split
              all_goals simp [eff]
  case band => unfold optBAnd; repeat' split
               all_goals simp [eff]
  case bor => unfold optBOr; repeat' split
              all_goals simp [eff]
  case bxor => unfold optBXor; repeat' split
               all_goals simp [eff]
  case mul => unfold optMul; repeat' split
              all_goals simp [eff]
  case and => unfold optAnd; repeat' split
              all_goals simp [eff, cB]
  case or => unfold optOr; repeat' split
             all_goals simp [eff, cB]
  all_goals first
    | (unfold optCmp; split <;> simp [eff, cB]; done)
    | simp [eff]

theorem calExp_keep {e : Expr} : ∀ {e'}, calExp e = some e' → Keep e e' := by
  induction e with
  | cnst v => intro e' h; cases h; exact keep_fix _
  | leaf k n => intro e' h; cases h; exact .refl _
  | func0 f => intro e' h; cases h; exact .refl _
  | func f a ih =>
    intro e' h
    simp only [calExp, Option.map_eq_some_iff] at h
    obtain ⟨a', h1, rfl⟩ := h
    exact (ih h1).func
  | un op e ih =>
    intro e' h
    simp only [calExp, Option.map_eq_some_iff] at h
    obtain ⟨a', h1, rfl⟩ := h
    exact ((ih h1).un.trans (keep_un op a')).trans (keep_fix _)
  | bin op l r ih1 ih2 =>
    intro e' h
    simp only [calExp, Option.bind_eq_bind, Option.bind_eq_some_iff, Option.map_eq_some_iff] at h
    obtain ⟨l', h1, r', h2, a', h3, rfl⟩ := h
    exact (((ih1 h1).bin (ih2 h2)).trans (keep_bin h3)).trans (keep_fix _)
  | assV k n r ih =>
    intro e' h
    simp only [calExp, Option.map_eq_some_iff] at h
    obtain ⟨a', h1, rfl⟩ := h
    exact (ih h1).assV
  | assM op a i r h1 h2 h3 =>
    intro e' h
    simp only [calExp, Option.bind_eq_bind, Option.bind_eq_some_iff, Option.some.injEq] at h
    obtain ⟨a', g1, i', g2, r', g3, rfl⟩ := h
    exact .assM (h1 g1) (h2 g2) (h3 g3)

theorem calExp_eff {e : Expr} : ∀ {e'}, calExp e = some e' → eff e' ≤ eff e := by
  induction e with
  | cnst v => intro e' h; cases h; exact Nat.le_refl _
  | leaf k n => intro e' h; cases h; exact Nat.le_refl _
  | func0 f => intro e' h; cases h; exact Nat.le_refl _
  | func f a ih =>
    intro e' h
    simp only [calExp, Option.map_eq_some_iff] at h
    obtain ⟨a', h1, rfl⟩ := h
    have := ih h1
    simp only [eff]; omega
  | un op e ih =>
    intro e' h
    simp only [calExp, Option.map_eq_some_iff] at h
    obtain ⟨a', h1, rfl⟩ := h
    have := ih h1
    have := eff_un op a'
    rw [eff_fix]
    simp only [eff] at *; omega
  | bin op l r ih1 ih2 =>
    intro e' h
    simp only [calExp, Option.bind_eq_bind, Option.bind_eq_some_iff, Option.map_eq_some_iff] at h
    obtain ⟨l', h1, r', h2, a', h3, rfl⟩ := h
    have := ih1 h1
    have := ih2 h2
    have := eff_bin h3
    rw [eff_fix]
    simp only [eff] at *; omega
  | assV k n r ih =>
    intro e' h
    simp only [calExp, Option.map_eq_some_iff] at h
    obtain ⟨a', h1, rfl⟩ := h
    have := ih h1
    simp only [eff]; omega
  | assM op a i r h1 h2 h3 =>
    intro e' h
    simp only [calExp, Option.bind_eq_bind, Option.bind_eq_some_iff, Option.some.injEq] at h
    obtain ⟨a', g1, i', g2, r', g3, rfl⟩ := h
    have := h1 g1
    have := h2 g2
    have := h3 g3
    simp only [eff]; omega

end Cmm.Opt
