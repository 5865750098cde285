import Verif.Parse.Grammar
import Mathlib.Tactic.ByContra
import Mathlib.Logic.Basic

/- The helpers of the parser against the specification. -/
namespace Cmm.Parse
open Cmm.Tree

theorem lastIdx_iff {p : Ent → Bool} {t : Tab} {k n : Nat} : lastIdx p t k = some n ↔
    n < k ∧ (∃ e, t[n]? = some e ∧ p e) ∧ ∀ m e, n < m → m < k → t[m]? = some e → p e = false := by
  induction k with
  | zero => simp [lastIdx]
  | succ k ih =>
    unfold lastIdx
    cases hk : t[k]? with
    | none =>
      simp only [ih]
      constructor
      · rintro ⟨h1, h2, h3⟩
        refine ⟨by omega, h2, fun m e hm hm' he => ?_⟩
        rcases Nat.lt_succ_iff_lt_or_eq.1 hm' with h | rfl
        · exact h3 m e hm h he
        · simp [hk] at he
      · rintro ⟨h1, ⟨e, he, hp⟩, h3⟩
        refine ⟨?_, ⟨e, he, hp⟩, fun m e hm hm' he => h3 m e hm (by omega) he⟩
        rcases Nat.lt_succ_iff_lt_or_eq.1 h1 with h | rfl
        · exact h
        · simp [hk] at he
    | some d =>
      simp only
      by_cases hp : p d
      · simp only [hp, if_true, Option.some.injEq]
        constructor
        · rintro rfl
          exact ⟨by omega, ⟨d, hk, hp⟩, fun m e hm hm' => by omega⟩
        · rintro ⟨h1, -, h3⟩
          by_contra hne
          have := h3 k d (by omega) (by omega) hk
          simp [hp] at this
      · rw [if_neg hp, ih]
        constructor
        · rintro ⟨h1, h2, h3⟩
          refine ⟨by omega, h2, fun m e hm hm' he => ?_⟩
          rcases Nat.lt_succ_iff_lt_or_eq.1 hm' with h | rfl
          · exact h3 m e hm h he
          · rw [hk] at he; cases he; simpa using hp
        · rintro ⟨h1, ⟨e, he, hp'⟩, h3⟩
          refine ⟨?_, ⟨e, he, hp'⟩, fun m e hm hm' he => h3 m e hm (by omega) he⟩
          rcases Nat.lt_succ_iff_lt_or_eq.1 h1 with h | rfl
          · exact h
          · rw [hk] at he; cases he; exact absurd hp' hp

theorem firstIdx_iff {p : Ent → Bool} {t : Tab} {k i n : Nat} : firstIdx p t i k = some n ↔
    i ≤ n ∧ n < i + k ∧ (∃ e, t[n]? = some e ∧ p e) ∧
    ∀ m e, i ≤ m → m < n → t[m]? = some e → p e = false := by
  induction k generalizing i with
  | zero =>
    simp only [firstIdx, reduceCtorEq, false_iff]
    rintro ⟨h1, h2, -⟩; omega
  | succ k ih =>
    have key : (∀ e, t[i]? = some e → p e = false) → ((firstIdx p t (i + 1) k = some n) ↔
        i ≤ n ∧ n < i + (k + 1) ∧ (∃ e, t[n]? = some e ∧ p e) ∧
        ∀ m e, i ≤ m → m < n → t[m]? = some e → p e = false) := by
      intro hi
      rw [ih]
      constructor
      · rintro ⟨h1, h2, h3, h4⟩
        refine ⟨by omega, by omega, h3, fun m e hm hm' he => ?_⟩
        rcases Nat.eq_or_lt_of_le hm with rfl | h
        · exact hi e he
        · exact h4 m e h hm' he
      · rintro ⟨h1, h2, ⟨e, he, hp⟩, h4⟩
        refine ⟨?_, by omega, ⟨e, he, hp⟩, fun m e hm hm' he => h4 m e (by omega) hm' he⟩
        rcases Nat.eq_or_lt_of_le h1 with rfl | h
        · rw [hi e he] at hp; cases hp
        · exact h
    unfold firstIdx
    cases hk : t[i]? with
    | none => exact key (by simp [hk])
    | some d =>
      simp only
      by_cases hp : p d
      · simp only [hp, if_true, Option.some.injEq]
        constructor
        · rintro rfl
          exact ⟨by omega, by omega, ⟨d, hk, hp⟩, fun m e hm hm' => by omega⟩
        · rintro ⟨h1, h2, h3, h4⟩
          by_contra hne
          have := h4 i d (by omega) (by omega) hk
          simp [hp] at this
      · rw [if_neg hp]
        exact key (by rw [hk]; rintro e ⟨⟩; simpa using hp)

/-- A name means its last visible declaration. -/
theorem srcName_iff {t : Tab} {x : String} {n : Nat} :
    srcName t x = some n ↔ ∃ e, Sees t x n e := by
  unfold srcName
  rw [lastIdx_iff]
  unfold Sees
  constructor
  · rintro ⟨h1, ⟨e, he, hp⟩, h3⟩
    simp only [Bool.and_eq_true, decide_eq_true_eq, beq_iff_eq] at hp
    refine ⟨e, he, hp.2, hp.1, fun m e' hm he' hn => ?_⟩
    have := h3 m e' hm (List.getElem?_eq_some_iff.1 he').1 he'
    simp only [hn, beq_self_eq_true, Bool.and_true, decide_eq_false_iff_not] at this
    simpa using this
  · rintro ⟨e, he, hn, hs, h⟩
    refine ⟨(List.getElem?_eq_some_iff.1 he).1, ⟨e, he, by simp [hn]; exact hs⟩, ?_⟩
    intro m e' hm _ he'
    by_cases hn' : e'.name = x
    · have := h m e' hm he' hn'
      simp only [hn', beq_self_eq_true, Bool.and_true, decide_eq_false_iff_not]
      simpa using this
    · simp [hn']

theorem srcStruct_iff {t : Tab} {x : String} {n : Nat} :
    firstIdx (fun e => e.scope == ScSTRC && e.name == x) t 0 t.length = some n ↔
    SeesType t x n := by
  rw [firstIdx_iff]
  unfold SeesType
  constructor
  · rintro ⟨h0, h1, ⟨e, he, hp⟩, h3⟩
    simp only [Bool.and_eq_true, beq_iff_eq] at hp
    refine ⟨⟨e, he, hp.2, hp.1⟩, fun m e' hm he' hn hs => ?_⟩
    have := h3 m e' (by omega) hm he'
    simp [hn, hs] at this
  · rintro ⟨⟨e, he, hn, hs⟩, h⟩
    refine ⟨by omega, by have := (List.getElem?_eq_some_iff.1 he).1; omega,
      ⟨e, he, by simp [hn, hs]⟩, fun m e' _ hm he' => ?_⟩
    by_cases hn' : e'.name = x
    · have := h m e' hm he' hn'
      simp [this]
    · simp [hn']

theorem srcField_iff {t : Tab} {i : Nat} {f : String} {n : Nat} :
    srcField t (-(i : Int)) f = some n ↔ ∃ e, Field t i f n e := by
  unfold srcField Field
  simp only [Int.neg_neg, Int.toNat_natCast]
  cases hi : t[i]? with
  | none => simp
  | some d =>
    simp only [firstIdx_iff, beq_iff_eq]
    constructor
    · rintro ⟨h1, h2, ⟨e, he, hp⟩, h3⟩
      refine ⟨e, ⟨d, rfl, by omega, by omega⟩, he, hp, fun m e' hm hm' he' => ?_⟩
      simpa using h3 m e' (by omega) hm' he'
    · rintro ⟨e, ⟨d', hd, h1, h2⟩, he, hn, h⟩
      cases hd
      refine ⟨by omega, by omega, ⟨e, he, hn⟩, fun m e' hm hm' he' => ?_⟩
      simpa using h m e' (by omega) hm' he'

theorem Sees.unique {t : Tab} {x : String} {n n' : Nat} {e e' : Ent} (h : Sees t x n e)
    (h' : Sees t x n' e') : n = n' ∧ e = e' := by
  have : n = n' := by
    have h1 := srcName_iff.2 ⟨e, h⟩
    have h2 := srcName_iff.2 ⟨e', h'⟩
    rw [h1] at h2; exact Option.some.inj h2
  subst this
  have := h.1.symm.trans h'.1
  exact ⟨rfl, Option.some.inj this⟩

/-- Types. -/
theorem typeOf_iff {t : Tab} {k : Tok} {ty : Int} (h : ty ≠ TyNON) :
    typeOf t k = ty ↔ TypeTok t k ty := by
  constructor
  · intro hk
    unfold typeOf at hk
    split at hk
    · subst hk; exact .int
    · subst hk; exact .char
    · subst hk; exact .void
    · subst hk; exact .bool
    · subst hk; exact .intr
    · rename_i s
      unfold srcStruct at hk
      split at hk
      · rename_i i hi
        subst hk
        exact .name (srcStruct_iff.1 hi)
      · exact absurd hk.symm h
    · exact absurd hk.symm h
  · intro hk
    cases hk with
    | int => rfl
    | char => rfl
    | void => rfl
    | bool => rfl
    | intr => rfl
    | name hs =>
      show srcStruct t _ = _
      unfold srcStruct
      rw [srcStruct_iff.2 hs]

theorem TypeTok.ne_non {t : Tab} {k : Tok} {ty : Int} (h : TypeTok t k ty) : ty ≠ TyNON := by
  cases h with
  | name h => unfold TyNON; omega
  | _ => decide

theorem getDims_spec : ∀ {r : List Tok} {d : Nat} {r' : List Tok}, getDims r = some (d, r') →
    r = dimToks d ++ r'
  | r, d, r', h => by
    unfold getDims at h
    split at h
    · rename_i q
      cases hq : getDims q with
      | none => simp [hq] at h
      | some x =>
        obtain ⟨d1, r1⟩ := x
        simp only [hq, Option.map_some, Option.some.injEq, Prod.mk.injEq] at h
        obtain ⟨rfl, rfl⟩ := h
        rw [getDims_spec hq]
        rfl
    · cases h
    · cases h; rfl
  termination_by r => r.length

theorem getDims_ok {d : Nat} {r : List Tok} (h : r.head? ≠ some Lx.lbrk) :
    getDims (dimToks d ++ r) = some (d, r) := by
  induction d with
  | zero =>
    show getDims r = _
    unfold getDims
    split
    · simp at h
    · simp at h
    · rfl
  | succ d ih =>
    show getDims (Lx.lbrk :: Lx.rbrk :: (dimToks d ++ r)) = _
    rw [getDims, ih]
    rfl

/-- Assignments. -/
theorem chkCmpat_iff {w : W} {ty : Int} {d : Nat} :
    (chkCmpat w ty d).isSome ↔ Assignable (w.type, w.dim) (ty, d) := by
  obtain ⟨wt, wd, lhs, tree⟩ := w
  unfold chkCmpat autoCast misfit
  constructor
  · intro h
    by_cases h0 : wd ≠ 0 ∨ d ≠ 0
    · simp only [h0, if_true] at h
      by_cases h1 : wt = TyVOID ∧ 0 < wd ∧ 0 < d
      · obtain ⟨rfl, h1, h2⟩ := h1; exact .fromVoid h1 h2
      · by_cases h2 : ty = TyVOID ∧ 0 < d ∧ 0 < wd
        · obtain ⟨rfl, h1, h2⟩ := h2; exact .toVoid h2 h1
        · by_cases h3 : wt = TyVOID ∧ wd = 1 ∧ ty ≤ 0
          · obtain ⟨rfl, rfl, h3⟩ := h3; exact .fromNull h3
          · by_cases h4 : ty = TyVOID ∧ d = 1 ∧ wt ≤ 0
            · obtain ⟨rfl, rfl, h4⟩ := h4; exact .toNull h4
            · by_cases h5 : wt = ty ∧ wd = d
              · obtain ⟨rfl, rfl⟩ := h5; exact .same
              · exfalso
                simp [apply_ite] at h
                simp at h1 h2 h3 h4 h5
                grind
    · have hw : wd = 0 := by omega
      have hd : d = 0 := by omega
      subst hw hd
      by_cases hc : wt = TyCHAR ∧ ty = TyINT
      · obtain ⟨rfl, rfl⟩ := hc; exact .char
      · simp only [h0, if_false, hc] at h
        simp [apply_ite] at h
        rw [h]; exact .same
  · intro h
    generalize hA : (wt, wd) = A at h
    generalize hB : (ty, d) = B at h
    cases h with
    | same =>
      rw [← hA] at hB; cases hB
      split
      · simp
      · split
        · rename_i h; exact absurd (h.1.symm.trans h.2) (by decide)
        · simp
    | char => cases hA; cases hB; simp
    | fromVoid h1 h2 => 
      cases hA; cases hB
      have : d ≠ 0 := by omega
      simp [this, h1, h2]
    | toVoid h1 h2 =>
      cases hA; cases hB
      have : d ≠ 0 := by omega
      simp [this, h1, h2]
    | fromNull h1 => cases hA; cases hB; simp [h1]
    | toNull h1 => cases hA; cases hB; simp [h1]

theorem chkCmpat_tree {w w' : W} {ty : Int} {d : Nat} (h : chkCmpat w ty d = some w') :
    w'.tree = w.tree := by
  have h1 : (autoCast w ty d).tree = w.tree := by
    unfold autoCast
    split
    · rfl
    · split <;> rfl
  unfold chkCmpat at h
  simp only at h
  by_cases hm : misfit (autoCast w ty d).type (autoCast w ty d).dim ty d
  · rw [if_pos hm] at h; cases h
  · rw [if_neg hm] at h; cases h; exact h1

theorem chkType_int {w w' : W} (h : chkType w TyINT = some w') :
    IntLike (w.type, w.dim) ∧ w'.type = TyINT ∧ w'.dim = 0 ∧ w'.tree = w.tree := by
  obtain ⟨wt, wd, lhs, tree⟩ := w
  unfold chkType autoCast at h
  simp only at h
  split at h
  · cases h
  · rename_i hd
    have : wd = 0 := by omega
    subst this
    simp only [ne_eq, not_true, or_self, if_false, and_true] at h
    by_cases hc : wt = TyCHAR
    · subst hc
      simp at h
      obtain ⟨-, rfl⟩ := h
      exact ⟨.inr rfl, rfl, rfl, rfl⟩
    · simp only [hc, if_false] at h
      by_cases hv : wt = TyVOID
      · simp [hv] at h
      · simp only [hv, if_false] at h
        by_cases hi : wt = TyINT
        · subst hi; simp at h; subst h; exact ⟨.inl rfl, rfl, rfl, rfl⟩
        · simp [hi] at h

theorem chkType_int_ok {w : W} (h : IntLike (w.type, w.dim)) :
    ∃ w', chkType w TyINT = some w' ∧ w'.type = TyINT ∧ w'.dim = 0 ∧ w'.tree = w.tree := by
  obtain ⟨wt, wd, lhs, tree⟩ := w
  rcases h with h | h <;> cases h <;> exact ⟨_, rfl, rfl, rfl, rfl⟩

theorem chkType_bool {w w' : W} (h : chkType w TyBOOL = some w') :
    (w.type, w.dim) = (TyBOOL, 0) ∧ w' = w := by
  obtain ⟨wt, wd, lhs, tree⟩ := w
  unfold chkType autoCast at h
  simp only at h
  split at h
  · cases h
  · rename_i hd
    have : wd = 0 := by omega
    subst this
    simp only [ne_eq, not_true, or_self, if_false, show ¬ (TyBOOL = TyINT) by decide, and_false] at h
    by_cases hv : wt = TyVOID
    · simp [hv] at h
    · simp only [hv, if_false] at h
      by_cases hi : wt = TyBOOL
      · subst hi; simp at h; subst h; exact ⟨rfl, rfl⟩
      · simp [hi] at h

theorem chkType_bool_ok {w : W} (h : (w.type, w.dim) = (TyBOOL, 0)) :
    chkType w TyBOOL = some w := by
  obtain ⟨wt, wd, lhs, tree⟩ := w
  cases h
  rfl

/-- The operators are those of the table. -/
theorem binOp_iff {k : Nat} {t : Tok} {op : Bin} : binOp k t = some op ↔ IsBin k t op := by
  unfold IsBin
  constructor
  · intro h
    unfold binOp at h
    split at h <;> first | (cases h; done) | (cases h; exact ⟨_, rfl, by decide, by decide⟩)
  · rintro ⟨row, h, hk, hm⟩
    have hlt := (List.getElem?_eq_some_iff.1 h).1
    have h11 : k ≤ 11 := by
      simp [binRows] at hlt; omega
    have : k = 2 ∨ k = 3 ∨ k = 4 ∨ k = 5 ∨ k = 6 ∨ k = 7 ∨ k = 8 ∨ k = 9 ∨ k = 10 ∨ k = 11 := by
      omega
    have key : ∀ k ∈ [2, 3, 4, 5, 6, 7, 8, 9, 10, 11], ∀ row ∈ (binRows[k - 2]?).toList,
        ∀ x ∈ row, binOp k x.1 = some x.2 := by decide
    exact key k (by simp; omega) row (by rw [h]; simp) (t, op) hm

theorem IsBin.range {k : Nat} {t : Tok} {op : Bin} (h : IsBin k t op) : 2 ≤ k ∧ k ≤ 11 := by
  obtain ⟨row, h, hk, hm⟩ := h
  have hlt := (List.getElem?_eq_some_iff.1 h).1
  simp [binRows] at hlt
  omega

theorem eqType_cases (t : Int) : (t = TyCHAR ∧ eqType t = TyINT) ∨ (t ≠ TyCHAR ∧ eqType t = t) := by
  unfold eqType
  by_cases h : t = TyCHAR
  · left; simp [h]
  · right; simp [h]

theorem eq_cmp {a b : Int × Nat} :
    Assignable (eqType b.1, b.2) (eqType a.1, a.2) ↔ actual.cmp a b := by
  obtain ⟨at', ad⟩ := a
  obtain ⟨bt, bd⟩ := b
  simp only
  constructor
  · intro h
    generalize hA : (eqType bt, bd) = A at h
    generalize hB : (eqType at', ad) = B at h
    cases h with
    | same =>
      rw [← hA] at hB
      simp only [Prod.mk.injEq] at hB
      obtain ⟨h1, rfl⟩ := hB
      by_cases hab : at' = bt
      · subst hab
        by_cases hv : (at', ad) = (TyVOID, 0)
        · right; left; exact ⟨hv, hv⟩
        · left; exact ⟨hv, hv, .inl .same⟩
      · have : (at' = TyCHAR ∧ bt = TyINT) ∨ (at' = TyINT ∧ bt = TyCHAR) := by
          rcases eqType_cases at' with ⟨x, y⟩ | ⟨x, y⟩ <;>
          rcases eqType_cases bt with ⟨x', y'⟩ | ⟨x', y'⟩ <;> rw [y, y'] at h1
          · exact absurd (x.trans x'.symm) hab
          · exact .inl ⟨x, h1.symm⟩
          · exact .inr ⟨h1, x'⟩
          · exact absurd h1 hab
        by_cases hd : ad = 0
        · subst hd
          left
          rcases this with ⟨rfl, rfl⟩ | ⟨rfl, rfl⟩
          · exact ⟨by decide, by decide, .inl .char⟩
          · exact ⟨by decide, by decide, .inr .char⟩
        · right; right
          exact ⟨by simp only; omega, rfl, this⟩
    | char =>
      simp only [Prod.mk.injEq] at hA
      rcases eqType_cases bt with ⟨x, y⟩ | ⟨x, y⟩
      · rw [y] at hA; exact absurd hA.1 (by decide)
      · rw [y] at hA; exact absurd hA.1 x
    | fromVoid h1 h2 =>
      simp only [Prod.mk.injEq] at hA hB
      obtain ⟨hA, rfl⟩ := hA
      obtain ⟨hB, rfl⟩ := hB
      rcases eqType_cases bt with ⟨x, y⟩ | ⟨x, y⟩
      · rw [y] at hA; exact absurd hA (by decide)
      · rw [y] at hA; subst hA
        left; exact ⟨by simp; omega, by simp; omega, .inr (.fromVoid h1 h2)⟩
    | toVoid h1 h2 =>
      simp only [Prod.mk.injEq] at hA hB
      obtain ⟨hA, rfl⟩ := hA
      obtain ⟨hB, rfl⟩ := hB
      rcases eqType_cases at' with ⟨x, y⟩ | ⟨x, y⟩
      · rw [y] at hB; exact absurd hB (by decide)
      · rw [y] at hB; subst hB
        left; exact ⟨by simp; omega, by simp; omega, .inr (.toVoid h1 h2)⟩
    | fromNull h1 =>
      simp only [Prod.mk.injEq] at hA hB
      obtain ⟨hA, rfl⟩ := hA
      obtain ⟨rfl, rfl⟩ := hB
      rcases eqType_cases bt with ⟨x, y⟩ | ⟨x, y⟩
      · rw [y] at hA; exact absurd hA (by decide)
      · rw [y] at hA; subst hA
        rcases eqType_cases at' with ⟨x', y'⟩ | ⟨x', y'⟩
        · rw [y'] at h1; exact absurd h1 (by decide)
        · rw [y'] at h1
          left; exact ⟨by rintro ⟨⟩; exact absurd h1 (by decide), by simp, .inr (.fromNull h1)⟩
    | toNull h1 =>
      simp only [Prod.mk.injEq] at hA hB
      obtain ⟨rfl, rfl⟩ := hA
      obtain ⟨hB, rfl⟩ := hB
      rcases eqType_cases at' with ⟨x, y⟩ | ⟨x, y⟩
      · rw [y] at hB; exact absurd hB (by decide)
      · rw [y] at hB; subst hB
        rcases eqType_cases bt with ⟨x', y'⟩ | ⟨x', y'⟩
        · rw [y'] at h1; exact absurd h1 (by decide)
        · rw [y'] at h1
          left; exact ⟨by simp, by rintro ⟨⟩; exact absurd h1 (by decide), .inr (.toNull h1)⟩
  · have nonpos : ∀ t : Int, t ≤ 0 → eqType t = t := by
      intro t ht
      rcases eqType_cases t with ⟨x, y⟩ | ⟨x, y⟩
      · subst x; exact absurd ht (by decide)
      · exact y
    have hvoid : eqType TyVOID = TyVOID := by decide
    have sym : ∀ {x y : Int × Nat}, Assignable x y → Assignable (eqType x.1, x.2) (eqType y.1, y.2) ∧
        Assignable (eqType y.1, y.2) (eqType x.1, x.2) := by
      intro x y h
      cases h with
      | same => exact ⟨.same, .same⟩
      | char => exact ⟨.same, .same⟩
      | fromVoid h1 h2 => simp only [hvoid]; exact ⟨.fromVoid h1 h2, .toVoid h2 h1⟩
      | toVoid h1 h2 => simp only [hvoid]; exact ⟨.toVoid h1 h2, .fromVoid h2 h1⟩
      | fromNull h1 => simp only [hvoid, nonpos _ h1]; exact ⟨.fromNull h1, .toNull h1⟩
      | toNull h1 => simp only [hvoid, nonpos _ h1]; exact ⟨.toNull h1, .fromNull h1⟩
    rintro (⟨-, -, h | h⟩ | ⟨h1, h2⟩ | ⟨h0, h1, h | h⟩)
    · exact (sym h).2
    · exact (sym h).1
    · cases h1; cases h2; exact .same
    · obtain ⟨rfl, rfl⟩ := h; simp only at h1; subst h1; exact .same
    · obtain ⟨rfl, rfl⟩ := h; simp only at h1; subst h1; exact .same

/-- Binary operators are typed as specified. -/
theorem binW_iff {k : Nat} {op : Bin} {w w2 w' : W} (h2 : 2 ≤ k) (h11 : k ≤ 11) :
    binW k op w w2 = some w' ↔
    ∃ c, BinTy actual k (w.type, w.dim) (w2.type, w2.dim) c ∧
      w' = ⟨c.1, c.2, false, .bin op w.tree w2.tree⟩ := by
  unfold binW
  by_cases h6 : k = 6
  · subst h6
    simp only [if_true]
    have key := @chkCmpat_iff { w2 with type := eqType w2.type } (eqType w.type) w.dim
    simp only [eq_cmp (a := (w.type, w.dim)) (b := (w2.type, w2.dim))] at key
    constructor
    · intro h
      simp only [Option.map_eq_some_iff] at h
      obtain ⟨x, hx, rfl⟩ := h
      exact ⟨(TyBOOL, 0), .equal (key.1 (by rw [hx]; rfl)), rfl⟩
    · rintro ⟨c, hc, rfl⟩
      generalize hk : (6 : Nat) = k at hc
      generalize hA : (w.type, w.dim) = A at hc key
      generalize hB : (w2.type, w2.dim) = B at hc key
      cases hc with
      | arith h => omega
      | order => cases hk
      | logic h => omega
      | equal h =>
        have := key.2 h
        rw [Option.isSome_iff_exists] at this
        obtain ⟨x, hx⟩ := this
        rw [hx]; rfl
  · simp only [h6, if_false]
    by_cases h10 : k ≥ 10
    · simp only [h10, if_true]
      constructor
      · intro h
        cases hx : chkType w TyBOOL with
        | none => rw [hx] at h; cases h
        | some x =>
          cases hy : chkType w2 TyBOOL with
          | none => rw [hx, hy] at h; cases h
          | some y =>
            rw [hx, hy] at h
            obtain ⟨e1, rfl⟩ := chkType_bool hx
            obtain ⟨e2, rfl⟩ := chkType_bool hy
            refine ⟨(TyBOOL, 0), by rw [e1, e2]; exact .logic h10, ?_⟩
            cases h
            simp only [Prod.mk.injEq] at e1
            simp only [show ¬ k = 5 by omega, if_false, e1]
      · rintro ⟨c, hc, rfl⟩
        generalize hA : (w.type, w.dim) = A at hc
        generalize hB : (w2.type, w2.dim) = B at hc
        cases hc with
        | arith h => omega
        | order => omega
        | equal => omega
        | logic h =>
          rw [chkType_bool_ok hA, chkType_bool_ok hB]
          simp only [Prod.mk.injEq] at hA
          show some _ = _
          simp only [show ¬ k = 5 by omega, if_false, hA]
    · simp only [h10, if_false]
      constructor
      · intro h
        cases hx : chkType w TyINT with
        | none => rw [hx] at h; cases h
        | some x =>
          cases hy : chkType w2 TyINT with
          | none => rw [hx, hy] at h; cases h
          | some y =>
            rw [hx, hy] at h
            obtain ⟨i1, t1, d1, e1⟩ := chkType_int hx
            obtain ⟨i2, t2, d2, e2⟩ := chkType_int hy
            cases h
            by_cases h5 : k = 5
            · subst h5
              exact ⟨(TyBOOL, 0), .order i1 i2, by simp [d1, e1, e2]⟩
            · exact ⟨(TyINT, 0), .arith (by omega) i1 i2, by simp [h5, t1, d1, e1, e2]⟩
      · rintro ⟨c, hc, rfl⟩
        generalize hA : (w.type, w.dim) = A at hc
        generalize hB : (w2.type, w2.dim) = B at hc
        have fin : ∀ (_ : IntLike A) (_ : IntLike B), ∃ w1 w3, chkType w TyINT = some w1 ∧
            chkType w2 TyINT = some w3 ∧ w1.type = TyINT ∧ w1.dim = 0 ∧ w1.tree = w.tree ∧
            w3.tree = w2.tree := by
          intro i1 i2
          obtain ⟨x, hx, a1, a2, a3⟩ := chkType_int_ok (w := w) (hA ▸ i1)
          obtain ⟨y, hy, b1, b2, b3⟩ := chkType_int_ok (w := w2) (hB ▸ i2)
          exact ⟨x, y, hx, hy, a1, a2, a3, b3⟩
        cases hc with
        | arith h i1 i2 =>
          obtain ⟨x, y, hx, hy, a1, a2, a3, b3⟩ := fin i1 i2
          rw [hx, hy]
          show some _ = _
          simp [show ¬ k = 5 by omega, a1, a2, a3, b3]
        | order i1 i2 =>
          obtain ⟨x, y, hx, hy, a1, a2, a3, b3⟩ := fin i1 i2
          rw [hx, hy]
          show some _ = _
          simp [a2, a3, b3]
        | equal => omega
        | logic h => omega

/-- The arguments one after the other. -/
def argRun (T : Tab) (last : Nat) : Nat → List (Int × Nat) → Option Nat
  | i, [] => some i
  | i, t :: ts => (argOk T ⟨t.1, t.2, false, .cnst 0⟩ i last).bind fun j => argRun T last j ts

theorem argOk_w {T : Tab} {w : W} {i last : Nat} :
    argOk T w i last = argOk T ⟨w.type, w.dim, false, .cnst 0⟩ i last := by
  unfold argOk
  split
  · rfl
  · split
    · rfl
    · rename_i e he
      split
      · have h1 := @chkCmpat_iff w e.type e.dim
        have h2 := @chkCmpat_iff ⟨w.type, w.dim, false, .cnst 0⟩ e.type e.dim
        have h : (chkCmpat w e.type e.dim).isSome = (chkCmpat ⟨w.type, w.dim, false, .cnst 0⟩ e.type e.dim).isSome := by
          rw [Bool.eq_iff_iff, h1, h2]
        cases ha : chkCmpat w e.type e.dim <;>
          cases hb : chkCmpat ⟨w.type, w.dim, false, .cnst 0⟩ e.type e.dim <;> simp_all
      · rfl

theorem argRun_append {T : Tab} {last : Nat} : ∀ {ts us : List (Int × Nat)} {i : Nat},
    argRun T last i (ts ++ us) = (argRun T last i ts).bind fun j => argRun T last j us
  | [], us, i => rfl
  | t :: ts, us, i => by
    simp only [List.cons_append, argRun, Option.bind_assoc]
    congr 1
    funext j
    exact argRun_append

theorem argOk_eq {T : Tab} {t : Int × Nat} {i j last : Nat} :
    argOk T ⟨t.1, t.2, false, .cnst 0⟩ i last = some j ↔ i ≤ last ∧ ∃ e, T[i]? = some e ∧
      ((e.type ≠ TyDOTDOTDOT ∧ Assignable t (e.type, e.dim) ∧ j = i + 1) ∨
       (e.type = TyDOTDOTDOT ∧ t ≠ (TyVOID, 0) ∧ j = i)) := by
  unfold argOk
  by_cases hl : i > last
  · simp only [hl, if_true]
    constructor
    · intro h; cases h
    · rintro ⟨h, -⟩; omega
  · simp only [hl, if_false]
    cases he : T[i]? with
    | none => simp
    | some e =>
      simp only
      by_cases hd : e.type = TyDOTDOTDOT
      · simp only [hd, ne_eq, not_true, if_false]
        by_cases hv : t.1 = TyVOID ∧ t.2 = 0
        · simp only [hv]
          simp
          rintro -
          constructor
          · intro h; exact absurd hd h
          · intro _ h; exact absurd (Prod.ext hv.1 hv.2) h
        · rw [if_neg hv]
          constructor
          · intro h; cases h
            exact ⟨by omega, e, rfl, .inr ⟨hd, fun h => hv (by rw [h]; exact ⟨rfl, rfl⟩), rfl⟩⟩
          · rintro ⟨-, e', ⟨⟩, h | h⟩
            · exact absurd hd h.1
            · rw [h.2.2]
      · simp only [ne_eq, hd, not_false_iff, if_true]
        have := @chkCmpat_iff ⟨t.1, t.2, false, .cnst 0⟩ e.type e.dim
        constructor
        · intro h
          simp only [Option.map_eq_some_iff] at h
          obtain ⟨x, hx, rfl⟩ := h
          exact ⟨by omega, e, rfl, .inl ⟨hd, this.1 (by rw [hx]; rfl), rfl⟩⟩
        · rintro ⟨-, e', ⟨⟩, h | h⟩
          · obtain ⟨-, h, rfl⟩ := h
            obtain ⟨x, hx⟩ := Option.isSome_iff_exists.1 (this.2 h)
            rw [hx]; rfl
          · exact absurd h.1 hd

/-- The check of the arguments is that of the specification. -/
theorem conform_iff {T : Tab} {last : Nat} : ∀ {ts : List (Int × Nat)} {i : Nat},
    Conform T i last ts ↔ ∃ j, argRun T last i ts = some j ∧ argsEnd T j last
  | [], i => by
    simp only [argRun, Option.some.injEq, exists_eq_left', argsEnd]
    constructor
    · intro h
      cases h with
      | done h => simp; omega
      | dots h1 h2 h3 => simp [h2, h3]
    · intro h
      by_cases hl : i ≤ last
      · simp only [hl, decide_true, Bool.true_and] at h
        cases he : T[i]? with
        | none => simp [he] at h
        | some e =>
          simp [he] at h
          exact .dots hl he h (by simp)
      · exact .done (by omega)
  | t :: ts, i => by
    simp only [argRun]
    constructor
    · intro h
      cases h with
      | one h1 h2 h3 h4 h5 =>
        obtain ⟨j, hj, he⟩ := conform_iff.1 h5
        refine ⟨j, ?_, he⟩
        rw [argOk_eq.2 ⟨h1, _, h2, .inl ⟨h3, h4, rfl⟩⟩]
        exact hj
      | dots h1 h2 h3 h4 =>
        have := conform_iff.1 (Conform.dots (ts := ts) h1 h2 h3 fun t ht => h4 t (by simp [ht]))
        obtain ⟨j, hj, he⟩ := this
        refine ⟨j, ?_, he⟩
        rw [argOk_eq.2 ⟨h1, _, h2, .inr ⟨h3, h4 t (by simp), rfl⟩⟩]
        exact hj
    · rintro ⟨j, hj, he⟩
      cases ha : argOk T ⟨t.1, t.2, false, .cnst 0⟩ i last with
      | none => rw [ha] at hj; cases hj
      | some j' =>
        rw [ha] at hj
        have hc := conform_iff.2 ⟨j, hj, he⟩
        obtain ⟨h1, e, h2, ⟨h3, h4, rfl⟩ | ⟨h3, h4, rfl⟩⟩ := argOk_eq.1 ha
        · exact .one h1 h2 h3 h4 hc
        · refine .dots h1 h2 h3 fun t' ht' => ?_
          rcases List.mem_cons.1 ht' with rfl | ht'
          · exact h4
          · cases hc with
            | done h => omega
            | one _ h2' h3' => rw [h2] at h2'; cases h2'; exact absurd h3 h3'
            | dots _ _ _ h => exact h t' ht'

end Cmm.Parse
