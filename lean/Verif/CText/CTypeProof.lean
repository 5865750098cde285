import Verif.CText.CType
import Verif.Parse.Facts

/-
Proof of C77 for expressions.
-/
namespace Cmm.CText
open Cmm.Tree (Expr Stmt)
open Cmm.Parse (Tab Ent Sees Assignable IntLike Conform Field VarKind IsFun Elem manual TyVOID TyINT TyCHAR TyBOOL TyDOTDOTDOT IsBin binRows Store Conv)

section
variable {N : Nat → Text} {G : Text → Option Dcl} {M : Text → Text → Option CT} {T : Tab}

theorem cty_int : declTy N (TyINT, 0) = .int := rfl
theorem arith_int : Arith .int := ⟨rfl, .inl rfl⟩
theorem arith_char : Arith (declTy N (TyCHAR, 0)) := ⟨rfl, .inr rfl⟩
theorem arith_bool : Arith (declTy N (TyBOOL, 0)) := ⟨rfl, .inr rfl⟩

theorem IntLike.arith {t : Int × Nat} (h : IntLike t) : Arith (declTy N t) := by
  rcases h with rfl | rfl
  · exact arith_int
  · exact arith_char

theorem toTy_ref {t : Int} (h : t ≤ 0) : toTy N t = .named (N (-t).toNat) := by
  unfold toTy
  have h1 : t ≠ TyVOID := by intro e; rw [e] at h; exact absurd h (by decide)
  have h2 : t ≠ TyINT := by intro e; rw [e] at h; exact absurd h (by decide)
  have h3 : t ≠ TyBOOL := by intro e; rw [e] at h; exact absurd h (by decide)
  have h4 : t ≠ TyCHAR := by intro e; rw [e] at h; exact absurd h (by decide)
  rw [if_neg h1, if_neg h2, if_neg h3, if_neg h4]

theorem cty_ref {t : Int} (d : Nat) (h : t ≤ 0) : declTy N (t, d) = (N (-t).toNat, d + 1) := by
  unfold declTy
  rw [toTy_ref h]
  rfl

theorem cty_snd {t : Int} {d : Nat} (h : 0 < d) : Pointer (declTy N (t, d)) := by
  unfold declTy Pointer stars
  simp
  omega

theorem cty_void {d : Nat} : declTy N (TyVOID, d) = (t!"void", d) := by
  unfold declTy stars toTy
  simp [Ty.isRef, Ty.word]

/-- All types but void are scalar. -/
theorem scalar_cty {t : Int × Nat} (h : t ≠ (TyVOID, 0)) : Scalar (declTy N t) := by
  obtain ⟨t, d⟩ := t
  cases d with
  | succ d => exact .inr (cty_snd (Nat.succ_pos d))
  | zero =>
    by_cases h1 : t = TyVOID
    · exact absurd (by rw [h1]) h
    by_cases h2 : t = TyINT
    · subst h2; exact .inl arith_int
    by_cases h3 : t = TyBOOL
    · subst h3; exact .inl arith_bool
    by_cases h4 : t = TyCHAR
    · subst h4; exact .inl arith_char
    right
    unfold declTy Pointer stars toTy
    rw [if_neg h1, if_neg h2, if_neg h3, if_neg h4]
    simp [Ty.isRef]

theorem scalar_ne {t : CT} (h : Scalar t) : t ≠ (t!"void", 0) := by
  rintro rfl
  rcases h with h | h
  · rcases h.2 with h | h <;> exact absurd h (by decide +kernel)
  · exact absurd h (Nat.lt_irrefl 0)

/-- An element of type `t` in C: of this type, or both arithmetic, or the constant null. -/
def Good (N : Nat → Text) (G : Text → Option Dcl) (M : Text → Text → Option CT) (nul : Prop) (t : Int × Nat) (c : CE) : Prop :=
  ∃ u, HasTy G M c u ∧ ((Arith u ∧ Arith (declTy N t)) ∨ u = declTy N t ∨ (nul ∧ t = (TyVOID, 1) ∧ c = .num 0 ∧ u = .int))

theorem Good.mono {P Q : Prop} {t c} (h : Good N G M P t c) (i : P → Q) : Good N G M Q t c := by
  obtain ⟨u, h1, h2 | h2 | h2⟩ := h
  · exact ⟨u, h1, .inl h2⟩
  · exact ⟨u, h1, .inr (.inl h2)⟩
  · exact ⟨u, h1, .inr (.inr ⟨i h2.1, h2.2⟩)⟩

/-- The type is arithmetic. -/
theorem Good.arith {P : Prop} {t c} (h : Good N G M P t c) (a : Arith (declTy N t)) : ∃ u, HasTy G M c u ∧ Arith u := by
  obtain ⟨u, h1, h2 | h2 | h2⟩ := h
  · exact ⟨u, h1, h2.1⟩
  · exact ⟨u, h1, h2 ▸ a⟩
  · refine ⟨u, h1, ?_⟩; rw [h2.2.2.2]; exact arith_int

theorem Good.ofArith {P : Prop} {t c u} (h : HasTy G M c u) (a : Arith u) (b : Arith (declTy N t)) : Good N G M P t c := ⟨u, h, .inl ⟨a, b⟩⟩

/-- The type is a pointer. -/
theorem Good.exact {P : Prop} {t c} (h : Good N G M P t c) (a : Pointer (declTy N t)) (n : t ≠ (TyVOID, 1)) : HasTy G M c (declTy N t) := by
  obtain ⟨u, h1, h2 | h2 | h2⟩ := h
  · exact absurd a (by unfold Pointer; rw [h2.2.1]; exact Nat.lt_irrefl 0)
  · exact h2 ▸ h1
  · exact absurd h2.2.1 n

/-- No void[][]. -/
def Flat (t : Int × Nat) : Prop := t.1 = TyVOID → t.2 ≤ 1

theorem gets_of {P : Prop} {s t : Int × Nat} {c : CE} (h : Assignable s t) (hs : Flat s) (ht : Flat t) (hv : t ≠ (TyVOID, 0)) (g : Good N G M P s c) :
    ∃ u, HasTy G M c u ∧ Gets (declTy N t) c u := by
  obtain ⟨u, h1, h2⟩ := g
  refine ⟨u, h1, ?_⟩
  have sc := scalar_cty (N := N) hv
  -- the null constant
  have null : s = (TyVOID, 1) → c = .num 0 → Gets (declTy N t) c u := by
    rintro rfl rfl
    refine .inr (.inr (.inr ⟨?_, rfl⟩))
    generalize hq : ((TyVOID, 1) : Int × Nat) = q at h
    cases h with
    | same => rw [← hq, cty_void]; exact Nat.one_pos
    | char => exact absurd (congrArg Prod.snd hq) (by simp)
    | fromVoid h1 h2 => exact cty_snd h2
    | toVoid h1 h2 => exact cty_snd h2
    | fromNull h => rw [cty_ref _ h]; exact Nat.succ_pos _
    | toNull h => rw [cty_void]; exact Nat.one_pos
  cases h with
  | same =>
    rcases h2 with h2 | h2 | h2
    · exact .inl ⟨h2.2, h2.1⟩
    · exact .inr (.inl ⟨h2.symm, scalar_ne sc⟩)
    · exact null h2.2.1 h2.2.2.1
  | char =>
    rcases h2 with h2 | h2 | h2
    · exact .inl ⟨arith_int, h2.1⟩
    · exact .inl ⟨arith_int, by rw [h2]; exact arith_char⟩
    · exact absurd (congrArg Prod.snd h2.2.1) (by simp)
  | @fromVoid d t d' h3 h4 =>
    have hd : d = 1 := by have := hs rfl; simp at this; omega
    subst hd
    rcases h2 with h2 | h2 | h2
    · rw [cty_void] at h2; exact absurd h2.2.1 (by simp)
    · exact .inr (.inr (.inl ⟨cty_snd h4, by rw [h2, cty_void]; exact Nat.one_pos, .inr (by rw [h2, cty_void]; rfl)⟩))
    · exact null h2.2.1 h2.2.2.1
  | @toVoid d t d' h3 h4 =>
    have hd : d' = 1 := by have := ht rfl; simp at this; omega
    subst hd
    rcases h2 with h2 | h2 | h2
    · have hp := cty_snd (N := N) (t := t) h3
      exact absurd hp (by unfold Pointer; rw [h2.2.1]; exact Nat.lt_irrefl 0)
    · exact .inr (.inr (.inl ⟨cty_snd h4, by rw [h2]; exact cty_snd h3, .inl (by rw [cty_void]; rfl)⟩))
    · exact null h2.2.1 h2.2.2.1
  | @fromNull t d h3 =>
    rcases h2 with h2 | h2 | h2
    · rw [cty_void] at h2; exact absurd h2.2.1 (by simp)
    · exact .inr (.inr (.inl ⟨by rw [cty_ref _ h3]; exact Nat.succ_pos _, by rw [h2, cty_void]; exact Nat.one_pos, .inr (by rw [h2, cty_void]; rfl)⟩))
    · exact null h2.2.1 h2.2.2.1
  | @toNull t d h3 =>
    rcases h2 with h2 | h2 | h2
    · rw [cty_ref _ h3] at h2; exact absurd h2.2.1 (by simp)
    · exact .inr (.inr (.inl ⟨cty_snd Nat.one_pos, by rw [h2, cty_ref _ h3]; exact Nat.succ_pos _, .inl (by rw [cty_void]; rfl)⟩))
    · exact null h2.2.1 h2.2.2.1

theorem gets_equal {a b : CE} {t u : CT} (h : Gets t b u) (ha : HasTy G M a t) (hn : Scalar t) : Equal a t b u := by
  rcases h with h | h | h | h
  · exact .inl h
  · rcases hn with hn | hn
    · exact .inl ⟨hn, h.1 ▸ hn⟩
    · exact .inr (.inl ⟨h.1, hn⟩)
  · exact .inr (.inr (.inl h))
  · exact .inr (.inr (.inr (.inl h)))

theorem Equal.swap {a b : CE} {t u : CT} (h : Equal a t b u) : Equal b u a t := by
  rcases h with h | h | h | h | h
  · exact .inl h.symm
  · exact .inr (.inl ⟨h.1.symm, h.1 ▸ h.2⟩)
  · exact .inr (.inr (.inl ⟨h.2.1, h.1, h.2.2.symm⟩))
  · exact .inr (.inr (.inr (.inr ⟨h.2, h.1⟩)))
  · exact .inr (.inr (.inr (.inl ⟨h.2, h.1⟩)))

theorem equal_of {P Q : Prop} {s t : Int × Nat} {a b : CE} (h : Assignable s t) (hs : Flat s) (ht : Flat t) (hv : t ≠ (TyVOID, 0))
    (g : Good N G M P s a) (g' : Good N G M Q t b) : ∃ u w, HasTy G M a u ∧ HasTy G M b w ∧ Equal a u b w := by
  obtain ⟨u, h1, h2⟩ := gets_of h hs ht hv g
  obtain ⟨w, h3, h4 | h4 | h4⟩ := g'
  · refine ⟨u, w, h1, h3, ?_⟩
    rcases h2 with h2 | h2 | h2 | h2
    · exact .inl ⟨h2.2, h4.1⟩
    · exact .inl ⟨h2.1 ▸ h4.2, h4.1⟩
    · exact absurd h2.1 (by unfold Pointer; rw [h4.2.1]; exact Nat.lt_irrefl 0)
    · exact absurd h2.1 (by unfold Pointer; rw [h4.2.1]; exact Nat.lt_irrefl 0)
  · exact ⟨u, w, h1, h3, (gets_equal (h4 ▸ h2) h3 (h4 ▸ scalar_cty hv)).swap⟩
  · obtain ⟨-, rfl, rfl, rfl⟩ := h4
    rw [cty_void] at h2
    refine ⟨u, .int, h1, h3, ?_⟩
    rcases h2 with h2 | h2 | h2 | h2
    · exact absurd h2.1.1 (by simp)
    · exact .inr (.inr (.inr (.inl ⟨by rw [← h2.1]; exact Nat.one_pos, rfl⟩)))
    · exact .inr (.inr (.inr (.inl ⟨h2.2.1, rfl⟩)))
    · cases h2.2
      cases h1
      exact .inl ⟨arith_int, arith_int⟩

/-- The operators by their row. -/
theorem row_int {k t op} (h : IsBin k t op) (hk : k ≤ 5 ∨ 7 ≤ k ∧ k ≤ 9) : (toBi op).p ∈ intOps := by
  obtain ⟨row, h1, h2, h3⟩ := h
  have : k = 2 ∨ k = 3 ∨ k = 4 ∨ k = 5 ∨ k = 7 ∨ k = 8 ∨ k = 9 := by omega
  rcases this with rfl | rfl | rfl | rfl | rfl | rfl | rfl <;>
  · cases h1
    exact (by decide : ∀ p ∈ _, (toBi p.2).p ∈ intOps) _ h3

theorem row_equ {t op} (h : IsBin 6 t op) : (toBi op).p = .eq ∨ (toBi op).p = .ne := by
  obtain ⟨row, h1, h2, h3⟩ := h
  simp [binRows] at h1
  subst h1
  simp at h3
  rcases h3 with ⟨-, rfl⟩ | ⟨-, rfl⟩ <;> decide

theorem row_log {k t op} (h : IsBin k t op) (hk : 10 ≤ k) : (toBi op).p = .andand ∨ (toBi op).p = .barbar := by
  have hr := h.range
  obtain ⟨row, h1, h2, h3⟩ := h
  have : k = 10 ∨ k = 11 := by omega
  rcases this with rfl | rfl <;>
  · simp [binRows] at h1
    subst h1
    simp at h3
    obtain ⟨-, rfl⟩ := h3
    decide

/-- Binary operators are printed as such. -/
theorem row_tr {k t op} (h : IsBin k t op) (l r : Expr) :
    tr (toEA N (.bin op l r)).1 = .bin (toBi op).p (tr (toEA N l).1) (tr (toEA N r).1) ∧
      (toEA N (.bin op l r)).2 = .one (toEA N (.bin op l r)).1 := by
  have hr := h.range
  obtain ⟨row, h1, h2, h3⟩ := h
  have hne : op ≠ .semi ∧ op ≠ .dot ∧ op ≠ .idxr ∧ op ≠ .idxi ∧ op ≠ .idxc ∧ op ≠ .idxb := by
    have : ∀ row ∈ binRows, ∀ p ∈ row, p.2 ≠ .semi ∧ p.2 ≠ .dot ∧ p.2 ≠ .idxr ∧ p.2 ≠ .idxi ∧ p.2 ≠ .idxc ∧ p.2 ≠ .idxb := by decide
    exact this row (List.mem_of_getElem? h1) _ h3
  cases op <;> simp at hne <;> exact ⟨by simp [toEA, tr], by simp [toEA]⟩

theorem elem_tr {t op} (h : Elem t op) (a i : Expr) :
    tr (toEA N (.bin op a i)).1 = .idx (tr (toEA N a).1) (tr (toEA N i).1) ∧ (toEA N (.bin op a i)).2 = .one (toEA N (.bin op a i)).1 := by
  cases h <;> simp [toEA, toMem, tr]

/-- The tree of an assignment, and its left side. -/
theorem store_tr {R m l a el er e} (h : Parse.Ty R T m l [a] el) (hl : l.lv = true) (hs : Store el er e) :
    tr (toEA N e).1 = .bin .ass (tr (toEA N el).1) (tr (toEA N er).1) ∧ (toEA N e).2 = .one (toEA N e).1 ∧ LV (tr (toEA N el).1) := by
  generalize hq : [a] = ts at h
  induction h generalizing a with
  | @var m x n e k h1 h2 => generalize e.scope = sc at h2; cases hs; cases h2 <;> exact ⟨by simp [toEA, tr, Bi.p], by simp [toEA], by simp only [toEA, tr]; exact .id⟩
  | idx h1 h2 h3 => cases hs; cases h3 <;> exact ⟨by simp [toEA, tr, toMem, Bi.p], by simp [toEA], by simp [toEA, tr, toMem]; exact .idx⟩
  | fld h1 h2 h3 h4 => cases hs; exact ⟨by simp [toEA, tr, toMem, Bi.p], by simp [toEA], by simp [toEA, tr, toMem]; exact .mem⟩
  | par h ih => exact ih hl hs rfl
  | _ => simp [Parse.SX.lv] at hl

theorem fits_dots {ts : List (Int × Nat)} {cs : List CE} (h : List.Forall₂ (Good N G M True) ts cs) (hv : ∀ t ∈ ts, t ≠ (TyVOID, 0)) :
    Fits G M [] true (CE.ofList cs) := by
  induction h with
  | nil => exact .nil
  | cons h1 h2 ih =>
    obtain ⟨u, h3, h4⟩ := h1
    refine .dots h3 ?_ (ih fun t ht => hv t (List.mem_cons_of_mem _ ht))
    rcases h4 with h4 | h4 | h4
    · exact scalar_ne (.inl h4.1)
    · exact h4 ▸ scalar_ne (scalar_cty (hv _ (List.mem_cons_self ..)))
    · rw [h4.2.2.2]; exact scalar_ne (.inl arith_int)

/-- The parameters from `i` to `last`. -/
theorem fits_of {i last : Nat} {ts : List (Int × Nat)} (h : Conform T i last ts) {cs : List CE} (hc : List.Forall₂ (Good N G M True) ts cs)
    (hf : ∀ t ∈ ts, Flat t) (nv : NoVoids T) (hp : ∀ d ∈ (T.drop i).take (last + 1 - i), (d.type, d.dim) ≠ (TyVOID, 0)) :
    Fits G M ((((T.drop i).take (last + 1 - i)).takeWhile (fun e => e.type ≠ TyDOTDOTDOT)).map fun e => declTy N (e.type, e.dim))
      (((T.drop i).take (last + 1 - i)).any fun e => e.type = TyDOTDOTDOT) (CE.ofList cs) := by
  induction h generalizing cs with
  | @done i last h =>
    cases hc
    rw [show last + 1 - i = 0 by omega]
    exact .nil
  | @one i last e t ts h1 h2 h3 h4 h5 ih =>
    have hd : (T.drop i).take (last + 1 - i) = e :: (T.drop (i + 1)).take (last + 1 - (i + 1)) := by
      obtain ⟨hi, he⟩ := List.getElem?_eq_some_iff.1 h2
      rw [List.drop_eq_getElem_cons hi, he, show last + 1 - i = (last + 1 - (i + 1)) + 1 by omega, List.take_succ_cons]
    rw [hd] at hp ⊢
    cases hc with
    | cons hc1 hc2 =>
      obtain ⟨u, g1, g2⟩ := gets_of h4 (hf _ (List.mem_cons_self ..)) (nv e (List.mem_of_getElem? h2)) (hp e (List.mem_cons_self ..)) hc1
      have := ih hc2 (fun t ht => hf t (List.mem_cons_of_mem _ ht)) (fun d hd => hp d (List.mem_cons_of_mem _ hd))
      rw [List.takeWhile_cons_of_pos (by simpa using h3), List.any_cons]
      simp only [decide_eq_false h3, Bool.false_or, List.map_cons]
      exact .cons g1 g2 this
  | @dots i last e ts h1 h2 h3 h4 =>
    have hd : (T.drop i).take (last + 1 - i) = e :: (T.drop (i + 1)).take (last + 1 - (i + 1)) := by
      obtain ⟨hi, he⟩ := List.getElem?_eq_some_iff.1 h2
      rw [List.drop_eq_getElem_cons hi, he, show last + 1 - i = (last + 1 - (i + 1)) + 1 by omega, List.take_succ_cons]
    rw [hd, List.takeWhile_cons_of_neg (by simpa using h3), List.any_cons]
    simp only [decide_eq_true h3, Bool.true_or, List.map_nil]
    exact fits_dots hc h4

theorem Sees.mem {x n e} (h : Sees T x n e) : e ∈ T := List.mem_of_getElem? h.1

/-- What is shown of an expression. -/
def Shown (N : Nat → Text) (G : Text → Option Dcl) (M : Text → Text → Option CT) (x : Parse.SX) (ts : List (Int × Nat)) (e : Expr) : Prop :=
  ts ≠ [] ∧ (∀ t, ts = [t] → Good N G M (bare x = Parse.SX.nul) t (tr (toEA N e).1) ∧ (toEA N e).2 = .one (toEA N e).1) ∧ List.Forall₂ (Good N G M True) ts (trA (toEA N e).2) ∧
    ∀ t ∈ ts, Flat t

theorem Shown.of {x t e} (h : Good N G M (bare x = Parse.SX.nul) t (tr (toEA N e).1)) (h1 : (toEA N e).2 = .one (toEA N e).1) (hf : Flat t) :
    Shown N G M x [t] e := by
  refine ⟨by simp, ?_, ?_, by simpa using hf⟩
  · rintro s hs; cases hs; exact ⟨h, h1⟩
  · rw [h1, trA]; exact .cons (h.mono fun _ => trivial) .nil

theorem Shown.exact {x t e} (h : HasTy G M (tr (toEA N e).1) (declTy N t)) (h1 : (toEA N e).2 = .one (toEA N e).1) (hf : Flat t) :
    Shown N G M x [t] e := .of ⟨_, h, .inr (.inl rfl)⟩ h1 hf

theorem Shown.ofArith {x t e u} (h : HasTy G M (tr (toEA N e).1) u) (a : Arith u) (b : Arith (declTy N t)) (h1 : (toEA N e).2 = .one (toEA N e).1) (hf : Flat t) :
    Shown N G M x [t] e := .of (.ofArith h a b) h1 hf

theorem Shown.good {x t e} (h : Shown N G M x [t] e) : Good N G M (bare x = Parse.SX.nul) t (tr (toEA N e).1) := (h.2.1 t rfl).1
theorem Shown.one {x t e} (h : Shown N G M x [t] e) : (toEA N e).2 = .one (toEA N e).1 := (h.2.1 t rfl).2
theorem Shown.flat {x t e} (h : Shown N G M x [t] e) : Flat t := h.2.2.2 t (List.mem_singleton_self t)

theorem flat0 {t : Int} : Flat (t, 0) := fun _ => Nat.zero_le _

theorem hasTy_cnst (v : Int) : HasTy G M (tr (.cnst v)) .int := by
  rw [tr]
  split
  · exact .un (.inl rfl) .num arith_int
  · exact .num

theorem shown (D : DeclsOk N G M T) (nv : NoVoids T) (V : NotVoid T) {m x ts e} (h : Parse.Ty manual T m x ts e) (hn : NoNull x) : Shown N G M x ts e := by
  induction h with
  | int => exact .ofArith (hasTy_cnst _) arith_int arith_int rfl flat0
  | chr => exact .ofArith (hasTy_cnst _) arith_int arith_char rfl flat0
  | log => exact .ofArith (hasTy_cnst _) arith_int arith_bool rfl flat0
  | str => exact .exact (.id (D.str _)) rfl (by intro h; exact absurd h (by decide))
  | nul => exact .of ⟨.int, .num, .inr (.inr ⟨rfl, rfl, rfl, rfl⟩)⟩ rfl (fun _ => Nat.le_refl 1)
  | sizeof h1 h2 => exact .ofArith (hasTy_cnst _) arith_int arith_int rfl flat0
  | addrof h1 h2 =>
    refine .ofArith ?_ arith_int arith_int rfl flat0
    rcases h2 with h2 | h2
    · exact .addr (D.fn _ _ _ h1 h2)
    · exact .addr (D.var _ _ _ _ h1 h2 nofun)
  | @var m x n e k h1 h2 =>
    have := D.var _ _ _ _ h1 h2 fun _ => hn
    generalize e.scope = sc at h2
    cases h2 <;> exact .exact (.id this) rfl (nv e (Sees.mem h1))
  | @call0 m f n e h1 h2 h3 h4 =>
    refine .exact (.call (D.fn _ _ _ h1 h2) ?_) rfl (nv e (Sees.mem h1))
    have := fits_of (N := N) (G := G) (M := M) h4 .nil (by simp) nv (by rw [show n + e.cnt + 1 - (n + 1) = e.cnt by omega]; exact V.prm _ _ _ h1 h2)
    rw [show n + e.cnt + 1 - (n + 1) = e.cnt by omega] at this
    exact this
  | @call m f n e a ts ea h1 h2 h3 h4 h5 ih =>
    have ih := ih hn
    refine .exact (.call (D.fn _ _ _ h1 h2) ?_) rfl (nv e (Sees.mem h1))
    have := fits_of (N := N) (G := G) (M := M) h5 ih.2.2.1 ih.2.2.2 nv
      (by rw [show n + e.cnt + 1 - (n + 1) = e.cnt by omega]; exact V.prm _ _ _ h1 h2)
    rw [show n + e.cnt + 1 - (n + 1) = e.cnt by omega] at this
    exact this
  | @args m l ts el r t er h1 h2 ih1 ih2 =>
    have i1 := ih1 hn.1
    have i2 := ih2 hn.2
    refine ⟨by simp, ?_, ?_, ?_⟩
    · intro s hs
      have := congrArg List.length hs
      simp at this
      exact absurd this i1.1
    · simp only [toEA, trA]
      exact List.rel_append i1.2.2.1 i2.2.2.1
    · intro t ht
      rcases List.mem_append.1 ht with ht | ht
      · exact i1.2.2.2 t ht
      · exact i2.2.2.2 t ht
  | par h ih => exact ih hn
  | @conv m k s t t' f e h1 h2 ih =>
    have g := (ih hn).good
    cases h1 with
    | ordC =>
      obtain ⟨u, h3, h4⟩ := g.arith arith_char
      exact .ofArith h3 h4 arith_int (ih hn).one flat0
    | ordB =>
      obtain ⟨u, h3, h4⟩ := g.arith arith_bool
      exact .ofArith h3 h4 arith_int (ih hn).one flat0
    | chr =>
      obtain ⟨u, h3, h4⟩ := g.arith arith_int
      exact .ofArith (u := .int) (.bin (by decide) .num h3 arith_int h4) arith_int arith_char rfl flat0
    | bool =>
      obtain ⟨u, h3, h4⟩ := g.arith arith_int
      exact .ofArith (u := .int) (.bin (by decide) .num h3 arith_int h4) arith_int arith_bool rfl flat0
  | @idx m a t d ea i ei op h1 h2 h3 ih1 ih2 =>
    have i1 := ih1 hn.1
    have i2 := ih2 hn.2
    have e := elem_tr (N := N) h3 ea ei
    obtain ⟨w, h4, h5⟩ := i2.good.arith arith_int
    have hv : (t, d + 1) ≠ (TyVOID, 1) := by
      intro hq
      cases hq
      generalize hq : ((TyVOID, 0) : Int × Nat) = q at h3
      cases h3 with
      | ref h => cases hq; exact absurd h (by decide)
      | _ => exact absurd hq (by decide)
    have h6 := i1.good.exact (cty_snd (Nat.succ_pos d)) hv
    have hc : declTy N (t, d + 1) = ((declTy N (t, d)).1, (declTy N (t, d)).2 + 1) := by
      unfold declTy stars; simp; omega
    rw [hc] at h6
    refine .exact ?_ e.2 ?_
    · rw [e.1]
      refine HasTy.idx h6 h4 h5 ?_
      cases h3 with
      | ref h =>
        left
        rcases h with h | h
        · exact cty_snd h
        · show 0 < (declTy N (t, d)).2
          rw [cty_ref _ h]; exact Nat.succ_pos _
      | int => exact .inr arith_int
      | char => exact .inr arith_char
      | bool => exact .inr arith_bool
    · intro hq; have := i1.flat hq; simp at this ⊢; omega
  | @fld m a i d f n e ea h1 h2 h3 h4 ih =>
    have i1 := ih hn
    have hi : -(i : Int) ≤ 0 := by omega
    have h6 := i1.good.exact (by rw [cty_ref _ hi]; exact Nat.succ_pos _) (by intro hq; have := congrArg Prod.fst hq; rw [show TyVOID = 1 from rfl] at this; simp at this; omega)
    have h7 := D.mem i d f n e h2 h3 h4
    rw [cty_ref _ hi] at h6 h7
    refine .exact ?_ (by simp [toEA]) (nv e (List.mem_of_getElem? h4.2.1))
    simp only [toEA, toMem, fldName, tr]
    exact .mem h6 h7
  | @pre m k s t t' f e h1 h2 ih =>
    have i1 := ih hn
    cases h1 with
    | plus h =>
      obtain ⟨u, h3, h4⟩ := i1.good.arith (IntLike.arith h)
      exact .ofArith h3 h4 arith_int i1.one flat0
    | minus h =>
      obtain ⟨u, h3, h4⟩ := i1.good.arith (IntLike.arith h)
      exact .ofArith (u := .int) (.un (.inl rfl) h3 h4) arith_int arith_int rfl flat0
    | tilde h =>
      obtain ⟨u, h3, h4⟩ := i1.good.arith (IntLike.arith h)
      exact .ofArith (u := .int) (.un (.inr rfl) h3 h4) arith_int arith_int rfl flat0
    | excl =>
      obtain ⟨u, h3, h4⟩ := i1.good.arith arith_bool
      exact .ofArith (u := .int) (.not h3 (.inl h4)) arith_int arith_bool rfl flat0
  | @bin m k tok op l a el r b er c h1 h2 h3 h4 ih1 ih2 =>
    have i1 := ih1 hn.1
    have i2 := ih2 hn.2
    have e := row_tr (N := N) h1 el er
    cases h2 with
    | arith hk ha hb =>
      obtain ⟨u, h5, h6⟩ := i1.good.arith (IntLike.arith ha)
      obtain ⟨w, h7, h8⟩ := i2.good.arith (IntLike.arith hb)
      refine .ofArith (u := .int) ?_ arith_int arith_int e.2 flat0
      rw [e.1]
      exact .bin (row_int h1 (by omega)) h5 h7 h6 h8
    | order ha hb =>
      obtain ⟨u, h5, h6⟩ := i1.good.arith (IntLike.arith ha)
      obtain ⟨w, h7, h8⟩ := i2.good.arith (IntLike.arith hb)
      refine .ofArith (u := .int) ?_ arith_int arith_bool e.2 flat0
      rw [e.1]
      exact .bin (row_int h1 (by omega)) h5 h7 h6 h8
    | equal hc =>
      refine .ofArith (u := .int) ?_ arith_int arith_bool e.2 flat0
      rw [e.1]
      obtain ⟨ha, hb, hc | hc⟩ := hc
      · obtain ⟨u, w, h5, h6, h7⟩ := equal_of hc i1.flat i2.flat hb i1.good i2.good
        exact .equ (row_equ h1) h5 h6 h7
      · obtain ⟨u, w, h5, h6, h7⟩ := equal_of hc i2.flat i1.flat ha i2.good i1.good
        exact .equ (row_equ h1) h6 h5 h7.swap
    | logic hk =>
      obtain ⟨u, h5, h6⟩ := i1.good.arith arith_bool
      obtain ⟨w, h7, h8⟩ := i2.good.arith arith_bool
      refine .ofArith (u := .int) ?_ arith_int arith_bool e.2 flat0
      rw [e.1]
      exact .log (row_log h1 hk) h5 h7 (.inl h6) (.inl h8)
  | @ass m l a el r b er e h1 h2 h3 h4 h5 ih1 ih2 =>
    have i1 := ih1 hn.1
    have i2 := ih2 hn.2
    obtain ⟨e1, e2, e3⟩ := store_tr (N := N) h1 h2 h5
    have hv : a ≠ (TyVOID, 0) := by
      clear ih1 ih2 i1 i2 e1 e2 e3 h3 h4 h5 hn
      generalize hq : [a] = ts at h1
      induction h1 with
      | var h6 h7 => cases hq; exact V.var _ (Sees.mem h6) _ h7
      | idx h6 h7 h8 =>
        cases hq
        intro hq
        rw [hq] at h8
        generalize hq : ((TyVOID, 0) : Int × Nat) = q at h8
        cases h8 with
        | ref h => cases hq; exact absurd h (by decide)
        | _ => exact absurd hq (by decide)
      | fld h6 h7 h8 h9 => cases hq; exact V.fld _ _ _ _ _ h7 h8 h9
      | par h ih => exact ih h2 hq
      | _ => simp [Parse.SX.lv] at h2
    obtain ⟨u, h6, h7⟩ := i1.good
    have h7 : (Arith u ∧ Arith (declTy N a)) ∨ u = declTy N a := by
      rcases h7 with h7 | h7 | h7
      · exact .inl h7
      · exact .inr h7
      · rw [h7.2.2.1] at e3; cases e3
    obtain ⟨w, h8, h9⟩ := gets_of h4 i2.flat i1.flat hv i2.good
    have h10 : Gets u (tr (toEA N er).1) w := by
      rcases h7 with h7 | h7
      · rcases h9 with h9 | h9 | h9 | h9
        · exact .inl ⟨h7.1, h9.2⟩
        · exact .inl ⟨h7.1, h9.1 ▸ h7.2⟩
        · exact absurd h9.1 (by unfold Pointer; rw [h7.2.1]; exact Nat.lt_irrefl 0)
        · exact absurd h9.1 (by unfold Pointer; rw [h7.2.1]; exact Nat.lt_irrefl 0)
      · rw [h7]; exact h9
    refine .of ⟨u, ?_, ?_⟩ e2 i1.flat
    · rw [e1]; exact .ass e3 h6 h8 h10
    · rcases h7 with h7 | h7
      · exact .inl h7
      · exact .inr (.inl h7)
  | @com m l a el r b er h1 h2 ih1 ih2 =>
    have i1 := ih1 hn.1
    have i2 := ih2 hn.2.1
    obtain ⟨u, h3, -⟩ := i1.good
    obtain ⟨w, h4, h5⟩ := i2.good
    refine .of ⟨w, HasTy.com h3 h4, ?_⟩ rfl i2.flat
    rcases h5 with h5 | h5 | h5
    · exact .inl h5
    · exact .inr (.inl h5)
    · exact absurd h5.1 hn.2.2

end
end Cmm.CText
