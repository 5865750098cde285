import Verif.CText.UnitTwin

/-
C78: declarations one by one.
-/
namespace Cmm.CText
open Cmm.Parse (Tab Ent Spot Sees Field VarKind IsFun IsGlob Prms Sig Fresh Earlier Again AsBefore GVar GVars Flds Lines Thing Valued TypeTok nowFun keep TyVOID
  TyINT TyCHAR TyBOOL TyINTR TySTRUC TyDOTDOTDOT ScLVAR ScPRM ScVOID ScFUNC ScPROT ScCOMM ScGVAR ScSTRC ScFLD)

variable {T T' : Tab} {U U' : CUnit} {N N' : Nat → Text}

/-- The names agree with the table. -/
def Agree (N : Nat → Text) (T : Tab) : Prop := ∀ i, i < T.length → N i = tabNames T i

theorem Agree.left {l : Tab} : Agree (tabNames (T ++ l)) T := fun _ h => tabNames_left h

theorem known_of (h : FInv U T) {ty : Int} {d : Nat} (ht : TyOk T ty) (hN : Agree N T) : U.Known (declTy N (ty, d)) := by
  rw [declTy_congr ht hN]
  rcases ht with ht | ⟨i, e, rfl, h1, h2⟩
  · left
    simp only [List.mem_cons, List.not_mem_nil, or_false] at ht
    rcases ht with rfl | rfl | rfl | rfl
    · exact .tail _ (.tail _ (.head _))
    · exact .head _
    · exact .tail _ (.head _)
    · exact .tail _ (.head _)
  · right
    rw [h.types]
    refine ⟨e, List.mem_of_getElem? h1, h2, ?_⟩
    simp only [declTy, toTy]
    rw [if_neg (by simp only [TyVOID]; omega), if_neg (by simp only [TyINT]; omega), if_neg (by simp only [TyBOOL]; omega),
      if_neg (by simp only [TyCHAR]; omega), show (- -(i : Int)).toNat = i by omega]
    simp [Ty.word, tabNames, h1]

theorem scalar_of {ty : Int} {d : Nat} (ht : TyOk T ty) (hv : (ty, d) ≠ (TyVOID, 0)) : Scalar (declTy N (ty, d)) := by
  rcases Nat.eq_zero_or_pos d with rfl | hd
  · rcases ht with ht | ⟨i, e, rfl, h1, h2⟩
    · simp only [List.mem_cons, List.not_mem_nil, or_false] at ht
      rcases ht with rfl | rfl | rfl | rfl
      · exact absurd rfl hv
      · exact .inl ⟨rfl, .inl rfl⟩
      · exact .inl ⟨rfl, .inr rfl⟩
      · exact .inl ⟨rfl, .inr rfl⟩
    · right
      simp only [Pointer, declTy, toTy]
      rw [if_neg (by simp only [TyVOID]; omega), if_neg (by simp only [TyINT]; omega), if_neg (by simp only [TyBOOL]; omega),
        if_neg (by simp only [TyCHAR]; omega)]
      simp [stars, Ty.isRef]
  · right
    show 0 < stars _ _ _
    simp only [stars, Bool.false_eq_true, if_false]
    omega

/-- Nothing is called like a type. -/
theorem fresh_type (h : FInv U T) {sc : Int} {x : String} {l : Tab} (hf : Fresh (T ++ l) sc x) : U.K x.toList = false := by
  rw [Bool.eq_false_iff]
  intro hk
  obtain ⟨e, h1, h2, h3⟩ := (h.types _).1 hk
  exact (hf.2 e (by simp [h1]) (String.toList_injective h3) (by rw [h2]; decide)).2.1 h2

theorem unknown_of (h : FInv U T) {x : String} (hx : ∀ d ∈ T, IsGlob d → d.name ≠ x) (hp : ∀ l, x.toList ≠ strLab l) : U.G x.toList = none := by
  cases hg : U.G x.toList with
  | none => rfl
  | some d =>
    rcases h.known _ d hg with ⟨l, h1⟩ | ⟨e, h1, h2, h3⟩
    · exact absurd h1 (hp l)
    · exact absurd (String.toList_injective h3) (hx e h1 h2)

/-! ### Parameters -/

/-- A parameter of a function behind the table `T`. -/
def ParTy (T : Tab) (e : Ent) : Prop :=
  e.scope = ScPRM ∧ e.type ≠ TySTRUC ∧ (e.type, e.dim) ≠ (TyVOID, 0) ∧ (e.type ≠ TyDOTDOTDOT → TyOk T e.type) ∧
    ∀ d ∈ T, d.scope = ScSTRC → d.name ≠ e.name

theorem prms_full {old : Option Nat} {p p' : Spot} {ts : List Parse.Tok} (h : Prms old p ts p') (hp : ∃ l0, p.tab = T ++ l0 ∧ ∀ e ∈ l0, e.scope ≠ ScSTRC) :
    ∃ l, p'.tab = p.tab ++ l ∧ (∀ e ∈ l, ParTy T e) ∧
      ∀ i, old = some i → ∀ (n : Nat) e, l[n]? = some e → ∃ d, p'.tab[i + 1 + p.cnt + n]? = some d ∧ d.type = e.type ∧ d.dim = e.dim := by
  have nos : ∀ {T' : Tab} {x : String}, Fresh T' ScPRM x → ∀ d ∈ T', d.scope = ScSTRC → d.name ≠ x := by
    intro T' x hf d hd hs hn
    exact (hf.2 d hd hn (by rw [hs]; decide)).2.1 hs
  have ok : ∀ {p : Spot} {k : Parse.Tok} {ty : Int} {dim : Nat} {x : String}, (∃ l0, p.tab = T ++ l0 ∧ ∀ e ∈ l0, e.scope ≠ ScSTRC) → TypeTok p.tab k ty →
      Valued (ty, dim) → Fresh p.tab ScPRM x → ParTy T ⟨x, ScPRM, ty, dim, p.cnt, false⟩ := by
    rintro p k ty dim x ⟨l0, h1, h2⟩ ht hv hf
    rw [h1] at ht hf
    have h3 := tyOk_of ht hv.1 h2
    exact ⟨rfl, h3.not.1, hv.2, fun _ => h3, fun d hd hs => nos hf d (by simp [hd]) hs⟩
  induction h with
  | none => exact ⟨[], by simp, nofun, by intro i _ n e he; simp at he⟩
  | @dots p ha hf =>
    refine ⟨[_], rfl, fun e he => ?_, ?_⟩
    · rw [List.mem_singleton.1 he]
      obtain ⟨l0, h1, -⟩ := hp
      rw [h1] at hf
      exact ⟨rfl, by show TyDOTDOTDOT ≠ TySTRUC; decide, by show (TyDOTDOTDOT, 0) ≠ _; decide, fun hq => absurd rfl hq, fun d hd hs => nos hf d (by simp [hd]) hs⟩
    · intro i hi n e he
      cases n with
      | succ n => simp at he
      | zero =>
        simp only [List.getElem?_cons_zero, Option.some.injEq] at he
        subst he
        obtain ⟨d, h1, h2, h3⟩ := ha i hi
        exact ⟨d, by show (p.tab ++ _)[i + 1 + p.cnt]? = _; rw [List.getElem?_append_left (List.getElem?_eq_some_iff.1 h1).1]; exact h1, h2, h3⟩
  | @last p k ty dim x ht hv ha hf =>
    refine ⟨[_], rfl, fun e he => by rw [List.mem_singleton.1 he]; exact ok hp ht hv hf, ?_⟩
    intro i hi n e he
    cases n with
    | succ n => simp at he
    | zero =>
      simp only [List.getElem?_cons_zero, Option.some.injEq] at he
      subst he
      obtain ⟨d, h1, h2, h3⟩ := ha i hi
      exact ⟨d, by show (p.tab ++ _)[i + 1 + p.cnt]? = _; rw [List.getElem?_append_left (List.getElem?_eq_some_iff.1 h1).1]; exact h1, h2, h3⟩
  | @more p k ty dim x us p' ht hv ha hf _ ih =>
    obtain ⟨l0, h1, h2⟩ := hp
    obtain ⟨l, e1, e2, e3⟩ := ih ⟨l0 ++ [⟨x, ScPRM, ty, dim, p.cnt, false⟩], by simp [Spot.enter, h1], by
      intro e he
      rcases List.mem_append.1 he with he | he
      · exact h2 e he
      · rw [List.mem_singleton.1 he]; show ScPRM ≠ ScSTRC; decide⟩
    refine ⟨⟨x, ScPRM, ty, dim, p.cnt, false⟩ :: l, by rw [e1]; simp [Spot.enter], fun e he => ?_, ?_⟩
    · rcases List.mem_cons.1 he with rfl | he
      · exact ok ⟨l0, h1, h2⟩ ht hv hf
      · exact e2 e he
    · intro i hi n e he
      cases n with
      | zero =>
        simp only [List.getElem?_cons_zero, Option.some.injEq] at he
        subst he
        obtain ⟨d, g1, g2, g3⟩ := ha i hi
        refine ⟨d, ?_, g2, g3⟩
        rw [e1]
        show ((p.tab ++ [_]) ++ l)[i + 1 + p.cnt]? = _
        rw [List.append_assoc, List.getElem?_append_left (List.getElem?_eq_some_iff.1 g1).1]
        exact g1
      | succ n =>
        obtain ⟨d, g1, g2⟩ := e3 i hi n e he
        exact ⟨d, by rw [← g1]; congr 1; show i + 1 + p.cnt + (n + 1) = i + 1 + (p.cnt + 1) + n; omega, g2⟩

/-! ### Heads of functions -/

theorem head_dcl {ty : Int} {dim : Nat} {pub : Bool} {x : String} {prm : Tab} {b : Option VS} :
    (trHead (toFn N ty dim pub x prm b)).dcl = dclOf N ty dim prm := by
  have hd := dcl_eq (N := N) prm
  simp [trHead, toFn, CHead.dcl, dclOf, Function.comp_def, declTy] at hd ⊢
  simpa [declTy] using hd

theorem head_ok (h : FInv U T) (hN : Agree N T) {ty : Int} {dim : Nat} {pub : Bool} {x : String} {prm : Tab} {b : Option VS} (ht : TyOk T ty)
    (hp : ∀ e ∈ prm, ParTy T e) (hd : prm.Pairwise fun a b => a.name ≠ b.name) : U.HeadOk (trHead (toFn N ty dim pub x prm b)) where
  ret := by
    refine ⟨(toTy N ty).word, rfl, known_of h ht hN, ?_⟩
    by_cases hv : (ty, dim) = (TyVOID, 0)
    · cases hv; exact .inl rfl
    · exact .inr (scalar_of ht hv)
  par := by
    intro p hq
    simp only [trHead, toFn, List.map_map] at hq
    obtain ⟨e, h1, h2⟩ := List.mem_map.1 hq
    have hdt : e.type ≠ TyDOTDOTDOT := by
      intro hd
      rw [Function.comp_apply, toPar_none hd] at h2; cases h2
    rw [Function.comp_apply, toPar_some hdt] at h2
    cases h2
    obtain ⟨g1, g2, g3, g4, g5⟩ := hp e h1
    refine ⟨_, rfl, known_of h (g4 hdt) hN, scalar_of (g4 hdt) g3, ?_⟩
    rw [Bool.eq_false_iff]
    intro hk
    obtain ⟨d, k1, k2, k3⟩ := (h.types _).1 hk
    exact g5 d k1 k2 (String.toList_injective k3)
  dif := by
    simp only [trHead, toFn, List.map_map]
    rw [List.filterMap_map, List.pairwise_filterMap]
    refine hd.imp ?_
    intro a b hab p hp q hq heq
    simp only [Function.comp_apply, id_eq] at hp hq
    rw [toPar_name hp, toPar_name hq] at heq
    exact hab (String.toList_injective heq)

/-- The function at `i` is the one that was declared. -/
theorem FInv.fn_at (h : FInv U T) {i : Nat} {d : Ent} (hi : T[i]? = some d) (hf : IsFun d.scope) :
    U.G d.name.toList = some (dclOf (tabNames T) d.type d.dim ((T.drop (i + 1)).take d.cnt)) := by
  have h1 := h.inv.dcl.fn d.name i d (h.sees hi (IsFun.glob hf)) hf
  rw [show tabNames T i = d.name.toList by simp [tabNames, hi]] at h1
  exact h1

theorem FInv.var_at (h : FInv U T) {i : Nat} {d : Ent} (hi : T[i]? = some d) (hf : d.scope = ScCOMM ∨ d.scope = ScGVAR) :
    U.G d.name.toList = some (.obj (declTy (tabNames T) (d.type, d.dim))) := by
  have hg : IsGlob d := .inr (.inr hf)
  have h1 := h.inv.dcl.var d.name i d .glb (h.sees hi hg) (by rcases hf with hf | hf <;> rw [hf] <;> constructor) nofun
  rw [show tabNames T i = d.name.toList by simp [tabNames, hi]] at h1
  exact h1

theorem CUnit.name_same {st : Bool} {x : Text} {d : Dcl} (h1 : U.G x = some d) (h2 : U.S x = some st) : U.name st x d false = U := by
  cases U with
  | mk G S M K F =>
  simp only [CUnit.name, CUnit.mk.injEq, Bool.or_false, ite_self, and_true, true_and] at h1 h2 ⊢
  refine ⟨funext fun y => ?_, funext fun y => ?_⟩
  · simp only [Gam.set]
    split
    · next h => rw [h, h1]
    · rfl
  · split
    · next h => rw [h, h2]
    · rfl

theorem CUnit.name_G {st b : Bool} {x : Text} {d : Dcl} (h1 : U.G x = some d) (h2 : U.S x = some st) :
    (U.name st x d b).G = U.G ∧ (U.name st x d b).S = U.S := by
  constructor
  · funext y
    simp only [CUnit.name, Gam.set]
    split
    · next h => rw [h, h1]
    · rfl
  · funext y
    simp only [CUnit.name]
    split
    · next h => rw [h, h2]
    · rfl

end Cmm.CText
