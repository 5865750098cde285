import Verif.CText.UnitAdd

/-
C78: an earlier declaration becomes a definition, and the parameters of functions.
-/
namespace Cmm.CText
open Cmm.Parse (Tab Ent Spot Sees Field VarKind IsFun IsGlob Prms Sig Fresh Earlier AsBefore Valued TypeTok nowFun TyVOID TyINT TyCHAR TyBOOL TyINTR TySTRUC
  TyDOTDOTDOT ScLVAR ScPRM ScVOID ScFUNC ScPROT ScCOMM ScGVAR ScSTRC)

variable {T T' : Tab} {U U' : CUnit} {N N' : Nat → Text}

/-! ### Tables that differ in the scope only -/

def Ent.sg (e : Ent) : String × Int × Nat × Nat × Bool := (e.name, e.type, e.dim, e.cnt, e.pub)

/-- The entries but for the difference of declarations and definitions. -/
def Twin (a b : Ent) : Prop :=
  Ent.sg a = Ent.sg b ∧ (a.scope = b.scope ∨ (a.scope = ScPROT ∧ b.scope = ScFUNC) ∨ (a.scope = ScCOMM ∧ b.scope = ScGVAR))

theorem Twin.name {a b : Ent} (h : Twin a b) : a.name = b.name ∧ a.type = b.type ∧ a.dim = b.dim ∧ a.cnt = b.cnt ∧ a.pub = b.pub := by
  have := h.1
  simp only [Ent.sg, Prod.mk.injEq] at this
  exact ⟨this.1, this.2.1, this.2.2.1, this.2.2.2.1, this.2.2.2.2⟩

theorem Twin.fun_iff {a b : Ent} (h : Twin a b) : IsFun a.scope ↔ IsFun b.scope := by
  unfold IsFun
  rcases h.2 with h | ⟨h, h'⟩ | ⟨h, h'⟩
  · rw [h]
  · rw [h, h']; decide
  · rw [h, h']; decide

theorem Twin.glob_iff {a b : Ent} (h : Twin a b) : IsGlob a ↔ IsGlob b := by
  unfold IsGlob
  rcases h.2 with h | ⟨h, h'⟩ | ⟨h, h'⟩
  · rw [h]
  · rw [h, h']; decide
  · rw [h, h']; decide

theorem Twin.low_iff {a b : Ent} (h : Twin a b) : (a.scope < 0 ↔ b.scope < 0) ∧ (a.scope = ScVOID ↔ b.scope = ScVOID) ∧ (a.scope = ScSTRC ↔ b.scope = ScSTRC) := by
  rcases h.2 with h | ⟨h, h'⟩ | ⟨h, h'⟩
  · rw [h]; simp
  · rw [h, h']; decide
  · rw [h, h']; decide

theorem Twin.var {a b : Ent} (h : Twin a b) {k} (hk : VarKind b.scope k) : VarKind a.scope k := by
  rcases h.2 with h | ⟨h, h'⟩ | ⟨h, h'⟩
  · rw [h]; exact hk
  · rw [h'] at hk
    generalize hq : ScFUNC = s at hk
    cases hk <;> exact absurd hq (by decide)
  · rw [h'] at hk
    generalize hq : ScGVAR = s at hk
    cases hk with
    | gvar => rw [h]; exact .comm
    | _ => exact absurd hq (by decide)

def Twins (T T' : Tab) : Prop := List.Forall₂ Twin T T'

theorem Twins.to {n : Nat} {e : Ent} (h : Twins T T') (he : T[n]? = some e) : ∃ e', T'[n]? = some e' ∧ Twin e e' := by
  induction h generalizing n with
  | nil => simp at he
  | cons h1 _ ih =>
    cases n with
    | zero => simp only [List.getElem?_cons_zero, Option.some.injEq] at he; subst he; exact ⟨_, rfl, h1⟩
    | succ n => exact ih he

theorem Twins.from {n : Nat} {e : Ent} (h : Twins T T') (he : T'[n]? = some e) : ∃ e', T[n]? = some e' ∧ Twin e' e := by
  induction h generalizing n with
  | nil => simp at he
  | cons h1 _ ih =>
    cases n with
    | zero => simp only [List.getElem?_cons_zero, Option.some.injEq] at he; subst he; exact ⟨_, rfl, h1⟩
    | succ n => exact ih he

theorem Twins.sg (h : Twins T T') : T.map Ent.sg = T'.map Ent.sg := by
  induction h with
  | nil => rfl
  | cons h1 _ ih => rw [List.map_cons, List.map_cons, h1.1, ih]

theorem Twins.len (h : Twins T T') : T.length = T'.length := List.Forall₂.length_eq h

theorem Twins.refl (T : Tab) : Twins T T := by
  induction T with
  | nil => exact .nil
  | cons a T ih => exact .cons ⟨rfl, .inl rfl⟩ ih

theorem Twins.region (h : Twins T T') (n c : Nat) : ((T.drop n).take c).map Ent.sg = ((T'.drop n).take c).map Ent.sg := by
  rw [List.map_take, List.map_drop, h.sg, ← List.map_drop, ← List.map_take]

/-- Types in the order of the list. -/
def tysOf (l : Tab) : List (Int × Nat) := l.map fun e => (e.type, e.dim)

theorem tysOf_sg {l l' : Tab} (h : l.map Ent.sg = l'.map Ent.sg) : tysOf l = tysOf l' := by
  have := congrArg (List.map fun s : String × Int × Nat × Nat × Bool => (s.2.1, s.2.2.1)) h
  simpa [tysOf, Ent.sg, Function.comp_def] using this

/-- The function with this result and these parameters. -/
def dclOf (N : Nat → Text) (ty : Int) (dim : Nat) (l : Tab) : Dcl :=
  .fn (declTy N (ty, dim)) ((l.takeWhile (fun e => e.type ≠ TyDOTDOTDOT)).map fun e => declTy N (e.type, e.dim)) (l.any fun e => e.type = TyDOTDOTDOT)

theorem dclOf_tys {ty : Int} {dim : Nat} {l l' : Tab} (h : tysOf l = tysOf l') : dclOf N ty dim l = dclOf N ty dim l' := by
  have : ((l.takeWhile (fun e => e.type ≠ TyDOTDOTDOT)).map (fun e => declTy N (e.type, e.dim)) =
      (l'.takeWhile (fun e => e.type ≠ TyDOTDOTDOT)).map (fun e => declTy N (e.type, e.dim))) ∧
      (l.any fun e => e.type = TyDOTDOTDOT) = (l'.any fun e => e.type = TyDOTDOTDOT) := by
    induction l generalizing l' with
    | nil =>
      cases l' with
      | nil => exact ⟨rfl, rfl⟩
      | cons => cases h
    | cons a l ih =>
      cases l' with
      | nil => cases h
      | cons b l' =>
        simp only [tysOf, List.map_cons, List.cons.injEq, Prod.mk.injEq] at h
        obtain ⟨i1, i2⟩ := ih (l' := l') h.2
        by_cases hd : a.type = TyDOTDOTDOT
        · have hd' : b.type = TyDOTDOTDOT := by rw [← h.1.1]; exact hd
          simp [hd, hd']
        · have hd' : b.type ≠ TyDOTDOTDOT := by rw [← h.1.1]; exact hd
          rw [List.takeWhile_cons_of_pos (by simpa using hd), List.takeWhile_cons_of_pos (by simpa using hd'), List.map_cons, List.map_cons, i1,
            h.1.1, h.1.2, List.any_cons, List.any_cons, i2, h.1.1]
          exact ⟨rfl, rfl⟩
  unfold dclOf
  rw [this.1, this.2]

theorem dclOf_congr {ty : Int} {dim : Nat} {l : Tab} (h : TyOk T ty) (hl : ∀ e ∈ l, e.type ≠ TyDOTDOTDOT → TyOk T e.type)
    (hN : ∀ i, i < T.length → N i = N' i) : dclOf N ty dim l = dclOf N' ty dim l := by
  unfold dclOf
  rw [declTy_congr h hN]
  congr 1
  apply List.map_congr_left
  intro d hd
  exact declTy_congr (hl d ((List.takeWhile_sublist _).subset hd) (by simpa using mem_takeWhile_imp hd)) hN

theorem tabNames_sg (h : T.map Ent.sg = T'.map Ent.sg) : tabNames T = tabNames T' := by
  funext n
  have h1 : (T.map Ent.sg)[n]? = (T'.map Ent.sg)[n]? := by rw [h]
  rw [List.getElem?_map, List.getElem?_map] at h1
  have := congrArg (Option.map fun s : String × Int × Nat × Nat × Bool => s.1) h1
  simp only [Option.map_map, Function.comp_def, Ent.sg] at this
  unfold tabNames
  rw [show (fun e : Ent => e.name) = Ent.name from rfl] at this
  rw [this]

theorem Inv.twins {G M} (h : Inv N G M T) (t : Twins T T') : Inv N G M T' := by
  have sees : ∀ {x n e'}, Sees T' x n e' → ∃ e, Sees T x n e ∧ Twin e e' := by
    intro x n e' h1
    obtain ⟨e, h2, h3⟩ := t.from h1.1
    refine ⟨e, ⟨h2, h3.name.1.trans h1.2.1, ?_, ?_⟩, h3⟩
    · have := h1.2.2.1
      have := h3.low_iff.1
      omega
    · intro m f h4 h5 h6
      obtain ⟨f', h7, h8⟩ := t.to h5
      exact h8.low_iff.1.2 (h1.2.2.2 m f' h4 h7 (h8.name.1.symm.trans h6))
  have field : ∀ {i f n e'}, Field T' i f n e' → ∃ e, Field T i f n e ∧ Twin e e' := by
    rintro i f n e' ⟨⟨d', g1, g2, g3⟩, g4, g5, g6⟩
    obtain ⟨d, h1, h2⟩ := t.from g1
    obtain ⟨e, h3, h4⟩ := t.from g4
    refine ⟨e, ⟨⟨d, h1, g2, by rw [h2.name.2.2.2.1]; exact g3⟩, h3, h4.name.1.trans g5, fun m a h5 h6 h7 => ?_⟩, h4⟩
    obtain ⟨a', h8, h9⟩ := t.to h7
    rw [h9.name.1]
    exact g6 m a' h5 h6 h8
  refine ⟨⟨?_, ?_, h.dcl.str, ?_⟩, ⟨?_, ?_, ?_⟩, ?_⟩
  · intro x n e' k h1 h2 h3
    obtain ⟨e, h4, h5⟩ := sees h1
    rw [← h5.name.2.1, ← h5.name.2.2.1]
    exact h.dcl.var x n e k h4 (h5.var h2) h3
  · intro x n e' h1 h2
    obtain ⟨e, h4, h5⟩ := sees h1
    rw [h.dcl.fn x n e h4 (h5.fun_iff.2 h2)]
    have := dclOf_tys (N := N) (ty := e.type) (dim := e.dim) (tysOf_sg (t.region (n + 1) e.cnt))
    rw [← h5.name.2.1, ← h5.name.2.2.1, ← h5.name.2.2.2.1]
    exact congrArg some this
  · intro i d' f n e' h1 h2 h3
    obtain ⟨e, h4, h5⟩ := field h3
    obtain ⟨d, h6, h7⟩ := t.from h1
    rw [← h5.name.2.1, ← h5.name.2.2.1]
    exact h.dcl.mem i d f n e h6 (h7.name.2.1.trans h2) h4
  · intro e' he k hk
    obtain ⟨n, hn⟩ := List.mem_iff_getElem?.1 he
    obtain ⟨e, h1, h2⟩ := t.from hn
    rw [← h2.name.2.1, ← h2.name.2.2.1]
    exact h.val.var e (List.mem_of_getElem? h1) k (h2.var hk)
  · intro x n e' h1 h2 d' hd
    obtain ⟨e, h4, h5⟩ := sees h1
    have h6 : (d'.type, d'.dim) ∈ tysOf ((T.drop (n + 1)).take e.cnt) := by
      rw [tysOf_sg (t.region (n + 1) e.cnt), h5.name.2.2.2.1]
      exact List.mem_map_of_mem hd
    obtain ⟨d, h7, h8⟩ := List.mem_map.1 h6
    rw [← h8]
    exact h.val.prm x n e h4 (h5.fun_iff.2 h2) d h7
  · intro i d' f n e' h1 h2 h3
    obtain ⟨e, h4, h5⟩ := field h3
    obtain ⟨d, h6, h7⟩ := t.from h1
    rw [← h5.name.2.1, ← h5.name.2.2.1]
    exact h.val.fld i d f n e h6 (h7.name.2.1.trans h2) h4
  · intro n e' h1 h2
    obtain ⟨e, h3, h4⟩ := t.from h1
    rw [← t.len, ← h4.name.2.2.2.1]
    exact h.rng n e h3 (h2.imp h4.fun_iff.2 h4.name.2.1.trans)

theorem TyOk.twins {ty : Int} (h : TyOk T ty) (t : Twins T T') : TyOk T' ty := by
  rcases h with h | ⟨i, e, h, h1, h2⟩
  · exact .inl h
  · obtain ⟨e', h3, h4⟩ := t.to h1
    exact .inr ⟨i, e', h, h3, h4.low_iff.2.2.1 h2⟩

theorem FInv.twins (h : FInv U T) (t : Twins T T') (hG : U'.G = U.G) (hM : U'.M = U.M) (hK : U'.K = U.K) (hS : U'.S = U.S)
    (hF : ∀ w, U'.F w = true → U.F w = true ∨ ∃ e ∈ T', e.name.toList = w ∧ (e.scope = ScFUNC ∨ e.scope = ScGVAR)) : FInv U' T' := by
  have back : ∀ {e'}, e' ∈ T' → ∃ e ∈ T, Twin e e' := by
    intro e' he
    obtain ⟨n, hn⟩ := List.mem_iff_getElem?.1 he
    obtain ⟨e, h1, h2⟩ := t.from hn
    exact ⟨e, List.mem_of_getElem? h1, h2⟩
  have forth : ∀ {e}, e ∈ T → ∃ e' ∈ T', Twin e e' := by
    intro e' he
    obtain ⟨n, hn⟩ := List.mem_iff_getElem?.1 he
    obtain ⟨e, h1, h2⟩ := t.to hn
    exact ⟨e, List.mem_of_getElem? h1, h2⟩
  refine ⟨?_, ?_, ?_, ?_, ?_, ?_, ?_, ?_, ?_, ?_, ?_⟩
  · rw [hG, hM, ← tabNames_sg t.sg]
    exact h.inv.twins t
  · intro e' he
    obtain ⟨e, h1, h2⟩ := back he
    rw [← h2.low_iff.2.1, ← h2.low_iff.2.2, ← h2.glob_iff, ← h2.name.2.1]
    exact h.scp e h1
  · intro e' he hs
    obtain ⟨e, h1, h2⟩ := back he
    exact h2.low_iff.2.2.1 (h.strc e h1 (h2.name.2.1.trans hs))
  · intro e' he hs hd
    obtain ⟨e, h1, h2⟩ := back he
    rw [← h2.name.2.1] at hs hd ⊢
    exact (h.tys e h1 hs hd).twins t
  · intro e' he hs
    obtain ⟨e, h1, h2⟩ := back he
    exact h2.low_iff.2.1.1 (h.dots e h1 (h2.name.2.1.trans hs))
  · intro n e' he ho d' hd
    obtain ⟨e, h1, h2⟩ := t.from he
    have h6 : (d'.type, d'.dim) ∈ tysOf ((T.drop (n + 1)).take e.cnt) := by
      rw [tysOf_sg (t.region (n + 1) e.cnt), h2.name.2.2.2.1]
      exact List.mem_map_of_mem hd
    obtain ⟨d, h7, h8⟩ := List.mem_map.1 h6
    simp only [Prod.mk.injEq] at h8
    rw [← h8.1, ← h2.name.2.1]
    exact h.own n e h1 (ho.imp h2.fun_iff.2 h2.name.2.1.trans) d h7
  · intro i j d' e' h1 h2 h3 h4 h5
    obtain ⟨d, g1, g2⟩ := t.from h1
    obtain ⟨e, g3, g4⟩ := t.from h2
    exact h.uniq i j d e g1 g3 (g2.glob_iff.2 h3) (g4.glob_iff.2 h4) (g2.name.1.trans (h5.trans g4.name.1.symm))
  · intro w
    rw [hK, h.types]
    constructor
    · rintro ⟨e, h1, h2, h3⟩
      obtain ⟨e', h4, h5⟩ := forth h1
      exact ⟨e', h4, h5.low_iff.2.2.1 h2, by rw [← h5.name.1]; exact h3⟩
    · rintro ⟨e', h1, h2, h3⟩
      obtain ⟨e, h4, h5⟩ := back h1
      exact ⟨e, h4, h5.low_iff.2.2.2 h2, by rw [h5.name.1]; exact h3⟩
  · intro w d hd
    rw [hG] at hd
    rcases h.known w d hd with h1 | ⟨e, h1, h2, h3⟩
    · exact .inl h1
    · obtain ⟨e', h4, h5⟩ := forth h1
      exact .inr ⟨e', h4, h5.glob_iff.1 h2, by rw [← h5.name.1]; exact h3⟩
  · intro e' he hg
    obtain ⟨e, h1, h2⟩ := back he
    rw [hS, ← h2.name.1, ← h2.name.2.2.2.2]
    exact h.link e h1 (h2.glob_iff.2 hg)
  · intro w hw
    rcases hF w hw with h1 | h1
    · obtain ⟨e, h2, h3, h4⟩ := h.defd w h1
      obtain ⟨e', h5, h6⟩ := forth h2
      refine ⟨e', h5, by rw [← h6.name.1]; exact h3, ?_⟩
      rcases h6.2 with h7 | h7 | h7
      · rw [← h7]; exact h4
      · exact .inl h7.2
      · exact .inr h7.2
    · exact h1

theorem twins_modify {i : Nat} {d : Ent} {s : Int} (h : T[i]? = some d) (hs : (d.scope = ScPROT ∧ s = ScFUNC) ∨ (d.scope = ScCOMM ∧ s = ScGVAR)) :
    Twins T (T.modify i fun e => { e with scope := s }) := by
  induction T generalizing i with
  | nil => simp at h
  | cons a T ih =>
    cases i with
    | zero =>
      simp only [List.getElem?_cons_zero, Option.some.injEq] at h
      subst h
      exact .cons ⟨rfl, .inr hs⟩ (Twins.refl T)
    | succ i => exact .cons ⟨rfl, .inl rfl⟩ (ih h)

end Cmm.CText
