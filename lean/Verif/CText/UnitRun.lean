import Verif.CText.UnitStep
import Verif.Props.C77
import Verif.CText.UnitLoc

/-
C78: declarations one by one, and the file.
-/
namespace Cmm.CText
open Cmm.Parse (Tab Ent Spot Sees Field VarKind IsFun IsGlob Prms Sig Fresh Earlier Again AsBefore GVar GVars Flds Lines Thing Valued TypeTok nowFun keep TyVOID
  TyINT TyCHAR TyBOOL TyINTR TySTRUC TyDOTDOTDOT ScLVAR ScPRM ScVOID ScFUNC ScPROT ScCOMM ScGVAR ScSTRC ScFLD)

variable {T T' : Tab} {U U' : CUnit} {N N' : Nat → Text}

/-- What `Plain` is about. -/
def Ent.pl (e : Ent) : String × Int × Nat := (e.name, e.type, e.dim)

theorem Plain.of_pre (h : Plain T') (hp : T.map Ent.pl <+: T'.map Ent.pl) : Plain T := by
  have key : ∀ e ∈ T, ∃ e' ∈ T', e'.name = e.name ∧ e'.type = e.type ∧ e'.dim = e.dim := by
    intro e he
    have h1 : Ent.pl e ∈ T'.map Ent.pl := hp.subset (List.mem_map_of_mem he)
    obtain ⟨e', h2, h3⟩ := List.mem_map.1 h1
    simp only [Ent.pl, Prod.mk.injEq] at h3
    exact ⟨e', h2, h3.1, h3.2.1, h3.2.2⟩
  refine ⟨fun e he ht => ?_, fun e he => ?_, fun e he => ?_⟩
  · obtain ⟨e', h1, h2, h3, h4⟩ := key e he
    rw [← h4]
    exact h.voids e' h1 (h3.trans ht)
  · obtain ⟨e', h1, h2, -⟩ := key e he
    rw [← h2]
    exact h.names e' h1
  · obtain ⟨e', h1, h2, -⟩ := key e he
    rw [← h2]
    exact h.kw e' h1

theorem tabNames_names (h : T.map Ent.name = T'.map Ent.name) : tabNames T = tabNames T' := by
  funext n
  unfold tabNames
  rw [← List.getElem?_map, ← List.getElem?_map, h]

theorem pl_of_sg (h : T.map Ent.sg = T'.map Ent.sg) : T.map Ent.pl = T'.map Ent.pl := by
  have := congrArg (List.map fun s : String × Int × Nat × Nat × Bool => (s.1, s.2.1, s.2.2.1)) h
  rw [List.map_map, List.map_map] at this
  exact this

/-! ### Functions -/

def voidEnt (e : Ent) : Ent := { e with scope := ScVOID }

theorem tysOf_void {l : Tab} : tysOf (l.map voidEnt) = tysOf l := by
  simp [tysOf, voidEnt, Function.comp_def]

section
variable {ty : Int} {dim : Nat} {pub : Bool} {x : String} {p p1 : Spot} {ps : List Parse.Tok} {old : Option Nat} {prm : Tab} {b : Option VS}

theorem sig_prms (hs : Sig ty dim pub x p ps old prm p1) : (∀ e ∈ prm, ParTy p.tab e) ∧ prm.Pairwise (fun a b => a.name ≠ b.name) ∧
    ∀ i, old = some i → ∀ (n : Nat) e, prm[n]? = some e → ∃ d, p1.tab[i + 1 + n]? = some d ∧ d.type = e.type ∧ d.dim = e.dim := by
  obtain ⟨l, h1, h2, h3⟩ := prms_full (T := p.tab) hs.prms ⟨[⟨x, ScPROT, ty, dim, p.cnt, pub⟩], rfl, by
    intro e he; rw [List.mem_singleton.1 he]; show ScPROT ≠ ScSTRC; decide⟩
  obtain ⟨k, e1, e2, e3, -⟩ := prms_tab hs.prms
  have hl : l = prm := by rw [hs.tab] at h1; simpa [Spot.enter] using h1.symm
  have hk : k = prm := by rw [hs.tab] at e1; simpa [Spot.enter] using e1.symm
  subst hl hk
  exact ⟨h2, e3, fun i hi n e he => by simpa using h3 i hi n e he⟩

/-- An earlier declaration is the same. -/
theorem sig_old (h : FInv U p.tab) (hs : Sig ty dim pub x p ps old prm p1) (ht : TyOk p.tab ty) (hN : Agree N p.tab) {i : Nat} (hi : old = some i) :
    ∃ d, p.tab[i]? = some d ∧ IsFun d.scope ∧ d.name = x ∧ U.G x.toList = some (dclOf N ty dim prm) ∧ U.S x.toList = some (!pub) := by
  obtain ⟨hp1, -, hp3⟩ := sig_prms hs
  have he := hs.earlier
  rw [hi] at he
  obtain ⟨d, h1, h2, rfl, -⟩ := he
  obtain ⟨k1, k2, k3, k4, k5⟩ := hs.like i d hi h1
  have hr := h.inv.rng i d h1 (.inl k1)
  refine ⟨d, h1, k1, rfl, ?_, ?_⟩
  · rw [h.fn_at h1 k1, k2, k3]
    rw [dclOf_congr ht (fun e he => (hp1 e he).2.2.2.1) hN]
    refine congrArg some (dclOf_tys ?_)
    unfold tysOf
    apply List.ext_getElem?
    intro n
    rw [List.getElem?_map, List.getElem?_map]
    rcases Nat.lt_or_ge n prm.length with hn | hn
    · obtain ⟨g, g1, g2, g3⟩ := hp3 i hi n prm[n] (by simp [hn])
      rw [hs.tab, List.getElem?_append_left (by omega)] at g1
      rw [List.getElem?_take_of_lt (by omega), List.getElem?_drop, g1, List.getElem?_eq_getElem hn]
      simp [g2, g3]
    · rw [List.getElem?_eq_none (by rw [List.length_take]; omega), List.getElem?_eq_none hn]
  · rw [h.link d (List.mem_of_getElem? h1) h2, k4]

theorem sig_may (h : FInv U p.tab) (hs : Sig ty dim pub x p ps old prm p1) (ht : TyOk p.tab ty) (hN : Agree N p.tab) (hf : Fresh p.tab ScPROT x)
    (hx : ∀ l, x.toList ≠ strLab l) : U.May (!pub) x.toList (dclOf N ty dim prm) := by
  refine ⟨fresh_type (l := []) h (by simpa using hf), ?_⟩
  cases hi : old with
  | none =>
    have := hs.earlier
    rw [hi] at this
    exact .inl (unknown_of h this hx)
  | some i =>
    obtain ⟨d, -, -, -, h1, h2⟩ := sig_old h hs ht hN hi
    exact .inr ⟨h1, h2⟩

/-- A function that has not been declared before. -/
theorem fn_new (h : FInv U p.tab) (hs : Sig ty dim pub x p ps none prm p1) (ht : TyOk p.tab ty) (hN : Agree N p.tab) (hf : Fresh p.tab ScPROT x)
    {sc : Int} {body : Bool} (hsc : (sc = ScPROT ∧ body = false) ∨ (sc = ScFUNC ∧ body = true))
    (hpl : Plain (p.tab ++ ⟨x, sc, ty, dim, prm.length, pub⟩ :: prm)) :
    FInv (U.name (!pub) x.toList (dclOf N ty dim prm) body) (p.tab ++ ⟨x, sc, ty, dim, prm.length, pub⟩ :: prm.map voidEnt) := by
  obtain ⟨hp1, -, -⟩ := sig_prms hs
  have hfun : IsFun sc := hsc.imp (·.1) (·.1)
  have hnv : ¬ (sc = ScCOMM ∨ sc = ScGVAR) := by rcases hsc with ⟨rfl, -⟩ | ⟨rfl, -⟩ <;> decide
  have hns : sc ≠ ScSTRC := by rcases hsc with ⟨rfl, -⟩ | ⟨rfl, -⟩ <;> decide
  refine h.add ⟨?_, .inr ⟨IsFun.glob (e := ⟨x, sc, ty, dim, prm.length, pub⟩) hfun, ht⟩, ?_, ?_, ?_, fun hq => absurd hq hnv, ?_, fun hq => absurd hq hnv, ?_, fun _ _ _ => rfl,
    fun hq => absurd hq hns, ?_, ?_, ?_, ?_⟩
  · refine hpl.of_pre ?_
    have : (prm.map voidEnt).map Ent.pl = prm.map Ent.pl := by rw [List.map_map]; rfl
    rw [List.map_append, List.map_append, List.map_cons, List.map_cons, this]
  · intro d hd hv hn
    rcases h.scp d hd with h1 | h1 | h1
    · exact hv h1
    · exact (hf.2 d hd hn hv).2.1 h1.1
    · exact hs.earlier d hd h1 hn
  · intro d hd
    obtain ⟨e, h1, rfl⟩ := List.mem_map.1 hd
    obtain ⟨g1, g2, g3, g4, -⟩ := hp1 e h1
    exact ⟨rfl, g2, g3, fun hq => (g4 hq).mono⟩
  · intro _
    simp
  · intro w hw
    rcases hw with hw | hw
    · simp only [CUnit.name, Gam.set]; rw [if_neg hw]
    · exact absurd hw hns
  · intro _
    have h1 := dclOf_congr (N := N) (N' := tabNames (p.tab ++ ⟨x, sc, ty, dim, prm.length, pub⟩ :: prm.map voidEnt)) (dim := dim) ht
      (fun e he => (hp1 e he).2.2.2.1) fun i hi => (hN i hi).trans (Agree.left i hi).symm
    simp only [CUnit.name, Gam.set, if_true]
    rw [h1, ← dclOf_tys tysOf_void]
    rfl
  · intro w
    exact ⟨.inl, fun hq => hq.elim id fun hq => absurd hq.1 hns⟩
  · intro w hw
    simp only [CUnit.name]; rw [if_neg hw]
  · intro _
    simp [CUnit.name]
  · intro w hw
    simp only [CUnit.name] at hw
    split at hw
    · next he =>
      rcases hsc with ⟨-, rfl⟩ | ⟨h1, rfl⟩
      · rw [Bool.or_false] at hw; exact .inl hw
      · exact .inr ⟨he, .inl h1⟩
    · exact .inl hw

theorem proto_step (h : FInv U p.tab) (hs : Sig ty dim pub x p ps old prm p1) (ht : TyOk p.tab ty) (hf : Fresh p.tab ScPROT x) (hpl : Plain p1.tab) :
    ∃ U', U.Step (trExt (.proto (toFn (tabNames p1.tab) ty dim pub x prm none))) U' ∧
      FInv U' (keep old p.tab ⟨x, ScPROT, ty, dim, prm.length, pub⟩ prm) := by
  obtain ⟨hp1, hp2, -⟩ := sig_prms hs
  have hN : Agree (tabNames p1.tab) p.tab := by rw [hs.tab]; exact Agree.left
  have hx : ∀ l, x.toList ≠ strLab l := hpl.names ⟨x, ScPROT, ty, dim, p.cnt, pub⟩ (by rw [hs.tab]; simp)
  have hm := sig_may h hs ht hN hf hx
  refine ⟨_, .proto (head_ok h hN ht hp1 hp2) (by rw [head_dcl]; exact hm), ?_⟩
  rw [head_dcl]
  show FInv (U.name (!pub) x.toList _ false) _
  cases old with
  | none =>
    refine fn_new h hs ht hN hf (.inl ⟨rfl, rfl⟩) (hpl.of_pre ?_)
    rw [hs.tab]
    simp [Ent.pl]
  | some i =>
    obtain ⟨d, -, -, -, h1, h2⟩ := sig_old h hs ht hN rfl
    rw [CUnit.name_same h1 h2]
    exact h

theorem func_step {p2 p3 : Spot} {ts : List Parse.Tok} (h : FInv U p.tab) (hs : Sig ty dim pub x p ps old prm p1) (ht : TyOk p.tab ty) (hf : Fresh p.tab ScPROT x)
    (ho : ∀ i d, old = some i → p.tab[i]? = some d → d.scope = ScPROT)
    (hp : p2 = { p1 with tab := nowFun old p.tab ++ ⟨x, ScFUNC, ty, dim, prm.length, pub⟩ :: prm, most := 0, cnt := 0 })
    (hb : SynT (ty, dim) (.items none) false p2 ts b p3) (hpl : Plain p3.tab) :
    ∃ U', U.Step (trExt (.fn (toFn (tabNames p3.tab) ty dim pub x prm b))) U' ∧
      FInv U' (keep old (nowFun old p.tab) ⟨x, ScFUNC, ty, dim, prm.length, pub⟩ prm) := by
  obtain ⟨hp1, hp2, -⟩ := sig_prms hs
  have htw : Twins p.tab (nowFun old p.tab) := by
    cases hi : old with
    | none => exact Twins.refl _
    | some i =>
      have he := hs.earlier
      rw [hi] at he
      obtain ⟨d, h1, -⟩ := he
      exact twins_modify h1 (.inl ⟨ho i d hi h1, rfl⟩)
  obtain ⟨r, hr⟩ : p2.tab <+: p3.tab := by
    obtain ⟨cs, os, -, -, -, d⟩ := runs (N := tabNames p3.tab) hb.plainV
    exact d
  have h5 : p2.tab = nowFun old p.tab ++ ⟨x, ScFUNC, ty, dim, prm.length, pub⟩ :: prm := by rw [hp]
  have hN : Agree (tabNames p3.tab) p.tab := by
    intro i hi
    rw [← hr, h5, List.append_assoc, tabNames_left (by rw [← htw.len]; exact hi), tabNames_sg htw.sg]
  have hx : ∀ l, x.toList ≠ strLab l := hpl.names ⟨x, ScFUNC, ty, dim, prm.length, pub⟩ (by rw [← hr, h5]; simp)
  have hm := sig_may h hs ht hN hf hx
  have hF : U.F x.toList = false := by
    rw [Bool.eq_false_iff]
    intro hq
    obtain ⟨e, h1, h2, h3⟩ := h.defd _ hq
    have hg : IsGlob e := h3.elim (fun h => .inr (.inl h)) (fun h => .inr (.inr (.inr h)))
    have he := hs.earlier
    cases hi : old with
    | none =>
      rw [hi] at he
      exact he e h1 hg (String.toList_injective h2)
    | some i =>
      rw [hi] at he
      obtain ⟨d, g1, g2, g3, -⟩ := he
      obtain ⟨j, hj⟩ := List.mem_iff_getElem?.1 h1
      have := h.uniq i j d e g1 hj g2 hg (g3.trans (String.toList_injective h2).symm)
      subst this
      rw [g1] at hj
      cases hj
      rw [ho i _ hi g1] at h3
      exact absurd h3 (by decide)
  have hinv : Inv (tabNames p3.tab) U.G U.M (nowFun old p.tab) :=
    (h.inv.rename (fun i hi => (hN i hi).symm) h.tys h.strc h.dots h.own).twins htw
  have hw : WtFn U.M U.G (trF (toFn (tabNames p3.tab) ty dim pub x prm b)) :=
    C77_function_partial hs hp hb hinv ht.not.2.2 ht.not.1 hpl.names_ok hpl.voids
  have hd : ∀ t ∈ (trF (toFn (tabNames p3.tab) ty dim pub x prm b)).2.decls, U.Known t := by
    intro t h6
    obtain ⟨c, h7, h8⟩ := unblk_decls _ h6
    obtain ⟨u, h9, rfl⟩ := decls_of _ c h7 t h8
    have h10 := (hb.tys (T := nowFun old p.tab) nofun ⟨_, h5, fun e he => by
      rcases List.mem_cons.1 he with rfl | he
      · show ScFUNC ≠ ScSTRC; decide
      · rw [(hp1 e he).1]; decide⟩).1 u (by rw [← varsO_block]; exact h9)
    refine known_of h (d := u.2) ?_ hN
    rcases h10 with h10 | ⟨i, d, g1, g2, g3⟩
    · exact .inl h10
    · obtain ⟨d', g4, g5⟩ := htw.from g2
      refine .inr ⟨i, d', g1, g4, ?_⟩
      rcases g5.2 with g6 | g6 | g6
      · rw [g6, g3]
      · rw [g3] at g6; exact absurd g6.2 (by decide)
      · rw [g3] at g6; exact absurd g6.2 (by decide)
  refine ⟨_, .fn (head_ok h hN ht hp1 hp2) (by show U.May _ _ (trHead _).dcl; rw [head_dcl]; exact hm) hF hw hd, ?_⟩
  show FInv (U.name (!pub) x.toList (trHead _).dcl true) _
  rw [head_dcl]
  cases old with
  | none =>
    refine fn_new h hs ht hN hf (.inr ⟨rfl, rfl⟩) (hpl.of_pre ?_)
    rw [← hr, h5]
    simp [nowFun]
  | some i =>
    obtain ⟨d, g0, -, g1, h1, h2⟩ := sig_old h hs ht hN rfl
    refine h.twins htw (CUnit.name_G h1 h2).1 rfl rfl (CUnit.name_G h1 h2).2 fun w hw => ?_
    simp only [CUnit.name] at hw
    split at hw
    · next he =>
      right
      refine ⟨{ d with scope := ScFUNC }, ?_, by rw [he, ← g1], .inl rfl⟩
      refine List.mem_of_getElem? (i := i) ?_
      simp [nowFun, keep, List.getElem?_modify, g0]
    · exact .inl hw

end

end Cmm.CText
