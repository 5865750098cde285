import Verif.CText.UnitRun

/-
C78: variables, structures and files.
-/
namespace Cmm.CText
open Cmm.Parse (Tab Ent Spot Sees Field VarKind IsFun IsGlob Prms Sig Fresh Earlier Again AsBefore GVar GVars Flds Lines Thing Valued TypeTok nowFun keep TyVOID
  TyINT TyCHAR TyBOOL TyINTR TySTRUC TyDOTDOTDOT ScLVAR ScPRM ScVOID ScFUNC ScPROT ScCOMM ScGVAR ScSTRC ScFLD)

variable {T T' : Tab} {U U' : CUnit} {N N' : Nat → Text}

/-! ### Variables -/

section
variable {ty : Int} {dim : Nat} {pub : Bool} {x : String} {p p' : Spot}

/-- No body or value yet. -/
theorem FInv.undef (h : FInv U T) (hx : ∀ e ∈ T, e.name = x → IsGlob e → e.scope ≠ ScFUNC ∧ e.scope ≠ ScGVAR) : U.F x.toList = false := by
  rw [Bool.eq_false_iff]
  intro hq
  obtain ⟨e, h1, h2, h3⟩ := h.defd _ hq
  have hg : IsGlob e := h3.elim (fun h => .inr (.inl h)) (fun h => .inr (.inr (.inr h)))
  have := hx e h1 (String.toList_injective h2) hg
  exact h3.elim this.1 this.2

theorem var_new (h : FInv U T) (ht : TyOk T ty) (hv : (ty, dim) ≠ (TyVOID, 0)) (hf : Fresh T ScCOMM x) (he : Earlier T x none) {sc : Int} {val : Bool} {c : Nat}
    (hsc : (sc = ScCOMM ∧ val = false) ∨ (sc = ScGVAR ∧ val = true)) (hpl : Plain (T ++ [⟨x, sc, ty, dim, c, pub⟩])) :
    ∃ U', U.Step (.var (!pub) val (declTy (tabNames (T ++ [⟨x, sc, ty, dim, c, pub⟩])) (ty, dim)) x.toList) U' ∧ FInv U' (T ++ [⟨x, sc, ty, dim, c, pub⟩]) := by
  have hx : ∀ l, x.toList ≠ strLab l := hpl.names ⟨x, sc, ty, dim, c, pub⟩ (by simp)
  have hvar : sc = ScCOMM ∨ sc = ScGVAR := hsc.imp (·.1) (·.1)
  have hglob : IsGlob ⟨x, sc, ty, dim, c, pub⟩ := .inr (.inr hvar)
  have hns : sc ≠ ScSTRC := by rcases hvar with rfl | rfl <;> decide
  have hnf : ¬ IsFun sc := by rcases hvar with rfl | rfl <;> (unfold IsFun; decide)
  refine ⟨_, .var (known_of h ht Agree.left) (scalar_of ht hv) ⟨fresh_type (l := []) h (by simpa using hf), .inl (unknown_of h he hx)⟩
    (fun _ => h.undef fun e h1 h2 h3 => absurd h2 (he e h1 h3)), ?_⟩
  refine h.add ⟨hpl, .inr ⟨hglob, ht⟩, ?_, nofun, ?_, fun _ => hv, ?_, ?_, fun hq => absurd hq hnf, fun _ _ _ => rfl, fun hq => absurd hq hns, ?_, ?_, ?_, ?_⟩
  · intro d hd hv hn
    rcases h.scp d hd with h1 | h1 | h1
    · exact hv h1
    · exact (hf.2 d hd hn hv).2.1 h1.1
    · exact he d hd h1 hn
  · rintro (hq | hq)
    · exact absurd hq hnf
    · exact absurd hq ht.not.1
  · intro w hw
    rcases hw with hw | hw
    · simp only [CUnit.name, Gam.set]; rw [if_neg hw]
    · exact absurd hw hns
  · intro _
    simp only [CUnit.name, Gam.set, if_true]
  · intro w
    exact ⟨.inl, fun hq => hq.elim id fun hq => absurd hq.1 hns⟩
  · intro w hw
    simp only [CUnit.name]; rw [if_neg hw]
  · intro _
    simp [CUnit.name]
  · intro w hw
    simp only [CUnit.name] at hw
    split at hw
    · next he =>
      rcases hsc with ⟨-, rfl⟩ | ⟨h1, rfl⟩
      · rw [Bool.or_false] at hw; exact .inl hw
      · exact .inr ⟨he, .inr h1⟩
    · exact .inl hw

theorem gvar_step {ts : List Parse.Tok} {m : List Thing} (h : FInv U p.tab) (hg : GVar ty dim pub p ts m p') (ht : TyOk p.tab ty) (hv : (ty, dim) ≠ (TyVOID, 0))
    (hpl : Plain p'.tab) : ∃ U', U.Steps ((m.filterMap varExt).map trExt) U' ∧ FInv U' p'.tab ∧ TyOk p'.tab ty := by
  cases hg with
  | @room x hf he =>
    obtain ⟨U', h1, h2⟩ := var_new h ht hv hf he (.inl ⟨rfl, rfl⟩) hpl
    refine ⟨U', ?_, h2, ht.mono⟩
    simp only [List.filterMap_cons, List.filterMap_nil, varExt, Spot.enter]
    simp only [List.getElem?_append_right (Nat.le_refl _), Nat.sub_self, List.getElem?_cons_zero, Option.map_some, List.map_cons, List.map_nil, trExt]
    exact .cons h1 .nil
  | again => exact ⟨U, .nil, h, ht⟩
  | @value x ts d m hf he =>
    obtain ⟨U', h1, h2⟩ := var_new h ht hv hf he (.inr ⟨rfl, rfl⟩) hpl
    refine ⟨U', ?_, h2, ht.mono⟩
    simp only [List.filterMap_cons, List.filterMap_nil, varExt, Spot.enter]
    simp only [List.getElem?_append_right (Nat.le_refl _), Nat.sub_self, List.getElem?_cons_zero, Option.map_some, List.map_cons, List.map_nil, trExt]
    exact .cons h1 .nil
  | @valueAgain x i ts d m hf he ha =>
    obtain ⟨e, g1, g2, g3, g4, g5⟩ := ha
    obtain ⟨e', k1, k2, k3, -⟩ := he
    rw [g1] at k1
    cases k1
    have htw := twins_modify (s := ScGVAR) g1 (.inr ⟨g2, rfl⟩)
    have hG : U.G x.toList = some (.obj (declTy (tabNames (p.tab ++ [⟨x, ScGVAR, ty, dim, p.cnt, pub⟩])) (ty, dim))) := by
      have := h.var_at g1 (.inl g2)
      rw [k3, g3, g4] at this
      rw [this, declTy_congr ht fun i hi => (Agree.left i hi).symm]
    have hS : U.S x.toList = some (!pub) := by
      have := h.link e (List.mem_of_getElem? g1) k2
      rwa [k3, g5] at this
    have hF : U.F x.toList = false := by
      refine h.undef fun a h1 h2 h3 => ?_
      obtain ⟨j, hj⟩ := List.mem_iff_getElem?.1 h1
      have := h.uniq i j e a g1 hj k2 h3 (k3.trans h2.symm)
      subst this
      rw [g1] at hj
      cases hj
      rw [g2]
      decide
    refine ⟨U.name (!pub) x.toList (.obj (declTy (tabNames (p.tab ++ [⟨x, ScGVAR, ty, dim, p.cnt, pub⟩])) (ty, dim))) true, ?_, ?_, ht.twins htw⟩
    · simp only [List.filterMap_cons, List.filterMap_nil, varExt, Spot.enter]
      simp only [List.getElem?_append_right (Nat.le_refl _), Nat.sub_self, List.getElem?_cons_zero, Option.map_some, List.map_cons, List.map_nil, trExt]
      exact .cons (.var (known_of h ht Agree.left) (scalar_of ht hv) ⟨fresh_type (l := []) h (by simpa using hf), .inr ⟨hG, hS⟩⟩ fun _ => hF) .nil
    · refine h.twins htw (CUnit.name_G hG hS).1 rfl rfl (CUnit.name_G hG hS).2 fun w hw => ?_
      simp only [CUnit.name] at hw
      split at hw
      · next he =>
        right
        refine ⟨{ e with scope := ScGVAR }, ?_, by rw [he, ← k3], .inr rfl⟩
        refine List.mem_of_getElem? (i := i) ?_
        simp [List.getElem?_modify, g1]
      · exact .inl hw

theorem gvar_grow {ts : List Parse.Tok} {m : List Thing} (hg : GVar ty dim pub p ts m p') : p.tab.map Ent.pl <+: p'.tab.map Ent.pl := by
  cases hg with
  | room | value => simp [Spot.enter]
  | again => exact List.prefix_rfl
  | @valueAgain x i ts d m hf he ha =>
    obtain ⟨e, g1, g2, -⟩ := ha
    rw [pl_of_sg (twins_modify (s := ScGVAR) g1 (.inr ⟨g2, rfl⟩)).sg]

theorem gvars_grow {ts : List Parse.Tok} {m : List Thing} (hg : GVars ty dim pub p ts m p') : p.tab.map Ent.pl <+: p'.tab.map Ent.pl := by
  induction hg with
  | one h => exact gvar_grow h
  | more h _ ih => exact (gvar_grow h).trans ih

theorem gvars_step {ts : List Parse.Tok} {m : List Thing} (hg : GVars ty dim pub p ts m p') (hv : (ty, dim) ≠ (TyVOID, 0)) (hpl : Plain p'.tab) :
    ∀ {U : CUnit}, FInv U p.tab → TyOk p.tab ty → ∃ U', U.Steps ((m.filterMap varExt).map trExt) U' ∧ FInv U' p'.tab := by
  induction hg with
  | one hg =>
    intro U h ht
    obtain ⟨U', h1, h2, -⟩ := gvar_step h hg ht hv hpl
    exact ⟨U', h1, h2⟩
  | more hg hgs ih =>
    intro U h ht
    obtain ⟨U1, h1, h2, h3⟩ := gvar_step h hg ht hv (hpl.of_pre (gvars_grow hgs))
    obtain ⟨U', h4, h5⟩ := ih hpl h2 h3
    refine ⟨U', ?_, h5⟩
    rw [List.filterMap_append, List.map_append]
    exact h1.append h4

end

/-! ### Structures -/

/-- A field of a structure. -/
def FldTy (T : Tab) (e : Ent) : Prop :=
  e.scope = ScFLD ∧ (e.type, e.dim) ≠ (TyVOID, 0) ∧ TyOk T e.type

theorem flds_full {ty : Int} {dim : Nat} {p p' : Spot} {ts : List Parse.Tok} (h : Flds ty dim p ts p') (ht : TyOk T ty) (hv : (ty, dim) ≠ (TyVOID, 0)) :
    ∃ l, l ≠ [] ∧ p'.tab = p.tab ++ l ∧ (∀ e ∈ l, FldTy T e) ∧ l.Pairwise (fun a b => a.name ≠ b.name) ∧
      ∀ e ∈ l, ∀ d ∈ p.tab, d.scope = ScFLD → d.name ≠ e.name := by
  have fr : ∀ {T : Tab} {x : String}, Fresh T ScFLD x → ∀ d ∈ T, d.scope = ScFLD → d.name ≠ x := by
    intro T x hf d hd hs hn
    exact (hf.2 d hd hn (by rw [hs]; decide)).2.2.1 (by decide) hs
  induction h with
  | one hf =>
    exact ⟨[_], by simp, rfl, fun e he => by rw [List.mem_singleton.1 he]; exact ⟨rfl, hv, ht⟩, by simp, fun e he => by
      rw [List.mem_singleton.1 he]; exact fr hf⟩
  | @more p x us p' hf _ ih =>
    obtain ⟨l, -, h1, h2, h3, h4⟩ := ih
    refine ⟨⟨x, ScFLD, ty, dim, p.cnt, false⟩ :: l, by simp, by rw [h1]; simp [Spot.enter], ?_, ?_, ?_⟩
    · intro e he
      rcases List.mem_cons.1 he with rfl | he
      · exact ⟨rfl, hv, ht⟩
      · exact h2 e he
    · refine List.pairwise_cons.2 ⟨fun e he => ?_, h3⟩
      exact h4 e he ⟨x, ScFLD, ty, dim, p.cnt, false⟩ (by simp [Spot.enter]) rfl
    · intro e he d hd hs
      rcases List.mem_cons.1 he with rfl | he
      · exact fr hf d hd hs
      · exact h4 e he d (by simp [Spot.enter, hd]) hs

theorem lines_full {p p' : Spot} {ts : List Parse.Tok} (h : Lines p ts p') (hp : ∃ l0, p.tab = T ++ l0 ∧ ∀ e ∈ l0, e.scope ≠ ScSTRC) :
    ∃ l, l ≠ [] ∧ p'.tab = p.tab ++ l ∧ (∀ e ∈ l, FldTy T e) ∧ l.Pairwise (fun a b => a.name ≠ b.name) ∧
      ∀ e ∈ l, ∀ d ∈ p.tab, d.scope = ScFLD → d.name ≠ e.name := by
  induction h with
  | @one p k ty dim us p' ht hv hf =>
    obtain ⟨l0, h1, h2⟩ := hp
    rw [h1] at ht
    exact flds_full (p := { p with dim := dim }) hf (tyOk_of ht hv.1 h2) hv.2
  | @more p k ty dim us p1 vs p' ht hv hf _ ih =>
    obtain ⟨l0, h1, h2⟩ := hp
    have h3 := ht
    rw [h1] at h3
    obtain ⟨l, a1, a2, a3, a4, a5⟩ := flds_full (p := { p with dim := dim }) hf (tyOk_of h3 hv.1 h2) hv.2
    obtain ⟨k, b1, b2, b3, b4, b5⟩ := ih ⟨l0 ++ l, by rw [a2]; simp [h1], by
      intro e he
      rcases List.mem_append.1 he with he | he
      · exact h2 e he
      · rw [(a3 e he).1]; decide⟩
    refine ⟨l ++ k, by simp [a1], by rw [b2, a2]; simp, ?_, ?_, ?_⟩
    · intro e he
      exact (List.mem_append.1 he).elim (a3 e) (b3 e)
    · refine List.pairwise_append.2 ⟨a4, b4, fun a ha b hb => ?_⟩
      exact b5 b hb a (by rw [a2]; simp [ha]) (a3 a ha).1
    · intro e he d hd hs
      rcases List.mem_append.1 he with he | he
      · exact a5 e he d hd hs
      · exact b5 e he d (by rw [a2]; exact List.mem_append_left _ hd) hs

theorem find_first {l : Tab} {g : Ent → CT} {n : Nat} {d : Ent} (h : l[n]? = some d) (hm : ∀ (m : Nat) (d' : Ent), m < n → l[m]? = some d' → d'.name ≠ d.name) :
    (((l.map fun e => (g e, e.name.toList)).find? fun m => m.2 == d.name.toList).map (·.1)) = some (g d) := by
  induction l generalizing n with
  | nil => simp at h
  | cons a l ih =>
    cases n with
    | zero =>
      simp only [List.getElem?_cons_zero, Option.some.injEq] at h
      subst h
      simp
    | succ n =>
      have ha := hm 0 a (by omega) rfl
      rw [List.map_cons, List.find?_cons_of_neg]
      · exact ih h fun m d' h1 h2 => hm (m + 1) d' (by omega) h2
      · simp only [beq_iff_eq]
        exact fun hq => ha (String.toList_injective hq)

theorem struct_step {p p' : Spot} {x : String} {fs : List Parse.Tok} {fl : Tab} (h : FInv U p.tab) (hf : Fresh p.tab ScSTRC x)
    (hl : Lines { p.enter ⟨x, ScSTRC, TySTRUC, p.dim, p.cnt, false⟩ with cnt := 0 } fs p')
    (ht : p'.tab = p.tab ++ ⟨x, ScSTRC, TySTRUC, p.dim, p.cnt, false⟩ :: fl) (hpl : Plain p'.tab) :
    ∃ U', U.Step (trExt (.struct x.toList (fl.map fun e => (toTy (tabNames p'.tab) e.type, e.dim, e.name.toList)))) U' ∧
      FInv U' (keep none p.tab ⟨x, ScSTRC, TySTRUC, p.dim, fl.length, false⟩ fl) := by
  obtain ⟨l, h1, h2, h3, h4, -⟩ := lines_full (T := p.tab ++ [⟨x, ScSTRC, TySTRUC, p.dim, p.cnt, false⟩]) hl ⟨[], by simp [Spot.enter], nofun⟩
  have hlf : l = fl := by rw [ht] at h2; simpa [Spot.enter] using h2.symm
  subst hlf
  have hx := hpl.names ⟨x, ScSTRC, TySTRUC, p.dim, p.cnt, false⟩ (by rw [ht]; simp)
  have hkw := hpl.kw ⟨x, ScSTRC, TySTRUC, p.dim, p.cnt, false⟩ (by rw [ht]; simp)
  have hno : ∀ d ∈ p.tab, d.scope ≠ ScVOID → d.name ≠ x := fun d hd hv hn => (hf.2 d hd hn hv).1 rfl
  have hN : tabNames p'.tab = tabNames (p.tab ++ ⟨x, ScSTRC, TySTRUC, p.dim, l.length, false⟩ :: l.map voidEnt) := by
    apply tabNames_names
    rw [ht]
    simp [voidEnt, Function.comp_def]
  have hms : ∀ {e}, e ∈ l → Scalar (declTy (tabNames p'.tab) (e.type, e.dim)) ∧
      (U.Known (declTy (tabNames p'.tab) (e.type, e.dim)) ∨ (declTy (tabNames p'.tab) (e.type, e.dim)).1 = x.toList) := by
    intro e he
    obtain ⟨-, g2, g3⟩ := h3 e he
    refine ⟨scalar_of g3 g2, ?_⟩
    have ag : Agree (tabNames p'.tab) p.tab := by rw [ht]; exact Agree.left
    rcases g3 with g3 | ⟨i, d, g3, g4, g5⟩
    · exact .inl (known_of h (.inl g3) ag)
    · rcases getElem?_app g4 with ⟨-, g6⟩ | ⟨g6, g7⟩
      · exact .inl (known_of h (.inr ⟨i, d, g3, g6, g5⟩) ag)
      · right
        rw [List.mem_singleton] at g7
        have hi : i = p.tab.length := by
          have := (List.getElem?_eq_some_iff.1 g4).1
          simp at this
          omega
        subst hi
        rw [g3]
        simp only [declTy, toTy]
        rw [if_neg (by simp only [TyVOID]; omega), if_neg (by simp only [TyINT]; omega), if_neg (by simp only [TyBOOL]; omega),
          if_neg (by simp only [TyCHAR]; omega), show (- -(p.tab.length : Int)).toNat = p.tab.length by omega]
        simp [Ty.word, tabNames, ht]
  have hmap : (l.map fun e => (toTy (tabNames p'.tab) e.type, e.dim, e.name.toList)).map (fun m => (ctOf m.1 m.2.1, m.2.2)) =
      l.map fun e => (declTy (tabNames p'.tab) (e.type, e.dim), e.name.toList) := by
    rw [List.map_map]
    rfl
  refine ⟨_, .struct (fresh_type (l := []) h (by simpa using hf)) (unknown_of h (fun d hd hg => hno d hd (glob_nonneg hg).2.1) hx) hkw ?_ ?_ ?_, ?_⟩
  · simpa using h1
  · rw [hmap]
    intro m hm
    obtain ⟨e, he, rfl⟩ := List.mem_map.1 hm
    exact hms he
  · rw [hmap, List.pairwise_map]
    exact h4.imp fun hab hq => hab (String.toList_injective hq)
  · rw [hmap]
    have hnofun : ¬ IsFun ScSTRC := by unfold IsFun; decide
    refine h.add (e := ⟨x, ScSTRC, TySTRUC, p.dim, l.length, false⟩) (l := l.map voidEnt) ⟨?_, .inl ⟨rfl, rfl, ?_⟩, hno, ?_, fun _ => by simp, ?_, fun _ _ => rfl, ?_,
      fun hq => absurd hq hnofun, ?_, ?_, ?_, fun _ _ => rfl, ?_, fun _ hw => .inl hw⟩
    · refine hpl.of_pre ?_
      have : (l.map voidEnt).map Ent.pl = l.map Ent.pl := by rw [List.map_map]; rfl
      rw [ht, List.map_append, List.map_append, List.map_cons, List.map_cons, this]
      exact List.prefix_rfl
    · intro d hd
      obtain ⟨e, he, rfl⟩ := List.mem_map.1 hd
      exact (h3 e he).2.2.not.2.1
    · intro d hd
      obtain ⟨e, he, rfl⟩ := List.mem_map.1 hd
      obtain ⟨-, g2, g3⟩ := h3 e he
      refine ⟨rfl, g3.not.1, g2, fun _ => ?_⟩
      rcases g3 with g3 | ⟨i, d, g3, g4, g5⟩
      · exact .inl g3
      · rcases getElem?_app g4 with ⟨g6, g7⟩ | ⟨g6, g7⟩
        · exact .inr ⟨i, d, g3, by rw [List.getElem?_append_left g6]; exact g7, g5⟩
        · have hi : i = p.tab.length := by
            have := (List.getElem?_eq_some_iff.1 g4).1
            simp at this
            omega
          subst hi
          exact .inr ⟨_, ⟨x, ScSTRC, TySTRUC, p.dim, l.length, false⟩, g3, by simp, rfl⟩
    · rintro (hq | hq)
      · exact absurd hq (show ¬ ScSTRC = ScCOMM by decide)
      · exact absurd hq (show ¬ ScSTRC = ScGVAR by decide)
    · rintro (hq | hq)
      · exact absurd hq (show ¬ ScSTRC = ScCOMM by decide)
      · exact absurd hq (show ¬ ScSTRC = ScGVAR by decide)
    · intro w y hw
      rcases hw with hw | hw
      · exact if_neg hw
      · exact absurd rfl hw
    · intro _ n d hn hm
      obtain ⟨e, he, rfl⟩ := List.getElem?_map .. ▸ hn |> Option.map_eq_some_iff.1
      show (if x.toList = x.toList then _ else _) = _
      rw [if_pos rfl, ← hN]
      exact find_first (d := e) (g := fun e => declTy (tabNames p'.tab) (e.type, e.dim)) he
        fun m d' h5 h6 => hm m (voidEnt d') h5 (by rw [List.getElem?_map, h6]; rfl)
    · intro w
      show (w == x.toList || U.K w) = true ↔ _
      simp only [Bool.or_eq_true, beq_iff_eq]
      constructor
      · rintro (h5 | h5)
        · exact .inr ⟨trivial, h5⟩
        · exact .inl h5
      · rintro (h5 | h5)
        · exact .inr h5
        · exact .inl h5.2
    · rintro (hq | hq | hq | hq)
      · exact absurd hq (show ¬ ScSTRC = ScPROT by decide)
      · exact absurd hq (show ¬ ScSTRC = ScFUNC by decide)
      · exact absurd hq (show ¬ ScSTRC = ScCOMM by decide)
      · exact absurd hq (show ¬ ScSTRC = ScGVAR by decide)

/-! ### Files -/

theorem decln_step {p p' : Spot} {ts : List Parse.Tok} {m : List Ext} (h : DeclnT p ts m p') (hi : FInv U p.tab) :
    ∃ U', U.Steps (m.map trExt) U' ∧ FInv U' p'.tab := by
  cases h with
  | struct hf hl ht hpl =>
    obtain ⟨U', h1, h2⟩ := struct_step hi hf hl ht hpl
    exact ⟨U', .cons h1 .nil, h2⟩
  | vars ht hv hg hpl => exact gvars_step hg hv.2 hpl hi (tyOk_of (l := []) (by simpa using ht) hv.1 nofun)
  | @proto pub k ty dim x ps old prm p1 ht hti hf hs hpl =>
    obtain ⟨U', h1, h2⟩ := proto_step (p := { p with dim := dim }) hi hs (tyOk_of (l := []) (by simpa using ht) hti nofun) hf hpl
    exact ⟨U', .cons h1 .nil, h2⟩
  | @func pub k ty dim x ps old prm p1 p2 ts b p3 n ht hti hf hs ho hp hb _ hpl =>
    obtain ⟨U', h1, h2⟩ := func_step (p := { p with dim := dim }) hi hs (tyOk_of (l := []) (by simpa using ht) hti nofun) hf ho hp hb hpl
    exact ⟨U', .cons h1 .nil, h2⟩

theorem prog_step {p p' : Spot} {ts : List Parse.Tok} {m : List Ext} (h : ProgT p ts m p') : ∀ {U : CUnit}, FInv U p.tab →
    ∃ U', U.Steps (m.map trExt) U' ∧ FInv U' p'.tab := by
  induction h with
  | done => exact fun hi => ⟨_, .nil, hi⟩
  | more h1 _ ih =>
    intro U hi
    obtain ⟨U1, h2, h3⟩ := decln_step h1 hi
    obtain ⟨U2, h4, h5⟩ := ih h3
    exact ⟨U2, by rw [List.map_append]; exact h2.append h4, h5⟩

end Cmm.CText
