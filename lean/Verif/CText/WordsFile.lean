import Verif.CText.Words
import Verif.CText.UnitFile

/-
The same for files: `FileOk` holds of what is printed for a program, see Verif/CText/Words.lean.
-/
namespace Cmm.CText
open Cmm.Parse (Tab Ent Spot Sees VarKind IsFun IsGlob Prms Sig Fresh Earlier Again GVar GVars Flds Lines Thing Valued TypeTok nowFun keep TyVOID
  TyINTR TySTRUC TyDOTDOTDOT ScVOID ScSTRC ScPRM ScPROT ScFUNC ScCOMM ScGVAR ScFLD)

variable {T : Tab} {ty : Text → Bool} {p p' : Spot}

theorem not_strc {s : Int} {k : Tree.Kind} (h : IsFun s ∨ VarKind s k) : s ≠ ScSTRC := by
  rcases h with (rfl | rfl) | h
  · decide
  · decide
  · cases h <;> decide

/-- Only entries that are not types have changed. -/
theorem Ctx.change {T' : Tab} (C : Ctx ty T) (h1 : ∀ d ∈ T', d.scope = ScSTRC → d ∈ T) (h2 : ∀ d ∈ T, d.scope = ScSTRC → d ∈ T')
    (h3 : ∀ e ∈ T', ∀ k, (IsFun e.scope ∨ VarKind e.scope k) → ty e.name.toList = false) : Ctx ty T' where
  ident := h3
  types y hy := by
    rcases C.types y hy with h | ⟨d, hd, hs, hn⟩
    · exact .inl h
    · exact .inr ⟨d, h2 d hd hs, hs, hn⟩
  base := C.base
  strc d hd hs := C.strc d (h1 d hd hs) hs
  str := C.str

theorem Ctx.append {l : Tab} (C : Ctx ty T) (h : ∀ e ∈ l, e.scope ≠ ScSTRC ∧ ∀ k, (IsFun e.scope ∨ VarKind e.scope k) → ty e.name.toList = false) :
    Ctx ty (T ++ l) := by
  refine C.change (fun d hd hs => ?_) (fun d hd _ => List.mem_append_left _ hd) fun e he k hk => ?_
  · exact (List.mem_append.1 hd).elim id fun hd => absurd hs (h d hd).1
  · exact (List.mem_append.1 he).elim (fun he => C.ident e he k hk) fun he => (h e he).2 k hk

theorem Ctx.modify (C : Ctx ty T) {i : Nat} {d : Ent} {k : Tree.Kind} {s : Int} (hd : T[i]? = some d) (hk : IsFun d.scope ∨ VarKind d.scope k) (hs : s ≠ ScSTRC) :
    Ctx ty (T.modify i fun e => { e with scope := s }) := by
  have get : ∀ j, (T.modify i fun e => { e with scope := s })[j]? = if i = j then some { d with scope := s } else T[j]? := by
    intro j
    rw [List.getElem?_modify]
    split
    · next h => rw [← h, hd]; rfl
    · cases T[j]? <;> rfl
  have mem : ∀ e ∈ T.modify i fun e => { e with scope := s }, e = { d with scope := s } ∨ e ∈ T := by
    intro e he
    obtain ⟨j, hj⟩ := List.mem_iff_getElem?.1 he
    rw [get] at hj
    split at hj
    · cases hj; exact .inl rfl
    · exact .inr (List.mem_of_getElem? hj)
  refine C.change (fun e he h => ?_) (fun e he h => ?_) fun e he k' hk' => ?_
  · rcases mem e he with rfl | he
    · exact absurd h hs
    · exact he
  · obtain ⟨j, hj⟩ := List.mem_iff_getElem?.1 he
    refine List.mem_of_getElem? (i := j) ?_
    rw [get, if_neg, hj]
    rintro rfl
    rw [hd] at hj
    cases hj
    exact not_strc hk h
  · rcases mem e he with rfl | he
    · exact C.ident d (List.mem_of_getElem? hd) k hk
    · exact C.ident e he k' hk'

theorem Ctx.named (C : Ctx ty T) {sc : Int} {x : String} {l : Tab} (hf : Fresh (T ++ l) sc x) (hx : TokOk (.name x)) : ty x.toList = false :=
  C.fresh hx fun d hd hn hs => (hf.2 d (List.mem_append_left _ hd) hn (by rw [hs]; decide)).2.1 hs

theorem Ctx.empty (C : Ctx ty T) : ty [] = false := by
  cases h : ty [] with
  | false => rfl
  | true =>
    rcases C.types [] h with h | ⟨d, hd, hs, hn⟩
    · exact absurd h (by decide)
    · have := (C.strc d hd hs).1
      rw [hn] at this
      obtain ⟨c, cs, h, -⟩ := this.first
      cases h

theorem namedBy_tab (T : Tab) : NamedBy (tabNames T) T := by
  intro n e he
  simp [tabNames, he]

/-! ### Parameters -/

/-- A parameter. -/
def ParOf (ty : Text → Bool) (T : Tab) (e : Ent) : Prop :=
  e.scope = ScPRM ∧ ty e.name.toList = false ∧ (e.type = TyDOTDOTDOT ∨ e.type ≠ TyDOTDOTDOT ∧ TyOk T e.type ∧ TokOk (.name e.name))

theorem prms_words (C : Ctx ty T) {old : Option Nat} {ps : List Parse.Tok} (h : Prms old p ps p') :
    (∃ l0, p.tab = T ++ l0 ∧ ∀ e ∈ l0, e.scope ≠ ScSTRC) → ToksOk ps →
    ∃ l, p'.tab = p.tab ++ l ∧ (∀ e ∈ l, ParOf ty T e) ∧ ∀ i e, l[i]? = some e → e.type = TyDOTDOTDOT → i + 1 = l.length := by
  have one : ∀ {k : Parse.Tok} {t : Int} {dim : Nat} {x : String} {c : Nat} {T1 : Tab}, TypeTok T1 k t → Valued (t, dim) → Fresh T1 ScPRM x → 
      (∃ l0, T1 = T ++ l0 ∧ ∀ e ∈ l0, e.scope ≠ ScSTRC) → TokOk (.name x) → ParOf ty T ⟨x, ScPRM, t, dim, c, false⟩ ∧ t ≠ TyDOTDOTDOT := by
    rintro k t dim x c T1 h1 h2 h3 ⟨l0, rfl, h4⟩ h5
    have := tyOk_of h1 h2.1 h4
    exact ⟨⟨rfl, C.named h3 h5, .inr ⟨this.not.2.1, this, h5⟩⟩, this.not.2.1⟩
  induction h with
  | none => exact fun _ _ => ⟨[], by simp, nofun, by simp⟩
  | dots => exact fun _ _ => ⟨[_], rfl, fun e he => by rw [List.mem_singleton.1 he]; exact ⟨rfl, C.empty, .inl rfl⟩, fun i e he _ => by
      cases i with
      | zero => rfl
      | succ i => simp at he⟩
  | @last p k t dim x h1 h2 _ h4 =>
    intro hp ht
    have := one (c := p.cnt) h1 h2 h4 hp ((toksOk_append.1 (toksOk_cons.1 ht).2).2 _ (List.mem_singleton_self _))
    refine ⟨[_], rfl, fun e he => by rw [List.mem_singleton.1 he]; exact this.1, fun i e he _ => ?_⟩
    cases i with
    | zero => rfl
    | succ i => simp at he
  | @more p k t dim x us p' h1 h2 _ h4 _ ih =>
    intro hp ht
    have ht := (toksOk_append.1 (toksOk_cons.1 ht).2).2
    have := one (c := p.cnt) h1 h2 h4 hp (toksOk_cons.1 ht).1
    obtain ⟨l0, g1, g2⟩ := hp
    obtain ⟨l, k1, k2, k3⟩ := ih ⟨l0 ++ [⟨x, ScPRM, t, dim, p.cnt, false⟩], by simp [Spot.enter, g1], by
      intro e he
      rcases List.mem_append.1 he with he | he
      · exact g2 e he
      · rw [List.mem_singleton.1 he]; show ScPRM ≠ ScSTRC; decide⟩ (toksOk_cons.1 (toksOk_cons.1 ht).2).2
    refine ⟨⟨x, ScPRM, t, dim, p.cnt, false⟩ :: l, by rw [k1]; simp [Spot.enter], ?_, ?_⟩
    · intro e he
      rcases List.mem_cons.1 he with rfl | he
      · exact this.1
      · exact k2 e he
    · intro i e he hq
      cases i with
      | zero => simp at he; subst he; exact absurd hq this.2
      | succ i => simp at he; have := k3 i e he hq; simp; omega

/-! ### Fields -/

theorem flds_words (C : Ctx ty T) {t : Int} {dim : Nat} {ts : List Parse.Tok} (h : Flds t dim p ts p') : (∃ l0, p.tab = T ++ l0) → ToksOk ts →
    ∃ l, p'.tab = p.tab ++ l ∧ ∀ e ∈ l, TokOk (.name e.name) ∧ ty e.name.toList = false := by
  induction h with
  | one hf =>
    rintro ⟨l0, h1⟩ ht
    have hx := ht _ (List.mem_singleton_self _)
    rw [h1] at hf
    exact ⟨[_], rfl, fun e he => by rw [List.mem_singleton.1 he]; exact ⟨hx, C.named hf hx⟩⟩
  | @more p x us p' hf _ ih =>
    rintro ⟨l0, h1⟩ ht
    have hx := (toksOk_cons.1 ht).1
    rw [h1] at hf
    obtain ⟨l, k1, k2⟩ := ih ⟨l0 ++ [⟨x, ScFLD, t, dim, p.cnt, false⟩], by simp [Spot.enter, h1]⟩ (toksOk_cons.1 (toksOk_cons.1 ht).2).2
    refine ⟨⟨x, ScFLD, t, dim, p.cnt, false⟩ :: l, by rw [k1]; simp [Spot.enter], fun e he => ?_⟩
    rcases List.mem_cons.1 he with rfl | he
    · exact ⟨hx, C.named hf hx⟩
    · exact k2 e he

theorem lines_words (C : Ctx ty T) {ts : List Parse.Tok} (h : Lines p ts p') : (∃ l0, p.tab = T ++ l0) → ToksOk ts →
    ∃ l, p'.tab = p.tab ++ l ∧ ∀ e ∈ l, TokOk (.name e.name) ∧ ty e.name.toList = false := by
  induction h with
  | @one p k t dim us p' _ _ hf =>
    intro hp ht
    exact flds_words (p := { p with dim := dim }) C hf hp (toksOk_append.1 (toksOk_append.1 (toksOk_cons.1 ht).2).2).1
  | @more p k t dim us p1 vs p' _ _ hf _ ih =>
    rintro ⟨l0, h1⟩ ht
    have ht := toksOk_append.1 (toksOk_append.1 (toksOk_cons.1 ht).2).2
    obtain ⟨l, k1, k2⟩ := flds_words (p := { p with dim := dim }) C hf ⟨l0, h1⟩ ht.1
    obtain ⟨m, m1, m2⟩ := ih ⟨l0 ++ l, by rw [k1]; simp [h1]⟩ (toksOk_cons.1 ht.2).2
    exact ⟨l ++ m, by rw [m1, k1]; simp, fun e he => (List.mem_append.1 he).elim (k2 e) (m2 e)⟩

/-! ### Declarations -/

/-- What remains to be asked of the text of a declaration: a variable has no value (left out in the model of the text, see C75), `...` is not the
only parameter, and the bodies of do statements do not begin with a word. -/
def Rest : Ext → Prop
  | .struct _ _ => True
  | .var _ val _ _ _ => val = false
  | .proto f | .fn f => f.pars.head? ≠ some .dots ∧ DoOk f.body

/-- The types behind the declarations. -/
def typesAfter (ty : Text → Bool) (m : List Ext) : Text → Bool := m.foldl (fun t e => (trExt e).types t) ty

theorem fileOk_append {m m' : List Ext} : ∀ {ty : Text → Bool}, FileOk ty m → FileOk (typesAfter ty m) m' → FileOk ty (m ++ m') := by
  induction m with
  | nil => exact fun _ h => h
  | cons e m ih => exact fun h h' => ⟨h.1, h.2.1, ih h.2.2 h'⟩

theorem typesAfter_append (ty : Text → Bool) (m m' : List Ext) : typesAfter ty (m ++ m') = typesAfter (typesAfter ty m) m' := List.foldl_append ..

theorem Ctx.struct (C : Ctx ty T) {x : String} (hf : Fresh T ScSTRC x) (hx : TokOk (.name x)) (hl : ∀ n, x.toList ≠ strLab n) {e : Ent}
    (he : e.scope = ScSTRC ∧ e.name = x) : Ctx (fun y => y == x.toList || ty y) (T ++ [e]) where
  ident d hd k hk := by
    have hns := not_strc hk
    rcases List.mem_append.1 hd with hd | hd
    · have h1 := C.ident d hd k hk
      have h2 : d.name ≠ x := by
        intro hq
        refine (hf.2 d hd hq ?_).1 rfl
        rcases hk with (h | h) | h
        · rw [h]; decide
        · rw [h]; decide
        · generalize d.scope = sc at h
          cases h <;> decide
      simp only [h1, Bool.or_false, beq_eq_false_iff_ne]
      exact fun hq => h2 (String.toList_injective hq)
    · rw [List.mem_singleton.1 hd, he.1] at hns
      exact absurd rfl hns
  types y hy := by
    simp only [Bool.or_eq_true, beq_iff_eq] at hy
    rcases hy with rfl | hy
    · exact .inr ⟨e, by simp, he.1, by rw [he.2]⟩
    · rcases C.types y hy with h | ⟨d, hd, h⟩
      · exact .inl h
      · exact .inr ⟨d, by simp [hd], h⟩
  base y hy := by rw [C.base y hy]; exact Bool.or_true _
  strc d hd hs := by
    rcases List.mem_append.1 hd with hd | hd
    · have := C.strc d hd hs
      exact ⟨this.1, by rw [this.2]; exact Bool.or_true _⟩
    · rw [List.mem_singleton.1 hd, he.2]
      exact ⟨hx.1, by simp⟩
  str n := by
    refine ⟨(C.str n).1, ?_⟩
    simp only [(C.str n).2, Bool.or_false, beq_eq_false_iff_ne]
    exact (hl n).symm

theorem struct_words (C : Ctx ty p.tab) {x : String} {fs : List Parse.Tok} {fl : Tab} (hf : Fresh p.tab ScSTRC x)
    (hl : Lines { p.enter ⟨x, ScSTRC, TySTRUC, p.dim, p.cnt, false⟩ with cnt := 0 } fs p')
    (ht : p'.tab = p.tab ++ ⟨x, ScSTRC, TySTRUC, p.dim, p.cnt, false⟩ :: fl) (hpl : Plain p'.tab) (hx : TokOk (.name x)) (hfs : ToksOk fs) :
    FileOk ty [.struct x.toList (fl.map fun e => (toTy (tabNames p'.tab) e.type, e.dim, e.name.toList))] ∧
    Ctx (fun y => y == x.toList || ty y) (keep none p.tab ⟨x, ScSTRC, TySTRUC, p.dim, fl.length, false⟩ fl) := by
  have hn := hpl.names ⟨x, ScSTRC, TySTRUC, p.dim, p.cnt, false⟩ (by rw [ht]; simp)
  have C' := C.struct (e := ⟨x, ScSTRC, TySTRUC, p.dim, p.cnt, false⟩) hf hx hn ⟨rfl, rfl⟩
  obtain ⟨l, h1, h2, h3, -⟩ := lines_full (T := p.tab ++ [⟨x, ScSTRC, TySTRUC, p.dim, p.cnt, false⟩]) hl ⟨[], by simp [Spot.enter], nofun⟩
  obtain ⟨l', k2, k3⟩ := lines_words C' hl ⟨[], by simp [Spot.enter]⟩ hfs
  have e1 : l = fl := by rw [ht] at h2; simpa [Spot.enter] using h2.symm
  have e2 : l' = fl := by rw [ht] at k2; simpa [Spot.enter] using k2.symm
  subst e1
  subst e2
  have hN : NamedBy (tabNames p'.tab) (p.tab ++ [⟨x, ScSTRC, TySTRUC, p.dim, p.cnt, false⟩]) :=
    (namedBy_tab p'.tab).mono (by rw [ht]; simp [namesOf])
  have hm : ∀ e ∈ l', ((toTy (tabNames p'.tab) e.type).Ok ∧ IsWord e.name.toList) ∧
      ((toTy (tabNames p'.tab) e.type).word = x.toList ∨ ty (toTy (tabNames p'.tab) e.type).word = true) ∧ Ident ty e.name.toList ∧ e.name.toList ≠ x.toList := by
    intro e he
    have g1 := C'.type (h3 e he).2.2 hN
    have g2 := k3 e he
    simp only [Bool.or_eq_true, beq_iff_eq] at g1
    simp only [Bool.or_eq_false_iff, beq_eq_false_iff_ne] at g2
    exact ⟨⟨g1.1, g2.1.1⟩, g1.2, ⟨g2.1.2, g2.2.2⟩, g2.2.1⟩
  refine ⟨⟨⟨hx.1, fun m h => ?_⟩, ⟨⟨hx.2, C.named (l := []) (by simpa using hf) hx⟩, fun m h => ?_⟩, trivial⟩, ?_⟩
  · obtain ⟨e, he, rfl⟩ := List.mem_map.1 h
    exact (hm e he).1
  · obtain ⟨e, he, rfl⟩ := List.mem_map.1 h
    exact (hm e he).2
  · have := (C.struct (e := ⟨x, ScSTRC, TySTRUC, p.dim, l'.length, false⟩) hf hx hn ⟨rfl, rfl⟩).append (l := l'.map fun e => { e with scope := ScVOID }) (by
      intro e he
      obtain ⟨d, hd, rfl⟩ := List.mem_map.1 he
      have := (k3 d hd).2
      exact ⟨show ScVOID ≠ ScSTRC by decide, fun _ _ => this⟩)
    simpa [keep] using this

theorem gvar_words (C : Ctx ty p.tab) {t : Int} {dim : Nat} {pub : Bool} {ts : List Parse.Tok} {m : List Thing} (hg : GVar t dim pub p ts m p')
    (ht : TyOk p.tab t) (hk : ToksOk ts) (hr : ∀ e ∈ m.filterMap varExt, Rest e) :
    FileOk ty (m.filterMap varExt) ∧ typesAfter ty (m.filterMap varExt) = ty ∧ Ctx ty p'.tab ∧ TyOk p'.tab t := by
  cases hg with
  | @room x hf he =>
    have hx := hk _ (List.mem_singleton_self _)
    have hi := C.named (l := []) (by simpa using hf) hx
    have hN : NamedBy (tabNames (p.tab ++ [⟨x, ScCOMM, t, dim, p.cnt, pub⟩])) p.tab := (namedBy_tab _).mono (by simp [namesOf])
    have h1 := C.type ht hN
    have e : [Thing.room p.tab.length (p.enter ⟨x, ScCOMM, t, dim, p.cnt, pub⟩).tab].filterMap varExt =
        [.var pub false (toTy (tabNames (p.tab ++ [⟨x, ScCOMM, t, dim, p.cnt, pub⟩])) t) dim x.toList] := by
      simp [varExt, Spot.enter]
    rw [e]
    refine ⟨⟨⟨rfl, h1.1, hx.1⟩, ⟨h1.2, hx.2, hi⟩, trivial⟩, rfl, ?_, ht.mono⟩
    exact C.append (l := [_]) fun d hd => by
      rw [List.mem_singleton.1 hd]
      exact ⟨show ScCOMM ≠ ScSTRC by decide, fun _ _ => hi⟩
  | again => exact ⟨trivial, rfl, C, ht⟩
  | @value x ts d m hf he =>
    exact absurd (hr (.var pub true _ _ _) (by simp [varExt, Spot.enter]; exact ⟨rfl, rfl, rfl⟩)) (by simp [Rest])
  | @valueAgain x i ts d m hf he ha =>
    exact absurd (hr (.var pub true _ _ _) (by simp [varExt, Spot.enter]; exact ⟨rfl, rfl, rfl⟩)) (by simp [Rest])

theorem gvars_words {t : Int} {dim : Nat} {pub : Bool} {ts : List Parse.Tok} {m : List Thing} (hg : GVars t dim pub p ts m p') : Ctx ty p.tab →
    TyOk p.tab t → ToksOk ts → (∀ e ∈ m.filterMap varExt, Rest e) →
    FileOk ty (m.filterMap varExt) ∧ typesAfter ty (m.filterMap varExt) = ty ∧ Ctx ty p'.tab := by
  induction hg with
  | one hg =>
    intro C ht hk hr
    obtain ⟨h1, h2, h3, -⟩ := gvar_words C hg ht hk hr
    exact ⟨h1, h2, h3⟩
  | more hg _ ih =>
    intro C ht hk hr
    have hk := toksOk_append.1 hk
    rw [List.filterMap_append] at hr ⊢
    obtain ⟨h1, h2, h3, h4⟩ := gvar_words C hg ht hk.1 fun e he => hr e (List.mem_append_left _ he)
    obtain ⟨h5, h6, h7⟩ := ih h3 h4 (toksOk_cons.1 hk.2).2 fun e he => hr e (List.mem_append_right _ he)
    exact ⟨fileOk_append h1 (by rw [h2]; exact h5), by rw [typesAfter_append, h2, h6], h7⟩

/-! Functions -/

theorem namesOf_nowFun (old : Option Nat) (T : Tab) : namesOf (nowFun old T) = namesOf T := by
  cases old with
  | none => rfl
  | some i =>
    apply List.ext_getElem?
    intro j
    simp only [namesOf, nowFun, List.getElem?_map, List.getElem?_modify]
    split <;> cases T[j]? <;> rfl

theorem Ctx.nowFun (C : Ctx ty T) {old : Option Nat} (h : ∀ i, old = some i → ∃ d, T[i]? = some d ∧ IsFun d.scope) : Ctx ty (nowFun old T) := by
  cases old with
  | none => exact C
  | some i =>
    obtain ⟨d, h1, h2⟩ := h i rfl
    exact C.modify (k := .glb) h1 (.inl h2) (by decide)

section
variable {t : Int} {dim : Nat} {pub : Bool} {x : String} {ps : List Parse.Tok} {old : Option Nat} {prm : Tab} {p1 : Spot}

theorem sig_words (C : Ctx ty p.tab) (hs : Sig t dim pub x p ps old prm p1) (hps : ToksOk ps) :
    (∀ e ∈ prm, ParOf ty p.tab e) ∧ ∀ i e, prm[i]? = some e → e.type = TyDOTDOTDOT → i + 1 = prm.length := by
  obtain ⟨l, h1, h2⟩ := prms_words C hs.prms ⟨[⟨x, ScPROT, t, dim, p.cnt, pub⟩], rfl, fun e he => by
    rw [List.mem_singleton.1 he]; show ScPROT ≠ ScSTRC; decide⟩ hps
  have : l = prm := by rw [hs.tab] at h1; simpa [Spot.enter] using h1.symm
  rw [← this]
  exact h2

theorem head_words {N : Nat → Text} {b : Option VS} (C : Ctx ty p.tab) (hs : Sig t dim pub x p ps old prm p1) (hps : ToksOk ps) (hx : TokOk (.name x))
    (hi : ty x.toList = false) (ht : TyOk p.tab t) (hN : NamedBy N p.tab) (hb : FineS ty (toS N (stOfV b))) (hr : Rest (.fn (toFn N t dim pub x prm b))) :
    FnLexOk (toFn N t dim pub x prm b) ∧ FnOk ty (toFn N t dim pub x prm b) := by
  obtain ⟨h1, h2⟩ := sig_words C hs hps
  have h3 := C.type ht hN
  have h4 := fine_block hb
  have hp : ∀ q ∈ prm.map (toPar N), ParLexOk q ∧ ParOk ty q := by
    intro q hq
    obtain ⟨e, he, rfl⟩ := List.mem_map.1 hq
    obtain ⟨g1, g2, g3⟩ := h1 e he
    unfold toPar
    rcases g3 with g3 | ⟨g3, g4, g5⟩
    · rw [if_pos g3]; exact ⟨trivial, trivial⟩
    · rw [if_neg g3]
      have := C.type g4 hN
      exact ⟨⟨this.1, g5.1⟩, this.2, g5.2, g2⟩
  refine ⟨⟨h3.1, hx.1, fun q hq => (hp q hq).1, h4.2 hr.2⟩, ⟨h3.2, ⟨hx.2, hi⟩, fun q hq => (hp q hq).2, fun i hi => ?_, h4.1⟩⟩
  refine ⟨?_, ?_⟩
  · cases i with
    | zero => exact absurd (by rw [List.head?_eq_getElem?]; exact hi) hr.1
    | succ i => omega
  · simp only [toFn, List.getElem?_map, Option.map_eq_some_iff] at hi
    obtain ⟨e, he, hq⟩ := hi
    unfold toPar at hq
    split at hq
    · next hd => simpa [toFn] using h2 i e he hd
    · cases hq

theorem keep_words {T : Tab} {e : Ent} (C : Ctx ty T) (he : IsFun e.scope) (hi : ty e.name.toList = false) (hp : ∀ d ∈ prm, ty d.name.toList = false) :
    Ctx ty (keep old T e prm) := by
  cases old with
  | some i => exact C
  | none =>
    refine C.append fun d hd => ?_
    rcases List.mem_cons.1 hd with rfl | hd
    · exact ⟨not_strc (k := .glb) (.inl he), fun _ _ => hi⟩
    · obtain ⟨a, ha, rfl⟩ := List.mem_map.1 hd
      have := hp a ha
      exact ⟨show ScVOID ≠ ScSTRC by decide, fun _ _ => this⟩

theorem like_fun (hs : Sig t dim pub x p ps old prm p1) : ∀ i, old = some i → ∃ d, p.tab[i]? = some d ∧ IsFun d.scope := by
  intro i hi
  have h := hs.earlier
  rw [hi] at h
  obtain ⟨d, hd, -⟩ := h
  exact ⟨d, hd, (hs.like i d hi hd).1⟩

end

theorem toksOk_pub {pub : Bool} {ts : List Parse.Tok} (h : ToksOk (Parse.pubToks pub ++ ts)) : ToksOk ts := (toksOk_append.1 h).2

theorem decln_words (C : Ctx ty p.tab) {ts : List Parse.Tok} {m : List Ext} (h : DeclnT p ts m p') (hk : ToksOk ts) (hr : ∀ e ∈ m, Rest e) :
    FileOk ty m ∧ Ctx (typesAfter ty m) p'.tab := by
  cases h with
  | struct hf hl ht hpl =>
    have hk := toksOk_cons.1 (toksOk_cons.1 hk).2
    exact struct_words C hf hl ht hpl hk.1 (toksOk_append.1 (toksOk_cons.1 hk.2).2).1
  | @vars pub k t dim us m p' ht hv hg hpl =>
    have hk := (toksOk_append.1 (toksOk_append.1 (toksOk_cons.1 (toksOk_pub hk)).2).2).1
    obtain ⟨h1, h2, h3⟩ := gvars_words (p := { p with dim := dim }) hg C (tyOk_of (l := []) (by simpa using ht) hv.1 nofun) hk hr
    exact ⟨h1, by rw [h2]; exact h3⟩
  | @proto pub k t dim x ps old prm p1 ht hti hf hs hpl =>
    have hk := toksOk_cons.1 (toksOk_append.1 (toksOk_cons.1 (toksOk_pub hk)).2).2
    have hps := (toksOk_append.1 (toksOk_cons.1 hk.2).2).1
    have hi := C.named (l := []) (by simpa using hf) hk.1
    have hN : NamedBy (tabNames p1.tab) p.tab := (namedBy_tab _).mono (by rw [hs.tab]; simp [namesOf])
    have := head_words (p := { p with dim := dim }) (b := none) C hs hps hk.1 hi (tyOk_of (l := []) (by simpa using ht) hti nofun) hN
      ⟨trivial, fun _ => trivial⟩ (hr (.proto _) (List.mem_singleton_self _))
    exact ⟨⟨this.1, this.2, trivial⟩, keep_words C (.inl rfl) hi fun d hd => ((sig_words (p := { p with dim := dim }) C hs hps).1 d hd).2.1⟩
  | @func pub k t dim x ps old prm p1 p2 ts b p3 n ht hti hf hs ho hp hb _ hpl =>
    have hk := toksOk_cons.1 (toksOk_append.1 (toksOk_cons.1 (toksOk_pub hk)).2).2
    have hk' := toksOk_append.1 (toksOk_cons.1 hk.2).2
    have hps := hk'.1
    have hts := (toksOk_append.1 (toksOk_cons.1 (toksOk_cons.1 hk'.2).2).2).1
    have hi := C.named (l := []) (by simpa using hf) hk.1
    have hsw := (sig_words (p := { p with dim := dim }) C hs hps).1
    have Cn : Ctx ty (nowFun old p.tab) := C.nowFun (like_fun (p := { p with dim := dim }) hs)
    have C2 : Ctx ty p2.tab := by
      rw [hp]
      refine Cn.append fun d hd => ?_
      rcases List.mem_cons.1 hd with rfl | hd
      · exact ⟨show ScFUNC ≠ ScSTRC by decide, fun _ _ => hi⟩
      · have := hsw d hd
        exact ⟨by rw [this.1]; decide, fun _ _ => this.2.1⟩
    have hN : NamedBy (tabNames p3.tab) p.tab := (namedBy_tab _).mono (List.IsPrefix.trans (by
      rw [hp]
      rw [← namesOf_nowFun old]
      exact ⟨namesOf (⟨x, ScFUNC, t, dim, prm.length, pub⟩ :: prm), by simp only [namesOf, ← List.map_append]⟩) hb.grow)
    have hfb := (hb.fine (N := tabNames p3.tab) C2 ⟨[], by simp, nofun⟩ (namedBy_tab _) hts ⟨trivial, fun _ => trivial⟩).1
    have := head_words (p := { p with dim := dim }) C hs hps hk.1 hi (tyOk_of (l := []) (by simpa using ht) hti nofun) hN hfb (hr _ (List.mem_singleton_self _))
    exact ⟨⟨this.1, this.2, trivial⟩, keep_words Cn (.inr rfl) hi fun d hd => (hsw d hd).2.1⟩

theorem prog_words {ts : List Parse.Tok} {m : List Ext} (h : ProgT p ts m p') : ∀ {ty : Text → Bool}, Ctx ty p.tab → ToksOk ts → (∀ e ∈ m, Rest e) →
    FileOk ty m := by
  induction h with
  | done => exact fun _ _ _ => trivial
  | more h1 _ ih =>
    intro ty C hk hr
    have hk := toksOk_append.1 hk
    obtain ⟨h2, h3⟩ := decln_words C h1 hk.1 fun e he => hr e (List.mem_append_left _ he)
    exact fileOk_append h2 (ih h3 hk.2 fun e he => hr e (List.mem_append_right _ he))

end Cmm.CText
