import Verif.Parse.Eval
import Verif.Parse.Glob
import Mathlib.Order.Nat

/-! C35: names that are visible together do not collide. -/
namespace Cmm.Parse
open Cmm.Tree

/-! ### Specification -/

/-- A local variable or a parameter that is visible. -/
def Ent.isLocal (e : Ent) : Prop := e.scope = ScLVAR ∨ e.scope = ScPRM

/-- Two entries that may not be there together: two locals of the same name, two fields (of the
structure being declared) of the same name, a structure (or typedef) name and anything visible
of the same name. -/
def Clash (e d : Ent) : Prop :=
  e.name = d.name ∧ e.scope ≠ ScVOID ∧ d.scope ≠ ScVOID ∧
    (e.isLocal ∧ d.isLocal ∨ e.scope = ScFLD ∧ d.scope = ScFLD ∨ e.scope = ScSTRC ∨ d.scope = ScSTRC)

/-- A table without such entries, within its capacity. -/
def Good (t : Tab) : Prop := t.length ≤ NtMAX ∧ t.Pairwise fun e d => ¬Clash e d

/-- The fields of structure `i`. -/
def fieldNames (t : Tab) (i n : Nat) : List String := ((t.drop (i + 1)).take n).map Ent.name

/-- The fields of all structures are there and have distinct names. -/
def FieldsOk (t : Tab) : Prop :=
  ∀ (i : Nat) (e : Ent), t[i]? = some e → e.scope = ScSTRC → e.type = TySTRUC →
    i + e.cnt < t.length ∧ (fieldNames t i e.cnt).Nodup

/-- The tables the operations of namtbl.c make, used as the parser uses them: parameters are
declared when no local variable is visible, and only the scopes of global functions
and variables are changed, among themselves. -/
inductive Made : Tab → Prop
  | nil : Made []
  | decl {t t' e} : Made t → (e.scope = ScPRM → ∀ d ∈ t, d.scope ≠ ScLVAR) → defName t e = some t' → Made t'
  | void {t} (i : Nat) : Made t → Made (setVoid t i)
  | undef {t} (i : Nat) : Made t → Made (undefName t i)
  | scope {t i d c} : Made t → t[i]? = some d → IsGlob d → 0 ≤ c → c ≤ ScGVAR → Made (setScope t i c)
  | cnt {t} (i c : Nat) : Made t → Made (setCnt t i c)

/-! ### The operations -/

theorem Clash.symm {e d : Ent} (h : Clash e d) : Clash d e := by
  obtain ⟨h1, h2, h3, h4⟩ := h
  refine ⟨h1.symm, h3, h2, ?_⟩
  rcases h4 with h | h | h | h
  · exact .inl h.symm
  · exact .inr (.inl h.symm)
  · exact .inr (.inr (.inr h))
  · exact .inr (.inr (.inl h))

/-- Whether two entries clash depends on the name and on the kind of scope only. -/
theorem Clash.mono {e d e' d' : Ent} (h : Clash e' d') (h1 : e'.name = e.name) (h2 : d'.name = d.name)
    (h3 : e'.scope = e.scope ∨ e'.scope = ScVOID ∨ IsGlob e ∧ IsGlob e')
    (h4 : d'.scope = d.scope ∨ d'.scope = ScVOID ∨ IsGlob d ∧ IsGlob d') : Clash e d := by
  obtain ⟨k1, k2, k3, k4⟩ := h
  refine ⟨by rw [← h1, ← h2, k1], ?_⟩
  unfold Ent.isLocal IsGlob at *
  simp only [ScVOID, ScSTRC, ScPROT, ScFUNC, ScCOMM, ScGVAR, ScLVAR, ScFLD, ScPRM] at *
  refine ⟨?_, ?_, ?_⟩ <;> omega

theorem chkName_none {t : Tab} {x : String} {c : Int} (h : chkName t x c = none) :
    ∀ d ∈ t, collides x c d = false := by
  intro d hd
  rw [Bool.eq_false_iff]
  intro hc
  -- the first index with a collision
  have hex : ∃ i : Nat, ∃ e, t[i]? = some e ∧ collides x c e = true := by
    obtain ⟨i, hi⟩ := List.mem_iff_getElem?.1 hd
    exact ⟨i, d, hi, hc⟩
  classical
  obtain ⟨e, he, hce⟩ := Nat.find_spec hex
  have hlt := (List.getElem?_eq_some_iff.1 he).1
  have : chkName t x c = some (Nat.find hex) := by
    unfold chkName
    rw [firstIdx_iff]
    refine ⟨by omega, by omega, ⟨e, he, hce⟩, ?_⟩
    intro j e' _ hj he'
    rw [Bool.eq_false_iff]
    exact fun hc' => Nat.find_min hex hj ⟨e', he', hc'⟩
  rw [h] at this
  cases this

theorem not_clash {d e : Ent} (h : collides e.name e.scope d = false)
    (hp : e.scope = ScPRM → d.scope ≠ ScLVAR) : ¬Clash d e := by
  rintro ⟨h1, h2, h3, h4⟩
  rw [Bool.eq_false_iff] at h
  refine h ?_
  simp only [collides, Bool.and_eq_true, Bool.or_eq_true, bne_iff_ne, beq_iff_eq, decide_eq_true_eq]
  refine ⟨⟨h2, h1⟩, ?_⟩
  unfold Ent.isLocal at h4
  simp only [ScVOID, ScSTRC, ScLVAR, ScFLD, ScPRM] at *
  omega

theorem Good.decl {t t' : Tab} {e : Ent} (h : Good t) (hp : e.scope = ScPRM → ∀ d ∈ t, d.scope ≠ ScLVAR)
    (hd : defName t e = some t') : Good t' := by
  obtain ⟨rfl, h1, h2⟩ := defName_some hd
  refine ⟨by simp; omega, ?_⟩
  rw [List.pairwise_append]
  refine ⟨h.2, List.pairwise_singleton _ _, ?_⟩
  intro d hm e' he'
  rw [List.mem_singleton] at he'
  subst he'
  exact not_clash (chkName_none h2 d hm) fun h => hp h d hm

/-- Changing entries without making new clashes. -/
theorem Good.change {t t' : Tab} (h : Good t) (hl : t'.length ≤ t.length)
    (hc : ∀ (i : Nat) (e' : Ent), t'[i]? = some e' → ∃ e : Ent, t[i]? = some e ∧ e'.name = e.name ∧
      (e'.scope = e.scope ∨ e'.scope = ScVOID ∨ IsGlob e ∧ IsGlob e')) : Good t' := by
  refine ⟨Nat.le_trans hl h.1, ?_⟩
  rw [List.pairwise_iff_getElem]
  intro i j hi hj hij hcl
  obtain ⟨e, he, h1, h2⟩ := hc i _ (List.getElem?_eq_getElem hi)
  obtain ⟨d, hd, h3, h4⟩ := hc j _ (List.getElem?_eq_getElem hj)
  have := List.pairwise_iff_getElem.1 h.2 i j (by omega) (by omega) hij
  rw [(List.getElem?_eq_some_iff.1 he).2, (List.getElem?_eq_some_iff.1 hd).2] at this
  exact this (hcl.mono h1 h3 h2 h4)

theorem setVoid_get (t : Tab) (i j : Nat) : (setVoid t i)[j]? =
    if j < i then t[j]? else (t[j]?).map fun e => { e with scope := ScVOID } := by
  unfold setVoid
  by_cases hi : i ≤ t.length
  · split
    · rename_i h
      rw [List.getElem?_append_left (by simp; omega), List.getElem?_take_of_lt h]
    · rename_i h
      rw [List.getElem?_append_right (by simp; omega), List.getElem?_map, List.getElem?_drop]
      congr 2
      simp
      omega
  · rw [List.take_of_length_le (by omega), List.drop_of_length_le (by omega), List.map_nil, List.append_nil]
    split
    · rfl
    · rw [List.getElem?_eq_none (by omega)]
      rfl

theorem setVoid_len (t : Tab) (i : Nat) : (setVoid t i).length = t.length := by
  simp [setVoid]
  omega

theorem Good.void {t : Tab} (h : Good t) (i : Nat) : Good (setVoid t i) := by
  refine h.change (by rw [setVoid_len]) ?_
  intro j e' he'
  rw [setVoid_get] at he'
  split at he'
  · exact ⟨e', he', rfl, .inl rfl⟩
  · rw [Option.map_eq_some_iff] at he'
    obtain ⟨e, he, rfl⟩ := he'
    exact ⟨e, he, rfl, .inr (.inl rfl)⟩

theorem Good.undef {t : Tab} (h : Good t) (i : Nat) : Good (undefName t i) := by
  refine h.change (by simp [undefName]) ?_
  intro j e' he'
  rw [undefName, List.getElem?_take] at he'
  split at he'
  · exact ⟨e', he', rfl, .inl rfl⟩
  · cases he'

theorem modify_get {t : Tab} {i j : Nat} {f : Ent → Ent} {e' : Ent} (h : (t.modify i f)[j]? = some e') :
    ∃ e : Ent, t[j]? = some e ∧ (i = j ∧ e' = f e ∨ i ≠ j ∧ e' = e) := by
  rw [List.getElem?_modify] at h
  cases hk : t[j]? with
  | none => rw [hk] at h; cases h
  | some d =>
    rw [hk] at h
    by_cases hij : i = j
    · refine ⟨d, rfl, .inl ⟨hij, ?_⟩⟩
      simpa [hij] using h.symm
    · refine ⟨d, rfl, .inr ⟨hij, ?_⟩⟩
      simpa [hij] using h.symm

theorem Good.scope {t : Tab} (h : Good t) {i : Nat} {d : Ent} {c : Int} (hd : t[i]? = some d) (hg : IsGlob d)
    (h0 : 0 ≤ c) (h3 : c ≤ ScGVAR) : Good (setScope t i c) := by
  refine h.change (by rw [setScope_len]) ?_
  intro j e' he'
  obtain ⟨e, he, ⟨rfl, rfl⟩ | ⟨hij, rfl⟩⟩ := modify_get he'
  · rw [hd] at he
    cases he
    refine ⟨d, hd, rfl, .inr (.inr ⟨hg, ?_⟩)⟩
    unfold IsGlob
    simp only [ScPROT, ScFUNC, ScCOMM, ScGVAR] at *
    omega
  · exact ⟨_, he, rfl, .inl rfl⟩

theorem Good.cnt {t : Tab} (h : Good t) (i c : Nat) : Good (setCnt t i c) := by
  refine h.change (by simp [setCnt]) ?_
  intro j e' he'
  obtain ⟨e, he, ⟨rfl, rfl⟩ | ⟨hij, rfl⟩⟩ := modify_get he'
  · exact ⟨e, he, rfl, .inl rfl⟩
  · exact ⟨_, he, rfl, .inl rfl⟩

theorem Made.good {t : Tab} (h : Made t) : Good t := by
  induction h with
  | nil => exact ⟨Nat.zero_le _, .nil⟩
  | decl _ hp hd ih => exact ih.decl hp hd
  | void i _ ih => exact ih.void i
  | undef i _ ih => exact ih.undef i
  | scope _ h1 h2 h3 h4 ih => exact ih.scope h1 h2 h3 h4
  | cnt i c _ ih => exact ih.cnt i c

/-- What C35 says of a table. -/
structure NoCollision (t : Tab) : Prop where
  locals : ∀ (i j : Nat) (e d : Ent), t[i]? = some e → t[j]? = some d → i ≠ j → e.isLocal → d.isLocal →
    e.name ≠ d.name
  structs : ∀ (i j : Nat) (e d : Ent), t[i]? = some e → t[j]? = some d → i ≠ j → e.scope = ScSTRC →
    d.scope ≠ ScVOID → e.name ≠ d.name
  fields : ∀ (i j : Nat) (e d : Ent), t[i]? = some e → t[j]? = some d → i ≠ j → e.scope = ScFLD →
    d.scope = ScFLD → e.name ≠ d.name
  size : t.length ≤ NtMAX

theorem Good.two {t : Tab} (h : Good t) {i j : Nat} {e d : Ent} (he : t[i]? = some e) (hd : t[j]? = some d)
    (hij : i ≠ j) : ¬Clash e d := by
  obtain ⟨hi, he⟩ := List.getElem?_eq_some_iff.1 he
  obtain ⟨hj, hd⟩ := List.getElem?_eq_some_iff.1 hd
  rcases Nat.lt_or_gt_of_ne hij with h1 | h1
  · have := List.pairwise_iff_getElem.1 h.2 i j hi hj h1
    rwa [he, hd] at this
  · have := List.pairwise_iff_getElem.1 h.2 j i hj hi h1
    rw [he, hd] at this
    exact fun hc => this hc.symm

theorem Good.noCollision {t : Tab} (h : Good t) : NoCollision t where
  locals i j e d he hd hij h1 h2 hn := by
    refine h.two he hd hij ⟨hn, ?_, ?_, .inl ⟨h1, h2⟩⟩
    · rcases h1 with h1 | h1 <;> rw [h1] <;> decide
    · rcases h2 with h1 | h1 <;> rw [h1] <;> decide
  structs i j e d he hd hij h1 h2 hn :=
    h.two he hd hij ⟨hn, by rw [h1]; decide, h2, .inr (.inr (.inl h1))⟩
  fields i j e d he hd hij h1 h2 hn :=
    h.two he hd hij ⟨hn, by rw [h1]; decide, by rw [h2]; decide, .inr (.inl ⟨h1, h2⟩)⟩
  size := h.1

/-- C35 for every sequence of operations on the name table. -/
theorem C35_table (t : Tab) (h : Made t) : NoCollision t := h.good.noCollision

/-! ### The body of a function -/

/-- A property of tables that declarations of local variables and the ends of scopes keep. -/
structure Keeps (K : Tab → Prop) : Prop where
  lvar : ∀ {t t' e}, K t → e.scope = ScLVAR → ¬(e.type = TyVOID ∧ e.dim = 0) → defName t e = some t' → K t'
  void : ∀ {t} (i : Nat), K t → K (setVoid t i)

/-- The table and all points have the property. -/
def Has (K : Tab → Prop) (t : Tab) (P : List Tab) : Prop := K t ∧ ∀ p ∈ P, K p

variable {K : Tab → Prop}

theorem Fr.has {s s' : PS} (f : Fr s s') (h : Has K s.tab s.pts) : Has K s'.tab s'.pts := by
  rw [f.tab, f.pts]
  exact h

theorem Has.mark {t : Tab} {P : List Tab} (h : Has K t P) : Has K t (t :: P) :=
  ⟨h.1, fun p hp => by
    rcases List.mem_cons.1 hp with rfl | hp
    · exact h.1
    · exact h.2 p hp⟩

theorem Has.dcls (hK : Keeps K) {ty : Int} {s s' : PS} (d : Dcls ty s s') (h : Has K s.tab s.pts) :
    Has K s'.tab s'.pts := by
  induction d with
  | nil => exact h
  | snoc _ f d ih =>
    have h1 := f.has ih
    have h2 := hK.lvar h1.1 (by rw [d.ent]) (by rw [d.ent]; exact d.nv) d.tab
    rw [d.pts]
    exact Has.mark ⟨h2, h1.2⟩

theorem Has.lvars (hK : Keeps K) {o : Opts} {s s' : PS} {d : Stmt} (h : Has K s.tab s.pts)
    (hd : getLVars o s = some (d, s')) : Has K s'.tab s'.pts := by
  obtain ⟨d, ty, s1, s2, h1, f, -, rfl⟩ := (getLVars_some hd).run
  exact f.has (Has.dcls hK h1 h)

theorem Has.ini (hK : Keeps K) {o : Opts} {s s' : PS} {i : Option Stmt} (h0 : Has K s.tab s.pts)
    (h : getIni o s = some (i, s')) : Has K s'.tab s'.pts := by
  simp only [getIni, Option.bind_eq_bind, Option.bind_eq_some_iff] at h
  obtain ⟨⟨i, s1⟩, h1, s2, h2, h⟩ := h
  cases h
  refine (chkTok_fr h2).has ?_
  unfold getIni0 at h1
  split at h1
  · cases h1; exact h0
  · split at h1
    · rw [Option.map_eq_some_iff] at h1
      obtain ⟨⟨d, s3⟩, h3, h1⟩ := h1
      cases h1
      exact h0.lvars hK h3
    · rw [Option.map_eq_some_iff] at h1
      obtain ⟨⟨w, s3⟩, h3, h1⟩ := h1
      cases h1
      exact (lev_fr h3).has h0

theorem Run.has (hK : Keeps K) {o : Opts} {ty : Int} {dim : Nat} {k : Option (Option Stmt)} {s s' : PS}
    {r : Option Stmt} (h : Run o ty dim k s r s') : Has K s.tab s.pts → Has K s'.tab s'.pts := by
  have mk : ∀ {s : PS}, Has K s.tab s.pts → Has K s.mark.next.tab s.mark.next.pts := fun h => h.mark
  induction h with
  | @simple s r s' h =>
    intro h0
    show Has K s'.tab s'.pts
    have h0 := mk h0
    cases h with
    | ret _ h => exact (getReturn_fr h).1.has h0
    | brk _ _ h => exact (chkTok_fr h).has h0
    | cnt _ _ h => exact (chkTok_fr h).has h0
    | semi => exact h0
    | exp _ h1 h2 => exact ((lev_fr h1).trans (chkTok_fr h2)).has h0
  | ifs _ h1 _ ih => exact fun h => ih ((getCond_fr h1).has (mk h))
  | els _ h1 _ _ _ ih1 ih2 => exact fun h => ih2 (ih1 ((getCond_fr h1).has (mk h)))
  | whl _ h1 _ ih => exact fun h => ih ((getCond_fr h1).has (mk h))
  | dos _ _ h2 h3 h4 ih =>
    exact fun h => ((chkTok_fr h2).trans ((getCond_fr h3).trans (chkTok_fr h4))).has (ih (mk h))
  | @«for» s s1 ini s2 cnd s3 rini s4 a s5 _ h1 h2 h3 h4 _ ih =>
    intro h
    have := ih (((getForCond_fr h3).trans (getRini_fr h4)).has (((chkTok_fr h1).has (mk h)).ini hK h2))
    exact ⟨hK.void _ this.1, this.2⟩
  | blk _ _ ih =>
    intro h
    have := ih (mk h)
    exact ⟨hK.void _ this.1, this.2⟩
  | done => exact fun h => h
  | decl h1 h2 _ ih => exact fun h => ih ((chkTok_fr h2).has (h.lvars hK h1))
  | stat _ _ ih1 ih2 => exact fun h => ih2 (ih1 h)

theorem getBlock_has (hK : Keeps K) {o : Opts} {ty : Int} {dim : Nat} {s s' : PS} {r : Option Stmt}
    (h : getBlock o ty dim s = some (r, s')) (h0 : Has K s.tab s.pts) : Has K s'.tab s'.pts := by
  obtain ⟨l, s1, h1, h2⟩ := (run_all o ty dim).2.2.1 s _ h
  cases h2
  have := h1.has hK h0
  exact ⟨hK.void _ this.1, this.2⟩

/-! ### Fields -/

theorem fieldNames_eq (t : Tab) (i n : Nat) : fieldNames t i n = ((t.map Ent.name).drop (i + 1)).take n := by
  simp [fieldNames]

theorem FieldsOk.app {t x : Tab} (h : FieldsOk t) (hx : ∀ e ∈ x, ¬(e.scope = ScSTRC ∧ e.type = TySTRUC)) :
    FieldsOk (t ++ x) := by
  intro i e he h1 h2
  by_cases hi : i < t.length
  · rw [List.getElem?_append_left hi] at he
    obtain ⟨h3, h4⟩ := h i e he h1 h2
    refine ⟨by simp; omega, ?_⟩
    unfold fieldNames at *
    rw [List.drop_append_of_le_length (by omega), List.take_append_of_le_length (by simp; omega)]
    exact h4
  · rw [List.getElem?_append_right (by omega)] at he
    exact absurd ⟨h1, h2⟩ (hx e (List.mem_of_getElem? he))

theorem FieldsOk.change {t t' : Tab} (h : FieldsOk t) (hn : t'.map Ent.name = t.map Ent.name)
    (hc : ∀ (i : Nat) (e' : Ent), t'[i]? = some e' → e'.scope = ScSTRC → e'.type = TySTRUC →
      ∃ e : Ent, t[i]? = some e ∧ e.scope = ScSTRC ∧ e.type = TySTRUC ∧ e.cnt = e'.cnt) : FieldsOk t' := by
  intro i e' he' h1 h2
  obtain ⟨e, he, h3, h4, h5⟩ := hc i e' he' h1 h2
  obtain ⟨k1, k2⟩ := h i e he h3 h4
  have hl : t'.length = t.length := by simpa using congrArg List.length hn
  rw [← h5, hl, fieldNames_eq, hn, ← fieldNames_eq]
  exact ⟨k1, k2⟩

theorem FieldsOk.void {t : Tab} (h : FieldsOk t) (i : Nat) : FieldsOk (setVoid t i) := by
  refine h.change ?_ ?_
  · unfold setVoid
    rw [List.map_append, List.map_map, show Ent.name ∘ (fun e : Ent => { e with scope := ScVOID }) = Ent.name from rfl,
      ← List.map_append, List.take_append_drop]
  · intro j e' he' h1 h2
    rw [setVoid_get] at he'
    split at he'
    · exact ⟨e', he', h1, h2, rfl⟩
    · rw [Option.map_eq_some_iff] at he'
      obtain ⟨e, he, rfl⟩ := he'
      exact absurd (h1 : ScVOID = ScSTRC) (by decide : ¬ScVOID = ScSTRC)

theorem modify_names {t : Tab} {i : Nat} {f : Ent → Ent} (hf : ∀ e, (f e).name = e.name) :
    (t.modify i f).map Ent.name = t.map Ent.name := by
  apply List.ext_getElem?
  intro j
  rw [List.getElem?_map, List.getElem?_map, List.getElem?_modify]
  cases t[j]? with
  | none => rfl
  | some d =>
    by_cases h : i = j
    · simp [h, hf]
    · simp [h]

theorem FieldsOk.scope {t : Tab} (h : FieldsOk t) (i : Nat) {c : Int} (h0 : 0 ≤ c) : FieldsOk (setScope t i c) := by
  refine h.change (modify_names fun _ => rfl) ?_
  intro j e' he' h1 h2
  obtain ⟨e, he, ⟨rfl, rfl⟩ | ⟨hij, rfl⟩⟩ := modify_get he'
  · rw [show c = ScSTRC from h1] at h0
    exact absurd h0 (by decide)
  · exact ⟨_, he, h1, h2, rfl⟩

/-! ### Global declarations -/

/-- What holds between global declarations and at the points of functions. -/
def K35 (t : Tab) : Prop := Made t ∧ FieldsOk t

theorem keeps35 : Keeps K35 where
  lvar h hs _ hd := by
    refine ⟨h.1.decl (fun hp => ?_) hd, ?_⟩
    · rw [hs] at hp; exact absurd hp (by decide)
    · rw [(defName_some hd).1]
      refine h.2.app fun e he => ?_
      rw [List.mem_singleton] at he
      rintro ⟨h1, -⟩
      rw [he, hs] at h1
      exact absurd h1 (by decide)
  void i h := ⟨h.1.void i, h.2.void i⟩

theorem Made.prms {t t' : Tab} (h : Made t) (hg : AllGlob t) (hd : Defs IsPrm t t') : Made t' := by
  obtain ⟨h1, -⟩ : Made t' ∧ ∀ d ∈ t', d.scope ≠ ScLVAR := by
    induction hd with
    | nil =>
      refine ⟨h, fun d hd he => ?_⟩
      have := hg d hd
      rw [he] at this
      exact absurd this (by decide)
    | @snoc t1 t2 e _ h2 he ih =>
      refine ⟨ih.1.decl (fun _ => ih.2) h2, ?_⟩
      rw [(defName_some h2).1]
      intro d hd
      rcases List.mem_append.1 hd with hd | hd
      · exact ih.2 d hd
      · rw [List.mem_singleton] at hd
        rw [hd, show e.scope = ScPRM from he]
        decide
  exact h1

theorem Made.flds {t t' : Tab} (h : Made t) (hd : Defs IsFld t t') : Made t' := by
  induction hd with
  | nil => exact h
  | @snoc t1 t2 e _ h2 he ih =>
    refine ih.decl (fun hp => ?_) h2
    rw [show e.scope = ScFLD from he.1] at hp
    exact absurd hp (by decide)

/-- The names of the visible entries are distinct. -/
def Distinct (t : Tab) : Prop :=
  t.Pairwise fun e d => ScVOID < e.scope → ScVOID < d.scope → e.name ≠ d.name

theorem Distinct.change {t t' : Tab} (h : Distinct t) (hl : t'.length = t.length)
    (hc : ∀ (i : Nat) (e' : Ent), t'[i]? = some e' → ∃ e : Ent, t[i]? = some e ∧ e'.name = e.name ∧
      (ScVOID < e'.scope → ScVOID < e.scope)) : Distinct t' := by
  unfold Distinct at *
  rw [List.pairwise_iff_getElem] at *
  intro i j hi hj hij h1 h2
  obtain ⟨e, he, k1, k2⟩ := hc i _ (List.getElem?_eq_getElem hi)
  obtain ⟨d, hd, k3, k4⟩ := hc j _ (List.getElem?_eq_getElem hj)
  have := h i j (by omega) (by omega) hij
  rw [(List.getElem?_eq_some_iff.1 he).2, (List.getElem?_eq_some_iff.1 hd).2] at this
  rw [k1, k3]
  exact this (k2 h1) (k4 h2)

theorem Distinct.scope {t : Tab} (h : Distinct t) {i : Nat} {d : Ent} {c : Int} (hd : t[i]? = some d)
    (hg : ScVOID < d.scope) : Distinct (setScope t i c) := by
  refine h.change (setScope_len _ _ _) ?_
  intro j e' he'
  obtain ⟨e, he, ⟨rfl, rfl⟩ | ⟨hij, rfl⟩⟩ := modify_get he'
  · rw [hd] at he
    cases he
    exact ⟨d, hd, rfl, fun _ => hg⟩
  · exact ⟨_, he, rfl, fun h => h⟩

/-- A new global entry, followed by entries that are not visible any more. -/
theorem Distinct.snoc {t x : Tab} {e : Ent} (h : Distinct t)
    (he : ∀ d ∈ t, ScVOID < d.scope → d.name ≠ e.name) :
    Distinct (t ++ e :: x.map fun e => { e with scope := ScVOID }) := by
  unfold Distinct
  rw [List.pairwise_append]
  refine ⟨h, ?_, ?_⟩
  · rw [List.pairwise_cons]
    refine ⟨?_, ?_⟩
    · intro d hd _ h2
      rw [List.mem_map] at hd
      obtain ⟨d', -, rfl⟩ := hd
      exact absurd h2 (Int.lt_irrefl _)
    · rw [List.pairwise_map]
      refine List.pairwise_of_forall ?_
      intro a b h1
      exact absurd h1 (Int.lt_irrefl _)
  · intro a ha b hb h1 h2
    rcases List.mem_cons.1 hb with rfl | hb
    · exact he a ha h1
    · rw [List.mem_map] at hb
      obtain ⟨d', -, rfl⟩ := hb
      exact absurd h2 (Int.lt_irrefl _)

theorem free_of_struct {t : Tab} {e : Ent} (hs : e.scope = ScSTRC) (h : defName t e = some (t ++ [e])) :
    ∀ d ∈ t, ScVOID < d.scope → d.name ≠ e.name := by
  intro d hd hv hn
  have := chkName_none (defName_some h).2.2 d hd
  rw [Bool.eq_false_iff] at this
  refine this ?_
  have : d.scope ≠ ScVOID := by omega
  simp [collides, hs, hn, this]

theorem free_of_glob {t : Tab} {e : Ent} (hg : AllGlob t) (h : defName t e = some (t ++ [e]))
    (hn : srcGlob (t ++ [e]) t.length = none) : ∀ d ∈ t, ScVOID < d.scope → d.name ≠ e.name := by
  intro d hd hv hn'
  have h1 := hg d hd
  by_cases hs : d.scope = ScSTRC
  · have := chkName_none (defName_some h).2.2 d hd
    rw [Bool.eq_false_iff] at this
    refine this ?_
    simp [collides, hs, hn']
  · have hgl : IsGlob d := by
      unfold IsGlob
      simp only [ScVOID, ScSTRC, ScPROT, ScFUNC, ScCOMM, ScGVAR, ScLVAR] at *
      omega
    have hex : ∃ i : Nat, ∃ e' : Ent, t[i]? = some e' ∧ IsGlob e' ∧ e'.name = e.name := by
      obtain ⟨i, hi⟩ := List.mem_iff_getElem?.1 hd
      exact ⟨i, d, hi, hgl, hn'⟩
    classical
    obtain ⟨e', he', h3, h4⟩ := Nat.find_spec hex
    have : srcGlob (t ++ [e]) t.length = some (Nat.find hex) :=
      srcGlob_iff.2 ⟨e', he', h3, h4, fun j e2 hj he2 hc => Nat.find_min hex hj ⟨e2, he2, hc⟩⟩
    rw [hn] at this
    cases this

/-- What holds between global declarations. -/
structure Top35 (t : Tab) : Prop where
  glob : AllGlob t
  made : Made t
  fields : FieldsOk t
  dist : Distinct t

theorem IsGlob.vis {e : Ent} (h : IsGlob e) : ScVOID < e.scope := by
  rcases h with h | h | h | h <;> rw [h] <;> decide

theorem Top35.body {t x : Tab} {e : Ent} {old : Option Nat} (h : Top35 t)
    (h1 : defName t e = some (t ++ [e])) (h2 : e.scope = ScPROT)
    (h3 : Defs IsPrm (t ++ [e]) (t ++ e :: x))
    (h4 : ∀ i, old = some i → ∃ d : Ent, t[i]? = some d ∧ d.scope = ScPROT ∧ d.name = e.name) :
    K35 (markOld old t ++ { e with cnt := x.length, scope := ScFUNC } :: x) := by
  have hg : AllGlob (t ++ [e]) := AllGlob.app.2 ⟨h.glob, AllGlob.cons.2 ⟨by rw [h2]; decide, .nil⟩⟩
  have m1 : Made (t ++ [e]) := h.made.decl (fun hp => by rw [h2] at hp; exact absurd hp (by decide)) h1
  have m2 := (m1.prms hg h3).cnt t.length x.length
  rw [setCnt_app] at m2
  have m3 := m2.scope (i := t.length) (c := ScFUNC) (d := { e with cnt := x.length })
    (List.getElem?_append_right (Nat.le_refl _) |>.trans (by rw [Nat.sub_self]; rfl)) (.inl h2) (by decide) (by decide)
  rw [setScope_app] at m3
  obtain ⟨y, hy, hy'⟩ := h3.app
  have hxy : x = y := by
    rw [List.append_assoc, List.append_cancel_left_eq, List.singleton_append] at hy
    exact (List.cons.inj hy).2
  subst hxy
  have hf : ∀ {t' : Tab}, FieldsOk t' → FieldsOk (t' ++ { e with cnt := x.length, scope := ScFUNC } :: x) := by
    intro t' h
    refine h.app fun d hd hc => ?_
    rcases List.mem_cons.1 hd with rfl | hd
    · exact absurd (hc.1 : ScFUNC = ScSTRC) (by decide : ¬ScFUNC = ScSTRC)
    · have := hc.1
      rw [show d.scope = ScPRM from hy' d hd] at this
      exact absurd this (by decide)
  cases old with
  | none => exact ⟨m3, hf h.fields⟩
  | some i =>
    obtain ⟨d, k1, k2, -⟩ := h4 i rfl
    have hi := (List.getElem?_eq_some_iff.1 k1).1
    have := m3.scope (i := i) (c := ScFUNC) (by rw [List.getElem?_append_left hi]; exact k1)
      (.inl k2) (by decide) (by decide)
    rw [setScope_left hi] at this
    exact ⟨this, hf (h.fields.scope i (by decide))⟩

theorem top35_inv (o : Opts) : TopInv o fun t _ _ => Top35 t where
  start := ⟨.nil, .nil, (by intro i e he; cases he), .nil⟩
  struct := by
    intro t d out e t2 h h1 h2 h3 h4
    have hglob := (glob_inv o).struct (d := d) (out := out) h.glob h1 h2 h3 h4
    have m1 : Made (t ++ [e]) := h.made.decl (fun hp => by rw [h2] at hp; exact absurd hp (by decide)) h1
    have m2 := m1.flds h4
    have m3 := (m2.void (t.length + 1)).cnt t.length (t2.length - (t.length + 1))
    obtain ⟨x, rfl, hx, ht⟩ := struct_tab h4
    refine ⟨hglob, m3, ?_, ?_⟩
    · rw [ht]
      intro i e' he' k1 k2
      by_cases hi : i < t.length
      · have := (h.fields.app (x := { e with cnt := x.length, scope := ScVOID } ::
            x.map fun e => { e with scope := ScVOID }) (by
            intro d hd hc
            have : d.scope = ScVOID := by
              rcases List.mem_cons.1 hd with rfl | hd
              · rfl
              · rw [List.mem_map] at hd
                obtain ⟨d', -, rfl⟩ := hd
                rfl
            rw [hc.1] at this
            exact absurd this (by decide))) i e' (by
              rw [List.getElem?_append_left hi] at he' ⊢; exact he') k1 k2
        rw [fieldNames_eq] at this ⊢
        rw [List.map_append, List.map_cons, List.length_append, List.length_cons, List.length_map] at this ⊢
        exact this
      · rw [List.getElem?_append_right (by omega)] at he'
        by_cases hi2 : i = t.length
        · subst hi2
          rw [Nat.sub_self, List.getElem?_cons_zero] at he'
          cases he'
          refine ⟨by simp, ?_⟩
          show (fieldNames _ _ x.length).Nodup
          rw [fieldNames, show t ++ { e with cnt := x.length } :: (x.map fun e => { e with scope := ScVOID }) =
            (t ++ [{ e with cnt := x.length }]) ++ (x.map fun e => { e with scope := ScVOID }) by simp,
            List.drop_append_of_le_length (by simp), List.drop_of_length_le (by simp), List.nil_append,
            List.take_of_length_le (by simp), List.map_map]
          show (x.map Ent.name).Nodup
          have hp := (List.pairwise_append.1 m2.good.2).2.1
          have hp := (List.pairwise_cons.1 hp).2
          rw [List.nodup_iff_pairwise_ne, List.pairwise_map]
          refine hp.imp_of_mem ?_
          intro a b ha hb hc hn
          exact hc ⟨hn, by rw [(hx a ha).1]; decide, by rw [(hx b hb).1]; decide, .inr (.inl ⟨(hx a ha).1, (hx b hb).1⟩)⟩
        · obtain ⟨k, rfl⟩ : ∃ k, i = t.length + k + 1 := ⟨i - t.length - 1, by omega⟩
          rw [show t.length + k + 1 - t.length = k + 1 by omega, List.getElem?_cons_succ, List.getElem?_map,
            Option.map_eq_some_iff] at he'
          obtain ⟨d', -, rfl⟩ := he'
          exact absurd (k1 : ScVOID = ScSTRC) (by decide : ¬ScVOID = ScSTRC)
    · rw [ht]
      exact h.dist.snoc (e := { e with cnt := x.length }) (free_of_struct (e := e) h2 h1)
  typedef := by
    intro t d out e h h1 h2 h3
    refine ⟨AllGlob.app.2 ⟨h.glob, AllGlob.cons.2 ⟨by rw [h2]; decide, .nil⟩⟩,
      h.made.decl (fun hp => by rw [h2] at hp; exact absurd hp (by decide)) h1, ?_,
      h.dist.snoc (x := []) (free_of_struct h2 h1)⟩
    refine h.fields.app fun d hd hc => ?_
    rw [List.mem_singleton] at hd
    have := hc.2
    rw [hd, h3] at this
    exact absurd this (by decide)
  func := by
    intro t s s' e ty h h0 h2 h3 h4 h5 hr
    have hglob := (glob_inv o).func h.glob h0 h2 h3 h4 h5 hr
    obtain ⟨x, old, ho, ⟨hd, -⟩, hc⟩ := hr.run
    have hg : AllGlob (t ++ [e]) := AllGlob.app.2 ⟨h.glob, AllGlob.cons.2 ⟨by rw [h3]; decide, .nil⟩⟩
    have m1 : Made (t ++ [e]) := h.made.decl (fun hp => by rw [h3] at hp; exact absurd hp (by decide)) h2
    have m2 := ((m1.prms hg hd).void (t.length + 1)).cnt t.length x.length
    rw [show t ++ e :: x = (t ++ [e]) ++ x by simp, show t.length + 1 = (t ++ [e]).length by simp, setVoid_app,
      List.append_assoc, List.singleton_append, setCnt_app] at m2
    have hf : ∀ c : Int, 0 ≤ c → FieldsOk (t ++ { e with cnt := x.length, scope := c } ::
        x.map fun e => { e with scope := ScVOID }) := by
      intro c h0
      refine h.fields.app fun d hd hc => ?_
      rcases List.mem_cons.1 hd with rfl | hd
      · rw [show c = ScSTRC from hc.1] at h0
        exact absurd h0 (by decide)
      · rw [List.mem_map] at hd
        obtain ⟨d', -, rfl⟩ := hd
        exact absurd (hc.1 : ScVOID = ScSTRC) (by decide : ¬ScVOID = ScSTRC)
    rcases hc with ⟨-, ht⟩ | ⟨s2, s3, b, body, -, -, -, -, -, -, -, h8, -, -, -, -, -, -, ht⟩
    · rw [ht] at hglob ⊢
      cases old with
      | some i => exact h
      | none =>
        refine ⟨hglob, m2, ?_, h.dist.snoc (e := { e with cnt := x.length }) (free_of_glob (e := e) h.glob h2 ho.symm)⟩
        have := hf e.scope (by rw [h3])
        exact this
    · rw [ht] at hglob ⊢
      cases old with
      | some i =>
        obtain ⟨d, k1, k2⟩ := h8 i rfl
        exact ⟨hglob, h.made.scope k1 (.inl k2) (by decide) (by decide), h.fields.scope i (by decide),
          h.dist.scope k1 (by rw [k2]; decide)⟩
      | none =>
        have m3 := m2.scope (i := t.length) (c := ScFUNC) (d := { e with cnt := x.length })
          (List.getElem?_append_right (Nat.le_refl _) |>.trans (by rw [Nat.sub_self]; rfl)) (.inl h3)
          (by decide) (by decide)
        rw [setScope_app] at m3
        exact ⟨hglob, m3, hf _ (by decide),
          h.dist.snoc (e := { e with cnt := x.length, scope := ScFUNC }) (free_of_glob (e := e) h.glob h2 ho.symm)⟩
  var := by
    intro t d out e t' out' h h1 h2 hnv hv hv'
    have hglob : AllGlob t' := (glob_inv o).var (d := d) h.glob h1 h2 hnv hv hv'
    have m1 : Made (t ++ [e]) := h.made.decl (fun hp => by rw [h2] at hp; exact absurd hp (by decide)) h1
    have hf : ∀ c : Int, 0 ≤ c → FieldsOk (t ++ [{ e with scope := c }]) := by
      intro c h0
      refine h.fields.app fun d hd hc => ?_
      rw [List.mem_singleton] at hd
      subst hd
      rw [show c = ScSTRC from hc.1] at h0
      exact absurd h0 (by decide)
    rcases var_tab hv with rfl | ⟨i, d, k1, k2, -, -, rfl⟩ | ⟨hn, rfl | rfl⟩
    · exact h
    · exact ⟨hglob, h.made.scope k1 (.inr (.inr (.inl k2))) (by decide) (by decide), h.fields.scope i (by decide),
        h.dist.scope k1 (by rw [k2]; decide)⟩
    · exact ⟨hglob, m1, by have := hf e.scope (by rw [h2]; decide); exact this,
        h.dist.snoc (x := []) (free_of_glob (e := e) h.glob h1 hn)⟩
    · have m2 := m1.scope (i := t.length) (c := ScGVAR) (d := e) (by simp) (.inr (.inr (.inl h2)))
        (by decide) (by decide)
      rw [setScope_app] at m2
      exact ⟨hglob, m2, hf _ (by decide),
        h.dist.snoc (x := []) (e := { e with scope := ScGVAR }) (free_of_glob (e := e) h.glob h1 hn)⟩

/-- All points of a function have tables made by the operations. -/
def PtsOk35 : Out → Prop
  | .func _ _ _ _ _ pts => ∀ p ∈ pts, K35 p
  | _ => True

theorem pts35_inv (o : Opts) : TopInv o fun t _ out => Top35 t ∧ ∀ x ∈ out, PtsOk35 x := by
  refine out_inv (top35_inv o) (by intros; trivial) (by intros; trivial) ?_
  intro t s s' e ty x old s2 s3 b body h h1 h2 _ _ h5 h6 h7 _ _ _ hp _ h8 _ _ _ p hpp
  have hb := h.body h1 h2 h5.1 h7
  rw [← h6] at hb
  exact (getBlock_has keeps35 h8 ⟨hb, by rw [hp]; simp⟩).2 p hpp

/-- C35 In the name table at every point of every function of an accepted program, and at its end:
no two visible local variables or parameters have the same name, no structure (or typedef) name is
the name of anything else visible, the fields of each structure have distinct names, and
the table is within its capacity. -/
theorem C35 (o : Opts) (toks : List Tok) (s : PS) (h : getSrc o (start toks) = some s) (t : Tab)
    (ht : t = s.tab ∨ ∃ f n src body tab pts, .func f n src body tab pts ∈ s.out ∧ t ∈ pts) :
    NoCollision t ∧ FieldsOk t := by
  have hi := (pts35_inv o).final h
  rcases ht with rfl | ⟨f, n, src, body, tab, pts, h1, h2⟩
  · exact ⟨C35_table _ hi.1.made, hi.1.fields⟩
  · have := hi.2 _ h1 t h2
    exact ⟨C35_table _ this.1, this.2⟩

/-- At the end of an accepted program all visible names are distinct. -/
theorem C35_globals (o : Opts) (toks : List Tok) (s : PS) (h : getSrc o (start toks) = some s)
    (i j : Nat) (e d : Ent) (he : s.tab[i]? = some e) (hd : s.tab[j]? = some d) (hij : i ≠ j)
    (h1 : ScVOID < e.scope) (h2 : ScVOID < d.scope) : e.name ≠ d.name := by
  have hi := ((pts35_inv o).final h).1.dist
  obtain ⟨hi', he⟩ := List.getElem?_eq_some_iff.1 he
  obtain ⟨hj, hd⟩ := List.getElem?_eq_some_iff.1 hd
  rcases Nat.lt_or_gt_of_ne hij with k | k
  · have := List.pairwise_iff_getElem.1 hi i j hi' hj k
    rw [he, hd] at this
    exact this h1 h2
  · have := List.pairwise_iff_getElem.1 hi j i hj hi' k
    rw [he, hd] at this
    exact (this h2 h1).symm

/-- `struct P { int x; int y; }; int x;` -/
def prog35a : List Tok :=
  [Lx.STRUCT, .name "P", Lx.lbrc, Lx.INT, .name "x", Lx.semi, Lx.INT, .name "y", Lx.semi, Lx.rbrc, Lx.semi,
   Lx.INT, .name "x", Lx.semi]

example : ∃ s, getSrc ⟨false, false⟩ (start prog35a) = some s ∧
    (s.tab.map fun e => (e.name, e.scope, e.cnt)) =
      [("P", ScSTRC, 2), ("x", ScVOID, 0), ("y", ScVOID, 1), ("x", ScCOMM, 2)] :=
  run_ok 60 (fun s => s.tab.map fun e => (e.name, e.scope, e.cnt)) (by decide +kernel)

/-- `void g(int x); void g(int x) { char y; { int z; } }` -/
def prog35b : List Tok :=
  [Lx.VOID, .name "g", Lx.lpar, Lx.INT, .name "x", Lx.rpar, Lx.semi,
   Lx.VOID, .name "g", Lx.lpar, Lx.INT, .name "x", Lx.rpar, Lx.lbrc,
   Lx.CHAR, .name "y", Lx.semi, Lx.lbrc, Lx.INT, .name "z", Lx.semi, Lx.rbrc, Lx.rbrc]

/-- The visible names at the points of the functions. -/
def names35 (s : PS) : List (List (List String)) :=
  s.out.filterMap fun
    | .func _ _ _ _ _ pts => some (pts.map fun t => (t.filter fun e => e.scope != ScVOID).map Ent.name)
    | _ => none

example : ∃ s, getSrc ⟨false, false⟩ (start prog35b) = some s ∧ names35 s =
    [[["g", "g", "x", "y", "z"], ["g", "g", "x", "y"], ["g", "g", "x", "y"]]] :=
  run_ok 60 names35 (by decide +kernel)

/-- Refused: a parameter and a local variable, a function and a structure, two fields. -/
example : defName [⟨"x", ScPRM, TyINT, 0, 1, false⟩] ⟨"x", ScLVAR, TyINT, 0, 1, false⟩ = none ∧
    defName [⟨"P", ScSTRC, TySTRUC, 0, 0, false⟩] ⟨"P", ScPROT, TyINT, 0, 0, false⟩ = none ∧
    defName [⟨"x", ScFLD, TyINT, 0, 1, false⟩] ⟨"x", ScFLD, TyINT, 0, 2, false⟩ = none := by
  decide +kernel

end Cmm.Parse
