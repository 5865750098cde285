import Verif.Parse.Ready2
import Verif.Parse.Ren

/-
What the name table says between the functions of a program, and what follows for the tree of each function. For
Verif/Props/C64.lean.
-/
namespace Cmm.Parse
open Cmm.Tree
open Cmm.Gen (NT Mode callsAll callsS callsO argc)
open Cmm.Tac (okE okS fieldOk)

/-- The entry is not of type void. -/
def Ent.nv (e : Ent) : Prop := (e.type, e.dim) ≠ (TyVOID, 0)

theorem nv_of {e : Ent} (h : ¬(e.type = TyVOID ∧ e.dim = 0)) : e.nv :=
  fun hx => h ⟨congrArg Prod.fst hx, congrArg Prod.snd hx⟩

/-- A global variable. -/
def IsVar (s : Int) : Prop := s = ScCOMM ∨ s = ScGVAR

instance (c : Int) : Decidable (IsVar c) := by unfold IsVar; infer_instance
instance (c : Int) : Decidable (IsFun c) := by unfold IsFun; infer_instance

theorem isVar_iff {c : Int} : IsVar c ↔ VarKind c .glb := by
  constructor
  · rintro (rfl | rfl)
    · exact .comm
    · exact .gvar
  · intro h
    cases h
    · exact .inl rfl
    · exact .inr rfl

theorem setScope_get {t : Tab} {i n : Nat} {c : Int} {e' : Ent} (h : (setScope t i c)[n]? = some e') :
    ∃ e, t[n]? = some e ∧ e' = { e with scope := if i = n then c else e.scope } := by
  simp only [setScope, List.getElem?_modify] at h
  cases hn : t[n]? with
  | none => rw [hn] at h; simp at h
  | some e =>
    rw [hn] at h
    split at h
    · rename_i hi
      cases h
      exact ⟨e, rfl, by simp [hi]⟩
    · rename_i hi
      simp at h
      subst h
      exact ⟨e, rfl, by simp [hi]⟩

/-! ### Types of functions and variables -/

/-- Global variables and parameters of functions are not of type void. -/
structure Glo (t : Tab) : Prop where
  var : ∀ (n : Nat) (e : Ent), t[n]? = some e → IsVar e.scope → e.nv
  fn : ∀ (n : Nat) (e : Ent), t[n]? = some e → IsFun e.scope → n + e.cnt < t.length ∧
    ∀ (j : Nat) (d : Ent), n < j → j ≤ n + e.cnt → t[j]? = some d → d.nv

theorem Glo.nil : Glo [] := ⟨fun n e h => by simp at h, fun n e h => by simp at h⟩

theorem Glo.app {t x : Tab} (h : Glo t) (hv : ∀ e ∈ x, IsVar e.scope → e.nv)
    (hf : ∀ (n : Nat) (e : Ent), x[n]? = some e → IsFun e.scope → n + e.cnt < x.length ∧
      ∀ (j : Nat) (d : Ent), n < j → j ≤ n + e.cnt → x[j]? = some d → d.nv) : Glo (t ++ x) := by
  constructor
  · intro n e he hs
    rw [List.getElem?_append] at he
    split at he
    · exact h.var n e he hs
    · exact hv e (List.mem_of_getElem? he) hs
  · intro n e he hs
    rw [List.getElem?_append] at he
    split at he
    · obtain ⟨h1, h2⟩ := h.fn n e he hs
      refine ⟨by rw [List.length_append]; omega, fun j d hj hj' hd => ?_⟩
      rw [List.getElem?_append_left (by omega)] at hd
      exact h2 j d hj hj' hd
    · obtain ⟨h1, h2⟩ := hf _ e he hs
      refine ⟨by rw [List.length_append]; omega, fun j d hj hj' hd => ?_⟩
      rw [List.getElem?_append_right (by omega)] at hd
      exact h2 _ d (by omega) (by omega) hd

theorem Glo.scope {t : Tab} {i : Nat} {c : Int} (h : Glo t)
    (hc : ∀ e : Ent, t[i]? = some e → (IsVar c → IsVar e.scope) ∧ (IsFun c → IsFun e.scope)) : Glo (setScope t i c) := by
  have back : ∀ (n : Nat) (e' : Ent), (setScope t i c)[n]? = some e' → ∃ e : Ent, t[n]? = some e ∧ e'.type = e.type ∧ e'.dim = e.dim ∧
      e'.cnt = e.cnt ∧ (IsVar e'.scope → IsVar e.scope) ∧ (IsFun e'.scope → IsFun e.scope) := by
    intro n e' h'
    obtain ⟨e, he, rfl⟩ := setScope_get h'
    refine ⟨e, he, rfl, rfl, rfl, ?_⟩
    by_cases hi : i = n
    · subst hi
      simp only [if_pos]
      exact hc e he
    · simp only [if_neg hi]
      exact ⟨id, id⟩
  constructor
  · intro n e' he' hs
    obtain ⟨e, he, h1, h2, h3, h4, h5⟩ := back n e' he'
    unfold Ent.nv
    rw [h1, h2]
    exact h.var n e he (h4 hs)
  · intro n e' he' hs
    obtain ⟨e, he, h1, h2, h3, h4, h5⟩ := back n e' he'
    obtain ⟨g1, g2⟩ := h.fn n e he (h5 hs)
    rw [h3, setScope_len]
    refine ⟨g1, fun j d' hj hj' hd' => ?_⟩
    obtain ⟨d, hd, k1, k2, -⟩ := back j d' hd'
    unfold Ent.nv
    rw [k1, k2]
    exact g2 j d hj hj' hd

/-- A function and its parameters. -/
theorem Glo.func {t x : Tab} {e : Ent} (h : Glo t) (hx : Numb 0 x) {c c' : Int} (hc : ¬IsVar c) (hc' : c' = ScVOID ∨ c' = ScPRM) :
    Glo (t ++ { e with cnt := x.length, scope := c } :: x.map fun e => { e with scope := c' }) := by
  have hc1 : ¬IsVar c' ∧ ¬IsFun c' := by
    rcases hc' with rfl | rfl <;> decide
  refine h.app ?_ ?_
  · intro d hd hs
    rcases List.mem_cons.1 hd with rfl | hd
    · exact absurd hs hc
    · rw [List.mem_map] at hd
      obtain ⟨d, -, rfl⟩ := hd
      exact absurd hs hc1.1
  · intro n d hd hs
    cases n with
    | zero =>
      simp only [List.getElem?_cons_zero, Option.some.injEq] at hd
      subst hd
      refine ⟨by simp, fun j b hj hj' hb => ?_⟩
      obtain ⟨k, rfl⟩ : ∃ k, j = k + 1 := ⟨j - 1, by omega⟩
      rw [List.getElem?_cons_succ, List.getElem?_map, Option.map_eq_some_iff] at hb
      obtain ⟨b', hb, rfl⟩ := hb
      exact nv_of (hx k b' hb).2
    | succ n =>
      rw [List.getElem?_cons_succ, List.getElem?_map, Option.map_eq_some_iff] at hd
      obtain ⟨d', hd, rfl⟩ := hd
      exact absurd hs hc1.2

theorem glo_inv (o : Opts) : TopInv o fun t _ _ => AllGlob t ∧ Glo t where
  start := ⟨.nil, .nil⟩
  struct := by
    intro t d out e t2 h h1 he h2 hd
    refine ⟨(glob_inv o).struct (d := d) (out := out) h.1 h1 he h2 hd, ?_⟩
    obtain ⟨x, -, -, hx⟩ := struct_tab hd
    rw [hx]
    refine h.2.app ?_ ?_
    · intro b hb hs
      rcases List.mem_cons.1 hb with rfl | hb
      · exfalso; revert hs; show IsVar e.scope → _; rw [he]; unfold IsVar; decide
      · rw [List.mem_map] at hb
        obtain ⟨d, -, rfl⟩ := hb
        exact absurd hs (by decide : ¬IsVar ScVOID)
    · intro n b hb hs
      exfalso
      rcases List.mem_cons.1 (List.mem_of_getElem? hb) with rfl | hb
      · revert hs; show IsFun e.scope → _; rw [he]; unfold IsFun; decide
      · rw [List.mem_map] at hb
        obtain ⟨d, -, rfl⟩ := hb
        exact absurd hs (by decide : ¬IsFun ScVOID)
  typedef := by
    intro t d out e h h1 he h2
    refine ⟨(glob_inv o).typedef (d := d) (out := out) h.1 h1 he h2, h.2.app ?_ ?_⟩
    · intro b hb hs
      rw [List.mem_singleton] at hb
      subst hb
      exfalso; revert hs; rw [he]; unfold IsVar; decide
    · intro n b hb hs
      have := List.mem_of_getElem? hb
      rw [List.mem_singleton] at this
      subst this
      exfalso; revert hs; rw [he]; unfold IsFun; decide
  func := by
    intro t s s' e ty h h1 h2 he h3 h4 hr
    refine ⟨(glob_inv o).func h.1 h1 h2 he h3 h4 hr, ?_⟩
    obtain ⟨x, old, ho, ⟨-, hn, -⟩, hc⟩ := hr.run
    rcases hc with ⟨-, ht⟩ | ⟨s2, s3, b, body, -, -, -, -, -, -, -, g8, -, -, -, -, -, -, ht⟩
    · rw [ht]
      cases old with
      | some i => exact h.2
      | none =>
        have := h.2.func (e := e) hn (c := e.scope) (c' := ScVOID) (by rw [he]; unfold IsVar; decide) (.inl rfl)
        exact this
    · rw [ht]
      cases old with
      | some i =>
        obtain ⟨d, k1, k2⟩ := g8 i rfl
        refine h.2.scope fun d' hd' => ?_
        rw [k1] at hd'
        cases hd'
        rw [k2]
        unfold IsVar IsFun
        decide
      | none =>
        exact h.2.func (e := e) hn (c := ScFUNC) (c' := ScVOID) (by unfold IsVar; decide) (.inl rfl)
  var := by
    intro t d out e t' out' h h1 he hnv hv ho
    refine ⟨(glob_inv o).var (d := d) h.1 h1 he hnv hv ho, ?_⟩
    have hone : ∀ c : Int, ¬IsFun c → Glo (t ++ [{ e with scope := c }]) := by
      intro c hc
      refine h.2.app ?_ ?_
      · intro b hb _
        rw [List.mem_singleton] at hb
        subst hb
        exact nv_of hnv
      · intro n b hb hs
        have := List.mem_of_getElem? hb
        rw [List.mem_singleton] at this
        subst this
        exact absurd hs hc
    rcases var_tab hv with rfl | ⟨i, d, k1, k2, -, -, rfl⟩ | ⟨-, rfl | rfl⟩
    · exact h.2
    · refine h.2.scope fun d' hd' => ?_
      rw [k1] at hd'
      cases hd'
      rw [k2]
      unfold IsVar IsFun
      decide
    · have := hone e.scope (by rw [he]; unfold IsFun; decide)
      exact this
    · exact hone ScGVAR (by unfold IsFun; decide)

/-! ### The tree of a function -/

/-- Behind `N` there are local variables and names out of scope, none of type void. -/
def Loc (N : Nat) (T : Tab) : Prop :=
  T.length ≤ 500 ∧ ∀ (j : Nat) (d : Ent), N ≤ j → T[j]? = some d → (d.scope = ScLVAR ∨ d.scope = ScVOID) ∧ d.nv

theorem keeps_loc (N : Nat) : Keeps (Loc N) where
  lvar := by
    intro t t' e h hs hv hd
    obtain ⟨rfl, hl, -⟩ := defName_some hd
    have hl : t.length < 500 := hl
    refine ⟨by rw [List.length_append, List.length_singleton]; omega, fun j d hj hd => ?_⟩
    rw [List.getElem?_append] at hd
    split at hd
    · exact h.2 j d hj hd
    · have := List.mem_of_getElem? hd
      rw [List.mem_singleton] at this
      subst this
      exact ⟨.inl hs, nv_of hv⟩
  void := by
    intro t i h
    have hl : (setVoid t i).length = t.length := by
      have := congrArg List.length (setVoid_er t i)
      simpa using this
    refine ⟨by rw [hl]; exact h.1, fun j d hj hd => ?_⟩
    have he : ((setVoid t i).map Ent.er)[j]? = some d.er := by rw [List.getElem?_map, hd]; rfl
    rw [setVoid_er, List.getElem?_map, Option.map_eq_some_iff] at he
    obtain ⟨b, hb, he⟩ := he
    obtain ⟨g1, g2⟩ := h.2 j b hj hb
    simp only [Ent.er, Ent.mk.injEq] at he
    refine ⟨?_, ?_⟩
    · rw [setVoid, List.getElem?_append] at hd
      split at hd
      · rw [List.getElem?_take] at hd
        split at hd
        · exact (h.2 j d hj hd).1
        · cases hd
      · rw [List.getElem?_map, Option.map_eq_some_iff] at hd
        obtain ⟨c, -, rfl⟩ := hd
        exact .inr rfl
    · unfold Ent.nv
      rw [← he.2.2.1, ← he.2.2.2.1]
      exact g2

theorem Defs.len {P : Ent → Prop} {t t' : Tab} (h : Defs P t t') (hl : t.length ≤ 500) : t'.length ≤ 500 := by
  induction h with
  | nil => exact hl
  | snoc _ h _ _ =>
    obtain ⟨rfl, h1, -⟩ := defName_some h
    have h1 : _ < 500 := h1
    rw [List.length_append, List.length_singleton]
    omega

/-- What the code generator has to be told about the names of a function: which functions are void, and the variables. -/
structure Told (nt : NT) (g : Int → Int) (V : Kind → Int → Bool) (tab : Tab) (frame np : Nat) : Prop where
  fn : ∀ (n : Nat) (e : Ent), tab[n]? = some e → IsFun e.scope → (nt.void (g n) = true ↔ (e.type, e.dim) = (TyVOID, 0))
  glb : ∀ (n : Nat) (e : Ent), tab[n]? = some e → IsVar e.scope → V .glb (g n) = true
  loc : ∀ (n : Nat) (e : Ent), tab[n]? = some e → 1 ≤ e.cnt → e.cnt ≤ frame → V .loc n = true
  prm : ∀ (n : Nat) (e : Ent), tab[n]? = some e → e.cnt < np → V .prm n = true
  str : ∀ n : Int, 0 ≤ n → V .str n = true
  addr : ∀ (n : Nat) (e : Ent), tab[n]? = some e → IsFun e.scope ∨ IsVar e.scope → V .addr (g n) = true

/-- The index is that of a function with `k` parameters, or of one with `...`. -/
def FnIdx (T : Tab) (f : Int) (k : Nat) : Prop := ∃ (n : Nat) (d : Ent), f = n ∧ T[n]? = some d ∧ IsFun d.scope ∧
  (k = d.cnt ∨ ∃ (j : Nat) (b : Ent), n < j ∧ j ≤ n + d.cnt ∧ T[j]? = some b ∧ b.type = TyDOTDOTDOT)

theorem Conform.count {T : Tab} {i last : Nat} {ts : List (Int × Nat)} (h : Conform T i last ts) : i ≤ last + 1 →
    i + ts.length = last + 1 ∨ ∃ (j : Nat) (b : Ent), i ≤ j ∧ j ≤ last ∧ T[j]? = some b ∧ b.type = TyDOTDOTDOT := by
  induction h with
  | done h => intro _; left; simp only [List.length_nil]; omega
  | one h _ _ _ _ ih =>
    intro hi
    rcases ih (by omega) with h | ⟨j, b, h1, h2⟩
    · left; simp only [List.length_cons]; omega
    · exact .inr ⟨j, b, by omega, h2⟩
  | dots h1 h2 h3 => exact fun _ => .inr ⟨_, _, Nat.le_refl _, h1, h2, h3⟩

/-- As many types as arguments. -/
theorem Ty.argc {R : Rules} {T : Tab} {m : Nat} {s : SX} {ts : List (Int × Nat)} {e : Expr} (h : Ty R T m s ts e) :
    argc e = ts.length := by
  induction h with
  | int | chr | log | nul | sizeof | str | addrof | var | call0 | call | com | fld => rfl
  | args _ _ ih1 ih2 => simp [Gen.argc, ih1]
  | par _ ih => exact ih
  | conv h1 _ ih => cases h1 <;> first | exact ih | rfl
  | pre h1 _ ih => cases h1 <;> first | exact ih | rfl
  | idx _ _ h3 _ _ => cases h3 <;> rfl
  | bin h1 =>
    rw [← binOp_iff] at h1
    unfold binOp at h1
    split at h1 <;> first | (cases h1; done) | (cases h1; rfl)
  | ass _ _ _ _ h5 => cases h5 <;> rfl

theorem Ty.calls {R : Rules} {T : Tab} {m : Nat} {s : SX} {ts : List (Int × Nat)} {e : Expr} (h : Ty R T m s ts e) :
    callsAll (FnIdx T) e := by
  induction h with
  | int | chr | log | nul | sizeof | str | addrof | var => trivial
  | call0 h1 h2 _ h3 =>
    refine ⟨_, _, rfl, h1.1, h2, (h3.count (by omega)).imp (fun h => ?_) fun h => h⟩
    simp only [List.length_nil] at h; omega
  | call h1 h2 _ h4 h3 ih =>
    refine ⟨⟨_, _, rfl, h1.1, h2, (h3.count (by omega)).imp (fun h => ?_) fun h => h⟩, ih⟩
    rw [h4.argc]; omega
  | args _ _ ih1 ih2 | idx _ _ _ ih1 ih2 | com _ _ ih1 ih2 => exact ⟨ih1, ih2⟩
  | bin _ _ _ _ ih1 ih2 => exact ⟨ih1, ih2⟩
  | par _ ih => exact ih
  | conv h1 _ ih => cases h1 <;> exact ih
  | fld _ _ _ _ ih => exact ⟨ih, trivial⟩
  | pre h1 _ ih => cases h1 <;> exact ih
  | ass _ _ _ _ h5 ih1 ih2 =>
    cases h5 with
    | var => exact ih2
    | mem => exact ⟨ih1.1, ih1.2, ih2⟩

theorem callsAll.mono {P Q : Int → Nat → Prop} (h : ∀ f k, P f k → Q f k) {e : Expr} (he : callsAll P e) : callsAll Q e := by
  induction e with
  | cnst | leaf => trivial
  | func0 f => exact h f 0 he
  | func f a ih => exact ⟨h f _ he.1, ih he.2⟩
  | un o e ih => exact ih he
  | bin o l r ih1 ih2 => exact ⟨ih1 he.1, ih2 he.2⟩
  | assV k v r ih => exact ih he
  | assM o a i r h1 h2 h3 => exact ⟨h1 he.1, h2 he.2.1, h3 he.2.2⟩

theorem callsS.mono {P Q : Int → Nat → Prop} (h : ∀ f k, P f k → Q f k) {s : Stmt} (hs : callsS P s) : callsS Q s := by
  induction s with
  | empty | brk | cnt => trivial
  | exp e => exact callsAll.mono h hs
  | ifs c a ih => exact ⟨callsAll.mono h hs.1, ih hs.2⟩
  | els c a b ih1 ih2 => exact ⟨callsAll.mono h hs.1, ih1 hs.2.1, ih2 hs.2.2⟩
  | whl c a re ih =>
    exact ⟨fun x hx => callsAll.mono h (hs.1 x hx), ih hs.2.1, fun x hx => callsAll.mono h (hs.2.2 x hx)⟩
  | dos a c ih => exact ⟨ih hs.1, callsAll.mono h hs.2⟩
  | ret e => exact fun x hx => callsAll.mono h (hs x hx)
  | seq b x y ih1 ih2 => exact ⟨ih1 hs.1, ih2 hs.2⟩

theorem ReadS.calls {K : Tab → Prop} {P : List Tab} {Q : Int → Nat → Prop} (hf : ∀ T, AtPt K P T → ∀ f k, FnIdx T f k → Q f k) {s : Stmt}
    (h : ReadS K P s) : callsS Q s := by
  have hT : ∀ {T m e}, AtPt K P T → Typed T m e → callsAll Q e := by
    rintro T m e h1 ⟨n, x, t, h2, -⟩
    exact callsAll.mono (hf T h1) h2.calls
  have hE : ∀ {m e}, ReadE K P m e → callsAll Q e := by
    rintro m e ⟨T, h1, h2⟩
    exact hT h1 h2
  induction s with
  | empty | brk | cnt => trivial
  | exp e =>
    rcases h with h | ⟨T, n, r, d, h1, rfl, h2, h3, h4⟩
    · exact hE h
    · show callsAll Q r; exact hT h1 h4
  | ifs c a ih => exact ⟨hE h.1, ih h.2⟩
  | els c a b ih1 ih2 => exact ⟨hE h.1, ih1 h.2.1, ih2 h.2.2⟩
  | whl c a re ih => exact ⟨fun x hx => hE (h.1 x hx), ih h.2.1, fun x hx => hE (h.2.2 x hx)⟩
  | dos a c ih => exact ⟨ih h.1, hE h.2⟩
  | ret e => exact fun x hx => hE (h x hx)
  | seq b x y ih1 ih2 => exact ⟨ih1 h.1, ih2 h.2⟩

/-- The trees of the functions are as the code generator needs them. -/
def TreeOk : Out → Prop
  | .func f frame src body tab pts => SlotsOk (.func f frame src body tab pts) → ∃ d, tab[f]? = some d ∧ d.scope = ScFUNC ∧
      callsS (FnIdx tab) src ∧ ∀ nt g V, Told nt g V tab frame d.cnt → tameS nt (renS g src) = true → okS nt V (renS g src) = true
  | _ => True

theorem treeOk_inv (o : Opts) : TopInv o fun t _ out => (AllGlob t ∧ Glo t) ∧ ∀ x ∈ out, TreeOk x := by
  refine out_inv (glo_inv o) (by intros; trivial) (by intros; trivial) ?_
  intro t s s' e ty x old s2 s3 b body hg hdef he _ _ hd h1 hold _ h3 h4 h5 _ h7 _ _ _ hslots
  obtain ⟨hd, hn, -⟩ := hd
  have hb := getBlock_back h7
  obtain ⟨P, hP, hP'⟩ := hb.pts
  rw [h5, List.append_nil] at hP
  have hx : ∀ e ∈ x, e.scope = ScPRM := by
    obtain ⟨y, hy, hy'⟩ := hd.app
    rw [List.append_assoc, List.append_cancel_left_eq, List.singleton_append, List.cons.injEq] at hy
    rw [hy.2]
    exact hy'
  have hxm : (x.map fun e => { e with scope := ScPRM }) = x := by
    conv_rhs => rw [← List.map_id x]
    refine List.map_congr_left fun d hd => ?_
    have := hx d hd
    rw [← this]
    rfl
  have hmo : Glo (markOld old t) := by
    cases old with
    | none => exact hg.2
    | some i =>
      obtain ⟨d, k1, k2, -⟩ := hold i rfl
      refine hg.2.scope fun d' hd' => ?_
      rw [k1] at hd'
      cases hd'
      rw [k2]
      unfold IsVar IsFun
      decide
  have hglo : Glo s2.tab := by
    rw [h1]
    have := hmo.func (e := e) hn (c := ScFUNC) (c' := ScPRM) (by unfold IsVar; decide) (.inr rfl)
    rw [hxm] at this
    exact this
  have hlen : s2.tab.length ≤ 500 := by
    have h0 : (t ++ [e]).length ≤ 500 := by
      have : t.length < 500 := (defName_some hdef).2.1
      rw [List.length_append, List.length_singleton]; omega
    have := hd.len h0
    rw [h1]
    simp only [List.length_append, List.length_cons, markOld_len] at this ⊢
    exact this
  -- scopes in the table at the beginning of the body
  have hsc : ∀ (n : Nat) (d : Ent), s2.tab[n]? = some d → d.scope < ScLVAR ∨
      (d.scope = ScPRM ∧ d.cnt < x.length) := by
    intro n d hd
    rw [h1, List.getElem?_append] at hd
    split at hd
    · exact .inl (hg.1.markOld old d (List.mem_of_getElem? hd))
    · generalize n - (markOld old t).length = k at hd
      cases k with
      | zero =>
        simp only [List.getElem?_cons_zero, Option.some.injEq] at hd
        subst hd
        exact .inl (by decide : ScFUNC < ScLVAR)
      | succ k =>
        rw [List.getElem?_cons_succ] at hd
        refine .inr ⟨hx d (List.mem_of_getElem? hd), ?_⟩
        have := (List.getElem?_eq_some_iff.1 hd).1
        have := (hn k d hd).1
        omega
  have hfin : ∀ (n : Nat) (d : Ent), s2.tab[n]? = some d → s3.tab[n]? = some d := by
    obtain ⟨y, hy, -⟩ := hb.void
    intro n d hd
    rw [hy, List.getElem?_append_left (List.getElem?_eq_some_iff.1 hd).1]
    exact hd
  have hread := getBlock_read (keeps_loc s2.tab.length) h7 ⟨⟨hlen, fun j d hj hd => by
    rw [List.getElem?_eq_none hj] at hd; cases hd⟩, by rw [h5]; simp⟩
  have hbase : ∀ T, AtPt (Loc s2.tab.length) s3.pts T → ∀ (n : Nat) (d : Ent), T[n]? = some d → n < s2.tab.length →
      s2.tab[n]? = some d := by
    intro T hT n d hd hn
    obtain ⟨hK, p, hp, y, hy, hyv⟩ := hT
    obtain ⟨z0, hz0⟩ := (hP' p (hP ▸ hp)).base
    have hT : T = s2.tab ++ (z0 ++ y) := by rw [hy, ← hz0, List.append_assoc]
    rw [hT, List.getElem?_append_left hn] at hd
    exact hd
  have hfun : ∀ T, AtPt (Loc s2.tab.length) s3.pts T → ∀ (n : Nat) (d : Ent), T[n]? = some d → IsFun d.scope →
      s2.tab[n]? = some d := by
    intro T hT n d hd hs
    refine hbase T hT n d hd ?_
    by_contra hc
    rcases (hT.1.2 n d (by omega) hd).1 with h | h <;>
    · rw [h] at hs
      revert hs
      unfold IsFun
      decide
  refine ⟨{ e with cnt := x.length, scope := ScFUNC }, hfin _ _ ?_, rfl, ?_, ?_⟩
  · rw [h1, ← markOld_len old t, List.getElem?_append_right (Nat.le_refl _), Nat.sub_self]
    rfl
  · refine hread.calls fun T hT f k ⟨n, d, hf, hd, hs, hk⟩ => ?_
    have hd2 := hfun T hT n d hd hs
    refine ⟨n, d, hf, hfin n d hd2, hs, hk.imp id fun ⟨j, b, h1, h2, h3, h4⟩ => ⟨j, b, h1, h2, hfin j b ?_, h4⟩⟩
    have := (hglo.fn n d hd2 hs).1
    exact hbase T hT j b h3 (by omega)
  intro nt g V htold
  refine hread.ready fun T hT => ?_
  replace hbase := hbase T hT
  replace hfun := hfun T hT
  obtain ⟨hK, p, hp, y, hy, hyv⟩ := hT
  constructor
  · exact fun n d hd hs => htold.fn n d (hfin n d (hfun n d hd hs)) hs
  · intro n d k hd hs
    by_cases hn' : n < s2.tab.length
    · have hd2 := hbase n d hd hn'
      rcases hsc n d hd2 with hlt | ⟨hsp, hcn⟩
      · have hvar : IsVar d.scope ∧ k = .glb := by
          generalize d.scope = c at hs hlt
          cases hs with
          | comm => exact ⟨.inl rfl, rfl⟩
          | gvar => exact ⟨.inr rfl, rfl⟩
          | lvar => exact absurd hlt (by decide)
          | prm => exact absurd hlt (by decide)
        obtain ⟨hvar, rfl⟩ := hvar
        exact ⟨htold.glb n d (hfin n d hd2) hvar, hglo.var n d hd2 hvar⟩
      · have hk : k = .prm := by
          rw [hsp] at hs
          generalize hc : ScPRM = c at hs
          cases hs with
          | comm => exact absurd hc (by decide)
          | gvar => exact absurd hc (by decide)
          | lvar => exact absurd hc (by decide)
          | prm => rfl
        subst hk
        refine ⟨htold.prm n d (hfin n d hd2) hcn, ?_⟩
        rw [h1, List.getElem?_append] at hd2
        split at hd2
        · have := hg.1.markOld old d (List.mem_of_getElem? hd2)
          rw [hsp] at this
          exact absurd this (by decide)
        · generalize n - (markOld old t).length = k at hd2
          cases k with
          | zero =>
            simp only [List.getElem?_cons_zero, Option.some.injEq] at hd2
            subst hd2
            exact absurd hsp (by decide : ScFUNC ≠ ScPRM)
          | succ k =>
            rw [List.getElem?_cons_succ] at hd2
            exact nv_of (hn k d hd2).2
    · obtain ⟨g1, g2⟩ := hK.2 n d (by omega) hd
      refine ⟨?_, g2⟩
      rcases g1 with h | h
      · have hk : k = .loc := by
          rw [h] at hs
          generalize hc : ScLVAR = c at hs
          cases hs with
          | comm => exact absurd hc (by decide)
          | gvar => exact absurd hc (by decide)
          | lvar => rfl
          | prm => exact absurd hc (by decide)
        subst hk
        have hpn : p[n]? = some d := by
          rw [hy, List.getElem?_append] at hd
          split at hd
          · exact hd
          · have := hyv d (List.mem_of_getElem? hd)
            rw [h] at this
            exact absurd this (by decide)
        obtain ⟨k1, k2, -⟩ := hslots.1 p hp
        obtain ⟨d', q1, -, -, -, q2⟩ := k1 n d hpn
        have := k2 n d hpn h
        exact htold.loc n d' q1 (by omega) (by omega)
      · rw [h] at hs
        generalize hc : ScVOID = c at hs
        cases hs <;> exact absurd hc (by decide)
  · exact htold.str
  · intro n d hd hs
    rcases hs with hs | hs
    · exact htold.addr n d (hfin n d (hfun n d hd hs)) (.inl hs)
    · have hvar : IsVar d.scope := by
        generalize d.scope = c at hs
        generalize hk : Kind.glb = k at hs
        cases hs <;> first | exact .inl rfl | exact .inr rfl | cases hk
      by_cases hn' : n < s2.tab.length
      · exact htold.addr n d (hfin n d (hbase n d hd hn')) (.inr hvar)
      · exfalso
        rcases (hK.2 n d (by omega) hd).1 with h | h <;> rw [h] at hvar <;> exact absurd hvar (by decide)
  · intro n j d c hd hs hj hj' hc
    have hd2 := hfun n d hd hs
    obtain ⟨g1, g2⟩ := hglo.fn n d hd2 hs
    exact g2 j c hj hj' (hbase j c hc (by omega))
  · exact hK.1

end Cmm.Parse
