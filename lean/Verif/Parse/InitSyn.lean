import Verif.Parse.DataTree
import Verif.Props.C36

/-
Initial values of global variables, for Verif/Props/C70.lean: a grammar with the trees it stands for, and the proof that
getInit (parser.c:1033-1180) reads exactly what the grammar derives.
-/
namespace Cmm.Parse
open Cmm.Tree
open Cmm.Gen (DT)

/-- A type that is not a reference. -/
abbrev Basic (ty : Int) : Prop := ty = TyINT ∨ ty = TyCHAR ∨ ty = TyBOOL

/-- The expression `x` of type `ty` is optimised to the constant `d`. -/
def Cst (T : Tab) (m : Nat) (ty : Int) (x : SX) (d : DT) : Prop :=
  x.At 12 ∧ ∃ t e e', Ty actual T m x [t] e ∧ Assignable t (ty, 0) ∧ Opt.optExp e = some e' ∧ cnstTree e' = some d

/-- What is read: a value, values separated by commas, the fields number `i` to `j`, a field, sizes of an array. -/
inductive Kind
  | val (ty : Int) (dim : Nat) | vals (ty : Int) (dim : Nat) | fields (i j : Nat) | field (ty : Int) (dim : Nat) | sizes (n : Nat)

/-- The grammar of initial values: the tokens, the tree they stand for and the last label before and afterwards. -/
inductive Says (T : Tab) : Kind → Nat → List Tok → DT → Nat → Prop
  | cst {ty m x d} : Basic ty → Cst T m ty x d → Says T (.val ty 0) m x.toks d (m + x.strs)
  | nulS {ty m} : ty ≤ 0 → Says T (.val ty 0) m [Lx.NUL] (.cnst 0) m
  | nulA {ty dim m} : Says T (.val ty (dim + 1)) m [Lx.NUL] (.cnst 0) m
  | str {m x} : Says T (.val TyCHAR 1) m [.str x] (.str (m + 1 : Nat)) (m + 1)
  | arr {ty dim m ts d m'} : Says T (.sizes (dim + 1)) m ts d m' →
      Says T (.val ty (dim + 1)) m (Lx.ARRAY :: Lx.lpar :: (ts ++ [Lx.rpar])) (.arry d (bytes ty (dim + 1))) m'
  | list {ty dim m ts d m'} : Says T (.vals ty dim) m ts d m' →
      Says T (.val ty (dim + 1)) m (Lx.lbrc :: (ts ++ [Lx.rbrc])) (.list d (bytes ty (dim + 1))) m'
  | struct {ty m j ts d m'} : ty ≤ 0 → Says T (.fields ((-ty).toNat + 1) j) m ts d m' → (∀ e, T[j]? = some e → e.scope ≠ ScVOID) →
      Says T (.val ty 0) m (Lx.lbrc :: (ts ++ [Lx.rbrc])) (.list d 9999) m'
  | one {ty dim m ts d m'} : Says T (.val ty dim) m ts d m' → Says T (.vals ty dim) m ts d m'
  | more {ty dim m ts d m' us e m''} : Says T (.vals ty dim) m ts d m' → Says T (.val ty dim) m' us e m'' →
      Says T (.vals ty dim) m (ts ++ Lx.comma :: us) (.semi d e) m''
  | first {i e m ts d m'} : T[i]? = some e → e.scope = ScVOID → Says T (.field e.type e.dim) m ts d m' →
      Says T (.fields i (i + 1)) m ts d m'
  | next {i j e m ts d m' us f m''} : Says T (.fields i j) m ts d m' → T[j]? = some e → e.scope = ScVOID →
      Says T (.field e.type e.dim) m' us f m'' → Says T (.fields i (j + 1)) m (ts ++ Lx.comma :: us) (.semi d f) m''
  | fldC {ty m x d} : Basic ty → Cst T m ty x d → Says T (.field ty 0) m x.toks d (m + x.strs)
  | fldN {ty dim m} : ty ≤ 0 ∨ 0 < dim → Says T (.field ty dim) m [Lx.NUL] (.cnst 0) m
  | fldS {m x} : Says T (.field TyCHAR 1) m [.str x] (.str (m + 1 : Nat)) (m + 1)
  | size {n m x d} : Cst T m TyINT x d → 0 < lVal d → Says T (.sizes (n + 1)) m x.toks d (m + x.strs)
  | sizes {n m x d ts l m'} : Cst T m TyINT x d → 0 < lVal d → Says T (.sizes n) (m + x.strs) ts l m' →
      Says T (.sizes (n + 1)) m (x.toks ++ Lx.comma :: ts) (.semi l d) m'

/-! ### What is read is in the grammar -/

/-- The part of the tokens that was read says `d`. -/
structure Did (k : Kind) (s : PS) (d : DT) (s' : PS) (ts : List Tok) : Prop where
  toks : s.toks = ts ++ s'.toks
  st : s' = { s with toks := s'.toks, lab := s'.lab }
  den : Says s.tab k s.lab ts d s'.lab

variable {T : Tab} {s s' : PS} {d : DT} {ty : Int}

theorem Did.tab {k : Kind} {ts : List Tok} (h : Did k s d s' ts) : s'.tab = s.tab := by rw [h.st]

theorem getCnst_cst (h : getCnst ty s = some (d, s')) : ∃ x, Cst s.tab s.lab ty x d ∧ s.toks = x.toks ++ s'.toks ∧
    s' = { s with toks := s'.toks, lab := s.lab + x.strs } := by
  simp only [getCnst, Option.bind_eq_bind, Option.bind_eq_some_iff] at h
  obtain ⟨⟨w, s1⟩, h1, w', h2, e, h3, d', h4, h⟩ := h
  cases h
  obtain ⟨x, hx⟩ := lev_sound h1 (by decide)
  rw [chkCmpat_tree h2] at h3
  exact ⟨x, ⟨hx.lev, _, _, _, hx.ty, chkCmpat_iff.1 (by rw [h2]; rfl), h3, h4⟩, hx.toks, hx.st⟩

theorem chkTok_eq {t : Tok} (h : chkTok t s = some s') : s.toks = t :: s'.toks ∧ s' = { s with toks := s'.toks } := by
  unfold chkTok at h
  split at h
  · next h0 =>
    cases h
    cases hs : s.toks with
    | nil => rw [hs] at h0; cases h0
    | cons a r => rw [hs] at h0; cases h0; exact ⟨by simp [PS.next, hs], rfl⟩
  · cases h

theorem next_eq {t : Tok} {r : List Tok} (h : s.toks = t :: r) : s.next = { s with toks := r } := by simp [PS.next, h]

theorem getFldInit_did {e : Ent} (h : getFldInit e s = some (d, s')) : ∃ ts, Did (.field e.type e.dim) s d s' ts := by
  unfold getFldInit at h
  split at h
  · next h0 =>
    obtain ⟨s1, h1, h⟩ := Option.map_eq_some_iff.1 h
    cases h
    obtain ⟨h2, h3⟩ := chkTok_eq h1
    have hl : s'.lab = s.lab := by rw [h3]
    exact ⟨[Lx.NUL], h2, by rw [hl]; exact h3, hl ▸ .fldN (.inl h0)⟩
  · split at h
    · next hd =>
      split at h
      · next x r hs =>
        split at h
        · cases h
        · next h0 =>
          cases h
          simp only [ne_eq, not_or, Decidable.not_not] at h0
          rw [h0.1, h0.2]
          exact ⟨[.str x], by simp [PS.next, hs], rfl, .fldS⟩
      · next r hs =>
        cases h
        exact ⟨[Lx.NUL], by simp [PS.next, hs], rfl, .fldN (.inr hd)⟩
      · cases h
    · next hd =>
      have hd : e.dim = 0 := by omega
      rw [hd]
      split at h
      · next h0 =>
        obtain ⟨x, h1, h2, h3⟩ := getCnst_cst h
        have hl : s'.lab = s.lab + x.strs := by rw [h3]
        exact ⟨x.toks, h2, by rw [hl]; exact h3, hl ▸ .fldC (h0.imp id Or.symm) h1⟩
      · cases h

theorem fields_did {i : Nat} {l : Option DT} {r : DT × PS} (h : getStructInit0 i l s = some r) :
    ∀ s0 : PS, ∀ i0, (l = none ∧ i0 = i ∧ s0 = s ∨ ∃ a s1 ts, l = some a ∧ Did (.fields i0 i) s0 a s1 ts ∧ s1.toks = Lx.comma :: s.toks ∧
      s = { s1 with toks := s.toks }) →
    ∃ ts j, Did (.fields i0 j) s0 r.1 r.2 ts ∧ (∀ e, s0.tab[j]? = some e → e.scope ≠ ScVOID) := by
  refine getStructInit0.partial_correctness (fun i l s r => ∀ s0 : PS, ∀ i0, (l = none ∧ i0 = i ∧ s0 = s ∨
      ∃ a s1 ts, l = some a ∧ Did (.fields i0 i) s0 a s1 ts ∧ s1.toks = Lx.comma :: s.toks ∧ s = { s1 with toks := s.toks }) →
    ∃ ts j, Did (.fields i0 j) s0 r.1 r.2 ts ∧ (∀ e, s0.tab[j]? = some e → e.scope ≠ ScVOID)) ?_ i l s r h
  intro f ih i l s r h s0 i0 hp
  simp only [Option.bind_eq_bind, Option.bind_eq_some_iff] at h
  obtain ⟨e, he, h⟩ := h
  split at h
  · cases h
  · next hv =>
    simp only [ne_eq, Decidable.not_not] at hv
    simp only [Option.bind_eq_some_iff] at h
    obtain ⟨⟨d, s2⟩, h1, h⟩ := h
    obtain ⟨us, hu⟩ := getFldInit_did h1
    have key : ∃ ts, Did (.fields i0 (i + 1)) s0 (catD l d) s2 ts := by
      rcases hp with ⟨rfl, rfl, rfl⟩ | ⟨a, s1, ts, rfl, h3, h4, h5⟩
      · exact ⟨us, hu.toks, hu.st, .first he hv hu.den⟩
      · have e1 : s.tab = s0.tab := by rw [h5]; exact h3.tab
        have e2 : s.lab = s1.lab := by rw [h5]
        refine ⟨ts ++ Lx.comma :: us, ?_, ?_, ?_⟩
        · rw [h3.toks, h4, hu.toks]; simp
        · rw [hu.st, h5, h3.st]
        · have := hu.den
          rw [e1, e2] at this
          exact .next h3.den (e1 ▸ he) hv this
    obtain ⟨ts, hk⟩ := key
    split at h
    · next r' hs =>
      exact ih _ _ _ _ h s0 i0 (.inr ⟨_, s2, ts, rfl, hk, by rw [next_eq hs]; exact hs, by rw [next_eq hs]⟩)
    · have ht := hk.tab
      split at h
      · next e' he' =>
        split at h
        · cases h
        · next hv' =>
          cases h
          refine ⟨ts, _, hk, fun e1 he1 => ?_⟩
          rw [ht, he1] at he'
          cases he'
          exact hv'
      · next he' =>
        cases h
        refine ⟨ts, _, hk, fun e1 he1 => ?_⟩
        rw [ht, he1] at he'
        cases he'

theorem getStructInit_did (h0 : ty ≤ 0) (h : getStructInit ty s = some (d, s')) : ∃ ts, Did (.val ty 0) s d s' ts := by
  unfold getStructInit at h
  split at h
  · next r hs => cases h; exact ⟨[Lx.NUL], by simp [PS.next, hs], rfl, .nulS h0⟩
  · next r hs =>
    simp only [Option.bind_eq_bind, Option.bind_eq_some_iff] at h
    obtain ⟨⟨d1, s1⟩, h1, s2, h2, h⟩ := h
    cases h
    obtain ⟨ts, j, h3, h4⟩ := fields_did h1 _ _ (.inl ⟨rfl, rfl, rfl⟩)
    obtain ⟨h5, h6⟩ := chkTok_eq h2
    rw [next_eq hs] at h3 h4
    have hl : s'.lab = s1.lab := by rw [h6]
    refine ⟨Lx.lbrc :: (ts ++ [Lx.rbrc]), ?_, ?_, ?_⟩
    · have := h3.toks
      simp only at this
      rw [hs, this, h5]; simp
    · rw [h6, h3.st]
    · rw [hl]; exact .struct h0 h3.den h4
  · cases h

theorem getElm_did (h : getElm ty s = some (d, s')) : ∃ ts, Did (.val ty 0) s d s' ts := by
  unfold getElm at h
  split at h
  · next h0 => exact getStructInit_did h0 h
  · split at h
    · next h0 =>
      obtain ⟨x, h1, h2, h3⟩ := getCnst_cst h
      have hl : s'.lab = s.lab + x.strs := by rw [h3]
      exact ⟨x.toks, h2, by rw [hl]; exact h3, hl ▸ .cst h0 h1⟩
    · cases h

theorem getArray0_did : ∀ {n : Nat} {s s' : PS} {d : DT}, getArray0 n s = some (d, s') → ∃ ts, Did (.sizes n) s d s' ts := by
  intro n
  induction n with
  | zero => intro s s' d h; cases h
  | succ n ih =>
    intro s s' d h
    simp only [getArray0, Option.bind_eq_bind, Option.bind_eq_some_iff] at h
    obtain ⟨⟨d1, s1⟩, h1, h⟩ := h
    obtain ⟨x, k1, k2, k3⟩ := getCnst_cst h1
    have hl : s1.lab = s.lab + x.strs := by rw [k3]
    split at h
    · cases h
    · next hv =>
      have hv : 0 < lVal d1 := by simp only at hv; omega
      split at h
      · next r hs =>
        simp only [Option.bind_eq_some_iff] at h
        obtain ⟨⟨d2, s2⟩, h2, h⟩ := h
        cases h
        obtain ⟨ts, ht⟩ := ih h2
        rw [next_eq hs] at ht
        have e1 : s1.tab = s.tab := by rw [k3]
        refine ⟨x.toks ++ Lx.comma :: ts, ?_, ?_, ?_⟩
        · have := ht.toks
          simp only at this
          rw [k2, hs, this]; simp
        · rw [ht.st, k3]
        · have := ht.den
          simp only [e1, hl] at this
          exact .sizes k1 hv this
      · cases h
        exact ⟨x.toks, k2, by rw [hl]; exact k3, hl ▸ .size k1 hv⟩

theorem init_did (ty : Int) :
    (∀ dim s r, initElm ty dim s = some r → 0 < dim → ∃ ts, Did (.val ty (dim - 1)) s r.1 r.2 ts) ∧
    (∀ dim s r, getGArrayInit ty dim s = some r → 0 < dim → ∃ ts, Did (.val ty dim) s r.1 r.2 ts) ∧
    (∀ dim l s r, initLoop ty dim l s = some r → 0 < dim → ∀ s0 : PS, (l = none ∧ s0 = s ∨
      ∃ a s1 ts, l = some a ∧ Did (.vals ty (dim - 1)) s0 a s1 ts ∧ s1.toks = Lx.comma :: s.toks ∧ s = { s1 with toks := s.toks }) →
      ∃ ts, Did (.vals ty (dim - 1)) s0 r.1 r.2 ts) := by
  refine initElm.mutual_partial_correctness ty (fun dim s r => 0 < dim → ∃ ts, Did (.val ty (dim - 1)) s r.1 r.2 ts)
    (fun dim s r => 0 < dim → ∃ ts, Did (.val ty dim) s r.1 r.2 ts)
    (fun dim l s r => 0 < dim → ∀ s0 : PS, (l = none ∧ s0 = s ∨
      ∃ a s1 ts, l = some a ∧ Did (.vals ty (dim - 1)) s0 a s1 ts ∧ s1.toks = Lx.comma :: s.toks ∧ s = { s1 with toks := s.toks }) →
      ∃ ts, Did (.vals ty (dim - 1)) s0 r.1 r.2 ts) ?_ ?_ ?_
  · intro g ih dim s r h hd
    split at h
    · have : dim = 1 := by omega
      subst this
      exact getElm_did h
    · exact ih _ _ _ h (by omega)
  · intro g ih dim s r h hd
    obtain ⟨dim, rfl⟩ : ∃ k, dim = k + 1 := ⟨dim - 1, by omega⟩
    split at h
    · next r' hs =>
      simp only [Option.bind_eq_bind, Option.bind_eq_some_iff] at h
      obtain ⟨⟨d1, s1⟩, h1, s2, h2, h⟩ := h
      cases h
      obtain ⟨ts, h3⟩ := ih _ _ _ _ h1 hd _ (.inl ⟨rfl, rfl⟩)
      obtain ⟨h5, h6⟩ := chkTok_eq h2
      rw [next_eq hs] at h3
      have hl : s2.lab = s1.lab := by rw [h6]
      refine ⟨Lx.lbrc :: (ts ++ [Lx.rbrc]), ?_, ?_, ?_⟩
      · have := h3.toks
        simp only at this
        rw [hs, this, h5]; simp
      · show s2 = _
        rw [h6, h3.st]
      · show Says _ _ _ _ _ s2.lab
        rw [hl]; exact .list h3.den
    · next x r' hs =>
      split at h
      · cases h
      · next h0 =>
        cases h
        simp only [ne_eq, not_or, Decidable.not_not] at h0
        obtain ⟨rfl, h0⟩ := h0
        obtain rfl : dim = 0 := by omega
        exact ⟨[.str x], by simp [PS.next, hs], rfl, .str⟩
    · next r' hs =>
      simp only [getArray, Option.bind_eq_bind, Option.bind_eq_some_iff] at h
      obtain ⟨s1, h1, ⟨d1, s2⟩, h2, s3, h3, h⟩ := h
      cases h
      rw [next_eq hs] at h1
      obtain ⟨k1, k2⟩ := chkTok_eq h1
      obtain ⟨ts, ht⟩ := getArray0_did h2
      obtain ⟨k3, k4⟩ := chkTok_eq h3
      simp only at k1
      have e1 : s1.tab = s.tab := by rw [k2]
      have e2 : s1.lab = s.lab := by rw [k2]
      have e3 : s3.lab = s2.lab := by rw [k4]
      refine ⟨Lx.ARRAY :: Lx.lpar :: (ts ++ [Lx.rpar]), ?_, ?_, ?_⟩
      · rw [hs, k1, ht.toks, k3]; simp
      · show s3 = _
        rw [k4, ht.st, k2]
      · show Says _ _ _ _ _ s3.lab
        rw [e3]
        have := ht.den
        rw [e1, e2] at this
        exact .arr this
    · next r' hs => cases h; exact ⟨[Lx.NUL], by simp [PS.next, hs], rfl, .nulA⟩
    · cases h
  · intro g l ih1 ih2 dim a s r h hd s0 hp
    simp only [Option.bind_eq_bind, Option.bind_eq_some_iff] at h
    obtain ⟨⟨d1, s2⟩, h1, h⟩ := h
    obtain ⟨us, hu⟩ := ih1 _ _ _ h1 hd
    have key : ∃ ts, Did (.vals ty (dim - 1)) s0 (catD a d1) s2 ts := by
      rcases hp with ⟨rfl, rfl⟩ | ⟨a, s1, ts, rfl, h3, h4, h5⟩
      · exact ⟨us, hu.toks, hu.st, .one hu.den⟩
      · have e1 : s.tab = s0.tab := by rw [h5]; exact h3.tab
        have e2 : s.lab = s1.lab := by rw [h5]
        refine ⟨ts ++ Lx.comma :: us, ?_, ?_, ?_⟩
        · rw [h3.toks, h4, hu.toks]; simp
        · have := hu.st
          simp only at this
          rw [this, h5, h3.st]
        · have := hu.den
          rw [e1, e2] at this
          exact .more h3.den this
    obtain ⟨ts, hk⟩ := key
    split at h
    · next r' hs =>
      exact ih2 _ _ _ _ h hd s0 (.inr ⟨_, s2, ts, rfl, hk, by rw [next_eq hs]; exact hs, by rw [next_eq hs]⟩)
    · cases h
      exact ⟨ts, hk⟩

theorem getInit_did {dim : Nat} (h : getInit ty dim s = some (d, s')) : ∃ ts, Did (.val ty dim) s d s' ts := by
  unfold getInit at h
  split at h
  · next hd => exact (init_did ty).2.1 _ _ _ h hd
  · next hd =>
    obtain rfl : dim = 0 := by omega
    split at h
    · next h0 =>
      obtain ⟨x, h1, h2, h3⟩ := getCnst_cst h
      have hl : s'.lab = s.lab + x.strs := by rw [h3]
      exact ⟨x.toks, h2, by rw [hl]; exact h3, hl ▸ .cst h0 h1⟩
    · split at h
      · next h0 => exact getStructInit_did h0 h
      · cases h

/-! ### What is in the grammar is read -/

/-- The state behind what is read. -/
def PS.at (s : PS) (r : List Tok) (m : Nat) : PS := { s with toks := r, lab := m }

/-- What the functions of the parser do if `d` is read and `r` is left. -/
def Res (s : PS) (r : List Tok) (d : DT) (m : Nat) : Kind → Prop
  | .val ty dim => getInit ty dim s = some (d, s.at r m) ∧ initElm ty (dim + 1) s = some (d, s.at r m)
  | .vals ty dim => initLoop ty (dim + 1) none s = match r with
    | Lx.comma :: r => initLoop ty (dim + 1) (some d) (s.at r m)
    | r => some (d, s.at r m)
  | .field ty dim => ∀ e : Ent, e.type = ty → e.dim = dim → getFldInit e s = some (d, s.at r m)
  | .fields i j => getStructInit0 i none s = match r with
    | Lx.comma :: r => getStructInit0 j (some d) (s.at r m)
    | r => match s.tab[j]? with
      | some e => if e.scope = ScVOID then none else some (d, s.at r m)
      | none => some (d, s.at r m)
  | .sizes n => r.head? ≠ some Lx.comma → getArray0 n s = some (d, s.at r m)

theorem Cst.read {x : SX} (h : Cst s.tab s.lab ty x d) {r : List Tok} (hs : s.toks = x.toks ++ r) (hr : FolLt 13 r) :
    getCnst ty s = some (d, s.at r (s.lab + x.strs)) := by
  obtain ⟨h1, t, e, e', h2, h3, h4, h5⟩ := h
  have h6 := (reads x).full hs h2 (by decide) h1 hr
  have h7 := (chkCmpat_iff (w := res x t e)).2 h3
  obtain ⟨w, h7⟩ := Option.isSome_iff_exists.1 h7
  have h8 : w.tree = e := chkCmpat_tree h7
  simp only [getCnst, h6, h7, h8, h4, h5, Option.bind_eq_bind, Option.bind_some]
  rfl

theorem Basic.pos (h : Basic ty) : ¬ ty ≤ 0 := by
  rcases h with rfl | rfl | rfl <;> decide

theorem chkTok_at {t : Tok} {r : List Tok} (h : s.toks = t :: r) : chkTok t s = some (s.at r s.lab) := by
  simp [chkTok, h, PS.next, PS.at]

theorem Says.read {k : Kind} {m : Nat} {ts : List Tok} {m' : Nat} (h : Says T k m ts d m') :
    ∀ (s : PS) (r : List Tok), s.tab = T → s.lab = m → s.toks = ts ++ r → FolLt 13 r → Res s r d m' k := by
  have fol : ∀ (t : Tok) (r : List Tok), 13 ≤ tokLev t → FolLt 13 (t :: r) := fun t r h x hx => by cases hx; exact h
  induction h with
  | @cst ty m x d hb hc =>
    intro s r e1 e2 hs hr
    subst e1 e2
    have h1 := hc.read hs hr
    refine ⟨?_, ?_⟩
    · rw [getInit, if_neg (by decide), if_pos hb, h1]
    · rw [initElm, if_pos (by decide), getElm, if_neg hb.pos, if_pos hb, h1]
  | @nulS ty m h0 =>
    intro s r e1 e2 hs hr
    subst e1 e2
    have h1 : getStructInit ty s = some (.cnst 0, s.at r s.lab) := by rw [getStructInit, hs]; simp [PS.next, PS.at, hs]
    refine ⟨?_, ?_⟩
    · rw [getInit, if_neg (by decide), if_neg (fun hb => Basic.pos hb h0), if_pos h0, h1]
    · rw [initElm, if_pos (by decide), getElm, if_pos h0, h1]
  | @nulA ty dim m =>
    intro s r e1 e2 hs hr
    subst e1 e2
    have h1 : getGArrayInit ty (dim + 1) s = some (.cnst 0, s.at r s.lab) := by rw [getGArrayInit, hs]; simp [PS.next, PS.at, hs]
    refine ⟨?_, ?_⟩
    · rw [getInit, if_pos (by omega), h1]
    · rw [initElm, if_neg (by omega), Nat.add_sub_cancel, h1]
  | @str m x =>
    intro s r e1 e2 hs hr
    subst e1 e2
    have h1 : getGArrayInit TyCHAR 1 s = some (.str (s.lab + 1 : Nat), s.at r (s.lab + 1)) := by
      rw [getGArrayInit, hs]; simp [PS.next, PS.at, hs]
    refine ⟨?_, ?_⟩
    · rw [getInit, if_pos (by omega), h1]
    · rw [initElm, if_neg (by omega), Nat.add_sub_cancel, h1]
  | @arr ty dim m ts d m' _ ih =>
    intro s r e1 e2 hs hr
    simp only [List.append_assoc, List.cons_append, List.nil_append] at hs
    subst e1 e2
    have h2 := ih (s.at (ts ++ Lx.rpar :: r) s.lab) (Lx.rpar :: r) rfl rfl rfl (fol _ _ (by decide)) (by simp)
    have h1 : getGArrayInit ty (dim + 1) s = some (.arry d (bytes ty (dim + 1)), s.at r m') := by
      rw [getGArrayInit, hs]
      rw [getArray, next_eq hs]
      rw [chkTok_at rfl]
      simp only [Option.bind_eq_bind, Option.bind_some]
      have h2' : getArray0 (dim + 1) (PS.at { s with toks := Lx.lpar :: (ts ++ Lx.rpar :: r) } (ts ++ Lx.rpar :: r) s.lab) = _ := h2
      simp only [h2', Option.bind_some]
      rw [chkTok_at rfl]
      rfl
    refine ⟨?_, ?_⟩
    · rw [getInit, if_pos (by omega), h1]
    · rw [initElm, if_neg (by omega), Nat.add_sub_cancel, h1]
  | @list ty dim m ts d m' _ ih =>
    intro s r e1 e2 hs hr
    simp only [List.append_assoc, List.cons_append, List.nil_append] at hs
    subst e1 e2
    have h2 := ih (s.at (ts ++ Lx.rbrc :: r) s.lab) (Lx.rbrc :: r) rfl rfl rfl (fol _ _ (by decide))
    have h1 : getGArrayInit ty (dim + 1) s = some (.list d (bytes ty (dim + 1)), s.at r m') := by
      rw [getGArrayInit, hs]
      rw [next_eq hs]
      have h2' : initLoop ty (dim + 1) none { s with toks := ts ++ Lx.rbrc :: r } = _ := h2
      simp only [h2', Option.bind_eq_bind, Option.bind_some]
      rw [chkTok_at rfl]
      rfl
    refine ⟨?_, ?_⟩
    · rw [getInit, if_pos (by omega), h1]
    · rw [initElm, if_neg (by omega), Nat.add_sub_cancel, h1]
  | @struct ty m j ts d m' h0 _ he ih =>
    intro s r e1 e2 hs hr
    simp only [List.append_assoc, List.cons_append, List.nil_append] at hs
    subst e1 e2
    have h2 := ih (s.at (ts ++ Lx.rbrc :: r) s.lab) (Lx.rbrc :: r) rfl rfl rfl (fol _ _ (by decide))
    have h1 : getStructInit ty s = some (.list d 9999, s.at r m') := by
      rw [getStructInit, hs]
      rw [next_eq hs]
      have h2' : getStructInit0 ((-ty).toNat + 1) none { s with toks := ts ++ Lx.rbrc :: r } =
          some (d, s.at (Lx.rbrc :: r) m') := by
        refine h2.trans ?_
        show (match s.tab[j]? with
          | some e => if e.scope = ScVOID then none else some (d, s.at (Lx.rbrc :: r) m')
          | none => some (d, s.at (Lx.rbrc :: r) m')) = _
        cases hj : s.tab[j]? with
        | none => rfl
        | some e => exact if_neg (he e hj)
      simp only [h2', Option.bind_eq_bind, Option.bind_some]
      rw [chkTok_at rfl]
      rfl
    refine ⟨?_, ?_⟩
    · rw [getInit, if_neg (by decide), if_neg (fun hb => Basic.pos hb h0), if_pos h0, h1]
    · rw [initElm, if_pos (by decide), getElm, if_pos h0, h1]
  | one _ ih =>
    intro s r e1 e2 hs hr
    have h1 := (ih s r e1 e2 hs hr).2
    show initLoop _ _ _ _ = _
    rw [initLoop, h1]
    simp only [Option.bind_eq_bind, Option.bind_some]
    split <;> split <;> simp_all [PS.at, PS.next, catD]
  | @more ty dim m ts d m' us e m'' _ _ ih1 ih2 =>
    intro s r e1 e2 hs hr
    have h1 := ih1 s (Lx.comma :: (us ++ r)) e1 e2 (by simpa using hs) (fol _ _ (by decide))
    have h2 := (ih2 (s.at (us ++ r) m') r e1 rfl rfl hr).2
    refine Eq.trans h1 ?_
    simp only
    rw [initLoop, h2]
    simp only [Option.bind_eq_bind, Option.bind_some]
    split <;> split <;> simp_all [PS.at, PS.next, catD]
  | @first i e m ts d m' he hv _ ih =>
    intro s r e1 e2 hs hr
    have h1 := ih s r e1 e2 hs hr e rfl rfl
    show getStructInit0 _ _ _ = _
    subst e1
    rw [getStructInit0, he]
    simp only [Option.bind_eq_bind, Option.bind_some, hv, ne_eq, not_true_eq_false, if_false, h1]
    split <;> split <;> simp_all [PS.at, PS.next, catD]
  | @next i j e m ts d m' us f m'' _ he hv _ ih1 ih2 =>
    intro s r e1 e2 hs hr
    have h1 := ih1 s (Lx.comma :: (us ++ r)) e1 e2 (by simpa using hs) (fol _ _ (by decide))
    have h2 := ih2 (s.at (us ++ r) m') r e1 rfl rfl hr e rfl rfl
    refine Eq.trans h1 ?_
    subst e1
    simp only
    have he' : (s.at (us ++ r) m').tab[j]? = some e := he
    rw [getStructInit0, he']
    simp only [Option.bind_eq_bind, Option.bind_some, hv, ne_eq, not_true_eq_false, if_false, h2]
    split <;> split <;> simp_all [PS.at, PS.next, catD]
  | @fldC ty m x d hb hc =>
    intro s r e1 e2 hs hr e h1 h2
    subst e1 e2
    have h3 := hc.read hs hr
    rw [getFldInit, h1, h2, if_neg hb.pos, if_neg (by decide), if_pos (hb.imp id Or.symm), h3]
  | @fldN ty dim m h0 =>
    intro s r e1 e2 hs hr e h1 h2
    subst e1 e2
    rw [getFldInit, h1, h2]
    by_cases h3 : ty ≤ 0
    · rw [if_pos h3, chkTok_at hs]; rfl
    · rw [if_neg h3, if_pos (h0.resolve_left h3), hs]; simp [PS.next, PS.at, hs]
  | @fldS m x =>
    intro s r e1 e2 hs hr e h1 h2
    subst e1 e2
    rw [getFldInit, h1, h2, if_neg (by decide), if_pos (by decide), hs]
    simp [PS.next, PS.at, hs]
  | @size n m x d hc hv =>
    intro s r e1 e2 hs hr hr'
    subst e1 e2
    rw [getArray0, hc.read hs hr]
    simp only [Option.bind_eq_bind, Option.bind_some]
    rw [if_neg (by omega)]
    split
    · next h => exact absurd (by rw [show (s.at r _).toks = r from rfl] at h; rw [h]; rfl) hr'
    · rfl
  | @sizes n m x d ts l m' hc hv _ ih =>
    intro s r e1 e2 hs hr hr'
    subst e1 e2
    have h1 := hc.read (r := Lx.comma :: (ts ++ r)) (by simpa using hs) (fol _ _ (by decide))
    have h2 := ih (s.at (ts ++ r) (s.lab + x.strs)) r rfl rfl rfl hr hr'
    rw [getArray0, h1]
    simp only [Option.bind_eq_bind, Option.bind_some]
    rw [if_neg (by omega)]
    simp only [PS.at]
    have h2' : getArray0 n (PS.next { s with toks := Lx.comma :: (ts ++ r), lab := s.lab + x.strs }) = _ := h2
    rw [h2']
    rfl

end Cmm.Parse
