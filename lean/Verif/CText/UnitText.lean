import Verif.CText.Unit
import Verif.Props.C55

/-
The text of a file of the C translator, for Verif/Props/C78.lean.
-/
namespace Cmm.CText

/-! ### Specification: the grammar of files (C11 6.7, 6.9) -/

/-- Members of a structure. -/
inductive MemT (ty : Text → Bool) : List Tok → List (CT × Text) → Prop
  | nil : MemT ty [] []
  | cons {w n x us ms} : TyName ty [w] → Ident ty x → MemT ty us ms → MemT ty (tyToks [w] n ++ .word x :: .pun .semi :: us) (((w, n), x) :: ms)

/-- The words that are types behind a declaration. -/
def CExt.types (ty : Text → Bool) : CExt → Text → Bool
  | .struct x _ => fun y => y == x || ty y
  | _ => ty

def optStatic (st : Bool) : List Tok := if st then [.word t!"static"] else []

/-- Declarations, without values. The tag of a structure is its name behind `_`. -/
inductive ExtT (ty : Text → Bool) : List Tok → CExt → Prop
  | struct {x us ms} : Ident ty x → MemT (fun y => y == x || ty y) us ms →
      ExtT ty (.word t!"typedef" :: .word t!"struct" :: .word ('_' :: x) :: .word x :: .pun .semi ::
        .word t!"struct" :: .word ('_' :: x) :: .pun .lcur :: (us ++ [.pun .rcur, .pun .semi])) (.struct x ms)
  | proto {ts h} : HeadT ty ts h → ExtT ty (ts ++ [.pun .semi]) (.proto h)
  | var {st w n x} : TyName ty [w] → Ident ty x → ExtT ty (optStatic st ++ (tyToks [w] n ++ [.word x, .pun .semi])) (.var st false (w, n) x)
  | fn {ts f} : FunT ty ts f → ExtT ty ts (.fn f)

/-- Files. -/
inductive FileT : (Text → Bool) → List Tok → List CExt → Prop
  | nil {ty} : FileT ty [] []
  | cons {ty ts c us cs} : ExtT ty ts c → FileT (c.types ty) us cs → FileT ty (ts ++ us) (c :: cs)

/-! ### The text -/

/-- A member (cCode.c:643-647). -/
def pmem (m : Ty × Nat × Text) : Text := ptype m.1 m.2.1 false ++ m.2.2 ++ t!";\n"

/-- cCode.c:634-649 genStruc, 389-393 genProto, 596-600 genBss with printGlobDcl (121-127), 396-405 genFunc. The value of a variable
(genData) is not printed here, see C75. -/
def pext : Ext → Text
  | .struct x fl => t!"typedef struct _" ++ x ++ t!" " ++ x ++ t!";\n" ++ t!"struct _" ++ x ++ t!" {\n" ++ fl.flatMap pmem ++ t!"};\n"
  | .proto f => pproto f
  | .var pub _ t dim x => (if pub then [] else t!"static ") ++ ptype t dim false ++ x ++ t!";\n"
  | .fn f => pfn f

def pfile (es : List Ext) : Text := es.flatMap pext

/-! ### Conditions: names are words (C55) -/

/-- Names are identifiers, see `FnLexOk`; variables have no values. -/
def ExtLexOk : Ext → Prop
  | .struct x fl => IsWord x ∧ ∀ m ∈ fl, m.1.Ok ∧ IsWord m.2.2
  | .proto f | .fn f => FnLexOk f
  | .var _ val t _ x => val = false ∧ t.Ok ∧ IsWord x

/-- Names are no keywords of C, types are types and other names are not, see `FnOk`. -/
def ExtOk (ty : Text → Bool) : Ext → Prop
  | .struct x fl => Ident ty x ∧ ∀ m ∈ fl, (m.1.word = x ∨ ty m.1.word = true) ∧ Ident ty m.2.2 ∧ m.2.2 ≠ x
  | .proto f | .fn f => FnOk ty f
  | .var _ _ t _ x => ty t.word = true ∧ Ident ty x

def FileOk : (Text → Bool) → List Ext → Prop
  | _, [] => True
  | ty, e :: es => ExtLexOk e ∧ ExtOk ty e ∧ FileOk ((trExt e).types ty) es

/-! ### Reading -/

def memtoks (m : Ty × Nat × Text) : List Tok := ttoks m.1 m.2.1 false ++ [.word m.2.2, .pun .semi]

def exttoks : Ext → List Tok
  | .struct x fl => .word t!"typedef" :: .word t!"struct" :: .word ('_' :: x) :: .word x :: .pun .semi ::
      .word t!"struct" :: .word ('_' :: x) :: .pun .lcur :: (fl.flatMap memtoks ++ [.pun .rcur, .pun .semi])
  | .proto f => dcltoks f ++ [.pun .semi]
  | .var pub _ t dim x => optStatic (!pub) ++ (ttoks t dim false ++ [.word x, .pun .semi])
  | .fn f => fntoks f

theorem underscore {x : Text} (h : IsWord x) : IsWord ('_' :: x) := by
  refine ⟨by decide, ?_⟩
  exact h.all

theorem lex_mems {fl : List (Ty × Nat × Text)} (h : ∀ m ∈ fl, m.1.Ok ∧ IsWord m.2.2) {r : Text} {ts : List Tok} (hl : Lex r ts) :
    Lex (fl.flatMap pmem ++ r) (fl.flatMap memtoks ++ ts) := by
  induction fl with
  | nil => exact hl
  | cons m fl ih =>
    have hm := h m (by simp)
    have := Lex.ptype (dim := m.2.1) (inst := false) hm.1 (word_ne_eq hm.2 _)
      (.name hm.2 (Sep.cons (by decide)) (.semi (.nl (ih fun q hq => h q (by simp [hq])))))
    simpa [pmem, memtoks] using this

theorem lex_ext {e : Ext} (h : ExtLexOk e) {r : Text} {ts : List Tok} (hl : Lex r ts) : Lex (pext e ++ r) (exttoks e ++ ts) := by
  cases e with
  | struct x fl =>
    have hx := underscore h.1
    have h1 : Lex (t!"struct" ++ (' ' :: (('_' :: x) ++ (' ' :: '{' :: '\n' :: (fl.flatMap pmem ++ ('}' :: ';' :: '\n' :: r))))))
        (.word t!"struct" :: .word ('_' :: x) :: .pun .lcur :: (fl.flatMap memtoks ++ (.pun .rcur :: .pun .semi :: ts))) :=
      .kw (by decide) (Sep.cons (by decide)) (.ws (by decide) (.name hx (Sep.cons (by decide)) (.ws (by decide)
        (.lcur (.nl (lex_mems h.2 (.rcur (.semi (.nl hl)))))))))
    have h2 := Lex.kw (s := t!"typedef") (by decide) (Sep.cons (by decide)) (.ws (c := ' ') (by decide)
      (.kw (s := t!"struct") (by decide) (Sep.cons (by decide)) (.ws (c := ' ') (by decide)
        (.name hx (Sep.cons (by decide)) (.ws (c := ' ') (by decide) (.name h.1 (Sep.cons (by decide)) (.semi (.nl h1))))))))
    simpa [pext, exttoks] using h2
  | proto f =>
    have := lex_dcl h (.semi (.nl hl))
    simpa [pext, pproto, exttoks] using this
  | fn f =>
    have := lex_dcl h (Lex.lcur (.nl (lex_stm _ h.body.unblk (.rcur (.nl hl)))))
    simpa [pext, pfn, exttoks, fntoks] using this
  | var pub val t dim x =>
    have h1 := Lex.ptype (dim := dim) (inst := false) h.2.1 (word_ne_eq h.2.2 _) (.name h.2.2 (Sep.cons (by decide)) (.semi (.nl hl)))
    cases pub
    · have := Lex.kw (s := t!"static") (by decide) (Sep.cons (by decide)) (.ws (c := ' ') (by decide) h1)
      simpa [pext, exttoks, optStatic] using this
    · simpa [pext, exttoks, optStatic] using h1

theorem lex_file {es : List Ext} (h : ∀ e ∈ es, ExtLexOk e) : Lex (pfile es) (es.flatMap exttoks) := by
  induction es with
  | nil => exact .nil
  | cons e es ih => exact lex_ext (h e (by simp)) (ih fun d hd => h d (by simp [hd]))

variable {ty : Text → Bool}

theorem read_mems {x : Text} {fl : List (Ty × Nat × Text)} (h : ∀ m ∈ fl, (m.1.word = x ∨ ty m.1.word = true) ∧ Ident ty m.2.2 ∧ m.2.2 ≠ x) :
    MemT (fun y => y == x || ty y) (fl.flatMap memtoks) (fl.map fun m => (ctOf m.1 m.2.1, m.2.2)) := by
  induction fl with
  | nil => exact .nil
  | cons m fl ih =>
    obtain ⟨h1, h2, h3⟩ := h m (by simp)
    have := MemT.cons (ty := fun y => y == x || ty y) (w := m.1.word) (n := stars m.1 m.2.1 false) (x := m.2.2)
      ⟨by simp, by simpa using h1⟩ ⟨h2.1, by simp [h2.2, h3]⟩ (ih fun q hq => h q (by simp [hq]))
    simpa [memtoks, ttoks, ctOf] using this

theorem read_ext (hi : ty t!"int" = true) {e : Ext} (h : ExtOk ty e) (hv : ExtLexOk e) : ExtT ty (exttoks e) (trExt e) := by
  cases e with
  | struct x fl => exact .struct h.1 (read_mems h.2)
  | proto f => exact .proto (read_head h)
  | fn f => exact .fn (read_fn hi h)
  | var pub val t dim x =>
    obtain rfl := hv.1
    exact .var ⟨by simp, by simpa using h.1⟩ h.2

/-- As `Types` (C55), and `typedef` is no type. -/
structure FileTypes (ty : Text → Bool) : Prop where
  ok : Types ty
  typedef : ty t!"typedef" = false

theorem FileTypes.grow {x : Text} (h : FileTypes ty) (hx : x ∉ keywords) : FileTypes fun y => y == x || ty y := by
  have no : ∀ y, y ∈ keywords → ty y = false → (y == x || ty y) = false := by
    intro y hy h1
    rw [h1, Bool.or_false, beq_eq_false_iff_ne]
    rintro rfl
    exact hx hy
  refine ⟨⟨by simp [h.ok.int], no _ (by decide) h.ok.sizeof, no _ (by decide) h.ok.static, fun y hy => no y ?_ (h.ok.stm y hy)⟩,
    no _ (by decide) h.typedef⟩
  revert y
  decide

theorem FileTypes.next (h : FileTypes ty) {ts : List Tok} {c : CExt} (hc : ExtT ty ts c) : FileTypes (c.types ty) := by
  cases hc with
  | struct h1 => exact h.grow h1.1
  | proto | var | fn => exact h

theorem read_file {es : List Ext} : ∀ {ty : Text → Bool}, FileTypes ty → FileOk ty es → FileT ty (es.flatMap exttoks) (es.map trExt) := by
  induction es with
  | nil => exact fun _ _ => .nil
  | cons e es ih =>
    intro ty hty h
    have h1 := read_ext hty.ok.int h.2.1 h.1
    exact .cons h1 (ih (hty.next h1) h.2.2)

theorem FileOk.lex {es : List Ext} : ∀ {ty : Text → Bool}, FileOk ty es → ∀ e ∈ es, ExtLexOk e := by
  induction es with
  | nil => exact fun _ => nofun
  | cons d es ih =>
    intro ty h e he
    rcases List.mem_cons.1 he with rfl | he
    · exact h.1
    · exact ih h.2.2 e he

/-! ### In one way only -/

theorem MemT.inj {ts ts' r r' : List Tok} {ms ms' : List (CT × Text)} (h : MemT ty ts ms) (h' : MemT ty ts' ms')
    (e : ts ++ .pun .rcur :: r = ts' ++ .pun .rcur :: r') : ms = ms' ∧ r = r' := by
  induction h generalizing ts' ms' with
  | nil =>
    cases h' with
    | nil => exact ⟨rfl, by simpa using e⟩
    | cons => simp [tyToks] at e
  | @cons w n x us ms h1 h2 _ ih =>
    cases h' with
    | nil => simp [tyToks] at e
    | @cons w' n' x' us' ms' g1 g2 g3 =>
      simp only [List.append_assoc, List.cons_append] at e
      obtain ⟨a, b, c, d⟩ := declToks_inj h1.2 h2.2 g1.2 g2.2 e
      simp only [List.cons.injEq, true_and] at d
      obtain ⟨i, j⟩ := ih g3 d
      simp only [List.cons.injEq, and_true] at a
      exact ⟨by rw [a, b, c, i], j⟩

/-- Heads and variables begin with static or a type, then the name. -/
inductive Start (ty : Text → Bool) : List Tok → P → List Tok → Prop
  | mk {st t n x p us} : TyName ty t → Ident ty x → Start ty (optStatic st ++ (tyToks t n ++ .word x :: .pun p :: us)) p us

theorem Start.inj (hs : ty t!"static" = false) {ts us us' : List Tok} {p p' : P} (h : Start ty ts p us) (h' : Start ty ts p' us') : p = p' := by
  cases h with
  | @mk st t n x p us h1 h2 =>
    generalize hx : optStatic st ++ (tyToks t n ++ .word x :: .pun p :: us) = y at h'
    cases h' with
    | @mk st' t' n' x' _ _ g1 g2 =>
      have key : st = st' := by
        cases t with
        | nil => exact absurd rfl h1.1
        | cons a t =>
        cases t' with
        | nil => exact absurd rfl g1.1
        | cons a' t' =>
          have ha := h1.2 a (by simp)
          have ha' := g1.2 a' (by simp)
          cases st <;> cases st' <;> try rfl
          · simp [tyToks, optStatic] at hx
            rw [hx.1, hs] at ha; cases ha
          · simp [tyToks, optStatic] at hx
            rw [← hx.1, hs] at ha'; cases ha'
      subst key
      rw [List.append_cancel_left_eq] at hx
      obtain ⟨-, -, -, e⟩ := declToks_inj h1.2 h2.2 g1.2 g2.2 hx
      simp only [List.cons.injEq, Tok.pun.injEq] at e
      exact e.1

theorem Start.first (h1 : ty t!"typedef" = false) {ts us : List Tok} {p : P} (h : Start ty ts p us) : ts.head? ≠ some (.word t!"typedef") := by
  cases h with
  | @mk st t n x p us h2 h3 =>
    cases t with
    | nil => exact absurd rfl h2.1
    | cons a t =>
      cases st
      · simp only [optStatic, Bool.false_eq_true, if_false, List.nil_append, tyToks, List.map_cons, List.cons_append, List.head?_cons]
        intro he
        cases he
        rw [h2.2 _ (by simp)] at h1
        cases h1
      · simp only [optStatic, if_true, List.cons_append, List.head?_cons]
        exact fun he => absurd he (by decide)

theorem HeadT.start {ts : List Tok} {c : CHead} (h : HeadT ty ts c) (r : List Tok) : ∃ us, Start ty (ts ++ r) .lpar us := by
  cases h with
  | @mk st t n x ts ps h1 h2 =>
    refine ⟨ts ++ [.pun .rpar] ++ r, ?_⟩
    have := Start.mk (st := st) (n := n) (p := .lpar) (us := ts ++ [.pun .rpar] ++ r) h1 h2
    simpa [optStatic] using this

theorem ExtT.inj (hty : FileTypes ty) {ts ts' r r' : List Tok} {c c' : CExt} (h : ExtT ty ts c) (h' : ExtT ty ts' c') (e : ts ++ r = ts' ++ r') :
    c = c' ∧ r = r' := by
  have hs := hty.ok.static
  -- heads and variables against structures, variables against heads
  have vs : ∀ {st : Bool} {w : Text} {n : Nat} {x : Text} (_ : TyName ty [w]) (_ : Ident ty x) (r : List Tok),
      Start ty (optStatic st ++ (tyToks [w] n ++ [.word x, .pun .semi]) ++ r) .semi r := by
    intro st w n x h1 h2 r
    have := Start.mk (st := st) (n := n) (p := .semi) (us := r) h1 h2
    simpa using this
  have ns : ∀ {ts us : List Tok} {p : P}, Start ty (.word t!"typedef" :: ts) p us → False := fun h => (h.first hty.typedef) rfl
  have fs : ∀ {ts : List Tok} {f : CHead × CS} (_ : FunT ty ts f) (r : List Tok), ∃ us, Start ty (ts ++ r) .lpar us := by
    rintro ts f ⟨h1, -⟩ r
    obtain ⟨us, h2⟩ := h1.start (.pun .lcur :: (_ ++ [.pun .rcur]) ++ r)
    exact ⟨us, by simpa using h2⟩
  have ps : ∀ {ts : List Tok} {c : CHead} (_ : HeadT ty ts c) (r : List Tok), ∃ us, Start ty (ts ++ [.pun .semi] ++ r) .lpar us := by
    intro ts c h r
    obtain ⟨us, h2⟩ := h.start (.pun .semi :: r)
    exact ⟨us, by simpa using h2⟩
  cases h with
  | @struct x us ms h1 h2 =>
    cases h' with
    | @struct x' us' ms' g1 g2 =>
      simp only [List.cons_append, List.cons.injEq, Tok.word.injEq, true_and, List.append_assoc] at e
      obtain ⟨-, rfl, -, e⟩ := e
      obtain ⟨rfl, e⟩ := h2.inj g2 e
      simp only [List.nil_append, List.cons.injEq, true_and] at e
      exact ⟨rfl, e⟩
    | proto g1 => obtain ⟨us, h3⟩ := ps g1 r'; rw [← e] at h3; exact (ns h3).elim
    | @var st w n x g1 g2 => have h3 := vs (st := st) (n := n) g1 g2 r'; rw [← e] at h3; exact (ns h3).elim
    | fn g1 => obtain ⟨us, h3⟩ := fs g1 r'; rw [← e] at h3; exact (ns h3).elim
  | proto h1 =>
    cases h' with
    | struct g1 => obtain ⟨us, h3⟩ := ps h1 r; rw [e] at h3; exact (ns h3).elim
    | proto g1 =>
      simp only [List.append_assoc] at e
      obtain ⟨rfl, e⟩ := h1.inj hs g1 e
      exact ⟨rfl, by simpa using e⟩
    | var g1 g2 =>
      obtain ⟨us, h3⟩ := ps h1 r
      rw [e] at h3
      exact absurd (h3.inj hs (vs g1 g2 r')) (by decide)
    | fn g1 =>
      cases g1 with
      | mk g1 g2 =>
        simp only [List.append_assoc] at e
        obtain ⟨-, e⟩ := h1.inj hs g1 e
        simp at e
  | @var st w n x h1 h2 =>
    cases h' with
    | struct g1 => have h3 := vs (st := st) (n := n) h1 h2 r; rw [e] at h3; exact (ns h3).elim
    | proto g1 =>
      obtain ⟨us, h3⟩ := ps g1 r'
      rw [← e] at h3
      exact absurd (h3.inj hs (vs h1 h2 r)) (by decide)
    | @var st' w' n' x' g1 g2 =>
      have key : st = st' := by
        have ha := h1.2 w (by simp)
        have ha' := g1.2 w' (by simp)
        cases st <;> cases st' <;> try rfl
        · simp [tyToks, optStatic] at e
          rw [e.1, hs] at ha; cases ha
        · simp [tyToks, optStatic] at e
          rw [← e.1, hs] at ha'; cases ha'
      subst key
      simp only [List.append_assoc, List.append_cancel_left_eq, List.cons_append, List.nil_append] at e
      obtain ⟨a, b, c, d⟩ := declToks_inj h1.2 h2.2 g1.2 g2.2 e
      simp only [List.cons.injEq, and_true, true_and] at a d
      exact ⟨by rw [a, b, c], d⟩
    | fn g1 =>
      obtain ⟨us, h3⟩ := fs g1 r'
      rw [← e] at h3
      exact absurd (h3.inj hs (vs h1 h2 r)) (by decide)
  | fn h1 =>
    cases h' with
    | struct g1 => obtain ⟨us, h3⟩ := fs h1 r; rw [e] at h3; exact (ns h3).elim
    | proto g1 =>
      cases h1 with
      | mk h1 h2 =>
        simp only [List.append_assoc] at e
        obtain ⟨-, e⟩ := h1.inj hs g1 e
        simp at e
    | var g1 g2 =>
      obtain ⟨us, h3⟩ := fs h1 r
      rw [e] at h3
      exact absurd (h3.inj hs (vs g1 g2 r')) (by decide)
    | fn g1 =>
      cases h1 with
      | @mk as us a b h1 h2 =>
        cases g1 with
        | @mk as' us' a' b' g1 g2 =>
          simp only [List.append_assoc, List.cons_append] at e
          obtain ⟨rfl, e⟩ := h1.inj hs g1 e
          simp only [List.cons.injEq, true_and, List.nil_append] at e
          have k1 := h2.read hty.ok.sizeof hty.ok.stm (.pun .rcur :: r) (.inr rfl)
          have k2 := g2.read hty.ok.sizeof hty.ok.stm (.pun .rcur :: r') (.inr rfl)
          rw [← e] at k2
          obtain ⟨rfl, e2⟩ := RS.unique hty.ok.stm k1 k2
          exact ⟨rfl, by simpa using e2⟩

theorem ExtT.ne {ts : List Tok} {c : CExt} (h : ExtT ty ts c) : ts ≠ [] := by
  cases h with
  | struct => simp
  | proto => simp
  | var => simp
  | fn h => cases h; simp

/-- A text is a file in one way only. -/
theorem FileT.unique {ts : List Tok} {cs cs' : List CExt} (h : FileT ty ts cs) (hty : FileTypes ty) (h' : FileT ty ts cs') : cs = cs' := by
  induction h generalizing cs' with
  | nil =>
    generalize hx : ([] : List Tok) = y at h'
    cases h' with
    | nil => rfl
    | cons g1 _ => exact absurd (List.append_eq_nil_iff.1 hx.symm).1 g1.ne
  | @cons ty ts c us cs h1 _ ih =>
    generalize hx : ts ++ us = y at h'
    cases h' with
    | nil => exact absurd (List.append_eq_nil_iff.1 hx).1 h1.ne
    | cons g1 g2 =>
      obtain ⟨rfl, rfl⟩ := h1.inj hty g1 hx
      rw [ih (hty.next h1) g2]

end Cmm.CText
