import Verif.Lex.Run

/-
C27 White space and comments between tokens do not change the program.

The lexical grammar (`Gap`, `Lexeme`, `Sep`, `Laid`) is in Verif/Lex/Spec.lean. `Laid l ps` says that the
text `l` consists of the lexemes `ps` with gaps between them. The lexer reads exactly these
texts (`C27_layout`, `C27_accepted`), so the tokens depend on the lexemes only (`C27`), and a
gap may be inserted or removed between two tokens (`C27_insert`). Termination is part of the
model: `lexAll` is a total function, because every call consumes a byte (`C27_progress`).
A source file is read with a newline before its first byte (lexer.c:79).

The exceptions are real: a newline before a `#` makes a directive of the line, a comment
directly after the operator `/` is a line comment or ends elsewhere, and the rest of the line of a
directive is skipped.
-/
namespace Cmm.Lex

/-- Every call either reaches the end of the input or consumes at least one byte. -/
theorem C27_progress (s : LS) (c : Int) (s' : LS) (h : lxGetTok s = .ok (c, s')) :
    c = -1 ∨ s'.inp.length < s.inp.length := lxGetTok_len h

theorem skipSpace_start (src : List Nat) :
    skipSpace (first (start src).inp) = skipSpace (10 :: src) := rfl

/-- A text of lexemes and gaps is read as the tokens of the lexemes. -/
theorem C27_layout (src : List Nat) (ps : List (List Nat × Tk)) (h : Laid (10 :: src) ps) :
    lexAll (start src) = .ok (outs (0, []) (ps.map (·.2))) :=
  lexAll_laid h (start src) (skipSpace_start src)

/-- Every text (without zero bytes) the lexer accepts is such a text. -/
theorem C27_accepted (src : List Nat) (h0 : 0 ∉ src) (os : List (Int × Int × List Nat))
    (h : lexAll (start src) = .ok os) :
    ∃ ps, Laid (10 :: src) ps ∧ os = outs (0, []) (ps.map (·.2)) :=
  laid_lexAll (by simp [h0]) (start src) (skipSpace_start src) h

theorem sep_nil (p : List Nat) : Sep p [] := by
  refine ⟨?_, ?_, ?_, ?_, ?_, ?_, ?_, ?_⟩ <;> simp

/-- A lexeme has one meaning. -/
theorem lexeme_out {p : List Nat} {t t' : Tk} (h : Lexeme p t) (h' : Lexeme p t') : t.out = t'.out := by
  funext ⟨v, w⟩
  have h1 := getTok1_run ⟨[], v, w⟩ h (sep_nil p)
  have h2 := getTok1_run ⟨[], v, w⟩ h' (sep_nil p)
  rw [h1] at h2
  have := Except.ok.inj h2
  simp only [result, Prod.mk.injEq, LS.mk.injEq, true_and] at this
  exact Prod.ext this.1 (Prod.ext this.2.1 this.2.2)

theorem laid_lexeme {l : List Nat} {ps : List (List Nat × Tk)} (h : Laid l ps) :
    ∀ x ∈ ps, Lexeme x.1 x.2 := by
  induction h with
  | nil _ => simp
  | cons _ hp _ _ _ ih =>
    intro x hx
    rcases List.mem_cons.1 hx with rfl | hx
    · exact hp
    · exact ih x hx

theorem outs_congr {ps qs : List (List Nat × Tk)} (hp : ∀ x ∈ ps, Lexeme x.1 x.2)
    (hq : ∀ x ∈ qs, Lexeme x.1 x.2) (e : ps.map (·.1) = qs.map (·.1)) (v : Int × List Nat) :
    outs v (ps.map (·.2)) = outs v (qs.map (·.2)) := by
  induction ps generalizing qs v with
  | nil =>
    cases qs with
    | nil => rfl
    | cons q qs => cases e
  | cons p ps ih =>
    cases qs with
    | nil => cases e
    | cons q qs =>
      simp only [List.map_cons, List.cons.injEq] at e
      have h1 := hp p (by simp)
      have h2 := hq q (by simp)
      rw [← e.1] at h2
      have h3 := lexeme_out h1 h2
      simp only [List.map_cons, outs, h3]
      rw [ih (fun x hx => hp x (by simp [hx])) (fun x hx => hq x (by simp [hx])) e.2]

/-- Two texts with the same lexemes in the same order, whatever the gaps are, have the same tokens. -/
theorem C27 (src src' : List Nat) (ps qs : List (List Nat × Tk)) (h : Laid (10 :: src) ps)
    (h' : Laid (10 :: src') qs) (e : ps.map (·.1) = qs.map (·.1)) :
    lexAll (start src) = lexAll (start src') := by
  rw [C27_layout src ps h, C27_layout src' qs h', outs_congr (laid_lexeme h) (laid_lexeme h') e]

/-- `LaidTo b a ps`: the text `a` before the text `b` consists of the lexemes `ps` and the gaps before
them; it ends with a lexeme. -/
inductive LaidTo (b : List Nat) : List Nat → List (List Nat × Tk) → Prop
  | nil : LaidTo b [] []
  | cons {g p r : List Nat} {t : Tk} {ps : List (List Nat × Tk)} :
      Gap g ∨ (p.head? = some 10 ∧ EndGap g) → Lexeme p t → Sep p (r ++ b) →
      (p.head? = some 35 → g.getLast? ≠ some 10) → LaidTo b r ps →
      LaidTo b (g ++ (p ++ r)) ((p, t) :: ps)

theorem LaidTo.laid {a b : List Nat} {ps qs : List (List Nat × Tk)} (h : LaidTo b a ps) (hb : Laid b qs) :
    Laid (a ++ b) (ps ++ qs) := by
  induction h with
  | nil => exact hb
  | @cons g p r t ps h1 h2 h3 h4 _ ih =>
    have e : g ++ (p ++ r) ++ b = g ++ (p ++ (r ++ b)) := by simp
    rw [e]
    exact .cons h1 h2 h3 h4 ih

/-- A gap separates any two lexemes, but for a comment after `/` and anything after a directive. -/
theorem sep_gap {p g r : List Nat} (hg : Gap g) (hne : g ≠ []) (h10 : p.head? ≠ some 10)
    (h47 : p = [47] → g.head? ≠ some 47) : Sep p (g ++ r) := by
  rcases gap_head hg with rfl | ⟨c, q, rfl, hc⟩
  · exact absurd rfl hne
  have hop : ∀ w ∈ operators, ∀ x ∈ bytes w.1, ¬ (Blank x ∨ x = 47) := by decide +kernel
  simp only [List.head?_cons, ne_eq, Option.some.injEq] at h47
  have hcc : ¬ WordChar c ∧ ¬ Digit c ∧ ¬ HexDigit c ∧ ¬ OctDigit c ∧ c ≠ 120 ∧ c ≠ 88 ∧ c ≠ 42 := by
    simp [Blank, WordChar, Digit, HexDigit, OctDigit, Letter] at hc ⊢
    omega
  obtain ⟨g1, g2, g3, g4, g5, g6, g7⟩ := hcc
  simp only [Sep, List.cons_append, List.head?_cons, Option.some.injEq, forall_eq']
  refine ⟨fun _ _ _ _ => g1, fun _ _ _ _ _ => g2, fun _ _ _ _ => g3, fun _ _ _ => g4, fun _ => ⟨g5, g6⟩,
    ?_, fun e => ⟨h47 e, g7⟩, ?_⟩
  · intro w hw hp
    exact hop w hw c (hp.subset (by simp)) hc
  · rintro ds rfl
    exact absurd rfl h10

/-- A gap may be inserted before the rest. -/
theorem Laid.gap {g b : List Nat} {qs : List (List Nat × Tk)} (hg : Gap g) (h : Laid b qs)
    (h35 : b.head? = some 35 → g.getLast? ≠ some 10) : Laid (g ++ b) qs := by
  cases h with
  | nil hb =>
    refine .nil ?_
    rcases hb with hb | ⟨w, c, h1, h2, rfl⟩
    · exact .inl (hg.append hb)
    · exact .inr ⟨g ++ w, c, hg.append h1, h2, by simp⟩
  | @cons g' p r t ps h1 h2 h3 h4 h5 =>
    rw [← List.append_assoc]
    refine .cons ?_ h2 h3 ?_ h5
    · rcases h1 with h1 | ⟨hp, h1 | ⟨w, c, h6, h7, rfl⟩⟩
      · exact .inl (hg.append h1)
      · exact .inl (hg.append h1)
      · exact .inr ⟨hp, .inr ⟨g ++ w, c, hg.append h6, h7, by simp⟩⟩
    · intro hp
      by_cases hne : g' = []
      · subst hne
        rw [List.append_nil]
        apply h35
        cases p with
        | nil => cases hp
        | cons c p => exact hp
      · rw [List.getLast?_append_of_ne_nil _ hne]
        exact h4 hp

/-- Insertion and removal of a gap between two tokens: `a` is the text up to the end of a token,
`b` what follows it. The last lexeme of `a` is not a directive; the gap does not begin with a comment if
this lexeme is `/`, and does not end with a newline if `b` begins with `#`. -/
theorem C27_insert (a g b : List Nat) (ps qs : List (List Nat × Tk)) (hg : Gap g) (ha : LaidTo b (10 :: a) ps)
    (hb : Laid b qs) (h10 : ∀ x, ps.getLast? = some x → x.1.head? ≠ some 10)
    (h47 : ∀ x, ps.getLast? = some x → x.1 = [47] → g.head? ≠ some 47)
    (h35 : b.head? = some 35 → g.getLast? ≠ some 10) :
    lexAll (start (a ++ g ++ b)) = lexAll (start (a ++ b)) := by
  by_cases hne : g = []
  · subst hne
    rw [List.append_nil]
  have key : ∀ l ps, LaidTo b l ps → (∀ x, ps.getLast? = some x → x.1.head? ≠ some 10) →
      (∀ x, ps.getLast? = some x → x.1 = [47] → g.head? ≠ some 47) → LaidTo (g ++ b) l ps := by
    intro l ps h
    induction h with
    | nil => intros; exact .nil
    | @cons g' p r t ps h1 h2 h3 h4 h5 ih =>
      intro k1 k2
      cases h5 with
      | nil =>
        refine .cons h1 h2 ?_ h4 .nil
        exact sep_gap (g := g) (r := b) hg hne (k1 (p, t) rfl) (k2 (p, t) rfl)
      | @cons g2 p2 r2 t2 ps2 m1 m2 m3 m4 m5 =>
        refine .cons h1 h2 ?_ h4 (ih (fun x hx => k1 x (by simpa using hx)) (fun x hx => k2 x (by simpa using hx)))
        have hne2 : g2 ++ (p2 ++ r2) ≠ [] := by simp [lexeme_ne m2]
        have : (g2 ++ (p2 ++ r2) ++ b).head? = (g2 ++ (p2 ++ r2) ++ (g ++ b)).head? := by
          rw [List.head?_append_of_ne_nil _ hne2, List.head?_append_of_ne_nil _ hne2]
        simp only [Sep, ← this]
        exact h3
  have h1 := (key _ _ ha h10 h47).laid (hb.gap hg h35)
  have h2 := ha.laid hb
  have e1 : 10 :: a ++ (g ++ b) = 10 :: (a ++ g ++ b) := by simp
  rw [e1] at h1
  exact C27 _ _ _ _ h1 h2 rfl

/-! A text with an odd comment: `x/*/ / **/=1` is the same as `x=1`. -/

example : lexAll (start (bytes "x/*/ / **/=1")) = lexAll (start (bytes "x=1")) := by
  refine C27_insert (bytes "x") (bytes "/*/ / **/") (bytes "=1") [(bytes "x", .name (bytes "x"))]
    [(bytes "=", .op 61), (bytes "1", .int (wrap (numVal 10 [49])))] ?_ ?_ ?_ ?_ ?_ ?_
  · exact .block (b := [47, 32, 47, 32, 42]) (w := []) (by decide) .nil
  · refine .cons (g := [10]) (p := [120]) (r := []) (.inl (.blank (by decide) .nil)) ?_ ?_ (by decide) .nil
    · exact .name (by decide) (by decide) (by decide) (by decide +kernel) (by decide +kernel) (by decide +kernel)
    · exact sep_word (by decide) (by
        have e : (([] : List Nat) ++ bytes "=1").head? = some 61 := by decide +kernel
        rw [e]
        simp only [Option.some.injEq]
        rintro _ rfl
        decide)
  · refine .cons (g := []) (p := [61]) (r := [49]) (.inl .nil) ?_ ?_ (by decide) ?_
    · exact .op (by decide) (by decide) (by decide) (by decide) (by decide)
    · refine sep_op (by decide) (by decide) ?_ (fun e => absurd e (by decide))
      simp only [List.head?_cons, Option.some.injEq, forall_eq']
      decide +kernel
    · refine .cons (g := []) (p := [49]) (r := []) (.inl .nil) ?_ (sep_nil _) (by decide) (.nil (.inl .nil))
      exact .dec (by decide) (by decide)
  · decide +kernel
  · decide +kernel
  · decide +kernel

/-- A comment after `/` is different. -/
example : lexAll (start (bytes "a//**/b")) ≠ lexAll (start (bytes "a/b")) := by
  decide +kernel

end Cmm.Lex
