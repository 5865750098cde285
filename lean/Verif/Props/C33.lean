import Verif.Lex.Run

/-
C33 Every token code is produced only by its own lexeme: false.

A byte which begins no literal, name or operator of several characters is returned as its own code. The
codes of the reserved words are 1 to 25, those of the operators of several characters 101 to 112, those
of the literals and names 200 to 205 (lexer.h:43-90). `C33_partial` gives the code for every
such byte, hence which of them collide: the control bytes 1 to 8 and 14 to 25, and the bytes 200 to 205.
-/
namespace Cmm.Lex

/-- The codes of reserved words (with those of `true` and `false`), of operators of several
characters, of literals, names and directives. -/
def codes : List Nat :=
  keywords.map (·.2) ++ [17, 18] ++ operators.map (·.2) ++ [200, 201, 202, 203, 204, 205]

/-- The control byte 1 is read as `void`, the byte 201 as an integer literal with the value of the last one. -/
theorem C33_false :
    (∃ s', lxGetTok (start [1]) = .ok (1, s')) ∧
    (∃ s', lxGetTok (start (bytes "void")) = .ok (1, s')) ∧
    lexAll (start (bytes "7" ++ [201])) = lexAll (start (bytes "7 7")) := by
  refine ⟨⟨⟨[], 0, []⟩, by decide +kernel⟩, ⟨⟨[], 0, bytes "void"⟩, by decide +kernel⟩, by decide +kernel⟩

/-- The token of a byte which begins no literal, name, comment or operator of several characters is the byte; it is
the code of another lexeme only for control bytes and 200 to 205. -/
theorem C33_partial (s : LS) (c : Nat) (r : List Nat) (hi : s.inp = c :: r) (h0 : c ≠ 0) (hb : ¬ Blank c)
    (hw : ¬ WordChar c) (h34 : c ≠ 34) (h39 : c ≠ 39)
    (hop : ∀ w ∈ operators, ∀ d, r.head? = some d → ¬ [c, d] <+: bytes w.1)
    (hcom : c = 47 → ∀ d, r.head? = some d → d ≠ 47 ∧ d ≠ 42) :
    lxGetTok s = .ok (c, { s with inp := r }) ∧
      (c ∈ codes ↔ c ≤ 8 ∨ (14 ≤ c ∧ c ≤ 25) ∨ (200 ≤ c ∧ c ≤ 205)) := by
  have hs : Sep [c] r := sep_op hw (fun e => hb (by rw [e]; decide)) hop hcom
  have h := lxGetTok_run s (g := []) (p := [c]) (r := r) hi .nil (.op h0 hb hw h34 h39) hs (by simp)
  refine ⟨by rw [h]; rfl, ?_⟩
  constructor
  · intro hm
    have hall : ∀ x ∈ codes, (1 ≤ x ∧ x ≤ 25) ∨ (101 ≤ x ∧ x ≤ 112) ∨ (200 ≤ x ∧ x ≤ 205) := by decide +kernel
    have := hall c hm
    simp [Blank, WordChar, Letter, Digit] at hb hw
    omega
  · intro hm
    have hall : ∀ x, x < 206 → (1 ≤ x ∧ x ≤ 25) ∨ (200 ≤ x ∧ x ≤ 205) → x ∈ codes := by decide +kernel
    exact hall c (by omega) (by omega)

/-- In particular no printable character collides. -/
theorem C33_printable_partial (s : LS) (c : Nat) (r : List Nat) (hi : s.inp = c :: r) (hb : 32 < c) (h126 : c ≤ 126)
    (hw : ¬ WordChar c) (h34 : c ≠ 34) (h39 : c ≠ 39)
    (hop : ∀ w ∈ operators, ∀ d, r.head? = some d → ¬ [c, d] <+: bytes w.1)
    (hcom : c = 47 → ∀ d, r.head? = some d → d ≠ 47 ∧ d ≠ 42) :
    ∃ t s', lxGetTok s = .ok (t, s') ∧ ∀ x ∈ codes, t ≠ x := by
  obtain ⟨h1, h2⟩ := C33_partial s c r hi (by omega) (by simp [Blank]; omega) hw h34 h39 hop hcom
  refine ⟨c, _, h1, ?_⟩
  intro x hx e
  have e : c = x := by omega
  subst e
  have := h2.1 hx
  omega

/-! `@` is no token of the language; its code is none of the others. -/

example : ∃ t s', lxGetTok ⟨bytes "@x", 0, []⟩ = .ok (t, s') ∧ ∀ x ∈ codes, t ≠ x :=
  C33_printable_partial ⟨bytes "@x", 0, []⟩ 64 (bytes "x") (by decide +kernel) (by decide) (by decide) (by decide)
    (by decide) (by decide)
    (by
      have e : (bytes "x").head? = some 120 := by decide +kernel
      rw [e]
      simp only [Option.some.injEq, forall_eq']
      decide +kernel) (fun e => absurd e (by decide))

end Cmm.Lex
