import Verif.Lex.Token

/-! The sequence of all tokens of a source text. -/
namespace Cmm.Lex

theorem lexeme_ne {p : List Nat} {t : Tk} (h : Lexeme p t) : p ≠ [] := by
  cases h with
  | kw hw =>
    obtain ⟨⟨d, ds, e, _⟩, _⟩ := kw_table _ hw
    simp only at e
    rw [e]
    simp
  | true => decide +kernel
  | false => decide +kernel
  | opr hw =>
    have : ∀ w ∈ operators, bytes w.1 ≠ [] := by decide +kernel
    exact this _ hw
  | _ => simp

theorem first_len (l : List Nat) : (first l).length ≤ l.length := by
  unfold first
  split
  · simp
  · exact Nat.le_refl _

/-- Every call which does not reach the end of the input consumes something. -/
theorem lxGetTok_len {s : LS} {c : Int} {s' : LS} (h : lxGetTok s = .ok (c, s')) :
    c = -1 ∨ s'.inp.length < s.inp.length := by
  unfold lxGetTok at h
  simp only [bind_ok] at h
  obtain ⟨l, h1, h2⟩ := h
  obtain ⟨hs, g, e, _⟩ := skipSpace_split h1
  have hl : l.length ≤ s.inp.length := by
    have h3 := first_len s.inp
    rw [e] at h3
    simp at h3
    omega
  by_cases h0 : l.head? = some 0
  · right
    cases l with
    | nil => simp at h0
    | cons d q =>
      simp at h0
      subst h0
      cases h2
      simp [getSign] at hl ⊢
      omega
  · rcases getTok1_split h2 hs h0 with ⟨_, e2⟩ | ⟨p, t, r, e2, hp, _, e3⟩
    · left
      simp only [Prod.mk.injEq] at e2
      exact e2.1
    · right
      have hne := lexeme_ne hp
      have hpos := List.length_pos_of_ne_nil hne
      simp only [result, Prod.mk.injEq] at e3
      rw [e3.2]
      rw [e2] at hl
      simp at hl ⊢
      omega

/-- All tokens up to the end of the input: the calls of lxGetTok (by getTok in parser.c:131-137) with
the results of lxGetTok, lxGetVal and lxGetStr (lexer.c:401-433). It stops at a fault. -/
def lexAll (s : LS) : Res (List (Int × Int × List Nat)) :=
  match h : lxGetTok s with
  | .error e => .error e
  | .ok (c, s') =>
    if hc : c = -1 then .ok []
    else
      match lexAll s' with
      | .error e => .error e
      | .ok l => .ok ((c, s'.val, s'.str) :: l)
termination_by s.inp.length
decreasing_by exact (lxGetTok_len h).resolve_left hc

theorem out_ne (t : Tk) (v : Int × List Nat) : (t.out v).1 ≠ -1 := by
  cases t <;> simp [Tk.out] <;> omega

theorem lexAll_eof {s s' : LS} (h : lxGetTok s = .ok (-1, s')) : lexAll s = .ok [] := by
  rw [lexAll]
  split
  · rename_i h'
    rw [h] at h'
    cases h'
  · rename_i c s'' h'
    rw [h] at h'
    cases h'
    rfl

theorem lexAll_tok {s : LS} {t : Tk} {r : List Nat} (h : lxGetTok s = .ok (result s t r)) :
    lexAll s = (lexAll (result s t r).2).map (fun l => t.out (s.val, s.str) :: l) := by
  rw [lexAll]
  split
  · rename_i h'
    rw [h] at h'
    cases h'
  · rename_i c s'' h'
    rw [h] at h'
    have e := Except.ok.inj h'
    have e1 : c = (t.out (s.val, s.str)).1 := by rw [show c = (result s t r).1 by rw [e]]; rfl
    have e2 : s'' = (result s t r).2 := by rw [e]
    have hc : c ≠ -1 := by rw [e1]; exact out_ne t _
    rw [dif_neg hc, ← e2]
    cases hx : lexAll s'' with
    | error e => rfl
    | ok l =>
      simp only [Except.map]
      rw [e1, e2]
      rfl

theorem gap_head {g : List Nat} (h : Gap g) : g = [] ∨ ∃ c q, g = c :: q ∧ (Blank c ∨ c = 47) := by
  cases h with
  | nil => exact .inl rfl
  | @blank c w hc _ => exact .inr ⟨c, w, rfl, .inl hc⟩
  | @block b w _ _ => exact .inr ⟨47, _, rfl, .inr rfl⟩
  | @line b w _ _ => exact .inr ⟨47, _, rfl, .inr rfl⟩

theorem endgap_head {g : List Nat} (h : EndGap g) : g = [] ∨ ∃ c q, g = c :: q ∧ (Blank c ∨ c = 47) := by
  rcases h with h | ⟨w, b, hw, _, rfl⟩
  · exact gap_head h
  · rcases gap_head hw with rfl | ⟨c, q, rfl, hc⟩
    · exact .inr ⟨47, _, rfl, .inr rfl⟩
    · exact .inr ⟨c, _, rfl, hc⟩

/-- No lexeme begins with a zero byte. -/
theorem lexeme_zero {p : List Nat} {t : Tk} (h : Lexeme p t) : p.head? ≠ some 0 := by
  cases h with
  | @dec d ds hd _ =>
    have := hd d (by simp)
    simp [Digit] at this ⊢
    omega
  | kw hw =>
    obtain ⟨⟨d, ds, e, h, _⟩, _⟩ := kw_table _ hw
    simp only at e
    rw [e]
    simp [Letter] at h ⊢
    omega
  | @name c w h _ _ _ _ _ =>
    simp [Letter] at h ⊢
    omega
  | true => decide +kernel
  | false => decide +kernel
  | opr hw =>
    have : ∀ w ∈ operators, (bytes w.1).head? ≠ some 0 := by decide +kernel
    exact this _ hw
  | op h _ _ _ _ => simpa using h
  | _ => simp

theorem laid_zero {l : List Nat} {ps : List (List Nat × Tk)} (h : Laid l ps) : l.head? ≠ some 0 := by
  have key : ∀ g r : List Nat, (g = [] ∨ ∃ c q, g = c :: q ∧ (Blank c ∨ c = 47)) → r.head? ≠ some 0 →
      (g ++ r).head? ≠ some 0 := by
    rintro g r (rfl | ⟨c, q, rfl, hc⟩) hr
    · exact hr
    · simp only [List.cons_append, List.head?_cons, ne_eq, Option.some.injEq]
      rintro rfl
      simp [Blank] at hc
  cases h with
  | nil hg =>
    have := key _ [] (endgap_head hg) (by simp)
    simpa using this
  | @cons g p r t ps hg hp hs h35 hr =>
    refine key g _ ?_ ?_
    · rcases hg with hg | hg
      · exact gap_head hg
      · exact endgap_head hg.2
    · have h1 := lexeme_zero hp
      have h2 := lexeme_ne hp
      cases p with
      | nil => exact absurd rfl h2
      | cons c p => exact h1

theorem first_eq {l : List Nat} (h : l.head? ≠ some 0) : first l = l := if_neg h

/-- A text made of gaps and lexemes is read as their tokens. -/
theorem lexAll_laid {l : List Nat} {ps : List (List Nat × Tk)} (h : Laid l ps) (s : LS)
    (hs : skipSpace (first s.inp) = skipSpace l) :
    lexAll s = .ok (outs (s.val, s.str) (ps.map (·.2))) := by
  induction h generalizing s with
  | @nil g hg =>
    have h1 : lxGetTok s = .ok (-1, { s with inp := [] }) := by
      rw [lxGetTok, hs, skipSpace_end hg]
      rfl
    rw [lexAll_eof h1]
    rfl
  | @cons g p r t ps hg hp hsep h35 hr ih =>
    have hst := stop_lexeme hp hsep
    have hne := lexeme_ne hp
    have h1 : skipSpace (g ++ (p ++ r)) = .ok (p ++ r) := by
      rw [← skipSpace_stop hst]
      have hhead : (p ++ r).head? = p.head? := by
        cases p with
        | nil => exact absurd rfl hne
        | cons c p => rfl
      rcases hg with hg | ⟨h10, hg⟩
      · apply skipSpace_gap hg
        by_cases h : (p ++ r).head? = some 35
        · right
          rw [hhead] at h
          exact h35 h
        · exact .inl h
      · exact skipSpace_endgap hg _ (by rw [hhead]; exact h10)
    have h2 : lxGetTok s = .ok (result s t r) := by
      rw [lxGetTok, hs, h1]
      exact getTok1_run s hp hsep
    rw [lexAll_tok h2, ih (result s t r).2 (by
      show skipSpace (first r) = _
      rw [first_eq (laid_zero hr)])]
    rfl

/-- Conversely every text without zero bytes which the lexer accepts is made of gaps and lexemes. -/
theorem laid_lexAll {l : List Nat} (h0 : 0 ∉ l) (s : LS) {os : List (Int × Int × List Nat)}
    (hs : skipSpace (first s.inp) = skipSpace l) (h : lexAll s = .ok os) :
    ∃ ps, Laid l ps ∧ os = outs (s.val, s.str) (ps.map (·.2)) := by
  induction hn : l.length using Nat.strong_induction_on generalizing l s os with
  | _ n ih =>
    subst hn
    cases h1 : skipSpace l with
    | error e =>
      have : lxGetTok s = .error e := by rw [lxGetTok, hs, h1]; rfl
      rw [lexAll] at h
      split at h
      · cases h
      · rename_i h'
        rw [this] at h'
        cases h'
    | ok k =>
      obtain ⟨hst, g, e, hg, h35⟩ := skipSpace_split h1
      have hk0 : k.head? ≠ some 0 := by
        intro hk
        apply h0
        rw [e]
        exact List.mem_append_right _ (List.mem_of_mem_head? hk)
      cases hx : getTok1 s k with
      | error e =>
        have : lxGetTok s = .error e := by
          rw [lxGetTok, hs, h1]
          exact hx
        rw [lexAll] at h
        split at h
        · cases h
        · rename_i h'
          rw [this] at h'
          cases h'
      | ok x =>
        have hx' : lxGetTok s = .ok x := by
          rw [lxGetTok, hs, h1]
          exact hx
        rcases getTok1_split hx hst hk0 with ⟨rfl, e2⟩ | ⟨p, t, r, e2, hp, hsep, e3⟩
        · rw [e2] at hx'
          rw [lexAll_eof hx'] at h
          cases h
          refine ⟨[], ?_, rfl⟩
          rw [e, List.append_nil]
          refine .nil ?_
          rcases hg with hg | hg
          · exact .inl hg
          · exact hg.2
        · rw [e3] at hx'
          rw [lexAll_tok hx'] at h
          have hne := List.length_pos_of_ne_nil (lexeme_ne hp)
          have hr0 : 0 ∉ r := fun hm => h0 (by rw [e, e2]; simp [hm])
          have hrh : r.head? ≠ some 0 := fun hm => hr0 (List.mem_of_mem_head? hm)
          cases hy : lexAll (result s t r).2 with
          | error e => rw [hy] at h; cases h
          | ok os' =>
            rw [hy] at h
            cases h
            obtain ⟨ps, h3, h4⟩ := ih r.length (by rw [e, e2]; simp; omega) hr0 (result s t r).2
              (by rw [show (result s t r).2.inp = r from rfl, first_eq hrh]) hy rfl
            refine ⟨(p, t) :: ps, ?_, ?_⟩
            · rw [e, e2]
              refine .cons ?_ hp hsep ?_ h3
              · rcases hg with hg | ⟨hr, hg⟩
                · exact .inl hg
                · right
                  refine ⟨?_, hg⟩
                  have hne' := lexeme_ne hp
                  rw [e2] at hr
                  cases p with
                  | nil => exact absurd rfl hne'
                  | cons c p =>
                    rcases hr with hr | hr
                    · cases hr
                    · exact hr
              · intro hp35
                apply h35
                rw [e2]
                have hne' := lexeme_ne hp
                cases p with
                | nil => exact absurd rfl hne'
                | cons c p => exact hp35
            · rw [h4]
              rfl

/-- One call: a gap and a lexeme. -/
theorem lxGetTok_run (s : LS) {g p r : List Nat} {t : Tk} (hi : s.inp = g ++ (p ++ r)) (hg : Gap g)
    (hp : Lexeme p t) (hs : Sep p r) (h35 : p.head? = some 35 → g.getLast? ≠ some 10) :
    lxGetTok s = .ok (result s t r) := by
  have hne := lexeme_ne hp
  have hhead : (p ++ r).head? = p.head? := by
    cases p with
    | nil => exact absurd rfl hne
    | cons c p => rfl
  have h0 : (g ++ (p ++ r)).head? ≠ some 0 := by
    rcases gap_head hg with rfl | ⟨c, q, rfl, hc⟩
    · rw [List.nil_append, hhead]
      exact lexeme_zero hp
    · simp only [List.cons_append, List.head?_cons, ne_eq, Option.some.injEq]
      rintro rfl
      simp [Blank] at hc
  rw [lxGetTok, hi, first_eq h0, skipSpace_gap hg, skipSpace_stop (stop_lexeme hp hs)]
  · exact getTok1_run s hp hs
  · by_cases h : (p ++ r).head? = some 35
    · right
      rw [hhead] at h
      exact h35 h
    · exact .inl h

end Cmm.Lex
