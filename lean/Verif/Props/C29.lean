import Verif.Lex.Run

/-
C29 Names and reserved words are recognised exactly.
The reserved words are the list `keywords` of Verif/Lex/Spec.lean with `true` and `false`; the code of
a name is 202 (LxNAME), of a logical constant 200 (LxLOGICAL).
-/
namespace Cmm.Lex

theorem kw_codes : ∀ k ∈ keywords, k.2 ≠ 200 ∧ k.2 ≠ 202 := by decide

/-- Spellings of reserved words are different. -/
theorem kw_inj : ∀ k ∈ keywords, bytes k.1 ≠ bytes "true" ∧ bytes k.1 ≠ bytes "false" ∧
    ∀ k' ∈ keywords, bytes k.1 = bytes k'.1 → k = k' := by decide +kernel

/-- A maximal run of at most 128 letters, digits and underscores, beginning with a letter or an underscore,
is one token, and the lexer records its spelling: a logical constant for `true` and `false`, the
reserved word if it is one, and otherwise a name. -/
theorem C29 (s : LS) (c : Nat) (w r : List Nat) (hi : s.inp = c :: w ++ r) (hc : Letter c)
    (hw : ∀ d ∈ w, WordChar d) (hl : (c :: w).length ≤ 128) (hr : ∀ d, r.head? = some d → ¬ WordChar d) :
    ∃ t v, lxGetTok s = .ok (t, ⟨r, v, c :: w⟩) ∧
      (∀ k ∈ keywords, t = k.2 ↔ c :: w = bytes k.1) ∧
      (t = 200 ∧ v = 1 ↔ c :: w = bytes "true") ∧
      (t = 200 ∧ v = 0 ↔ c :: w = bytes "false") ∧
      (t = 202 ↔ ∀ k, k ∈ keywords ++ [("true", 17), ("false", 18)] → c :: w ≠ bytes k.1) := by
  have hcode : ∀ k ∈ keywords, ∀ k' ∈ keywords, k.2 = k'.2 → k = k' := by decide
  have hsep := sep_word (ds := w) hc hr
  by_cases ht : c :: w = bytes "true"
  · have h := lxGetTok_run s (g := []) (p := c :: w) hi .nil (by rw [ht]; exact .true) hsep (by
      intro e
      have := letter_ne hc
      simp at e
      subst e
      exact absurd hc (by decide))
    refine ⟨200, 1, by rw [h, ht]; rfl, ?_, ?_, ?_, ?_⟩
    · intro k hk
      have h1 := (kw_codes k hk).1
      have h2 := (kw_inj k hk).1
      exact ⟨fun e => by omega, fun e => absurd (e.symm.trans ht) h2⟩
    · exact ⟨fun _ => ht, fun _ => ⟨rfl, rfl⟩⟩
    · refine ⟨fun e => absurd e.2 (by decide), fun e => ?_⟩
      rw [ht] at e
      exact absurd e (by decide +kernel)
    · refine ⟨fun e => absurd e (by decide), fun e => absurd ht (e ("true", 17) (by simp))⟩
  · by_cases hf : c :: w = bytes "false"
    · have h := lxGetTok_run s (g := []) (p := c :: w) hi .nil (by rw [hf]; exact .false) hsep (by
        intro e
        simp at e
        subst e
        exact absurd hc (by decide))
      refine ⟨200, 0, by rw [h, hf]; rfl, ?_, ?_, ?_, ?_⟩
      · intro k hk
        have h1 := (kw_codes k hk).1
        have h2 := (kw_inj k hk).2.1
        exact ⟨fun e => by omega, fun e => absurd (e.symm.trans hf) h2⟩
      · exact ⟨fun e => absurd e.2 (by decide), fun e => absurd e ht⟩
      · exact ⟨fun _ => hf, fun _ => ⟨rfl, rfl⟩⟩
      · refine ⟨fun e => absurd e (by decide), fun e => absurd hf (e ("false", 18) (by simp))⟩
    · by_cases hk : ∃ k ∈ keywords, c :: w = bytes k.1
      · obtain ⟨k, hk, e⟩ := hk
        have h := lxGetTok_run s (g := []) (p := c :: w) hi .nil (by rw [e]; exact .kw hk) hsep (by
          intro e
          simp at e
          subst e
          exact absurd hc (by decide))
        refine ⟨k.2, s.val, by rw [h, e]; rfl, ?_, ?_, ?_, ?_⟩
        · intro k' hk'
          refine ⟨fun e' => ?_, fun e' => ?_⟩
          · rw [e, hcode k hk k' hk' (by omega)]
          · rw [(kw_inj k hk).2.2 k' hk' (e.symm.trans e')]
        · exact ⟨fun h => absurd h.1 (by have := (kw_codes k hk).1; omega), fun e => absurd e ht⟩
        · exact ⟨fun h => absurd h.1 (by have := (kw_codes k hk).1; omega), fun e => absurd e hf⟩
        · refine ⟨fun h => absurd h (by have := (kw_codes k hk).2; omega), fun h => ?_⟩
          exact absurd e (h k (by simp [hk]))
      · have hn : ∀ k, k ∈ keywords → bytes k.1 ≠ c :: w := fun k hk' e => hk ⟨k, hk', e.symm⟩
        have h := lxGetTok_run s (g := []) (p := c :: w) hi .nil
          (.name hc hw hl hn (fun e => ht e.symm) (fun e => hf e.symm)) hsep (by
          intro e
          simp at e
          subst e
          exact absurd hc (by decide))
        refine ⟨202, s.val, by rw [h]; rfl, ?_, ?_, ?_, ?_⟩
        · intro k hk'
          exact ⟨fun e => absurd e (by have := (kw_codes k hk').2; omega), fun e => absurd e.symm (hn k hk')⟩
        · exact ⟨fun h => absurd h.1 (by decide), fun e => absurd e ht⟩
        · exact ⟨fun h => absurd h.1 (by decide), fun e => absurd e hf⟩
        · refine ⟨fun _ k hk' => ?_, fun _ => rfl⟩
          rcases List.mem_append.1 hk' with hk' | hk'
          · exact fun e => hn k hk' e.symm
          · simp only [List.mem_cons, List.not_mem_nil, or_false] at hk'
            rcases hk' with rfl | rfl
            · exact ht
            · exact hf

/-! `interrupts` is a name although `interrupt` and `int` are reserved; `int` before `/` is reserved. -/

example : lxGetTok ⟨bytes "interrupts(", 7, []⟩ = .ok (202, ⟨bytes "(", 7, bytes "interrupts"⟩) := by
  decide +kernel

example : ∃ t v, lxGetTok ⟨bytes "interrupts(", 7, []⟩ = .ok (t, ⟨bytes "(", v, bytes "interrupts"⟩) ∧ t = 202 := by
  obtain ⟨t, v, h1, _, _, _, h2⟩ := C29 ⟨bytes "interrupts(", 7, []⟩ 105 (bytes "nterrupts") (bytes "(")
    (by decide +kernel) (by decide) (by decide +kernel) (by decide +kernel) (by decide +kernel)
  have e : (105 :: bytes "nterrupts") = bytes "interrupts" := by decide +kernel
  rw [e] at h1
  exact ⟨t, v, h1, h2.2 (by decide +kernel)⟩

end Cmm.Lex
