import Verif.Lex.Run

/-
C30 Operators follow the longest-match rule.

The operators of the language are `operators` (Verif/Lex/Spec.lean; `..`, `++` and `--` are tokens which
the parser rejects) and the operators and separators of one character, whose code is the character. The input
does not begin with a comment.
-/
namespace Cmm.Lex

/-- All operators and separators with their codes. -/
def allOps : List (List Nat × Nat) :=
  operators.map (fun w => (bytes w.1, w.2)) ++
    (bytes "+-*/%&|^~!<>=.,;:?()[]{}").map (fun c => ([c], c))

theorem allOps_head : ∀ o ∈ allOps, o.1.head?.any (fun d => decide (d ≠ 0 ∧ ¬ Blank d ∧ ¬ WordChar d ∧ d ≠ 34 ∧
    d ≠ 39 ∧ d ∈ bytes "+-*/%&|^~!<>=.,;:?()[]{}")) = true := by decide +kernel

theorem C30 (s : LS) (o : List Nat × Nat) (ho : o ∈ allOps) (hp : o.1 <+: s.inp)
    (hc : ¬ [47, 42] <+: s.inp ∧ ¬ [47, 47] <+: s.inp) :
    ∃ q ∈ allOps, ∃ r, s.inp = q.1 ++ r ∧ lxGetTok s = .ok (q.2, { s with inp := r }) ∧
      ∀ q' ∈ allOps, q'.1 <+: s.inp → q'.1.length ≤ q.1.length := by
  have h1 := allOps_head o ho
  cases ho1 : o.1 with
  | nil => rw [ho1] at h1; cases h1
  | cons d ds =>
    rw [ho1] at h1 hp
    simp only [List.head?_cons, Option.any_some, decide_eq_true_eq] at h1
    obtain ⟨g0, gb, gw, g34, g39, gm⟩ := h1
    obtain ⟨r0, hi⟩ := hp
    have h47 : ∀ q, s.inp ≠ 47 :: 42 :: q ∧ s.inp ≠ 47 :: 47 :: q := by
      intro q
      exact ⟨fun e => hc.1 (by rw [e]; exact ⟨q, rfl⟩), fun e => hc.2 (by rw [e]; exact ⟨q, rfl⟩)⟩
    generalize hg : getSign s.inp = x
    obtain ⟨t, r⟩ := x
    rw [List.cons_append] at hi
    obtain ⟨p, e, hl, hs⟩ := getSign_split hi.symm g0 gb gw g34 g39 h47 hg
    have hpd : p.head? = some d := by
      have := lexeme_ne hl
      cases p with
      | nil => exact absurd rfl this
      | cons c p =>
        rw [← hi, List.cons_append] at e
        rw [(List.cons.inj e).1]
        rfl
    have hd35 : d ≠ 35 := by
      have : ∀ d ∈ bytes "+-*/%&|^~!<>=.,;:?()[]{}", d ≠ 35 := by decide +kernel
      exact this d gm
    have hrun := lxGetTok_run s (g := []) (p := p) (r := r) e .nil hl hs (by
      rw [hpd]
      simp [hd35])
    have hmem : (p, t) ∈ allOps := by
      generalize hT : Tk.op t = T at hl
      cases hl with
      | opr hw =>
        cases hT
        exact List.mem_append_left _ (List.mem_map.2 ⟨_, hw, rfl⟩)
      | op _ _ _ _ _ =>
        cases hT
        simp at hpd
        subst hpd
        exact List.mem_append_right _ (List.mem_map.2 ⟨_, gm, rfl⟩)
      | _ => cases hT
    refine ⟨(p, t), hmem, r, e, hrun, ?_⟩
    intro q' hq' hpre
    rcases Nat.lt_or_ge p.length q'.1.length with hlt | hge
    · exfalso
      have hpq : p <+: q'.1 := List.prefix_of_prefix_length_le ⟨r, e.symm⟩ hpre (by omega)
      obtain ⟨z, hz⟩ := hpq
      cases z with
      | nil =>
        rw [List.append_nil] at hz
        rw [hz] at hlt
        omega
      | cons c z =>
        have hrc : r.head? = some c := by
          obtain ⟨y, hy⟩ := hpre
          rw [← hz, e, List.append_assoc] at hy
          rw [← List.append_cancel_left hy]
          rfl
        rcases List.mem_append.1 hq' with hq | hq
        · obtain ⟨w, hw, rfl⟩ := List.mem_map.1 hq
          refine hs.2.2.2.2.2.1 w hw c hrc ⟨z, ?_⟩
          simp only at hz
          rw [← hz]
          simp
        · obtain ⟨c', _, rfl⟩ := List.mem_map.1 hq
          simp only at hz
          have hne := List.length_pos_of_ne_nil (lexeme_ne hl)
          have := congrArg List.length hz
          simp at this
          omega
    · exact hge

/-! `...` is one token, `<<=` is `<<` and `=`. -/

example : lxGetTok ⟨bytes "...)", 0, []⟩ = .ok (110, ⟨bytes ")", 0, []⟩) := by decide +kernel
example : lxGetTok ⟨bytes "<<=", 0, []⟩ = .ok (107, ⟨bytes "=", 0, []⟩) := by decide +kernel

example : ∃ q ∈ allOps, ∃ r, bytes "<<=" = q.1 ++ r ∧ lxGetTok ⟨bytes "<<=", 0, []⟩ = .ok (q.2, ⟨r, 0, []⟩) ∧
    ∀ q' ∈ allOps, q'.1 <+: bytes "<<=" → q'.1.length ≤ q.1.length :=
  C30 ⟨bytes "<<=", 0, []⟩ ([60], 60) (by decide +kernel) (by decide +kernel) (by decide +kernel)

end Cmm.Lex
