import Verif.Lex.Spec

/-! White space and comments: skipSpace takes away exactly a gap. -/
namespace Cmm.Lex

theorem isdigit_iff {c : Nat} : isdigit c = true ↔ Digit c := by simp [isdigit, Digit]
theorem isOdigit_iff {c : Nat} : isOdigit c = true ↔ OctDigit c := by simp [isOdigit, OctDigit]
theorem isxdigit_iff {c : Nat} : isxdigit c = true ↔ HexDigit c := by
  simp [isxdigit, isdigit, HexDigit, Digit, or_assoc]
theorem isspace_iff {c : Nat} : isspace c = true ↔ Blank c := by simp [isspace, Blank]
theorem letter_iff {c : Nat} : (isalpha c = true ∨ c = 95) ↔ Letter c := by
  simp [isalpha, Letter, or_assoc]
theorem isDelim_iff {c : Nat} : isDelim c = false ↔ WordChar c := by
  simp only [isDelim, isalpha, isdigit, WordChar, Letter, Digit]
  by_cases h : c = 95
  · simp [h]
  · simp [h]
    omega

/-- skipSpace after skipSpc. -/
def skipStep : List Nat → Res (List Nat)
  | 47 :: 42 :: r => match comLoop r with
    | .ok r' => skipSpace r'
    | .error e => .error e
  | 47 :: 47 :: r => skipSpace (skipToEol r)
  | 10 :: r => if r.head? ≠ some 35 then skipSpace r else .ok (10 :: r)
  | l' => .ok l'

theorem skipSpace_eq (l : List Nat) : skipSpace l = skipStep (skipSpc l) := by
  rw [skipSpace.eq_def]
  generalize skipSpc l = k
  unfold skipStep
  split
  · split
    · rename_i h
      simp only [h]
    · rename_i h
      simp only [h]
  · rfl
  · rfl
  · split <;> simp_all

theorem skipSpc_blank {c : Nat} {l : List Nat} (h : Blank c) (hn : c ≠ 10) :
    skipSpc (c :: l) = skipSpc l := by
  rw [skipSpc, if_pos ⟨hn, isspace_iff.2 h⟩]

theorem skipSpc_not {c : Nat} {l : List Nat} (h : ¬ Blank c ∨ c = 10) :
    skipSpc (c :: l) = c :: l := by
  rw [skipSpc, if_neg]
  rintro ⟨h1, h2⟩
  rcases h with h | h
  · exact h (isspace_iff.1 h2)
  · exact h1 h

theorem skipSpc_run (a r : List Nat) (ha : ∀ c ∈ a, Blank c ∧ c ≠ 10) :
    skipSpc (a ++ r) = skipSpc r := by
  induction a with
  | nil => rfl
  | cons c a ih =>
    rw [List.cons_append, skipSpc_blank (ha c (by simp)).1 (ha c (by simp)).2]
    exact ih (fun d hd => ha d (by simp [hd]))

/-- What skipSpc leaves. -/
theorem skipSpc_split (l : List Nat) : ∃ a, l = a ++ skipSpc l ∧ (∀ c ∈ a, Blank c ∧ c ≠ 10) ∧
    ∀ c, (skipSpc l).head? = some c → ¬ Blank c ∨ c = 10 := by
  induction l with
  | nil => exact ⟨[], rfl, by simp, by simp [skipSpc]⟩
  | cons c l ih =>
    by_cases h : Blank c ∧ c ≠ 10
    · obtain ⟨a, h1, h2, h3⟩ := ih
      rw [skipSpc_blank h.1 h.2]
      refine ⟨c :: a, by rw [List.cons_append, ← h1], ?_, h3⟩
      intro d hd
      rcases List.mem_cons.1 hd with rfl | hd
      · exact h
      · exact h2 d hd
    · have h' : ¬ Blank c ∨ c = 10 := by
        by_cases hc : c = 10
        · exact .inr hc
        · exact .inl (fun hb => h ⟨hb, hc⟩)
      rw [skipSpc_not h']
      refine ⟨[], rfl, by simp, ?_⟩
      simp only [List.head?_cons, Option.some.injEq]
      rintro _ rfl
      exact h'

theorem skipToEol_run (b r : List Nat) (hb : 10 ∉ b) : skipToEol (b ++ r) = skipToEol r := by
  induction b with
  | nil => rfl
  | cons c b ih =>
    rw [List.cons_append, skipToEol, if_pos (fun h => hb (by simp [h])), ih (fun h => hb (by simp [h]))]

theorem skipToEol_nl (r : List Nat) : skipToEol (10 :: r) = 10 :: r := rfl

theorem skipToEol_split (l : List Nat) : ∃ b, l = b ++ skipToEol l ∧ 10 ∉ b ∧
    (skipToEol l = [] ∨ ∃ r, skipToEol l = 10 :: r) := by
  induction l with
  | nil => exact ⟨[], rfl, by simp, .inl rfl⟩
  | cons c l ih =>
    by_cases h : c = 10
    · subst h
      exact ⟨[], rfl, by simp, .inr ⟨l, rfl⟩⟩
    · obtain ⟨b, h1, h2, h3⟩ := ih
      rw [skipToEol, if_pos h]
      refine ⟨c :: b, by rw [List.cons_append, ← h1], ?_, h3⟩
      simp only [List.mem_cons, not_or]
      exact ⟨fun e => h e.symm, h2⟩

theorem not_infix_cons {c d : Nat} {b : List Nat} (h : ¬ [42, 47] <:+: c :: d :: b) :
    ¬ (c = 42 ∧ d = 47) := by
  rintro ⟨rfl, rfl⟩
  exact h ⟨[], b, rfl⟩

theorem not_infix_tail {c : Nat} {b : List Nat} (h : ¬ [42, 47] <:+: c :: b) : ¬ [42, 47] <:+: b :=
  fun hb => h (hb.trans (List.infix_cons_iff.2 (.inr (List.infix_refl _))))

theorem comLoop_body (b r : List Nat) (hb : ¬ [42, 47] <:+: b) :
    comLoop (b ++ 42 :: 47 :: r) = .ok r := by
  induction b with
  | nil => simp [comLoop]
  | cons c b ih =>
    cases b with
    | nil =>
      show comLoop (c :: 42 :: 47 :: r) = .ok r
      rw [comLoop, if_neg (by omega)]
      exact ih (not_infix_tail hb)
    | cons d b =>
      show comLoop (c :: d :: (b ++ 42 :: 47 :: r)) = .ok r
      rw [comLoop, if_neg (not_infix_cons hb)]
      exact ih (not_infix_tail hb)

theorem comLoop_split {l r : List Nat} (h : comLoop l = .ok r) :
    ∃ b, l = b ++ 42 :: 47 :: r ∧ ¬ [42, 47] <:+: b := by
  induction l with
  | nil => cases h
  | cons c l ih =>
    cases l with
    | nil => cases h
    | cons d l =>
      unfold comLoop at h
      split at h
      · rename_i hc
        obtain ⟨rfl, rfl⟩ := hc
        cases h
        exact ⟨[], rfl, by simp⟩
      · rename_i hc
        obtain ⟨b, h1, h2⟩ := ih h
        refine ⟨c :: b, by rw [h1]; rfl, ?_⟩
        intro hi
        rcases List.infix_cons_iff.1 hi with hp | hi
        · obtain ⟨t, ht⟩ := hp
          simp only [List.cons_append, List.nil_append, List.cons.injEq] at ht
          obtain ⟨rfl, rfl⟩ := ht
          simp only [List.cons_append, List.cons.injEq] at h1
          exact hc ⟨rfl, h1.1⟩
        · exact h2 hi

/-- A gap is taken away. -/
theorem skipSpace_gap {w : List Nat} (hw : Gap w) (r : List Nat)
    (h : r.head? ≠ some 35 ∨ w.getLast? ≠ some 10) : skipSpace (w ++ r) = skipSpace r := by
  induction hw with
  | nil => rfl
  | @blank c w hc hw ih =>
    have ih' : w ≠ [] → skipSpace (w ++ r) = skipSpace r := by
      intro hne
      apply ih
      rcases h with h | h
      · exact .inl h
      · right
        rw [List.getLast?_cons, List.getLast?_eq_some_getLast hne] at h
        rw [List.getLast?_eq_some_getLast hne]
        simpa using h
    have key : skipSpace (c :: (w ++ r)) = skipSpace (w ++ r) := by
      by_cases hn : c = 10
      · subst hn
        rw [skipSpace_eq, skipSpc_not (.inr rfl)]
        show (if (w ++ r).head? ≠ some 35 then skipSpace (w ++ r) else .ok (10 :: (w ++ r))) = _
        rw [if_pos]
        cases w with
        | nil =>
          rcases h with h | h
          · exact h
          · simp at h
        | cons d w =>
          simp only [List.cons_append, List.head?_cons, ne_eq, Option.some.injEq]
          rintro rfl
          generalize hx : 35 :: w = x at hw
          cases hw with
          | nil => cases hx
          | blank hb _ =>
            simp only [List.cons.injEq] at hx
            obtain ⟨rfl, _⟩ := hx
            simp [Blank] at hb
          | block _ _ => simp at hx
          | line _ _ => simp at hx
      · rw [skipSpace_eq, skipSpc_blank hc hn, ← skipSpace_eq]
    rw [List.cons_append, key]
    by_cases hne : w = []
    · subst hne; rfl
    · exact ih' hne
  | @block b w hb hw ih =>
    have e : 47 :: 42 :: (b ++ 42 :: 47 :: w) ++ r = 47 :: 42 :: (b ++ 42 :: 47 :: (w ++ r)) := by simp
    rw [e, skipSpace_eq, skipSpc_not (.inl (by simp [Blank]))]
    show (match comLoop (b ++ 42 :: 47 :: (w ++ r)) with
      | .ok r' => skipSpace r'
      | .error e => .error e) = _
    rw [comLoop_body _ _ hb]
    show skipSpace (w ++ r) = _
    by_cases hne : w = []
    · subst hne; rfl
    · apply ih
      rcases h with h | h
      · exact .inl h
      · right
        have : (47 :: 42 :: (b ++ 42 :: 47 :: w)).getLast? = w.getLast? := by
          have e2 : 47 :: 42 :: (b ++ 42 :: 47 :: w) = (47 :: 42 :: (b ++ [42, 47])) ++ w := by simp
          rw [e2, List.getLast?_append_of_ne_nil _ hne]
        rwa [this] at h
  | @line b w hb hw ih =>
    have e : 47 :: 47 :: (b ++ 10 :: w) ++ r = 47 :: 47 :: (b ++ 10 :: (w ++ r)) := by simp
    rw [e, skipSpace_eq, skipSpc_not (.inl (by simp [Blank]))]
    show skipSpace (skipToEol (b ++ 10 :: (w ++ r))) = _
    rw [skipToEol_run _ _ hb, skipToEol_nl, skipSpace_eq, skipSpc_not (.inr rfl)]
    show (if (w ++ r).head? ≠ some 35 then skipSpace (w ++ r) else .ok (10 :: (w ++ r))) = _
    rw [if_pos]
    · by_cases hne : w = []
      · subst hne; rfl
      · apply ih
        rcases h with h | h
        · exact .inl h
        · right
          have : (47 :: 47 :: (b ++ 10 :: w)).getLast? = w.getLast? := by
            have e2 : 47 :: 47 :: (b ++ 10 :: w) = (47 :: 47 :: (b ++ [10])) ++ w := by simp
            rw [e2, List.getLast?_append_of_ne_nil _ hne]
          rwa [this] at h
    · cases w with
      | nil =>
        rcases h with h | h
        · exact h
        · exfalso
          apply h
          have e2 : 47 :: 47 :: (b ++ [10]) = (47 :: 47 :: b) ++ [10] := by simp
          rw [e2, List.getLast?_append_of_ne_nil _ (by simp)]
          rfl
      | cons d w =>
        simp only [List.cons_append, List.head?_cons, ne_eq, Option.some.injEq]
        rintro rfl
        generalize hx : 35 :: w = x at hw
        cases hw with
        | nil => cases hx
        | blank hb _ =>
          simp only [List.cons.injEq] at hx
          obtain ⟨rfl, _⟩ := hx
          simp [Blank] at hb
        | block _ _ => simp at hx
        | line _ _ => simp at hx

/-- Where skipSpace stops. -/
def Stop (r : List Nat) : Prop :=
  (∃ q, r = 10 :: 35 :: q) ∨
  ((∀ c, r.head? = some c → ¬ Blank c) ∧ ∀ q, r ≠ 47 :: 42 :: q ∧ r ≠ 47 :: 47 :: q)

theorem skipSpace_stop {r : List Nat} (h : Stop r) : skipSpace r = .ok r := by
  rw [skipSpace_eq]
  rcases h with ⟨q, rfl⟩ | ⟨h1, h2⟩
  · rw [skipSpc_not (.inr rfl)]
    rfl
  · have e : skipSpc r = r := by
      cases r with
      | nil => rfl
      | cons c r => exact skipSpc_not (.inl (h1 c rfl))
    rw [e]
    unfold skipStep
    split
    · exact absurd rfl (h2 _).1
    · exact absurd rfl (h2 _).2
    · exact absurd (h1 10 rfl) (by simp [Blank])
    · rfl

theorem Gap.append {a b : List Nat} (ha : Gap a) (hb : Gap b) : Gap (a ++ b) := by
  induction ha with
  | nil => exact hb
  | blank hc _ ih => exact .blank hc ih
  | @block b' w h _ ih =>
    have : 47 :: 42 :: (b' ++ 42 :: 47 :: w) ++ b = 47 :: 42 :: (b' ++ 42 :: 47 :: (w ++ b)) := by simp
    rw [this]
    exact .block h ih
  | @line b' w h _ ih =>
    have : 47 :: 47 :: (b' ++ 10 :: w) ++ b = 47 :: 47 :: (b' ++ 10 :: (w ++ b)) := by simp
    rw [this]
    exact .line h ih

theorem Gap.run {a : List Nat} (ha : ∀ c ∈ a, Blank c) : Gap a := by
  induction a with
  | nil => exact .nil
  | cons c a ih => exact .blank (ha c (by simp)) (ih (fun d hd => ha d (by simp [hd])))

/-- The end of the file after a gap. -/
theorem skipSpace_end {g : List Nat} (h : EndGap g) : skipSpace g = .ok [] := by
  rcases h with h | ⟨w, b, h, hb, rfl⟩
  · have := skipSpace_gap h [] (.inl (by simp))
    rw [List.append_nil] at this
    rw [this]
    exact skipSpace_stop (.inr ⟨by simp, by simp⟩)
  · rw [skipSpace_gap h _ (.inl (by simp)), skipSpace_eq, skipSpc_not (.inl (by simp [Blank]))]
    show skipSpace (skipToEol b) = _
    have := skipToEol_run b [] hb
    rw [List.append_nil] at this
    rw [this]
    exact skipSpace_stop (.inr ⟨by simp [skipToEol], by simp [skipToEol]⟩)

theorem getLast?_cons_ne {c : Nat} {g : List Nat} (hg : g ≠ []) : (c :: g).getLast? = g.getLast? := by
  cases g with
  | nil => exact absurd rfl hg
  | cons d g => rfl

theorem gap_last {a g : List Nat} {c : Nat} (hc : c ≠ 10) {r : List Nat}
    (h : r.head? = some 35 → g.getLast? ≠ some 10) :
    r.head? = some 35 → (a ++ c :: g).getLast? ≠ some 10 := by
  intro hr
  have e : a ++ c :: g = (a ++ [c]) ++ g := by simp
  by_cases hg : g = []
  · subst hg
    rw [List.getLast?_append_of_ne_nil _ (by simp)]
    simpa using hc
  · rw [e, List.getLast?_append_of_ne_nil _ hg]
    exact h hr

/-- A directive after a line comment. -/
theorem skipSpace_endgap {g : List Nat} (h : EndGap g) (r : List Nat) (hr : r.head? = some 10) :
    skipSpace (g ++ r) = skipSpace r := by
  have hr' : r.head? ≠ some 35 := by rw [hr]; simp
  rcases h with h | ⟨w, b, h, hb, rfl⟩
  · exact skipSpace_gap h r (.inl hr')
  · cases r with
    | nil => cases hr
    | cons c r =>
      simp only [List.head?_cons, Option.some.injEq] at hr
      subst hr
      rw [List.append_assoc, skipSpace_gap h _ (.inl (by simp)), List.cons_append, List.cons_append,
        skipSpace_eq, skipSpc_not (.inl (by simp [Blank]))]
      show skipSpace (skipToEol (b ++ 10 :: r)) = _
      rw [skipToEol_run _ _ hb]
      rfl

theorem EndGap.block {a b w : List Nat} (ga : Gap a) (hb : ¬ [42, 47] <:+: b) (h : EndGap w) :
    EndGap (a ++ 47 :: 42 :: (b ++ 42 :: 47 :: w)) := by
  rcases h with h | ⟨w, b2, hw, hb2, rfl⟩
  · exact .inl (ga.append (.block hb h))
  · exact .inr ⟨a ++ 47 :: 42 :: (b ++ 42 :: 47 :: w), b2, ga.append (.block hb hw), hb2, by simp⟩

theorem EndGap.blank {a w : List Nat} (ga : Gap a) (h : EndGap w) : EndGap (a ++ 10 :: w) := by
  rcases h with h | ⟨w, b2, hw, hb2, rfl⟩
  · exact .inl (ga.append (.blank (.inr (by omega)) h))
  · exact .inr ⟨a ++ 10 :: w, b2, ga.append (.blank (.inr (by omega)) hw), hb2, by simp⟩

theorem EndGap.line {a b w : List Nat} (ga : Gap a) (hb : 10 ∉ b) (h : EndGap (10 :: w)) :
    EndGap (a ++ 47 :: 47 :: (b ++ 10 :: w)) := by
  rcases h with h | ⟨w', b2, hw, hb2, e⟩
  · left
    generalize hx : 10 :: w = x at h
    cases h with
    | nil => cases hx
    | blank _ hw =>
      obtain ⟨rfl, rfl⟩ := List.cons.inj hx
      exact ga.append (.line hb hw)
    | block _ _ => cases hx
    | line _ _ => cases hx
  · right
    generalize hx : w' = x at hw
    cases hw with
    | nil => subst hx; cases e
    | @blank c w'' _ hw =>
      subst hx
      obtain ⟨rfl, rfl⟩ := List.cons.inj e
      exact ⟨a ++ 47 :: 47 :: (b ++ 10 :: w''), b2, ga.append (.line hb hw), hb2, by simp⟩
    | block _ _ => subst hx; cases e
    | line _ _ => subst hx; cases e

theorem gap_nl {w : List Nat} (h : Gap (10 :: w)) : Gap w := by
  generalize hx : 10 :: w = x at h
  cases h with
  | nil => cases hx
  | blank _ hw =>
    obtain ⟨rfl, rfl⟩ := List.cons.inj hx
    exact hw
  | block _ _ => cases hx
  | line _ _ => cases hx

/-- Conversely what is taken away is a gap. -/
theorem skipSpace_split {l r : List Nat} (h : skipSpace l = .ok r) :
    Stop r ∧ ∃ g, l = g ++ r ∧ (Gap g ∨ ((r = [] ∨ r.head? = some 10) ∧ EndGap g)) ∧
      (r.head? = some 35 → g.getLast? ≠ some 10) := by
  induction hn : l.length using Nat.strong_induction_on generalizing l with
  | _ n ih =>
    subst hn
    obtain ⟨a, h1, h2, h3⟩ := skipSpc_split l
    have ga : Gap a := Gap.run (fun c hc => (h2 c hc).1)
    have hlen := skipSpc_len l
    rw [skipSpace_eq] at h
    generalize hk : skipSpc l = k at h h1 h3 hlen
    unfold skipStep at h
    split at h
    · rename_i q
      cases hc : comLoop q with
      | error e => rw [hc] at h; cases h
      | ok q' =>
        rw [hc] at h
        obtain ⟨b, hb, hb'⟩ := comLoop_split hc
        have hl := comLoop_len hc
        obtain ⟨hs, g, hq, hg, hl⟩ := ih q'.length (by simp at hlen; omega) h rfl
        refine ⟨hs, a ++ 47 :: 42 :: (b ++ 42 :: 47 :: g), by rw [h1, hb, hq]; simp, ?_, ?_⟩
        · rcases hg with hg | ⟨hr, hg⟩
          · exact .inl (ga.append (.block hb' hg))
          · exact .inr ⟨hr, .block ga hb' hg⟩
        · have := gap_last (a := a ++ 47 :: 42 :: (b ++ [42])) (c := 47) (by decide) hl
          simpa using this
    · rename_i q
      obtain ⟨b, hb, hb', hb3⟩ := skipToEol_split q
      have hl := skipToEol_len q
      obtain ⟨hs, g, hq, hg, hl⟩ := ih (skipToEol q).length (by simp at hlen; omega) h rfl
      refine ⟨hs, ?_⟩
      rcases hb3 with hb3 | ⟨q2, hb3⟩
      · rw [hb3, List.append_nil] at hb
        rw [hb3] at hq
        obtain ⟨rfl, rfl⟩ := List.append_eq_nil_iff.1 hq.symm
        exact ⟨a ++ 47 :: 47 :: b, by rw [h1, hb]; simp, .inr ⟨.inl rfl, .inr ⟨a, b, ga, hb', rfl⟩⟩,
          by simp⟩
      · rw [hb3] at hb hq
        cases g with
        | nil =>
          rw [List.nil_append] at hq
          subst hq
          exact ⟨a ++ 47 :: 47 :: b, by rw [h1, hb]; simp, .inr ⟨.inr rfl, .inr ⟨a, b, ga, hb', rfl⟩⟩,
            by simp⟩
        | cons c w =>
          obtain ⟨rfl, rfl⟩ := List.cons.inj hq
          refine ⟨a ++ 47 :: 47 :: (b ++ 10 :: w), by rw [h1, hb]; simp, ?_, ?_⟩
          · rcases hg with hg | ⟨hr, hg⟩
            · exact .inl (ga.append (.line hb' (gap_nl hg)))
            · exact .inr ⟨hr, .line ga hb' hg⟩
          · intro hr
            have := hl hr
            have e : a ++ 47 :: 47 :: (b ++ 10 :: w) = (a ++ 47 :: 47 :: b) ++ 10 :: w := by simp
            rw [e, List.getLast?_append_of_ne_nil _ (by simp)]
            exact this
    · rename_i q
      split at h
      · obtain ⟨hs, g, hq, hg, hl⟩ := ih q.length (by simp at hlen; omega) h rfl
        refine ⟨hs, a ++ 10 :: g, by rw [h1, hq]; simp, ?_, ?_⟩
        · rcases hg with hg | ⟨hr, hg⟩
          · exact .inl (ga.append (.blank (.inr (by omega)) hg))
          · exact .inr ⟨hr, .blank ga hg⟩
        · rename_i hh
          intro hr
          rw [List.getLast?_append_of_ne_nil _ (by simp)]
          by_cases hg' : g = []
          · subst hg'
            rw [hq] at hh
            exact absurd hr hh
          · rw [getLast?_cons_ne hg']
            exact hl hr
      · rename_i hh
        cases h
        simp only [ne_eq, Decidable.not_not] at hh
        cases q with
        | nil => simp at hh
        | cons d q =>
          simp at hh
          subst hh
          exact ⟨.inl ⟨q, rfl⟩, a, h1, .inl ga, by simp⟩
    · rename_i hx1 hx2 hx3
      cases h
      refine ⟨.inr ⟨?_, ?_⟩, a, h1, .inl ga, ?_⟩
      · intro c hc
        rcases h3 c hc with h | h
        · exact h
        · subst h
          cases r with
          | nil => simp at hc
          | cons d r =>
            simp at hc
            subst hc
            exact absurd rfl (hx3 r)
      · intro q
        exact ⟨fun e => hx1 q e, fun e => hx2 q e⟩
      · intro _ hl
        have hm := List.mem_of_getLast? hl
        exact (h2 10 hm).2 rfl

end Cmm.Lex
