import Verif.Props.C02

/-! C06: strStr. The manual's claim is false of the code: an occurrence at the very end of
the first string is not found. -/
namespace Cmm.Str

/-- Specification: `t` occurs in `s` at index `i`. -/
def OccursAt (s t : List Byte) (i : Nat) : Prop := t <+: s.drop i

/-- Specification of the manual: the result is the least index of an occurrence, or -1 if
there is none. -/
def StrStrSpec (s t : List Byte) (r : Word) : Prop :=
  (∃ i, OccursAt s t i ∧ (∀ j, j < i → ¬ OccursAt s t j) ∧ r = BitVec.ofNat 16 i) ∨
  ((∀ i, i ≤ s.length → ¬ OccursAt s t i) ∧ r = -1)

theorem occursAt_iff {s t : List Byte} {i : Nat} (h : i + t.length ≤ s.length) :
    OccursAt s t i ↔ ∀ x (hx : x < t.length), s[i+x] = t[x] := by
  unfold OccursAt
  rw [List.prefix_iff_getElem]
  simp only [List.length_drop, List.getElem_drop]
  constructor
  · rintro ⟨_, h2⟩ x hx; exact (h2 x hx).symm
  · intro h2; exact ⟨by omega, fun x hx => (h2 x hx).symm⟩

theorem strStrLoop_spec {m : Mem} {a b : Word} {s t : List Byte} (ha : IsStr m a s)
    (hb : IsStr m b t) (hs : s.length < 32768) (hlt : t.length ≤ s.length) :
    ∀ r k, k + r = s.length - t.length →
      (∃ i, k ≤ i ∧ i < s.length - t.length ∧ OccursAt s t i ∧
        (∀ j, k ≤ j → j < i → ¬ OccursAt s t j) ∧
        strStrLoop m a b (BitVec.ofNat 16 t.length) (BitVec.ofNat 16 (s.length - t.length))
          (BitVec.ofNat 16 k) = some (BitVec.ofNat 16 i)) ∨
      ((∀ i, k ≤ i → i < s.length - t.length → ¬ OccursAt s t i) ∧
        strStrLoop m a b (BitVec.ofNat 16 t.length) (BitVec.ofNat 16 (s.length - t.length))
          (BitVec.ofNat 16 k) = some (-1)) := by
  intro r
  induction r with
  | zero =>
    intro k hk
    right
    refine ⟨fun i h1 h2 => by omega, ?_⟩
    rw [strStrLoop, ilt_ofNat (by omega) (by omega)]
    have : ¬ (k < s.length - t.length) := by omega
    simp [this]
  | succ r ih =>
    intro k hk
    have hkd : k < s.length - t.length := by omega
    obtain ⟨j, hj1, hj2, hj3, hj4, hj5⟩ :=
      strStrInner_spec (m := m) (s1 := a) (s2 := b) (l := t.length) (i := k) (by omega)
        t.length 0 (by omega)
    have hocc : OccursAt s t k ↔ j = t.length := by
      rw [occursAt_iff (by omega)]
      constructor
      · intro h
        rcases Nat.lt_or_eq_of_le hj2 with hl | hl
        · exfalso
          apply hj5 hl
          rw [ha.get (by omega), hb.get hl]; exact h j hl
        · exact hl
      · intro h x hx
        have := hj4 x (by omega) (by omega)
        rwa [ha.get (by omega), hb.get hx] at this
    have hjl : (BitVec.ofNat 16 j = BitVec.ofNat 16 t.length) ↔ j = t.length := by
      constructor
      · intro e
        have := congrArg BitVec.toNat e
        simp at this; omega
      · intro e; rw [e]
    have hstep : strStrLoop m a b (BitVec.ofNat 16 t.length)
        (BitVec.ofNat 16 (s.length - t.length)) (BitVec.ofNat 16 k) =
        (if BitVec.ofNat 16 j = BitVec.ofNat 16 t.length then some (BitVec.ofNat 16 k) else
          strStrLoop m a b (BitVec.ofNat 16 t.length) (BitVec.ofNat 16 (s.length - t.length))
            (BitVec.ofNat 16 (k+1))) := by
      rw [strStrLoop, ilt_ofNat (by omega) (by omega)]
      have hj3' : strStrInner m a b (BitVec.ofNat 16 t.length) (BitVec.ofNat 16 k) 0 =
        some (BitVec.ofNat 16 j) := hj3
      simp only [hkd, decide_true, if_true, hj3', Option.bind_eq_bind, Option.bind_some,
        add_ofNat_succ]
      rfl
    by_cases hj : j = t.length
    · left
      refine ⟨k, Nat.le_refl _, hkd, hocc.2 hj, fun j h1 h2 => by omega, ?_⟩
      rw [hstep, if_pos (hjl.2 hj)]
    · rw [hstep, if_neg (mt hjl.1 hj)]
      rcases ih (k+1) (by omega) with ⟨i, h1, h2, h3, h4, h5⟩ | ⟨h1, h2⟩
      · left
        refine ⟨i, by omega, h2, h3, ?_, h5⟩
        intro x hx1 hx2
        rcases Nat.lt_or_ge k x with h | h
        · exact h4 x (by omega) hx2
        · have : x = k := by omega
          subst this; exact mt hocc.1 hj
      · right
        refine ⟨?_, h2⟩
        intro x hx1 hx2
        rcases Nat.lt_or_ge k x with h | h
        · exact h1 x (by omega) hx2
        · have : x = k := by omega
          subst this; exact mt hocc.1 hj

theorem strStr_eq {m : Mem} {a b : Word} {s t : List Byte} (ha : IsStr m a s) (hb : IsStr m b t) :
    strStr m a b = strStrLoop m a b (BitVec.ofNat 16 t.length)
      (BitVec.ofNat 16 s.length - BitVec.ofNat 16 t.length) (BitVec.ofNat 16 0) := by
  show (strLen m b >>= fun l => strLen m a >>= fun n => strStrLoop m a b l (n - l) 0) = _
  rw [strLen_eq hb, strLen_eq ha]; rfl

/-- What strStr computes: the least occurrence that does not end exactly at the end of the
first string. The full claim `StrStrSpec` is missing the index `s.length - t.length`. -/
theorem C06_strStr_partial (m : Mem) (a b : Word) (s t : List Byte) (ha : IsStr m a s)
    (hb : IsStr m b t) (hs : s.length < 32768) (ht : t.length < 32768) :
    ∃ r, strStr m a b = some r ∧
      ((∃ i, i + t.length < s.length ∧ OccursAt s t i ∧ (∀ j, j < i → ¬ OccursAt s t j) ∧
          r = BitVec.ofNat 16 i) ∨
       ((∀ i, i + t.length < s.length → ¬ OccursAt s t i) ∧ r = -1)) := by
  rw [strStr_eq ha hb]
  rcases Nat.lt_or_ge s.length t.length with hlt | hge
  · refine ⟨-1, ?_, Or.inr ⟨fun i hi => by omega, rfl⟩⟩
    rw [strStrLoop]
    have : ilt (BitVec.ofNat 16 0) (BitVec.ofNat 16 s.length - BitVec.ofNat 16 t.length) = false := by
      simp only [ilt, BitVec.slt_eq_decide, decide_eq_false_iff_not]
      rw [BitVec.toInt_sub, ofNat_toInt hs, ofNat_toInt ht, ofNat_toInt (by omega),
        Int.bmod_eq_of_le] <;> omega
    simp [this]
  · have hd : BitVec.ofNat 16 s.length - BitVec.ofNat 16 t.length =
        BitVec.ofNat 16 (s.length - t.length) := by
      apply BitVec.eq_of_toNat_eq; simp [BitVec.toNat_sub]; omega
    rw [hd]
    rcases strStrLoop_spec ha hb hs hge (s.length - t.length) 0 (by omega) with
      ⟨i, _, h2, h3, h4, h5⟩ | ⟨h1, h2⟩
    · exact ⟨_, h5, Or.inl ⟨i, by omega, h3, fun j hj => h4 j (by omega) hj, rfl⟩⟩
    · exact ⟨_, h2, Or.inr ⟨fun i hi => h1 i (by omega) (by omega), rfl⟩⟩

/-- If the second string does not end the first one, the manual's claim holds. -/
theorem C06_strStr_nonsuffix (m : Mem) (a b : Word) (s t : List Byte) (ha : IsStr m a s)
    (hb : IsStr m b t) (hs : s.length < 32768) (ht : t.length < 32768)
    (hsuf : ¬ t <:+ s) : ∃ r, strStr m a b = some r ∧ StrStrSpec s t r := by
  obtain ⟨r, e, h⟩ := C06_strStr_partial m a b s t ha hb hs ht
  refine ⟨r, e, ?_⟩
  rcases h with ⟨i, _, h2, h3, h4⟩ | ⟨h1, h2⟩
  · exact Or.inl ⟨i, h2, h3, h4⟩
  · refine Or.inr ⟨fun i hi ho => ?_, h2⟩
    rcases Nat.lt_or_ge (i + t.length) s.length with hl | hl
    · exact h1 i hl ho
    · apply hsuf
      have hle := ho.length_le
      rw [List.length_drop] at hle
      have : t = s.drop i := ho.eq_of_length (by rw [List.length_drop]; omega)
      rw [this]; exact List.drop_suffix i s

/-- The manual's claim fails: "xyz" contains "xyz" at index 0, but strStr returns -1. -/
theorem C06_strStr_false : ∃ (m : Mem) (a b : Word) (s t : List Byte), IsStr m a s ∧ IsStr m b t ∧
    s.length < 32768 ∧ OccursAt s t 0 ∧ strStr m a b = some (-1) ∧ ¬ StrStrSpec s t (-1) := by
  refine ⟨demoMem, 200#16, 200#16, _, _, demo_xyz, demo_xyz, by decide, ?_, ?_, ?_⟩
  · exact List.prefix_rfl
  · rw [strStr_eq demo_xyz demo_xyz, strStrLoop]
    rfl
  · rintro (⟨i, h1, _, h3⟩ | ⟨h1, _⟩)
    · have : i = 0 := by
        have := h1.length_le
        simp at this; omega
      subst this
      exact absurd h3 (by decide)
    · exact h1 0 (by simp) List.prefix_rfl

/-- It fails for every string and every suffix of it that occurs nowhere else. -/
theorem C06_strStr_misses_suffix (m : Mem) (a b : Word) (s t : List Byte) (ha : IsStr m a s)
    (hb : IsStr m b t) (hs : s.length < 32768) (hsuf : t <:+ s)
    (honly : ∀ i, i + t.length < s.length → ¬ OccursAt s t i) :
    strStr m a b = some (-1) := by
  have hl := hsuf.length_le
  obtain ⟨r, e, h⟩ := C06_strStr_partial m a b s t ha hb hs (by omega)
  rcases h with ⟨i, h1, h2, _⟩ | ⟨_, h2⟩
  · exact absurd h2 (honly i h1)
  · rw [e, h2]

-- hypotheses met: "xyz" and "ab"; "ab" is not a suffix of "xyz"
example : ∃ r, strStr demoMem 200#16 100#16 = some r ∧
    StrStrSpec [120#8, 121#8, 122#8] [97#8, 98#8] r :=
  C06_strStr_nonsuffix demoMem 200#16 100#16 _ _ demo_xyz demo_ab (by decide) (by decide)
    (by decide)

end Cmm.Str
