import Verif.Props.C02

/-! C05: strChr finds the first and strRchr the last occurrence. -/
namespace Cmm.Str

/-- strChr returns the least index of `c`, or -1 when `c` does not occur. -/
theorem C05_strChr (m : Mem) (a : Word) (s : List Byte) (c : Byte) (h : IsStr m a s)
    (hc : c ≠ 0#8) :
    (c ∉ s → strChr m a c = some (-1)) ∧
    (c ∈ s → ∃ k : Nat, ∃ hk : k < s.length, strChr m a c = some (BitVec.ofNat 16 k) ∧
      s[k] = c ∧ ∀ j (hj : j < k), s[j] ≠ c) := by
  constructor
  · intro hn
    have := strChrLoop_run (m := m) (s := a) (c := c) s.length 0 (by
      intro i _ hi
      have hi : i < s.length := by omega
      exact ⟨h.get_ne hi, by rw [h.get hi]; exact fun e => hn (e ▸ List.getElem_mem hi)⟩)
    rw [Nat.zero_add] at this
    show strChrLoop m a c (BitVec.ofNat 16 0) = _
    rw [this, strChrLoop, add_ofNat]
    simp [h.nul]
  · intro hm
    have hlt : s.idxOf c < s.length := List.idxOf_lt_length_iff.2 hm
    have hget : s[s.idxOf c] = c := List.getElem_idxOf hlt
    have hmin : ∀ j (hj : j < s.idxOf c), s[j] ≠ c := by
      intro j hj e
      have := List.not_of_lt_findIdx (p := (· == c)) (xs := s) hj
      simp [e] at this
    refine ⟨s.idxOf c, hlt, ?_, hget, hmin⟩
    have := strChrLoop_run (m := m) (s := a) (c := c) (s.idxOf c) 0 (by
      intro i _ hi
      have hi' : i < s.length := by omega
      exact ⟨h.get_ne hi', by rw [h.get hi']; exact hmin i (by omega)⟩)
    rw [Nat.zero_add] at this
    show strChrLoop m a c (BitVec.ofNat 16 0) = _
    rw [this, strChrLoop, add_ofNat, h.get hlt, hget, if_pos hc, if_pos rfl]

theorem exists_last (s : List Byte) (c : Byte) (h : c ∈ s) :
    ∃ k : Nat, ∃ hk : k < s.length, s[k] = c ∧ ∀ j (_ : k < j) (hj : j < s.length), s[j] ≠ c := by
  induction s with
  | nil => simp at h
  | cons a s ih =>
    by_cases hs : c ∈ s
    · obtain ⟨k, hk, h1, h2⟩ := ih hs
      refine ⟨k+1, by simpa using hk, by simpa using h1, ?_⟩
      intro j hj hj'
      cases j with
      | zero => omega
      | succ j => simpa using h2 j (by omega) (by simpa using hj')
    · have : c = a := by simpa [hs] using h
      refine ⟨0, by simp, by simp [this], ?_⟩
      intro j hj hj'
      cases j with
      | zero => omega
      | succ j =>
        intro e
        apply hs
        simp only [List.getElem_cons_succ] at e
        exact e ▸ List.getElem_mem _

/-- strRchr returns the greatest index of `c`, or -1 when `c` does not occur. -/
theorem C05_strRchr (m : Mem) (a : Word) (s : List Byte) (c : Byte) (h : IsStr m a s)
    (hc : c ≠ 0#8) :
    (c ∉ s → strRchr m a c = some (-1)) ∧
    (c ∈ s → ∃ k : Nat, ∃ hk : k < s.length, strRchr m a c = some (BitVec.ofNat 16 k) ∧
      s[k] = c ∧ ∀ j (_ : k < j) (hj : j < s.length), s[j] ≠ c) := by
  have fin (j : Word) : strRchrLoop m a c (BitVec.ofNat 16 s.length) j = some j := by
    rw [strRchrLoop, add_ofNat]; simp [h.nul]
  constructor
  · intro hn
    have := strRchrLoop_run (m := m) (s := a) (c := c) (j := -1) s.length 0 (by
      intro i _ hi
      have hi : i < s.length := by omega
      exact ⟨h.get_ne hi, by rw [h.get hi]; exact fun e => hn (e ▸ List.getElem_mem hi)⟩)
    rw [Nat.zero_add, fin] at this
    exact this
  · intro hm
    obtain ⟨k, hk, h1, h2⟩ := exists_last s c hm
    refine ⟨k, hk, ?_, h1, h2⟩
    have e1 := strRchrLoop_reach (m := m) (s := a) hc (p := k) (by rw [h.get hk, h1]) k 0 (-1)
      (by omega) (fun i _ hi => h.get_ne (by omega))
    have e2 := strRchrLoop_run (m := m) (s := a) (c := c) (j := BitVec.ofNat 16 k)
      (s.length - (k+1)) (k+1) (by
        intro i hi hi'
        have hi'' : i < s.length := by omega
        exact ⟨h.get_ne hi'', by rw [h.get hi'']; exact h2 i (by omega) hi''⟩)
    rw [show k + 1 + (s.length - (k+1)) = s.length by omega, fin] at e2
    show strRchrLoop m a c (BitVec.ofNat 16 0) (-1) = _
    rw [e1, e2]

-- 'y' occurs in "xyz", 'q' does not
example : (121#8 : Byte) ∈ [120#8, 121#8, 122#8] := by decide
example : strChr demoMem 200#16 113#8 = some (-1) :=
  (C05_strChr demoMem 200#16 _ 113#8 demo_xyz (by decide)).1 (by decide)

end Cmm.Str
