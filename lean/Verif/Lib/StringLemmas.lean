import Verif.Lib.String

/- Loop lemmas for the string functions (helpers for Props/C02..C06). -/
namespace Cmm.Str

theorem add_ofNat (a : Word) (k : Nat) : a + BitVec.ofNat 16 k = off a k := rfl

theorem ofNat_toInt {k : Nat} (h : k < 32768) : (BitVec.ofNat 16 k).toInt = k := by
  rw [BitVec.toInt_eq_toNat_of_lt] <;> simp [BitVec.toNat_ofNat] <;> omega

theorem ilt_ofNat {i j : Nat} (hi : i < 32768) (hj : j < 32768) :
    ilt (BitVec.ofNat 16 i) (BitVec.ofNat 16 j) = decide (i < j) := by
  simp [ilt, BitVec.slt_eq_decide, ofNat_toInt hi, ofNat_toInt hj]

theorem ile_ofNat {i j : Nat} (hi : i < 32768) (hj : j < 32768) :
    ile (BitVec.ofNat 16 i) (BitVec.ofNat 16 j) = decide (i ≤ j) := by
  simp [ile, BitVec.sle_eq_decide, ofNat_toInt hi, ofNat_toInt hj]

theorem scanLoop_spec {m s t} (h : IsStr m s t) :
    ∀ r k, k + r = t.length →
      scanLoop m s (BitVec.ofNat 16 k) = some (BitVec.ofNat 16 t.length) := by
  intro r
  induction r with
  | zero =>
    intro k hk
    rw [scanLoop, add_ofNat]
    have : k = t.length := by omega
    subst this
    simp [h.nul]
  | succ r ih =>
    intro k hk
    rw [scanLoop, add_ofNat, if_pos (h.get_ne (by omega)), add_ofNat_succ]
    exact ih _ (by omega)

theorem strLen_eq {m s t} (h : IsStr m s t) :
    strLen m s = some (BitVec.ofNat 16 t.length) :=
  scanLoop_spec h t.length 0 (by omega)

theorem strCpyLoop_spec {d s : Word} {t : List Byte}
    (hap : Apart d (t.length+1) s (t.length+1)) :
    ∀ r k m, k + r = t.length → IsStr m s t →
      ∃ m', strCpyLoop d s m (BitVec.ofNat 16 k) = some m' ∧
        (∀ i (h : i < t.length), k ≤ i → m' (off d i) = t[i]) ∧
        m' (off d t.length) = 0#8 ∧
        (∀ x, (∀ i, k ≤ i → i ≤ t.length → x ≠ off d i) → m' x = m x) := by
  intro r
  induction r with
  | zero =>
    intro k m hk h
    have : k = t.length := by omega
    subst this
    rw [strCpyLoop, add_ofNat, add_ofNat]
    refine ⟨m.set (off d t.length) 0#8, by simp [h.nul], fun i h1 h2 => by omega, by simp, ?_⟩
    intro x hx
    exact Mem.set_ne _ _ (hx _ (Nat.le_refl _) (Nat.le_refl _))
  | succ r ih =>
    intro k m hk h
    have hkl : k < t.length := by omega
    have h' : IsStr (m.set (off d k) (m (off s k))) s t := by
      apply h.congr
      intro i hi
      exact Mem.set_ne _ _ (fun e => hap k i (by omega) (by omega) e.symm)
    obtain ⟨m', e, h1, h2, h3⟩ := ih (k+1) _ (by omega) h'
    refine ⟨m', ?_, ?_, h2, ?_⟩
    · rw [strCpyLoop, add_ofNat, add_ofNat]
      simp only [if_pos (h.get_ne hkl), add_ofNat_succ]
      exact e
    · intro i hi hki
      rcases Nat.lt_or_ge k i with hlt | hge
      · exact h1 i hi (by omega)
      · have : i = k := by omega
        subst this
        rw [h3 _ (fun j hj hj' e => by
          have := off_inj (by have := h.fits; omega) (by have := h.fits; omega) e; omega)]
        simp [h.get hkl]
    · intro x hx
      rw [h3 x (fun i hi hi' => hx i (by omega) hi')]
      exact Mem.set_ne _ _ (hx k (by omega) (by omega))

theorem strCatLoop_spec {d s : Word} {t : List Byte} {L : Nat}
    (hL : L + t.length < 65536)
    (hap : ∀ i j, i ≤ t.length → j ≤ t.length → off d (L+i) ≠ off s j) :
    ∀ r k m, k + r = t.length → IsStr m s t →
      ∃ m', strCatLoop d s (BitVec.ofNat 16 L) m (BitVec.ofNat 16 (L+k)) = some m' ∧
        (∀ i (h : i < t.length), k ≤ i → m' (off d (L+i)) = t[i]) ∧
        m' (off d (L+t.length)) = 0#8 ∧
        (∀ x, (∀ i, k ≤ i → i ≤ t.length → x ≠ off d (L+i)) → m' x = m x) := by
  have hsub (k : Nat) : BitVec.ofNat 16 (L+k) - BitVec.ofNat 16 L = BitVec.ofNat 16 k := by
    apply BitVec.eq_of_toNat_eq; simp [BitVec.toNat_sub]; omega
  intro r
  induction r with
  | zero =>
    intro k m hk h
    have : k = t.length := by omega
    subst this
    rw [strCatLoop, hsub, add_ofNat, add_ofNat]
    refine ⟨m.set (off d (L+t.length)) 0#8, by simp [h.nul], fun i h1 h2 => by omega, by simp, ?_⟩
    intro x hx
    exact Mem.set_ne _ _ (hx _ (Nat.le_refl _) (Nat.le_refl _))
  | succ r ih =>
    intro k m hk h
    have hkl : k < t.length := by omega
    have h' : IsStr (m.set (off d (L+k)) (m (off s k))) s t := by
      apply h.congr
      intro i hi
      exact Mem.set_ne _ _ (fun e => hap k i (by omega) (by omega) e.symm)
    obtain ⟨m', e, h1, h2, h3⟩ := ih (k+1) _ (by omega) h'
    refine ⟨m', ?_, ?_, h2, ?_⟩
    · rw [strCatLoop, hsub, add_ofNat, add_ofNat]
      simp only [if_pos (h.get_ne hkl), add_ofNat_succ]
      exact e
    · intro i hi hki
      rcases Nat.lt_or_ge k i with hlt | hge
      · exact h1 i hi (by omega)
      · have : i = k := by omega
        subst this
        rw [h3 _ (fun j hj hj' e => by
          have := off_inj (by omega) (by omega) e; omega)]
        simp [h.get hkl]
    · intro x hx
      rw [h3 x (fun i hi hi' => hx i (by omega) hi')]
      exact Mem.set_ne _ _ (hx k (by omega) (by omega))

/-- Number of bytes strNcpy and strNcat copy: the string cut at `n-1` bytes. -/
def cut (n len : Nat) : Nat := min (n-1) len

theorem strNcatLoop_spec {d s : Word} {t : List Byte} {L n : Nat} (hn : 1 ≤ n) (hn' : n < 32768)
    (hL : L + cut n t.length < 65536)
    (hap : ∀ i j, i < cut n t.length → j ≤ t.length → off d (L+i) ≠ off s j) :
    ∀ r k m, k + r = cut n t.length → IsStr m s t →
      ∃ m', strNcatLoop d s (BitVec.ofNat 16 n) m (BitVec.ofNat 16 (L+k)) (BitVec.ofNat 16 k)
          = some (m', BitVec.ofNat 16 (L + cut n t.length)) ∧
        (∀ i (h : i < t.length), k ≤ i → i < cut n t.length → m' (off d (L+i)) = t[i]) ∧
        (∀ x, (∀ i, k ≤ i → i < cut n t.length → x ≠ off d (L+i)) → m' x = m x) := by
  have hn1 : BitVec.ofNat 16 n - 1 = BitVec.ofNat 16 (n-1) := by
    apply BitVec.eq_of_toNat_eq
    simp [BitVec.toNat_sub]
    omega
  intro r
  induction r with
  | zero =>
    intro k m hk h
    have hk : k = cut n t.length := by omega
    refine ⟨m, ?_, fun i h1 h2 => by omega, fun _ _ => rfl⟩
    rw [strNcatLoop, hn1, add_ofNat, ilt_ofNat (by unfold cut at hk; omega) (by omega)]
    rcases Nat.lt_or_ge k (n-1) with hlt | hge
    · have : k = t.length := by unfold cut at hk; omega
      simp [this, h.nul, cut] at hk ⊢
      rw [← hk]
    · have : ¬ (k < n-1) := by omega
      rw [if_neg (by simp [this]), hk]
  | succ r ih =>
    intro k m hk h
    have hkl : k < t.length := by unfold cut at hk; omega
    have h' : IsStr (m.set (off d (L+k)) (m (off s k))) s t := by
      apply h.congr
      intro i hi
      exact Mem.set_ne _ _ (fun e => hap k i (by omega) (by omega) e.symm)
    obtain ⟨m', e, h1, h3⟩ := ih (k+1) _ (by omega) h'
    refine ⟨m', ?_, ?_, ?_⟩
    · rw [strNcatLoop, hn1, add_ofNat, add_ofNat,
        ilt_ofNat (by unfold cut at hk; omega) (by omega)]
      have : k < n-1 := by unfold cut at hk; omega
      simp only [this, decide_true, Bool.true_and, bne_iff_ne, ne_eq]
      rw [if_pos (h.get_ne hkl), add_ofNat_succ, add_ofNat_succ]
      exact e
    · intro i hi hki hc
      rcases Nat.lt_or_ge k i with hlt | hge
      · exact h1 i hi (by omega) hc
      · have : i = k := by omega
        subst this
        rw [h3 _ (fun j hj hj' e => by
          have := off_inj (by omega) (by omega) e; omega)]
        simp [h.get hkl]
    · intro x hx
      rw [h3 x (fun i hi hi' => hx i (by omega) hi')]
      exact Mem.set_ne _ _ (hx k (by omega) (by omega))

theorem strNcpyLoop1_spec {d s : Word} {t : List Byte} {n : Nat} (hn : 1 ≤ n) (hn' : n < 32768)
    (hap : ∀ i j, i < cut n t.length → j ≤ t.length → off d i ≠ off s j) :
    ∀ r k m, k + r = cut n t.length → IsStr m s t →
      ∃ m', strNcpyLoop1 d s (BitVec.ofNat 16 n) m (BitVec.ofNat 16 k)
          = some (m', BitVec.ofNat 16 (cut n t.length)) ∧
        (∀ i (h : i < t.length), k ≤ i → i < cut n t.length → m' (off d i) = t[i]) ∧
        (∀ x, (∀ i, k ≤ i → i < cut n t.length → x ≠ off d i) → m' x = m x) := by
  have hn1 : BitVec.ofNat 16 n - 1 = BitVec.ofNat 16 (n-1) := by
    apply BitVec.eq_of_toNat_eq
    simp [BitVec.toNat_sub]
    omega
  intro r
  induction r with
  | zero =>
    intro k m hk h
    have hk : k = cut n t.length := by omega
    refine ⟨m, ?_, fun i h1 h2 => by omega, fun _ _ => rfl⟩
    rw [strNcpyLoop1, hn1, add_ofNat, ilt_ofNat (by unfold cut at hk; omega) (by omega)]
    rcases Nat.lt_or_ge k (n-1) with hlt | hge
    · have : k = t.length := by unfold cut at hk; omega
      simp [this, h.nul, cut] at hk ⊢
      rw [← hk]
    · have : ¬ (k < n-1) := by omega
      rw [if_neg (by simp [this]), hk]
  | succ r ih =>
    intro k m hk h
    have hkl : k < t.length := by unfold cut at hk; omega
    have h' : IsStr (m.set (off d k) (m (off s k))) s t := by
      apply h.congr
      intro i hi
      exact Mem.set_ne _ _ (fun e => hap k i (by omega) (by omega) e.symm)
    obtain ⟨m', e, h1, h3⟩ := ih (k+1) _ (by omega) h'
    refine ⟨m', ?_, ?_, ?_⟩
    · rw [strNcpyLoop1, hn1, add_ofNat, add_ofNat,
        ilt_ofNat (by unfold cut at hk; omega) (by omega)]
      have : k < n-1 := by unfold cut at hk; omega
      simp only [this, decide_true, Bool.true_and, bne_iff_ne, ne_eq]
      rw [if_pos (h.get_ne hkl), add_ofNat_succ]
      exact e
    · intro i hi hki hc
      rcases Nat.lt_or_ge k i with hlt | hge
      · exact h1 i hi (by omega) hc
      · have : i = k := by omega
        subst this
        rw [h3 _ (fun j hj hj' e => by
          have := off_inj (by unfold cut at hc; omega) (by unfold cut at hj'; omega) e; omega)]
        simp [h.get hkl]
    · intro x hx
      rw [h3 x (fun i hi hi' => hx i (by omega) hi')]
      exact Mem.set_ne _ _ (hx k (by omega) (by omega))

theorem strNcpyLoop2_spec {d : Word} {n : Nat} (hn' : n < 32768) :
    ∀ r k m, k + r = n →
      ∃ m', strNcpyLoop2 d (BitVec.ofNat 16 n) m (BitVec.ofNat 16 k) = some m' ∧
        (∀ i, k ≤ i → i < n → m' (off d i) = 0#8) ∧
        (∀ x, (∀ i, k ≤ i → i < n → x ≠ off d i) → m' x = m x) := by
  intro r
  induction r with
  | zero =>
    intro k m hk
    refine ⟨m, ?_, fun i h1 h2 => by omega, fun _ _ => rfl⟩
    rw [strNcpyLoop2, ilt_ofNat (by omega) (by omega)]
    simp; omega
  | succ r ih =>
    intro k m hk
    obtain ⟨m', e, h1, h3⟩ := ih (k+1) (m.set (off d k) 0#8) (by omega)
    refine ⟨m', ?_, ?_, ?_⟩
    · rw [strNcpyLoop2, add_ofNat, ilt_ofNat (by omega) (by omega)]
      have : k < n := by omega
      simp only [this, decide_true, if_true]
      rw [add_ofNat_succ]
      exact e
    · intro i hki hc
      rcases Nat.lt_or_ge k i with hlt | hge
      · exact h1 i (by omega) hc
      · have : i = k := by omega
        subst this
        rw [h3 _ (fun j hj hj' e => by
          have := off_inj (by omega) (by omega) e; omega)]
        simp
    · intro x hx
      rw [h3 x (fun i hi hi' => hx i (by omega) hi')]
      exact Mem.set_ne _ _ (hx k (by omega) (by omega))

/-! ### Comparison -/

theorem strCmpLoop_run {m : Mem} {s1 s2 : Word} :
    ∀ r k, (∀ i, k ≤ i → i < k + r → m (off s1 i) = m (off s2 i) ∧ m (off s1 i) ≠ 0#8) →
      strCmpLoop m s1 s2 (BitVec.ofNat 16 k) = strCmpLoop m s1 s2 (BitVec.ofNat 16 (k+r)) := by
  intro r
  induction r with
  | zero => intro k _; rfl
  | succ r ih =>
    intro k h
    have hk := h k (Nat.le_refl _) (by omega)
    rw [strCmpLoop, add_ofNat, add_ofNat, if_pos hk.1, if_neg hk.2, add_ofNat_succ,
      ih (k+1) (fun i h1 h2 => h i (by omega) (by omega))]
    congr 2; omega

theorem strNcmpLoop_run {m : Mem} {s1 s2 : Word} {n : Nat} (hn : n < 32768) :
    ∀ r k, k + r ≤ n →
      (∀ i, k ≤ i → i < k + r → m (off s1 i) = m (off s2 i) ∧ m (off s1 i) ≠ 0#8) →
      strNcmpLoop m s1 s2 (BitVec.ofNat 16 n) (BitVec.ofNat 16 k)
        = strNcmpLoop m s1 s2 (BitVec.ofNat 16 n) (BitVec.ofNat 16 (k+r)) := by
  intro r
  induction r with
  | zero => intro k _ _; rfl
  | succ r ih =>
    intro k hkr h
    have hk := h k (Nat.le_refl _) (by omega)
    rw [strNcmpLoop, add_ofNat, add_ofNat, ilt_ofNat (by omega) hn]
    have : k < n := by omega
    simp only [this, decide_true, Bool.true_and, hk.1, beq_self_eq_true, if_true]
    rw [if_neg (by rw [← hk.1]; exact hk.2), add_ofNat_succ,
      ih (k+1) (by omega) (fun i h1 h2 => h i (by omega) (by omega))]
    congr 2; omega

/-- Two different strings first differ at some position, counting the final NUL. -/
theorem first_diff : ∀ (s t : List Byte), (∀ c ∈ s, c ≠ 0#8) → (∀ c ∈ t, c ≠ 0#8) → s ≠ t →
    ∃ k, k ≤ s.length ∧ k ≤ t.length ∧ (∀ i, i < k → (s ++ [0#8])[i]? = (t ++ [0#8])[i]?) ∧
      ∃ a b, (s ++ [0#8])[k]? = some a ∧ (t ++ [0#8])[k]? = some b ∧ a ≠ b := by
  intro s
  induction s with
  | nil =>
    intro t _ ht hne
    cases t with
    | nil => exact absurd rfl hne
    | cons b t =>
      refine ⟨0, by simp, by simp, by simp, 0#8, b, by simp, by simp, ?_⟩
      exact fun e => ht b (by simp) e.symm
  | cons a s ih =>
    intro t hs ht hne
    cases t with
    | nil =>
      exact ⟨0, by simp, by simp, by simp, a, 0#8, by simp, by simp, hs a (by simp)⟩
    | cons b t =>
      by_cases hab : a = b
      · subst hab
        have hne' : s ≠ t := fun e => hne (by rw [e])
        obtain ⟨k, h1, h2, h3, x, y, hx, hy, hxy⟩ := ih t (fun c hc => hs c (by simp [hc]))
          (fun c hc => ht c (by simp [hc])) hne'
        refine ⟨k+1, by simpa using h1, by simpa using h2, ?_, x, y, by simpa using hx,
          by simpa using hy, hxy⟩
        intro i hi
        cases i with
        | zero => simp
        | succ i => simpa using h3 i (by omega)
      · exact ⟨0, by simp, by simp, by simp, a, b, by simp, by simp, hab⟩

/-- Reading the string area: byte `k ≤ length` is element `k` of the string with its NUL. -/
theorem IsStr_getElem? {m a s} (h : IsStr m a s) {k : Nat} (hk : k ≤ s.length) :
    (s ++ [0#8])[k]? = some (m (off a k)) := by
  rcases Nat.lt_or_eq_of_le hk with h1 | h1
  · rw [List.getElem?_append_left h1, List.getElem?_eq_getElem h1, h.get h1]
  · subst h1; simp [h.nul]

/-! ### Searching -/

theorem strChrLoop_run {m : Mem} {s : Word} {c : Byte} :
    ∀ r k, (∀ i, k ≤ i → i < k + r → m (off s i) ≠ 0#8 ∧ m (off s i) ≠ c) →
      strChrLoop m s c (BitVec.ofNat 16 k) = strChrLoop m s c (BitVec.ofNat 16 (k+r)) := by
  intro r
  induction r with
  | zero => intro k _; rfl
  | succ r ih =>
    intro k h
    have hk := h k (Nat.le_refl _) (by omega)
    rw [strChrLoop, add_ofNat, if_pos hk.1, if_neg hk.2, add_ofNat_succ,
      ih (k+1) (fun i h1 h2 => h i (by omega) (by omega))]
    congr 2; omega

theorem strRchrLoop_run {m : Mem} {s : Word} {c : Byte} {j : Word} :
    ∀ r k, (∀ i, k ≤ i → i < k + r → m (off s i) ≠ 0#8 ∧ m (off s i) ≠ c) →
      strRchrLoop m s c (BitVec.ofNat 16 k) j = strRchrLoop m s c (BitVec.ofNat 16 (k+r)) j := by
  intro r
  induction r with
  | zero => intro k _; rfl
  | succ r ih =>
    intro k h
    have hk := h k (Nat.le_refl _) (by omega)
    rw [strRchrLoop, add_ofNat, if_pos hk.1, if_neg hk.2, add_ofNat_succ,
      ih (k+1) (fun i h1 h2 => h i (by omega) (by omega))]
    congr 2; omega

/-- Whatever happened before position `k`, if `c` is at `k` then `strRchr` continues after
`k` with candidate `k`. -/
theorem strRchrLoop_reach {m : Mem} {s : Word} {c : Byte} (hc : c ≠ 0#8) {p : Nat}
    (hp : m (off s p) = c) :
    ∀ r k j, k + r = p → (∀ i, k ≤ i → i < p → m (off s i) ≠ 0#8) →
      strRchrLoop m s c (BitVec.ofNat 16 k) j =
        strRchrLoop m s c (BitVec.ofNat 16 (p+1)) (BitVec.ofNat 16 p) := by
  intro r
  induction r with
  | zero =>
    intro k j hk h
    have : k = p := by omega
    subst this
    rw [strRchrLoop, add_ofNat, hp, if_pos hc, if_pos rfl, add_ofNat_succ]
  | succ r ih =>
    intro k j hk h
    rw [strRchrLoop, add_ofNat, if_pos (h k (Nat.le_refl _) (by omega)), add_ofNat_succ]
    exact ih (k+1) _ (by omega) (fun i h1 h2 => h i (by omega) h2)

theorem strStrInner_spec {m : Mem} {s1 s2 : Word} {l i : Nat} (hl : l < 32768) :
    ∀ r k, k + r = l →
      ∃ j, k ≤ j ∧ j ≤ l ∧
        strStrInner m s1 s2 (BitVec.ofNat 16 l) (BitVec.ofNat 16 i) (BitVec.ofNat 16 k)
          = some (BitVec.ofNat 16 j) ∧
        (∀ x, k ≤ x → x < j → m (off s1 (i+x)) = m (off s2 x)) ∧
        (j < l → m (off s1 (i+j)) ≠ m (off s2 j)) := by
  have hadd (k : Nat) : s1 + (BitVec.ofNat 16 i + BitVec.ofNat 16 k) = off s1 (i+k) := by
    rw [off]; congr 1
    apply BitVec.eq_of_toNat_eq; simp
  intro r
  induction r with
  | zero =>
    intro k hk
    have : k = l := by omega
    subst this
    refine ⟨k, Nat.le_refl _, Nat.le_refl _, ?_, fun x h1 h2 => by omega, fun h => by omega⟩
    rw [strStrInner, ilt_ofNat hl hl]; simp
  | succ r ih =>
    intro k hk
    have hkl : k < l := by omega
    by_cases he : m (off s1 (i+k)) = m (off s2 k)
    · obtain ⟨j, h1, h2, h3, h4, h5⟩ := ih (k+1) (by omega)
      refine ⟨j, by omega, h2, ?_, ?_, h5⟩
      · rw [strStrInner, ilt_ofNat (by omega) hl, hadd, add_ofNat]
        simp only [hkl, decide_true, if_true, he, ne_eq, not_true_eq_false, if_false]
        rw [add_ofNat_succ]; exact h3
      · intro x hx1 hx2
        rcases Nat.lt_or_ge k x with hlt | hge
        · exact h4 x (by omega) hx2
        · have : x = k := by omega
          subst this; exact he
    · refine ⟨k, Nat.le_refl _, by omega, ?_, fun x h1 h2 => by omega, fun _ => he⟩
      rw [strStrInner, ilt_ofNat (by omega) hl, hadd, add_ofNat]
      simp [hkl, he]

end Cmm.Str
