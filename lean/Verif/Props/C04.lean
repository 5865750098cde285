import Verif.Props.C02

/-! C04: strCmp and strNcmp decide the lexicographic order of unsigned byte strings. -/
namespace Cmm.Str

/-- Specification: lexicographic comparison of byte strings, bytes as numbers 0..255. -/
def lexCmp : List Byte → List Byte → Ordering
  | [], [] => .eq
  | [], _ :: _ => .lt
  | _ :: _, [] => .gt
  | a :: s, b :: t =>
    if a.toNat < b.toNat then .lt else if b.toNat < a.toNat then .gt else lexCmp s t

/-- Specification: what the sign of an int says. -/
def signOf (r : Word) : Ordering :=
  if r.toInt < 0 then .lt else if r.toInt = 0 then .eq else .gt

theorem lexCmp_refl (s : List Byte) : lexCmp s s = .eq := by
  induction s with
  | nil => rfl
  | cons a s ih => simp [lexCmp, ih]

theorem lexCmp_swap : ∀ s t : List Byte, lexCmp t s = (lexCmp s t).swap
  | [], [] => rfl
  | [], _ :: _ => rfl
  | _ :: _, [] => rfl
  | a :: s, b :: t => by
    unfold lexCmp
    rcases Nat.lt_trichotomy a.toNat b.toNat with h | h | h
    · simp [h, Nat.not_lt.2 (Nat.le_of_lt h)]
    · simp [h, lexCmp_swap s t]
    · simp [h, Nat.not_lt.2 (Nat.le_of_lt h)]

theorem lexCmp_eq : ∀ s t : List Byte, lexCmp s t = .eq → s = t
  | [], [], _ => rfl
  | [], _ :: _, h => by simp [lexCmp] at h
  | _ :: _, [], h => by simp [lexCmp] at h
  | a :: s, b :: t, h => by
    unfold lexCmp at h
    split at h
    · cases h
    · split at h
      · cases h
      · rw [lexCmp_eq s t h, BitVec.eq_of_toNat_eq (x := a) (y := b) (by omega)]

theorem lexCmp_trans : ∀ s t u : List Byte, lexCmp s t = .lt → lexCmp t u = .lt →
    lexCmp s u = .lt
  | [], [], _, h, _ => by simp [lexCmp] at h
  | [], _ :: _, [], _, h => by simp [lexCmp] at h
  | [], _ :: _, _ :: _, _, _ => by simp [lexCmp]
  | _ :: _, [], _, h, _ => by simp [lexCmp] at h
  | _ :: _, _ :: _, [], _, h => by simp [lexCmp] at h
  | a :: s, b :: t, c :: u, h1, h2 => by
    unfold lexCmp at *
    have := lexCmp_trans s t u
    grind

theorem signOf_sub_ord (a b : Byte) : signOf (ord a - ord b) =
    if a.toNat < b.toNat then .lt else if b.toNat < a.toNat then .gt else .eq := by
  have ha := a.isLt
  have hb := b.isLt
  have : (ord a - ord b).toInt = (a.toNat : Int) - b.toNat := by
    rw [BitVec.toInt_sub]
    have e (c : Byte) : (ord c).toInt = c.toNat := by
      have hc := c.isLt
      rw [BitVec.toInt_eq_toNat_of_lt] <;> simp [ord] <;> omega
    rw [e, e, Int.bmod_eq_of_le] <;> omega
  unfold signOf
  rw [this]
  grind

theorem _root_.Cmm.IsStr.cons {m a c s} (h : IsStr m a (c :: s)) :
    m a = c ∧ c ≠ 0#8 ∧ IsStr m (off a 1) s := by
  have hb := h.bytes
  refine ⟨by have := hb 0 (by simp); rwa [off_zero] at this, h.nz c (by simp), ⟨?_, fun x hx => h.nz x (by simp [hx]), ?_, ?_⟩⟩
  · intro k hk
    rw [off_off]
    have := hb (k+1) (by simpa using hk)
    simpa [Nat.add_comm] using this
  · have := h.nul
    simp only [List.length_cons] at this
    rw [off_off, Nat.add_comm]; exact this
  · have := h.fits; simp only [List.length_cons] at this; omega

theorem strCmpLoop_spec {m : Mem} {s1 s2 : Word} : ∀ (s t : List Byte) (k : Nat),
    IsStr m (off s1 k) s → IsStr m (off s2 k) t →
    ∃ r, strCmpLoop m s1 s2 (BitVec.ofNat 16 k) = some r ∧ signOf r = lexCmp s t := by
  intro s
  induction s with
  | nil =>
    intro t k hs ht
    have h0 : m (off s1 k) = 0#8 := by simpa using hs.nul
    cases t with
    | nil =>
      have h1 : m (off s2 k) = 0#8 := by simpa using ht.nul
      refine ⟨0, ?_, by decide⟩
      rw [strCmpLoop, add_ofNat, add_ofNat]; simp [h0, h1]
    | cons b t =>
      have hb := ht.cons
      refine ⟨ord (m (off s1 k)) - ord (m (off s2 k)), ?_, ?_⟩
      · rw [strCmpLoop, add_ofNat, add_ofNat, if_neg]
        rw [h0, hb.1]; exact fun e => hb.2.1 e.symm
      · rw [signOf_sub_ord, h0, hb.1]
        have : 0 < b.toNat := by
          rcases Nat.eq_zero_or_pos b.toNat with h | h
          · exact absurd (BitVec.eq_of_toNat_eq (by simpa using h)) hb.2.1
          · exact h
        simp [this, lexCmp]
  | cons a s ih =>
    intro t k hs ht
    have ha := hs.cons
    have hapos : 0 < a.toNat := by
      rcases Nat.eq_zero_or_pos a.toNat with h | h
      · exact absurd (BitVec.eq_of_toNat_eq (by simpa using h)) ha.2.1
      · exact h
    cases t with
    | nil =>
      have h1 : m (off s2 k) = 0#8 := by simpa using ht.nul
      refine ⟨ord (m (off s1 k)) - ord (m (off s2 k)), ?_, ?_⟩
      · rw [strCmpLoop, add_ofNat, add_ofNat, if_neg]
        rw [h1, ha.1]; exact ha.2.1
      · rw [signOf_sub_ord, h1, ha.1]
        simp [hapos, lexCmp]
    | cons b t =>
      have hb := ht.cons
      by_cases e : a = b
      · subst e
        rw [off_off] at ha hb
        obtain ⟨r, h1, h2⟩ := ih t (k+1) ha.2.2 hb.2.2
        refine ⟨r, ?_, by rw [h2]; simp [lexCmp]⟩
        rw [strCmpLoop, add_ofNat, add_ofNat, ha.1, hb.1, if_pos rfl, if_neg ha.2.1,
          add_ofNat_succ]
        exact h1
      · refine ⟨ord (m (off s1 k)) - ord (m (off s2 k)), ?_, ?_⟩
        · rw [strCmpLoop, add_ofNat, add_ofNat, if_neg]
          rw [ha.1, hb.1]; exact e
        · rw [signOf_sub_ord, ha.1, hb.1]
          have : a.toNat ≠ b.toNat := fun h => e (BitVec.eq_of_toNat_eq h)
          unfold lexCmp
          grind

/-- strCmp returns an int whose sign is the lexicographic comparison of the two strings. -/
theorem C04_strCmp (m : Mem) (a b : Word) (s t : List Byte) (ha : IsStr m a s)
    (hb : IsStr m b t) : ∃ r, strCmp m a b = some r ∧ signOf r = lexCmp s t := by
  simpa [strCmp] using strCmpLoop_spec s t 0 (by simpa using ha) (by simpa using hb)

/-- strCmp is 0 exactly for equal strings. -/
theorem C04_strCmp_eq (m : Mem) (a b : Word) (s t : List Byte) (ha : IsStr m a s)
    (hb : IsStr m b t) : strCmp m a b = some 0 ↔ s = t := by
  obtain ⟨r, h1, h2⟩ := C04_strCmp m a b s t ha hb
  rw [h1]
  constructor
  · intro e
    injection e with e
    subst e
    exact lexCmp_eq s t (by rw [← h2]; decide)
  · intro e
    subst e
    rw [lexCmp_refl] at h2
    unfold signOf at h2
    split at h2
    · cases h2
    · split at h2
      · rename_i h
        rw [show r = 0 from BitVec.eq_of_toInt_eq (by simpa using h)]
      · cases h2

/-- Exchanging the arguments exchanges "before" and "after". -/
theorem C04_strCmp_antisymm (m : Mem) (a b : Word) (s t : List Byte) (ha : IsStr m a s)
    (hb : IsStr m b t) : ∃ r r', strCmp m a b = some r ∧ strCmp m b a = some r' ∧
      signOf r' = (signOf r).swap := by
  obtain ⟨r, h1, h2⟩ := C04_strCmp m a b s t ha hb
  obtain ⟨r', h1', h2'⟩ := C04_strCmp m b a t s hb ha
  exact ⟨r, r', h1, h1', by rw [h2, h2', lexCmp_swap]⟩

/-- "before" is transitive. -/
theorem C04_strCmp_trans (m : Mem) (a b c : Word) (s t u : List Byte) (ha : IsStr m a s)
    (hb : IsStr m b t) (hc : IsStr m c u) (r1 r2 : Word)
    (h1 : strCmp m a b = some r1) (h2 : strCmp m b c = some r2)
    (l1 : r1.toInt < 0) (l2 : r2.toInt < 0) :
    ∃ r, strCmp m a c = some r ∧ r.toInt < 0 := by
  obtain ⟨x1, e1, f1⟩ := C04_strCmp m a b s t ha hb
  obtain ⟨x2, e2, f2⟩ := C04_strCmp m b c t u hb hc
  obtain ⟨x3, e3, f3⟩ := C04_strCmp m a c s u ha hc
  rw [h1] at e1; rw [h2] at e2
  injection e1 with e1; injection e2 with e2
  subst e1 e2
  have g1 : lexCmp s t = .lt := by rw [← f1]; simp [signOf, l1]
  have g2 : lexCmp t u = .lt := by rw [← f2]; simp [signOf, l2]
  refine ⟨x3, e3, ?_⟩
  rw [lexCmp_trans s t u g1 g2] at f3
  unfold signOf at f3
  grind

/-! strNcmp on arbitrary memory -/

/-- Specification: the bytes from `a` on up to, not including, the first NUL, at most `n`. -/
def bytesN (m : Mem) (a : Word) : Nat → List Byte
  | 0 => []
  | n+1 => if m a = 0#8 then [] else m a :: bytesN m (a+1) n

theorem strNcmpLoop_spec {m : Mem} {s1 s2 : Word} {n : Nat} (hn : n < 32768) : ∀ r k,
    k + r = n → ∃ v, strNcmpLoop m s1 s2 (BitVec.ofNat 16 n) (BitVec.ofNat 16 k) = some v ∧
      signOf v = lexCmp (bytesN m (off s1 k) r) (bytesN m (off s2 k) r) := by
  intro r
  induction r with
  | zero =>
    intro k hk
    refine ⟨0, ?_, by simp [bytesN, lexCmp, signOf]⟩
    rw [strNcmpLoop, ilt_ofNat (by omega) hn, ile_ofNat hn (by omega)]
    have h1 : ¬ (k < n) := by omega
    have h2 : n ≤ k := by omega
    simp [h1, h2]
  | succ r ih =>
    intro k hk
    have hkn : k < n := by omega
    rw [strNcmpLoop, ilt_ofNat (by omega) hn, ile_ofNat hn (by omega), add_ofNat, add_ofNat]
    simp only [hkn, decide_true, Bool.true_and, beq_iff_eq]
    have hle : ¬ (n ≤ k) := by omega
    simp only [hle, decide_false]
    have pos : ∀ c : Byte, c ≠ 0#8 → 0 < c.toNat := by
      intro c hc
      rcases Nat.eq_zero_or_pos c.toNat with h | h
      · exact absurd (BitVec.eq_of_toNat_eq (by simpa using h)) hc
      · exact h
    by_cases he : m (off s1 k) = m (off s2 k)
    · rw [if_pos he]
      by_cases hz : m (off s1 k) = 0#8
      · rw [if_pos hz]
        refine ⟨0, rfl, ?_⟩
        simp [bytesN, hz, ← he, lexCmp, signOf]
      · rw [if_neg hz, add_ofNat_succ]
        obtain ⟨v, h1, h2⟩ := ih (k+1) (by omega)
        refine ⟨v, h1, ?_⟩
        rw [h2]
        have e1 (s : Word) : off s (k+1) = off s k + 1 := by
          rw [show off s (k+1) = off (off s k) 1 by rw [off_off]]; rfl
        simp [bytesN, hz, ← he, lexCmp, e1]
    · rw [if_neg he]
      refine ⟨ord (m (off s1 k)) - ord (m (off s2 k)), by simp, ?_⟩
      rw [signOf_sub_ord]
      have hne : (m (off s1 k)).toNat ≠ (m (off s2 k)).toNat :=
        fun h => he (BitVec.eq_of_toNat_eq h)
      by_cases z1 : m (off s1 k) = 0#8
      · have z2 : m (off s2 k) ≠ 0#8 := fun h => he (by rw [z1, h])
        have := pos _ z2
        simp [bytesN, z1, z2, lexCmp, this]
      · by_cases z2 : m (off s2 k) = 0#8
        · have := pos _ z1
          simp [bytesN, z1, z2, lexCmp, this]
        · simp only [bytesN, z1, z2, if_false]
          unfold lexCmp
          grind

/-- strNcmp terminates on every memory, and its sign is the comparison of the first `n`
bytes up to a NUL; so it depends on no other byte. -/
theorem C04_strNcmp (m : Mem) (a b : Word) (n : Nat) (hn : n < 32768) :
    ∃ r, strNcmp m a b (BitVec.ofNat 16 n) = some r ∧
      signOf r = lexCmp (bytesN m a n) (bytesN m b n) := by
  simpa [strNcmp] using strNcmpLoop_spec hn n 0 (by omega)

/-- For strings the first `n` bytes are the string cut at `n`. -/
theorem C04_bytesN_str (m : Mem) (a : Word) (s : List Byte) (h : IsStr m a s) (n : Nat) :
    bytesN m a n = s.take n := by
  induction n generalizing a s with
  | zero => simp [bytesN]
  | succ n ih =>
    cases s with
    | nil => have := h.nul; simp at this; simp [bytesN, this]
    | cons c s =>
      have hc := h.cons
      have : off a 1 = a + 1 := rfl
      rw [this] at hc
      have e := ih _ _ hc.2.2
      simp only [bytesN, hc.1, hc.2.1, if_false, e, List.take_succ_cons]

-- "ab" < "xyz", and equal in their first 0 bytes
example : ∃ r, strCmp demoMem 100#16 200#16 = some r ∧ signOf r = .lt :=
  C04_strCmp demoMem 100#16 200#16 _ _ demo_ab demo_xyz
example : ∃ r, strNcmp demoMem 100#16 200#16 2#16 = some r ∧ signOf r = .lt := by
  obtain ⟨r, h, e⟩ := C04_strNcmp demoMem 100#16 200#16 2 (by decide)
  exact ⟨r, h, by rw [e, C04_bytesN_str _ _ _ demo_ab, C04_bytesN_str _ _ _ demo_xyz]; decide⟩

end Cmm.Str
