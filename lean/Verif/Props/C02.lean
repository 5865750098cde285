import Verif.Lib.StringLemmas

/-! C02: strLen, strCpy, strCat, strNcat. The statements speak of NUL-terminated strings in
memory (`IsStr`), of disjoint areas (`Apart`) and of unchanged memory (`SameExcept`). -/
namespace Cmm.Str

/-- strLen returns the number of bytes before the NUL. -/
theorem C02_strLen (m : Mem) (s : Word) (t : List Byte) (h : IsStr m s t) :
    ∃ n, strLen m s = some n ∧ n.toNat = t.length :=
  ⟨_, strLen_eq h, by have := h.fits; simp; omega⟩

/-- strCpy copies the string and its NUL, returns the destination and changes nothing else. -/
theorem C02_strCpy (m : Mem) (d s : Word) (t : List Byte) (h : IsStr m s t)
    (hap : Apart d (t.length+1) s (t.length+1)) :
    ∃ m', strCpy m d s = some (d, m') ∧ IsStr m' d t ∧ IsStr m' s t ∧
      SameExcept m m' d (t.length+1) := by
  obtain ⟨m', e, h1, h2, h3⟩ := strCpyLoop_spec hap t.length 0 m (by omega) h
  refine ⟨m', ?_, ⟨?_, h.nz, h2, h.fits⟩, ?_, ?_⟩
  · show (strCpyLoop d s m (BitVec.ofNat 16 0) >>= fun m => some (d, m)) = _
    rw [e]; rfl
  · intro k hk; exact h1 k hk (by omega)
  · apply h.congr
    intro i hi
    apply h3
    intro j _ hj e
    exact hap j i (by omega) (by omega) e.symm
  · intro x hx
    exact h3 x (fun i _ hi => hx i (by omega))

/-- strCat appends the second string to the first and changes nothing outside the appended
part. -/
theorem C02_strCat (m : Mem) (d s : Word) (u t : List Byte) (hd : IsStr m d u)
    (hs : IsStr m s t) (hfit : u.length + t.length < 65536)
    (hap : Apart (off d u.length) (t.length+1) s (t.length+1)) :
    ∃ m', strCat m d s = some (d, m') ∧ IsStr m' d (u ++ t) ∧
      SameExcept m m' (off d u.length) (t.length+1) := by
  have hap' : ∀ i j, i ≤ t.length → j ≤ t.length → off d (u.length+i) ≠ off s j := by
    intro i j hi hj
    rw [← off_off]; exact hap i j (by omega) (by omega)
  obtain ⟨m', e, h1, h2, h3⟩ := strCatLoop_spec hfit hap' t.length 0 m (by omega) hs
  refine ⟨m', ?_, ⟨?_, ?_, ?_, by simpa using hfit⟩, ?_⟩
  · show (scanLoop m d (BitVec.ofNat 16 0) >>= fun i =>
      strCatLoop d s i m i >>= fun m => some (d, m)) = _
    rw [scanLoop_spec hd u.length 0 (by omega)]
    show (strCatLoop d s _ m _ >>= fun m => some (d, m)) = _
    rw [Nat.add_zero] at e
    rw [e]; rfl
  · intro k hk
    rcases Nat.lt_or_ge k u.length with hlt | hge
    · rw [List.getElem_append_left hlt, h3, hd.get hlt]
      intro i _ hi e
      have := off_inj (by omega) (by omega) e
      omega
    · rw [List.length_append] at hk
      rw [List.getElem_append_right hge]
      have := h1 (k - u.length) (by omega) (by omega)
      rwa [show u.length + (k - u.length) = k by omega] at this
  · intro c hc
    rcases List.mem_append.1 hc with hc | hc
    · exact hd.nz c hc
    · exact hs.nz c hc
  · rw [List.length_append]; exact h2
  · intro x hx
    apply h3
    intro i _ hi
    rw [← off_off]; exact hx i (by omega)

/-- strNcat appends at most `n-1` bytes. -/
theorem C02_strNcat (m : Mem) (d s : Word) (u t : List Byte) (n : Nat) (hn : 1 ≤ n)
    (hn' : n < 32768) (hd : IsStr m d u) (hs : IsStr m s t)
    (hfit : u.length + (t.take (n-1)).length < 65536)
    (hap : Apart (off d u.length) (t.take (n-1)).length s (t.length+1)) :
    ∃ m', strNcat m d s (BitVec.ofNat 16 n) = some (d, m') ∧ IsStr m' d (u ++ t.take (n-1)) ∧
      SameExcept m m' (off d u.length) ((t.take (n-1)).length+1) := by
  have hcl : (t.take (n-1)).length = cut n t.length := by simp [cut]
  rw [hcl] at hfit hap ⊢
  have hct : cut n t.length ≤ t.length := by unfold cut; omega
  have hap' : ∀ i j, i < cut n t.length → j ≤ t.length → off d (u.length+i) ≠ off s j := by
    intro i j hi hj
    rw [← off_off]; exact hap i j (by omega) (by omega)
  obtain ⟨m', e, h1, h3⟩ := strNcatLoop_spec hn hn' hfit hap' (cut n t.length) 0 m (by omega) hs
  refine ⟨m'.set (off d (u.length + cut n t.length)) 0#8, ?_, ⟨?_, ?_, ?_, ?_⟩, ?_⟩
  · show (scanLoop m d (BitVec.ofNat 16 0) >>= fun i =>
      strNcatLoop d s (BitVec.ofNat 16 n) m i (BitVec.ofNat 16 0) >>= fun p =>
        some (d, p.1.set (d + p.2) 0#8)) = _
    rw [scanLoop_spec hd u.length 0 (by omega)]
    show (strNcatLoop d s _ m _ _ >>= fun p => some (d, p.1.set (d + p.2) 0#8)) = _
    rw [Nat.add_zero] at e
    rw [e]; rfl
  · intro k hk
    rw [List.length_append, hcl] at hk
    rw [Mem.set_ne]
    · rcases Nat.lt_or_ge k u.length with hlt | hge
      · rw [List.getElem_append_left hlt, h3, hd.get hlt]
        intro i _ hi e
        have := off_inj (by omega) (by omega) e
        omega
      · rw [List.getElem_append_right hge, List.getElem_take]
        have := h1 (k - u.length) (by omega) (by omega) (by omega)
        rwa [show u.length + (k - u.length) = k by omega] at this
    · intro e
      have := off_inj (by omega) (by omega) e
      omega
  · intro c hc
    rcases List.mem_append.1 hc with hc | hc
    · exact hd.nz c hc
    · exact hs.nz c (List.mem_of_mem_take hc)
  · rw [List.length_append, hcl]; simp
  · rw [List.length_append, hcl]; exact hfit
  · intro x hx
    rw [Mem.set_ne]
    · apply h3
      intro i _ hi
      rw [← off_off]; exact hx i (by omega)
    · rw [← off_off]; exact hx _ (by omega)

/-- A concrete memory: "ab" at 100, "xyz" at 200. -/
def demoMem : Mem := fun a =>
  if a = 100#16 then 97#8 else if a = 101#16 then 98#8 else
  if a = 200#16 then 120#8 else if a = 201#16 then 121#8 else if a = 202#16 then 122#8 else 0#8

theorem demo_ab : IsStr demoMem 100#16 [97#8, 98#8] :=
  ⟨by intro k hk; match k, hk with | 0, _ => rfl | 1, _ => rfl, by decide, by decide,
   by decide⟩
theorem demo_xyz : IsStr demoMem 200#16 [120#8, 121#8, 122#8] :=
  ⟨by intro k hk; match k, hk with | 0, _ => rfl | 1, _ => rfl | 2, _ => rfl,
   by decide, by decide, by decide⟩

theorem apart_of_nat (a n b k : Nat) (hb : b + k ≤ 65536) (h : a + n ≤ b) :
    Apart (BitVec.ofNat 16 a) n (BitVec.ofNat 16 b) k := by
  intro i j hi hj e
  have := congrArg BitVec.toNat e
  simp only [off, BitVec.toNat_add, BitVec.toNat_ofNat] at this
  omega

-- the hypotheses of the theorems above are met by "ab" ++ "xyz"
example : ∃ m', strCat demoMem 100#16 200#16 = some (100#16, m') ∧
    IsStr m' 100#16 [97#8, 98#8, 120#8, 121#8, 122#8] := by
  obtain ⟨m', e, h, _⟩ := C02_strCat demoMem 100#16 200#16 _ _ demo_ab demo_xyz (by decide)
    (apart_of_nat 102 4 200 4 (by decide) (by decide))
  exact ⟨m', e, h⟩
example : ∃ m', strNcat demoMem 100#16 200#16 3#16 = some (100#16, m') ∧
    IsStr m' 100#16 [97#8, 98#8, 120#8, 121#8] := by
  obtain ⟨m', e, h, _⟩ := C02_strNcat demoMem 100#16 200#16 _ _ 3 (by decide) (by decide)
    demo_ab demo_xyz (by decide) (apart_of_nat 102 2 200 4 (by decide) (by decide))
  exact ⟨m', e, h⟩
example : ∃ m', strCpy demoMem 300#16 200#16 = some (300#16, m') ∧
    IsStr m' 300#16 [120#8, 121#8, 122#8] := by
  obtain ⟨m', e, h, _⟩ := C02_strCpy demoMem 300#16 200#16 _ demo_xyz
    (fun i j hi hj e => apart_of_nat 200 4 300 4 (by decide) (by decide) j i hj hi e.symm)
  exact ⟨m', e, h⟩

end Cmm.Str
