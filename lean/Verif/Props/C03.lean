import Verif.Props.C02

/-! C03: strNcpy fills exactly `n` bytes and always terminates the string.
(doc/chap4.tex says the result is not terminated when the source has `n` or more bytes; the
code terminates it always, which is what is proved.) -/
namespace Cmm.Str

/-- For `1 ≤ n`: the destination holds the first `n-1` bytes of the source as a string, the
rest of its `n` bytes is NUL, and nothing outside these `n` bytes changes. -/
theorem C03_strNcpy (m : Mem) (d s : Word) (t : List Byte) (n : Nat) (hn : 1 ≤ n)
    (hn' : n < 32768) (hs : IsStr m s t) (hap : Apart d n s (t.length+1)) :
    ∃ m', strNcpy m d s (BitVec.ofNat 16 n) = some (d, m') ∧
      IsStr m' d (t.take (n-1)) ∧
      (∀ i, (t.take (n-1)).length ≤ i → i < n → m' (off d i) = 0#8) ∧
      SameExcept m m' d n := by
  have hcl : (t.take (n-1)).length = cut n t.length := by simp [cut]
  have hcn : cut n t.length < n := by unfold cut; omega
  have hct : cut n t.length ≤ t.length := by unfold cut; omega
  obtain ⟨m1, e1, h1, h3⟩ := strNcpyLoop1_spec (d := d) (s := s) hn hn'
    (fun i j hi hj => hap i j (by omega) (by omega)) (cut n t.length) 0 m (by omega) hs
  obtain ⟨m2, e2, h4, h5⟩ := strNcpyLoop2_spec (d := d) hn' (n - cut n t.length)
    (cut n t.length) m1 (by omega)
  refine ⟨m2, ?_, ⟨?_, ?_, ?_, ?_⟩, ?_, ?_⟩
  · show (strNcpyLoop1 d s (BitVec.ofNat 16 n) m (BitVec.ofNat 16 0) >>= fun p =>
      strNcpyLoop2 d (BitVec.ofNat 16 n) p.1 p.2 >>= fun m => some (d, m)) = _
    rw [e1]
    show (strNcpyLoop2 d (BitVec.ofNat 16 n) m1 _ >>= fun m => some (d, m)) = _
    rw [e2]; rfl
  · intro k hk
    rw [hcl] at hk
    rw [h5 _ (fun i hi hi' e => by have := off_inj (by omega) (by omega) e; omega),
      List.getElem_take]
    exact h1 k (by omega) (by omega) hk
  · intro c hc; exact hs.nz c (List.mem_of_mem_take hc)
  · rw [hcl]; exact h4 _ (Nat.le_refl _) hcn
  · rw [hcl]; omega
  · intro i hi hin; rw [hcl] at hi; exact h4 i hi hin
  · intro x hx
    rw [h5 x (fun i _ hi => hx i hi), h3 x (fun i _ hi => hx i (by omega))]

-- "xyz" copied into a 3-byte buffer
example : ∃ m', strNcpy demoMem 300#16 200#16 3#16 = some (300#16, m') ∧
    IsStr m' 300#16 [120#8, 121#8] := by
  obtain ⟨m', e, h, _⟩ := C03_strNcpy demoMem 300#16 200#16 _ 3 (by decide) (by decide) demo_xyz
    (fun i j hi hj e => apart_of_nat 200 4 300 3 (by decide) (by decide) j i hj hi e.symm)
  exact ⟨m', e, h⟩

end Cmm.Str
