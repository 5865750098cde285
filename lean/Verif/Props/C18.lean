import Verif.Props.C17

/-! C18: `%ld`. Right for values below 655360000 that are not left justified (or have at most four digits); wrong
above, wrong when left justified, and the argument is overwritten. -/
namespace Cmm.Printf
open Cmm.Ctype Cmm.Str Cmm.Crt0

/-- A number with more than four digits: its upper part, then four digits. -/
theorem numeral_split {q r : Nat} (hq : 0 < q) (hr : r < 10000) :
    numeral 10 (q * 10000 + r) = numeral 10 q ++ field 4 false 0x30#8 (numeral 10 r) := by
  have step : ∀ a d, 0 < a → d < 10 → numeral 10 (a * 10 + d) = numeral 10 a ++ [byte (Nat.digitChar d)] := by
    intro a d ha hd
    unfold numeral
    rw [Nat.toDigits_of_base_le (by omega) (by omega), List.map_append]
    rw [show (a * 10 + d) / 10 = a by omega, show (a * 10 + d) % 10 = d by omega]
    rfl
  have one : ∀ d, d < 10 → numeral 10 d = [byte (Nat.digitChar d)] := by
    intro d hd
    unfold numeral
    rw [Nat.toDigits_of_lt_base hd]; rfl
  obtain ⟨d3, hd3, e3⟩ : ∃ d, d < 10 ∧ r / 1000 = d := ⟨_, by omega, rfl⟩
  obtain ⟨d2, hd2, e2⟩ : ∃ d, d < 10 ∧ r / 100 % 10 = d := ⟨_, by omega, rfl⟩
  obtain ⟨d1, hd1, e1⟩ : ∃ d, d < 10 ∧ r / 10 % 10 = d := ⟨_, by omega, rfl⟩
  obtain ⟨d0, hd0, e0⟩ : ∃ d, d < 10 ∧ r % 10 = d := ⟨_, by omega, rfl⟩
  have hr' : r = ((d3 * 10 + d2) * 10 + d1) * 10 + d0 := by omega
  have lhs : numeral 10 (q * 10000 + r) =
      numeral 10 q ++ [byte (Nat.digitChar d3), byte (Nat.digitChar d2), byte (Nat.digitChar d1), byte (Nat.digitChar d0)] := by
    rw [show q * 10000 + r = (((q * 10 + d3) * 10 + d2) * 10 + d1) * 10 + d0 by omega]
    rw [step _ _ (by omega) hd0, step _ _ (by omega) hd1, step _ _ (by omega) hd2, step _ _ hq hd3]
    simp
  rw [lhs]
  congr 1
  have z : byte (Nat.digitChar 0) = 0x30#8 := by decide
  unfold field
  simp only [Bool.false_eq_true, if_false]
  by_cases h3 : d3 = 0
  · by_cases h2 : d2 = 0
    · by_cases h1 : d1 = 0
      · rw [show r = d0 by omega, one _ hd0, h3, h2, h1, z]; rfl
      · rw [show r = d1 * 10 + d0 by omega, step _ _ (by omega) hd0, one _ hd1, h3, h2, z]; rfl
    · rw [show r = (d2 * 10 + d1) * 10 + d0 by omega, step _ _ (by omega) hd0, step _ _ (by omega) hd1, one _ hd2, h3, z]; rfl
  · rw [hr', step _ _ (by omega) hd0, step _ _ (by omega) hd1, step _ _ (by omega) hd2, one _ hd3]; rfl

/-- Padding a number in two parts. -/
theorem field_split {w k : Nat} {p : Byte} {a b : List Byte} (hb : b.length = k) :
    field (w - k) false p a ++ b = field w false p (a ++ b) := by
  unfold field
  simp only [Bool.false_eq_true, if_false, List.append_assoc, List.length_append, hb]
  congr 2
  omega

theorem field4_length {r : Nat} (hr : r < 10000) : (field 4 false 0x30#8 (numeral 10 r)).length = 4 := by
  have : (numeral 10 r).length ≤ 4 := by
    unfold numeral
    rw [List.length_map, Nat.length_toDigits_le_iff (by omega) (by omega)]
    omega
  unfold field
  simp; omega

section
variable {σ : Type} {A : Arith} {S : Strm σ} {tab : Word}

/-- uPutNum with a width that was reduced by `k`. -/
theorem uPutNum_sub {x : Word} (hA : A.OkTo 32768) (hx : x.toNat < 32768) {w k : Nat} {p : Byte} {s : PS σ} (hw : w < 32768)
    (hk : k ≤ 8) (ht : Tab s.mem tab) :
    uPutNum A S tab x (BitVec.ofNat 16 w - BitVec.ofNat 16 k) false p 10 s =
      some (emit S (field (w - k) false p (numeral 10 x.toNat)) s) := by
  by_cases h : k ≤ w
  · have : BitVec.ofNat 16 w - BitVec.ofNat 16 k = BitVec.ofNat 16 (w - k) := by
      apply BitVec.eq_of_toNat_eq
      simp only [BitVec.toNat_sub, BitVec.toNat_ofNat]
      omega
    rw [this]
    exact uPutNum_spec hA (by decide) (by decide) hx (by omega) ht
  · have e : (BitVec.ofNat 16 w - BitVec.ofNat 16 k).toInt = w - k := by
      rw [BitVec.toInt_sub, ofNat_toInt hw, ofNat_toInt (by omega), Int.bmod_def]
      omega
    rw [uPutNum_neg hA (by decide) (by decide) hx (by omega) (by omega) ht]
    have : w - k = 0 := by omega
    unfold field
    simp [this]

/-- The three groups of digits conv32 computes, and the number it leaves behind. -/
theorem conv32_groups {m : Mem} {a : Word} (hv : val32 m a < 1310720000) :
    let m1 := (div32 m a 10000).2.sw a 0
    let m2 := (div32 m1 a 10000).2.sw a 0
    (mod32 m a 10000).toNat = val32 m a % 10000 ∧
    (mod32 m1 a 10000).toNat = val32 m a / 10000 % 65536 % 10000 ∧
    (mod32 m2 a 10000).toNat = val32 m a / 10000 % 65536 / 10000 ∧
    val32 m2 a = val32 m a / 10000 % 65536 / 10000 ∧ Same4 m m2 a := by
  intro m1 m2
  have h10 : (10000 : Word).toNat = 10000 := rfl
  have h0 : (0 : Word).toNat = 0 := rfl
  have hw := wordApart_self2 a
  have hi : (m.lw a).toNat < 2 * (10000 : Word).toNat := by
    unfold val32 at hv; rw [h10]; omega
  have r0 := C15_mod32_partial m a 10000 (by rw [h10]; omega) hi
  obtain ⟨-, q0, -, s0⟩ := C15_div32_partial m a 10000 (by rw [h10]; omega) hi
  have v1 : val32 m1 a = val32 m a / 10000 % 65536 := by
    have : val32 m1 a = (m1.lw a).toNat * 65536 + (m1.lw (a + 2)).toNat := rfl
    rw [this, show m1.lw a = 0 from Mem.lw_sw_same _ _ _, show m1.lw (a + 2) = (div32 m a 10000).2.lw (a + 2) from Mem.lw_sw_ne _ _ hw.symm,
      q0, h0, h10]
    omega
  have hi1 : (m1.lw a).toNat < 2 * (10000 : Word).toNat := by
    rw [show m1.lw a = 0 from Mem.lw_sw_same _ _ _, h0, h10]; omega
  have r1 := C15_mod32_partial m1 a 10000 (by rw [h10]; omega) hi1
  obtain ⟨-, q1, -, s1⟩ := C15_div32_partial m1 a 10000 (by rw [h10]; omega) hi1
  rw [v1] at q1 r1
  have v2 : val32 m2 a = val32 m a / 10000 % 65536 / 10000 := by
    have : val32 m2 a = (m2.lw a).toNat * 65536 + (m2.lw (a + 2)).toNat := rfl
    rw [this, show m2.lw a = 0 from Mem.lw_sw_same _ _ _, show m2.lw (a + 2) = (div32 m1 a 10000).2.lw (a + 2) from Mem.lw_sw_ne _ _ hw.symm,
      q1, h0, h10]
    omega
  have hi2 : (m2.lw a).toNat < 2 * (10000 : Word).toNat := by
    rw [show m2.lw a = 0 from Mem.lw_sw_same _ _ _, h0, h10]; omega
  have r2 := C15_mod32_partial m2 a 10000 (by rw [h10]; omega) hi2
  rw [v2, h10] at r2
  have hlast : val32 m a / 10000 % 65536 / 10000 % 10000 = val32 m a / 10000 % 65536 / 10000 := by omega
  rw [hlast] at r2
  rw [h10] at r0 r1
  refine ⟨r0, r1, r2, v2, ?_⟩
  intro x x0 x1 x2 x3
  show ((div32 m1 a 10000).2.sw a 0) x = _
  rw [Mem.sw_ne _ _ x0 x1, s1 x x0 x1 x2 x3]
  show ((div32 m a 10000).2.sw a 0) x = _
  rw [Mem.sw_ne _ _ x0 x1, s0 x x0 x1 x2 x3]

/-- No byte of the number at `a` belongs to the digit table. -/
def TabApart (tab a : Word) : Prop := ∀ d < 16, off tab d ≠ a ∧ off tab d ≠ a + 1 ∧ off tab d ≠ a + 2 ∧ off tab d ≠ a + 3

/-- `%ld`, not left justified, of a value below 1310720000 prints the value modulo 655360000 and leaves the argument divided
by 100000000. -/
theorem C18_exact (hA : A.OkTo 32768) {w : Nat} {zero : Bool} {s : PS σ} (hw : w < 32768) (ht : Tab s.mem tab)
    (hap : TabApart tab (nextArg s)) (hv : val32 s.mem (nextArg s) < 1310720000) :
    ∃ m', Same4 s.mem m' (nextArg s) ∧
      val32 m' (nextArg s) = val32 s.mem (nextArg s) % 655360000 / 100000000 ∧
      conv32 A S tab 0x64#8 (BitVec.ofNat 16 w) false (padOf zero) s =
        some (emit S (unsText 10 w false zero (val32 s.mem (nextArg s) % 655360000)) { tookArg s with mem := m' }) := by
  obtain ⟨rl, rm, rh, rv, rs⟩ := conv32_groups hv
  generalize hn : val32 s.mem (nextArg s) = n at *
  generalize hm1 : (div32 s.mem (nextArg s) 10000).2.sw (nextArg s) 0 = m1 at *
  generalize hm2 : (div32 m1 (nextArg s) 10000).2.sw (nextArg s) 0 = m2 at *
  refine ⟨m2, rs, by rw [rv]; omega, ?_⟩
  have ht2 : Tab m2 tab := by
    intro d hd
    obtain ⟨h0, h1, h2, h3⟩ := hap d hd
    rw [rs _ h0 h1 h2 h3, ht d hd]
  have unf : conv32 A S tab 0x64#8 (BitVec.ofNat 16 w) false (padOf zero) s =
      (let l := mod32 s.mem (nextArg s) 10000
       let m := mod32 m1 (nextArg s) 10000
       let h := mod32 m2 (nextArg s) 10000
       let s2 : PS σ := { tookArg s with mem := m2 }
       if h ≠ 0 then
         seq (uPutNum A S tab h (BitVec.ofNat 16 w - 8) false (padOf zero) 10 s2) fun s =>
         seq (uPutNum A S tab m 4 false 0x30#8 10 s) fun s =>
         uPutNum A S tab l 4 false 0x30#8 10 s
       else if m ≠ 0 then
         seq (uPutNum A S tab m (BitVec.ofNat 16 w - 4) false (padOf zero) 10 s2) fun s =>
         uPutNum A S tab l 4 false 0x30#8 10 s
       else uPutNum A S tab l (BitVec.ofNat 16 w) false (padOf zero) 10 s2) := by
    unfold conv32
    simp only [if_true]
    rw [show (getArg s).1 = nextArg s from rfl, show (getArg s).2 = tookArg s from rfl, show (tookArg s).mem = s.mem from rfl, hm1, hm2]
  rw [unf]
  simp only []
  generalize mod32 s.mem (nextArg s) 10000 = l at *
  generalize mod32 m1 (nextArg s) 10000 = m at *
  generalize mod32 m2 (nextArg s) 10000 = h at *
  have four : ∀ (x : Word), x.toNat < 10000 → ∀ s' : PS σ, s'.mem = m2 → uPutNum A S tab x 4 false 0x30#8 10 s' =
      some (emit S (field 4 false 0x30#8 (numeral 10 x.toNat)) s') := by
    intro x hx s' h'
    exact uPutNum_spec hA (by decide) (by decide) (by omega) (w := 4) (by omega) (by rw [h']; exact ht2)
  have tgt : unsText 10 w false zero (n % 655360000) = field w false (padOf zero) (numeral 10 (n % 655360000)) := rfl
  rw [tgt]
  by_cases hh : h = 0
  · have hh0 : h.toNat = 0 := by rw [hh]; rfl
    rw [if_neg (by simp [hh])]
    by_cases hm : m = 0
    · have hm0 : m.toNat = 0 := by rw [hm]; rfl
      rw [if_neg (by simp [hm])]
      rw [uPutNum_spec hA (by decide) (by decide) (by omega) hw ht2]
      rw [show (10 : Word).toNat = 10 from rfl, show n % 655360000 = l.toNat by omega]
    · have hm0 : 0 < m.toNat := by
        rcases Nat.eq_zero_or_pos m.toNat with e | e
        · exact absurd (BitVec.eq_of_toNat_eq (by simpa using e)) hm
        · exact e
      rw [if_pos hm, show (4 : Word) = BitVec.ofNat 16 4 from rfl]
      rw [uPutNum_sub hA (by omega) hw (by omega) (k := 4) ht2]
      rw [show n % 655360000 = m.toNat * 10000 + l.toNat by omega, numeral_split hm0 (by omega),
        ← field_split (field4_length (r := l.toNat) (by omega))]
      exact seq_emit fun s' h' => four l (by omega) s' h'.mem
  · have hh0 : 0 < h.toNat := by
      rcases Nat.eq_zero_or_pos h.toNat with e | e
      · exact absurd (BitVec.eq_of_toNat_eq (by simpa using e)) hh
      · exact e
    rw [if_pos hh, show (8 : Word) = BitVec.ofNat 16 8 from rfl]
    rw [uPutNum_sub hA (by omega) hw (by omega) (k := 8) ht2]
    have f4m := field4_length (r := m.toNat) (by omega)
    have f4l := field4_length (r := l.toNat) (by omega)
    rw [show n % 655360000 = (h.toNat * 10000 + m.toNat) * 10000 + l.toNat by omega, numeral_split (by omega) (by omega),
      numeral_split hh0 (by omega), List.append_assoc, ← field_split (k := 8) (by simp [f4m, f4l])]
    refine seq_emit fun s' h' => ?_
    rw [four m (by omega) s' h'.mem]
    exact seq_emit fun s2 h2 => four l (by omega) s2 (h2.mem.trans h'.mem)

/-- `%ld` of a value below 655360000, not left justified, prints its decimal notation in the field. Missing for the full claim:
larger values (`C18_big_false`), left justification (`C18_left_false`), and that the argument is preserved
(`C18_destroys`). -/
theorem C18_partial (hA : A.OkTo 32768) {w : Nat} {zero : Bool} {s : PS σ} (hw : w < 32768) (ht : Tab s.mem tab)
    (hap : TabApart tab (nextArg s)) (hv : val32 s.mem (nextArg s) < 655360000) :
    ∃ m', Same4 s.mem m' (nextArg s) ∧
      conv32 A S tab 0x64#8 (BitVec.ofNat 16 w) false (padOf zero) s =
        some (emit S (unsText 10 w false zero (val32 s.mem (nextArg s))) { tookArg s with mem := m' }) := by
  obtain ⟨m', h1, -, h3⟩ := C18_exact (A := A) (S := S) hA (zero := zero) hw ht hap (by omega)
  refine ⟨m', h1, ?_⟩
  rw [h3, Nat.mod_eq_of_lt hv]

/-- Left justification works for numbers of at most four digits. -/
theorem C18_left_partial (hA : A.OkTo 32768) {w : Nat} {zero : Bool} {s : PS σ} (hw : w < 32768) (ht : Tab s.mem tab)
    (hap : TabApart tab (nextArg s)) (hv : val32 s.mem (nextArg s) < 10000) :
    ∃ m', Same4 s.mem m' (nextArg s) ∧
      conv32 A S tab 0x64#8 (BitVec.ofNat 16 w) true (padOf zero) s =
        some (emit S (unsText 10 w true zero (val32 s.mem (nextArg s))) { tookArg s with mem := m' }) := by
  obtain ⟨rl, rm, rh, rv, rs⟩ := conv32_groups (m := s.mem) (a := nextArg s) (by omega)
  generalize hn : val32 s.mem (nextArg s) = n at *
  generalize hm1 : (div32 s.mem (nextArg s) 10000).2.sw (nextArg s) 0 = m1 at *
  generalize hm2 : (div32 m1 (nextArg s) 10000).2.sw (nextArg s) 0 = m2 at *
  have ht2 : Tab m2 tab := by
    intro d hd
    obtain ⟨h0, h1, h2, h3⟩ := hap d hd
    rw [rs _ h0 h1 h2 h3, ht d hd]
  refine ⟨m2, rs, ?_⟩
  have hm : mod32 m1 (nextArg s) 10000 = 0 := BitVec.eq_of_toNat_eq (by rw [rm]; show _ = 0; omega)
  have hh : mod32 m2 (nextArg s) 10000 = 0 := BitVec.eq_of_toNat_eq (by rw [rh]; show _ = 0; omega)
  have unf : conv32 A S tab 0x64#8 (BitVec.ofNat 16 w) true (padOf zero) s =
      uPutNum A S tab (mod32 s.mem (nextArg s) 10000) (BitVec.ofNat 16 w) true (padOf zero) 10 { tookArg s with mem := m2 } := by
    unfold conv32
    simp only [if_true]
    rw [show (getArg s).1 = nextArg s from rfl, show (getArg s).2 = tookArg s from rfl, show (tookArg s).mem = s.mem from rfl, hm1, hm2,
      hm, hh]
    simp
  rw [unf, uPutNum_spec hA (by decide) (by decide) (by omega) hw (s := { tookArg s with mem := m2 }) ht2]
  rw [show (10 : Word).toNat = 10 from rfl, rl, Nat.mod_eq_of_lt hv]
  rfl

end

/-! ### The false parts -/

/-- Memory with the digits at 0, the argument array at 0x40 and the number `hi`,`lo` at 0x50. -/
def yMem (hi lo : Word) : Mem := ((xMem 0x50).sw 0x50 hi).sw 0x52 lo
def yState (hi lo : Word) : PS (List Byte) := { mem := yMem hi lo, cnt := 0, args := 0x40, pos := 0, out := [] }

theorem yLow (hi lo : Word) {x : Nat} (h : x < 0x50) : yMem hi lo (BitVec.ofNat 16 x) = xMem 0x50 (BitVec.ofNat 16 x) := by
  have ne : ∀ k : Nat, 0x50 ≤ k → k < 65536 → BitVec.ofNat 16 x ≠ BitVec.ofNat 16 k := by
    intro k h1 h2 e
    have e := congrArg BitVec.toNat e
    simp at e; omega
  unfold yMem
  rw [Mem.sw_ne, Mem.sw_ne]
  · exact ne 0x50 (by omega) (by omega)
  · exact ne 0x51 (by omega) (by omega)
  · exact ne 0x52 (by omega) (by omega)
  · exact ne 0x53 (by omega) (by omega)

theorem yTab (hi lo : Word) : Tab (yState hi lo).mem 0 := by
  intro d hd
  have := xTab 0x50 d hd
  have e : off 0 d = BitVec.ofNat 16 d := by simp [off]
  rw [e] at this ⊢
  exact (yLow hi lo (by omega)).trans this

theorem yArg (hi lo : Word) : nextArg (yState hi lo) = 0x50 := by
  show (yMem hi lo).lw 0x40 = _
  unfold yMem
  rw [Mem.lw_sw_ne _ _ (by unfold WordApart; decide), Mem.lw_sw_ne _ _ (by unfold WordApart; decide)]
  exact xArg 0x50

theorem yVal (hi lo : Word) : val32 (yState hi lo).mem 0x50 = hi.toNat * 65536 + lo.toNat := by
  unfold val32
  show ((yMem hi lo).lw 0x50).toNat * 65536 + ((yMem hi lo).lw 0x52).toNat = _
  unfold yMem
  rw [Mem.lw_sw_ne _ _ (by unfold WordApart; decide), Mem.lw_sw_same, Mem.lw_sw_same]

theorem yApart : TabApart 0 0x50 := by
  have e : ∀ d, off 0 d = BitVec.ofNat 16 d := by intro d; simp [off]
  intro d hd
  rw [e]
  refine ⟨?_, ?_, ?_, ?_⟩ <;> intro h <;> have h := congrArg BitVec.toNat h <;> simp at h <;> omega

/-- 123456789 is printed right. -/
example (A : Arith) (hA : A.OkTo 32768) : ∃ s, conv32 A rec 0 0x64#8 10 false 0x20#8 (yState 0x75b 0xcd15) = some (.ok s) ∧
    s.out = [0x20#8, 0x31#8, 0x32#8, 0x33#8, 0x34#8, 0x35#8, 0x36#8, 0x37#8, 0x38#8, 0x39#8] := by
  obtain ⟨m', -, h⟩ := C18_partial (S := rec) (A := A) (tab := 0) hA (w := 10) (zero := false) (s := yState 0x75b 0xcd15)
    (by omega) (yTab _ _) (by rw [yArg]; exact yApart) (by rw [yArg, yVal]; decide)
  refine ⟨_, h.trans (by rw [emit_rec]), ?_⟩
  rw [yArg, yVal]
  show [] ++ unsText _ _ _ _ _ = _
  decide +kernel

/-- 655360000 is printed as "0". -/
theorem C18_big_false (A : Arith) (hA : A.OkTo 32768) :
    ∃ s, conv32 A rec 0 0x64#8 0 false 0x20#8 (yState 10000 0) = some (.ok s) ∧
      val32 (yState 10000 0).mem (nextArg (yState 10000 0)) = 655360000 ∧
      s.out = [0x30#8] ∧ s.out ≠ unsText 10 0 false false 655360000 := by
  obtain ⟨m', -, -, h⟩ := C18_exact (S := rec) (A := A) (tab := 0) hA (w := 0) (zero := false) (s := yState 10000 0)
    (by omega) (yTab _ _) (by rw [yArg]; exact yApart) (by rw [yArg, yVal]; decide)
  refine ⟨_, h.trans (by rw [emit_rec]), by rw [yArg, yVal]; decide, ?_⟩
  rw [yArg, yVal]
  show [] ++ unsText _ _ _ _ _ = _ ∧ [] ++ unsText _ _ _ _ _ ≠ _
  decide +kernel

/-- The argument is destroyed: after printing 123456789 the number holds 1. -/
theorem C18_destroys (A : Arith) (hA : A.OkTo 32768) :
    ∃ s, conv32 A rec 0 0x64#8 0 false 0x20#8 (yState 0x75b 0xcd15) = some (.ok s) ∧
      val32 (yState 0x75b 0xcd15).mem 0x50 = 123456789 ∧ val32 s.mem 0x50 = 1 := by
  obtain ⟨m', -, h2, h⟩ := C18_exact (S := rec) (A := A) (tab := 0) hA (w := 0) (zero := false) (s := yState 0x75b 0xcd15)
    (by omega) (yTab _ _) (by rw [yArg]; exact yApart) (by rw [yArg, yVal]; decide)
  refine ⟨_, h.trans (by rw [emit_rec]), by rw [yVal]; decide, ?_⟩
  rw [yArg, yVal] at h2
  exact h2

/-- `%-ld` of 10000 prints "10   " instead of "10000". -/
theorem C18_left_false (A : Arith) (hA : A.OkTo 32768) :
    ∃ s, conv32 A rec 0 0x64#8 0 true 0x20#8 (yState 0 10000) = some (.ok s) ∧
      s.out = [0x31#8, 0x30#8, 0x20#8, 0x20#8, 0x20#8] ∧ s.out ≠ unsText 10 0 true false 10000 := by
  have hv : val32 (yState 0 10000).mem (nextArg (yState 0 10000)) = 10000 := by rw [yArg, yVal]; decide
  obtain ⟨rl, rm, rh, rv, rs⟩ := conv32_groups (m := (yState 0 10000).mem) (a := nextArg (yState 0 10000)) (by omega)
  rw [hv] at rl rm rh
  generalize hm1 : (div32 (yState 0 10000).mem (nextArg (yState 0 10000)) 10000).2.sw (nextArg (yState 0 10000)) 0 = m1 at *
  generalize hm2 : (div32 m1 (nextArg (yState 0 10000)) 10000).2.sw (nextArg (yState 0 10000)) 0 = m2 at *
  have ht2 : Tab m2 0 := by
    intro d hd
    obtain ⟨h0, h1, h2, h3⟩ := yApart d hd
    rw [yArg] at rs
    rw [rs _ h0 h1 h2 h3, yTab _ _ d hd]
  have hl : mod32 (yState 0 10000).mem (nextArg (yState 0 10000)) 10000 = 0 := BitVec.eq_of_toNat_eq (by rw [rl]; rfl)
  have hm : mod32 m1 (nextArg (yState 0 10000)) 10000 = 1 := BitVec.eq_of_toNat_eq (by rw [rm]; rfl)
  have hh : mod32 m2 (nextArg (yState 0 10000)) 10000 = 0 := BitVec.eq_of_toNat_eq (by rw [rh]; rfl)
  have unf : conv32 A rec 0 0x64#8 0 true 0x20#8 (yState 0 10000) =
      seq (uPutNum A rec 0 1 (0 - 4) true 0x20#8 10 { tookArg (yState 0 10000) with mem := m2 }) fun s =>
        uPutNum A rec 0 0 4 true 0x30#8 10 s := by
    unfold conv32
    simp only [if_true]
    rw [show (getArg (yState 0 10000)).1 = nextArg (yState 0 10000) from rfl, show (getArg (yState 0 10000)).2 = tookArg (yState 0 10000) from rfl,
      show (tookArg (yState 0 10000)).mem = (yState 0 10000).mem from rfl, hm1, hm2, hm, hh, hl]
    simp
  rw [unf, uPutNum_neg hA (by decide) (by decide) (by decide) (by decide) (by decide) ht2,
    seq_emit (b := field 4 true 0x30#8 (numeral 10 0)) fun s' h' =>
      uPutNum_spec hA (by decide) (by decide) (by decide) (w := 4) (by omega) (by rw [h'.mem]; exact ht2)]
  refine ⟨_, by rw [emit_rec], ?_⟩
  show [] ++ (numeral _ _ ++ field _ _ _ _) = _ ∧ [] ++ (numeral _ _ ++ field _ _ _ _) ≠ _
  decide +kernel

end Cmm.Printf
