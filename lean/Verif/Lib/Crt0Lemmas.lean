import Verif.Lib.Crt0

namespace Cmm.Crt0

/-- The 32-bit number in a register pair. -/
def pair (h l : Word) : Nat := h.toNat * 65536 + l.toNat

theorem shl1_toNat (a : Word) : (a <<< 1).toNat = (2 * a.toNat) % 65536 := by
  rw [BitVec.toNat_shiftLeft, Nat.shiftLeft_eq]; simp [Nat.mul_comm]

theorem one_toNat : (1 : Word).toNat = 1 := rfl

/-- Effect of one multiplication round on the pair, when nothing overflows. -/
theorem mulStep_pair (src g1 g2 : Word)
    (h : (2 * pair g1 g2) % 4294967296 + (if 2147483648 ≤ pair g1 g2 then src.toNat else 0)
      < 4294967296) :
    pair (mulStep src (g1, g2)).1 (mulStep src (g1, g2)).2 =
      (2 * pair g1 g2) % 4294967296 + (if 2147483648 ≤ pair g1 g2 then src.toNat else 0) := by
  have h1 := g1.isLt
  have h2 := g2.isLt
  have hs := src.isLt
  have hc : 2147483648 ≤ pair g1 g2 ↔ 32768 ≤ g1.toNat := by unfold pair; omega
  simp only [hc] at h ⊢
  unfold mulStep carryShl carryAdd
  simp only [pair] at h ⊢
  by_cases c1 : 32768 ≤ g1.toNat <;> by_cases c2 : 32768 ≤ g2.toNat <;>
    simp only [c1, c2, decide_true, decide_false, if_true, if_false, BitVec.toNat_add,
      shl1_toNat, decide_eq_true_eq, BitVec.toNat_zero, Bool.false_eq_true] at h ⊢ <;>
    split <;> simp only [BitVec.toNat_add, shl1_toNat, one_toNat] <;> omega

/-- After `k` more rounds: invariant "remaining multiplier bits at the top, partial product
below". -/
theorem mul_rounds (src : Word) : ∀ (k : Nat) (r p : Nat) (g1 g2 : Word), k ≤ 16 →
    r < 2^k → p + src.toNat < 2^(16-k) * 65536 →
    pair g1 g2 = r * 2^(32-k) + p →
    pair (rounds (mulStep src) k (g1, g2)).1 (rounds (mulStep src) k (g1, g2)).2
      = p * 2^k + r * src.toNat := by
  intro k
  induction k with
  | zero =>
    intro r p g1 g2 _ hr hp h
    have : r = 0 := by simpa using hr
    subst this
    simp only [rounds]
    rw [h]; simp
  | succ k ih =>
    intro r p g1 g2 hk hr hp h
    have hs := src.isLt
    -- split the top bit of r
    have hp2 : 2^(k+1) = 2 * 2^k := by rw [Nat.pow_succ]; omega
    have e32 : (2:Nat)^(32-k) = 2 * 2^(32-(k+1)) := by
      rw [show 32 - k = (32-(k+1)) + 1 by omega, Nat.pow_succ]; omega
    have etop : (2:Nat)^k * 2^(32-(k+1)) = 2147483648 := by
      rw [← Nat.pow_add, show k + (32 - (k+1)) = 31 by omega]
    have e16 : (2:Nat)^(16-k) = 2 * 2^(16-(k+1)) := by
      rw [show 16 - k = (16-(k+1)) + 1 by omega, Nat.pow_succ]; omega
    have e16' : (2:Nat)^(32-(k+1)) = 2^(16-(k+1)) * 65536 := by
      rw [show 32 - (k+1) = (16-(k+1)) + 16 by omega, Nat.pow_add]
    have hP : 0 < 2^(16-(k+1)) := Nat.pos_of_ne_zero (by simp)
    have hpl : p < 2^(32-(k+1)) := by omega
    generalize hA : 2^(32-(k+1)) = A at *
    generalize hB : 2^(16-(k+1)) = B at *
    have hAB : A = B * 65536 := e16'
    have hb32 : pair g1 g2 < 4294967296 := by
      have := g1.isLt; have := g2.isLt; unfold pair; omega
    by_cases hb : 2^k ≤ r
    · -- top bit set
      obtain ⟨r', rfl⟩ : ∃ r', r = 2^k + r' := ⟨r - 2^k, by omega⟩
      have hge : 2147483648 ≤ pair g1 g2 := by rw [h, Nat.add_mul, etop]; omega
      have hlt : r' * A + p < 2147483648 := by
        rw [h, Nat.add_mul, etop] at hb32; omega
      have hmod : (2 * pair g1 g2) % 4294967296 = 2 * (r' * A + p) := by
        rw [h, Nat.add_mul, etop]; omega
      have hr' : r' < 2^k := by omega
      have hno : 2 * (r' * A + p) + src.toNat < 4294967296 := by
        have : r' * A + A ≤ 2^k * A := by
          rw [← Nat.succ_mul]; exact Nat.mul_le_mul_right _ hr'
        omega
      have hst := mulStep_pair src g1 g2 (by rw [hmod, if_pos hge]; exact hno)
      rw [hmod, if_pos hge] at hst
      have := ih r' (2*p + src.toNat) (mulStep src (g1,g2)).1 (mulStep src (g1,g2)).2 (by omega)
        hr' (by rw [e16]; omega)
        (by rw [hst, e32, ← Nat.mul_assoc, Nat.mul_comm r' 2, Nat.mul_assoc]; omega)
      show pair (rounds (mulStep src) k (mulStep src (g1,g2))).1 _ = _
      rw [show mulStep src (g1, g2) = ((mulStep src (g1,g2)).1, (mulStep src (g1,g2)).2) from rfl]
      simp only [rounds]
      rw [this, hp2, Nat.add_mul, Nat.add_mul, Nat.mul_comm 2 p, Nat.mul_assoc,
        Nat.mul_comm src.toNat]
      omega
    · have hr' : r < 2^k := by omega
      have hlt : r * A + p < 2147483648 := by
        have : r * A + A ≤ 2^k * A := by
          rw [← Nat.succ_mul]; exact Nat.mul_le_mul_right _ hr'
        omega
      have hge : ¬ 2147483648 ≤ pair g1 g2 := by rw [h]; omega
      have hmod : (2 * pair g1 g2) % 4294967296 = 2 * (r * A + p) := by
        rw [h]; omega
      have hst := mulStep_pair src g1 g2 (by rw [hmod, if_neg hge]; omega)
      rw [hmod, if_neg hge] at hst
      have := ih r (2*p) (mulStep src (g1,g2)).1 (mulStep src (g1,g2)).2 (by omega)
        hr' (by rw [e16]; omega)
        (by rw [hst, e32, ← Nat.mul_assoc, Nat.mul_comm r 2, Nat.mul_assoc]; omega)
      show pair (rounds (mulStep src) k (mulStep src (g1,g2))).1 _ = _
      rw [show mulStep src (g1, g2) = ((mulStep src (g1,g2)).1, (mulStep src (g1,g2)).2) from rfl]
      simp only [rounds]
      rw [this, hp2, Nat.mul_comm 2 p, Nat.mul_assoc]

theorem sub_toNat' (a b : Word) (h : b.toNat ≤ a.toNat) : (a - b).toNat = a.toNat - b.toNat := by
  have := a.isLt; have := b.isLt
  rw [BitVec.toNat_sub]; omega

/-- One "shift, then subtract if possible" round. -/
theorem divRound (src g1 g2 g3 : Word) (hs : src.toNat ≤ 32768) (h : g1.toNat < src.toNat) :
    let x := 2 * g1.toNat + g2.toNat / 32768
    let g := divSub src (divShift (g1, g2, g3))
    g.1.toNat = x % src.toNat ∧ g.2.1.toNat = (2 * g2.toNat) % 65536 ∧
      g.2.2.toNat = (2 * g3.toNat + x / src.toNat) % 65536 := by
  intro x g
  have h2 := g2.isLt
  have h3 := g3.isLt
  have hx : x < 2 * src.toNat := by omega
  have hsh1 : (divShift (g1, g2, g3)).1.toNat = x := by
    unfold divShift carryShl
    by_cases c : 32768 ≤ g2.toNat
    · simp only [c, decide_true, if_true, BitVec.toNat_add, shl1_toNat, one_toNat]; omega
    · simp only [c, decide_false, if_false, Bool.false_eq_true, shl1_toNat]; omega
  have hsh2 : (divShift (g1, g2, g3)).2.1.toNat = (2 * g2.toNat) % 65536 := shl1_toNat g2
  have hsh3 : (divShift (g1, g2, g3)).2.2.toNat = (2 * g3.toNat) % 65536 := shl1_toNat g3
  have hg : g = divSub src (divShift (g1, g2, g3)) := rfl
  unfold divSub carrySub at hg
  by_cases c : x < src.toNat
  · rw [hsh1] at hg
    simp only [c, decide_true, if_true] at hg
    rw [hg, hsh1, hsh2, hsh3, Nat.mod_eq_of_lt c, Nat.div_eq_of_lt c]
    simp
  · rw [hsh1] at hg
    simp only [c, decide_false, Bool.false_eq_true, if_false] at hg
    have hd : x / src.toNat = 1 := by
      apply Nat.div_eq_of_lt_le <;> omega
    have hm : x % src.toNat = x - src.toNat := by
      rw [Nat.mod_eq_sub_mod (by omega), Nat.mod_eq_of_lt (by omega)]
    rw [hg, hd, hm]
    refine ⟨?_, hsh2, ?_⟩
    · show (_ - src).toNat = _
      rw [sub_toNat' _ _ (by rw [hsh1]; omega), hsh1]
    · show ((_ : Word) + 1).toNat = _
      rw [BitVec.toNat_add, hsh3, one_toNat]; omega

theorem div_rounds (src : Word) (hs : src.toNat ≤ 32768) : ∀ (k t : Nat) (g1 g2 g3 : Word),
    k ≤ 16 → t < 2^k → g1.toNat < src.toNat → g2.toNat = t * 2^(16-k) →
    let g := rounds (fun g => divSub src (divShift g)) k (g1, g2, g3)
    g.1.toNat = (g1.toNat * 2^k + t) % src.toNat ∧
    g.2.2.toNat = (g3.toNat * 2^k + (g1.toNat * 2^k + t) / src.toNat) % 65536 := by
  intro k
  induction k with
  | zero =>
    intro t g1 g2 g3 _ ht h1 h2
    have : t = 0 := by simpa using ht
    subst this
    have h3 := g3.isLt
    simp [rounds, Nat.mod_eq_of_lt h1, Nat.div_eq_of_lt h1, Nat.mod_eq_of_lt h3]
  | succ k ih =>
    intro t g1 g2 g3 hk ht h1 h2
    have hp : (2:Nat)^(k+1) = 2 * 2^k := by rw [Nat.pow_succ]; omega
    have e16 : (2:Nat)^(16-k) = 2 * 2^(16-(k+1)) := by
      rw [show 16 - k = (16-(k+1)) + 1 by omega, Nat.pow_succ]; omega
    have etop : (2:Nat)^k * 2^(16-(k+1)) = 32768 := by
      rw [← Nat.pow_add, show k + (16 - (k+1)) = 15 by omega]
    obtain ⟨r1, r2, r3⟩ := divRound src g1 g2 g3 hs h1
    have hspos : 0 < src.toNat := by omega
    -- split the top bit of t
    obtain ⟨b, t', hb, ht', htt⟩ : ∃ b t', b ≤ 1 ∧ t' < 2^k ∧ t = b * 2^k + t' := by
      by_cases h : 2^k ≤ t
      · exact ⟨1, t - 2^k, by omega, by omega, by omega⟩
      · exact ⟨0, t, by omega, by omega, by omega⟩
    have hg2 : g2.toNat = b * 32768 + t' * 2^(16-(k+1)) := by
      rw [h2, htt, Nat.add_mul, Nat.mul_assoc, etop]
    have hlow : t' * 2^(16-(k+1)) < 32768 := by
      rw [← etop]; exact Nat.mul_lt_mul_of_pos_right ht' (Nat.pos_of_ne_zero (by simp))
    have hbit : g2.toNat / 32768 = b := by omega
    have hsh : (2 * g2.toNat) % 65536 = t' * 2^(16-k) := by
      rw [e16, ← Nat.mul_assoc, Nat.mul_comm t' 2, Nat.mul_assoc]
      have : b = 0 ∨ b = 1 := by omega
      rcases this with rfl | rfl <;> omega
    rw [hbit] at r1 r3
    rw [hsh] at r2
    have := ih t' (divSub src (divShift (g1, g2, g3))).1 (divSub src (divShift (g1, g2, g3))).2.1
      (divSub src (divShift (g1, g2, g3))).2.2 (by omega) ht'
      (by rw [r1]; exact Nat.mod_lt _ hspos) r2
    simp only [rounds] at this ⊢
    obtain ⟨f1, f2⟩ := this
    have hx := Nat.div_add_mod (2 * g1.toNat + b) src.toNat
    generalize hq : (2 * g1.toNat + b) / src.toNat = q at *
    generalize hrem : (2 * g1.toNat + b) % src.toNat = rr at *
    have htot : g1.toNat * 2^(k+1) + t = src.toNat * (q * 2^k) + (rr * 2^k + t') := by
      rw [hp, htt]
      have : (2 * g1.toNat + b) * 2^k = (src.toNat * q + rr) * 2^k := by rw [hx]
      rw [Nat.add_mul, Nat.add_mul, Nat.mul_assoc src.toNat] at this
      have e : g1.toNat * (2 * 2^k) = 2 * g1.toNat * 2^k := by
        rw [← Nat.mul_assoc, Nat.mul_comm g1.toNat 2]
      rw [e]; omega
    refine ⟨?_, ?_⟩
    · rw [f1, r1, htot, Nat.mul_add_mod]
    · rw [f2, r1, r3, htot, Nat.mul_add_div hspos, hp]
      generalize (rr * 2^k + t') / src.toNat = z
      rw [← Nat.mul_assoc, Nat.mul_comm g3.toNat 2]
      generalize 2 * g3.toNat = y
      have : ((y + q) % 65536 * 2^k + z) % 65536 = ((y+q) * 2^k + z) % 65536 := by
        rw [Nat.add_mod, Nat.mul_mod, Nat.mod_mod, ← Nat.mul_mod, ← Nat.add_mod]
      rw [this, Nat.add_mul, Nat.add_assoc]

end Cmm.Crt0
