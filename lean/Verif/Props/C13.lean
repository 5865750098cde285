import Verif.Lib.Stdlib
import Mathlib.Data.Nat.Prime.Basic
import Mathlib.Tactic.NormNum.Prime
import Mathlib.Data.Fintype.Card
import Mathlib.Data.Fintype.EquivFin
import Mathlib.Data.Fintype.Sets
import Mathlib.Tactic.Ring

/-! C13: the pseudo random numbers have the maximal period 65535. -/
namespace Cmm.Stdlib

/-- GF(2)-linear map given by the images of the unit vectors. -/
def ap : List Word → Word → Word
  | [], _ => 0
  | c :: cs, x => (if x.getLsbD 0 then c else 0) ^^^ ap cs (x >>> 1)

theorem ap_xor (cs : List Word) (x y : Word) : ap cs (x ^^^ y) = ap cs x ^^^ ap cs y := by
  induction cs generalizing x y with
  | nil => simp [ap]
  | cons c cs ih =>
    have hs : (x ^^^ y) >>> 1 = (x >>> 1) ^^^ (y >>> 1) := by
      ext i hi; simp [BitVec.getElem_ushiftRight]
    simp only [ap, hs, ih, BitVec.getLsbD_xor]
    cases x.getLsbD 0 <;> cases y.getLsbD 0 <;> simp <;>
      ext i hi <;> simp <;> cases c[i] <;> simp

theorem ap_comp (f : Word → Word) (h0 : f 0 = 0) (hx : ∀ x y, f (x ^^^ y) = f x ^^^ f y)
    (cs : List Word) (x : Word) : f (ap cs x) = ap (cs.map f) x := by
  induction cs generalizing x with
  | nil => simpa [ap] using h0
  | cons c cs ih =>
    simp only [ap, List.map_cons, hx, ih]
    split
    · rfl
    · rw [h0]

def basis : List Word :=
  [1, 2, 4, 8, 16, 32, 64, 128, 256, 512, 1024, 2048, 4096, 8192, 16384, 32768]

theorem ite_getLsbD (b : Bool) (c : Word) (i : Nat) :
    (if b = true then c else 0).getLsbD i = (b && c.getLsbD i) := by
  cases b <;> simp

theorem ap_basis (x : Word) : ap basis x = x := by
  have h : ∀ i : Fin 16, (ap basis x).getLsbD i.val = x.getLsbD i.val := by
    simp only [ap, basis, BitVec.getLsbD_ushiftRight, BitVec.getLsbD_xor, ite_getLsbD]
    intro i
    match i with
    | ⟨0, _⟩ | ⟨1, _⟩ | ⟨2, _⟩ | ⟨3, _⟩ | ⟨4, _⟩ | ⟨5, _⟩ | ⟨6, _⟩ | ⟨7, _⟩
    | ⟨8, _⟩ | ⟨9, _⟩ | ⟨10, _⟩ | ⟨11, _⟩ | ⟨12, _⟩ | ⟨13, _⟩ | ⟨14, _⟩ | ⟨15, _⟩ => simp
    | ⟨n+16, h⟩ => omega
  apply BitVec.eq_of_getLsbD_eq
  intro i hi
  exact h ⟨i, hi⟩

theorem rand_zero : rand 0 = 0 := by decide

theorem rand_xor (x y : Word) : rand (x ^^^ y) = rand x ^^^ rand y := by
  have hn (z : Word) : (-(z &&& 1#16)) &&& 0xb400#16 = if z.getLsbD 0 then 0xb400#16 else 0 := by
    have : z &&& 1#16 = if z.getLsbD 0 then 1#16 else 0 := by
      ext i hi
      cases i with
      | zero => cases h : z.getLsbD 0 <;> simp_all
      | succ i => cases h : z.getLsbD 0 <;> simp [BitVec.getElem_one]
    rw [this]; split <;> decide
  have hs : ((x ^^^ y).sshiftRight 1) &&& 0x7fff#16 =
      ((x.sshiftRight 1) &&& 0x7fff#16) ^^^ ((y.sshiftRight 1) &&& 0x7fff#16) := by
    rw [BitVec.sshiftRight_xor_distrib]
    ext i hi
    simp only [BitVec.getElem_and, BitVec.getElem_xor]
    generalize (x.sshiftRight 1)[i] = p
    generalize (y.sshiftRight 1)[i] = q
    generalize ((0x7fff#16)[i]) = r
    cases p <;> cases q <;> cases r <;> rfl
  unfold rand
  rw [hs, hn, hn, hn, BitVec.getLsbD_xor]
  cases x.getLsbD 0 <;> cases y.getLsbD 0 <;> simp <;> ext i hi <;> simp <;>
    (generalize ((46080#16)[i]) = b; cases b <;> simp)

theorem randN_add (a b : Nat) (x : Word) : randN (a + b) x = randN b (randN a x) := by
  induction a generalizing x with
  | zero => simp [randN]
  | succ a ih => rw [Nat.add_right_comm]; simp only [randN]; rw [ih]

/-- Images of the unit vectors under 2^k steps. -/
def cols : Nat → List Word
  | 0 => basis.map rand
  | k+1 => (cols k).map (ap (cols k))

theorem ap_zero (cs : List Word) : ap cs 0 = 0 := by
  induction cs with
  | nil => rfl
  | cons c cs ih =>
    have : (0 : Word) >>> 1 = 0 := by decide
    simp only [ap, this, ih]
    simp

theorem randN_pow (k : Nat) (x : Word) : randN (2^k) x = ap (cols k) x := by
  induction k generalizing x with
  | zero =>
    show rand x = ap (basis.map rand) x
    rw [← ap_comp rand rand_zero rand_xor, ap_basis]
  | succ k ih =>
    rw [Nat.pow_succ, Nat.mul_two, randN_add, ih, ih]
    exact ap_comp _ (ap_zero _) (ap_xor _) _ _

/-- Apply the powers 2^k for the listed k. -/
def pw (ks : List Nat) (x : Word) : Word := ks.foldl (fun x k => ap (cols k) x) x

theorem randN_pw (ks : List Nat) (x : Word) : randN ((ks.map (2^·)).sum) x = pw ks x := by
  induction ks generalizing x with
  | nil => rfl
  | cons k ks ih =>
    simp only [List.map_cons, List.sum_cons, randN_add, randN_pow, ih, pw, List.foldl_cons]

theorem per_full : randN 65535 1 = 1 := by
  have := randN_pw [0,1,2,3,4,5,6,7,8,9,10,11,12,13,14,15] 1
  rw [show (([0,1,2,3,4,5,6,7,8,9,10,11,12,13,14,15] : List Nat).map (2^·)).sum = 65535 by decide]
    at this
  rw [this]; decide +kernel
theorem per_3 : randN 21845 1 ≠ 1 := by
  have := randN_pw [0,2,4,6,8,10,12,14] 1
  rw [show (([0,2,4,6,8,10,12,14] : List Nat).map (2^·)).sum = 21845 by decide] at this
  rw [this]; decide +kernel
theorem per_5 : randN 13107 1 ≠ 1 := by
  have := randN_pw [0,1,4,5,8,9,12,13] 1
  rw [show (([0,1,4,5,8,9,12,13] : List Nat).map (2^·)).sum = 13107 by decide] at this
  rw [this]; decide +kernel
theorem per_17 : randN 3855 1 ≠ 1 := by
  have := randN_pw [0,1,2,3,8,9,10,11] 1
  rw [show (([0,1,2,3,8,9,10,11] : List Nat).map (2^·)).sum = 3855 by decide] at this
  rw [this]; decide +kernel
theorem per_257 : randN 255 1 ≠ 1 := by
  have := randN_pw [0,1,2,3,4,5,6,7] 1
  rw [show (([0,1,2,3,4,5,6,7] : List Nat).map (2^·)).sum = 255 by decide] at this
  rw [this]; decide +kernel

theorem randN_mul_fix {x : Word} {d : Nat} (h : randN d x = x) (k : Nat) :
    randN (k * d) x = x := by
  induction k with
  | zero => simp [randN]
  | succ k ih => rw [Nat.succ_mul, randN_add, ih, h]

/-- `randN n 1 = 1` only for multiples of 65535. -/
theorem per_one (n : Nat) (h : randN n 1 = 1) : 65535 ∣ n := by
  -- the gcd of n and 65535 is a period too
  have hg : randN (Nat.gcd n 65535) 1 = 1 := by
    have aux : ∀ a b : Nat, randN a 1 = 1 → randN b 1 = 1 → randN (Nat.gcd a b) 1 = 1 := by
      intro a b
      induction a, b using Nat.gcd.induction with
      | H0 b => intro _ hb; simpa using hb
      | H1 a b _ ih =>
        intro ha hb
        rw [Nat.gcd_rec]
        apply ih _ ha
        have := Nat.mod_add_div b a
        rw [← this, Nat.add_comm, randN_add, Nat.mul_comm, randN_mul_fix ha] at hb
        exact hb
    exact aux n 65535 h per_full
  have hd : Nat.gcd n 65535 ∣ 65535 := Nat.gcd_dvd_right _ _
  have hgn : Nat.gcd n 65535 ∣ n := Nat.gcd_dvd_left _ _
  generalize Nat.gcd n 65535 = d at hg hd hgn
  obtain ⟨e, he⟩ := hd
  by_cases h1 : e = 1
  · subst h1; rw [Nat.mul_one] at he; rw [he]; exact hgn
  · exfalso
    obtain ⟨p, hp, hpe⟩ := Nat.exists_prime_and_dvd h1
    obtain ⟨f, hf⟩ := hpe
    have hpd : p ∣ 65535 := ⟨d * f, by rw [he, hf]; ring⟩
    have hpf : d * f * p = 65535 := by rw [he, hf]; ring
    have hcase : p = 3 ∨ p = 5 ∨ p = 17 ∨ p = 257 := by
      have : (65535 : Nat) = 3 * (5 * (17 * 257)) := by norm_num
      rw [this] at hpd
      rcases (Nat.Prime.dvd_mul hp).1 hpd with h | h
      · exact Or.inl ((Nat.prime_dvd_prime_iff_eq hp (by norm_num)).1 h)
      rcases (Nat.Prime.dvd_mul hp).1 h with h | h
      · exact Or.inr (Or.inl ((Nat.prime_dvd_prime_iff_eq hp (by norm_num)).1 h))
      rcases (Nat.Prime.dvd_mul hp).1 h with h | h
      · exact Or.inr (Or.inr (Or.inl ((Nat.prime_dvd_prime_iff_eq hp (by norm_num)).1 h)))
      · exact Or.inr (Or.inr (Or.inr ((Nat.prime_dvd_prime_iff_eq hp (by norm_num)).1 h)))
    have hfix : randN (d * f) 1 = 1 := by rw [Nat.mul_comm]; exact randN_mul_fix hg f
    rcases hcase with rfl | rfl | rfl | rfl
    · have e : d * f = 21845 := by omega
      rw [e] at hfix
      exact per_3 hfix
    · have e : d * f = 13107 := by omega
      rw [e] at hfix
      exact per_5 hfix
    · have e : d * f = 3855 := by omega
      rw [e] at hfix
      exact per_17 hfix
    · have e : d * f = 255 := by omega
      rw [e] at hfix
      exact per_257 hfix

theorem rand_inj {x y : Word} (h : rand x = rand y) : x = y := by
  -- linear with trivial kernel
  have hk : ∀ z : Word, rand z = 0 → z = 0 := by
    intro z hz
    have hb : ∀ i : Nat, i < 16 → z.getLsbD i = false := by
      have hr : ∀ i, i < 16 → (rand z).getLsbD i = false := by
        intro i _; rw [hz]; simp
      have h15 := hr 15 (by omega)
      have hneg : (-(z &&& 1#16)) &&& 0xb400#16 = if z.getLsbD 0 then 0xb400#16 else 0 := by
        have : z &&& 1#16 = if z.getLsbD 0 then 1#16 else 0 := by
          ext i hi
          cases i with
          | zero => cases h : z.getLsbD 0 <;> simp_all
          | succ i => cases h : z.getLsbD 0 <;> simp [BitVec.getElem_one]
        rw [this]; split <;> decide
      have h0 : z.getLsbD 0 = false := by
        unfold rand at h15
        rw [hneg, BitVec.getLsbD_xor, BitVec.getLsbD_and] at h15
        cases hz0 : z.getLsbD 0
        · rfl
        · rw [hz0] at h15; simp at h15
      intro i hi
      cases i with
      | zero => exact h0
      | succ i =>
        have := hr i (by omega)
        unfold rand at this
        rw [hneg, h0] at this
        simp only [BitVec.getLsbD_xor, BitVec.getLsbD_and, Bool.false_eq_true, if_false] at this
        rw [BitVec.getLsbD_sshiftRight] at this
        have hm : (0x7fff#16).getLsbD i = true := by
          have : ∀ j : Fin 15, (0x7fff#16).getLsbD j.val = true := by decide
          exact this ⟨i, by omega⟩
        rw [hm] at this
        have h2 : ¬ (16 ≤ i) := by omega
        have h3 : 1 + i < 16 := by omega
        rw [if_pos h3] at this
        simpa [h2, Nat.add_comm] using this
    apply BitVec.eq_of_getLsbD_eq
    intro i hi
    rw [hb i hi]; simp
  have h2 : rand (x ^^^ y) = 0 := by rw [rand_xor, h]; simp
  have h3 := hk _ h2
  have : x ^^^ y ^^^ y = 0 ^^^ y := by rw [h3]
  rw [BitVec.xor_assoc, BitVec.xor_self] at this
  simpa using this

theorem randN_inj {n : Nat} {x y : Word} (h : randN n x = randN n y) : x = y := by
  induction n generalizing x y with
  | zero => exact h
  | succ n ih => exact rand_inj (ih h)

theorem randN_zero (n : Nat) : randN n 0 = 0 := by
  induction n with
  | zero => rfl
  | succ n ih => simp only [randN]; rw [show rand 0 = 0 from rand_zero]; exact ih

/-- Every non-zero state is reached from 1 within one cycle. -/
theorem reach_all (x : Word) (hx : x ≠ 0) : ∃ n, n < 65535 ∧ randN n 1 = x := by
  classical
  -- the orbit of 1 has 65535 different non-zero members
  let f : Fin 65535 → {w : Word // w ≠ 0} := fun n => ⟨randN n.val 1, by
    intro h
    have := randN_inj (n := n.val) (x := 1) (y := 0) (by rw [h, randN_zero])
    exact absurd this (by decide)⟩
  have finj : Function.Injective f := by
    have key : ∀ a b : Nat, a ≤ b → b < 65535 → randN a 1 = randN b 1 → a = b := by
      intro a b hab hb h
      have hb' : b = (b - a) + a := by omega
      rw [hb', randN_add] at h
      have h2 := randN_inj h
      have := per_one _ h2.symm
      have := Nat.eq_zero_of_dvd_of_lt this (by omega)
      omega
    intro a b h
    have h : randN a.val 1 = randN b.val 1 := congrArg Subtype.val h
    apply Fin.ext
    rcases Nat.le_total a.val b.val with hab | hab
    · exact key _ _ hab b.isLt h
    · exact (key _ _ hab a.isLt h.symm).symm
  let e : Word ≃ Fin 65536 := ⟨fun w => w.toFin, fun i => ⟨i⟩, fun _ => rfl, fun _ => rfl⟩
  have : Fintype Word := Fintype.ofEquiv _ e.symm
  have hcard : Fintype.card {w : Word // w ≠ 0} = 65535 := by
    rw [Fintype.card_subtype_compl, Fintype.card_subtype_eq]
    have : Fintype.card Word = 65536 := by
      rw [Fintype.card_congr e]; simp
    omega
  have hbij : Function.Bijective f := by
    rw [Fintype.bijective_iff_injective_and_card]
    exact ⟨finj, by rw [hcard]; simp⟩
  obtain ⟨n, hn⟩ := hbij.2 ⟨x, hx⟩
  exact ⟨n.val, n.isLt, congrArg Subtype.val hn⟩

/-! ### The property -/

/-- srand establishes a non-zero state; 0 is treated like 1. -/
theorem C13_srand (seed : Word) : srand seed ≠ 0 ∧ srand 0 = srand 1 := by
  refine ⟨?_, by decide⟩
  unfold srand
  split
  · decide
  · assumption

/-- rand never returns 0 after srand. -/
theorem C13_nonzero (seed : Word) (n : Nat) : randN n (srand seed) ≠ 0 := by
  intro h
  exact (C13_srand seed).1 (randN_inj (n := n) (by rw [h, randN_zero]))

/-- The results of the calls number `i` and `j` after srand are equal exactly when `i` and
`j` differ by a multiple of 65535: the period is exactly 65535 for every seed. -/
theorem C13_period (seed : Word) (i j : Nat) :
    randN i (srand seed) = randN j (srand seed) ↔ i % 65535 = j % 65535 := by
  obtain ⟨s, _, hs⟩ := reach_all (srand seed) (C13_srand seed).1
  have fix : ∀ k, randN (k * 65535) (srand seed) = srand seed := by
    intro k
    rw [← hs, ← randN_add, Nat.add_comm, randN_add, randN_mul_fix per_full]
  have key : ∀ a b : Nat, a ≤ b → randN a (srand seed) = randN b (srand seed) →
      65535 ∣ (b - a) := by
    intro a b hab h
    have hb : b = (b - a) + a := by omega
    rw [hb, randN_add] at h
    have h2 := randN_inj h
    rw [← hs, ← randN_add, Nat.add_comm, randN_add] at h2
    exact per_one _ (randN_inj h2.symm)
  have red : ∀ a : Nat, randN a (srand seed) = randN (a % 65535) (srand seed) := by
    intro a
    have := Nat.div_add_mod a 65535
    conv => lhs; rw [← this, randN_add, Nat.mul_comm, fix]
  constructor
  · intro h
    rcases Nat.le_total i j with hij | hij
    · have := key i j hij h; omega
    · have := key j i hij h.symm; omega
  · intro h; rw [red i, red j, h]

/-- Every non-zero 16-bit value is produced once per cycle, whatever the seed. -/
theorem C13_all_values (seed v : Word) (hv : v ≠ 0) :
    ∃ n, n < 65535 ∧ randN n (srand seed) = v ∧
      ∀ n', n' < 65535 → randN n' (srand seed) = v → n' = n := by
  obtain ⟨s, hs, es⟩ := reach_all (srand seed) (C13_srand seed).1
  obtain ⟨t, ht, et⟩ := reach_all v hv
  refine ⟨(65535 - s + t) % 65535, Nat.mod_lt _ (by omega), ?_, ?_⟩
  · have := (C13_period seed ((65535 - s + t) % 65535) (65535 - s + t)).2 (by simp)
    rw [this, ← es, ← randN_add, ← Nat.add_assoc, show s + (65535 - s) = 65535 by omega,
      randN_add, per_full, et]
  · intro n' hn' h'
    have : randN n' (srand seed) = randN ((65535 - s + t) % 65535) (srand seed) := by
      have := (C13_period seed ((65535 - s + t) % 65535) (65535 - s + t)).2 (by simp)
      rw [h', this, ← es, ← randN_add, ← Nat.add_assoc, show s + (65535 - s) = 65535 by omega,
        randN_add, per_full, et]
    have := (C13_period seed _ _).1 this
    rw [Nat.mod_mod, Nat.mod_eq_of_lt hn'] at this
    exact this

-- a concrete seed and value
example : (0x1234#16 : Word) ≠ 0 ∧ rand (srand 0) = 0xb400#16 := by decide

end Cmm.Stdlib
