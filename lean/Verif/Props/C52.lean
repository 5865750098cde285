import Verif.Tac.Machine
import Mathlib.Tactic.IntervalCases

/-
C52: multiplication, division and remainder by powers of two.

Model: Verif/Tac/Model.lean (isPower2, vmMul, vmDiv, vmMod, cal, rcal), executed by
Verif/Tac/Machine.lean.

vmMul, vmDiv and vmMod print SHLA, SHRA and AND instead of MUL, DIV and MOD if an operand is a
constant power of two. For MUL the result is the same for every x. For DIV and MOD it is the same
exactly if x is not negative or divisible by the constant: `-1 / 2` gives -1, `-1 % 2` gives 1.
The repository does not say what the instructions DIV and MOD of the processor do with negative
numbers; the claim is about truncated division (the optimizer, src/optree.c, computes `-1 / 2`
with the division of C, so it already differs from the code for a variable that is -1).
-/
namespace Cmm.Tac

/-! ### The recognised constants -/

theorem isPower2Loop_spec (n : Int) (k i : Nat) :
    (∃ j : Nat, i ≤ j ∧ j < i + k ∧ n = 2 ^ j ∧ isPower2Loop n k i (2 ^ i) = j) ∨
      ((∀ j : Nat, i ≤ j → j < i + k → n ≠ 2 ^ j) ∧ isPower2Loop n k i (2 ^ i) = -1) := by
  induction k generalizing i with
  | zero => exact .inr ⟨fun j h1 h2 => by omega, rfl⟩
  | succ k ih =>
    unfold isPower2Loop
    by_cases h : n = 2 ^ i
    · rw [if_pos h]
      exact .inl ⟨i, by omega, by omega, h, rfl⟩
    · rw [if_neg h]
      have e : ((i : Int) + 1) = ((i + 1 : Nat) : Int) := by omega
      rw [e, ← Int.pow_succ]
      rcases ih (i + 1) with ⟨j, h1, h2, h3, h4⟩ | ⟨h1, h2⟩
      · exact .inl ⟨j, by omega, by omega, h3, h4⟩
      · refine .inr ⟨fun j a b => ?_, h2⟩
        by_cases hj : j = i
        · rw [hj]; exact h
        · exact h1 j (by omega) (by omega)

/-- isPower2 recognises exactly the powers of two up to 2^14 and returns the exponent. -/
theorem C52_isPower2 (n : Int) (k : Nat) : isPower2 n = k ↔ k < 15 ∧ n = 2 ^ k := by
  rcases isPower2Loop_spec n 15 0 with ⟨j, h1, h2, h3, h4⟩ | ⟨h1, h2⟩
  · have h4 : isPower2 n = j := h4
    rw [h4]
    constructor
    · intro e
      have : j = k := by omega
      rw [← this]; exact ⟨by omega, h3⟩
    · rintro ⟨hk, e⟩
      rw [h3] at e
      have e : (2 ^ j : Nat) = 2 ^ k := by exact_mod_cast e
      rw [Nat.pow_right_injective (Nat.le_refl 2) e]
  · have h2 : isPower2 n = -1 := h2
    rw [h2]
    constructor
    · intro e; omega
    · rintro ⟨hk, e⟩
      exact absurd e (h1 k (by omega) (by omega))

example : isPower2 16384 = 14 ∧ isPower2 32768 = -1 ∧ isPower2 0 = -1 ∧ isPower2 12 = -1 := by
  decide

theorem isPower2_pos {n : Int} (h : isPower2 n > 0) :
    ∃ k : Nat, 0 < k ∧ k < 15 ∧ n = 2 ^ k ∧ isPower2 n = k := by
  obtain ⟨k, hk⟩ : ∃ k : Nat, isPower2 n = k := ⟨(isPower2 n).toNat, by omega⟩
  have := (C52_isPower2 n k).1 hk
  exact ⟨k, by omega, this.1, this.2, hk⟩

/-! ### The operations on words -/

theorem ofInt_pow (k : Nat) : BitVec.ofInt 16 (2 ^ k) = BitVec.ofNat 16 (2 ^ k) := by
  rw [show (2 ^ k : Int) = ((2 ^ k : Nat) : Int) by simp, BitVec.ofInt_natCast]

theorem toNat_ofInt_small {k : Nat} (h : k < 65536) : (BitVec.ofInt 16 k).toNat = k := by
  rw [BitVec.ofInt_natCast]; simp; omega

theorem pow_small {k : Nat} (hk : k < 15) : 2 ^ k < 32768 := by
  have := Nat.pow_le_pow_right (n := 2) (by omega) (show k ≤ 14 by omega)
  omega

/-- Shifting left multiplies, for every x. -/
theorem C52_mul (E : Env) (x : Word) {k : Nat} (hk : k < 15) :
    alu E .SHLA x (BitVec.ofInt 16 k) = alu E .MUL x (BitVec.ofInt 16 (2 ^ k)) := by
  show x <<< (BitVec.ofInt 16 k).toNat = x * BitVec.ofInt 16 (2 ^ k)
  rw [toNat_ofInt_small (by omega), ofInt_pow]
  apply BitVec.eq_of_toNat_eq
  have h : 2 ^ k % 2 ^ 16 = 2 ^ k := Nat.mod_eq_of_lt (by have := pow_small hk; omega)
  rw [BitVec.toNat_shiftLeft, BitVec.toNat_mul, Nat.shiftLeft_eq, BitVec.toNat_ofNat, h]

theorem toInt_pow {k : Nat} (hk : k < 15) : (BitVec.ofInt 16 (2 ^ k)).toInt = 2 ^ k := by
  have := pow_small hk
  have h : (2 ^ k : Int) = ((2 ^ k : Nat) : Int) := by simp
  rw [BitVec.toInt_ofInt, h]
  generalize 2 ^ k = n at *
  apply Int.bmod_eq_of_le <;> omega

theorem toInt_range (x : Word) : -32768 ≤ x.toInt ∧ x.toInt < 32768 := by
  have h1 := BitVec.le_toInt x
  have h2 := BitVec.toInt_lt (x := x)
  omega

/-- Shifting right divides and rounds towards minus infinity. -/
theorem shra_toInt (E : Env) (x : Word) {k : Nat} (hk : k < 15) :
    (alu E .SHRA x (BitVec.ofInt 16 k)).toInt = x.toInt / 2 ^ k := by
  show (x.sshiftRight (BitVec.ofInt 16 k).toNat).toInt = _
  rw [toNat_ofInt_small (by omega), BitVec.toInt_sshiftRight, Int.shiftRight_eq_div_pow]
  simp

theorem sdiv_toInt (x : Word) {k : Nat} (h0 : 0 < k) (hk : k < 15) :
    (x.sdiv (BitVec.ofInt 16 (2 ^ k))).toInt = x.toInt.tdiv (2 ^ k) := by
  rw [BitVec.toInt_sdiv, toInt_pow hk]
  have hr := toInt_range x
  have h1 := Int.natAbs_tdiv_le_natAbs x.toInt (2 ^ k)
  have h2 : (2 : Int) ≤ 2 ^ k := by
    have : (2 : Nat) ^ 1 ≤ 2 ^ k := Nat.pow_le_pow_right (by omega) (by omega)
    exact_mod_cast this
  by_cases hx : x.toInt = -32768
  · have : x.toInt.tdiv (2 ^ k) ≤ 0 := by
      have h3 := Int.tdiv_nonneg (a := -x.toInt) (b := 2 ^ k) (by omega) (by omega)
      rw [Int.neg_tdiv] at h3
      omega
    apply Int.bmod_eq_of_le <;> omega
  · apply Int.bmod_eq_of_le <;> omega

/-- The shift gives the truncated quotient exactly for the x that are not negative or are
divisible by the constant. -/
theorem C52_div_partial (E : Env) (x : Word) {k : Nat} (h0 : 0 < k) (hk : k < 15) :
    alu E .SHRA x (BitVec.ofInt 16 k) = x.sdiv (BitVec.ofInt 16 (2 ^ k)) ↔
      0 ≤ x.toInt ∨ (2 ^ k : Int) ∣ x.toInt := by
  rw [← BitVec.toInt_inj, shra_toInt E x hk, sdiv_toInt x h0 hk, Int.tdiv_eq_ediv]
  have hs : (2 ^ k : Int).sign = 1 := Int.sign_eq_one_of_pos (Int.pow_pos (by omega))
  rw [hs]
  by_cases h : 0 ≤ x.toInt ∨ (2 ^ k : Int) ∣ x.toInt
  · simp [h]
  · simp [h]

theorem and_toNat (E : Env) (x : Word) {k : Nat} (hk : k < 15) :
    (alu E .AND x (BitVec.ofInt 16 (2 ^ k - 1))).toNat = x.toNat % 2 ^ k := by
  have h1 := pow_small hk
  have hp : 0 < 2 ^ k := Nat.pow_pos (by omega)
  show (x &&& BitVec.ofInt 16 (2 ^ k - 1)).toNat = _
  have h : (2 ^ k - 1 : Int) = ((2 ^ k - 1 : Nat) : Int) := by
    rw [Int.natCast_sub (by omega)]; simp
  rw [BitVec.toNat_and, h, toNat_ofInt_small (by omega), Nat.and_two_pow_sub_one_eq_mod]

/-- The mask gives the remainder of the division that rounds towards minus infinity. -/
theorem and_toInt (E : Env) (x : Word) {k : Nat} (hk : k < 15) :
    (alu E .AND x (BitVec.ofInt 16 (2 ^ k - 1))).toInt = x.toInt % 2 ^ k := by
  have h1 := and_toNat E x hk
  have h2 := pow_small hk
  have hp : 0 < 2 ^ k := Nat.pow_pos (by omega)
  have h3 := Nat.mod_lt x.toNat hp
  rw [BitVec.toInt_eq_toNat_of_lt (by omega), h1]
  rw [BitVec.toInt_eq_toNat_cond]
  split
  · simp
  · have hd : (65536 : Int) = 2 ^ k * 2 ^ (16 - k) := by
      rw [← Int.pow_add, show k + (16 - k) = 16 by omega]; rfl
    rw [show ((2 ^ 16 : Nat) : Int) = 65536 by rfl, hd, Int.sub_mul_emod_self_left]
    simp

theorem srem_toInt (x : Word) {k : Nat} (hk : k < 15) :
    (x.srem (BitVec.ofInt 16 (2 ^ k))).toInt = x.toInt.tmod (2 ^ k) := by
  rw [BitVec.toInt_srem, toInt_pow hk]

/-- The mask gives the remainder of truncated division exactly for the same x. -/
theorem C52_mod_partial (E : Env) (x : Word) {k : Nat} (hk : k < 15) :
    alu E .AND x (BitVec.ofInt 16 (2 ^ k - 1)) = x.srem (BitVec.ofInt 16 (2 ^ k)) ↔
      0 ≤ x.toInt ∨ (2 ^ k : Int) ∣ x.toInt := by
  rw [← BitVec.toInt_inj, and_toInt E x hk, srem_toInt x hk, Int.tmod_eq_emod]
  have hp : (0 : Int) < 2 ^ k := Int.pow_pos (by omega)
  by_cases h : 0 ≤ x.toInt ∨ (2 ^ k : Int) ∣ x.toInt
  · simp [h]
  · rw [if_neg h]
    constructor
    · intro e; omega
    · intro e; exact absurd e h

/-- The claim for every x fails: -1 / 2 and -1 % 2. -/
theorem C52_div_false (E : Env) :
    alu E .SHRA (-1) (BitVec.ofInt 16 1) ≠ BitVec.sdiv (-1) (BitVec.ofInt 16 (2 ^ 1)) ∧
      alu E .AND (-1) (BitVec.ofInt 16 (2 ^ 1 - 1)) ≠ BitVec.srem (-1) (BitVec.ofInt 16 (2 ^ 1)) := by
  constructor
  · exact fun h => absurd ((C52_div_partial E (-1) (k := 1) (by omega) (by omega)).1 h) (by decide)
  · exact fun h => absurd ((C52_mod_partial E (-1) (k := 1) (by omega)).1 h) (by decide)

/-- Unsigned division does not agree either: 32768 / 2. -/
theorem C52_udiv_false (E : Env) :
    alu E .SHRA 32768 (BitVec.ofInt 16 1) ≠ BitVec.udiv 32768 (BitVec.ofInt 16 (2 ^ 1)) := by
  show BitVec.sshiftRight (32768#16) 1 ≠ _
  decide

example : (0 : Int) ≤ (12345 : Word).toInt ∧ ¬ (8 : Int) ∣ (12345 : Word).toInt := by decide

/-! ### The printed code -/

/-- An entry on top of the virtual stack. -/
def lift (e : Ent) (t : T) : T := { t with stk := e :: t.stk }

/-- A constant. -/
def cst (c : Int) : Ent := ⟨.CNST, c⟩

theorem get_lift {e : Ent} {es : List Ent} {p : Nat} (h : p ≠ es.length) :
    get (e :: es) p = get es p := by simp [get, h]

theorem put_lift {e x : Ent} {es : List Ent} {p : Nat} (h : p ≠ es.length) :
    put (e :: es) p x = e :: put es p x := by simp [put, h]

theorem loadFlg_lift (c : Int) (r : Int) {p : Nat} (t : T) (h : p ≠ t.stk.length) :
    loadFlg r p (lift (cst c) t) = (loadFlg r p t).map (lift (cst c)) := by
  unfold loadFlg
  simp only [lift, get_lift h]
  cases get t.stk p with
  | none => rfl
  | some e =>
    simp only [Option.bind_eq_bind, Option.bind_some]
    rw [apply_ite (Option.map _)]; rfl

theorem calReg_lift (c : Int) (o : TOp) (r : Int) {p : Nat} (t : T) (h : p ≠ t.stk.length) :
    calReg o r p (lift (cst c) t) = (calReg o r p t).map (lift (cst c)) := by
  unfold calReg
  simp only [lift, get_lift h]
  cases get t.stk p with
  | none => rfl
  | some e =>
    simp only [Option.bind_eq_bind, Option.bind_some]
    cases operand e <;> rfl

theorem loadReg_lift (c : Int) (r : Int) {p : Nat} (t : T) (h : p ≠ t.stk.length) :
    loadReg r p (lift (cst c) t) = (loadReg r p t).map (lift (cst c)) := by
  unfold loadReg
  simp only [calReg_lift c .LD r t h, loadFlg_lift c r t h]
  simp only [lift, get_lift h]
  cases get t.stk p with
  | none => rfl
  | some e =>
    simp only [Option.bind_eq_bind, Option.bind_some]
    rw [apply_ite (Option.map _), apply_ite (Option.map _), apply_ite (Option.map _)]; rfl

theorem relAcc_lift (c : Int) (a : Int) (t : T) :
    relAcc a (lift (cst c) t) = (relAcc a t).map (lift (cst c)) := by
  unfold relAcc
  rw [apply_ite (Option.map _)]; rfl

theorem allocAcc_lift (c : Int) (t : T) :
    allocAcc (lift (cst c) t) = (allocAcc t).map fun x => (x.1, lift (cst c) x.2) := by
  unfold allocAcc
  rw [apply_ite (Option.map _), apply_ite (Option.map _), apply_ite (Option.map _)]; rfl

theorem get_length {es : List Ent} {p : Nat} (h : es.length ≤ p) : get es p = none := by
  induction es with
  | nil => rfl
  | cons e es ih =>
    simp only [List.length_cons] at h
    unfold get
    rw [if_neg (by omega)]
    exact ih (by omega)

theorem srch_lt {es : List Ent} {p : Nat} (h : srchAcc es = some p) : p < es.length := by
  induction es with
  | nil => cases h
  | cons e es ih =>
    unfold srchAcc at h
    simp only [List.length_cons]
    cases h1 : srchAcc es with
    | some q => rw [h1] at h; cases h; have := ih h1; omega
    | none =>
      rw [h1] at h
      simp only at h
      split at h
      · cases h; omega
      · cases h

theorem outStk_lift (c : Int) (t : T) :
    outStk (lift (cst c) t) = (outStk t).map (lift (cst c)) := by
  unfold outStk
  have hs : srchAcc (lift (cst c) t).stk = srchAcc t.stk := by
    show srchAcc (cst c :: t.stk) = _
    simp only [srchAcc]
    have : isAcc (cst c) = false := rfl
    cases srchAcc t.stk <;> simp [this]
  rw [hs]
  cases h : srchAcc t.stk with
  | none => rfl
  | some p =>
    have hp := srch_lt h
    have hne : p ≠ t.stk.length := by omega
    have hg : get (lift (cst c) t).stk p = get t.stk p := get_lift hne
    simp only [Option.bind_eq_bind, Option.bind_some]
    rw [hg]
    cases h1 : get t.stk p with
    | none => rfl
    | some e =>
      simp only [Option.bind_some]
      rw [loadReg_lift c e.aux t hne]
      have key : ∀ t1 : T, t1.stk.length = t.stk.length →
          (relAcc e.aux ((lift (cst c) t1).print (.push (.g e.aux)))).bind (fun t =>
            some { t with stk := put t.stk p ⟨.STK, e.aux⟩ }) =
          Option.map (lift (cst c)) ((relAcc e.aux (t1.print (.push (.g e.aux)))).bind (fun t =>
            some { t with stk := put t.stk p ⟨.STK, e.aux⟩ })) := by
        intro t1 hl
        have : (lift (cst c) t1).print (.push (.g e.aux)) =
          lift (cst c) (t1.print (.push (.g e.aux))) := rfl
        rw [this, relAcc_lift]
        unfold relAcc
        split
        · rfl
        · simp only [Option.map_some, Option.bind_some, lift, T.print, put]
          rw [if_neg (by omega)]
      split
      · cases h2 : loadReg e.aux p t with
        | none => rfl
        | some t1 =>
          simp only [Option.map_some, Option.bind_some]
          apply key
          revert h2
          unfold loadReg loadFlg calReg
          rw [h1]
          simp only [Option.bind_eq_bind, Option.bind_some]
          intro h2
          split at h2
          · cases h2; rfl
          · split at h2
            · split at h2
              · cases h2
              · cases h2; rfl
            · split at h2
              · cases h2
              · cases h3 : operand e with
                | none => rw [h3] at h2; cases h2
                | some s => rw [h3] at h2; cases h2; rfl
      · exact key t rfl

theorem loadReg_stk {r : Int} {p : Nat} {t t' : T} (h : loadReg r p t = some t') : t'.stk = t.stk := by
  unfold loadReg loadFlg calReg at h
  cases h1 : get t.stk p with
  | none => rw [h1] at h; cases h
  | some e =>
    rw [h1] at h
    simp only [Option.bind_eq_bind, Option.bind_some] at h
    split at h
    · cases h; rfl
    · split at h
      · split at h
        · cases h
        · cases h; rfl
      · split at h
        · cases h
        · cases h3 : operand e with
          | none => rw [h3] at h; cases h
          | some s => rw [h3] at h; cases h; rfl

theorem put_length (es : List Ent) (p : Nat) (x : Ent) : (put es p x).length = es.length := by
  induction es with
  | nil => rfl
  | cons e es ih =>
    unfold put
    split
    · rfl
    · simp [ih]

theorem outStk_length {t t' : T} (h : outStk t = some t') : t'.stk.length = t.stk.length := by
  unfold outStk at h
  cases h1 : srchAcc t.stk with
  | none => rw [h1] at h; cases h
  | some p =>
    rw [h1] at h
    simp only [Option.bind_eq_bind, Option.bind_some] at h
    cases h2 : get t.stk p with
    | none => rw [h2] at h; cases h
    | some e =>
      rw [h2] at h
      simp only [Option.bind_some] at h
      have key : ∀ t1 : T, t1.stk = t.stk →
          (relAcc e.aux (t1.print (.push (.g e.aux)))).bind (fun t =>
            some { t with stk := put t.stk p ⟨.STK, e.aux⟩ }) = some t' →
          t'.stk.length = t.stk.length := by
        intro t1 hs h
        unfold relAcc at h
        split at h
        · cases h
        · cases h
          simp only [put_length, T.print, hs]
      split at h
      · cases h3 : loadReg e.aux p t with
        | none => rw [h3] at h; cases h
        | some t1 =>
          rw [h3] at h
          exact key t1 (loadReg_stk h3) h
      · exact key t rfl h

theorem allocAcc_stk {t : T} {x : Int × T} (h : allocAcc t = some x) : x.2.stk = t.stk := by
  unfold allocAcc at h
  split at h
  · cases h; rfl
  · split at h
    · cases h; rfl
    · split at h
      · cases h; rfl
      · cases h

/-- Loading the entry below a constant. -/
theorem loadStk_lift (c : Int) (t : T) :
    loadStk 1 (lift (cst c) t) = (loadStk 0 t).map (lift (cst c)) := by
  unfold loadStk
  have hl : (lift (cst c) t).stk.length = t.stk.length + 1 := rfl
  rw [hl]
  by_cases h : t.stk.length ≤ 0
  · rw [if_pos h, if_pos (by omega)]; rfl
  · rw [if_neg h, if_neg (by omega)]
    have e1 : t.stk.length + 1 - 1 - 1 = t.stk.length - 1 - 0 := by omega
    rw [e1]
    have hne : t.stk.length - 1 - 0 ≠ t.stk.length := by omega
    have hg : get (lift (cst c) t).stk (t.stk.length - 1 - 0) = get t.stk (t.stk.length - 1 - 0) :=
      get_lift hne
    simp only [hg]
    cases h1 : get t.stk (t.stk.length - 1 - 0) with
    | none => rfl
    | some e =>
      simp only [Option.bind_eq_bind, Option.bind_some]
      split
      · rfl
      · have key : ∀ (a : Int) (t1 : T), t1.stk.length = t.stk.length →
            (loadReg a (t.stk.length - 1 - 0) (lift (cst c) t1)).bind (fun t' =>
              some { t' with stk := put t'.stk (t.stk.length - 1 - 0) ⟨.ACC, a⟩ }) =
            Option.map (lift (cst c)) ((loadReg a (t.stk.length - 1 - 0) t1).bind (fun t' =>
              some { t' with stk := put t'.stk (t.stk.length - 1 - 0) ⟨.ACC, a⟩ })) := by
          intro a t1 hl1
          rw [loadReg_lift c a t1 (by omega)]
          cases h2 : loadReg a (t.stk.length - 1 - 0) t1 with
          | none => rfl
          | some t2 =>
            have := loadReg_stk h2
            simp only [Option.map_some, Option.bind_some, lift, put]
            rw [if_neg (by rw [this]; omega)]
        split
        · exact key _ t rfl
        · have hcnt : (lift (cst c) t).cnt = t.cnt := rfl
          rw [hcnt]
          split
          · rw [outStk_lift]
            cases h2 : outStk t with
            | none => rfl
            | some t1 =>
              have hl1 := outStk_length h2
              simp only [Option.map_some, Option.bind_some]
              rw [allocAcc_lift]
              cases h3 : allocAcc t1 with
              | none => rfl
              | some x =>
                simp only [Option.map_some, Option.bind_some]
                exact key _ _ (by rw [allocAcc_stk h3, hl1])
          · simp only [Option.bind_some]
            rw [allocAcc_lift]
            cases h3 : allocAcc t with
            | none => rfl
            | some x =>
              simp only [Option.map_some, Option.bind_some]
              exact key _ _ (by rw [allocAcc_stk h3])

/-- clearFlg below a constant. -/
def clearLow (t : T) : Option T :=
  if t.flg = some t.stk.length then some { t with flg := none } else clearFlg t

theorem clearFlg_lift (c : Int) (t : T) :
    clearFlg (lift (cst c) t) = (clearLow t).map (lift (cst c)) := by
  unfold clearLow clearFlg
  have hf : (lift (cst c) t).flg = t.flg := rfl
  rw [hf]
  cases h : t.flg with
  | none => rfl
  | some p =>
    by_cases hp : p = t.stk.length
    · subst hp
      rw [if_pos rfl]
      have : get (lift (cst c) t).stk t.stk.length = some (cst c) := by simp [lift, get]
      show (get (lift (cst c) t).stk t.stk.length).bind _ = _
      rw [this]
      rfl
    · have hne : some p ≠ some t.stk.length := by simpa using hp
      rw [if_neg hne]
      have hg : get (lift (cst c) t).stk p = get t.stk p := get_lift hp
      simp only [hg]
      cases h1 : get t.stk p with
      | none => rfl
      | some e =>
        simp only [Option.bind_eq_bind, Option.bind_some]
        split
        · rw [loadFlg_lift c _ t hp]
          cases h2 : loadFlg e.aux p t with
          | none => rfl
          | some t1 =>
            have hs : t1.stk = t.stk := by
              unfold loadFlg at h2
              rw [h1] at h2
              simp only [Option.bind_eq_bind, Option.bind_some] at h2
              split at h2
              · cases h2
              · cases h2; rfl
            simp only [Option.map_some, Option.bind_some, lift, put]
            rw [if_neg (by rw [hs]; exact hp)]
        · rfl

theorem loadStk0_top {t t' : T} (h : loadStk 0 t = some t') :
    ∃ e es, t'.stk = e :: es := by
  have hl : t'.stk.length = t.stk.length ∧ ¬ t.stk.length ≤ 0 := by
    unfold loadStk at h
    split at h
    · cases h
    · rename_i hn
      refine ⟨?_, hn⟩
      simp only [Option.bind_eq_bind] at h
      cases h1 : get t.stk (t.stk.length - 1 - 0) with
      | none => rw [h1] at h; cases h
      | some e =>
        rw [h1] at h
        simp only [Option.bind_some] at h
        split at h
        · cases h; rfl
        · have key : ∀ (a : Int) (t1 : T), t1.stk.length = t.stk.length →
              (loadReg a (t.stk.length - 1 - 0) t1).bind (fun t' =>
                some { t' with stk := put t'.stk (t.stk.length - 1 - 0) ⟨.ACC, a⟩ }) = some t' →
              t'.stk.length = t.stk.length := by
            intro a t1 hl1 h
            cases h4 : loadReg a (t.stk.length - 1 - 0) t1 with
            | none => rw [h4] at h; cases h
            | some t2 =>
              rw [h4] at h
              cases h
              simp only [put_length, loadReg_stk h4, hl1]
          split at h
          · exact key _ t rfl h
          · cases h3 : (if t.cnt ≥ AccSIZ then outStk t else some t) with
            | none => rw [h3] at h; cases h
            | some t1 =>
              have hl1 : t1.stk.length = t.stk.length := by
                split at h3
                · exact outStk_length h3
                · cases h3; rfl
              rw [h3] at h
              simp only [Option.bind_some] at h
              cases h4 : allocAcc t1 with
              | none => rw [h4] at h; cases h
              | some x =>
                rw [h4] at h
                exact key x.1 x.2 (by rw [allocAcc_stk h4, hl1]) h
  cases h1 : t'.stk with
  | nil => rw [h1] at hl; simp only [List.length_nil] at hl; omega
  | cons e es => exact ⟨e, es, rfl⟩

/-- cal with a constant on top: the code printed before the operation depends neither on the
constant nor on the operation. -/
theorem cal_cst (o : TOp) (c : Int) (t : T) :
    cal o (lift (cst c) t) = ((clearLow t).bind (loadStk 0)).bind fun t1 =>
      t1.stk.head?.bind fun e1 => some { t1 with
        out := t1.out ++ [.op o (.g e1.aux) (.imm c)]
        flg := some (t1.stk.length - 1) } := by
  unfold cal
  rw [clearFlg_lift]
  cases h1 : clearLow t with
  | none => rfl
  | some t1 =>
    simp only [Option.bind_eq_bind, Option.map_some, Option.bind_some]
    rw [loadStk_lift]
    cases h2 : loadStk 0 t1 with
    | none => rfl
    | some t2 =>
      obtain ⟨e, es, hs⟩ := loadStk0_top h2
      simp [top, sec, lift, hs, cst, calReg, get, operand, relTop, isAcc, popStk, T.print, T.ptr]

/-- The value in register `r` after a line. -/
def resultOf (E : Env) (m : M) (r : Int) (l : Line) : Option Word :=
  (m.line E l).map fun m' => m'.g r

/-- Specification: two runs of the translator print the same code but for the last line, and the
two last lines leave values related by `R` in the same register, whatever the state of the
machine before them. -/
def SameBut (E : Env) (R : Word → Word → Word → Prop) (t1 t2 : T) : Prop :=
  ∃ pre l1 l2 r, t1.out = pre ++ [l1] ∧ t2.out = pre ++ [l2] ∧ t1.stk = t2.stk ∧
    t1.bsy = t2.bsy ∧ t1.cnt = t2.cnt ∧
    ∀ m, ∃ y1 y2, resultOf E m r l1 = some y1 ∧ resultOf E m r l2 = some y2 ∧ R (m.g r) y1 y2

theorem resultOf_op (E : Env) (m : M) (r : Int) (o : TOp) (c : Int) :
    resultOf E m r (.op o (.g r) (.imm c)) = some (alu E o (m.g r) (BitVec.ofInt 16 c)) := by
  simp [resultOf, M.line, M.doOp, M.setReg, setG, M.reg, srcVal]

theorem cal_sameBut (E : Env) {o1 o2 : TOp} {c1 c2 : Int} {t t1 t2 : T}
    (R : Word → Word → Word → Prop)
    (h : ∀ x, R x (alu E o1 x (BitVec.ofInt 16 c1)) (alu E o2 x (BitVec.ofInt 16 c2)))
    (h1 : cal o1 (lift (cst c1) t) = some t1) (h2 : cal o2 (lift (cst c2) t) = some t2) :
    SameBut E R t1 t2 := by
  rw [cal_cst] at h1 h2
  cases hp : (clearLow t).bind (loadStk 0) with
  | none => rw [hp] at h1; cases h1
  | some t0 =>
    rw [hp] at h1 h2
    simp only [Option.bind_some] at h1 h2
    cases he : t0.stk.head? with
    | none => rw [he] at h1; cases h1
    | some e =>
      rw [he] at h1 h2
      simp only [Option.bind_some, Option.some.injEq] at h1 h2
      subst h1 h2
      exact ⟨t0.out, _, _, e.aux, rfl, rfl, rfl, rfl, rfl, fun m =>
        ⟨_, _, resultOf_op E m e.aux o1 c1, resultOf_op E m e.aux o2 c2, h _⟩⟩

theorem lift_top {t : T} {e : Ent} {es : List Ent} (h : t.stk = e :: es) :
    t = lift e { t with stk := es } := by
  cases t; simp only at h; subst h; rfl

/-- Multiplication by a constant on the right: vmMul prints the code of the general operation
except for the last line, and the result is the same. -/
theorem C52_vmMul (E : Env) {t t1 t2 : T} {c : Int} {es : List Ent} (hs : t.stk = cst c :: es)
    (hp : isPower2 c > 0) (h1 : vmMul t = some t1) (h2 : cal .MUL t = some t2) :
    SameBut E (fun _ y1 y2 => y1 = y2) t1 t2 := by
  obtain ⟨k, h0, hk, rfl, he⟩ := isPower2_pos hp
  unfold vmMul at h1
  rw [lift_top hs] at h1 h2
  have : ∃ e1, sec (lift (cst (2 ^ k)) { t with stk := es }) = some e1 := by
    cases es with
    | nil => simp [top, sec, lift] at h1
    | cons e es => exact ⟨e, rfl⟩
  obtain ⟨e1, hsec⟩ := this
  rw [hsec] at h1
  simp only [top, lift, cst, Option.bind_eq_bind, List.head?_cons, Option.bind_some,
    show isPower2 (2 ^ k) > 0 from hp, and_self, if_true, setTop, List.drop_succ_cons,
    List.drop_zero] at h1
  rw [he] at h1
  exact cal_sameBut E (t := { t with stk := es }) _ (fun x => C52_mul E x hk) h1 h2

/-- Division by a constant. -/
theorem C52_vmDiv_partial (E : Env) (hd : ∀ x y, E.div x y = x.sdiv y) {t t1 t2 : T} {c : Int}
    {es : List Ent} (hs : t.stk = cst c :: es) (hp : isPower2 c > 0) (h1 : vmDiv t = some t1)
    (h2 : cal .DIV t = some t2) :
    SameBut E (fun x y1 y2 => y1 = y2 ↔ 0 ≤ x.toInt ∨ c ∣ x.toInt) t1 t2 := by
  obtain ⟨k, h0, hk, rfl, he⟩ := isPower2_pos hp
  unfold vmDiv at h1
  rw [lift_top hs] at h1 h2
  simp only [top, lift, cst, Option.bind_eq_bind, List.head?_cons, Option.bind_some,
    show isPower2 (2 ^ k) > 0 from hp, and_self, if_true, setTop, List.drop_succ_cons,
    List.drop_zero] at h1
  rw [he] at h1
  refine cal_sameBut E (t := { t with stk := es }) _ (fun x => ?_) h1 h2
  show _ = E.div _ _ ↔ _
  rw [hd]
  exact C52_div_partial E x h0 hk

/-- Remainder with a constant. -/
theorem C52_vmMod_partial (E : Env) (hd : ∀ x y, E.mod x y = x.srem y) {t t1 t2 : T} {c : Int}
    {es : List Ent} (hs : t.stk = cst c :: es) (hp : isPower2 c > 0) (h1 : vmMod t = some t1)
    (h2 : cal .MOD t = some t2) :
    SameBut E (fun x y1 y2 => y1 = y2 ↔ 0 ≤ x.toInt ∨ c ∣ x.toInt) t1 t2 := by
  obtain ⟨k, h0, hk, rfl, he⟩ := isPower2_pos hp
  unfold vmMod at h1
  rw [lift_top hs] at h1 h2
  have hsec : ∃ e1, sec (lift (cst (2 ^ k)) { t with stk := es }) = some e1 := by
    cases es with
    | nil => simp [top, sec, lift, cst, rcal, setTop, show isPower2 (2 ^ k) > 0 from hp] at h1
    | cons e es => exact ⟨e, rfl⟩
  obtain ⟨e1, hsec⟩ := hsec
  simp only [top, lift, cst, Option.bind_eq_bind, List.head?_cons, Option.bind_some,
    show isPower2 (2 ^ k) > 0 from hp, and_self, if_true, setTop, List.drop_succ_cons,
    List.drop_zero, he, Int.toNat_natCast, rcal, sec, List.tail_cons,
    show (k : Int) > 0 by omega] at h1
  have hsec : es.head? = some e1 := hsec
  simp only [hsec, Option.bind_some, reduceCtorEq, false_and, if_false] at h1
  refine cal_sameBut E (t := { t with stk := es }) _ (fun x => ?_) h1 h2
  show _ = E.mod _ _ ↔ _
  rw [hd]
  exact C52_mod_partial E x hk

/-- A constant on the left: vmMul exchanges the operands; the result is the product. -/
theorem C52_vmMul_left (E : Env) {t t1 t2 : T} {c : Int} {e0 : Ent} {es : List Ent}
    (hs : t.stk = e0 :: cst c :: es) (hp : isPower2 c > 0)
    (hn : ¬ (e0.sta = .CNST ∧ isPower2 e0.aux > 0)) (h1 : vmMul t = some t1)
    (h2 : cal .MUL (setTwo (cst c) e0 t) = some t2) :
    SameBut E (fun _ y1 y2 => y1 = y2) t1 t2 := by
  obtain ⟨k, h0, hk, rfl, he⟩ := isPower2_pos hp
  unfold vmMul at h1
  simp only [top, sec, hs, cst, Option.bind_eq_bind, List.head?_cons, Option.bind_some,
    List.tail_cons, if_neg hn, show isPower2 (2 ^ k) > 0 from hp, and_self, if_true, setTwo,
    List.drop_succ_cons, List.drop_zero, he, show (k : Int) > 0 by omega] at h1 h2
  exact cal_sameBut E (t := { t with stk := e0 :: es }) _ (fun x => C52_mul E x hk) h1 h2

/-- The hypotheses can be met: x * 8, x / 8 and x % 8 for a local variable in memory. -/
example :
    let t := { T.init with stk := [cst 8, ⟨.LVAR, 2⟩] }
    (vmMul t).isSome ∧ (cal .MUL t).isSome ∧ (vmDiv t).isSome ∧ (cal .DIV t).isSome ∧
      (vmMod t).isSome ∧ (cal .MOD t).isSome := by decide

example :
    let t := { T.init with stk := [⟨.LVAR, 2⟩, cst 8] }
    (vmMul t).map (·.out) = some [.op .LD (.g 0) (.fp (-2)), .op .SHLA (.g 0) (.imm 3)] := by decide

end Cmm.Tac
