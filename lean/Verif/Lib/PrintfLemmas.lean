import Verif.Lib.Printf
import Verif.Lib.StringLemmas
import Verif.Props.C15

/-! Lemmas about printf.cmm: every function writes a definite sequence of characters through putC. -/
namespace Cmm.Printf
open Cmm.Ctype Cmm.Str Cmm.Crt0

/-- Specification: the byte of an ASCII character. -/
def byte (c : Char) : Byte := BitVec.ofNat 8 c.toNat

/-- Specification: the standard notation of `n` in base `b`, most significant digit first, without leading zeros. -/
def numeral (b n : Nat) : List Byte := (Nat.toDigits b n).map byte

/-- Specification: writing the characters `bs` one after the other through `putC`. -/
def emit {σ : Type} (S : Strm σ) : List Byte → PS σ → E σ
  | [], s => .ok s
  | c :: cs, s => match putC S c s with
    | .error e => .error e
    | .ok s => emit S cs s

/-- The constant string of printf.cmm:73 is at `tab`. -/
def Tab (m : Mem) (tab : Word) : Prop := ∀ d < 16, m (off tab d) = byte (Nat.digitChar d)

/-- The operators `/` and `%` are right for dividends below `N` and divisors up to 16. -/
def Arith.OkTo (A : Arith) (N : Nat) : Prop :=
  ∀ x b : Word, x.toNat < N → 0 < b.toNat → b.toNat ≤ 16 →
    (A.div x b).toNat = x.toNat / b.toNat ∧ (A.mod x b).toNat = x.toNat % b.toNat

section
variable {σ : Type} {A : Arith} {S : Strm σ} {tab : Word}

/-- The parts of the state a `putC` leaves alone. -/
structure Same (s s' : PS σ) : Prop where
  mem : s'.mem = s.mem
  args : s'.args = s.args
  pos : s'.pos = s.pos

theorem Same.rfl {s : PS σ} : Same s s := ⟨by simp, by simp, by simp⟩
theorem Same.trans {a b c : PS σ} (h : Same a b) (h' : Same b c) : Same a c :=
  ⟨h'.mem.trans h.mem, h'.args.trans h.args, h'.pos.trans h.pos⟩

theorem putC_same {c : Byte} {s s' : PS σ} (h : putC S c s = .ok s') : Same s s' := by
  unfold putC at h
  split at h
  · cases h
  · split at h <;> injection h with h <;> subst h <;> exact ⟨rfl, rfl, rfl⟩

theorem emit_same {bs : List Byte} {s s' : PS σ} (h : emit S bs s = .ok s') : Same s s' := by
  induction bs generalizing s with
  | nil => injection h with h; subst h; exact .rfl
  | cons c cs ih =>
    rw [emit] at h
    split at h
    · cases h
    · rename_i s1 h1
      exact (putC_same h1).trans (ih h)

theorem emit_append (a b : List Byte) (s : PS σ) :
    emit S (a ++ b) s = match emit S a s with
      | .error e => .error e
      | .ok s => emit S b s := by
  induction a generalizing s with
  | nil => rfl
  | cons c cs ih =>
    simp only [List.cons_append, emit]
    cases h : putC S c s with
    | error e => simp
    | ok s1 => simp [ih]

theorem emit_one (c : Byte) (s : PS σ) : emit S [c] s = putC S c s := by
  simp only [emit]
  cases putC S c s <;> rfl

theorem seq_emit {a b : List Byte} {s : PS σ} {f : PS σ → R σ}
    (h : ∀ s', Same s s' → f s' = some (emit S b s')) :
    seq (some (emit S a s)) f = some (emit S (a ++ b) s) := by
  rw [emit_append]
  cases e : emit S a s with
  | error e => simp [seq]
  | ok s1 => simp [seq, h s1 (emit_same e)]

theorem seq_nil {s : PS σ} {f : PS σ → R σ} : seq (some (.ok s)) f = f s := by simp [seq]

/-! ### Padding -/

theorem putNLoop_spec (c : Byte) (n : Word) : ∀ (k : Nat) (i : Word) (s : PS σ), 0 ≤ i.toInt →
    (n.toInt - i.toInt).toNat = k →
    putNLoop S c n i s = some (emit S (List.replicate k c) s) := by
  intro k
  induction k with
  | zero =>
    intro i s hi hk
    rw [putNLoop, if_neg]
    · rfl
    · simp only [ilt, BitVec.slt_eq_decide, decide_eq_true_eq]; omega
  | succ k ih =>
    intro i s hi hk
    have hn : n.toInt < 2 ^ 15 := BitVec.toInt_lt
    have hlt : i.toInt < n.toInt := by omega
    have h1 : (i + 1).toInt = i.toInt + 1 := by
      rw [BitVec.toInt_add]
      have : (1 : BitVec 16).toInt = 1 := rfl
      rw [this, Int.bmod_def]
      omega
    rw [putNLoop, if_pos (by simp only [ilt, BitVec.slt_eq_decide, decide_eq_true_eq]; omega), List.replicate_succ, emit]
    cases putC S c s with
    | error e => rfl
    | ok s1 => exact ih (i + 1) s1 (by omega) (by omega)

theorem putN_spec (c : Byte) (n : Word) (s : PS σ) :
    putN S c n s = some (emit S (List.replicate n.toInt.toNat c) s) :=
  putNLoop_spec c n _ 0 s (by simp) (by simp)

/-- The number of pad characters `w - n` for a width and a length below 32768. -/
theorem padCount {w n : Nat} (hw : w < 32768) (hn : n < 32768) :
    (BitVec.ofNat 16 w - BitVec.ofNat 16 n).toInt.toNat = w - n := by
  have h1 := ofNat_toInt hw
  have h2 := ofNat_toInt hn
  rw [BitVec.toInt_sub, h1, h2, Int.bmod_def]
  omega

/-! ### Characters and strings -/

theorem putSLoop_spec {a : Word} {t : List Byte} {m : Mem} (hs : IsStr m a t) :
    ∀ (k : Nat) (i : Nat) (s : PS σ), s.mem = m → i + k = t.length →
    putSLoop S a (BitVec.ofNat 16 i) s = some (emit S (t.drop i) s) := by
  intro k
  induction k with
  | zero =>
    intro i s hm hi
    have : i = t.length := by omega
    subst this
    rw [putSLoop, if_neg]
    · simp [emit]
    · rw [hm, add_ofNat, hs.nul]; simp
  | succ k ih =>
    intro i s hm hi
    have hl : i < t.length := by omega
    rw [putSLoop, if_pos (by rw [hm, add_ofNat]; exact hs.get_ne hl), List.drop_eq_getElem_cons hl, emit,
      hm, add_ofNat, hs.get hl]
    cases e : putC S t[i] s with
    | error e => rfl
    | ok s1 =>
      simp only []
      rw [add_ofNat_succ]
      exact ih (i + 1) s1 ((putC_same e).mem.trans hm) (by omega)

/-- Specification: `body` in a field of width `w`: blanks after it if left justified, otherwise `p` before it;
a body that is too long is printed in full. -/
def field (w : Nat) (lf : Bool) (p : Byte) (body : List Byte) : List Byte :=
  if lf then body ++ List.replicate (w - body.length) 0x20#8
  else List.replicate (w - body.length) p ++ body

theorem putS_spec {a : Word} {t : List Byte} {w : Nat} {lf : Bool} {s : PS σ} (hs : IsStr s.mem a t) (ht : t.length < 32768)
    (hw : w < 32768) :
    putS S a (BitVec.ofNat 16 w) lf s = some (emit S (field w lf 0x20#8 t) s) := by
  unfold putS
  rw [strLen_eq hs]
  simp only [Option.bind_some]
  have body : ∀ s', Same s s' → putSLoop S a 0 s' = some (emit S t s') := by
    intro s' h'
    have := putSLoop_spec (S := S) (m := s.mem) hs t.length 0 s' h'.mem (by omega)
    simpa using this
  have pad : ∀ s' : PS σ, putN S 0x20#8 (BitVec.ofNat 16 w - BitVec.ofNat 16 t.length) s' =
      some (emit S (List.replicate (w - t.length) 0x20#8) s') := by
    intro s'; rw [putN_spec, padCount hw ht]
  unfold field
  cases lf with
  | true =>
    simp only [Bool.not_true, Bool.false_eq_true, if_false, if_true, seq_nil]
    rw [body s .rfl]
    exact seq_emit fun s' _ => pad s'
  | false =>
    simp only [Bool.not_false, Bool.false_eq_true, if_false, if_true]
    rw [pad s]
    refine seq_emit fun s' h' => ?_
    rw [body s' h']
    have := seq_emit (S := S) (a := t) (b := []) (s := s') (f := fun s => some (.ok s)) (fun _ _ => rfl)
    simpa using this

theorem putCW_spec {c : Byte} {w : Nat} {lf : Bool} {s : PS σ} (hw : w < 32768) :
    putCW S c (BitVec.ofNat 16 w) lf s = some (emit S (field w lf 0x20#8 [c]) s) := by
  unfold putCW
  have pad : ∀ s' : PS σ, putN S 0x20#8 (BitVec.ofNat 16 w - 1) s' =
      some (emit S (List.replicate (w - 1) 0x20#8) s') := by
    intro s'
    rw [putN_spec]
    have := padCount hw (n := 1) (by omega)
    rw [show (1 : Word) = BitVec.ofNat 16 1 from rfl, this]
  unfold field
  cases lf with
  | true =>
    simp only [Bool.not_true, Bool.false_eq_true, if_false, if_true, seq_nil]
    rw [← emit_one]
    exact seq_emit fun s' _ => pad s'
  | false =>
    simp only [Bool.not_false, Bool.false_eq_true, if_false, if_true]
    rw [pad s]
    refine seq_emit fun s' h' => ?_
    rw [← emit_one]
    have := seq_emit (S := S) (a := [c]) (b := []) (s := s') (f := fun s => some (.ok s)) (fun _ _ => rfl)
    simpa using this

/-! ### Numbers -/

theorem numLenLoop_spec {N : Nat} (hA : A.OkTo N) {b : Word} (hb : 2 ≤ b.toNat) (hb' : b.toNat ≤ 16) :
    ∀ (n : Nat) (x l : Word), x.toNat = n → n < N → x ≠ 0 →
    numLenLoop A x b l = some (l + BitVec.ofNat 16 (Nat.toDigits b.toNat n).length) := by
  intro n
  induction n using Nat.strongRecOn with
  | ind n ih =>
    intro x l hx hN h0
    have hpos : 0 < n := by
      rcases Nat.eq_zero_or_pos n with h | h
      · exact absurd (BitVec.eq_of_toNat_eq (by simpa [hx] using h)) h0
      · exact h
    obtain ⟨hd, -⟩ := hA x b (by omega) (by omega) hb'
    rw [hx] at hd
    rw [numLenLoop, if_pos h0]
    by_cases hlt : n < b.toNat
    · rw [Nat.toDigits_of_lt_base hlt]
      have : A.div x b = 0 := BitVec.eq_of_toNat_eq (by rw [hd, Nat.div_eq_of_lt hlt]; rfl)
      rw [this, numLenLoop]
      simp
    · have hle : b.toNat ≤ n := by omega
      have hdl : n / b.toNat < n := Nat.div_lt_self hpos (by omega)
      have hne : A.div x b ≠ 0 := by
        intro h
        rw [h] at hd
        have : 0 < n / b.toNat := Nat.div_pos hle (by omega)
        rw [show (0 : Word).toNat = 0 from rfl] at hd
        omega
      rw [ih (n / b.toNat) hdl _ _ hd (by omega) hne, Nat.toDigits_of_base_le (by omega) hle]
      rw [List.length_append, List.length_singleton, BitVec.ofNat_add]
      congr 1
      show l + 1 + _ = l + (_ + 1)
      ac_rfl

theorem numLen_spec {N : Nat} (hA : A.OkTo N) {b x : Word} (hb : 2 ≤ b.toNat) (hb' : b.toNat ≤ 16) (hx : x.toNat < N) :
    numLen A x b = some (BitVec.ofNat 16 (numeral b.toNat x.toNat).length) := by
  unfold numLen numeral
  by_cases h0 : x = 0
  · subst h0
    rw [numLenLoop]
    simp [Nat.toDigits_zero]
  · rw [numLenLoop_spec hA hb hb' _ x 0 rfl hx h0]
    have hl : (Nat.toDigits b.toNat x.toNat).length ≤ 16 := by
      rw [Nat.length_toDigits_le_iff (by omega) (by omega)]
      have := x.isLt
      calc x.toNat < 2 ^ 16 := this
        _ ≤ b.toNat ^ 16 := Nat.pow_le_pow_left hb 16
    have hp := Nat.length_toDigits_pos (b := b.toNat) (n := x.toNat)
    simp only [Option.bind_some, List.length_map]
    rw [if_neg]
    · simp
    · intro h
      have h := congrArg BitVec.toNat h
      simp at h
      omega

theorem numeral_length {b n : Nat} (hb : 2 ≤ b) (hn : n < 65536) : (numeral b n).length ≤ 16 := by
  unfold numeral
  rw [List.length_map, Nat.length_toDigits_le_iff (by omega) (by omega)]
  calc n < 2 ^ 16 := hn
    _ ≤ b ^ 16 := Nat.pow_le_pow_left hb 16

theorem putNum_spec {N : Nat} (hA : A.OkTo N) {b : Word} (hb : 2 ≤ b.toNat) (hb' : b.toNat ≤ 16) :
    ∀ (n : Nat) (x : Word) (s : PS σ), x.toNat = n → n < N → x ≠ 0 → Tab s.mem tab →
    putNum A S tab x b s = some (emit S (numeral b.toNat n) s) := by
  intro n
  induction n using Nat.strongRecOn with
  | ind n ih =>
    intro x s hx hN h0 ht
    have hpos : 0 < n := by
      rcases Nat.eq_zero_or_pos n with h | h
      · exact absurd (BitVec.eq_of_toNat_eq (by simpa [hx] using h)) h0
      · exact h
    obtain ⟨hd, hm⟩ := hA x b (by omega) (by omega) hb'
    rw [hx] at hd hm
    have hmod : n % b.toNat < b.toNat := Nat.mod_lt _ (by omega)
    have dig : ∀ s' : PS σ, s'.mem = s.mem → s'.mem (tab + A.mod x b) = byte (Nat.digitChar (n % b.toNat)) := by
      intro s' h'
      rw [h', ← ht (n % b.toNat) (by omega)]
      congr 1
      unfold off
      congr 1
      exact BitVec.eq_of_toNat_eq (by rw [hm, BitVec.toNat_ofNat]; omega)
    rw [putNum, if_pos h0]
    by_cases hlt : n < b.toNat
    · have : A.div x b = 0 := BitVec.eq_of_toNat_eq (by rw [hd, Nat.div_eq_of_lt hlt]; rfl)
      rw [this, putNum]
      simp only [ne_eq, not_true_eq_false, if_false, Option.bind_eq_bind, Option.bind_some]
      rw [dig s rfl, Nat.mod_eq_of_lt hlt, numeral, Nat.toDigits_of_lt_base hlt, ← emit_one]
      rfl
    · have hle : b.toNat ≤ n := by omega
      have hdl : n / b.toNat < n := Nat.div_lt_self hpos (by omega)
      have hne : A.div x b ≠ 0 := by
        intro h
        rw [h] at hd
        have : 0 < n / b.toNat := Nat.div_pos hle (by omega)
        rw [show (0 : Word).toNat = 0 from rfl] at hd
        omega
      rw [ih (n / b.toNat) hdl _ s hd (by omega) hne ht]
      simp only [Option.bind_eq_bind, Option.bind_some]
      rw [numeral, numeral, Nat.toDigits_of_base_le (by omega) hle, List.map_append, emit_append]
      cases e : emit S ((Nat.toDigits b.toNat (n / b.toNat)).map byte) s with
      | error e => rfl
      | ok s1 =>
        simp only []
        rw [dig s1 (emit_same e).mem, ← emit_one]
        rfl

/-- printf.cmm:90-91 and 106-107: the digits, at least one. -/
theorem number_spec {N : Nat} (hA : A.OkTo N) {b x : Word} (hb : 2 ≤ b.toNat) (hb' : b.toNat ≤ 16) (hx : x.toNat < N)
    {s : PS σ} (ht : Tab s.mem tab) :
    (if x ≠ 0 then putNum A S tab x b s else some (putC S 0x30#8 s)) =
      some (emit S (numeral b.toNat x.toNat) s) := by
  by_cases h0 : x = 0
  · subst h0
    rw [if_neg (by simp), ← emit_one]
    simp [numeral, Nat.toDigits_zero]
    rfl
  · rw [if_pos h0]
    exact putNum_spec hA hb hb' _ x s rfl hx h0 ht

theorem uPutNum_spec {N : Nat} (hA : A.OkTo N) {b x : Word} (hb : 2 ≤ b.toNat) (hb' : b.toNat ≤ 16) (hx : x.toNat < N)
    {w : Nat} {lf : Bool} {p : Byte} {s : PS σ} (hw : w < 32768) (ht : Tab s.mem tab) :
    uPutNum A S tab x (BitVec.ofNat 16 w) lf p b s = some (emit S (field w lf p (numeral b.toNat x.toNat)) s) := by
  unfold uPutNum
  rw [numLen_spec hA hb hb' hx]
  have hl := numeral_length hb x.isLt
  have pad : ∀ (q : Byte) (s' : PS σ), putN S q (BitVec.ofNat 16 w - BitVec.ofNat 16 (numeral b.toNat x.toNat).length) s' =
      some (emit S (List.replicate (w - (numeral b.toNat x.toNat).length) q) s') := by
    intro q s'
    rw [putN_spec, padCount hw (by omega)]
  simp only [Option.bind_some]
  unfold field
  cases lf with
  | true =>
    simp only [Bool.not_true, Bool.false_eq_true, if_false, if_true, seq_nil]
    rw [number_spec hA hb hb' hx ht]
    exact seq_emit fun s' _ => pad _ s'
  | false =>
    simp only [Bool.not_false, Bool.false_eq_true, if_false, if_true]
    rw [pad p s]
    refine seq_emit fun s' h' => ?_
    rw [number_spec hA hb hb' hx (by rw [h'.mem]; exact ht)]
    have := seq_emit (S := S) (a := numeral b.toNat x.toNat) (b := []) (s := s') (f := fun s => some (.ok s)) (fun _ _ => rfl)
    simpa using this

/-- Widths that are negative as 16-bit numbers pad nothing (used by conv32). -/
theorem uPutNum_neg {N : Nat} (hA : A.OkTo N) {b x w : Word} (hb : 2 ≤ b.toNat) (hb' : b.toNat ≤ 16) (hx : x.toNat < N)
    {lf : Bool} {p : Byte} {s : PS σ} (hw : w.toInt < 0) (hw' : -16 ≤ w.toInt) (ht : Tab s.mem tab) :
    uPutNum A S tab x w lf p b s = some (emit S (numeral b.toNat x.toNat) s) := by
  unfold uPutNum
  rw [numLen_spec hA hb hb' hx]
  have hl := numeral_length hb x.isLt
  have pad : ∀ (q : Byte) (s' : PS σ), putN S q (w - BitVec.ofNat 16 (numeral b.toNat x.toNat).length) s' =
      some (.ok s') := by
    intro q s'
    rw [putN_spec]
    have : (w - BitVec.ofNat 16 (numeral b.toNat x.toNat).length).toInt.toNat = 0 := by
      rw [BitVec.toInt_sub, ofNat_toInt (by omega), Int.bmod_def]
      omega
    rw [this]; rfl
  simp only [Option.bind_some, pad, seq_nil]
  cases lf with
  | true =>
    simp only [Bool.not_true, Bool.false_eq_true, if_false, if_true, seq_nil]
    rw [number_spec hA hb hb' hx ht]
    have := seq_emit (S := S) (a := numeral b.toNat x.toNat) (b := []) (s := s) (f := fun s => some (.ok s)) (fun _ _ => rfl)
    simpa using this
  | false =>
    simp only [Bool.not_false, Bool.false_eq_true, if_false, if_true, seq_nil]
    rw [number_spec hA hb hb' hx ht]
    have := seq_emit (S := S) (a := numeral b.toNat x.toNat) (b := []) (s := s) (f := fun s => some (.ok s)) (fun _ _ => rfl)
    simpa using this

end
end Cmm.Printf
