import Verif.Lib.PrintfLemmas
import Verif.Props.C12

/-! C17: printf number conversions. The signedness of DIV and MOD is a parameter: %d of everything but -32768 and %o, %x
of values up to 32767 need only that they are right for non-negative operands; the rest needs unsigned instructions. -/
namespace Cmm.Printf
open Cmm.Ctype Cmm.Str Cmm.Stdlib

/-- Unsigned DIV and MOD. -/
def unsignedA : Arith := ⟨fun x y => x / y, fun x y => x % y⟩
/-- Signed DIV and MOD, truncating. -/
def signedA : Arith := ⟨BitVec.sdiv, BitVec.srem⟩

theorem unsignedA_ok : unsignedA.OkTo 65536 := by
  intro x b _ _ _
  simp [unsignedA]

theorem msb_false {x : Word} (h : x.toNat < 32768) : x.msb = false := by
  rw [BitVec.msb_eq_decide]; simp; omega

theorem signedA_ok : signedA.OkTo 32768 := by
  intro x b hx _ hb
  have h1 := msb_false hx
  have h2 := msb_false (x := b) (by omega)
  simp [signedA, BitVec.sdiv_eq, BitVec.srem_eq, h1, h2]

/-- Specification: sign and digits of a signed number in decimal. -/
def signOf (x : Int) : List Byte := if x < 0 then [0x2d#8] else []
def digitsOf (x : Int) : List Byte := numeral 10 x.natAbs

/-- Specification: what `%d` prints, in the sense of C: blanks after, blanks before, or zeros between sign and digits. -/
def decText (w : Nat) (lf zero : Bool) (x : Int) : List Byte :=
  let body := signOf x ++ digitsOf x
  let fill := w - body.length
  if lf then body ++ List.replicate fill 0x20#8
  else if zero then signOf x ++ List.replicate fill 0x30#8 ++ digitsOf x
  else List.replicate fill 0x20#8 ++ body

/-- Specification: what `%o` and `%x` print. -/
def unsText (b w : Nat) (lf zero : Bool) (n : Nat) : List Byte :=
  let body := numeral b n
  let fill := w - body.length
  if lf then body ++ List.replicate fill 0x20#8
  else List.replicate fill (if zero then 0x30#8 else 0x20#8) ++ body

/-- The pad character `print` chooses. -/
def padOf (zero : Bool) : Byte := if zero then 0x30#8 else 0x20#8

section
variable {σ : Type} {A : Arith} {S : Strm σ} {tab : Word}

/-- The argument the next conversion takes. -/
def nextArg (s : PS σ) : Word := s.mem.lw (s.args + s.pos * 2)
/-- The state after taking it. -/
def tookArg (s : PS σ) : PS σ := { s with pos := s.pos + 1 }

theorem sPutNum_spec {N : Nat} (hA : A.OkTo N) {x : Word} (hx : x.toInt.natAbs < N) {w : Nat} {lf : Bool} {p : Byte} {s : PS σ}
    (hw : w < 32768) (ht : Tab s.mem tab) :
    sPutNum A S tab x (BitVec.ofNat 16 w) lf p 10 s =
      some (emit S (field w lf p (signOf x.toInt ++ digitsOf x.toInt)) s) := by
  have h10 : (10 : Word).toNat = 10 := rfl
  by_cases hneg : x.toInt < 0
  · have hm : ilt x 0 = true := by
      simp only [ilt, BitVec.slt_eq_decide, decide_eq_true_eq]
      exact hneg
    have hxn : (-x).toNat = x.toInt.natAbs := by
      have e1 := BitVec.toInt_eq_toNat_cond x
      have hl := x.isLt
      rw [BitVec.toNat_neg]
      split at e1 <;> omega
    unfold sPutNum
    simp only [hm, if_true]
    rw [numLen_spec hA (by omega) (by omega) (by omega)]
    have hl := numeral_length (b := (10 : Word).toNat) (by omega) (-x).isLt
    have pad : ∀ (q : Byte) (s' : PS σ),
        putN S q (BitVec.ofNat 16 w - 1 - BitVec.ofNat 16 (numeral (10 : Word).toNat (-x).toNat).length) s' =
        some (emit S (List.replicate (w - (1 + (numeral (10 : Word).toNat (-x).toNat).length)) q) s') := by
      intro q s'
      rw [putN_spec, ← padCount hw (n := 1 + (numeral (10 : Word).toNat (-x).toNat).length) (by omega)]
      have e : BitVec.ofNat 16 w - 1 - BitVec.ofNat 16 (numeral (10 : Word).toNat (-x).toNat).length =
          BitVec.ofNat 16 w - BitVec.ofNat 16 (1 + (numeral (10 : Word).toNat (-x).toNat).length) := by
        apply BitVec.eq_of_toNat_eq
        have h1 : (1 : Word).toNat = 1 := rfl
        simp only [BitVec.toNat_sub, BitVec.toNat_ofNat, h1]
        omega
      rw [e]
    have hbody : signOf x.toInt ++ digitsOf x.toInt = 0x2d#8 :: numeral (10 : Word).toNat (-x).toNat := by
      unfold signOf digitsOf
      rw [if_pos hneg, hxn]; rfl
    rw [hbody]
    have num : ∀ s' : PS σ, Same s s' → (if -x ≠ 0 then putNum A S tab (-x) 10 s' else some (putC S 0x30#8 s')) =
        some (emit S (numeral (10 : Word).toNat (-x).toNat) s') := fun s' h' =>
      number_spec hA (by omega) (by omega) (by omega) (by rw [h'.mem]; exact ht)
    simp only [Option.bind_some]
    unfold field
    have hlen : (0x2d#8 :: numeral (10 : Word).toNat (-x).toNat).length = 1 + (numeral (10 : Word).toNat (-x).toNat).length := by
      simp; omega
    rw [hlen]
    cases lf with
    | true =>
      simp only [Bool.not_true, Bool.false_eq_true, if_false, if_true, seq_nil]
      rw [← emit_one]
      show _ = some (emit S ([0x2d#8] ++ numeral _ _ ++ _) s)
      rw [List.append_assoc]
      refine seq_emit fun s1 h1 => ?_
      rw [num s1 h1]
      exact seq_emit fun s' _ => pad _ s'
    | false =>
      simp only [Bool.not_false, Bool.false_eq_true, if_false, if_true]
      rw [pad p s]
      refine seq_emit fun s' h' => ?_
      rw [← emit_one]
      show _ = some (emit S ([0x2d#8] ++ numeral _ _) s')
      refine seq_emit fun s2 h2 => ?_
      rw [num s2 (h'.trans h2)]
      have := seq_emit (S := S) (a := numeral (10 : Word).toNat (-x).toNat) (b := []) (s := s2) (f := fun s => some (.ok s)) (fun _ _ => rfl)
      simpa using this
  · have hm : ilt x 0 = false := by
      simp only [ilt, BitVec.slt_eq_decide, decide_eq_false_iff_not]
      exact hneg
    have hxn : x.toNat = x.toInt.natAbs := by
      have e1 := BitVec.toInt_eq_toNat_cond x
      have hl := x.isLt
      split at e1 <;> omega
    have : sPutNum A S tab x (BitVec.ofNat 16 w) lf p 10 s = uPutNum A S tab x (BitVec.ofNat 16 w) lf p 10 s := by
      unfold sPutNum uPutNum
      simp only [hm, seq_nil, Bool.false_eq_true, if_false]
    rw [this, uPutNum_spec hA (by omega) (by omega) (by omega) hw ht]
    unfold signOf digitsOf
    rw [if_neg hneg, hxn]; rfl

/-- `%d`: the text of the signed argument in the field. Missing for the full claim: a negative number with leading zeros, where
the code is wrong (`C17_d_false`). With unsigned DIV (`N = 65536`) this holds for all arguments. -/
theorem C17_d_partial {N : Nat} (hA : A.OkTo N) {w : Nat} {lf zero : Bool} {s : PS σ} (hw : w < 32768) (ht : Tab s.mem tab)
    (hx : (nextArg s).toInt.natAbs < N) (hz : zero = false ∨ lf = true ∨ 0 ≤ (nextArg s).toInt) :
    conv16 A S tab 0x64#8 (BitVec.ofNat 16 w) lf (padOf zero) s =
      some (emit S (decText w lf zero (nextArg s).toInt) (tookArg s)) := by
  have : conv16 A S tab 0x64#8 (BitVec.ofNat 16 w) lf (padOf zero) s =
      sPutNum A S tab (nextArg s) (BitVec.ofNat 16 w) lf (padOf zero) 10 (tookArg s) := by
    unfold conv16; rw [if_neg (by decide), if_pos rfl]; rfl
  rw [this, sPutNum_spec hA hx hw (s := tookArg s) ht]
  congr 2
  unfold field decText padOf
  cases lf with
  | true => rfl
  | false =>
    cases zero with
    | false => rfl
    | true =>
      have h0 : 0 ≤ (nextArg s).toInt := by simpa using hz
      have : signOf (nextArg s).toInt = [] := by unfold signOf; rw [if_neg (by omega)]
      simp [this]

/-- `%o`: the unsigned octal text of the argument. -/
theorem C17_o {N : Nat} (hA : A.OkTo N) {w : Nat} {lf zero : Bool} {s : PS σ} (hw : w < 32768) (ht : Tab s.mem tab)
    (hx : (nextArg s).toNat < N) :
    conv16 A S tab 0x6f#8 (BitVec.ofNat 16 w) lf (padOf zero) s =
      some (emit S (unsText 8 w lf zero (nextArg s).toNat) (tookArg s)) := by
  have : conv16 A S tab 0x6f#8 (BitVec.ofNat 16 w) lf (padOf zero) s =
      uPutNum A S tab (nextArg s) (BitVec.ofNat 16 w) lf (padOf zero) 8 (tookArg s) := by
    unfold conv16; rw [if_pos rfl]; rfl
  rw [this, uPutNum_spec hA (by decide) (by decide) hx hw (s := tookArg s) ht]
  rfl

/-- `%x`: the unsigned hexadecimal text of the argument. -/
theorem C17_x {N : Nat} (hA : A.OkTo N) {w : Nat} {lf zero : Bool} {s : PS σ} (hw : w < 32768) (ht : Tab s.mem tab)
    (hx : (nextArg s).toNat < N) :
    conv16 A S tab 0x78#8 (BitVec.ofNat 16 w) lf (padOf zero) s =
      some (emit S (unsText 16 w lf zero (nextArg s).toNat) (tookArg s)) := by
  have : conv16 A S tab 0x78#8 (BitVec.ofNat 16 w) lf (padOf zero) s =
      uPutNum A S tab (nextArg s) (BitVec.ofNat 16 w) lf (padOf zero) 16 (tookArg s) := by
    unfold conv16
    rw [if_neg (by decide), if_neg (by decide), if_pos rfl]; rfl
  rw [this, uPutNum_spec hA (by decide) (by decide) hx hw (s := tookArg s) ht]
  rfl

end

/-! ### Reading the text back, and its length -/

theorem digit_back {d : Nat} (hd : d < 16) : hexDigit? (byte (Nat.digitChar d)) = some d := by
  revert hd; revert d; decide

theorem numeral_digits {b : Nat} (hb : 2 ≤ b) (hb' : b ≤ 16) (n : Nat) :
    positional b ((numeral b n).filterMap hexDigit?) = n ∧ ∀ c ∈ numeral b n, (hexDigit? c).isSome := by
  induction n using Nat.strongRecOn with
  | ind n ih =>
    unfold numeral
    by_cases h : n < b
    · rw [Nat.toDigits_of_lt_base h]
      have := digit_back (d := n) (by omega)
      constructor
      · simp [this, positional]
      · simp [this]
    · have hd : n / b < n := Nat.div_lt_self (by omega) (by omega)
      have hm : n % b < b := Nat.mod_lt _ (by omega)
      have hk := digit_back (d := n % b) (by omega)
      obtain ⟨h1, h2⟩ := ih _ hd
      rw [Nat.toDigits_of_base_le (by omega) (by omega), List.map_append]
      constructor
      · rw [List.filterMap_append]
        unfold positional at h1 ⊢
        rw [List.foldl_append]
        unfold numeral at h1
        rw [h1]
        simp only [List.map_cons, List.map_nil, List.filterMap_cons, hk, List.filterMap_nil, List.foldl_cons, List.foldl_nil]
        exact Nat.div_add_mod' n b
      · intro c hc
        rw [List.mem_append] at hc
        rcases hc with hc | hc
        · exact h2 c hc
        · simp at hc; subst hc; rw [hk]; rfl

/-- Specification: the number a text in base `b` denotes: blanks are skipped, a minus sign negates. -/
def readText (b : Nat) (t : List Byte) : Int :=
  (if 0x2d#8 ∈ t then -1 else 1) * (positional b (t.filterMap hexDigit?) : Int)

theorem pos_blanks {b : Nat} (k : Nat) (t u : List Byte) :
    (t ++ List.replicate k 0x20#8 ++ u).filterMap hexDigit? = (t ++ u).filterMap hexDigit? := by
  have : hexDigit? 0x20#8 = none := by decide
  simp [List.filterMap_append, List.filterMap_replicate_of_none this]

theorem pos_zeros {b : Nat} (k : Nat) (u : List Byte) :
    positional b ((List.replicate k 0x30#8 ++ u).filterMap hexDigit?) = positional b (u.filterMap hexDigit?) := by
  have h0 : hexDigit? 0x30#8 = some 0 := by decide
  induction k with
  | zero => simp
  | succ k ih =>
    rw [← ih, List.replicate_succ, List.cons_append, List.filterMap_cons, h0]
    unfold positional
    simp

theorem minus_not_numeral {b n : Nat} (hb : 2 ≤ b) (hb' : b ≤ 16) : 0x2d#8 ∉ numeral b n := by
  intro h
  have := (numeral_digits hb hb' n).2 _ h
  revert this; decide

/-- Reading the text of `%d` gives the argument; it is never shorter than the field nor longer than needed. -/
theorem C17_d_reads (w : Nat) (lf zero : Bool) (x : Int) :
    readText 10 (decText w lf zero x) = x ∧
    (decText w lf zero x).length = max w (signOf x ++ digitsOf x).length := by
  have hn := numeral_digits (b := 10) (by omega) (by omega) x.natAbs
  have hm : hexDigit? 0x2d#8 = none := by decide
  have hb : hexDigit? 0x20#8 = none := by decide
  have hmn : 0x2d#8 ∉ digitsOf x := minus_not_numeral (by omega) (by omega)
  constructor
  · have hv : ∀ k : Nat, positional 10 ((List.replicate k 0x30#8 ++ digitsOf x).filterMap hexDigit?) = x.natAbs := by
      intro k
      rw [pos_zeros (b := 10)]; exact hn.1
    have hv0 := hv 0
    simp only [List.replicate_zero, List.nil_append] at hv0
    have hsign : (signOf x).filterMap hexDigit? = [] := by
      unfold signOf; split <;> simp [hm]
    have hmem : ∀ k : Nat, (0x2d#8 ∈ signOf x ++ List.replicate k 0x30#8 ++ digitsOf x ↔ x < 0) ∧
        (0x2d#8 ∈ signOf x ++ digitsOf x ++ List.replicate k 0x20#8 ↔ x < 0) ∧
        (0x2d#8 ∈ List.replicate k 0x20#8 ++ (signOf x ++ digitsOf x) ↔ x < 0) := by
      intro k
      have e1 : 0x2d#8 ∉ List.replicate k 0x30#8 := by simp
      have e2 : 0x2d#8 ∉ List.replicate k 0x20#8 := by simp
      have e3 : 0x2d#8 ∈ signOf x ↔ x < 0 := by unfold signOf; split <;> simp_all
      simp only [List.mem_append, e1, e2, e3, hmn, or_false, false_or, and_self]
    unfold readText decText
    simp only []
    cases lf with
    | true =>
      simp only [if_true, (hmem _).2.1]
      rw [List.filterMap_append, List.filterMap_append, hsign, List.filterMap_replicate_of_none hb]
      simp only [List.nil_append, List.append_nil, hv0]
      split <;> omega
    | false =>
      cases zero with
      | true =>
        simp only [if_true, Bool.false_eq_true, if_false, (hmem _).1]
        rw [List.append_assoc, List.filterMap_append, hsign, List.nil_append, hv]
        split <;> omega
      | false =>
        simp only [Bool.false_eq_true, if_false, (hmem _).2.2]
        rw [List.filterMap_append, List.filterMap_append, hsign, List.filterMap_replicate_of_none hb]
        simp only [List.nil_append, hv0]
        split <;> omega
  · unfold decText
    simp only []
    split
    · simp; omega
    · split <;> simp <;> omega

/-- The same for `%o` and `%x`. -/
theorem C17_u_reads (b w : Nat) (hb : 2 ≤ b) (hb' : b ≤ 16) (lf zero : Bool) (n : Nat) :
    readText b (unsText b w lf zero n) = n ∧ (unsText b w lf zero n).length = max w (numeral b n).length := by
  have hn := numeral_digits hb hb' n
  have hbl : hexDigit? 0x20#8 = none := by decide
  have hmn := minus_not_numeral (n := n) hb hb'
  constructor
  · unfold readText unsText
    simp only []
    cases lf with
    | true =>
      simp only [if_true]
      rw [if_neg (by simp [hmn]), List.filterMap_append, List.filterMap_replicate_of_none hbl, List.append_nil, hn.1]
      omega
    | false =>
      cases zero with
      | true =>
        simp only [if_true, Bool.false_eq_true, if_false]
        rw [if_neg (by simp [hmn]), pos_zeros, hn.1]
        omega
      | false =>
        simp only [Bool.false_eq_true, if_false]
        rw [if_neg (by simp [hmn]), List.filterMap_append, List.filterMap_replicate_of_none hbl, List.nil_append, hn.1]
        omega
  · unfold unsText
    simp only []
    split <;> simp <;> omega

/-! ### Concrete cases -/

/-- A stream that records what is written and never fails. -/
def rec : Strm (List Byte) := ⟨fun c o => .ok (false, o ++ [c])⟩

theorem emit_rec (bs : List Byte) (s : PS (List Byte)) :
    emit rec bs s = .ok { s with out := s.out ++ bs, cnt := s.cnt + BitVec.ofNat 16 bs.length } := by
  induction bs generalizing s with
  | nil => simp [emit]
  | cons c cs ih =>
    simp only [emit, putC, rec, Bool.not_false, if_true]
    rw [show (rec : Strm (List Byte)) = ⟨fun c o => .ok (false, o ++ [c])⟩ from rfl] at ih
    rw [ih]
    simp only [List.append_assoc, List.cons_append, List.nil_append, List.length_cons, Nat.add_comm cs.length 1, BitVec.ofNat_add,
      ← BitVec.add_assoc]
    rfl

/-- Memory with the digits at address 0 and the word `v` at 0x40. -/
def xMem (v : Word) : Mem :=
  Mem.sw (fun a => if a.toNat < 16 then byte (Nat.digitChar a.toNat) else 0) 0x40 v
def xState (v : Word) : PS (List Byte) := { mem := xMem v, cnt := 0, args := 0x40, pos := 0, out := [] }

theorem xTab (v : Word) : Tab (xState v).mem 0 := by
  intro d hd
  have h : (off 0 d).toNat = d := by simp [off]; omega
  show (xMem v) _ = _
  unfold xMem
  rw [Mem.sw_ne]
  · simp only [h, hd, if_true]
  · intro e
    have e := congrArg BitVec.toNat e
    rw [h] at e
    have : (0x40 : Word).toNat = 64 := rfl
    omega
  · intro e
    have e := congrArg BitVec.toNat e
    rw [h] at e
    have : (0x40 + 1 : Word).toNat = 65 := rfl
    omega

theorem xArg (v : Word) : nextArg (xState v) = v := Mem.lw_sw_same _ _ _

/-- `%6d` of -123, with either kind of DIV. -/
example (A : Arith) (hA : A.OkTo 32768) :
    ∃ s, conv16 A rec 0 0x64#8 6 false 0x20#8 (xState (-123)) = some (.ok s) ∧ s.out = [0x20#8, 0x20#8, 0x2d#8, 0x31#8, 0x32#8, 0x33#8] := by
  have := C17_d_partial (S := rec) hA (w := 6) (lf := false) (zero := false) (s := xState (-123)) (by omega) (xTab _)
    (by rw [xArg]; decide) (by simp)
  refine ⟨_, this.trans (by rw [emit_rec]), ?_⟩
  rw [xArg]
  decide

/-- `%x` of 0xbeef with unsigned DIV. -/
example : ∃ s, conv16 unsignedA rec 0 0x78#8 0 true 0x20#8 (xState 0xbeef) = some (.ok s) ∧
    s.out = [0x62#8, 0x65#8, 0x65#8, 0x66#8] := by
  have := C17_x (S := rec) unsignedA_ok (w := 0) (lf := true) (zero := false) (s := xState 0xbeef) (by omega) (xTab _)
    (by have := (nextArg (xState 0xbeef)).isLt; omega)
  refine ⟨_, this.trans (by rw [emit_rec]), ?_⟩
  rw [xArg]
  decide

/-- `%05d` of -3 prints "000-3" instead of "-0003": the zeros come before the sign, with either kind of DIV. -/
theorem C17_d_false (A : Arith) (hA : A.OkTo 32768) :
    ∃ s, conv16 A rec 0 0x64#8 5 false (padOf true) (xState (-3)) = some (.ok s) ∧
      s.out = [0x30#8, 0x30#8, 0x30#8, 0x2d#8, 0x33#8] ∧ s.out ≠ decText 5 false true (-3) := by
  have h : conv16 A rec 0 0x64#8 5 false (padOf true) (xState (-3)) =
      sPutNum A rec 0 (nextArg (xState (-3))) 5 false (padOf true) 10 (tookArg (xState (-3))) := by
    unfold conv16; rw [if_neg (by decide), if_pos rfl]; rfl
  have := sPutNum_spec (S := rec) (tab := 0) hA (x := nextArg (xState (-3))) (by rw [xArg]; decide) (w := 5) (lf := false) (p := padOf true)
    (s := tookArg (xState (-3))) (by omega) (xTab _)
  refine ⟨_, (h.trans this).trans (by rw [emit_rec]), ?_⟩
  rw [xArg]
  decide

/-- If DIV is signed, `%x` of -1 does not print "ffff": it reads one character, from before the digit table. -/
theorem C17_x_signed_false : ∃ s, conv16 signedA rec 0 0x78#8 0 false 0x20#8 (xState 0xffff) = some (.ok s) ∧
    s.out = [(xMem 0xffff) 0xffff] ∧ s.out ≠ unsText 16 0 false false 0xffff := by
  have h : conv16 signedA rec 0 0x78#8 0 false 0x20#8 (xState 0xffff) =
      uPutNum signedA rec 0 (nextArg (xState 0xffff)) 0 false 0x20#8 16 (tookArg (xState 0xffff)) := by
    unfold conv16
    rw [if_neg (by decide), if_neg (by decide), if_pos rfl]; rfl
  have hd : signedA.div 0xffff 16 = 0 := by decide
  have hm : signedA.mod 0xffff 16 = 0xffff := by decide
  have hl : numLen signedA 0xffff 16 = some 1 := by
    unfold numLen
    rw [numLenLoop, if_pos (by decide), hd, numLenLoop]
    simp
  have hp : ∀ s : PS (List Byte), putNum signedA rec 0 0xffff 16 s = some (putC rec (s.mem 0xffff) s) := by
    intro s
    rw [putNum, if_pos (by decide), hd, putNum, hm]
    simp
  have hr : uPutNum signedA rec 0 0xffff 0 false 0x20#8 16 (tookArg (xState 0xffff)) =
      some (putC rec ((xMem 0xffff) 0xffff) (tookArg (xState 0xffff))) := by
    unfold uPutNum
    rw [hl]
    simp only [Option.bind_some, Bool.not_false, if_true, putN_spec, Bool.false_eq_true, if_false]
    rw [show ((0 : Word) - 1).toInt.toNat = 0 from by decide]
    simp only [List.replicate_zero, emit, seq_nil]
    rw [if_pos (by decide), hp]
    cases e : putC rec ((tookArg (xState 0xffff)).mem 0xffff) (tookArg (xState 0xffff)) <;> simp [seq] <;> exact e.symm
  rw [h, xArg, hr]
  refine ⟨_, rfl, rfl, ?_⟩
  intro e
  have e := congrArg List.length e
  revert e
  decide

end Cmm.Printf
