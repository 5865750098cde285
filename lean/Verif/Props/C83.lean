import Verif.Lib.ReadDir
import Mathlib.Data.List.Forall2

/-
C83: readDir lists exactly the visible entries of a directory.
-/
namespace Cmm.Stdio
open Cmm.Ctype Cmm.Str

/-- Specification: an entry of a FAT directory, by the numbers in its 32 bytes. -/
structure Entry where
  name : List Byte
  attr : Nat
  clst : Nat
  size : Nat
deriving DecidableEq, Repr

/-- Specification: the number of a byte of an entry. -/
def at_ (e : List Byte) (i : Nat) : Nat := (e.getD i 0#8).toNat

/-- Specification: an entry decoded. A first byte 05 stands for E5. -/
def decode (e : List Byte) : Entry where
  name := (match e.take 11 with | c :: s => (if c.toNat = 5 then 0xe5#8 else c) :: s | [] => [])
  attr := at_ e 11
  clst := at_ e 26 + 256 * at_ e 27
  size := at_ e 28 + 256 * at_ e 29 + 65536 * at_ e 30 + 16777216 * at_ e 31

/-- Specification: the entry is not deleted, not hidden (bit 1) and no volume label (bit 3). -/
def visible (e : List Byte) : Bool := at_ e 0 != 0xe5 && !(at_ e 11).testBit 1 && !(at_ e 11).testBit 3

/-- Specification: the files and directories of a directory, which ends with an entry that begins with 00, or with the file. -/
def listing (es : List (List Byte)) : List Entry := ((es.takeWhile fun e => at_ e 0 != 0).filter visible).map decode

/-- What the program gets in a Dir. -/
def Dir.is (d : Dir) (e : Entry) : Prop :=
  d.name = e.name ++ [0#8] ∧ d.attr.toNat = e.attr ∧ d.clst.toNat = e.clst ∧ 65536 * d.lenH.toNat + d.lenL.toNat = e.size

/-- The program calls readDir until the result is not 1: the entries and the last result. -/
inductive Lists : List (Word × List Byte) → (Nat → Byte) → List Dir → Word → Prop
  | more {rs b d rs' b' ds r} : readDir rs b = (1, some d, rs', b') → Lists rs' b' ds r → Lists rs b (d :: ds) r
  | stop {rs b r rs' b'} : readDir rs b = (r, none, rs', b') → Lists rs b [] r

theorem wordLE_toNat (b : Nat → Byte) (i) : (wordLE b i).toNat = (b i).toNat + 256 * (b (i + 1)).toNat := by
  have h : ∀ x y : Byte, ((x.zeroExtend 16 <<< 8) ||| y.zeroExtend 16).toNat = y.toNat + 256 * x.toNat := by
    intro x y
    have hd : (x.zeroExtend 16 <<< 8) &&& y.zeroExtend 16 = 0#16 := by
      apply BitVec.eq_of_getLsbD_eq
      intro j hj
      simp only [BitVec.getLsbD_and, BitVec.getLsbD_shiftLeft, BitVec.getLsbD_setWidth, BitVec.getLsbD_zero]
      by_cases h8 : j < 8
      · simp [h8]
      · rw [BitVec.getLsbD_of_ge y j (by omega)]; simp
    have hx := x.isLt; have hy := y.isLt
    rw [← BitVec.add_eq_or_of_and_eq_zero _ _ hd]
    simp only [BitVec.toNat_add, BitVec.toNat_shiftLeft, BitVec.toNat_setWidth, Nat.shiftLeft_eq]
    omega
  exact h _ _

theorem fill_at (b : Nat → Byte) (e : List Byte) (i : Nat) (h : i < e.length) : dirFill b e i = e.getD i 0#8 := by
  simp only [dirFill, List.getD_eq_getElem?_getD, List.getElem?_eq_getElem h, Option.getD_some]

theorem dirOf_is (b : Nat → Byte) (e : List Byte) (h : e.length = 32) : (dirOf (dirFill b e)).is (decode e) := by
  refine ⟨?_, ?_, ?_, ?_⟩
  · match e, h with
    | e0 :: e1 :: e2 :: e3 :: e4 :: e5 :: e6 :: e7 :: e8 :: e9 :: e10 :: rest, _ =>
      have h5 : (e0 = 0x05#8) ↔ e0.toNat = 5 := by
        constructor
        · rintro rfl; rfl
        · intro h; exact BitVec.eq_of_toNat_eq h
      simp only [dirOf, decode, dirFill, List.range, List.range.loop, List.map_cons, List.map_nil, List.getD_cons_zero, List.getD_cons_succ, h5,
        List.take_succ_cons, List.take_zero, List.cons_append, List.nil_append]
  · simp only [dirOf, decode, at_, fill_at b e 11 (by omega), BitVec.toNat_setWidth]
    have := (e.getD 11 0#8).isLt; omega
  · simp only [dirOf, decode, at_, wordLE_toNat, fill_at b e 26 (by omega), fill_at b e 27 (by omega)]
  · simp only [dirOf, decode, at_, wordLE_toNat, fill_at b e 28 (by omega), fill_at b e 29 (by omega), fill_at b e 30 (by omega),
      fill_at b e 31 (by omega)]
    omega

theorem visible_iff (c a : Byte) : (c ≠ 0xe5#8 ∧ a.zeroExtend 16 &&& 0x0a#16 = 0#16) ↔
    (c.toNat != 0xe5 && !a.toNat.testBit 1 && !a.toNat.testBit 3) = true := by
  have hc : c = 0xe5#8 ↔ c.toNat = 0xe5 := by
    constructor
    · rintro rfl; rfl
    · intro h; exact BitVec.eq_of_toNat_eq h
  have ha : ∀ a : Byte, a.zeroExtend 16 &&& 0x0a#16 = 0#16 ↔ (a.toNat.testBit 1 = false ∧ a.toNat.testBit 3 = false) := by
    decide +kernel
  simp [hc, ha, and_assoc]

/-- C83: readDir lists a directory: for every directory file read in entries of 32 bytes, and every contents of the buffer before, the
calls of readDir give exactly the visible entries, in order, with their names, attributes, clusters and sizes; then the result is 0, or the
error of the read that failed before the end of the directory. -/
theorem C83 (es : List (List Byte)) (h32 : ∀ e ∈ es, e.length = 32) (r : Word) (hr : ilt 0 r = false) (b : Nat → Byte) :
    ∃ ds, Lists (es.map (fun e => (32, e)) ++ [(r, [])]) b ds (if es.all fun e => at_ e 0 != 0 then r else 0) ∧
      List.Forall₂ Dir.is ds (listing es) := by
  induction es generalizing b with
  | nil =>
    refine ⟨[], .stop (rs' := []) (b' := dirFill b []) ?_, .nil⟩
    simp only [List.map_nil, List.nil_append, readDir]
    rw [if_neg (by rw [hr]; decide)]
    rfl
  | cons e es ih =>
    have he := h32 e (by simp)
    obtain ⟨ds, h1, h2⟩ := ih (fun x hx => h32 x (by simp [hx])) (dirFill b e)
    have z : dirFill b e 0 = 0#8 ↔ at_ e 0 = 0 := by
      rw [fill_at b e 0 (by omega), at_]
      constructor
      · intro h; rw [h]; rfl
      · intro h; exact BitVec.eq_of_toNat_eq h
    by_cases h0 : at_ e 0 = 0
    · refine ⟨[], .stop (rs' := es.map (fun e => (32, e)) ++ [(r, [])]) (b' := dirFill b e) ?_, ?_⟩
      · simp only [List.map_cons, List.cons_append, readDir, show ilt 0 (32 : Word) = true from rfl, if_true, z.2 h0]
        simp [h0]
      · simp only [listing, List.takeWhile_cons, h0, bne_self_eq_false, Bool.false_eq_true, if_false]; exact .nil
    · have hall : ((e :: es).all fun e => at_ e 0 != 0) = es.all fun e => at_ e 0 != 0 := by simp [h0]
      have hv := visible_iff (dirFill b e 0) (dirFill b e 11)
      rw [hall]
      have hn : ¬ dirFill b e 0 = 0#8 := fun x => h0 (z.1 x)
      by_cases v : visible e = true
      · have hcond := hv.2 (by rw [fill_at b e 0 (by omega), fill_at b e 11 (by omega)]; exact v)
        refine ⟨dirOf (dirFill b e) :: ds, .more (b' := dirFill b e) ?_ h1, ?_⟩
        · simp only [List.map_cons, List.cons_append, readDir, show ilt 0 (32 : Word) = true from rfl, if_true, hn, if_false]
          rw [if_pos hcond]
        · simp only [listing, List.takeWhile_cons, bne_iff_ne, ne_eq, h0, not_false_eq_true, if_true, List.filter_cons, v, List.map_cons]
          exact .cons (dirOf_is b e he) (by simpa [listing] using h2)
      · have hcond : ¬(dirFill b e 0 ≠ 0xe5#8 ∧ (dirFill b e 11).zeroExtend 16 &&& 0x0a#16 = 0#16) := fun x => v (by
          have := hv.1 x; rw [fill_at b e 0 (by omega), fill_at b e 11 (by omega)] at this; exact this)
        have step : readDir (List.map (fun e => ((32 : Word), e)) (e :: es) ++ [(r, [])]) b =
            readDir (List.map (fun e => ((32 : Word), e)) es ++ [(r, [])]) (dirFill b e) := by
          simp only [List.map_cons, List.cons_append]
          rw [readDir]
          simp only [show ilt 0 (32 : Word) = true from rfl, if_true, hn, if_false]
          rw [if_neg hcond]
        refine ⟨ds, ?_, ?_⟩
        · cases h1 with
          | more a b => exact .more (by rw [step]; exact a) b
          | stop a => exact .stop (by rw [step]; exact a)
        · simp only [listing, List.takeWhile_cons, bne_iff_ne, ne_eq, h0, not_false_eq_true, if_true, List.filter_cons, v]
          simpa [listing] using h2

/-- The calls of readDir have one result. -/
theorem C83_unique {rs b ds r ds' r'} (h : Lists rs b ds r) (h' : Lists rs b ds' r') : ds = ds' ∧ r = r' := by
  induction h generalizing ds' r' with
  | more e _ ih =>
    cases h' with
    | more e' h' => rw [e] at e'; cases e'; obtain ⟨rfl, rfl⟩ := ih h'; exact ⟨rfl, rfl⟩
    | stop e' => rw [e] at e'; cases e'
  | stop e =>
    cases h' with
    | more e' _ => rw [e] at e'; cases e'
    | stop e' => rw [e] at e'; cases e'; exact ⟨rfl, rfl⟩

/-- An entry "A" with an attribute, cluster 2 and a size of 0x10003 bytes. -/
def exEntry (c a : Byte) : List Byte :=
  c :: List.replicate 10 0x20#8 ++ a :: List.replicate 14 0#8 ++ [2#8, 0#8, 3#8, 0#8, 1#8, 0#8]

/-- A directory with a file, a deleted entry, a volume label, a directory, the end, and what is behind the end. -/
def exDir : List (List Byte) := [exEntry 0x41#8 0x20#8, exEntry 0xe5#8 0x20#8, exEntry 0x43#8 0x08#8, exEntry 0x05#8 0x10#8, exEntry 0#8 0#8,
  exEntry 0x44#8 0x20#8]

example : (∀ e ∈ exDir, e.length = 32) ∧ (listing exDir).map (fun e => (e.name.head?, e.attr, e.clst, e.size)) =
    [(some 0x41#8, 0x20, 2, 0x10003), (some 0xe5#8, 0x10, 2, 0x10003)] := by decide +kernel

theorem readDir_file (c a : Byte) (rs b) (h0 : c ≠ 0#8) (hv : c ≠ 0xe5#8 ∧ a.zeroExtend 16 &&& 0x0a#16 = 0#16) :
    readDir ((32, exEntry c a) :: rs) b = (1, some (dirOf (dirFill b (exEntry c a))), rs, dirFill b (exEntry c a)) := by
  rw [readDir]
  have e0 : dirFill b (exEntry c a) 0 = c := rfl
  have e1 : dirFill b (exEntry c a) 11 = a := rfl
  simp only [show ilt 0 (32 : Word) = true from rfl, if_true, e0, e1, h0, if_false]
  rw [if_pos hv]

/-- A result 0 does not stay: called again at the end of a directory, readDir lists entries behind the end. -/
theorem C83_again_false (b : Nat → Byte) : ∃ b' b'' d, readDir [(32, exEntry 0#8 0#8), (32, exEntry 0x44#8 0x20#8)] b =
      (0, none, [(32, exEntry 0x44#8 0x20#8)], b') ∧ readDir [(32, exEntry 0x44#8 0x20#8)] b' = (1, some d, [], b'') :=
  ⟨_, _, _, rfl, readDir_file _ _ _ _ (by decide) (by decide)⟩

/-- A read of fewer bytes leaves old bytes in the buffer: after a file "A" a read of one byte gives a file with the attributes of "A". -/
theorem C83_short_false (b : Nat → Byte) : ∃ b' b'' d d', readDir [(32, exEntry 0x41#8 0x20#8), (1, [0x42#8])] b =
      (1, some d, [(1, [0x42#8])], b') ∧ readDir [(1, [0x42#8])] b' = (1, some d', [], b'') ∧ d'.clst = 2 ∧ d'.name.head? = some 0x42#8 := by
  refine ⟨_, dirFill (dirFill b (exEntry 0x41#8 0x20#8)) [0x42#8], _, dirOf (dirFill (dirFill b (exEntry 0x41#8 0x20#8)) [0x42#8]),
    readDir_file _ _ _ _ (by decide) (by decide), ?_, ?_, rfl⟩
  · rw [readDir]
    have e0 : dirFill (dirFill b (exEntry 0x41#8 0x20#8)) [0x42#8] 0 = 0x42#8 := rfl
    have e1 : dirFill (dirFill b (exEntry 0x41#8 0x20#8)) [0x42#8] 11 = 0x20#8 := rfl
    simp only [show ilt 0 (1 : Word) = true from rfl, if_true, e0, e1]
    rw [if_neg (by decide), if_pos (by decide)]
  · have e2 : dirFill (dirFill b (exEntry 0x41#8 0x20#8)) [0x42#8] 26 = 2#8 := rfl
    have e3 : dirFill (dirFill b (exEntry 0x41#8 0x20#8)) [0x42#8] 27 = 0#8 := rfl
    simp only [dirOf, wordLE, e2, e3]
    decide

end Cmm.Stdio
