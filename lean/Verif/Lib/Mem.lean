import Verif.Lib.Ctype

/-
Byte-addressed memory of the 16-bit target, and NUL-terminated strings in it.
Array elements `s[i]` of a `char[]` are at address `s + i` (doc/chap3.tex, vm2tac.c:545
`vmLdByt`), with 16-bit wrap-around of addresses.
-/
namespace Cmm

/-- Contents of memory. -/
abbrev Mem := Word → Byte

/-- One byte store (`vmStByt`, vm2tac.c:588). -/
def Mem.set (m : Mem) (a : Word) (v : Byte) : Mem := fun x => if x = a then v else m x

@[simp] theorem Mem.set_same (m : Mem) (a : Word) (v : Byte) : (m.set a v) a = v := by
  simp [Mem.set]

theorem Mem.set_ne (m : Mem) {a x : Word} (v : Byte) (h : x ≠ a) : (m.set a v) x = m x := by
  simp [Mem.set, h]

/-- The address `k` bytes after `a`. -/
def off (a : Word) (k : Nat) : Word := a + BitVec.ofNat 16 k

@[simp] theorem off_zero (a : Word) : off a 0 = a := by simp [off]

theorem off_succ (a : Word) (k : Nat) : off a (k+1) = off (a+1) k := by
  apply BitVec.eq_of_toNat_eq
  simp only [off, BitVec.toNat_add, BitVec.toNat_ofNat]
  have : (1 : BitVec 16).toNat = 1 := rfl
  omega

theorem off_off (a : Word) (j k : Nat) : off (off a j) k = off a (j+k) := by
  apply BitVec.eq_of_toNat_eq
  simp only [off, BitVec.toNat_add, BitVec.toNat_ofNat]
  omega

theorem off_inj {a : Word} {j k : Nat} (hj : j < 65536) (hk : k < 65536)
    (h : off a j = off a k) : j = k := by
  have h := congrArg BitVec.toNat h
  simp only [off, BitVec.toNat_add, BitVec.toNat_ofNat] at h
  omega

theorem add_ofNat_succ (k : Nat) : BitVec.ofNat 16 k + 1 = BitVec.ofNat 16 (k+1) := by
  apply BitVec.eq_of_toNat_eq
  simp [BitVec.toNat_add, BitVec.toNat_ofNat]

/-- Specification vocabulary: memory `m` holds the bytes `bs` from address `a` on. -/
def Holds (m : Mem) (a : Word) (bs : List Byte) : Prop :=
  ∀ k (h : k < bs.length), m (off a k) = bs[k]

/-- Specification vocabulary: `s` is the NUL-terminated string at address `a` of `m`:
the bytes `s`, none of which is NUL, followed by a NUL, all within one address space. -/
structure IsStr (m : Mem) (a : Word) (s : List Byte) : Prop where
  bytes : Holds m a s
  nz : ∀ c ∈ s, c ≠ 0#8
  nul : m (off a s.length) = 0#8
  fits : s.length < 65536

/-- Specification vocabulary: the `n` bytes from `a` and the `k` bytes from `b` are
different memory cells. -/
def Apart (a : Word) (n : Nat) (b : Word) (k : Nat) : Prop :=
  ∀ i j, i < n → j < k → off a i ≠ off b j

/-- Specification vocabulary: `m'` differs from `m` only in the `n` bytes from `a`. -/
def SameExcept (m m' : Mem) (a : Word) (n : Nat) : Prop :=
  ∀ x, (∀ i, i < n → x ≠ off a i) → m' x = m x

theorem IsStr.get {m a s} (h : IsStr m a s) {k : Nat} (hk : k < s.length) :
    m (off a k) = s[k] := h.bytes k hk

theorem IsStr.get_ne {m a s} (h : IsStr m a s) {k : Nat} (hk : k < s.length) :
    m (off a k) ≠ 0#8 := by
  rw [h.bytes k hk]; exact h.nz _ (List.getElem_mem hk)

/-- A memory that agrees on the string area holds the same string. -/
theorem IsStr.congr {m m' : Mem} {a s} (h : IsStr m a s)
    (e : ∀ i, i ≤ s.length → m' (off a i) = m (off a i)) : IsStr m' a s :=
  ⟨fun k hk => by rw [e k (by omega)]; exact h.bytes k hk, h.nz,
   by rw [e _ (Nat.le_refl _)]; exact h.nul, h.fits⟩

/-- A string at an address is unique. -/
theorem IsStr.unique {m a s t} (h : IsStr m a s) (h' : IsStr m a t) : s = t := by
  have hl : s.length = t.length := by
    rcases Nat.lt_trichotomy s.length t.length with hlt | heq | hgt
    · exact absurd h.nul (h'.get_ne hlt)
    · exact heq
    · exact absurd h'.nul (h.get_ne hgt)
  apply List.ext_getElem hl
  intro i h1 h2
  rw [← h.bytes i h1, ← h'.bytes i h2]

/-! ### Words in memory -/

/-- Load the 16-bit word at `a` (high byte first, as the TaC stores words). -/
def Mem.lw (m : Mem) (a : Word) : Word := m a ++ m (a + 1)

/-- Store the 16-bit word `v` at `a`. -/
def Mem.sw (m : Mem) (a v : Word) : Mem :=
  (m.set a (v.extractLsb' 8 8)).set (a + 1) (v.extractLsb' 0 8)

theorem ne_add_one (a : Word) : a ≠ a + 1 := by
  intro h
  have := congrArg BitVec.toNat h
  simp [BitVec.toNat_add] at this
  omega

@[simp] theorem Mem.lw_sw_same (m : Mem) (a v : Word) : (m.sw a v).lw a = v := by
  unfold Mem.lw Mem.sw
  rw [Mem.set_same, Mem.set_ne _ _ (ne_add_one a), Mem.set_same]
  ext i hi
  simp only [BitVec.getElem_append, BitVec.getElem_extractLsb']
  split <;> simp_all

/-- Two words at `a` and `b` share no byte. -/
def WordApart (a b : Word) : Prop := a ≠ b ∧ a ≠ b + 1 ∧ a + 1 ≠ b

theorem Mem.lw_sw_ne (m : Mem) {a b : Word} (v : Word) (h : WordApart a b) :
    (m.sw b v).lw a = m.lw a := by
  unfold Mem.lw Mem.sw
  obtain ⟨h1, h2, h3⟩ := h
  have h4 : a + 1 ≠ b + 1 := fun e => h1 (by simpa using e)
  rw [Mem.set_ne _ _ h2, Mem.set_ne _ _ h1, Mem.set_ne _ _ h4, Mem.set_ne _ _ h3]

theorem Mem.sw_ne (m : Mem) {a x : Word} (v : Word) (h1 : x ≠ a) (h2 : x ≠ a + 1) :
    (m.sw a v) x = m x := by
  unfold Mem.sw
  rw [Mem.set_ne _ _ h2, Mem.set_ne _ _ h1]

end Cmm
