import Verif.Lib.Malloc
import Verif.Props.C16
import Mathlib.Data.List.Chain
import Mathlib.Tactic.ByContra

/- Representation of the heap as a list of blocks and the effect of malloc and free on it. -/
namespace Cmm.Heap
open Cmm.Crt0 Cmm.Err

/-- Address or number as a word. -/
abbrev W (n : Nat) : Word := BitVec.ofNat 16 n

theorem W_inj {a b : Nat} (ha : a < 65536) (hb : b < 65536) (h : W a = W b) : a = b := by
  have := congrArg BitVec.toNat h
  simp at this; omega

theorem W_toNat {a : Nat} (ha : a < 65536) : (W a).toNat = a := by simp; omega

theorem W_add (a b : Nat) : W a + W b = W (a + b) := by
  apply BitVec.eq_of_toNat_eq; simp [BitVec.toNat_add]

theorem W_add2 (a : Nat) : W a + 2 = W (a + 2) := W_add a 2
theorem W_add4 (a : Nat) : W a + 4 = W (a + 4) := W_add a 4

theorem W_sub {a b : Nat} (h : b ≤ a) (ha : a < 65536) : W a - W b = W (a - b) := by
  apply BitVec.eq_of_toNat_eq
  rw [BitVec.toNat_sub, W_toNat ha, W_toNat (by omega), W_toNat (by omega)]; omega

/-- The word at address `a`. -/
def ld (m : Mem) (a : Nat) : Word := m.lw (W a)

theorem ld_sw_same (m : Mem) (a : Nat) (v : Word) : ld (m.sw (W a) v) a = v := by
  simp [ld]

theorem ld_sw_ne (m : Mem) {a b : Nat} (v : Word) (ha : a + 1 < 65536) (hb : b + 1 < 65536)
    (h : a + 2 ≤ b ∨ b + 2 ≤ a) : ld (m.sw (W b) v) a = ld m a := by
  apply Mem.lw_sw_ne
  have e1 (x : Nat) : W x + 1 = W (x + 1) := W_add x 1
  refine ⟨?_, ?_, ?_⟩
  · intro e; have := W_inj (by omega) (by omega) e; omega
  · rw [e1]; intro e; have := W_inj (by omega) (by omega) e; omega
  · rw [e1]; intro e; have := W_inj (by omega) (by omega) e; omega

theorem next_eq (m : Mem) (a : Nat) : next m (W a) = ld m a := rfl
theorem size_eq (m : Mem) (a : Nat) : size m (W a) = ld m (a + 2) := by
  unfold size ld; rw [W_add2]
theorem setNext_eq (m : Mem) (a : Nat) (v : Word) : setNext m (W a) v = m.sw (W a) v := rfl
theorem setSize_eq (m : Mem) (a : Nat) (v : Word) : setSize m (W a) v = m.sw (W (a + 2)) v := by
  unfold setSize; rw [W_add2]

theorem ucmp_lt {a b : Nat} (ha : a < 65536) (hb : b < 65536) :
    ilt (uCmp (W a) (W b)) 0 = decide (a < b) := by
  have := C16_uCmp_lt (W a) (W b)
  rw [W_toNat ha, W_toNat hb] at this
  rw [Bool.eq_iff_iff, decide_eq_true_eq, ← this, ilt, BitVec.slt_eq_decide]
  simp

theorem ucmp_le {a b : Nat} (ha : a < 65536) (hb : b < 65536) :
    ile (uCmp (W a) (W b)) 0 = decide (a ≤ b) := by
  have := C16_uCmp_le (W a) (W b)
  rw [W_toNat ha, W_toNat hb] at this
  rw [Bool.eq_iff_iff, decide_eq_true_eq, ← this, ile, BitVec.sle_eq_decide]
  simp

theorem ucmp_ge {a b : Nat} (ha : a < 65536) (hb : b < 65536) :
    ile 0 (uCmp (W a) (W b)) = decide (b ≤ a) := by
  have := C16_uCmp_lt (W a) (W b)
  rw [W_toNat ha, W_toNat hb] at this
  rw [Bool.eq_iff_iff, decide_eq_true_eq, ile, BitVec.sle_eq_decide, decide_eq_true_eq,
    show (0 : Word).toInt = 0 from rfl]
  omega

theorem ucmp_gt {a b : Nat} (ha : a < 65536) (hb : b < 65536) :
    ilt 0 (uCmp (W a) (W b)) = decide (b < a) := by
  have := C16_uCmp_le (W a) (W b)
  rw [W_toNat ha, W_toNat hb] at this
  rw [Bool.eq_iff_iff, decide_eq_true_eq, ilt, BitVec.slt_eq_decide, decide_eq_true_eq,
    show (0 : Word).toInt = 0 from rfl]
  omega

theorem roundSize_eq {siz : Nat} (h : siz ≤ 65530) :
    roundSize (W siz) = W ((siz + 5) / 2 * 2) := by
  unfold roundSize MBSIZE
  rw [W_add4, show W (siz + 4) + 1 = W (siz + 5) from W_add _ 1]
  have : ∀ x : Word, x &&& ~~~1#16 = (x >>> 1) <<< 1 := by
    intro x
    ext i hi
    cases i with
    | zero => simp
    | succ i =>
      rw [BitVec.getElem_and, BitVec.getElem_not, BitVec.getElem_one, BitVec.getElem_shiftLeft]
      simp only [BitVec.getElem_ushiftRight, show 1 + (i + 1 - 1) = i + 1 by omega,
        BitVec.getLsbD_eq_getElem hi]
      simp
  rw [this]
  apply BitVec.eq_of_toNat_eq
  rw [BitVec.toNat_shiftLeft, BitVec.toNat_ushiftRight, W_toNat (by omega), W_toNat (by omega),
    Nat.shiftRight_eq_div_pow, Nat.shiftLeft_eq]
  omega

/-! ### Blocks -/

/-- A block of the heap, header included. -/
structure Blk where
  addr : Nat
  size : Nat
  used : Bool
deriving DecidableEq

/-- `bs` tiles the addresses from `a` to `e`, every block having room for its header. -/
def Tiles (a e : Nat) : List Blk → Prop
  | [] => a = e
  | b :: bs => b.addr = a ∧ 4 ≤ b.size ∧ Tiles (a + b.size) e bs

/-- Last free block of `bs`, `p` if there is none. -/
def lf (p : Nat) : List Blk → Nat
  | [] => p
  | b :: bs => if b.used then lf p bs else lf b.addr bs

/-- The `next` words along `bs`, entered from predecessor `p`: used blocks hold the magic
number, every free block is the `next` of the free block before it. -/
def Seg (m : Mem) (pool p : Nat) : List Blk → Prop
  | [] => True
  | b :: bs =>
    if b.used then ld m b.addr = W pool ∧ Seg m pool p bs
    else ld m p = W b.addr ∧ Seg m pool b.addr bs

/-- The size words. -/
def Sizes (m : Mem) (bs : List Blk) : Prop := ∀ b ∈ bs, ld m (b.addr + 2) = W b.size

/-- No two adjacent free blocks. -/
def NoAdj (bs : List Blk) : Prop := List.IsChain (fun a b => a.used = false → b.used = true) bs

/-- The highest block is free. -/
def LastFree (bs : List Blk) : Prop := ∃ b, bs.getLast? = some b ∧ b.used = false

theorem lf_append (p : Nat) (l r : List Blk) : lf p (l ++ r) = lf (lf p l) r := by
  induction l generalizing p with
  | nil => rfl
  | cons b l ih => simp only [List.cons_append, lf]; split <;> exact ih _

theorem Seg_append (m : Mem) (pool p : Nat) (l r : List Blk) :
    Seg m pool p (l ++ r) ↔ Seg m pool p l ∧ Seg m pool (lf p l) r := by
  induction l generalizing p with
  | nil => simp [Seg, lf]
  | cons b l ih =>
    simp only [List.cons_append, Seg, lf]
    split <;> rw [ih, and_assoc]

theorem Tiles_append (a e : Nat) (l r : List Blk) :
    Tiles a e (l ++ r) ↔ ∃ c, Tiles a c l ∧ Tiles c e r := by
  induction l generalizing a with
  | nil => simp [Tiles]
  | cons b l ih =>
    simp only [List.cons_append, Tiles, ih]
    constructor
    · rintro ⟨h1, h2, c, h3, h4⟩; exact ⟨c, ⟨h1, h2, h3⟩, h4⟩
    · rintro ⟨c, ⟨h1, h2, h3⟩, h4⟩; exact ⟨h1, h2, c, h3, h4⟩

theorem Tiles.le {a e : Nat} {bs : List Blk} (h : Tiles a e bs) : a ≤ e := by
  induction bs generalizing a with
  | nil => exact Nat.le_of_eq h
  | cons b bs ih => have := ih h.2.2; omega

theorem Tiles.mem {a e : Nat} {bs : List Blk} (h : Tiles a e bs) {b : Blk} (hb : b ∈ bs) :
    a ≤ b.addr ∧ b.addr + b.size ≤ e ∧ 4 ≤ b.size := by
  induction bs generalizing a with
  | nil => cases hb
  | cons c bs ih =>
    rcases List.mem_cons.1 hb with rfl | hb
    · have := h.2.2.le
      exact ⟨by have := h.1; omega, by have := h.1; omega, h.2.1⟩
    · have := ih h.2.2 hb
      have := h.2.1
      omega

/-- The last free block of a tiled list is `p` or one of its blocks. -/
theorem lf_mem (p : Nat) (bs : List Blk) :
    lf p bs = p ∨ ∃ b ∈ bs, b.used = false ∧ lf p bs = b.addr := by
  induction bs generalizing p with
  | nil => exact Or.inl rfl
  | cons b bs ih =>
    unfold lf
    split
    · rcases ih p with h | ⟨c, h1, h2, h3⟩
      · exact Or.inl h
      · exact Or.inr ⟨c, List.mem_cons_of_mem _ h1, h2, h3⟩
    · rename_i hu
      rcases ih b.addr with h | ⟨c, h1, h2, h3⟩
      · exact Or.inr ⟨b, List.mem_cons_self, by simpa using hu, h⟩
      · exact Or.inr ⟨c, List.mem_cons_of_mem _ h1, h2, h3⟩

/-- Entering a segment from another predecessor with the same `next`. -/
theorem Seg.transfer {m m' : Mem} {pool x y : Nat} {k : Word} {bs : List Blk}
    (h : Seg m pool x bs) (hk : ld m (lf x bs) = k) (hxy : ld m' y = ld m x)
    (hf : ∀ b ∈ bs, ld m' b.addr = ld m b.addr) :
    Seg m' pool y bs ∧ ld m' (lf y bs) = k := by
  induction bs generalizing x y with
  | nil => exact ⟨trivial, by simpa [lf] using hxy.trans (by simpa [lf] using hk)⟩
  | cons b bs ih =>
    have hb := hf b List.mem_cons_self
    have hf' : ∀ c ∈ bs, ld m' c.addr = ld m c.addr :=
      fun c hc => hf c (List.mem_cons_of_mem _ hc)
    by_cases hu : b.used = true
    · simp only [Seg, lf, hu, if_true] at h hk ⊢
      obtain ⟨i1, i2⟩ := ih h.2 hk hxy hf'
      exact ⟨⟨by rw [hb]; exact h.1, i1⟩, i2⟩
    · simp only [Seg, lf, hu] at h hk ⊢
      obtain ⟨i1, i2⟩ := ih h.2 hk hb hf'
      exact ⟨⟨by rw [hxy]; exact h.1, i1⟩, i2⟩

/-- A segment does not depend on the `next` word of its last free block. -/
theorem Seg.frame {m m' : Mem} {pool x e a : Nat} {bs : List Blk} (h : Seg m pool x bs)
    (ht : Tiles a e bs) (hx : x < a)
    (hf : ∀ b, (b = x ∨ ∃ c ∈ bs, b = c.addr) → b ≠ lf x bs → ld m' b = ld m b) :
    Seg m' pool x bs := by
  induction bs generalizing x a with
  | nil => trivial
  | cons b bs ih =>
    have ha := ht.1
    by_cases hu : b.used = true
    · simp only [Seg, lf, hu, if_true] at h hf ⊢
      have hne : b.addr ≠ lf x bs := by
        rcases lf_mem x bs with h1 | ⟨c, hc, _, h1⟩
        · rw [h1]; omega
        · have := ht.2.2.mem hc
          have := ht.2.1
          rw [h1]; omega
      refine ⟨?_, ?_⟩
      · rw [hf b.addr (Or.inr ⟨b, List.mem_cons_self, rfl⟩) hne]; exact h.1
      · apply ih h.2 ht.2.2 (by omega)
        intro c hc hne
        apply hf c _ hne
        rcases hc with hc | ⟨d, hd, hc⟩
        · exact Or.inl hc
        · exact Or.inr ⟨d, List.mem_cons_of_mem _ hd, hc⟩
    · simp only [Seg, lf, hu] at h hf ⊢
      have hne : x ≠ lf b.addr bs := by
        rcases lf_mem b.addr bs with h1 | ⟨c, hc, _, h1⟩
        · rw [h1]; omega
        · have := ht.2.2.mem hc
          have := ht.2.1
          rw [h1]; omega
      refine ⟨?_, ?_⟩
      · rw [hf x (Or.inl rfl) hne]; exact h.1
      · apply ih h.2 ht.2.2 (by have := ht.2.1; omega)
        intro c hc hne
        apply hf c _ hne
        rcases hc with hc | ⟨d, hd, hc⟩
        · exact Or.inr ⟨b, List.mem_cons_self, hc⟩
        · exact Or.inr ⟨d, List.mem_cons_of_mem _ hd, hc⟩

/-- Fixed data of a heap: address of memPool, first address, first address after it. -/
structure Cfg where
  pool : Nat
  lo : Nat
  hi : Nat
  pool_pos : 0 < pool
  pool_lo : pool + 4 ≤ lo
  lo_ge : 8 ≤ lo
  hi_le : hi < 65536

/-- Representation invariant. -/
structure Rep (c : Cfg) (m : Mem) (bs : List Blk) : Prop where
  tiles : Tiles c.lo c.hi bs
  seg : Seg m c.pool c.pool bs
  fin : ld m (lf c.pool bs) = 0
  sizes : Sizes m bs
  root : ld m (c.pool + 2) = 0
  noadj : NoAdj bs
  last : LastFree bs
  even : c.lo % 2 = 0 → ∀ b ∈ bs, b.addr % 2 = 0

/-! ### malloc -/

theorem size_cons {m : Mem} {b : Blk} {bs : List Blk} (h : Sizes m (b :: bs)) : Sizes m bs :=
  fun c hc => h c (List.mem_cons_of_mem _ hc)

/-- First free block of a list, 0 if none. -/
def nf : List Blk → Nat
  | [] => 0
  | b :: bs => if b.used then nf bs else b.addr

theorem Seg.next_nf {m : Mem} {pool p : Nat} {bs : List Blk} (h : Seg m pool p bs)
    (hfin : ld m (lf p bs) = 0) : ld m p = W (nf bs) := by
  induction bs generalizing p with
  | nil => simpa [lf, nf] using hfin
  | cons b bs ih =>
    by_cases hu : b.used = true
    · simp only [Seg, lf, nf, hu, if_true] at h hfin ⊢; exact ih h.2 hfin
    · simp only [Seg, lf, nf, hu] at h hfin ⊢; exact h.1

theorem nf_lt {x y : Nat} {bs : List Blk} (h : Tiles x y bs) (hy : y ≤ 65536) :
    nf bs < 65536 := by
  induction bs generalizing x with
  | nil => simp [nf]
  | cons d l ih =>
    unfold nf
    split
    · exact ih h.2.2
    · have := h.mem (b := d) List.mem_cons_self; omega

theorem nf_ne {x y : Nat} {bs : List Blk} (h : Tiles x y bs) (hx : 0 < x) {b : Blk}
    (hb : b ∈ bs) (hf : b.used = false) : x ≤ nf bs := by
  induction bs generalizing x with
  | nil => cases hb
  | cons d l ih =>
    unfold nf
    by_cases hd : d.used = true
    · simp only [hd, if_true]
      rcases List.mem_cons.1 hb with rfl | hb
      · rw [hf] at hd; cases hd
      · have := ih h.2.2 (by omega) hb
        omega
    · simp only [hd]
      have := h.1
      simp; omega

theorem nf_zero {x y : Nat} {bs : List Blk} (h : Tiles x y bs) (hx : 0 < x) (hz : nf bs = 0) :
    ∀ b ∈ bs, b.used = true := by
  intro b hb
  by_contra hu
  have := nf_ne h hx hb (by simpa using hu)
  omega

theorem lf_used (p : Nat) {bs : List Blk} (h : ∀ b ∈ bs, b.used = true) : lf p bs = p := by
  induction bs with
  | nil => rfl
  | cons b bs ih =>
    simp only [lf, h b List.mem_cons_self, if_true]
    exact ih fun c hc => h c (List.mem_cons_of_mem _ hc)

theorem nf_used {bs : List Blk} (h : ∀ b ∈ bs, b.used = true) : nf bs = 0 := by
  induction bs with
  | nil => rfl
  | cons b bs ih =>
    simp only [nf, h b List.mem_cons_self, if_true]
    exact ih fun c hc => h c (List.mem_cons_of_mem _ hc)

/-- The search of malloc: the first free block that is large enough. -/
theorem mallocLoop_spec {m : Mem} {pool p a e s : Nat} {bs : List Blk} (hs : s < 65536)
    (he : e ≤ 65536) (ha : 0 < a)
    (ht : Tiles a e bs) (hseg : Seg m pool p bs) (hfin : ld m (lf p bs) = 0)
    (hsz : Sizes m bs) (hne : nf bs ≠ 0) :
    (∃ pre b post, bs = pre ++ b :: post ∧ b.used = false ∧ s ≤ b.size ∧
      (∀ c ∈ pre, c.used = false → c.size < s) ∧
      mallocLoop m (W s) (W p) (W (nf bs)) = some (.ok (W (lf p pre), W b.addr))) ∨
    ((∀ c ∈ bs, c.used = false → c.size < s) ∧
      mallocLoop m (W s) (W p) (W (nf bs)) = some (.error EUNOMEM)) := by
  induction bs generalizing p a with
  | nil => simp [nf] at hne
  | cons b bs ih =>
    by_cases hu : b.used = true
    · have e1 : nf (b :: bs) = nf bs := by simp [nf, hu]
      have e2 : lf p (b :: bs) = lf p bs := by simp [lf, hu]
      have hseg' : Seg m pool p bs := by unfold Seg at hseg; simp only [hu, if_true] at hseg; exact hseg.2
      rw [e1] at hne ⊢
      rw [e2] at hfin
      rcases ih (by have := ht.2.1; omega) ht.2.2 hseg' hfin (size_cons hsz) hne with
        ⟨pre, b', post, h1, h2, h3, h4, h5⟩ | ⟨h1, h2⟩
      · refine Or.inl ⟨b :: pre, b', post, by rw [h1]; rfl, h2, h3, ?_, ?_⟩
        · intro c hc hcu
          rcases List.mem_cons.1 hc with rfl | hc
          · rw [hu] at hcu; cases hcu
          · exact h4 c hc hcu
        · rw [h5]; simp [lf, hu]
      · refine Or.inr ⟨?_, h2⟩
        intro c hc hcu
        rcases List.mem_cons.1 hc with rfl | hc
        · rw [hu] at hcu; cases hcu
        · exact h1 c hc hcu
    · have hu' : b.used = false := by simpa using hu
      have e1 : nf (b :: bs) = b.addr := by simp [nf, hu]
      have e2 : lf p (b :: bs) = lf b.addr bs := by simp [lf, hu]
      have hseg' : Seg m pool b.addr bs := by unfold Seg at hseg; simp only [hu] at hseg; exact hseg.2
      rw [e1]
      rw [e2] at hfin
      have hbs := hsz b List.mem_cons_self
      have hbm := ht.mem (b := b) List.mem_cons_self
      rw [mallocLoop, size_eq, hbs, ucmp_lt (by omega) hs]
      by_cases hlt : b.size < s
      · simp only [hlt, decide_true, if_true, next_eq]
        have hnx := hseg'.next_nf hfin
        simp only [hnx]
        by_cases hz : nf bs = 0
        · right
          refine ⟨?_, by simp [hz]⟩
          intro c hc hcu
          rcases List.mem_cons.1 hc with rfl | hc
          · exact hlt
          · exfalso
            have := nf_ne ht.2.2 (by omega) hc hcu; omega
        · have hnfm : nf bs < 65536 := nf_lt ht.2.2 he
          have hnz : ¬ (W (nf bs) = (0 : Word)) := fun h => hz (W_inj hnfm (by omega) h)
          rw [if_neg hnz]
          rcases ih (by omega) ht.2.2 hseg' hfin (size_cons hsz) hz with
            ⟨pre, b', post, h1, h2, h3, h4, h5⟩ | ⟨h1, h2⟩
          · refine Or.inl ⟨b :: pre, b', post, by rw [h1]; rfl, h2, h3, ?_, ?_⟩
            · intro c hc hcu
              rcases List.mem_cons.1 hc with rfl | hc
              · exact hlt
              · exact h4 c hc hcu
            · rw [h5]; simp [lf, hu]
          · refine Or.inr ⟨?_, h2⟩
            intro c hc hcu
            rcases List.mem_cons.1 hc with rfl | hc
            · exact hlt
            · exact h1 c hc hcu
      · left
        refine ⟨[], b, bs, rfl, hu', by omega, by simp, ?_⟩
        simp [hlt, lf]

/-- Bytes that do not belong to the allocator: payloads of used blocks and everything
outside the heap and outside memPool. -/
def Client (c : Cfg) (bs : List Blk) (x : Nat) : Prop :=
  x < 65536 ∧
  ((∃ u ∈ bs, u.used = true ∧ u.addr + 4 ≤ x ∧ x < u.addr + u.size) ∨
   ((x < c.pool ∨ c.pool + 4 ≤ x) ∧ (x < c.lo ∨ c.hi ≤ x)))

theorem sw_frame (m : Mem) {a x : Nat} (v : Word) (ha : a + 1 < 65536) (hx : x < 65536)
    (h : x < a ∨ a + 2 ≤ x) : (m.sw (W a) v) (W x) = m (W x) := by
  apply Mem.sw_ne
  · intro e; have := W_inj hx (by omega) e; omega
  · rw [show W a + 1 = W (a + 1) from W_add a 1]
    intro e; have := W_inj hx (by omega) e; omega

theorem Tiles.apart {a e : Nat} {bs : List Blk} (h : Tiles a e bs) {b c : Blk} (hb : b ∈ bs)
    (hc : c ∈ bs) : b = c ∨ b.addr + b.size ≤ c.addr ∨ c.addr + c.size ≤ b.addr := by
  induction bs generalizing a with
  | nil => cases hb
  | cons d bs ih =>
    have := h.1
    rcases List.mem_cons.1 hb with hb1 | hb1 <;> rcases List.mem_cons.1 hc with hc1 | hc1
    · exact Or.inl (hb1.trans hc1.symm)
    · have := h.2.2.mem hc1; subst hb1; right; left; omega
    · have := h.2.2.mem hb1; subst hc1; right; right; omega
    · exact ih h.2.2 hb1 hc1

/-- The predecessor found by a search lies below the block. -/
theorem lf_below {c : Cfg} {x : Nat} {pre : List Blk} (h : Tiles c.lo x pre) :
    c.pool ≤ lf c.pool pre ∧ lf c.pool pre + 4 ≤ x := by
  have := c.pool_lo
  have := h.le
  rcases lf_mem c.pool pre with h1 | ⟨b, hb, _, h1⟩
  · omega
  · have := h.mem hb; omega

/-- Distinct points of {pool} and the blocks of a tiling are four bytes apart. -/
theorem pt_apart {c : Cfg} {x : Nat} {pre : List Blk} (h : Tiles c.lo x pre) {a b : Nat}
    (ha : a = c.pool ∨ ∃ d ∈ pre, a = d.addr) (hb : b = c.pool ∨ ∃ d ∈ pre, b = d.addr)
    (hne : a ≠ b) : a + 4 ≤ b ∨ b + 4 ≤ a := by
  have := c.pool_lo
  rcases ha with rfl | ⟨d, hd, rfl⟩ <;> rcases hb with rfl | ⟨d', hd', rfl⟩
  · omega
  · have := h.mem hd'; omega
  · have := h.mem hd; omega
  · have h1 := h.mem hd
    have h2 := h.mem hd'
    rcases h.apart hd hd' with rfl | h3 | h3 <;> omega

theorem lf_pt (c : Cfg) (pre : List Blk) :
    lf c.pool pre = c.pool ∨ ∃ d ∈ pre, lf c.pool pre = d.addr := by
  rcases lf_mem c.pool pre with h | ⟨b, hb, _, h⟩
  · exact Or.inl h
  · exact Or.inr ⟨b, hb, h⟩

theorem LastFree.exists {bs : List Blk} (h : LastFree bs) : ∃ b ∈ bs, b.used = false := by
  obtain ⟨b, h1, h2⟩ := h
  exact ⟨b, List.mem_of_getLast? h1, h2⟩

/-- The successful part of malloc. -/
theorem malloc_ok (c : Cfg) {m : Mem} {pre post : List Blk} {b : Blk}
    (hr : Rep c m (pre ++ b :: post)) (hbf : b.used = false) (s : Nat)
    (hs4 : 4 ≤ s) (hev : s % 2 = 0)
    (hsplit : s + 4 ≤ b.size) (p : Nat) (hp : p = lf c.pool pre) :
    let m1 := m.sw (W (b.addr + s)) (ld m b.addr)
    let m2 := m1.sw (W (b.addr + s + 2)) (W (b.size - s))
    let m3 := m2.sw (W p) (W (b.addr + s))
    let m4 := m3.sw (W (b.addr + 2)) (W s)
    let m5 := m4.sw (W b.addr) (W c.pool)
    let bs' := pre ++ ⟨b.addr, s, true⟩ :: ⟨b.addr + s, b.size - s, false⟩ :: post
    Rep c m5 bs' ∧ ∀ x, Client c (pre ++ b :: post) x → m5 (W x) = m (W x) := by
  intro m1 m2 m3 m4 m5 bs'
  obtain ⟨x, ht1, ht2⟩ := (Tiles_append _ _ _ _).1 hr.tiles
  have hba := ht2.1
  have hbm := ht2.mem (b := b) List.mem_cons_self
  have hpl := c.pool_lo
  have hhi := c.hi_le
  have hlb := lf_below ht1
  rw [← hp] at hlb
  obtain ⟨hsg1, hsg2⟩ := (Seg_append _ _ _ _ _).1 hr.seg
  rw [← hp] at hsg2
  have hsg2' : ld m p = W b.addr ∧ Seg m c.pool b.addr post := by
    simpa [Seg, hbf] using hsg2
  have hfin : ld m (lf b.addr post) = 0 := by
    have := hr.fin
    rw [lf_append] at this
    simpa [lf, hbf] using this
  -- words away from the writes
  have far : ∀ a, a + 1 < 65536 → (a + 2 ≤ p ∨ p + 2 ≤ a) →
      (a + 2 ≤ b.addr ∨ b.addr + 4 ≤ a) → (a + 2 ≤ b.addr + s ∨ b.addr + s + 4 ≤ a) →
      ld m5 a = ld m a := by
    intro a h0 h1 h2 h3
    show ld (((((m.sw _ _).sw _ _).sw _ _).sw _ _).sw _ _) a = _
    rw [ld_sw_ne _ _ h0 (by omega) (by omega), ld_sw_ne _ _ h0 (by omega) (by omega),
      ld_sw_ne _ _ h0 (by omega) (by omega), ld_sw_ne _ _ h0 (by omega) (by omega),
      ld_sw_ne _ _ h0 (by omega) (by omega)]
  have v1 : ld m5 b.addr = W c.pool := ld_sw_same _ _ _
  have v2 : ld m5 (b.addr + 2) = W s := by
    show ld (((((m.sw _ _).sw _ _).sw _ _).sw _ _).sw _ _) _ = _
    rw [ld_sw_ne _ _ (by omega) (by omega) (by omega), ld_sw_same]
  have v3 : ld m5 p = W (b.addr + s) := by
    show ld (((((m.sw _ _).sw _ _).sw _ _).sw _ _).sw _ _) _ = _
    rw [ld_sw_ne _ _ (by omega) (by omega) (by omega),
      ld_sw_ne _ _ (by omega) (by omega) (by omega), ld_sw_same]
  have v4 : ld m5 (b.addr + s + 2) = W (b.size - s) := by
    show ld (((((m.sw _ _).sw _ _).sw _ _).sw _ _).sw _ _) _ = _
    rw [ld_sw_ne _ _ (by omega) (by omega) (by omega),
      ld_sw_ne _ _ (by omega) (by omega) (by omega),
      ld_sw_ne _ _ (by omega) (by omega) (by omega), ld_sw_same]
  have v5 : ld m5 (b.addr + s) = ld m b.addr := by
    show ld (((((m.sw _ _).sw _ _).sw _ _).sw _ _).sw _ _) _ = _
    rw [ld_sw_ne _ _ (by omega) (by omega) (by omega),
      ld_sw_ne _ _ (by omega) (by omega) (by omega),
      ld_sw_ne _ _ (by omega) (by omega) (by omega),
      ld_sw_ne _ _ (by omega) (by omega) (by omega), ld_sw_same]
  have hpt : ∀ a, (a = c.pool ∨ ∃ d ∈ pre, a = d.addr) → a + 4 ≤ b.addr := by
    rintro a (rfl | ⟨d, hd, rfl⟩)
    · have := ht1.le; omega
    · have := ht1.mem hd; omega
  have hpp := lf_pt c pre
  rw [← hp] at hpp
  have hpost : ∀ d ∈ post, b.addr + b.size ≤ d.addr ∧ d.addr + 4 ≤ c.hi := by
    intro d hd
    have := ht2.2.2.mem hd
    omega
  have htr := hsg2'.2.transfer (m' := m5) (y := b.addr + s) hfin v5 (by
    intro d hd
    have := hpost d hd
    exact far _ (by omega) (by omega) (by omega) (by omega))
  have hseg1 : Seg m5 c.pool c.pool pre := by
    apply hsg1.frame ht1 (by omega)
    intro a ha hne
    rw [← hp] at hne
    have h1 := hpt a ha
    have h2 := pt_apart ht1 ha hpp hne
    exact far a (by omega) (by omega) (by omega) (by omega)
  refine ⟨⟨?_, ?_, ?_, ?_, ?_, ?_, ?_, ?_⟩, ?_⟩
  · refine (Tiles_append _ _ _ _).2 ⟨x, ht1, hba, hs4, by show b.addr + s = x + s; rw [hba], ?_, ?_⟩
    · show 4 ≤ b.size - s; omega
    · show Tiles (x + s + (b.size - s)) _ _
      rw [show x + s + (b.size - s) = x + b.size by omega]
      exact ht2.2.2
  · refine (Seg_append _ _ _ _ _).2 ⟨hseg1, ?_⟩
    rw [← hp]
    simp only [Seg, if_true]
    exact ⟨v1, by simpa using ⟨v3, htr.1⟩⟩
  · rw [lf_append]
    simpa [lf] using htr.2
  · intro d hd
    rcases List.mem_append.1 hd with hd | hd
    · have h1 := hpt d.addr (Or.inr ⟨d, hd, rfl⟩)
      have h2 : p = d.addr ∨ p + 4 ≤ d.addr ∨ d.addr + 4 ≤ p := by
        by_cases e : p = d.addr
        · exact Or.inl e
        · exact Or.inr (pt_apart ht1 hpp (Or.inr ⟨d, hd, rfl⟩) e)
      rw [far _ (by omega) (by omega) (by omega) (by omega)]
      exact hr.sizes d (List.mem_append_left _ hd)
    · rcases List.mem_cons.1 hd with rfl | hd
      · exact v2
      · rcases List.mem_cons.1 hd with rfl | hd
        · exact v4
        · have := hpost d hd
          have hdz := (ht2.2.2.mem hd).2
          rw [far _ (by omega) (by omega) (by omega) (by omega)]
          exact hr.sizes d (List.mem_append_right _ (List.mem_cons_of_mem _ hd))
  · rw [far _ (by omega) ?_ (by have := ht1.le; omega) (by have := ht1.le; omega)]
    · exact hr.root
    · rcases hpp with h | ⟨d, hd, h⟩
      · omega
      · have := ht1.mem hd; omega
  · have hn := hr.noadj
    unfold NoAdj at hn ⊢
    rw [List.isChain_append] at hn
    show List.IsChain _ (pre ++ _)
    rw [List.isChain_append]
    refine ⟨hn.1, ?_, ?_⟩
    · rw [List.isChain_cons_cons]
      refine ⟨by simp, ?_⟩
      cases post with
      | nil => exact List.isChain_singleton _
      | cons d post =>
        have := hn.2.1
        rw [List.isChain_cons_cons] at this ⊢
        exact ⟨fun _ => this.1 hbf, this.2⟩
    · intro y hy z hz
      simp at hz
      subst hz
      intro _; rfl
  · obtain ⟨d, h1, h2⟩ := hr.last
    cases post with
    | nil => exact ⟨⟨b.addr + s, b.size - s, false⟩, by simp [bs'], rfl⟩
    | cons e post =>
      refine ⟨d, ?_, h2⟩
      simp [List.getLast?_append] at h1 ⊢
      simpa [bs', List.getLast?_append, List.getLast?_cons] using h1
  · intro h0 d hd
    have hall := hr.even h0
    have hb0 := hall b (by simp)
    rcases List.mem_append.1 hd with hd | hd
    · exact hall d (List.mem_append_left _ hd)
    · rcases List.mem_cons.1 hd with rfl | hd
      · exact hb0
      · rcases List.mem_cons.1 hd with rfl | hd
        · show (b.addr + s) % 2 = 0; omega
        · exact hall d (List.mem_append_right _ (List.mem_cons_of_mem _ hd))
  · rintro y ⟨hy, hc⟩
    have hyb : (y < p ∨ p + 4 ≤ y) ∧ (y < b.addr ∨ b.addr + b.size ≤ y) := by
      rcases hc with ⟨u, hu, huu, h1, h2⟩ | ⟨h1, h2⟩
      · have hub : u ≠ b := by rintro rfl; rw [hbf] at huu; cases huu
        constructor
        · rcases hpp with h | ⟨d, hd, h⟩
          · have := hr.tiles.mem hu; omega
          · rcases lf_mem c.pool pre with h3 | ⟨d, hd, hdf, h3⟩
            · have := hr.tiles.mem hu; omega
            · rw [← hp] at h3
              have hud : u ≠ d := by rintro rfl; rw [hdf] at huu; cases huu
              have := hr.tiles.mem hu
              have := ht1.mem hd
              rcases hr.tiles.apart hu (List.mem_append_left _ hd) with h4 | h4 | h4
              · exact absurd h4 hud
              · omega
              · omega
        · rcases hr.tiles.apart hu (show b ∈ pre ++ b :: post by simp) with h4 | h4 | h4
          · exact absurd h4 hub
          · omega
          · omega
      · have := ht1.le
        rcases hpp with h | ⟨d, hd, h⟩
        · omega
        · have := ht1.mem hd; omega
    show (((((m.sw _ _).sw _ _).sw _ _).sw _ _).sw _ _) _ = _
    rw [sw_frame _ _ (by omega) hy (by omega), sw_frame _ _ (by omega) hy (by omega),
      sw_frame _ _ (by omega) hy (by omega), sw_frame _ _ (by omega) hy (by omega),
      sw_frame _ _ (by omega) hy (by omega)]

/-- Client bytes lie outside the free blocks and outside the header of the predecessor. -/
theorem Client.away {c : Cfg} {bs : List Blk} {x : Nat} (h : Client c bs x)
    (ht : Tiles c.lo c.hi bs) {b : Blk} (hb : b ∈ bs) (hbf : b.used = false) :
    x < b.addr ∨ b.addr + b.size ≤ x := by
  obtain ⟨_, ⟨u, hu, huu, h1, h2⟩ | ⟨h1, h2⟩⟩ := h
  · rcases ht.apart hu hb with rfl | h3 | h3
    · rw [hbf] at huu; cases huu
    · omega
    · omega
  · have := ht.mem hb; omega

theorem Client.away_pool {c : Cfg} {bs : List Blk} {x : Nat} (h : Client c bs x)
    (ht : Tiles c.lo c.hi bs) : x < c.pool ∨ c.pool + 4 ≤ x := by
  have := c.pool_lo
  obtain ⟨_, ⟨u, hu, huu, h1, h2⟩ | ⟨h1, h2⟩⟩ := h
  · have := ht.mem hu; omega
  · exact h1

theorem Client.away_lf {c : Cfg} {pre post : List Blk} {x : Nat} (h : Client c (pre ++ post) x)
    (ht : Tiles c.lo c.hi (pre ++ post)) : x < lf c.pool pre ∨ lf c.pool pre + 4 ≤ x := by
  rcases lf_mem c.pool pre with h1 | ⟨b, hb, hbf, h1⟩
  · rw [h1]; exact h.away_pool ht
  · have hm : b ∈ pre ++ post := List.mem_append_left _ hb
    have := h.away ht hm hbf
    have := ht.mem hm
    omega

theorem Client.away_hdr {c : Cfg} {bs : List Blk} {x : Nat} (h : Client c bs x)
    (ht : Tiles c.lo c.hi bs) {b : Blk} (hb : b ∈ bs) : x < b.addr ∨ b.addr + 4 ≤ x := by
  obtain ⟨_, ⟨u, hu, huu, h1, h2⟩ | ⟨h1, h2⟩⟩ := h
  · have := ht.mem hb
    rcases ht.apart hu hb with rfl | h3 | h3 <;> omega
  · have := ht.mem hb; omega

/-- malloc giving away a whole block. -/
theorem malloc_whole (c : Cfg) {m : Mem} {pre post : List Blk} {b : Blk}
    (hr : Rep c m (pre ++ b :: post)) (hbf : b.used = false) (hnx : ld m b.addr ≠ 0)
    (p : Nat) (hp : p = lf c.pool pre) :
    let m1 := m.sw (W p) (ld m b.addr)
    let m5 := m1.sw (W b.addr) (W c.pool)
    let bs' := pre ++ ⟨b.addr, b.size, true⟩ :: post
    Rep c m5 bs' ∧ ∀ x, Client c (pre ++ b :: post) x → m5 (W x) = m (W x) := by
  intro m1 m5 bs'
  obtain ⟨x, ht1, ht2⟩ := (Tiles_append _ _ _ _).1 hr.tiles
  have hba := ht2.1
  have hbm := ht2.mem (b := b) List.mem_cons_self
  have hpl := c.pool_lo
  have hhi := c.hi_le
  have hlb := lf_below ht1
  rw [← hp] at hlb
  obtain ⟨hsg1, hsg2⟩ := (Seg_append _ _ _ _ _).1 hr.seg
  rw [← hp] at hsg2
  have hsg2' : ld m p = W b.addr ∧ Seg m c.pool b.addr post := by
    simpa [Seg, hbf] using hsg2
  have hfin : ld m (lf b.addr post) = 0 := by
    have := hr.fin
    rw [lf_append] at this
    simpa [lf, hbf] using this
  have far : ∀ a, a + 1 < 65536 → (a + 2 ≤ p ∨ p + 2 ≤ a) →
      (a + 2 ≤ b.addr ∨ b.addr + 2 ≤ a) → ld m5 a = ld m a := by
    intro a h0 h1 h2
    show ld ((m.sw _ _).sw _ _) a = _
    rw [ld_sw_ne _ _ h0 (by omega) (by omega), ld_sw_ne _ _ h0 (by omega) (by omega)]
  have v1 : ld m5 b.addr = W c.pool := ld_sw_same _ _ _
  have v5 : ld m5 p = ld m b.addr := by
    show ld ((m.sw _ _).sw _ _) _ = _
    rw [ld_sw_ne _ _ (by omega) (by omega) (by omega), ld_sw_same]
  have hpt : ∀ a, (a = c.pool ∨ ∃ d ∈ pre, a = d.addr) → a + 4 ≤ b.addr := by
    rintro a (rfl | ⟨d, hd, rfl⟩)
    · have := ht1.le; omega
    · have := ht1.mem hd; omega
  have hpp := lf_pt c pre
  rw [← hp] at hpp
  have hpost : ∀ d ∈ post, b.addr + b.size ≤ d.addr ∧ d.addr + 4 ≤ c.hi := by
    intro d hd
    have := ht2.2.2.mem hd
    omega
  have htr := hsg2'.2.transfer (m' := m5) (y := p) hfin v5 (by
    intro d hd
    have := hpost d hd
    exact far _ (by omega) (by omega) (by omega))
  have hseg1 : Seg m5 c.pool c.pool pre := by
    apply hsg1.frame ht1 (by omega)
    intro a ha hne
    rw [← hp] at hne
    have h1 := hpt a ha
    have h2 := pt_apart ht1 ha hpp hne
    exact far a (by omega) (by omega) (by omega)
  refine ⟨⟨?_, ?_, ?_, ?_, ?_, ?_, ?_, ?_⟩, ?_⟩
  · exact (Tiles_append _ _ _ _).2 ⟨x, ht1, ht2⟩
  · refine (Seg_append _ _ _ _ _).2 ⟨hseg1, ?_⟩
    rw [← hp]
    simp only [Seg, if_true]
    exact ⟨v1, htr.1⟩
  · rw [lf_append, ← hp]
    simpa [lf] using htr.2
  · intro d hd
    rcases List.mem_append.1 hd with hd | hd
    · have h1 := hpt d.addr (Or.inr ⟨d, hd, rfl⟩)
      have h2 : p = d.addr ∨ p + 4 ≤ d.addr ∨ d.addr + 4 ≤ p := by
        by_cases e : p = d.addr
        · exact Or.inl e
        · exact Or.inr (pt_apart ht1 hpp (Or.inr ⟨d, hd, rfl⟩) e)
      rw [far _ (by omega) (by omega) (by omega)]
      exact hr.sizes d (List.mem_append_left _ hd)
    · rcases List.mem_cons.1 hd with rfl | hd
      · show ld m5 (b.addr + 2) = _
        rw [far _ (by omega) (by omega) (by omega)]
        exact hr.sizes b (by simp)
      · have := hpost d hd
        have hdz := (ht2.2.2.mem hd).2
        rw [far _ (by omega) (by omega) (by omega)]
        exact hr.sizes d (List.mem_append_right _ (List.mem_cons_of_mem _ hd))
  · rw [far _ (by omega) ?_ (by have := ht1.le; omega)]
    · exact hr.root
    · rcases hpp with h | ⟨d, hd, h⟩
      · omega
      · have := ht1.mem hd; omega
  · have hn := hr.noadj
    unfold NoAdj at hn ⊢
    rw [List.isChain_append] at hn
    show List.IsChain _ (pre ++ _)
    rw [List.isChain_append]
    refine ⟨hn.1, ?_, ?_⟩
    · cases post with
      | nil => exact List.isChain_singleton _
      | cons d post =>
        have := hn.2.1
        rw [List.isChain_cons_cons] at this ⊢
        exact ⟨fun h => by simp at h, this.2⟩
    · intro y hy z hz
      simp at hz
      subst hz
      intro _; rfl
  · obtain ⟨d, h1, h2⟩ := hr.last
    cases post with
    | nil => exact absurd (by simpa [lf] using hfin) hnx
    | cons e post =>
      refine ⟨d, ?_, h2⟩
      simp [List.getLast?_append] at h1 ⊢
      simpa [bs', List.getLast?_append, List.getLast?_cons] using h1
  · intro h0 d hd
    have hall := hr.even h0
    rcases List.mem_append.1 hd with hd | hd
    · exact hall d (List.mem_append_left _ hd)
    · rcases List.mem_cons.1 hd with rfl | hd
      · exact hall b (by simp)
      · exact hall d (List.mem_append_right _ (List.mem_cons_of_mem _ hd))
  · intro y hc
    have hy := hc.1
    have h1 := hc.away hr.tiles (show b ∈ pre ++ b :: post by simp) hbf
    have h2 := hc.away_lf hr.tiles
    rw [← hp] at h2
    show ((m.sw _ _).sw _ _) _ = _
    rw [sw_frame _ _ (by omega) hy (by omega), sw_frame _ _ (by omega) hy (by omega)]

theorem addrAdd_W (a b : Nat) : addrAdd (W a) (W b) = W (a + b) := W_add a b

/-- malloc on a represented heap. -/
theorem malloc_spec (c : Cfg) {st : St} {bs : List Blk} (hr : Rep c st.mem bs) (sp : Word)
    {siz : Nat} (hsiz : siz ≤ 65530) :
    malloc (W c.pool) sp st (W siz) = some (.error EUNOMEM) ∨
    ∃ pre b post s rest st', bs = pre ++ b :: post ∧ b.used = false ∧ (siz + 4 ≤ s ∧ s ≤ siz + 11) ∧
      (∀ d ∈ pre, d.used = false → d.size < siz + 5) ∧
      ((s = b.size ∧ rest = []) ∨ (s + 4 ≤ b.size ∧ rest = [⟨b.addr + s, b.size - s, false⟩])) ∧
      malloc (W c.pool) sp st (W siz) = some (.ok (W (b.addr + 4), st')) ∧
      Rep c st'.mem (pre ++ ⟨b.addr, s, true⟩ :: rest ++ post) ∧
      (∀ x, Client c bs x → st'.mem (W x) = st.mem (W x)) ∧
      b.addr + s < (sp - 10).toNat ∧
      st'.alc = if st.alc.toNat < b.addr + s then W (b.addr + s) else st.alc := by
  obtain ⟨d0, hd0, hd0f⟩ := hr.last.exists
  have hlo := c.lo_ge
  have hhi := c.hi_le
  have hnf : nf bs ≠ 0 := by
    have := nf_ne hr.tiles (by omega) hd0 hd0f; omega
  have hnx : next st.mem (W c.pool) = W (nf bs) := hr.seg.next_nf hr.fin
  unfold malloc
  simp only [roundSize_eq hsiz, hnx]
  set s := (siz + 5) / 2 * 2 with hs
  rcases mallocLoop_spec (s := s) (by omega) (Nat.le_of_lt hhi) (by omega) hr.tiles hr.seg hr.fin hr.sizes hnf with
    ⟨pre, b, post, h1, h2, h3, h4, h5⟩ | ⟨_, h2⟩
  · rw [h5]
    subst h1
    have hbm := hr.tiles.mem (b := b) (by simp)
    have hsz := hr.sizes b (by simp)
    have e1 : W s + MBSIZE + 2 = W (s + 6) := by
      rw [show (MBSIZE : Word) = W 4 from rfl, show (2 : Word) = W 2 from rfl, W_add, W_add]
    have ep4 : addrAdd (W b.addr) MBSIZE = W (b.addr + 4) := W_add4 _
    simp only [size_eq, hsz, next_eq, e1, ucmp_le (show b.size < 65536 by omega)
      (show s + 6 < 65536 by omega), ep4]
    have alcE : ∀ n : Nat, n < 65536 → ∀ x : Word, (if ilt 0 (uCmp (W n) x) then W n else x)
        = if x.toNat < n then W n else x := by
      intro n hn x
      have := ucmp_gt hn x.isLt
      rw [show W x.toNat = x from BitVec.eq_of_toNat_eq (W_toNat x.isLt)] at this
      rw [this]; simp
    have spE : ∀ n : Nat, n < 65536 → ile 0 (uCmp (W n) (sp - 10)) = decide ((sp - 10).toNat ≤ n) := by
      intro n hn
      have := ucmp_ge hn (sp - 10).isLt
      rw [show W (sp - 10).toNat = sp - 10 from BitVec.eq_of_toNat_eq (W_toNat (sp - 10).isLt)] at this
      exact this
    by_cases hsmall : b.size ≤ s + 6
    · simp only [hsmall, decide_true, Bool.true_and, if_true, addrAdd_W]
      by_cases hz : ld st.mem b.addr = 0
      · left; simp [hz]
      · have hz' : (ld st.mem b.addr == 0) = false := beq_eq_false_iff_ne.2 hz
        simp only [hz']
        rw [spE _ (by omega)]
        by_cases hsp : (sp - 10).toNat ≤ b.addr + b.size
        · left; simp only [hsp, decide_true, if_true]; simp
        · right
          obtain ⟨r1, r2⟩ := malloc_whole c hr h2 hz _ rfl
          refine ⟨pre, b, post, b.size, [], ⟨_, _⟩, rfl, h2, by omega, ?_, Or.inl ⟨rfl, rfl⟩, ?_,
            by simpa using r1, r2, by omega, alcE _ (by omega) _⟩
          · intro d hd hdf; have := h4 d hd hdf; omega
          · simp only [hsp, decide_false]
            rfl
    · have hne : ¬ (W s = W b.size) := fun h => by
        have := W_inj (by omega) (by omega) h; omega
      simp only [hsmall, decide_false, Bool.false_and]
      simp only [Bool.false_eq_true, if_false, addrAdd_W]
      rw [spE _ (by omega)]
      by_cases hsp : (sp - 10).toNat ≤ b.addr + s
      · left; simp only [hsp, decide_true, if_true]
      · right
        obtain ⟨r1, r2⟩ := malloc_ok c hr h2 s (by omega) (by omega) (by omega) _ rfl
        refine ⟨pre, b, post, s, _, ⟨_, _⟩, rfl, h2, by omega, ?_,
          Or.inr ⟨by omega, rfl⟩, ?_, by simpa using r1, r2, by omega, alcE _ (by omega) _⟩
        · intro d hd hdf; have := h4 d hd hdf; omega
        · simp only [hsp, decide_false, Bool.false_eq_true, if_false, hne, setNext_eq, setSize_eq]
          rw [ld_sw_ne _ _ (by omega) (by omega) (by omega), hsz, W_sub (by omega) (by omega)]
          rfl
  · left; rw [h2]

/-! ### free -/

theorem nf_append (l r : List Blk) : nf (l ++ r) = if nf l = 0 ∧ (∀ b ∈ l, b.used = true) then nf r
    else nf l := by
  induction l with
  | nil => simp [nf]
  | cons b l ih =>
    by_cases hb : b.used = true
    · simp [nf, hb, ih]
    · simp [nf, hb]

/-- The search of free: it stops between the free blocks below and above `q`. -/
theorem freeLoop_spec {m : Mem} {pool p a e q : Nat} {pre post : List Blk} (hq : q < 65536)
    (he : e ≤ 65536) (ha : 0 < a) (ht : Tiles a e (pre ++ post)) (hseg : Seg m pool p (pre ++ post))
    (hfin : ld m (lf p (pre ++ post)) = 0) (hne : nf (pre ++ post) ≠ 0)
    (hlo : ∀ c ∈ pre, c.used = false → c.addr < q) (hhi : ∀ c ∈ post, c.used = false → q ≤ c.addr) :
    freeLoop m (W q) (W p) (W (nf (pre ++ post))) = some (W (lf p pre), W (nf post)) := by
  induction pre generalizing p a with
  | nil =>
    simp only [List.nil_append] at hne ht ⊢
    have : q ≤ nf post := by
      clear hseg hfin ht
      induction post with
      | nil => simp [nf] at hne
      | cons c l ih =>
        unfold nf at hne ⊢
        by_cases hu : c.used = true
        · simp only [hu, if_true] at hne ⊢
          exact ih (fun d hd => hhi d (List.mem_cons_of_mem _ hd)) hne
        · simp only [hu] at hne ⊢
          exact hhi c List.mem_cons_self (by simpa using hu)
    rw [freeLoop, ucmp_lt (nf_lt ht he) hq]
    rw [decide_eq_false (by omega)]
    rfl
  | cons c l ih =>
    have hlo' : ∀ d ∈ l, d.used = false → d.addr < q := fun d hd => hlo d (List.mem_cons_of_mem _ hd)
    simp only [List.cons_append] at *
    by_cases hu : c.used = true
    · simp only [Seg, lf, nf, hu, if_true] at hseg hfin hne ⊢
      exact ih (by omega) ht.2.2 hseg.2 hfin hne hlo'
    · have hcq := hlo c List.mem_cons_self (by simpa using hu)
      simp only [Seg, lf, nf, hu] at hseg hfin hne ⊢
      simp only [Bool.false_eq_true, if_false] at hseg hfin hne ⊢
      have hcm := ht.mem (b := c) List.mem_cons_self
      rw [freeLoop, ucmp_lt (by omega) hq, decide_eq_true hcq]
      simp only [if_true, next_eq, hseg.2.next_nf hfin]
      by_cases hz : nf (l ++ post) = 0
      · have hall := nf_zero ht.2.2 (by omega) hz
        simp only [hz]
        rw [lf_used _ fun b hb => hall b (List.mem_append_left _ hb),
          nf_used fun b hb => hall b (List.mem_append_right _ hb)]
        simp
      · have hnz : ¬ (W (nf (l ++ post)) = (0 : Word)) :=
          fun h => hz (W_inj (nf_lt ht.2.2 he) (by omega) h)
        rw [if_neg hnz]
        exact ih (by omega) ht.2.2 hseg.2 hfin hz hlo'

/-- Rebuilding the invariant after the part of the list between `pre` and `post` has been
replaced by one free block `n`. -/
theorem Rep.merge (c : Cfg) {m m' : Mem} {pre mid post : List Blk} {n : Blk}
    (hr : Rep c m (pre ++ mid ++ post)) (hn : n.used = false) (hmid : mid ≠ [])
    (hna : ∀ b ∈ mid.head?, n.addr = b.addr)
    (hnz : ∀ e, Tiles n.addr e mid → n.addr + n.size = e)
    (hpre : ∀ b ∈ pre.getLast?, b.used = true) (hpost : ∀ b ∈ post.head?, b.used = true)
    (hlast : LastFree (n :: post))
    (hframe : ∀ a, a + 1 < 65536 → (a + 2 ≤ lf c.pool pre ∨ lf c.pool pre + 2 ≤ a) →
      (a + 2 ≤ n.addr ∨ n.addr + n.size ≤ a) → ld m' a = ld m a)
    (hp : ld m' (lf c.pool pre) = W n.addr) (hsz : ld m' (n.addr + 2) = W n.size)
    (hnx : ld m' n.addr = ld m (lf c.pool (pre ++ mid))) :
    Rep c m' (pre ++ n :: post) := by
  have hpl := c.pool_lo
  have hhi := c.hi_le
  obtain ⟨y, ht12, ht3⟩ := (Tiles_append _ _ _ _).1 hr.tiles
  obtain ⟨x, ht1, ht2⟩ := (Tiles_append _ _ _ _).1 ht12
  have hnx0 : n.addr = x ∧ 4 ≤ y - x ∧ x ≤ y := by
    cases mid with
    | nil => exact absurd rfl hmid
    | cons b mid =>
      have h1 := ht2.1
      have h2 := hna b rfl
      have h3 := ht2.2.2.le
      have := ht2.2.1
      omega
  have hsum := hnz y (by rw [hnx0.1]; exact ht2)
  have hyhi := ht3.le
  have hlb := lf_below ht1
  obtain ⟨hsg12, hsg3⟩ := (Seg_append _ _ _ _ _).1 hr.seg
  obtain ⟨hsg1, hsg2⟩ := (Seg_append _ _ _ _ _).1 hsg12
  have hfin : ld m (lf (lf c.pool (pre ++ mid)) post) = 0 := by
    rw [← lf_append]; exact hr.fin
  have hpt : ∀ a, (a = c.pool ∨ ∃ d ∈ pre, a = d.addr) → a + 4 ≤ x := by
    rintro a (rfl | ⟨d, hd, rfl⟩)
    · have := ht1.le; omega
    · have := ht1.mem hd; omega
  have hpp := lf_pt c pre
  have htr := hsg3.transfer (m' := m') (y := n.addr) hfin hnx (by
    intro d hd
    have := ht3.mem hd
    exact hframe _ (by omega) (by omega) (by omega))
  have hseg1 : Seg m' c.pool c.pool pre := by
    apply hsg1.frame ht1 (by omega)
    intro a ha hne
    have h1 := hpt a ha
    have h2 := pt_apart ht1 ha hpp hne
    exact hframe a (by omega) (by omega) (by omega)
  refine ⟨?_, ?_, ?_, ?_, ?_, ?_, ?_, ?_⟩
  · refine (Tiles_append _ _ _ _).2 ⟨x, ht1, hnx0.1, by omega, ?_⟩
    rw [show x + n.size = y by omega]
    exact ht3
  · refine (Seg_append _ _ _ _ _).2 ⟨hseg1, ?_⟩
    simp only [Seg, hn]
    exact ⟨hp, htr.1⟩
  · rw [lf_append]
    simpa [lf, hn] using htr.2
  · intro d hd
    rcases List.mem_append.1 hd with hd | hd
    · have h1 := hpt d.addr (Or.inr ⟨d, hd, rfl⟩)
      have h2 : lf c.pool pre = d.addr ∨ lf c.pool pre + 4 ≤ d.addr ∨ d.addr + 4 ≤ lf c.pool pre := by
        by_cases e : lf c.pool pre = d.addr
        · exact Or.inl e
        · exact Or.inr (pt_apart ht1 hpp (Or.inr ⟨d, hd, rfl⟩) e)
      rw [hframe _ (by omega) (by omega) (by omega)]
      exact hr.sizes d (by simp [hd])
    · rcases List.mem_cons.1 hd with rfl | hd
      · exact hsz
      · have := ht3.mem hd
        rw [hframe _ (by omega) (by omega) (by omega)]
        exact hr.sizes d (by simp [hd])
  · rw [hframe _ (by omega) ?_ (by have := ht1.le; omega)]
    · exact hr.root
    · rcases hpp with h | ⟨d, hd, h⟩
      · omega
      · have := ht1.mem hd; omega
  · have hno := hr.noadj
    unfold NoAdj at hno ⊢
    rw [List.isChain_append] at hno
    have hno1 := (List.isChain_append.1 hno.1).1
    rw [List.isChain_append]
    refine ⟨hno1, ?_, ?_⟩
    · rw [List.isChain_cons]
      exact ⟨fun b hb _ => hpost b hb, hno.2.1⟩
    · intro b hb z hz h
      rw [hpre b hb] at h; cases h
  · obtain ⟨d, h1, h2⟩ := hlast
    exact ⟨d, by rw [List.getLast?_append, h1]; rfl, h2⟩
  · intro h0 d hd
    have hall := hr.even h0
    rcases List.mem_append.1 hd with hd | hd
    · exact hall d (by simp [hd])
    · rcases List.mem_cons.1 hd with rfl | hd
      · cases mid with
        | nil => exact absurd rfl hmid
        | cons b mid =>
          rw [hna b rfl]; exact hall b (by simp)
      · exact hall d (by simp [hd])

theorem NoAdj.append_left {l r : List Blk} (h : NoAdj (l ++ r)) : NoAdj l :=
  (List.isChain_append.1 h).1
theorem NoAdj.append_right {l r : List Blk} (h : NoAdj (l ++ r)) : NoAdj r :=
  (List.isChain_append.1 h).2.1

theorem LastFree.cons {b : Blk} {l : List Blk} (h : LastFree l) : LastFree (b :: l) := by
  obtain ⟨d, h1, h2⟩ := h
  refine ⟨d, ?_, h2⟩
  rw [List.getLast?_cons, h1]; rfl

theorem LastFree.append_right {l r : List Blk} (h : LastFree (l ++ r)) (hr : r ≠ []) :
    LastFree r := by
  obtain ⟨d, h1, h2⟩ := h
  refine ⟨d, ?_, h2⟩
  rw [List.getLast?_append] at h1
  cases hl : r.getLast? with
  | none => exact absurd (List.getLast?_eq_none_iff.1 hl) hr
  | some e => rw [hl] at h1; simpa using h1

/-- free of a used block. -/
theorem free_spec (c : Cfg) {st : St} {pre post : List Blk} {u : Blk}
    (hr : Rep c st.mem (pre ++ u :: post)) (hu : u.used = true) :
    ∃ st' bs', free (W c.pool) st (W (u.addr + 4)) = some (.ok st') ∧ Rep c st'.mem bs' ∧
      bs'.filter Blk.used = pre.filter Blk.used ++ post.filter Blk.used ∧
      (∀ x, Client c (pre ++ u :: post) x → st'.mem (W x) = st.mem (W x)) ∧
      (∀ b ∈ bs', ∃ d ∈ pre ++ u :: post, b.addr = d.addr) ∧ st'.alc = st.alc := by
  have hpl := c.pool_lo
  have hlo := c.lo_ge
  have hhi := c.hi_le
  have hum := hr.tiles.mem (b := u) (by simp)
  obtain ⟨x, ht1, ht2⟩ := (Tiles_append _ _ _ _).1 hr.tiles
  have hux := ht2.1
  have hpne : post ≠ [] := by
    rintro rfl
    obtain ⟨d, h1, h2⟩ := hr.last
    simp at h1; subst h1; rw [hu] at h2; cases h2
  have hlp : LastFree post := by
    have := hr.last
    rw [show pre ++ u :: post = (pre ++ [u]) ++ post by simp] at this
    exact this.append_right hpne
  obtain ⟨d0, hd0, hd0f⟩ := hlp.exists
  have hnf : nf (pre ++ u :: post) ≠ 0 := by
    have := nf_ne hr.tiles (by omega) (show d0 ∈ pre ++ u :: post by simp [hd0]) hd0f; omega
  have hq : addrAdd (W (u.addr + 4)) (-MBSIZE) = W u.addr := by
    unfold addrAdd
    rw [show (-MBSIZE : Word) = W 65532 from rfl, W_add]
    apply BitVec.eq_of_toNat_eq; simp; omega
  have hmag : next st.mem (W u.addr) = W c.pool := by
    have := ((Seg_append _ _ _ _ _).1 hr.seg).2
    simp only [Seg, hu, if_true] at this
    exact this.1
  have hnx : next st.mem (W c.pool) = W (nf (pre ++ u :: post)) := hr.seg.next_nf hr.fin
  have hloop := freeLoop_spec (q := u.addr) (by omega) (Nat.le_of_lt hhi) (by omega) hr.tiles
    hr.seg hr.fin hnf (fun d hd _ => by have := ht1.mem hd; omega)
    (fun d hd _ => by have := ht2.mem hd; omega)
  have hnfu : nf (u :: post) = nf post := by simp [nf, hu]
  rw [hnfu] at hloop
  have hsu := hr.sizes u (by simp)
  have hlb := lf_below ht1
  -- the end of the free block below
  obtain ⟨P, hP, hPle⟩ : ∃ P, size st.mem (W (lf c.pool pre)) = W P ∧ lf c.pool pre + P ≤ u.addr := by
    rcases lf_mem c.pool pre with h | ⟨d, hd, hdf, h⟩
    · rw [h, size_eq]; exact ⟨0, hr.root, by have := ht1.le; omega⟩
    · rw [h, size_eq]
      exact ⟨d.size, hr.sizes d (by simp [hd]), by have := ht1.mem hd; omega⟩
  have hnp := nf_ne ht2.2.2 (by omega) hd0 hd0f
  have hnp' := nf_lt ht2.2.2 (Nat.le_of_lt hhi)
  have hup : next st.mem (W (lf c.pool pre)) = W (nf post) := by
    have h1 := ((Seg_append _ _ _ _ _).1 hr.seg).2
    have h2 := hr.fin
    rw [lf_append] at h2
    have := h1.next_nf h2
    rw [hnfu] at this; exact this
  unfold free
  simp only [hq, hmag, hnx, hloop, hP, size_eq st.mem u.addr, hsu, addrAdd_W]
  rw [ucmp_lt (show u.addr < 65536 by omega) (show lf c.pool pre + P < 65536 by omega),
    ucmp_lt hnp' (show u.addr + u.size < 65536 by omega),
    decide_eq_false (show ¬ u.addr < lf c.pool pre + P by omega),
    decide_eq_false (show ¬ nf post < u.addr + u.size by omega)]
  simp only [ne_eq, not_true_eq_false, if_false, Bool.and_false, Bool.or_false, Bool.false_eq_true]
  -- list facts around u
  have hend : lf c.pool pre + P = u.addr ↔ ∃ pre' e, pre = pre' ++ [e] ∧ e.used = false := by
    rcases List.eq_nil_or_concat' pre with h | ⟨pre', e, h⟩
    · subst h
      have hP0 : P % 65536 = 0 := by
        have := hP; simp only [lf] at this
        rw [size_eq, hr.root] at this
        have := congrArg BitVec.toNat this
        simp at this; omega
      simp only [lf] at hlb hPle ⊢
      constructor
      · intro h; omega
      · rintro ⟨p', e', h, _⟩; simp at h
    · subst h
      obtain ⟨z, hz1, hz2⟩ := (Tiles_append _ _ _ _).1 ht1
      have hz3 := hz2.1
      have hz4 : z + e.size = x := hz2.2.2
      have hz5 := hz2.2.1
      by_cases he : e.used = true
      · constructor
        · intro h
          exfalso
          have h0 : lf c.pool (pre' ++ [e]) = lf c.pool pre' := by rw [lf_append]; simp [lf, he]
          rw [h0] at hP h hlb
          rcases lf_mem c.pool pre' with h1 | ⟨d, hd, hdf, h1⟩
          · rw [h1, size_eq, hr.root] at hP
            have := congrArg BitVec.toNat hP
            simp at this
            have := hz1.le
            omega
          · rw [h1, size_eq, hr.sizes d (by simp [hd])] at hP
            have h3 := hz1.mem hd
            have := W_inj (by omega) (by omega) hP
            omega
        · rintro ⟨p', e', h, h1⟩
          have := List.append_inj_right' h rfl
          simp at this; subst this
          rw [he] at h1; cases h1
      · constructor
        · intro _; exact ⟨pre', e, rfl, by simpa using he⟩
        · intro _
          have h0 : lf c.pool (pre' ++ [e]) = e.addr := by rw [lf_append]; simp [lf, he]
          rw [h0, size_eq, hr.sizes e (by simp)] at hP
          rw [h0] at hPle ⊢
          have := W_inj (by omega) (by omega) hP
          omega
  obtain ⟨d, post', rfl⟩ : ∃ d post', post = d :: post' := by
    cases post with
    | nil => exact absurd rfl hpne
    | cons d post' => exact ⟨d, post', rfl⟩
  have hdt := ht2.2.2
  have hda := hdt.1
  have hd4 := hdt.2.1
  have hdm := hr.tiles.mem (b := d) (by simp)
  have hsd := hr.sizes d (by simp)
  have hql : W (u.addr + u.size) = W (nf (d :: post')) ↔ d.used = false := by
    constructor
    · intro h
      have := W_inj (by omega) (by omega) h
      by_contra hd
      have hd : d.used = true := by simpa using hd
      simp only [nf, hd, if_true] at this
      rcases List.mem_cons.1 hd0 with rfl | hd0
      · rw [hd] at hd0f; cases hd0f
      · have := nf_ne hdt.2.2 (by omega) hd0 hd0f
        omega
    · intro hd
      simp only [nf, hd]
      rw [hda, hux]; rfl
  have hpl' : W (lf c.pool pre + P) = W u.addr ↔ ∃ pre' e, pre = pre' ++ [e] ∧ e.used = false := by
    rw [← hend]
    constructor
    · intro h; exact W_inj (by omega) (by omega) h
    · intro h; rw [h]
  have hup2 : d.used = false → lf c.pool (pre ++ u :: d :: post') = lf d.addr post' := by
    intro h; rw [lf_append]; simp [lf, hu, h]
  have hlastn : ∀ n : Blk, n.used = false → d.used = false → LastFree (n :: post') := by
    intro n hn hd
    cases post' with
    | nil => exact ⟨n, rfl, hn⟩
    | cons f post' =>
      exact (LastFree.append_right (l := [d]) hlp (by simp)).cons
  have hpostu : d.used = false → ∀ b ∈ post'.head?, b.used = true := by
    intro hd b hb
    have h1 := hr.noadj
    rw [show pre ++ u :: d :: post' = (pre ++ [u]) ++ d :: post' by simp] at h1
    have h2 := List.isChain_cons.1 h1.append_right
    exact h2.1 b hb hd
  by_cases hce : ∃ pre' e, pre = pre' ++ [e] ∧ e.used = false
  · rw [if_pos (hpl'.2 hce)]
    obtain ⟨pre', e, rfl, hef⟩ := hce
    obtain ⟨z, hz1, hz2⟩ := (Tiles_append _ _ _ _).1 ht1
    have hz3 := hz2.1
    have hz4 : z + e.size = x := hz2.2.2
    have hz5 := hz2.2.1
    have hem := hr.tiles.mem (b := e) (by simp)
    have hse := hr.sizes e (by simp)
    have hle : lf c.pool (pre' ++ [e]) = e.addr := by rw [lf_append]; simp [lf, hef]
    have hlb' := lf_below hz1
    have hprev : ld st.mem (lf c.pool pre') = W e.addr := by
      have h1 := hr.seg
      rw [List.append_assoc, Seg_append] at h1
      have h2 := h1.2
      simp only [List.cons_append, Seg, hef] at h2
      exact h2.1
    have hpreu : ∀ b ∈ pre'.getLast?, b.used = true := by
      intro b hb
      have h1 := hr.noadj
      rw [List.append_assoc] at h1
      have h2 := (List.isChain_append.1 h1).2.2 b hb e rfl
      by_contra hbu
      rw [h2 (by simpa using hbu)] at hef; cases hef
    rw [hle] at hP hlb hPle hup ⊢
    rw [size_eq, hse] at hP
    have hPe : e.size = P := W_inj (by omega) (by omega) hP
    subst hPe
    by_cases hd : d.used = false
    · rw [if_pos (hql.2 hd)]
      have hnfd : nf (d :: post') = d.addr := by simp [nf, hd]
      refine ⟨_, pre' ++ ⟨e.addr, e.size + u.size + d.size, false⟩ :: post', rfl, ?_, ?_, ?_, ?_, rfl⟩
      rotate_right
      · intro b hb
        simp only [List.mem_append, List.mem_cons] at hb
        rcases hb with hb | rfl | hb
        · exact ⟨b, by simp [hb], rfl⟩
        · exact ⟨e, by simp, rfl⟩
        · exact ⟨b, by simp [hb], rfl⟩
      · simp only [hnfd, setSize_eq, setNext_eq, W_add, size_eq, next_eq]
        rw [ld_sw_same, ld_sw_ne _ _ (show d.addr + 2 + 1 < 65536 by omega) (by omega) (by omega),
          ld_sw_ne _ _ (show d.addr + 1 < 65536 by omega) (by omega) (by omega),
          ld_sw_ne _ _ (show d.addr + 1 < 65536 by omega) (by omega) (by omega), hsd, W_add]
        apply Rep.merge c (pre := pre') (mid := [e, u, d]) (post := post') (m := st.mem)
        · simpa using hr
        · rfl
        · simp
        · intro b hb; simp at hb; subst hb; rfl
        · intro w hw
          have := hw.2.2.2.2.2.2
          simp only [Tiles] at this
          simp only; omega
        · exact hpreu
        · exact hpostu hd
        · exact hlastn _ rfl hd
        · intro a h0 h1 h2
          simp only at h2
          rw [ld_sw_ne _ _ h0 (by omega) (by omega), ld_sw_ne _ _ h0 (by omega) (by omega),
            ld_sw_ne _ _ h0 (by omega) (by omega)]
        · rw [ld_sw_ne _ _ (by omega) (by omega) (by omega),
            ld_sw_ne _ _ (by omega) (by omega) (by omega),
            ld_sw_ne _ _ (by omega) (by omega) (by omega)]
          exact hprev
        · rw [ld_sw_ne _ _ (by simp only; omega) (by omega) (by simp only; omega)]
          exact ld_sw_same _ _ _
        · rw [lf_append]
          simp only [lf, hef, hu, hd]
          exact ld_sw_same _ _ _
      · simp [hef, hd]
      · intro y hc
        have hy := hc.1
        have h1 := hc.away_hdr hr.tiles (show e ∈ pre' ++ [e] ++ u :: d :: post' by simp)
        simp only [setSize_eq, setNext_eq]
        rw [sw_frame _ _ (by omega) hy (by omega), sw_frame _ _ (by omega) hy (by omega),
          sw_frame _ _ (by omega) hy (by omega)]
    · rw [if_neg fun h => hd (hql.1 h)]
      have hdu : d.used = true := by simpa using hd
      refine ⟨_, pre' ++ ⟨e.addr, e.size + u.size, false⟩ :: d :: post', rfl, ?_, ?_, ?_, ?_, rfl⟩
      rotate_right
      · intro b hb
        simp only [List.mem_append, List.mem_cons] at hb
        rcases hb with hb | rfl | hb
        · exact ⟨b, by simp [hb], rfl⟩
        · exact ⟨e, by simp, rfl⟩
        · exact ⟨b, by simp [hb], rfl⟩
      · simp only [setSize_eq, W_add]
        apply Rep.merge c (pre := pre') (mid := [e, u]) (post := d :: post') (m := st.mem)
        · simpa using hr
        · rfl
        · simp
        · intro b hb; simp at hb; subst hb; rfl
        · intro w hw
          have := hw.2.2.2.2
          simp only [Tiles] at this
          simp only; omega
        · exact hpreu
        · intro b hb; simp at hb; subst hb; exact hdu
        · exact hlp.cons
        · intro a h0 h1 h2
          simp only at h2
          rw [ld_sw_ne _ _ h0 (by omega) (by omega)]
        · rw [ld_sw_ne _ _ (by omega) (by omega) (by omega)]
          exact hprev
        · exact ld_sw_same _ _ _
        · rw [lf_append]
          simp only [lf, hef, hu]
          exact ld_sw_ne _ _ (by omega) (by omega) (by omega)
      · simp [hef, hdu]
      · intro y hc
        have hy := hc.1
        have h1 := hc.away_hdr hr.tiles (show e ∈ pre' ++ [e] ++ u :: d :: post' by simp)
        simp only [setSize_eq]
        rw [sw_frame _ _ (by omega) hy (by omega)]
  · rw [if_neg fun h => hce (hpl'.1 h)]
    have hpreu : ∀ b ∈ pre.getLast?, b.used = true := by
      intro b hb
      by_contra hbu
      obtain ⟨l, hl⟩ := List.getLast?_eq_some_iff.1 hb
      exact hce ⟨l, b, hl, by simpa using hbu⟩
    by_cases hd : d.used = false
    · rw [if_pos (hql.2 hd)]
      have hnfd : nf (d :: post') = d.addr := by simp [nf, hd]
      refine ⟨_, pre ++ ⟨u.addr, u.size + d.size, false⟩ :: post', rfl, ?_, ?_, ?_, ?_, rfl⟩
      rotate_right
      · intro b hb
        simp only [List.mem_append, List.mem_cons] at hb
        rcases hb with hb | rfl | hb
        · exact ⟨b, by simp [hb], rfl⟩
        · exact ⟨u, by simp, rfl⟩
        · exact ⟨b, by simp [hb], rfl⟩
      · simp only [hnfd, setSize_eq, setNext_eq, W_add, size_eq, next_eq, hsd]
        rw [ld_sw_ne _ _ (show d.addr + 1 < 65536 by omega) (by omega) (by omega)]
        apply Rep.merge c (pre := pre) (mid := [u, d]) (post := post') (m := st.mem)
        · simpa using hr
        · rfl
        · simp
        · intro b hb; simp at hb; subst hb; rfl
        · intro w hw
          have := hw.2.2.2.2
          simp only [Tiles] at this
          simp only; omega
        · exact hpreu
        · exact hpostu hd
        · exact hlastn _ rfl hd
        · intro a h0 h1 h2
          simp only at h2
          rw [ld_sw_ne _ _ h0 (by omega) (by omega), ld_sw_ne _ _ h0 (by omega) (by omega),
            ld_sw_ne _ _ h0 (by omega) (by omega)]
        · exact ld_sw_same _ _ _
        · rw [ld_sw_ne _ _ (by simp only; omega) (by omega) (by simp only; omega),
            ld_sw_ne _ _ (by simp only; omega) (by omega) (by simp only; omega)]
          exact ld_sw_same _ _ _
        · rw [lf_append]
          simp only [lf, hu, hd]
          rw [ld_sw_ne _ _ (by omega) (by omega) (by omega)]
          exact ld_sw_same _ _ _
      · simp [hd]
      · intro y hc
        have hy := hc.1
        have h1 := hc.away_hdr hr.tiles (show u ∈ pre ++ u :: d :: post' by simp)
        have h2 := hc.away_lf hr.tiles
        simp only [setSize_eq, setNext_eq]
        rw [sw_frame _ _ (by omega) hy (by omega), sw_frame _ _ (by omega) hy (by omega),
          sw_frame _ _ (by omega) hy (by omega)]
    · rw [if_neg fun h => hd (hql.1 h)]
      have hdu : d.used = true := by simpa using hd
      refine ⟨_, pre ++ ⟨u.addr, u.size, false⟩ :: d :: post', rfl, ?_, ?_, ?_, ?_, rfl⟩
      rotate_right
      · intro b hb
        simp only [List.mem_append, List.mem_cons] at hb
        rcases hb with hb | rfl | hb
        · exact ⟨b, by simp [hb], rfl⟩
        · exact ⟨u, by simp, rfl⟩
        · exact ⟨b, by simp [hb], rfl⟩
      · simp only [setNext_eq]
        apply Rep.merge c (pre := pre) (mid := [u]) (post := d :: post') (m := st.mem)
        · simpa using hr
        · rfl
        · simp
        · intro b hb; simp at hb; subst hb; rfl
        · intro w hw
          have := hw.2.2
          simp only [Tiles] at this
          simp only; omega
        · exact hpreu
        · intro b hb; simp at hb; subst hb; exact hdu
        · exact hlp.cons
        · intro a h0 h1 h2
          simp only at h2
          rw [ld_sw_ne _ _ h0 (by omega) (by omega), ld_sw_ne _ _ h0 (by omega) (by omega)]
        · rw [ld_sw_ne _ _ (by omega) (by omega) (by omega)]
          exact ld_sw_same _ _ _
        · rw [ld_sw_ne _ _ (by simp only; omega) (by omega) (by simp only; omega),
            ld_sw_ne _ _ (by simp only; omega) (by omega) (by simp only; omega)]
          exact hsu
        · rw [lf_append]
          simp only [lf, hu, if_true]
          rw [ld_sw_same]
          exact hup.symm
      · simp [hdu]
      · intro y hc
        have hy := hc.1
        have h1 := hc.away_hdr hr.tiles (show u ∈ pre ++ u :: d :: post' by simp)
        have h2 := hc.away_lf hr.tiles
        simp only [setNext_eq]
        rw [sw_frame _ _ (by omega) hy (by omega), sw_frame _ _ (by omega) hy (by omega)]

/-- free of an address inside a free block. -/
theorem free_bad (c : Cfg) {st : St} {pre post : List Blk} {b : Blk}
    (hr : Rep c st.mem (pre ++ b :: post)) (hb : b.used = false) {q : Nat} (h1 : b.addr ≤ q)
    (h2 : q < b.addr + b.size) :
    free (W c.pool) st (W (q + 4)) = some (.error EUBADA) := by
  have hpl := c.pool_lo
  have hlo := c.lo_ge
  have hhi := c.hi_le
  have hbm := hr.tiles.mem (b := b) (by simp)
  obtain ⟨x, ht1, ht2⟩ := (Tiles_append _ _ _ _).1 hr.tiles
  have hbx := ht2.1
  have hq : addrAdd (W (q + 4)) (-MBSIZE) = W q := by
    unfold addrAdd
    rw [show (-MBSIZE : Word) = W 65532 from rfl, W_add]
    apply BitVec.eq_of_toNat_eq; simp; omega
  have hsb := hr.sizes b (by simp)
  have hseg := ((Seg_append _ _ _ _ _).1 hr.seg).2
  have hseg' : Seg st.mem c.pool b.addr post := by
    simp only [Seg, hb] at hseg; exact hseg.2
  have hfin : ld st.mem (lf b.addr post) = 0 := by
    have := hr.fin
    rw [lf_append] at this
    simpa [lf, hb] using this
  unfold free
  simp only [hq]
  rcases Nat.eq_or_lt_of_le h1 with h | h
  · rw [if_pos]
    rw [← h, next_eq, hseg'.next_nf hfin]
    intro he
    have := W_inj (nf_lt ht2.2.2 (Nat.le_of_lt hhi)) (by omega) he
    by_cases hz : nf post = 0
    · have := c.pool_pos; omega
    · have h3 : ∃ d ∈ post, d.used = false := by
        by_contra hcon
        exact hz (nf_used fun d hd => by
          by_contra hdu; exact hcon ⟨d, hd, by simpa using hdu⟩)
      obtain ⟨d, hd, hdf⟩ := h3
      have := nf_ne ht2.2.2 (by omega) hd hdf
      omega
  · by_cases hmag : next st.mem (W q) = W c.pool
    · have hnf : nf (pre ++ b :: post) ≠ 0 := by
        have := nf_ne hr.tiles (by omega) (show b ∈ pre ++ b :: post by simp) hb; omega
      have hnx : next st.mem (W c.pool) = W (nf (pre ++ b :: post)) := hr.seg.next_nf hr.fin
      have e : pre ++ b :: post = (pre ++ [b]) ++ post := by simp
      have ht := hr.tiles
      have hs := hr.seg
      have hf := hr.fin
      rw [e] at hnf hnx ht hs hf
      have hloop := freeLoop_spec (q := q) (by omega) (Nat.le_of_lt hhi) (by omega) ht hs hf hnf
        (fun d hd _ => by
          rcases List.mem_append.1 hd with hd | hd
          · have := ht1.mem hd; omega
          · simp at hd; subst hd; exact h)
        (fun d hd _ => by have := ht2.2.2.mem hd; omega)
      have hlf : lf c.pool (pre ++ [b]) = b.addr := by rw [lf_append]; simp [lf, hb]
      rw [hlf] at hloop
      simp only [hmag, hnx, hloop, size_eq st.mem b.addr, hsb, addrAdd_W]
      rw [ucmp_lt (show q < 65536 by omega) (show b.addr + b.size < 65536 by omega),
        decide_eq_true h2]
      simp
    · rw [if_pos hmag]

/-! ### Client writes -/

theorem ld_set_ne (m : Mem) {a x : Nat} (v : Byte) (ha : a + 1 < 65536) (hx : x < 65536)
    (h : x < a ∨ a + 2 ≤ x) : ld (m.set (W x) v) a = ld m a := by
  unfold ld Mem.lw
  rw [Mem.set_ne _ _ (fun e => by have := W_inj (by omega) hx e; omega),
    show W a + 1 = W (a + 1) from W_add a 1,
    Mem.set_ne _ _ (fun e => by have := W_inj (by omega) hx e; omega)]

/-- A byte outside all headers and outside memPool may be written. -/
theorem Rep.poke (c : Cfg) {m : Mem} {bs : List Blk} (hr : Rep c m bs) {x : Nat} (hx : x < 65536)
    (v : Byte) (hp : x < c.pool ∨ c.pool + 4 ≤ x)
    (hb : ∀ b ∈ bs, x < b.addr ∨ b.addr + 4 ≤ x) : Rep c (m.set (W x) v) bs := by
  have hpl := c.pool_lo
  have hhi := c.hi_le
  have hle := hr.tiles.le
  have e : ∀ b ∈ bs, ld (m.set (W x) v) b.addr = ld m b.addr := fun b h => by
    have := hb b h; have := hr.tiles.mem h
    exact ld_set_ne _ _ (by omega) hx (by omega)
  have ep : ld (m.set (W x) v) c.pool = ld m c.pool := ld_set_ne _ _ (by omega) hx (by omega)
  obtain ⟨h1, h2⟩ := hr.seg.transfer (m' := m.set (W x) v) hr.fin ep e
  refine ⟨hr.tiles, h1, h2, ?_, ?_, hr.noadj, hr.last, hr.even⟩
  · intro b h
    have := hb b h; have := hr.tiles.mem h
    rw [ld_set_ne _ _ (by omega) hx (by omega)]
    exact hr.sizes b h
  · rw [ld_set_ne _ _ (by omega) hx (by omega)]; exact hr.root

theorem Rep.init (c : Cfg) (m : Mem) (hz : c.lo + 4 ≤ c.hi) (h0 : ld m (c.pool + 2) = 0) :
    Rep c (init (W c.pool) (W c.lo) (W c.hi) m).mem [⟨c.lo, c.hi - c.lo, false⟩] := by
  have hpl := c.pool_lo
  have hhi := c.hi_le
  have e : (Heap.init (W c.pool) (W c.lo) (W c.hi) m).mem =
      ((m.sw (W c.pool) (W c.lo)).sw (W (c.lo + 2)) (W (c.hi - c.lo))).sw (W c.lo) (W 0) := by
    unfold Heap.init
    simp only [setNext_eq, next_eq, ld_sw_same, setSize_eq]
    rw [ld_sw_ne _ _ (by omega) (by omega) (by omega), ld_sw_same, W_sub (by omega) hhi]
    rfl
  rw [e]
  refine ⟨⟨rfl, by show 4 ≤ c.hi - c.lo; omega, by show c.lo + (c.hi - c.lo) = _; omega⟩, ?_, ?_, ?_, ?_, ?_, ?_, ?_⟩
  · refine ⟨?_, trivial⟩
    rw [ld_sw_ne _ _ (by omega) (by omega) (by omega), ld_sw_ne _ _ (by omega) (by omega) (by omega),
      ld_sw_same]
  · exact ld_sw_same _ _ _
  · intro b hb; simp at hb; subst hb
    show ld _ (c.lo + 2) = _
    rw [ld_sw_ne _ _ (by omega) (by omega) (by omega), ld_sw_same]
  · rw [ld_sw_ne _ _ (by omega) (by omega) (by omega), ld_sw_ne _ _ (by omega) (by omega) (by omega),
      ld_sw_ne _ _ (by omega) (by omega) (by omega)]
    exact h0
  · exact List.isChain_singleton _
  · exact ⟨_, rfl, rfl⟩
  · intro h b hb; simp at hb; subst hb; exact h

end Cmm.Heap
