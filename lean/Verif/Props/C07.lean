import Verif.Lib.MallocHist

/-! C07: what malloc hands out, whatever the history of calls. -/
namespace Cmm.Heap
open Cmm.Crt0 Cmm.Err

/-- Every live block lies inside the heap and keeps its distance from the header of every
other; if the heap starts at an even address the block does too. Live blocks (headers
included) are pairwise disjoint. -/
theorem C07_live (c : Cfg) (m0 : Mem) (hz : c.lo + 4 ≤ c.hi) (h0 : ld m0 (c.pool + 2) = 0)
    {st : St} {live} (h : Hist c m0 st live) :
    (∀ a ∈ live, c.lo + 4 ≤ a.1 ∧ a.1 + a.2 ≤ c.hi ∧ (c.lo % 2 = 0 → a.1 % 2 = 0)) ∧
    live.Pairwise fun a b => a.1 + a.2 + 4 ≤ b.1 ∨ b.1 + b.2 + 4 ≤ a.1 := by
  obtain ⟨bs, hr, hl⟩ := h.inv hz h0
  constructor
  · intro a ha
    obtain ⟨b, hb, hu, h1, h2⟩ := hl.size a ha
    have := hr.tiles.mem hb
    refine ⟨by omega, by omega, fun h => ?_⟩
    have := hr.even h b hb; omega
  · have hnd := hl.nodup hr.tiles
    unfold List.Nodup at hnd
    rw [List.pairwise_map] at hnd
    refine (List.Pairwise.and_mem.1 hnd).imp ?_
    rintro a b ⟨ha, hb, hne⟩
    obtain ⟨d, hd, _, h1, h2⟩ := hl.size a ha
    obtain ⟨e, he, _, h3, h4⟩ := hl.size b hb
    rcases hr.tiles.apart hd he with rfl | h5 | h5
    · exact absurd (h1.trans h3.symm) hne
    · omega
    · omega

/-- The free list ends, and no free block (`ld m (f+2)` is its size word) overlaps a live
block or its header. -/
theorem C07_free_apart (c : Cfg) (m0 : Mem) (hz : c.lo + 4 ≤ c.hi) (h0 : ld m0 (c.pool + 2) = 0)
    {st : St} {live} (h : Hist c m0 st live) :
    ∃ fl, Walk st.mem (ld st.mem c.pool) fl ∧
      ∀ f ∈ fl, c.lo ≤ f ∧ f + (ld st.mem (f + 2)).toNat ≤ c.hi ∧
        ∀ a ∈ live, a.1 + a.2 ≤ f ∨ f + (ld st.mem (f + 2)).toNat + 4 ≤ a.1 := by
  obtain ⟨bs, hr, hl⟩ := h.inv hz h0
  refine ⟨_, hr.walk, ?_⟩
  intro f hf
  obtain ⟨b, hb, rfl⟩ := List.mem_map.1 hf
  have hbf : b.used = false := by simpa using (List.mem_filter.1 hb).2
  replace hb := (List.mem_filter.1 hb).1
  have := hr.tiles.mem hb
  have := c.hi_le
  rw [hr.sizes b hb, W_toNat (by omega)]
  refine ⟨by omega, by omega, fun a ha => ?_⟩
  obtain ⟨d, hd, hdu, h1, h2⟩ := hl.size a ha
  rcases hr.tiles.apart hd hb with rfl | h5 | h5
  · rw [hbf] at hdu; cases hdu
  · omega
  · omega

/-- malloc returns or ends the program with EUNOMEM; it never runs forever, and when it
returns no byte owned by the client has changed. -/
theorem C07_malloc (c : Cfg) (m0 : Mem) (hz : c.lo + 4 ≤ c.hi) (h0 : ld m0 (c.pool + 2) = 0)
    {st : St} {live} (h : Hist c m0 st live) (sp : Word) {siz : Nat} (hs : siz ≤ 65530) :
    malloc (W c.pool) sp st (W siz) = some (.error EUNOMEM) ∨
    ∃ p st', malloc (W c.pool) sp st (W siz) = some (.ok (p, st')) ∧
      ∀ x, Owned c live x → st'.mem (W x) = st.mem (W x) := by
  obtain ⟨bs, hr, hl⟩ := h.inv hz h0
  rcases malloc_spec c hr sp hs with h | ⟨pre, b, post, s, rest, st1, e, hb, h1, _, h2, h3, h4, h5, _⟩
  · exact Or.inl h
  · exact Or.inr ⟨_, _, h3, fun x hx => h5 x (hx.client hl)⟩

/-- free of a live block returns and changes no byte owned by the client. -/
theorem C07_free (c : Cfg) (m0 : Mem) (hz : c.lo + 4 ≤ c.hi) (h0 : ld m0 (c.pool + 2) = 0)
    {st : St} {live} (h : Hist c m0 st live) {a : Nat × Nat} (ha : a ∈ live) :
    ∃ st', free (W c.pool) st (W a.1) = some (.ok st') ∧
      ∀ x, Owned c live x → st'.mem (W x) = st.mem (W x) := by
  obtain ⟨bs, hr, hl⟩ := h.inv hz h0
  obtain ⟨pre, u, post, rfl, hu, hau, _⟩ := hl.split ha
  obtain ⟨st1, bs', h1, h2, h3, h4, _⟩ := free_spec c hr hu
  rw [← hau] at h1
  exact ⟨st1, h1, fun x hx => h4 x (hx.client hl)⟩

/-- malloc does succeed: when some free block has room for the request, its header and a
remainder (8 bytes more), and the stack is above the heap by the required margin. -/
theorem C07_malloc_succeeds (c : Cfg) (m0 : Mem) (hz : c.lo + 4 ≤ c.hi)
    (h0 : ld m0 (c.pool + 2) = 0) {st : St} {live} (h : Hist c m0 st live) (sp : Word) {siz : Nat}
    (hs : siz ≤ 65530) (hsp : c.hi < (sp - 10).toNat) {fl} (hfl : Walk st.mem (ld st.mem c.pool) fl)
    {f : Nat} (hf : f ∈ fl) (hroom : siz + 12 ≤ (ld st.mem (f + 2)).toNat) :
    ∃ p st', malloc (W c.pool) sp st (W siz) = some (.ok (p, st')) := by
  obtain ⟨bs, hr, hl⟩ := h.inv hz h0
  have hu := hr.walk.unique hfl
  subst hu
  obtain ⟨b, hb, rfl⟩ := List.mem_map.1 hf
  have hbf : b.used = false := by simpa using (List.mem_filter.1 hb).2
  replace hb := (List.mem_filter.1 hb).1
  have hbm := hr.tiles.mem hb
  have hhi := c.hi_le
  have hlo := c.lo_ge
  rw [hr.sizes b hb, W_toNat (by omega)] at hroom
  have hnf : nf bs ≠ 0 := by
    have := nf_ne hr.tiles (by omega) hb hbf; omega
  have hnx : next st.mem (W c.pool) = W (nf bs) := hr.seg.next_nf hr.fin
  unfold malloc
  simp only [roundSize_eq hs, hnx]
  rcases mallocLoop_spec (s := (siz + 5) / 2 * 2) (by omega) (Nat.le_of_lt hhi) (by omega) hr.tiles
    hr.seg hr.fin hr.sizes hnf with ⟨pre, d, post, h1, h2, h3, h4, h5⟩ | ⟨h1, _⟩
  · have hdm : d ∈ bs := by rw [h1]; simp
    have hdt := hr.tiles.mem hdm
    rw [h5]
    have e1 : W ((siz + 5) / 2 * 2) + MBSIZE + 2 = W ((siz + 5) / 2 * 2 + 6) := by
      rw [show (MBSIZE : Word) = W 4 from rfl, show (2 : Word) = W 2 from rfl, W_add, W_add]
    simp only [size_eq, hr.sizes d hdm, next_eq, e1, ucmp_le (show d.size < 65536 by omega)
      (show (siz + 5) / 2 * 2 + 6 < 65536 by omega)]
    have spE : ∀ n ≤ d.size, ile 0 (uCmp (W (d.addr + n)) (sp - 10)) = false := by
      intro n hn
      have := ucmp_ge (show d.addr + n < 65536 by omega) (sp - 10).isLt
      rw [show W (sp - 10).toNat = sp - 10 from
        BitVec.eq_of_toNat_eq (W_toNat (sp - 10).isLt)] at this
      rw [this]; simp only [decide_eq_false_iff_not]; omega
    by_cases hsmall : d.size ≤ (siz + 5) / 2 * 2 + 6
    · have hbp : b ∈ post := by
        have : b ∈ pre ∨ b = d ∨ b ∈ post := by rw [h1] at hb; simpa using hb
        rcases this with h | h | h
        · have := h4 b h hbf; omega
        · subst h; omega
        · exact h
      have hnz : (ld st.mem d.addr == 0) = false := by
        have ht := hr.tiles
        have hsg := hr.seg
        have hfi := hr.fin
        rw [h1] at ht hsg hfi
        obtain ⟨x, _, ht2⟩ := (Tiles_append _ _ _ _).1 ht
        have hsg2 := ((Seg_append _ _ _ _ _).1 hsg).2
        simp only [Seg, h2] at hsg2
        rw [lf_append] at hfi
        simp only [lf, h2] at hfi
        have := nf_ne ht2.2.2 (by omega) hbp hbf
        have hlt := nf_lt ht2.2.2 (Nat.le_of_lt hhi)
        rw [hsg2.2.next_nf hfi, beq_eq_false_iff_ne]
        intro e
        have := W_inj hlt (show 0 < 65536 by omega) e
        omega
      simp only [hsmall, decide_true, Bool.true_and, hnz, Bool.false_eq_true, if_false, if_true,
        addrAdd_W, spE _ (Nat.le_refl _)]
      exact ⟨_, _, rfl⟩
    · simp only [hsmall, decide_false, Bool.false_and, Bool.false_eq_true, if_false, addrAdd_W,
        spE _ h3]
      exact ⟨_, _, rfl⟩
  · have := h1 b hb hbf; omega

/-- A heap of the size of a small program, for the examples. -/
def exCfg : Cfg := ⟨0x100, 0x200, 0xE000, by decide, by decide, by decide, by decide⟩

/-- On any fresh heap a first request succeeds: histories with live blocks exist. -/
theorem exHist (siz : Nat) (hs : siz ≤ 1000) :
    ∃ st p, Hist exCfg (fun _ => 0) st [(p, siz)] := by
  have h0 : ld (fun _ => 0) (exCfg.pool + 2) = 0 := by rfl
  have hi : Hist exCfg (fun _ => 0) _ [] := Hist.init
  have hr := Rep.init exCfg (fun _ => 0) (by decide) h0
  have hw := hr.walk
  have h := C07_malloc_succeeds exCfg _ (by decide) h0 hi 0xF000#16 (siz := siz) (by omega)
    (by decide) hw (f := exCfg.lo) (by simp) (by
      have := hr.sizes _ List.mem_cons_self
      simp only at this
      rw [this, W_toNat (by decide)]
      simp [exCfg]; omega)
  obtain ⟨p, st', h⟩ := h
  exact ⟨st', p.toNat, hi.malloc (by omega) h⟩

example : ∃ st p, Hist exCfg (fun _ => 0) st [(p, 10)] ∧ 0x204 ≤ p ∧ p + 10 ≤ 0xE000 := by
  obtain ⟨st, p, h⟩ := exHist 10 (by omega)
  have := (C07_live exCfg _ (by decide) rfl h).1 (p, 10) (by simp)
  exact ⟨st, p, h, this.1, this.2.1⟩

end Cmm.Heap
