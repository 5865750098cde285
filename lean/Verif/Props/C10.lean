import Verif.Props.C07

/-! C10: requests that are too large. The property is false of the code: the size computation
wraps for requests of 65531 to 65535 bytes. -/
namespace Cmm.Heap
open Cmm.Crt0 Cmm.Err

/-- Up to 65530 bytes: malloc ends the program with EUNOMEM or returns a block of at least
`siz` bytes inside the heap, apart from all the others. -/
theorem C10_partial (c : Cfg) (m0 : Mem) (hz : c.lo + 4 ≤ c.hi) (h0 : ld m0 (c.pool + 2) = 0)
    {st : St} {live} (h : Hist c m0 st live) (sp : Word) {siz : Nat} (hs : siz ≤ 65530) :
    malloc (W c.pool) sp st (W siz) = some (.error EUNOMEM) ∨
    ∃ p st', malloc (W c.pool) sp st (W siz) = some (.ok (W p, st')) ∧
      c.lo + 4 ≤ p ∧ p + siz ≤ c.hi ∧ ∀ a ∈ live, p + siz ≤ a.1 ∨ a.1 + a.2 ≤ p := by
  rcases C07_malloc c m0 hz h0 h sp hs with h1 | ⟨p, st', h1, _⟩
  · exact Or.inl h1
  · have h2 := C07_live c m0 hz h0 (h.malloc hs h1)
    have h3 := h2.1 _ List.mem_cons_self
    have h4 := (List.pairwise_cons.1 h2.2).1
    refine Or.inr ⟨p.toNat, st', ?_, h3.1, h3.2.1, fun a ha => ?_⟩
    · rw [h1, show W p.toNat = p from BitVec.eq_of_toNat_eq (W_toNat p.isLt)]
    · have := h4 a ha; simp only at this; omega

/-- More than the heap can hold, but not more than 65530: always EUNOMEM. -/
theorem C10_too_large (c : Cfg) (m0 : Mem) (hz : c.lo + 4 ≤ c.hi) (h0 : ld m0 (c.pool + 2) = 0)
    {st : St} {live} (h : Hist c m0 st live) (sp : Word) {siz : Nat} (hs : siz ≤ 65530)
    (hbig : c.hi < c.lo + 4 + siz) :
    malloc (W c.pool) sp st (W siz) = some (.error EUNOMEM) := by
  rcases C10_partial c m0 hz h0 h sp hs with h | ⟨p, st', _, h1, h2, _⟩
  · exact h
  · omega

theorem roundSize_wrap {siz : Nat} (h1 : 65531 ≤ siz) (h2 : siz ≤ 65535) :
    roundSize (W siz) = W ((siz + 5 - 65536) / 2 * 2) := by
  have : siz = 65531 ∨ siz = 65532 ∨ siz = 65533 ∨ siz = 65534 ∨ siz = 65535 := by omega
  rcases this with rfl | rfl | rfl | rfl | rfl <;> decide

/-- The failure: on a heap whose first free block is larger than 6 bytes and below the stack,
malloc(65531) returns an address, although no heap of a 16-bit machine can hold the block. -/
theorem C10_wraps (c : Cfg) (m0 : Mem) (hz : c.lo + 4 ≤ c.hi) (h0 : ld m0 (c.pool + 2) = 0)
    {st : St} {live} (h : Hist c m0 st live) (sp : Word) {f : Nat} {fl}
    (hw : Walk st.mem (ld st.mem c.pool) (f :: fl)) (h6 : 6 < (ld st.mem (f + 2)).toNat)
    (hsp : f < (sp - 10).toNat) :
    ∃ st', malloc (W c.pool) sp st (W 65531) = some (.ok (W (f + 4), st')) ∧
      ld st'.mem c.pool = W f ∧ ld st'.mem f = W c.pool ∧ ld st'.mem (f + 2) = 0 ∧
      ld st'.mem (c.pool + 2) = 0 := by
  obtain ⟨bs, hr, hl⟩ := h.inv hz h0
  have hu := hr.walk.unique hw
  have hf : f ∈ (bs.filter fun b => !b.used).map Blk.addr := by rw [hu]; simp
  obtain ⟨b, hb, rfl⟩ := List.mem_map.1 hf
  replace hb := (List.mem_filter.1 hb).1
  have hbm := hr.tiles.mem hb
  have hhi := c.hi_le
  have hpl := c.pool_lo
  rw [hr.sizes b hb, W_toNat (by omega)] at h6
  have hnx : next st.mem (W c.pool) = W b.addr := hw.1
  have hloop : mallocLoop st.mem (W 0) (W c.pool) (W b.addr) = some (.ok (W c.pool, W b.addr)) := by
    rw [mallocLoop, size_eq, hr.sizes b hb, ucmp_lt (by omega) (by omega)]
    simp
  have hrs : roundSize (W 65531) = W 0 := roundSize_wrap (by omega) (by omega)
  have e1 : W 0 + MBSIZE + 2 = W 6 := rfl
  have spE : ile 0 (uCmp (W b.addr) (sp - 10)) = false := by
    have := ucmp_ge (show b.addr < 65536 by omega) (sp - 10).isLt
    rw [show W (sp - 10).toNat = sp - 10 from
      BitVec.eq_of_toNat_eq (W_toNat (sp - 10).isLt)] at this
    rw [this]; simp only [decide_eq_false_iff_not]; omega
  have hne : ¬ (W 0 = W b.size) := fun e => by
    have := W_inj (by omega) (by omega) e; omega
  unfold malloc
  simp only [hrs, hnx, hloop, e1, size_eq, hr.sizes b hb, ucmp_le (show b.size < 65536 by omega)
    (show 6 < 65536 by omega), show ¬ b.size ≤ 6 by omega, decide_false, Bool.false_and,
    Bool.false_eq_true, if_false, addrAdd_W, Nat.add_zero, spE, hne, setNext_eq, setSize_eq, next_eq]
  rw [show addrAdd (W b.addr) MBSIZE = W (b.addr + 4) from W_add4 _]
  refine ⟨_, rfl, ?_, ?_, ?_, ?_⟩
  · simp only
    rw [ld_sw_ne _ _ (by omega) (by omega) (by omega), ld_sw_ne _ _ (by omega) (by omega) (by omega),
      ld_sw_same]
  · exact ld_sw_same _ _ _
  · simp only
    rw [ld_sw_ne _ _ (by omega) (by omega) (by omega), ld_sw_same]; rfl
  · simp only
    rw [ld_sw_ne _ _ (by omega) (by omega) (by omega), ld_sw_ne _ _ (by omega) (by omega) (by omega),
      ld_sw_ne _ _ (by omega) (by omega) (by omega), ld_sw_ne _ _ (by omega) (by omega) (by omega),
      ld_sw_ne _ _ (by omega) (by omega) (by omega)]
    exact hr.root

/-- ... and the heap is damaged so that every later request of up to 65530 bytes runs for ever. -/
theorem C10_then_hangs (m : Mem) {pool f : Nat} (hp : pool < 65536) (hf : f < 65536)
    (hp0 : 0 < pool) (hf0 : 0 < f)
    (h1 : ld m pool = W f) (h2 : ld m f = W pool) (h3 : ld m (f + 2) = 0) (h4 : ld m (pool + 2) = 0)
    (sp alc : Word) {siz : Nat} (hs : siz ≤ 65530) :
    malloc (W pool) sp ⟨m, alc⟩ (W siz) = none := by
  have key : ∀ s : Nat, 0 < s → s < 65536 → ∀ p b : Word, (b = W f ∨ b = W pool) →
      mallocLoop m (W s) p b = none := by
    intro s hs0 hs1 p b hb
    cases hr : mallocLoop m (W s) p b with
    | none => rfl
    | some r =>
      exfalso
      refine mallocLoop.partial_correctness m (W s) (fun p b r => (b = W f ∨ b = W pool) → False)
        ?_ p b r hr hb
      intro loop ih p b r hres hb
      have hsz : size m b = W 0 := by
        rcases hb with rfl | rfl
        · rw [size_eq]; exact h3
        · rw [size_eq]; exact h4
      rw [hsz, ucmp_lt (by omega) hs1, decide_eq_true hs0] at hres
      simp only [if_true] at hres
      have hnb : next m b = W f ∨ next m b = W pool := by
        rcases hb with rfl | rfl
        · exact Or.inr h2
        · exact Or.inl h1
      have hnz : ¬ next m b = 0 := by
        intro e
        rcases hnb with h | h
        · have := W_inj hf (show 0 < 65536 by omega) (h.symm.trans e); omega
        · have := W_inj hp (show 0 < 65536 by omega) (h.symm.trans e); omega
      rw [if_neg hnz] at hres
      exact ih _ _ _ hres hnb
  unfold malloc
  simp only [roundSize_eq hs]
  rw [key _ (by omega) (by omega) _ (next m (W pool)) (Or.inl h1)]

/-- The property as stated is false: there is a reachable heap and a size for which malloc
returns a block that does not fit. -/
theorem C10_false : ∃ (c : Cfg) (m0 : Mem) (st st' : St) (sp : Word) (p : Nat),
    Hist c m0 st [] ∧ malloc (W c.pool) sp st (W 65531) = some (.ok (W p, st')) ∧
    c.hi < p + 65531 ∧ ∀ siz ≤ 65530, ∀ sp', malloc (W c.pool) sp' st' (W siz) = none := by
  have hr := Rep.init exCfg (fun _ => 0) (by decide) rfl
  have hw := hr.walk
  obtain ⟨st', h1, h2, h3, h4, h5⟩ := C10_wraps exCfg _ (by decide) rfl (Hist.init) 0xF000#16
    (f := exCfg.lo) (fl := []) (by simpa using hw) (by
      have e : (ld (init (W exCfg.pool) (W exCfg.lo) (W exCfg.hi) fun _ => 0).mem (exCfg.lo + 2)).toNat
          = 0xDE00 := by
        rw [hr.sizes _ List.mem_cons_self]; decide
      exact Nat.lt_of_lt_of_eq (by decide) e.symm) (by decide)
  exact ⟨exCfg, _, _, st', _, _, Hist.init, h1, by decide, fun siz hs sp' =>
    C10_then_hangs _ (f := exCfg.lo) (by decide) (by decide) (by decide) (by decide) h2 h3 h4 h5 sp' st'.alc hs⟩

/-- The multiplication in iMalloc and rMalloc wraps as well: the request for 32768 words is
the request for 0 bytes. -/
theorem C10_iMalloc_false (pool sp : Word) (st : St) :
    iMalloc pool sp st 32768#16 = malloc pool sp st 0#16 := by
  unfold iMalloc; rfl

end Cmm.Heap
