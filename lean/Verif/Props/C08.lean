import Verif.Props.C07

/-! C08: freed memory is merged completely. -/
namespace Cmm.Heap
open Cmm.Crt0 Cmm.Err

theorem free_gap {c : Cfg} {m : Mem} {bs : List Blk} {a : Nat} (hhi : c.hi < 65536)
    (ht : Tiles a c.hi bs) (hs : Sizes m bs) (hn : NoAdj bs) :
    ((bs.filter fun b => !b.used).map Blk.addr).Pairwise
      (fun f g => f + (ld m (f + 2)).toNat < g) := by
  induction bs generalizing a with
  | nil => exact List.Pairwise.nil
  | cons b bs ih =>
    have hn' : NoAdj bs := List.IsChain.tail hn
    have hi := ih ht.2.2 (size_cons hs) hn'
    by_cases hu : b.used = true
    · simpa [List.filter_cons, hu] using hi
    · have hu' : b.used = false := by simpa using hu
      simp only [List.filter_cons, hu', Bool.not_false, if_true, List.map_cons]
      refine List.Pairwise.cons ?_ hi
      intro g hg
      obtain ⟨d, hd, rfl⟩ := List.mem_map.1 hg
      have hdf : d.used = false := by simpa using (List.mem_filter.1 hd).2
      replace hd := (List.mem_filter.1 hd).1
      have hbm := ht.mem (b := b) List.mem_cons_self
      rw [hs b List.mem_cons_self, W_toNat (by omega)]
      have hba := ht.1
      cases bs with
      | nil => cases hd
      | cons e l =>
        have he : e.used = true := (List.isChain_cons_cons.1 hn).1 hu'
        have h1 := ht.2.2.1
        have h2 := ht.2.2.2.1
        rcases List.mem_cons.1 hd with rfl | hd
        · rw [he] at hdf; cases hdf
        · have := ht.2.2.2.2.mem hd; omega

/-- In every reachable heap the free list is finite, strictly increasing, and there is a gap
between the end of each free block and every later one. -/
theorem C08_sorted (c : Cfg) (m0 : Mem) (hz : c.lo + 4 ≤ c.hi) (h0 : ld m0 (c.pool + 2) = 0)
    {st : St} {live} (h : Hist c m0 st live) :
    ∃ fl, Walk st.mem (ld st.mem c.pool) fl ∧
      fl.Pairwise fun f g => f + (ld st.mem (f + 2)).toNat < g := by
  obtain ⟨bs, hr, hl⟩ := h.inv hz h0
  exact ⟨_, hr.walk, free_gap c.hi_le hr.tiles hr.sizes hr.noadj⟩

/-- When everything has been freed the heap is the single initial free block again. -/
theorem C08_all_freed (c : Cfg) (m0 : Mem) (hz : c.lo + 4 ≤ c.hi) (h0 : ld m0 (c.pool + 2) = 0)
    {st : St} (h : Hist c m0 st []) :
    ld st.mem c.pool = W c.lo ∧ ld st.mem c.lo = 0 ∧ ld st.mem (c.lo + 2) = W (c.hi - c.lo) := by
  obtain ⟨bs, hr, hl⟩ := h.inv hz h0
  have hnil : bs.filter Blk.used = [] := by
    have := hl.perm.symm
    simpa using this
  rw [List.filter_eq_nil_iff] at hnil
  have hn := hr.noadj
  have ht := hr.tiles
  have hsg := hr.seg
  have hfi := hr.fin
  have hsz := hr.sizes
  cases bs with
  | nil => obtain ⟨b, hb, _⟩ := hr.last.exists; cases hb
  | cons b bs =>
    have hb : b.used = false := by simpa using hnil b List.mem_cons_self
    cases bs with
    | cons d l =>
      have := (List.isChain_cons_cons.1 hn).1 hb
      exact absurd this (by simpa using hnil d (by simp))
    | nil =>
      have e1 : b.addr = c.lo := ht.1
      have e2 : c.lo + b.size = c.hi := ht.2.2
      have e3 : b.size = c.hi - c.lo := by omega
      simp only [Seg, lf, hb] at hsg hfi
      refine ⟨by rw [hsg.1, e1], by rw [← e1]; exact hfi, ?_⟩
      rw [← e1, hsz b List.mem_cons_self, e3, e1]

/-- Nothing leaks: a byte of the heap that is in no live block's memory is in a free block. The
memory of a live block is its header, the requested bytes and at most 7 bytes more (rounding
and a remainder too small to split off). -/
theorem C08_no_leak (c : Cfg) (m0 : Mem) (hz : c.lo + 4 ≤ c.hi) (h0 : ld m0 (c.pool + 2) = 0)
    {st : St} {live} (h : Hist c m0 st live) {x : Nat} (h1 : c.lo ≤ x) (h2 : x < c.hi)
    (hx : ∀ a ∈ live, x < a.1 - 4 ∨ a.1 + a.2 + 7 ≤ x) :
    ∃ fl, Walk st.mem (ld st.mem c.pool) fl ∧
      ∃ f ∈ fl, f ≤ x ∧ x < f + (ld st.mem (f + 2)).toNat := by
  obtain ⟨bs, hr, hl⟩ := h.inv hz h0
  refine ⟨_, hr.walk, ?_⟩
  obtain ⟨b, hb, h3, h4⟩ := hr.tiles.cover h1 h2
  have hbm := hr.tiles.mem hb
  have := c.hi_le
  by_cases hu : b.used = true
  · exfalso
    have : b.addr + 4 ∈ live.map Prod.fst := hl.perm.mem_iff.2
      (List.mem_map_of_mem (f := fun b => b.addr + 4) (List.mem_filter.2 ⟨hb, hu⟩))
    obtain ⟨a, ha, hab⟩ := List.mem_map.1 this
    have := hx a ha
    obtain ⟨d, hd, _, h5, h6⟩ := hl.size a ha
    have := hr.tiles.inj hb hd (by omega)
    subst this
    omega
  · refine ⟨b.addr, List.mem_map_of_mem (List.mem_filter.2 ⟨hb, by simpa using hu⟩), h3, ?_⟩
    rw [hr.sizes b hb, W_toNat (by omega)]; exact h4

-- a history with a live block, freed again
example : ∃ st, Hist exCfg (fun _ => 0) st [] ∧ ∃ p st0, Hist exCfg (fun _ => 0) st0 [(p, 10)] ∧
    free (W exCfg.pool) st0 (W p) = some (.ok st) := by
  obtain ⟨st0, p, h⟩ := exHist 10 (by omega)
  obtain ⟨st, hf, _⟩ := C07_free exCfg _ (by decide) rfl h (a := (p, 10)) (by simp)
  exact ⟨st, by simpa using h.free (a := (p, 10)) (by simp) hf, p, st0, h, hf⟩

end Cmm.Heap
