import Verif.Props.C07

/-! C09: free rejects a block that is not allocated. -/
namespace Cmm.Heap
open Cmm.Crt0 Cmm.Err

/-- Steps of a program that contain no malloc. -/
inductive NoMalloc (c : Cfg) : St → List (Nat × Nat) → St → List (Nat × Nat) → Prop
  | refl {st live} : NoMalloc c st live st live
  | free {st live st1 live1 a st2} : NoMalloc c st live st1 live1 → a ∈ live1 →
      free (W c.pool) st1 (W a.1) = some (.ok st2) → NoMalloc c st live st2 (live1.erase a)
  | poke {st live st1 live1 x v} : NoMalloc c st live st1 live1 → Owned c live1 x →
      NoMalloc c st live ⟨st1.mem.set (W x) v, st1.alc⟩ live1

theorem NoMalloc.hist {c : Cfg} {m0 st live st' live'} (h : NoMalloc c st live st' live')
    (hh : Hist c m0 st live) : Hist c m0 st' live' := by
  induction h with
  | refl => exact hh
  | free _ ha hf ih => exact ih.free ha hf
  | poke _ hx ih => exact ih.poke hx

theorem NoMalloc.sub {c : Cfg} {st live st' live'} (h : NoMalloc c st live st' live') :
    ∀ a ∈ live', a ∈ live := by
  induction h with
  | refl => exact fun _ h => h
  | free _ _ _ ih => exact fun a h => ih a (List.mem_of_mem_erase h)
  | poke _ _ ih => exact ih

/-- Every pointer into the heap whose header address is in no allocated block (the word below
a block's address is its size) is rejected. -/
theorem C09_unallocated (c : Cfg) (m0 : Mem) (hz : c.lo + 4 ≤ c.hi) (h0 : ld m0 (c.pool + 2) = 0)
    {st : St} {live} (h : Hist c m0 st live) {q : Nat} (h1 : c.lo ≤ q) (h2 : q < c.hi)
    (hq : ∀ a ∈ live, q < a.1 - 4 ∨ a.1 - 4 + (ld st.mem (a.1 - 2)).toNat ≤ q) :
    free (W c.pool) st (W (q + 4)) = some (.error EUBADA) := by
  obtain ⟨bs, hr, hl⟩ := h.inv hz h0
  obtain ⟨b, hb, h3, h4⟩ := hr.tiles.cover h1 h2
  have hbm := hr.tiles.mem hb
  have := c.hi_le
  by_cases hu : b.used = true
  · exfalso
    have : b.addr + 4 ∈ live.map Prod.fst := hl.perm.mem_iff.2
      (List.mem_map_of_mem (f := fun b => b.addr + 4) (List.mem_filter.2 ⟨hb, hu⟩))
    obtain ⟨a, ha, hab⟩ := List.mem_map.1 this
    have := hq a ha
    rw [hab, show b.addr + 4 - 2 = b.addr + 2 by omega, hr.sizes b hb, W_toNat (by omega)] at this
    omega
  · obtain ⟨pre, post, rfl⟩ := List.append_of_mem hb
    exact free_bad c hr (by simpa using hu) h3 h4

/-- Size words of the blocks that stay live do not change. -/
theorem NoMalloc.inv {c : Cfg} {st live st' live'} (h : NoMalloc c st live st' live') :
    ∀ {bs : List Blk}, Rep c st.mem bs → Live bs live →
    ∃ bs', Rep c st'.mem bs' ∧ Live bs' live' ∧ ∀ b ∈ bs', b.used = true → b ∈ bs := by
  induction h with
  | refl => exact fun hr hl => ⟨_, hr, hl, fun b hb _ => hb⟩
  | @free st1 live1 a st2 _ ha hf ih =>
    intro bs hr hl
    obtain ⟨bs1, hr1, hl1, hs1⟩ := ih hr hl
    obtain ⟨pre, u, post, rfl, hu, hau, _⟩ := hl1.split ha
    obtain ⟨st3, bs', h1, h2, h3, _⟩ := free_spec c hr1 hu
    rw [← hau, hf] at h1
    have : st2 = st3 := by simpa using h1
    subst this
    refine ⟨bs', h2, hl1.erase hr1.tiles ha hu hau h3, ?_⟩
    intro b hb hbu
    have : b ∈ bs'.filter Blk.used := List.mem_filter.2 ⟨hb, hbu⟩
    rw [h3] at this
    apply hs1 b _ hbu
    rcases List.mem_append.1 this with h | h
    · exact List.mem_append_left _ (List.mem_filter.1 h).1
    · exact List.mem_append_right _ (List.mem_cons_of_mem _ (List.mem_filter.1 h).1)
  | @poke st1 live1 x v _ hx ih =>
    intro bs hr hl
    obtain ⟨bs1, hr1, hl1, hs1⟩ := ih hr hl
    have hc := hx.client hl1
    exact ⟨bs1, hr1.poke c hc.1 v (hc.away_pool hr1.tiles)
      (fun b hb => hc.away_hdr hr1.tiles hb), hl1, hs1⟩

/-- A freed block cannot be freed again: after any further frees and client writes, but no
malloc, free of the same pointer ends the program with EUBADA. -/
theorem C09_double_free (c : Cfg) (m0 : Mem) (hz : c.lo + 4 ≤ c.hi) (h0 : ld m0 (c.pool + 2) = 0)
    {st : St} {live} (h : Hist c m0 st live) {a : Nat × Nat} (ha : a ∈ live) {st1 : St}
    (hf : free (W c.pool) st (W a.1) = some (.ok st1)) {st2 live2}
    (hn : NoMalloc c st1 (live.erase a) st2 live2) :
    free (W c.pool) st2 (W a.1) = some (.error EUBADA) := by
  obtain ⟨bs, hr, hl⟩ := h.inv hz h0
  obtain ⟨pre, u, post, rfl, hu, hau, _⟩ := hl.split ha
  obtain ⟨st3, bs', h1, h2, h3, _⟩ := free_spec c hr hu
  rw [← hau, hf] at h1
  have : st1 = st3 := by simpa using h1
  subst this
  obtain ⟨bs2, hr2, hl2, hs2⟩ := hn.inv h2 (hl.erase hr.tiles ha hu hau h3)
  have hum := hr.tiles.mem (b := u) (by simp)
  obtain ⟨b, hb, h4, h5⟩ := hr2.tiles.cover (x := u.addr) hum.1 (by omega)
  have hbf : b.used = false := by
    by_contra hbu
    have hbu : b.used = true := by simpa using hbu
    have h6 := hs2 b hb hbu
    have : b ∈ bs'.filter Blk.used := List.mem_filter.2 ⟨h6, hbu⟩
    rw [h3] at this
    have hbpp : b ∈ pre ∨ b ∈ post := by
      rcases List.mem_append.1 this with h | h
      · exact Or.inl (List.mem_filter.1 h).1
      · exact Or.inr (List.mem_filter.1 h).1
    obtain ⟨x, ht1, ht2⟩ := (Tiles_append _ _ _ _).1 hr.tiles
    have := ht2.1
    rcases hbpp with h | h
    · have := ht1.mem h; omega
    · have := ht2.2.2.mem h; omega
  obtain ⟨pre', post', rfl⟩ := List.append_of_mem hb
  rw [hau]
  exact free_bad c hr2 hbf h4 h5

-- the immediate double free
example : ∃ st p st1, Hist exCfg (fun _ => 0) st [(p, 10)] ∧
    free (W exCfg.pool) st (W p) = some (.ok st1) ∧
    free (W exCfg.pool) st1 (W p) = some (.error EUBADA) := by
  obtain ⟨st0, p, h⟩ := exHist 10 (by omega)
  obtain ⟨st, hf, _⟩ := C07_free exCfg _ (by decide) rfl h (a := (p, 10)) (by simp)
  exact ⟨st0, p, st, h, hf, C09_double_free exCfg _ (by decide) rfl h (a := (p, 10)) (by simp) hf .refl⟩

end Cmm.Heap
