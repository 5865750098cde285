import Verif.Props.C07

/- How the largest free block changes: what is enough for malloc to succeed. -/
namespace Cmm.Heap
open Cmm.Crt0 Cmm.Err

/-- Some block of the free list has at least `n` bytes (header included). -/
def Room (c : Cfg) (m : Mem) (n : Nat) : Prop :=
  ∃ fl f, Walk m (ld m c.pool) fl ∧ f ∈ fl ∧ n ≤ (ld m (f + 2)).toNat

theorem Rep.room_iff {c : Cfg} {m : Mem} {bs : List Blk} (hr : Rep c m bs) (n : Nat) :
    Room c m n ↔ ∃ b ∈ bs, b.used = false ∧ n ≤ b.size := by
  have hhi := c.hi_le
  have key : ∀ b ∈ bs, (ld m (b.addr + 2)).toNat = b.size := by
    intro b hb
    have := hr.tiles.mem hb
    rw [hr.sizes b hb, W_toNat (by omega)]
  constructor
  · rintro ⟨fl, f, hw, hf, hn⟩
    have := hr.walk.unique hw
    subst this
    obtain ⟨b, hb, rfl⟩ := List.mem_map.1 hf
    have hbf := List.mem_filter.1 hb
    rw [key b hbf.1] at hn
    exact ⟨b, hbf.1, by simpa using hbf.2, hn⟩
  · rintro ⟨b, hb, hu, hn⟩
    exact ⟨_, b.addr, hr.walk, List.mem_map.2 ⟨b, List.mem_filter.2 ⟨hb, by simp [hu]⟩, rfl⟩, by rw [key b hb]; exact hn⟩

theorem Room.mono {c : Cfg} {m : Mem} {n k : Nat} (h : Room c m n) (hk : k ≤ n) : Room c m k := by
  obtain ⟨fl, f, h1, h2, h3⟩ := h
  exact ⟨fl, f, h1, h2, by omega⟩

variable {c : Cfg} {m0 : Mem} {st : St} {live : List (Nat × Nat)}

/-- malloc fails only when no block is large enough. -/
theorem malloc_fails (hz : c.lo + 4 ≤ c.hi) (h0 : ld m0 (c.pool + 2) = 0) (h : Hist c m0 st live) {sp : Word} {siz n : Nat}
    {x : Word} (hs : siz ≤ 65530) (hsp : c.hi < (sp - 10).toNat) (hr : Room c st.mem n)
    (hm : malloc (W c.pool) sp st (W siz) = some (.error x)) : n < siz + 12 := by
  by_contra hc
  obtain ⟨fl, f, h1, h2, h3⟩ := hr
  obtain ⟨p, st', h4⟩ := C07_malloc_succeeds c m0 hz h0 h sp hs hsp h1 h2 (by omega)
  rw [hm] at h4
  cases h4

theorem malloc_room (hz : c.lo + 4 ≤ c.hi) (h0 : ld m0 (c.pool + 2) = 0) (h : Hist c m0 st live) {sp p : Word} {siz n : Nat}
    {st' : St} (hs : siz ≤ 65530) (hr : Room c st.mem n) (hm : malloc (W c.pool) sp st (W siz) = some (.ok (p, st')))
    (hn : siz + 12 ≤ n) : Room c st'.mem (n - (siz + 11)) := by
  obtain ⟨bs, hrep, _⟩ := h.inv hz h0
  rcases malloc_spec c hrep sp hs with he | ⟨pre, b, post, s, rest, st1, e, hb, h1, _, h2, h3, h4, _⟩
  · rw [hm] at he; cases he
  · rw [hm] at h3
    have : p = W (b.addr + 4) ∧ st' = st1 := by simpa using h3
    obtain ⟨rfl, rfl⟩ := this
    rw [hrep.room_iff] at hr
    obtain ⟨d, hd, hdu, hdn⟩ := hr
    rw [h4.room_iff]
    rw [e] at hd
    have hd : d ∈ pre ∨ d = b ∨ d ∈ post := by simpa using hd
    rcases hd with hd | rfl | hd
    · exact ⟨d, by simp [hd], hdu, by omega⟩
    · rcases h2 with ⟨h5, _⟩ | ⟨h5, h6⟩
      · omega
      · exact ⟨⟨d.addr + s, d.size - s, false⟩, by simp [h6], rfl, by simp only; omega⟩
    · exact ⟨d, by simp [hd], hdu, by omega⟩

/-- A range without used bytes lies in one free block. -/
theorem one_free {a e x n : Nat} {bs : List Blk} (ht : Tiles a e bs) (hn : NoAdj bs) (h1 : a ≤ x) (h2 : 0 < n) (h3 : x + n ≤ e)
    (hu : ∀ b ∈ bs, b.used = true → b.addr + b.size ≤ x ∨ x + n ≤ b.addr) :
    ∃ b ∈ bs, b.used = false ∧ b.addr ≤ x ∧ x + n ≤ b.addr + b.size := by
  induction bs generalizing a with
  | nil => have : a = e := ht; omega
  | cons b bs ih =>
    obtain ⟨t1, t2, t3⟩ := ht
    by_cases hx : a + b.size ≤ x
    · obtain ⟨d, hd, h4⟩ := ih t3 (List.IsChain.tail hn) hx (fun d hd => hu d (List.mem_cons_of_mem _ hd))
      exact ⟨d, List.mem_cons_of_mem _ hd, h4⟩
    · have hbu : b.used = false := by
        by_contra hc
        have := hu b List.mem_cons_self (by simpa using hc)
        omega
      by_cases hfit : x + n ≤ a + b.size
      · exact ⟨b, List.mem_cons_self, hbu, by omega, by omega⟩
      · exfalso
        cases bs with
        | nil => have : a + b.size = e := t3; omega
        | cons d bs =>
          have hdu : d.used = true := (List.isChain_cons_cons.1 hn).1 hbu
          have := hu d (by simp) hdu
          have hd1 := t3.1
          have hd2 := t3.2.1
          omega

theorem free_room (hz : c.lo + 4 ≤ c.hi) (h0 : ld m0 (c.pool + 2) = 0) (h : Hist c m0 st live) {a : Nat × Nat} {n : Nat}
    {st' : St} (ha : a ∈ live) (hr : Room c st.mem n) (hm : free (W c.pool) st (W a.1) = some (.ok st')) : Room c st'.mem n := by
  obtain ⟨bs, hrep, hl⟩ := h.inv hz h0
  obtain ⟨pre, u, post, rfl, hu, hau, _⟩ := hl.split ha
  obtain ⟨st1, bs', h1, h2, h3, _⟩ := free_spec c hrep hu
  rw [← hau, hm] at h1
  have : st' = st1 := by simpa using h1
  subst this
  rw [hrep.room_iff] at hr
  rw [h2.room_iff]
  obtain ⟨b, hb, hbu, hbn⟩ := hr
  have hbt := hrep.tiles.mem hb
  obtain ⟨d, hd, hdu, h4, h5⟩ := one_free (x := b.addr) (n := b.size) h2.tiles h2.noadj (by omega) (by omega) (by omega) (by
    intro d hd hdu
    have : d ∈ bs'.filter Blk.used := List.mem_filter.2 ⟨hd, hdu⟩
    rw [h3] at this
    have hd' : d ∈ pre ++ u :: post := by
      rcases List.mem_append.1 this with h | h
      · exact List.mem_append_left _ (List.mem_filter.1 h).1
      · exact List.mem_append_right _ (List.mem_cons_of_mem _ (List.mem_filter.1 h).1)
    rcases hrep.tiles.apart hd' hb with rfl | h6 | h6
    · rw [hbu] at hdu; cases hdu
    · exact Or.inl h6
    · exact Or.inr h6)
  exact ⟨d, hd, hdu, by omega⟩

/-- The free list lies outside the bytes of the client. -/
theorem room_keep (hz : c.lo + 4 ≤ c.hi) (h0 : ld m0 (c.pool + 2) = 0) (h : Hist c m0 st live) {m' : Mem}
    (hm : ∀ x, x < 65536 → ¬ Owned c live x → m' (W x) = st.mem (W x)) {n : Nat} (hr : Room c st.mem n) : Room c m' n := by
  obtain ⟨bs, hrep, hl⟩ := h.inv hz h0
  have hhi := c.hi_le
  have hlo := c.lo_ge
  have hpl := c.pool_lo
  have keep : ∀ a, a + 1 < 65536 → ¬ Owned c live a → ¬ Owned c live (a + 1) → ld m' a = ld st.mem a := by
    intro a h1 h2 h3
    unfold ld Mem.lw
    rw [show W a + 1 = W (a + 1) from W_add a 1, hm a (by omega) h2, hm (a + 1) h1 h3]
  have hpool : ∀ x, c.pool ≤ x → x < c.pool + 4 → ¬ Owned c live x := by
    intro x h1 h2 ho
    have := (ho.client hl).away_pool hrep.tiles
    omega
  have hhdr : ∀ b ∈ bs, ∀ x, b.addr ≤ x → x < b.addr + 4 → ¬ Owned c live x := by
    intro b hb x h1 h2 ho
    have := (ho.client hl).away_hdr hrep.tiles hb
    omega
  have htm : ∀ b ∈ bs, b.addr + 4 ≤ 65536 := by
    intro b hb
    have := hrep.tiles.mem hb
    omega
  have e : ∀ b ∈ bs, ld m' b.addr = ld st.mem b.addr := fun b hb => by
    have := htm b hb
    exact keep _ (by omega) (hhdr b hb _ (by omega) (by omega)) (hhdr b hb _ (by omega) (by omega))
  have hle := hrep.tiles.le
  have ep : ld m' c.pool = ld st.mem c.pool :=
    keep _ (by omega) (hpool _ (by omega) (by omega)) (hpool _ (by omega) (by omega))
  obtain ⟨g1, g2⟩ := hrep.seg.transfer (m' := m') hrep.fin ep e
  have hrep' : Rep c m' bs := by
    refine ⟨hrep.tiles, g1, g2, ?_, ?_, hrep.noadj, hrep.last, hrep.even⟩
    · intro b hb
      have := htm b hb
      rw [keep (b.addr + 2) (by omega) (hhdr b hb _ (by omega) (by omega)) (hhdr b hb _ (by omega) (by omega))]
      exact hrep.sizes b hb
    · rw [keep (c.pool + 2) (by omega) (hpool _ (by omega) (by omega)) (hpool _ (by omega) (by omega))]
      exact hrep.root
  rw [hrep.room_iff] at hr
  rw [hrep'.room_iff]
  exact hr

end Cmm.Heap
