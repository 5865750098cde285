import Verif.Lib.MallocLemmas

/- Histories of allocator calls, and the invariant that holds after each of them. -/
namespace Cmm.Heap
open Cmm.Crt0 Cmm.Err

/-- Bytes a correct client may write: the requested bytes of live blocks and everything
outside the heap and outside memPool. -/
def Owned (c : Cfg) (live : List (Nat × Nat)) (x : Nat) : Prop :=
  x < 65536 ∧
  ((∃ a ∈ live, a.1 ≤ x ∧ x < a.1 + a.2) ∨
   ((x < c.pool ∨ c.pool + 4 ≤ x) ∧ (x < c.lo ∨ c.hi ≤ x)))

/-- Histories: calls of malloc and free that return, interleaved with arbitrary writes of the
client to its own memory. `live` lists the blocks (address, requested size) handed out and
not yet freed. It is built from the results of the calls alone. -/
inductive Hist (c : Cfg) (m0 : Mem) : St → List (Nat × Nat) → Prop
  | init : Hist c m0 (init (W c.pool) (W c.lo) (W c.hi) m0) []
  | malloc {st live siz sp p st'} : Hist c m0 st live → siz ≤ 65530 →
      malloc (W c.pool) sp st (W siz) = some (.ok (p, st')) →
      Hist c m0 st' ((p.toNat, siz) :: live)
  | free {st live a st'} : Hist c m0 st live → a ∈ live →
      free (W c.pool) st (W a.1) = some (.ok st') → Hist c m0 st' (live.erase a)
  | poke {st live x v} : Hist c m0 st live → Owned c live x →
      Hist c m0 ⟨st.mem.set (W x) v, st.alc⟩ live

/-- Relation of the live blocks to the used blocks of the heap. -/
structure Live (bs : List Blk) (live : List (Nat × Nat)) : Prop where
  perm : (live.map Prod.fst).Perm ((bs.filter Blk.used).map fun b => b.addr + 4)
  size : ∀ a ∈ live, ∃ b ∈ bs, b.used = true ∧ a.1 = b.addr + 4 ∧
    a.2 + 4 ≤ b.size ∧ b.size ≤ a.2 + 11

theorem Tiles.pairwise {a e : Nat} {bs : List Blk} (h : Tiles a e bs) :
    bs.Pairwise fun b c => b.addr + b.size ≤ c.addr := by
  induction bs generalizing a with
  | nil => exact List.Pairwise.nil
  | cons b bs ih =>
    refine List.Pairwise.cons ?_ (ih h.2.2)
    intro c hc
    have := h.2.2.mem hc; have := h.1; omega

theorem Tiles.nodup {a e : Nat} {bs : List Blk} (h : Tiles a e bs) :
    ((bs.filter Blk.used).map fun b => b.addr + 4).Nodup := by
  have h1 := (List.Pairwise.and_mem.1 h.pairwise).filter Blk.used
  unfold List.Nodup
  rw [List.pairwise_map]
  refine h1.imp ?_
  intro b d hbd
  have := h.mem hbd.1
  omega

theorem Tiles.inj {a e : Nat} {bs : List Blk} (h : Tiles a e bs) {b d : Blk} (hb : b ∈ bs)
    (hd : d ∈ bs) (he : b.addr = d.addr) : b = d := by
  have := h.mem hb
  have := h.mem hd
  rcases h.apart hb hd with h | h | h
  · exact h
  · omega
  · omega

theorem Live.nodup {a e : Nat} {bs : List Blk} {live} (hl : Live bs live) (h : Tiles a e bs) :
    (live.map Prod.fst).Nodup := hl.perm.nodup_iff.2 h.nodup

theorem Owned.client {c : Cfg} {bs : List Blk} {live x} (hl : Live bs live) (h : Owned c live x) :
    Client c bs x := by
  refine ⟨h.1, ?_⟩
  rcases h.2 with ⟨a, ha, h1, h2⟩ | h
  · obtain ⟨b, hb, hu, e, hs⟩ := hl.size a ha
    exact Or.inl ⟨b, hb, hu, by omega, by omega⟩
  · exact Or.inr h

/-- A pointer that is live is the payload of a used block. -/
theorem Live.split {bs : List Blk} {live} (hl : Live bs live) {a : Nat × Nat} (ha : a ∈ live) :
    ∃ pre u post, bs = pre ++ u :: post ∧ u.used = true ∧ a.1 = u.addr + 4 ∧
      a.2 + 4 ≤ u.size ∧ u.size ≤ a.2 + 11 := by
  obtain ⟨b, hb, h1, h2, h3⟩ := hl.size a ha
  obtain ⟨pre, post, e⟩ := List.append_of_mem hb
  exact ⟨pre, b, post, e, h1, h2, h3⟩

theorem Live.erase {c e : Nat} {pre post bs' : List Blk} {u : Blk} {live} (ht : Tiles c e (pre ++ u :: post))
    (hl : Live (pre ++ u :: post) live) {a : Nat × Nat} (ha : a ∈ live) (hu : u.used = true)
    (hau : a.1 = u.addr + 4)
    (hf : bs'.filter Blk.used = pre.filter Blk.used ++ post.filter Blk.used) :
    Live bs' (live.erase a) := by
  have hnd := hl.nodup ht
  have hperm : (live.map Prod.fst).Perm (a.1 :: (live.erase a).map Prod.fst) := by
    have := (List.perm_cons_erase ha).map Prod.fst
    simpa using this
  constructor
  · have h1 := hperm.symm.trans hl.perm
    have h2 : ((pre ++ u :: post).filter Blk.used).map (fun b => b.addr + 4) =
        (pre.filter Blk.used).map (fun b => b.addr + 4) ++
          a.1 :: (post.filter Blk.used).map (fun b => b.addr + 4) := by
      simp [hu, hau]
    rw [h2] at h1
    have h3 := h1.trans List.perm_middle
    rw [hf, List.map_append]
    exact (List.perm_cons _).1 h3
  · intro d hd
    have hd' := List.mem_of_mem_erase hd
    obtain ⟨b, hb, hbu, e1, e2⟩ := hl.size d hd'
    refine ⟨b, ?_, hbu, e1, e2⟩
    have hne : b ≠ u := by
      rintro rfl
      have hx : d.1 = a.1 := by rw [e1, hau]
      have hnd' : (a.1 :: (live.erase a).map Prod.fst).Nodup := hperm.nodup_iff.1 hnd
      rw [List.nodup_cons] at hnd'
      exact hnd'.1 (hx ▸ List.mem_map_of_mem hd)
    have : b ∈ bs'.filter Blk.used := by
      rw [hf]
      have : b ∈ pre ∨ b = u ∨ b ∈ post := by simpa using hb
      rcases this with h | h | h
      · exact List.mem_append_left _ (List.mem_filter.2 ⟨h, hbu⟩)
      · exact absurd h hne
      · exact List.mem_append_right _ (List.mem_filter.2 ⟨h, hbu⟩)
    exact (List.mem_filter.1 this).1

theorem Live.insert {pre post rest : List Blk} {b : Blk} {live} {s siz : Nat}
    (hl : Live (pre ++ b :: post) live) (hb : b.used = false) (hs : siz + 4 ≤ s ∧ s ≤ siz + 11)
    (hrest : ∀ d ∈ rest, d.used = false) :
    Live (pre ++ ⟨b.addr, s, true⟩ :: rest ++ post) ((b.addr + 4, siz) :: live) := by
  have hr : rest.filter Blk.used = [] := by
    rw [List.filter_eq_nil_iff]; intro d hd; simp [hrest d hd]
  constructor
  · have := hl.perm
    simp only [List.append_assoc, List.cons_append, List.filter_append, List.filter_cons, hb,
      hr, List.map_append, List.map_cons, List.nil_append] at this ⊢
    simp only [Bool.false_eq_true, if_false, if_true, List.map_cons] at this ⊢
    exact (this.cons _).trans List.perm_middle.symm
  · intro a ha
    rcases List.mem_cons.1 ha with rfl | ha
    · exact ⟨⟨b.addr, s, true⟩, by simp, rfl, rfl, hs⟩
    · obtain ⟨d, hd, h1, h2, h3⟩ := hl.size a ha
      refine ⟨d, ?_, h1, h2, h3⟩
      have : d ∈ pre ∨ d = b ∨ d ∈ post := by simpa using hd
      rcases this with h | h | h
      · simp [h]
      · subst h; rw [hb] at h1; cases h1
      · simp [h]

/-- The invariant. -/
theorem Hist.inv {c : Cfg} {m0 : Mem} (hz : c.lo + 4 ≤ c.hi) (h0 : ld m0 (c.pool + 2) = 0)
    {st : St} {live} (h : Hist c m0 st live) : ∃ bs, Rep c st.mem bs ∧ Live bs live := by
  induction h with
  | init => exact ⟨_, Rep.init c m0 hz h0, by constructor <;> simp⟩
  | @malloc st live siz sp p st' _ hs hm ih =>
    obtain ⟨bs, hr, hl⟩ := ih
    rcases malloc_spec c hr sp hs with h | ⟨pre, b, post, s, rest, st1, e, hb, h1, _, h2, h3, h4, _⟩
    · rw [hm] at h; cases h
    · rw [hm] at h3
      have : p = W (b.addr + 4) ∧ st' = st1 := by simpa using h3
      obtain ⟨rfl, rfl⟩ := this
      subst e
      have hbm := hr.tiles.mem (b := b) (by simp)
      have := c.hi_le
      rw [W_toNat (by omega)]
      refine ⟨_, h4, hl.insert hb h1 ?_⟩
      intro d hd
      rcases h2 with ⟨_, rfl⟩ | ⟨_, rfl⟩
      · cases hd
      · simp at hd; subst hd; rfl
  | @free st live a st' _ ha hf ih =>
    obtain ⟨bs, hr, hl⟩ := ih
    obtain ⟨pre, u, post, rfl, hu, hau, _⟩ := hl.split ha
    obtain ⟨st1, bs', h1, h2, h3, _⟩ := free_spec c hr hu
    rw [← hau, hf] at h1
    have : st' = st1 := by simpa using h1
    subst this
    exact ⟨bs', h2, hl.erase hr.tiles ha hu hau h3⟩
  | @poke st live x v _ hx ih =>
    obtain ⟨bs, hr, hl⟩ := ih
    have hc := hx.client hl
    exact ⟨bs, hr.poke c hc.1 v (hc.away_pool hr.tiles) (fun b hb => hc.away_hdr hr.tiles hb), hl⟩

/-- The addresses met when the `next` words are followed from the word `a` to null. -/
def Walk (m : Mem) (a : Word) : List Nat → Prop
  | [] => a = 0
  | x :: l => a = W x ∧ x < 65536 ∧ x ≠ 0 ∧ Walk m (ld m x) l

theorem Walk.unique {m : Mem} {a : Word} {l l' : List Nat} (h : Walk m a l) (h' : Walk m a l') :
    l = l' := by
  induction l generalizing a l' with
  | nil =>
    cases l' with
    | nil => rfl
    | cons y l' =>
      have : W y = W 0 := h'.1.symm.trans h
      exact absurd (W_inj h'.2.1 (by omega) this) h'.2.2.1
  | cons x l ih =>
    cases l' with
    | nil =>
      have : W x = W 0 := h.1.symm.trans h'
      exact absurd (W_inj h.2.1 (by omega) this) h.2.2.1
    | cons y l' =>
      have : x = y := W_inj h.2.1 h'.2.1 (h.1.symm.trans h'.1)
      subst this
      rw [ih h.2.2.2 h'.2.2.2]

theorem Seg.walk {m : Mem} {pool p a e : Nat} {bs : List Blk} (ht : Tiles a e bs) (ha : 0 < a)
    (he : e ≤ 65536) (h : Seg m pool p bs) (hf : ld m (lf p bs) = 0) :
    Walk m (ld m p) ((bs.filter fun b => !b.used).map Blk.addr) := by
  induction bs generalizing p a with
  | nil => exact hf
  | cons b bs ih =>
    have hb := ht.mem (b := b) List.mem_cons_self
    have h1 := ht.1
    by_cases hu : b.used = true
    · simp only [Seg, lf, hu, if_true] at h hf
      simp only [List.filter_cons, hu]
      exact ih ht.2.2 (by omega) h.2 hf
    · simp only [Seg, lf, hu] at h hf
      have hu' : b.used = false := by simpa using hu
      simp only [List.filter_cons, hu', Bool.not_false, if_true, List.map_cons]
      exact ⟨h.1, by omega, by omega, ih ht.2.2 (by omega) h.2 hf⟩

theorem Rep.walk {c : Cfg} {m : Mem} {bs : List Blk} (hr : Rep c m bs) :
    Walk m (ld m c.pool) ((bs.filter fun b => !b.used).map Blk.addr) :=
  hr.seg.walk hr.tiles (by have := c.lo_ge; omega) (Nat.le_of_lt c.hi_le) hr.fin

theorem Tiles.cover {a e : Nat} {bs : List Blk} (h : Tiles a e bs) {x : Nat} (h1 : a ≤ x)
    (h2 : x < e) : ∃ b ∈ bs, b.addr ≤ x ∧ x < b.addr + b.size := by
  induction bs generalizing a with
  | nil => have : a = e := h; omega
  | cons b bs ih =>
    have hb := h.1
    by_cases hx : x < a + b.size
    · exact ⟨b, List.mem_cons_self, by omega, by omega⟩
    · obtain ⟨d, hd, h3⟩ := ih h.2.2 (by omega)
      exact ⟨d, List.mem_cons_of_mem _ hd, h3⟩

end Cmm.Heap
