import Verif.Lib.Environ
import Verif.Lib.PathLemmas
import Verif.Props.C03
import Verif.Props.C04
import Verif.Props.C05
import Verif.Lib.HeapRoom

/- The heap as environ.cmm uses it: blocks in any order, and writes to bytes of blocks. -/
namespace Cmm.Environ
open Cmm.Crt0 Cmm.Err Cmm.Heap Cmm.Str

theorem W_self (x : Word) : W x.toNat = x := by simp [W]

theorem off_W (a i : Nat) : off (W a) i = W (a + i) := W_add a i

/-- Memories which differ only in the `n` bytes from `a`. -/
def Only (m m' : Mem) (a n : Nat) : Prop := ∀ x, x < 65536 → x < a ∨ a + n ≤ x → m' (W x) = m (W x)

theorem Only.of_same {m m' : Mem} {a n : Nat} (ha : a + n ≤ 65536) (h : SameExcept m m' (W a) n) :
    Only m m' a n := by
  intro x hx hd
  apply h
  intro i hi e
  rw [off_W] at e
  have := W_inj hx (by omega) e
  omega

theorem Only.trans {m1 m2 m3 : Mem} {a n : Nat} (h : Only m1 m2 a n) (h' : Only m2 m3 a n) : Only m1 m3 a n :=
  fun x hx hd => (h' x hx hd).trans (h x hx hd)

theorem Only.mono {m m' : Mem} {a n b k : Nat} (h : Only m m' a n) (h1 : b ≤ a) (h2 : a + n ≤ b + k) :
    Only m m' b k := fun x hx hd => h x hx (by omega)

theorem Only.refl (m : Mem) (a n : Nat) : Only m m a n := fun _ _ _ => rfl

theorem Only.sw (m : Mem) {a : Nat} (v : Word) (ha : a + 1 < 65536) : Only m (m.sw (W a) v) a 2 :=
  fun _ hx hd => sw_frame m v ha hx hd

/-- A write of any part of the bytes owned by the client is a sequence of single writes. -/
theorem hist_write {c : Cfg} {m0 : Mem} {st : St} {live} (h : Hist c m0 st live) (m' : Mem)
    (hm : ∀ x, x < 65536 → ¬ Owned c live x → m' (W x) = st.mem (W x)) : Hist c m0 ⟨m', st.alc⟩ live := by
  have key : ∀ n, n ≤ 65536 →
      Hist c m0 ⟨fun a => if a.toNat < n then m' a else st.mem a, st.alc⟩ live := by
    intro n
    induction n with
    | zero => intro _; simpa using h
    | succ n ih =>
      intro hn
      have ih := ih (by omega)
      by_cases ho : Owned c live n
      · have := ih.poke (x := n) (v := m' (W n)) ho
        convert this using 2
        funext a
        simp only [Mem.set]
        by_cases ha : a = W n
        · subst ha; rw [W_toNat (by omega)]; simp
        · have : a.toNat ≠ n := fun e => ha (by rw [← e, W_self])
          rw [if_neg ha]
          by_cases hlt : a.toNat < n
          · rw [if_pos (by omega), if_pos hlt]
          · rw [if_neg (by omega), if_neg hlt]
      · convert ih using 2
        funext a
        by_cases ha : a = W n
        · subst ha; rw [W_toNat (by omega), hm n (by omega) ho]; simp
        · have : a.toNat ≠ n := fun e => ha (by rw [← e, W_self])
          by_cases hlt : a.toNat < n
          · rw [if_pos (by omega), if_pos hlt]
          · rw [if_neg (by omega), if_neg hlt]
  have := key 65536 (by omega)
  convert this using 2
  funext a
  rw [if_pos a.isLt]

/-- Outside the heap and memPool. -/
def Outside (c : Cfg) (x : Nat) : Prop :=
  x < 65536 ∧ (x < c.pool ∨ c.pool + 4 ≤ x) ∧ (x < c.lo ∨ c.hi ≤ x)

/-- The byte belongs to the constant "=". -/
def InEq (k : Cst) (x : Nat) : Prop := x = k.eq.toNat ∨ x = (off k.eq 1).toNat

/-- The heap with the blocks `blks`, after some history. -/
structure HP (c : Cfg) (m0 : Mem) (k : Cst) (h : St) (blks : List (Nat × Nat)) : Prop where
  hz : c.lo + 4 ≤ c.hi
  h0 : ld m0 (c.pool + 2) = 0
  pool : k.pool = W c.pool
  live : ∃ live, Hist c m0 h live ∧ live.Perm blks
  eqs : IsStr h.mem k.eq [61#8]
  eqo : ∀ x, InEq k x → Outside c x

variable {c : Cfg} {m0 : Mem} {k : Cst} {h : St} {blks : List (Nat × Nat)}

theorem owned_perm {l l' : List (Nat × Nat)} (p : l.Perm l') {x : Nat} (ho : Owned c l x) : Owned c l' x :=
  ⟨ho.1, ho.2.imp (fun ⟨a, ha, hr⟩ => ⟨a, p.mem_iff.1 ha, hr⟩) id⟩

theorem owned_mono {l l' : List (Nat × Nat)} (p : ∀ a ∈ l, a ∈ l') {x : Nat} (ho : Owned c l x) : Owned c l' x :=
  ⟨ho.1, ho.2.imp (fun ⟨a, ha, hr⟩ => ⟨a, p a ha, hr⟩) id⟩

theorem HP.perm {blks' : List (Nat × Nat)} (hp : HP c m0 k h blks) (p : blks.Perm blks') : HP c m0 k h blks' :=
  { hp with live := by obtain ⟨l, h1, h2⟩ := hp.live; exact ⟨l, h1, h2.trans p⟩ }

theorem HP.bounds (hp : HP c m0 k h blks) {a : Nat × Nat} (ha : a ∈ blks) :
    c.lo + 4 ≤ a.1 ∧ a.1 + a.2 ≤ c.hi := by
  obtain ⟨l, h1, h2⟩ := hp.live
  have := (C07_live c m0 hp.hz hp.h0 h1).1 a (h2.mem_iff.2 ha)
  exact ⟨this.1, this.2.1⟩

theorem HP.apart (hp : HP c m0 k h blks) :
    blks.Pairwise fun a b => a.1 + a.2 + 4 ≤ b.1 ∨ b.1 + b.2 + 4 ≤ a.1 := by
  obtain ⟨l, h1, h2⟩ := hp.live
  exact (h2.pairwise_iff (fun h => Or.symm h)).1 (C07_live c m0 hp.hz hp.h0 h1).2

/-- A byte of the other blocks or of the client is not in the first block. -/
theorem HP.notIn {b : Nat × Nat} (hp : HP c m0 k h (b :: blks)) {x : Nat} (ho : Owned c blks x) :
    x < b.1 ∨ b.1 + b.2 ≤ x := by
  have hb := hp.bounds (a := b) (by simp)
  have hpl := c.pool_lo
  rcases ho.2 with ⟨a, ha, h1, h2⟩ | h1
  · have := (List.pairwise_cons.1 hp.apart).1 a ha
    omega
  · omega

theorem HP.eq_owned (hp : HP c m0 k h blks) (l : List (Nat × Nat)) {x : Nat} (hx : InEq k x) : Owned c l x :=
  ⟨(hp.eqo x hx).1, Or.inr (hp.eqo x hx).2⟩

theorem isStr_keep {m m' : Mem} {p : Word} {t : List Byte} (hs : IsStr m p t)
    (he : ∀ i, i ≤ t.length → m' (W (off p i).toNat) = m (W (off p i).toNat)) : IsStr m' p t :=
  hs.congr fun i hi => by have := he i hi; rwa [W_self] at this

theorem HP.eqs_keep (hp : HP c m0 k h blks) {m' : Mem}
    (hm : ∀ x, InEq k x → m' (W x) = h.mem (W x)) : IsStr m' k.eq [61#8] := by
  apply isStr_keep hp.eqs
  intro i hi
  apply hm
  have : i = 0 ∨ i = 1 := by simp at hi; omega
  rcases this with rfl | rfl
  · left; simp
  · right; rfl

/-- The call fails only if no free block has `n` bytes (or the stack reaches the heap). -/
def Fails (c : Cfg) (sp : Word) (m : Mem) (n : Nat) : Prop :=
  c.hi < (sp - 10).toNat → ∀ r, Room c m r → r < n

/-- The call takes at most `n` bytes from the largest free block. -/
def Leaves (c : Cfg) (m m' : Mem) (n : Nat) : Prop := ∀ r, Room c m r → n ≤ r → Room c m' (r - n)

theorem Leaves.trans {m1 m2 m3 : Mem} {i j : Nat} (h : Leaves c m1 m2 i) (h' : Leaves c m2 m3 j) : Leaves c m1 m3 (i + j) := by
  intro r hr hn
  have := h' (r - i) (h r hr (by omega)) (by omega)
  rwa [Nat.sub_sub] at this

theorem Leaves.mono {m1 m2 : Mem} {i j : Nat} (h : Leaves c m1 m2 i) (hij : i ≤ j) : Leaves c m1 m2 j :=
  fun r hr hn => (h r hr (by omega)).mono (by omega)

theorem Leaves.fails {sp : Word} {m1 m2 : Mem} {i j : Nat} (h : Leaves c m1 m2 i) (h' : Fails c sp m2 j) : Fails c sp m1 (i + j) := by
  intro hsp r hr
  by_cases hi : i ≤ r
  · have := h' hsp _ (h r hr hi); omega
  · omega

theorem Fails.mono {sp : Word} {m : Mem} {i j : Nat} (h : Fails c sp m i) (hij : i ≤ j) : Fails c sp m j :=
  fun hsp r hr => by have := h hsp r hr; omega

theorem Leaves.refl (m : Mem) : Leaves c m m 0 := fun _ hr _ => hr

theorem HP.malloc (hp : HP c m0 k h blks) (sp : Word) {siz : Nat} (hs : siz ≤ 65530) :
    (Heap.malloc k.pool sp h (W siz) = some (.error EUNOMEM) ∧ Fails c sp h.mem (siz + 12)) ∨
    ∃ p h', Heap.malloc k.pool sp h (W siz) = some (.ok (W p, h')) ∧ HP c m0 k h' ((p, siz) :: blks) ∧
      (∀ x, Owned c blks x → h'.mem (W x) = h.mem (W x)) ∧ Leaves c h.mem h'.mem (siz + 12) := by
  obtain ⟨l, h1, h2⟩ := hp.live
  rw [hp.pool]
  rcases C07_malloc c m0 hp.hz hp.h0 h1 sp hs with h3 | ⟨p, h', h3, h4⟩
  · exact Or.inl ⟨h3, fun hsp r hr => malloc_fails hp.hz hp.h0 h1 hs hsp hr h3⟩
  · right
    have h4' : ∀ x, Owned c blks x → h'.mem (W x) = h.mem (W x) := fun x hx => h4 x (owned_perm h2.symm hx)
    refine ⟨p.toNat, h', by rw [W_self]; exact h3, ?_, h4',
      fun r hr hn => (malloc_room hp.hz hp.h0 h1 hs hr h3 hn).mono (by omega)⟩
    exact { hp with live := ⟨_, h1.malloc hs h3, h2.cons _⟩
                    eqs := hp.eqs_keep fun x hx => h4' x (hp.eq_owned _ hx) }

theorem HP.free {a : Nat × Nat} (hp : HP c m0 k h (a :: blks)) :
    ∃ h', Heap.free k.pool h (W a.1) = some (.ok h') ∧ HP c m0 k h' blks ∧
      (∀ x, Owned c (a :: blks) x → h'.mem (W x) = h.mem (W x)) ∧ Leaves c h.mem h'.mem 0 := by
  obtain ⟨l, h1, h2⟩ := hp.live
  have ha : a ∈ l := h2.mem_iff.2 (by simp)
  obtain ⟨h', h3, h4⟩ := C07_free c m0 hp.hz hp.h0 h1 ha
  rw [hp.pool]
  have h4' : ∀ x, Owned c (a :: blks) x → h'.mem (W x) = h.mem (W x) := fun x hx => h4 x (owned_perm h2.symm hx)
  refine ⟨h', h3, ?_, h4', fun r hr _ => free_room hp.hz hp.h0 h1 ha hr h3⟩
  refine { hp with live := ⟨_, h1.free ha h3, ?_⟩
                   eqs := hp.eqs_keep fun x hx => h4' x (hp.eq_owned _ hx) }
  have := h2.erase a
  simpa using this

theorem HP.write (hp : HP c m0 k h blks) {m' : Mem}
    (hm : ∀ x, x < 65536 → ¬ Owned c blks x ∨ InEq k x → m' (W x) = h.mem (W x)) :
    HP c m0 k ⟨m', h.alc⟩ blks := by
  obtain ⟨l, h1, h2⟩ := hp.live
  refine { hp with live := ⟨l, hist_write h1 m' fun x hx ho => hm x hx (Or.inl fun hc => ho (owned_perm h2.symm hc)), h2⟩
                   eqs := hp.eqs_keep fun x hx => hm x (hp.eqo x hx).1 (Or.inr hx) }

/-- A write inside a block. -/
theorem HP.writeBlk {b : Nat × Nat} (hp : HP c m0 k h (b :: blks)) {m' : Mem} (hm : Only h.mem m' b.1 b.2) :
    HP c m0 k ⟨m', h.alc⟩ (b :: blks) := by
  apply hp.write
  intro x hx hd
  apply hm x hx
  rcases hd with hd | hd
  · by_contra hc
    exact hd ⟨hx, Or.inl ⟨b, by simp, by omega, by omega⟩⟩
  · exact hp.notIn (hp.eq_owned blks hd)

theorem HP.writeBlk_room {b : Nat × Nat} (hp : HP c m0 k h (b :: blks)) {m' : Mem} (hm : Only h.mem m' b.1 b.2) :
    Leaves c h.mem m' 0 := by
  obtain ⟨l, h1, h2⟩ := hp.live
  intro r hr _
  refine room_keep hp.hz hp.h0 h1 (fun x hx ho => hm x hx ?_) hr
  by_contra hc
  exact ho (owned_perm h2.symm ⟨hx, Or.inl ⟨b, by simp, by omega, by omega⟩⟩)

end Cmm.Environ
