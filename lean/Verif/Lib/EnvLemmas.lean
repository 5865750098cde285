import Verif.Lib.EnvHeap

/- The functions of environ.cmm over blocks of the heap. -/
namespace Cmm.Environ
open Cmm.Crt0 Cmm.Err Cmm.Heap Cmm.Str

/-- An entry of the environment: the block of its string, and the string. -/
structure Var where
  addr : Nat
  size : Nat
  text : List Byte

def Var.blk (v : Var) : Nat × Nat := (v.addr, v.size)

/-- The array at `a` has the elements `ws` and a null after them. -/
def Arr (m : Mem) (a : Nat) (ws : List Word) : Prop :=
  ∀ i, i ≤ ws.length → ld m (a + 2 * i) = ws[i]?.getD 0

/-- The strings of the entries are in their blocks. -/
def Strs (m : Mem) (vars : List Var) : Prop :=
  ∀ v ∈ vars, IsStr m (W v.addr) v.text ∧ v.text.length + 1 ≤ v.size

/-- A string of the client: all its bytes are owned by the client. -/
def CStr (c : Cfg) (client : List (Nat × Nat)) (m : Mem) (p : Word) (t : List Byte) : Prop :=
  IsStr m p t ∧ ∀ i, i ≤ t.length → Owned c client (off p i).toNat

/-- The entry is a definition of the name. -/
def Match (text n : List Byte) : Prop := 61#8 ∉ n ∧ ∃ v, text = n ++ 61#8 :: v

theorem elem_W (m : Mem) (a i : Nat) : elem m (W a) (W i) = ld m (a + 2 * i) := by
  unfold elem ld
  congr 1
  apply BitVec.eq_of_toNat_eq
  simp [BitVec.toNat_add, BitVec.toNat_mul]

theorem W_elem (a i : Nat) : W a + 2 * W i = W (a + 2 * i) := by
  apply BitVec.eq_of_toNat_eq
  simp [BitVec.toNat_add, BitVec.toNat_mul]

theorem W_two (i : Nat) : 2 * W i = W (2 * i) := by
  apply BitVec.eq_of_toNat_eq
  simp [BitVec.toNat_mul]

theorem W_one (i : Nat) : W i + 1 = W (i + 1) := W_add i 1

theorem ld_keep {m m' : Mem} {a : Nat} (h0 : m' (W a) = m (W a)) (h1 : m' (W (a + 1)) = m (W (a + 1))) :
    ld m' a = ld m a := by
  unfold ld Mem.lw
  rw [show W a + 1 = W (a + 1) from W_add a 1, h0, h1]

theorem Only.ld {m m' : Mem} {a n x : Nat} (h : Only m m' a n) (hx : x + 1 < 65536) (hd : x + 2 ≤ a ∨ a + n ≤ x) :
    ld m' x = ld m x := ld_keep (h x (by omega) (by omega)) (h (x + 1) (by omega) (by omega))

theorem Arr.keep {m m' : Mem} {a : Nat} {ws : List Word} (h : Arr m a ws)
    (he : ∀ x, a ≤ x → x < a + 2 * (ws.length + 1) → m' (W x) = m (W x)) : Arr m' a ws := by
  intro i hi
  rw [← h i hi]
  exact ld_keep (he _ (by omega) (by omega)) (he _ (by omega) (by omega))

theorem Strs.keep {m m' : Mem} {vars : List Var} (h : Strs m vars)
    (he : ∀ v ∈ vars, ∀ x, v.addr ≤ x → x < v.addr + v.size → m' (W x) = m (W x)) : Strs m' vars := by
  intro v hv
  obtain ⟨h1, h2⟩ := h v hv
  refine ⟨h1.congr fun i hi => ?_, h2⟩
  rw [off_W]
  exact he v hv _ (by omega) (by omega)

theorem CStr.keep {c : Cfg} {client : List (Nat × Nat)} {m m' : Mem} {p : Word} {t : List Byte} (h : CStr c client m p t)
    (he : ∀ x, Owned c client x → m' (W x) = m (W x)) : CStr c client m' p t :=
  ⟨isStr_keep h.1 fun i hi => he _ (h.2 i hi), h.2⟩

theorem CStr.mono {c : Cfg} {client l : List (Nat × Nat)} {m : Mem} {p : Word} {t : List Byte} (h : CStr c client m p t)
    (hl : ∀ a ∈ client, a ∈ l) : CStr c l m p t := ⟨h.1, fun i hi => owned_mono hl (h.2 i hi)⟩

/-! ### envIndex -/

theorem lexCmp_eq_iff (s t : List Byte) : lexCmp s t = .eq ↔ s = t := by
  induction s generalizing t with
  | nil => cases t <;> simp [lexCmp]
  | cons a s ih =>
    cases t with
    | nil => simp [lexCmp]
    | cons b t =>
      simp only [lexCmp]
      have := ih t
      have hab : a = b ↔ a.toNat = b.toNat := ⟨fun h => by rw [h], BitVec.eq_of_toNat_eq⟩
      grind

theorem signOf_eq_iff (r : Word) : signOf r = .eq ↔ r = 0 := by
  unfold signOf
  constructor
  · intro h
    apply BitVec.eq_of_toInt_eq
    have : r.toInt = 0 := by grind
    rw [this]; rfl
  · rintro rfl; rfl

/-- One step of the search: whether the entry at `p` has the name. -/
theorem match_step {m : Mem} {p name : Word} {text s : List Byte} {n : Nat} (hp : IsStr m p text)
    (hn : IsStr m name s) (hlen : n ≤ s.length) (hn' : n < 32768) :
    ∃ l, strChr m p 61#8 = some l ∧
      (W n = l → ∃ r, strNcmp m p name (W n) = some r ∧ (r = 0 ↔ Match text (s.take n))) ∧
      (W n ≠ l → ¬ Match text (s.take n)) := by
  have hC := C05_strChr m p text 61#8 hp (by decide)
  by_cases h61 : (61#8 : Byte) ∈ text
  · obtain ⟨j, hj, e, hje, hmin⟩ := hC.2 h61
    refine ⟨_, e, ?_, ?_⟩
    · intro hnj
      have hnj : n = j := W_inj (by omega) (by have := hp.fits; omega) hnj
      subst hnj
      obtain ⟨r, h1, h2⟩ := C04_strNcmp m p name n hn'
      refine ⟨r, h1, ?_⟩
      rw [C04_bytesN_str _ _ _ hp, C04_bytesN_str _ _ _ hn] at h2
      rw [← signOf_eq_iff, h2, lexCmp_eq_iff]
      constructor
      · intro he
        rw [← he]
        refine ⟨?_, text.drop (n + 1), ?_⟩
        · intro hm
          obtain ⟨i, hi, hie⟩ := List.getElem_of_mem hm
          rw [List.getElem_take] at hie
          exact hmin i (by simp at hi; omega) hie
        · rw [← hje, ← List.drop_eq_getElem_cons hj, List.take_append_drop]
      · rintro ⟨h3, v, h4⟩
        rw [h4, List.take_append_of_le_length (by simp; omega)]
        rw [List.take_of_length_le (by simp; omega)]
    · rintro hnj ⟨h3, v, h4⟩
      apply hnj
      congr 1
      have hl : (s.take n).length = n := by simp; omega
      rcases Nat.lt_trichotomy n j with hlt | heq | hgt
      · exfalso
        apply hmin n hlt
        simp only [h4]
        rw [List.getElem_append_right (by omega)]
        simp [hl]
      · exact heq
      · exfalso
        apply h3
        rw [← hje]
        simp only [h4]
        rw [List.getElem_append_left (by omega)]
        exact List.getElem_mem _
  · refine ⟨_, hC.1 h61, ?_, ?_⟩
    · intro e
      exfalso
      have := W_inj (show n < 65536 by omega) (show 65535 < 65536 by omega) e
      omega
    · rintro _ ⟨_, v, h4⟩
      apply h61; rw [h4]; simp

/-- The search: the first entry with the name, or the number of entries. -/
theorem envIndexLoop_spec {m : Mem} {a : Nat} {vars : List Var} {name : Word} {s : List Byte} {n : Nat}
    (hz : ∀ v ∈ vars, W v.addr ≠ 0) (hA : Arr m a (vars.map fun v => W v.addr)) (hS : Strs m vars)
    (hn : IsStr m name s) (hlen : n ≤ s.length) (hn' : n < 32768) : ∀ (d i : Nat), i + d = vars.length →
    ∃ j, i ≤ j ∧ j ≤ vars.length ∧ envIndexLoop m (W a) name (W n) (W i) = some (W j) ∧
      (∀ l (hl : l < vars.length), i ≤ l → l < j → ¬ Match vars[l].text (s.take n)) ∧
      (∀ hj : j < vars.length, Match vars[j].text (s.take n)) := by
  intro d
  induction d with
  | zero =>
    intro i hi
    have hi : i = vars.length := by omega
    subst hi
    refine ⟨vars.length, le_refl _, le_refl _, ?_, by intros; omega, by intros; omega⟩
    rw [envIndexLoop, elem_W, hA _ (by simp)]
    simp
  | succ d ih =>
    intro i hi
    have hil : i < vars.length := by omega
    have he : elem m (W a) (W i) = W vars[i].addr := by
      rw [elem_W, hA _ (by simp; omega)]
      simp [hil]
    rw [envIndexLoop, he, if_pos (hz _ (List.getElem_mem hil))]
    obtain ⟨l, h1, h2, h3⟩ := match_step (hS _ (List.getElem_mem hil)).1 hn hlen hn'
    rw [h1]
    simp only
    obtain ⟨j, g1, g2, g3, g4, g5⟩ := ih (i + 1) (by omega)
    have next : ¬ Match vars[i].text (s.take n) →
        ∀ l (hl : l < vars.length), i ≤ l → l < j → ¬ Match vars[l].text (s.take n) := by
      intro hm l hl h4 h5
      rcases Nat.eq_or_lt_of_le h4 with rfl | h4
      · exact hm
      · exact g4 l hl h4 h5
    by_cases hw : W n = l
    · rw [if_pos hw]
      obtain ⟨r, h4, h5⟩ := h2 hw
      rw [h4]
      simp only
      by_cases hr : r = 0
      · rw [if_pos hr]
        exact ⟨i, le_refl _, by omega, rfl, by intros; omega, fun _ => h5.1 hr⟩
      · rw [if_neg hr, W_one]
        exact ⟨j, by omega, g2, g3, next (fun hm => hr (h5.2 hm)), g5⟩
    · rw [if_neg hw, W_one]
      exact ⟨j, by omega, g2, g3, next (h3 hw), g5⟩

/-! ### Loops over the array -/

theorem countLoop_spec {m : Mem} {a : Nat} {ws : List Word} (hA : Arr m a ws) (hz : ∀ w ∈ ws, w ≠ 0) :
    ∀ d i, i + d = ws.length → countLoop m (W a) (W i) = some (W ws.length) := by
  intro d
  induction d with
  | zero =>
    intro i hi
    have hi : i = ws.length := by omega
    subst hi
    rw [countLoop, elem_W, hA _ (by omega)]
    simp
  | succ d ih =>
    intro i hi
    have hil : i < ws.length := by omega
    rw [countLoop, elem_W, hA _ (by omega)]
    simp only [hil, List.getElem?_eq_getElem, Option.getD_some]
    rw [if_pos (hz _ (List.getElem_mem hil)), W_one]
    exact ih (i + 1) (by omega)

theorem copyLoop_spec {a b : Nat} {ws : List Word} (hz : ∀ w ∈ ws, w ≠ 0) (ha : a + 2 * (ws.length + 1) ≤ 65536)
    (hb : b + 2 * (ws.length + 1) ≤ 65536) (hd : a + 2 * (ws.length + 1) ≤ b ∨ b + 2 * (ws.length + 1) ≤ a) :
    ∀ d i m, i + d = ws.length → Arr m a ws → (∀ j, j < i → ld m (b + 2 * j) = ws[j]?.getD 0) →
    ∃ m', copyLoop (W a) (W b) m (W i) = some (m', W ws.length) ∧ Only m m' b (2 * ws.length) ∧
      Arr m' a ws ∧ (∀ j, j < ws.length → ld m' (b + 2 * j) = ws[j]?.getD 0) := by
  intro d
  induction d with
  | zero =>
    intro i m hi hA hB
    have hi : i = ws.length := by omega
    subst hi
    refine ⟨m, ?_, Only.refl _ _ _, hA, hB⟩
    rw [copyLoop, elem_W, hA _ (by omega)]
    simp
  | succ d ih =>
    intro i m hi hA hB
    have hil : i < ws.length := by omega
    rw [copyLoop, elem_W, hA _ (by omega)]
    simp only [hil, List.getElem?_eq_getElem, Option.getD_some]
    rw [if_pos (hz _ (List.getElem_mem hil)), W_one, W_elem]
    have ho : Only m (m.sw (W (b + 2 * i)) ws[i]) (b + 2 * i) 2 := Only.sw _ _ (by omega)
    obtain ⟨m', h1, h2, h3, h4⟩ := ih (i + 1) (m.sw (W (b + 2 * i)) ws[i]) (by omega) (by
        apply hA.keep
        intro x hx1 hx2
        exact ho x (by omega) (by omega)) (by
        intro j hj
        rcases Nat.eq_or_lt_of_le (Nat.le_of_lt_succ hj) with rfl | hj
        · rw [ld_sw_same]; simp [hil]
        · rw [ho.ld (by omega) (by omega)]; exact hB j hj)
    exact ⟨m', h1, (ho.mono (by omega) (by omega)).trans h2, h3, h4⟩

/-- The elements after position `i` move down by one. -/
theorem closeLoop_spec {a : Nat} {ws : List Word} (hz : ∀ w ∈ ws, w ≠ 0) (ha : a + 2 * (ws.length + 1) ≤ 65536) {k : Nat} :
    ∀ d i m, i + d = ws.length → k ≤ i →
    (∀ j, i ≤ j → j ≤ ws.length → ld m (a + 2 * j) = ws[j]?.getD 0) →
    (∀ j, j < i → ld m (a + 2 * j) = (ws.eraseIdx k)[j]?.getD 0) →
    ∃ m', closeLoop (W a) m (W i) = some m' ∧ Only m m' a (2 * ws.length) ∧
      (∀ j, j < ws.length → ld m' (a + 2 * j) = (ws.eraseIdx k)[j]?.getD 0) := by
  intro d
  induction d with
  | zero =>
    intro i m hi hk hA hB
    have hi : i = ws.length := by omega
    subst hi
    refine ⟨m, ?_, Only.refl _ _ _, hB⟩
    rw [closeLoop, elem_W, hA _ (by omega) (by omega)]
    simp
  | succ d ih =>
    intro i m hi hk hA hB
    have hil : i < ws.length := by omega
    rw [closeLoop, elem_W, hA _ (by omega) (by omega)]
    have hne : ws[i]?.getD 0 ≠ 0 := by
      simp only [hil, List.getElem?_eq_getElem, Option.getD_some]
      exact hz _ (List.getElem_mem hil)
    rw [if_pos hne, W_one, W_elem, elem_W, hA (i + 1) (by omega) (by omega)]
    have ho : ∀ v, Only m (m.sw (W (a + 2 * i)) v) (a + 2 * i) 2 := fun v => Only.sw _ _ (by omega)
    obtain ⟨m', h1, h2, h3⟩ := ih (i + 1) (m.sw (W (a + 2 * i)) (ws[i + 1]?.getD 0)) (by omega) (by omega) (by
        intro j hj1 hj2
        rw [(ho _).ld (by omega) (by omega)]; exact hA j (by omega) hj2) (by
        intro j hj
        rcases Nat.eq_or_lt_of_le (Nat.le_of_lt_succ hj) with rfl | hj
        · rw [ld_sw_same, List.getElem?_eraseIdx_of_ge hk]
        · rw [(ho _).ld (by omega) (by omega)]; exact hB j hj)
    exact ⟨m', h1, ((ho _).mono (by omega) (by omega)).trans h2, h3⟩

end Cmm.Environ
