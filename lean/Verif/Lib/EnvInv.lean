import Verif.Lib.EnvLemmas

/- The invariant of the environment and what the public functions do to it. -/
namespace Cmm.Environ
open Cmm.Crt0 Cmm.Err Cmm.Heap Cmm.Str

variable {c : Cfg} {m0 : Mem} {k : Cst}

theorem HP.ne_zero {h : St} {blks : List (Nat × Nat)} (hp : HP c m0 k h blks) {a : Nat × Nat} (ha : a ∈ blks) :
    W a.1 ≠ 0 := by
  have := hp.bounds ha
  have := c.hi_le
  have := c.lo_ge
  intro e
  have := W_inj (by omega) (show 0 < 65536 by omega) e
  omega

theorem HP.inBlk {h : St} {blks : List (Nat × Nat)} (hp : HP c m0 k h blks) {a : Nat × Nat} (ha : a ∈ blks) {x : Nat}
    (h1 : a.1 ≤ x) (h2 : x < a.1 + a.2) : Owned c blks x := by
  have := hp.bounds ha
  have := c.hi_le
  exact ⟨by omega, Or.inl ⟨a, ha, h1, h2⟩⟩

theorem Strs.owned {h : St} {blks : List (Nat × Nat)} {vars : List Var} {m' : Mem} (hS : Strs h.mem vars)
    (hp : HP c m0 k h blks) (hv : ∀ v ∈ vars, v.blk ∈ blks) (he : ∀ x, Owned c blks x → m' (W x) = h.mem (W x)) :
    Strs m' vars :=
  hS.keep fun v hvm _ h1 h2 => he _ (hp.inBlk (hv v hvm) h1 h2)

theorem Arr.owned {h : St} {blks : List (Nat × Nat)} {a s : Nat} {ws : List Word} {m' : Mem} (hA : Arr h.mem a ws)
    (hp : HP c m0 k h blks) (ha : (a, s) ∈ blks) (hs : 2 * (ws.length + 1) ≤ s)
    (he : ∀ x, Owned c blks x → m' (W x) = h.mem (W x)) : Arr m' a ws :=
  hA.keep fun _ h1 h2 => he _ (hp.inBlk ha h1 (by simp only; omega))

/-- A string of the client or of another block is apart from the first block. -/
theorem HP.apartStr {h : St} {b : Nat × Nat} {blks : List (Nat × Nat)} (hp : HP c m0 k h (b :: blks)) {m : Mem} {q : Word}
    {t : List Byte} (hq : CStr c blks m q t) : Apart (W b.1) b.2 q (t.length + 1) := by
  intro i j hi hj e
  have h1 := hp.notIn (hq.2 j (by omega))
  have h2 := hp.bounds (a := b) (by simp)
  have h3 := c.hi_le
  rw [← e, off_W, W_toNat (by omega)] at h1
  omega

theorem HP.eqC {h : St} {blks : List (Nat × Nat)} (hp : HP c m0 k h blks) (l : List (Nat × Nat)) :
    CStr c l h.mem k.eq [61#8] := by
  refine ⟨hp.eqs, fun i hi => hp.eq_owned l ?_⟩
  have : i = 0 ∨ i = 1 := by simp at hi; omega
  rcases this with rfl | rfl
  · left; simp
  · right; rfl

theorem bnd_ok {α β : Type} (a : α) (f : α → Res β) : bnd (some (.ok a)) f = f a := rfl
theorem bnd_err {α β : Type} (e : Word) (f : α → Res β) : bnd (some (.error e)) f = some (.error e) := rfl
theorem lift_some {α : Type} (a : α) : lift (some a) = some (.ok a) := rfl

/-- makeEnvStr builds "name=value" in a new block. -/
theorem makeEnvStr_spec {h : St} {blks : List (Nat × Nat)} (hp : HP c m0 k h blks) (sp : Word) {name value : Word}
    {s v : List Byte} {n : Nat} (hn : CStr c blks h.mem name s) (hv : CStr c blks h.mem value v) (hns : n ≤ s.length)
    (hn' : n + 1 < 32768) (hsz : n + v.length + 2 ≤ 65530) :
    (makeEnvStr k sp h name (W n) value = some (.error EUNOMEM) ∧ Fails c sp h.mem (n + v.length + 14)) ∨
    ∃ p h', makeEnvStr k sp h name (W n) value = some (.ok (W p, h')) ∧
      HP c m0 k h' ((p, n + v.length + 2) :: blks) ∧ IsStr h'.mem (W p) (s.take n ++ 61#8 :: v) ∧
      (∀ x, Owned c blks x → h'.mem (W x) = h.mem (W x)) ∧ Leaves c h.mem h'.mem (n + v.length + 14) := by
  unfold makeEnvStr
  rw [strLen_eq hv.1, lift_some, bnd_ok]
  have hsize : W n + 1 + BitVec.ofNat 16 v.length + 1 = W (n + v.length + 2) := by
    rw [W_one, show W (n + 1) + BitVec.ofNat 16 v.length = W (n + 1 + v.length) from W_add _ _, W_one]
    congr 1; omega
  rw [hsize]
  rcases hp.malloc sp hsz with ⟨he, hF⟩ | ⟨p, h1, he, hp1, hf1, hL1⟩
  · rw [he]; exact Or.inl ⟨rfl, hF⟩
  · right
    rw [he, bnd_ok]
    simp only
    have hb := hp1.bounds (a := (p, n + v.length + 2)) (by simp)
    have hhi := c.hi_le
    simp only at hb
    have frame : ∀ {m m' : Mem}, Only m m' p (n + v.length + 2) →
        ∀ x, Owned c blks x → m' (W x) = m (W x) := by
      intro m m' ho x hx
      have := hp1.notIn hx
      exact ho x hx.1 (by simpa using this)
    -- strNcpy
    have hn1 := hn.keep hf1
    have hl : (s.take n).length = n := by simp; omega
    have hap1 : Apart (W p) (n + 1) name (s.length + 1) := by
      intro i j hi hj
      exact hp1.apartStr hn1 i j (by simp only; omega) (by omega)
    obtain ⟨m1, e1, g1, _, g2⟩ := C03_strNcpy h1.mem (W p) name s (n + 1) (by omega) hn' hn1.1 hap1
    simp only [Nat.add_sub_cancel] at g1
    have o1 : Only h1.mem m1 p (n + v.length + 2) := (Only.of_same (by omega) g2).mono (by omega) (by omega)
    rw [W_one, e1, lift_some, bnd_ok]
    simp only
    -- strCat "="
    have hp2 := hp1.writeBlk (m' := m1) o1
    have q2 := hp2.eqC blks
    obtain ⟨m2, e2, g3, g4⟩ := C02_strCat m1 (W p) k.eq (s.take n) [61#8] g1 q2.1 (by simp; omega) (by
      rw [hl]
      intro i j hi hj
      rw [off_off]
      simp at hi
      exact hp2.apartStr q2 (n + i) j (by simp only; omega) hj)
    rw [hl, off_W] at g4
    have o2 : Only m1 m2 p (n + v.length + 2) := (Only.of_same (by simp; omega) g4).mono (by omega) (by simp; omega)
    rw [e2, lift_some, bnd_ok]
    simp only
    -- strCat value
    have hp3 := hp2.writeBlk (m' := m2) o2
    have hv3 := hv.keep (fun x hx => (frame o2 x hx).trans ((frame o1 x hx).trans (hf1 x hx)))
    have hl2 : (s.take n ++ [61#8]).length = n + 1 := by simp; omega
    obtain ⟨m3, e3, g5, g6⟩ := C02_strCat m2 (W p) value (s.take n ++ [61#8]) v g3 hv3.1 (by rw [hl2]; omega) (by
      rw [hl2]
      intro i j hi hj
      rw [off_off]
      exact hp3.apartStr hv3 (n + 1 + i) j (by simp only; omega) hj)
    rw [hl2, off_W] at g6
    have o3 : Only m2 m3 p (n + v.length + 2) := (Only.of_same (by omega) g6).mono (by omega) (by omega)
    rw [e3, lift_some, bnd_ok]
    simp only
    refine ⟨p, _, rfl, hp3.writeBlk o3, ?_, ?_,
      ((hL1.trans (hp1.writeBlk_room o1)).trans (hp2.writeBlk_room o2)).trans (hp3.writeBlk_room o3)⟩
    · simpa using g5
    · intro x hx
      exact (frame o3 x hx).trans ((frame o2 x hx).trans ((frame o1 x hx).trans (hf1 x hx)))

/-- The addresses of the entries. -/
def ptrs (vars : List Var) : List Word := vars.map fun v => W v.addr

@[simp] theorem ptrs_length (vars : List Var) : (ptrs vars).length = vars.length := by simp [ptrs]

/-- The invariant: the array of `cap` elements at `a`, the entries `vars`, and blocks of the client. -/
structure InvAt (c : Cfg) (m0 : Mem) (k : Cst) (e : ESt) (client : List (Nat × Nat)) (vars : List Var) (a cap : Nat) : Prop where
  env : e.environ = W a
  capE : e.capacity = W cap
  room : vars.length + 1 ≤ cap
  hp : HP c m0 k e.heap ((a, 2 * cap) :: (vars.map Var.blk ++ client))
  arr : Arr e.mem a (ptrs vars)
  strs : Strs e.mem vars

def Inv (c : Cfg) (m0 : Mem) (k : Cst) (e : ESt) (client : List (Nat × Nat)) (vars : List Var) : Prop :=
  ∃ a cap, InvAt c m0 k e client vars a cap

variable {e : ESt} {client : List (Nat × Nat)} {vars : List Var} {a cap : Nat}

theorem InvAt.nz (hi : InvAt c m0 k e client vars a cap) : ∀ w ∈ ptrs vars, w ≠ 0 := by
  intro w hw
  obtain ⟨v, hv, rfl⟩ := List.mem_map.1 hw
  exact hi.hp.ne_zero (a := v.blk) (by simp; right; left; exact ⟨v, hv, rfl⟩)

theorem InvAt.bound (hi : InvAt c m0 k e client vars a cap) : 12 ≤ a ∧ a + 2 * cap < 65536 := by
  have := hi.hp.bounds (a := (a, 2 * cap)) (by simp)
  have := c.hi_le
  have := c.lo_ge
  simp only at *
  omega

/-- The result of the search of a name. -/
structure Found (vars : List Var) (key : List Byte) (j : Nat) : Prop where
  le : j ≤ vars.length
  before : ∀ l (hl : l < vars.length), l < j → ¬ Match vars[l].text key
  here : ∀ hj : j < vars.length, Match vars[j].text key

theorem InvAt.index (hi : InvAt c m0 k e client vars a cap) {name : Word} {s : List Byte} {n : Nat}
    (hn : IsStr e.mem name s) (hns : n ≤ s.length) (hn' : n < 32768) :
    ∃ j, envIndex e name (W n) = some (W j) ∧ Found vars (s.take n) j := by
  have := envIndexLoop_spec (fun v hv => hi.nz _ (List.mem_map_of_mem hv)) hi.arr hi.strs hn hns hn' vars.length 0 (by omega)
  obtain ⟨j, _, h2, h3, h4, h5⟩ := this
  refine ⟨j, ?_, h2, fun l hl hlj => h4 l hl (by omega) hlj, h5⟩
  rw [envIndex, hi.env]
  exact h3

theorem InvAt.elem (hi : InvAt c m0 k e client vars a cap) {j : Nat} (hj : j ≤ vars.length) :
    elem e.mem e.environ (W j) = (ptrs vars)[j]?.getD 0 := by
  rw [hi.env, elem_W, hi.arr j (by simpa using hj)]

theorem InvAt.elem_lt (hi : InvAt c m0 k e client vars a cap) {j : Nat} (hj : j < vars.length) :
    Environ.elem e.mem e.environ (W j) = W vars[j].addr ∧ Environ.elem e.mem e.environ (W j) ≠ 0 := by
  have h1 := hi.elem (Nat.le_of_lt hj)
  have h2 : (ptrs vars)[j]?.getD 0 = W vars[j].addr := by simp [ptrs, hj]
  refine ⟨h1.trans h2, ?_⟩
  rw [h1, h2]
  exact hi.nz _ (List.mem_map_of_mem (List.getElem_mem hj))

theorem InvAt.elem_end (hi : InvAt c m0 k e client vars a cap) : Environ.elem e.mem e.environ (W vars.length) = 0 := by
  rw [hi.elem (le_refl _)]; simp [ptrs]

/-- getEnv returns the value of the first entry with the name, or null. -/
theorem getEnv_spec (hi : InvAt c m0 k e client vars a cap) {name : Word} {s : List Byte} (hn : IsStr e.mem name s)
    (hn' : s.length < 32768) : ∃ j, Found vars s j ∧
      ((j = vars.length ∧ getEnv e name = some 0) ∨
       ∃ v, ∃ hj : j < vars.length, vars[j].text = s ++ 61#8 :: v ∧ getEnv e name = some (W (vars[j].addr + (s.length + 1))) ∧
         W (vars[j].addr + (s.length + 1)) ≠ 0 ∧ IsStr e.mem (W (vars[j].addr + (s.length + 1))) v) := by
  obtain ⟨j, h1, h2⟩ := hi.index hn (le_refl _) hn'
  rw [List.take_length] at h2
  refine ⟨j, h2, ?_⟩
  have hg : getEnv e name = if Environ.elem e.mem e.environ (W j) = 0 then some 0
      else some (addrAdd (Environ.elem e.mem e.environ (W j)) (W s.length + 1)) := by
    unfold getEnv
    rw [strLen_eq hn]
    simp only [Option.bind_eq_bind, Option.bind_some]
    rw [h1]
    simp only [Option.bind_some]
  rw [hg]
  by_cases hj : j < vars.length
  · right
    obtain ⟨h3, h4⟩ := hi.elem_lt hj
    obtain ⟨_, v, hv⟩ := h2.here hj
    refine ⟨v, hj, hv, ?_, ?_, ?_⟩
    · rw [if_neg h4, h3, W_one, addrAdd_W]
    · have hb := hi.hp.bounds (a := vars[j].blk) (by simp; right; left; exact ⟨_, List.getElem_mem hj, rfl⟩)
      have hs := (hi.strs _ (List.getElem_mem hj)).2
      have hl : vars[j].text.length = s.length + (v.length + 1) := by rw [hv]; simp
      have := c.hi_le
      have := c.lo_ge
      simp only [Var.blk] at hb
      intro e0
      have := W_inj (by omega) (show 0 < 65536 by omega) e0
      omega
    · have hs := (hi.strs _ (List.getElem_mem hj)).1
      rw [hv] at hs
      have hfit := hs.fits
      simp at hfit
      refine ⟨?_, ?_, ?_, by omega⟩
      · intro i hi'
        rw [off_W, Nat.add_assoc, ← off_W, hs.get (by simp; omega)]
        rw [List.getElem_append_right (by omega)]
        simp [show s.length + 1 + i - s.length = i + 1 by omega]
      · intro b hb
        exact hs.nz b (by simp [hb])
      · have := hs.nul
        rw [off_W] at this ⊢
        rw [← this]
        congr 2
        simp; omega
  · left
    have : j = vars.length := by have := h2.le; omega
    subst this
    exact ⟨rfl, by rw [if_pos hi.elem_end]⟩

/-- No byte of the client has changed. -/
def Frame (c : Cfg) (client : List (Nat × Nat)) (m m' : Mem) : Prop := ∀ x, Owned c client x → m' (W x) = m (W x)

theorem Frame.trans {m1 m2 m3 : Mem} (h : Frame c client m1 m2) (h' : Frame c client m2 m3) : Frame c client m1 m3 :=
  fun x hx => (h' x hx).trans (h x hx)

theorem mem_blk {v : Var} (hv : v ∈ vars) (l : List (Nat × Nat)) : v.blk ∈ vars.map Var.blk ++ l :=
  List.mem_append_left _ (List.mem_map_of_mem hv)

theorem Only.owned {h : St} {b : Nat × Nat} {blks : List (Nat × Nat)} (hp : HP c m0 k h (b :: blks)) {m m' : Mem}
    (ho : Only m m' b.1 b.2) : ∀ x, Owned c blks x → m' (W x) = m (W x) :=
  fun x hx => ho x hx.1 (hp.notIn hx)

/-- reallocEnv moves the array to a new block. -/
theorem reallocEnv_spec (hi : InvAt c m0 k e client vars a cap) (sp : Word) {n : Nat} (hn : vars.length + 1 ≤ n) (hn' : n ≤ 32765) :
    (reallocEnv k sp e (W n) = some (.error EUNOMEM) ∧ Fails c sp e.mem (2 * n + 12)) ∨
    ∃ e' b, reallocEnv k sp e (W n) = some (.ok e') ∧ InvAt c m0 k e' client vars b n ∧ Frame c client e.mem e'.mem ∧
      (e'.errno = e.errno ∧ e'.attr = e.attr) ∧ Leaves c e.mem e'.mem (2 * n + 12) := by
  unfold reallocEnv iMalloc
  rw [W_two]
  rcases hi.hp.malloc sp (siz := 2 * n) (by omega) with ⟨he, hF⟩ | ⟨b, h1, he, hp1, hf1, hL1⟩
  · rw [he]; exact Or.inl ⟨rfl, hF⟩
  · right
    rw [he, bnd_ok]
    simp only
    have hb1 := hp1.bounds (a := (b, 2 * n)) (by simp)
    have hb2 := hi.bound
    have hhi := c.hi_le
    have hap := (List.pairwise_cons.1 hp1.apart).1 (a, 2 * cap) (by simp)
    simp only at hb1 hap
    have hroom := hi.room
    have hA1 : Arr h1.mem a (ptrs vars) := hi.arr.owned hi.hp (s := 2 * cap) (by simp) (by simp; omega) hf1
    obtain ⟨m2, e2, o2, hA2, hB2⟩ := copyLoop_spec (a := a) (b := b) (ws := ptrs vars) hi.nz (by simp; omega) (by simp; omega)
      (by simp; omega) vars.length 0 h1.mem (by simp) hA1 (by intros; omega)
    simp only [ptrs_length] at e2 o2 hB2
    rw [hi.env, show (0 : Word) = W 0 from rfl, e2, lift_some, bnd_ok]
    simp only
    rw [W_elem]
    have o3 : Only m2 (m2.sw (W (b + 2 * vars.length)) 0) (b + 2 * vars.length) 2 := Only.sw _ _ (by omega)
    have o23 : Only h1.mem (m2.sw (W (b + 2 * vars.length)) 0) b (2 * n) :=
      (o2.mono (by omega) (by omega)).trans (o3.mono (by omega) (by omega))
    have hp3 := (hp1.writeBlk (m' := m2.sw (W (b + 2 * vars.length)) 0) o23)
    have hf3 := Only.owned hp1 o23
    have hp4 := hp3.perm (List.Perm.swap _ _ _)
    obtain ⟨h5, e5, hp5, hf5, hL5⟩ := hp4.free
    rw [show ((0 : Word)) = W 0 from rfl] at e5
    simp only at e5
    rw [e5, bnd_ok]
    have hsub : ∀ x, Owned c (vars.map Var.blk ++ client) x →
        Owned c ((a, 2 * cap) :: (vars.map Var.blk ++ client)) x := fun x hx => owned_mono (by intro y hy; simp [hy]) hx
    have hfall : ∀ x, Owned c (vars.map Var.blk ++ client) x → h5.mem (W x) = e.heap.mem (W x) := by
      intro x hx
      have h6 := hsub x hx
      exact (hf5 x (owned_mono (fun y hy => List.mem_cons_of_mem _ (List.mem_cons_of_mem _ hy)) hx)).trans
        ((hf3 x h6).trans (hf1 x h6))
    refine ⟨_, b, rfl, ⟨rfl, rfl, by omega, ?_, ?_, ?_⟩, ?_, ⟨rfl, rfl⟩, (hL1.trans (hp1.writeBlk_room o23)).trans hL5⟩
    · exact hp5
    · -- the new array
      have hA3 : Arr (m2.sw (W (b + 2 * vars.length)) 0) b (ptrs vars) := by
        intro i hi'
        simp at hi'
        rcases Nat.eq_or_lt_of_le hi' with rfl | hlt
        · rw [ld_sw_same]; simp [ptrs]
        · rw [o3.ld (by omega) (by omega)]; exact hB2 i hlt
      exact Arr.owned (h := ⟨_, h1.alc⟩) hA3 hp4 (s := 2 * n) (by simp) (by simp; omega) hf5
    · exact hi.strs.keep fun v hv x h6 h7 => hfall x (by
        have hb := hi.hp.bounds (a := v.blk) (by simp; right; left; exact ⟨_, hv, rfl⟩)
        simp only [Var.blk] at hb
        exact ⟨by omega, Or.inl ⟨v.blk, mem_blk hv _, h6, h7⟩⟩)
    · intro x hx
      exact hfall x (owned_mono (by intro y hy; simp [hy]) hx)

/-- The state between the preparation of element `j` and the store to it. -/
structure Mid (c : Cfg) (m0 : Mem) (k : Cst) (e : ESt) (client : List (Nat × Nat)) (vars : List Var) (j a cap : Nat) : Prop where
  env : e.environ = W a
  capE : e.capacity = W cap
  room : vars.length + 1 ≤ cap ∧ j + 2 ≤ cap
  hp : HP c m0 k e.heap ((a, 2 * cap) :: ((vars.take j ++ vars.drop (j + 1)).map Var.blk ++ client))
  arr : ∀ i, i ≠ j → i ≤ vars.length ∨ i ≤ j + 1 → ld e.mem (a + 2 * i) = (ptrs vars)[i]?.getD 0
  strs : Strs e.mem (vars.take j ++ vars.drop (j + 1))

theorem prepare_spec (hi : InvAt c m0 k e client vars a cap) (sp : Word) {j : Nat} (hj : j ≤ vars.length) :
    (prepare k sp e (W j) = some (.error EUNOMEM) ∧ Fails c sp e.mem (2 * vars.length + 16)) ∨
    ∃ e' a' cap', prepare k sp e (W j) = some (.ok e') ∧ Mid c m0 k e' client vars j a' cap' ∧ Frame c client e.mem e'.mem ∧
      (e'.errno = e.errno ∧ e'.attr = e.attr) ∧ Leaves c e.mem e'.mem (2 * vars.length + 16) := by
  have hb := hi.bound
  have hroom := hi.room
  unfold prepare
  by_cases hjl : j < vars.length
  · -- the entry exists and its string is freed
    right
    obtain ⟨h1, h2⟩ := hi.elem_lt hjl
    rw [if_neg h2, h1]
    have hperm : ((a, 2 * cap) :: (vars.map Var.blk ++ client)).Perm
        (vars[j].blk :: (a, 2 * cap) :: ((vars.take j ++ vars.drop (j + 1)).map Var.blk ++ client)) := by
      have h3 : vars = vars.take j ++ vars[j] :: vars.drop (j + 1) := by
        rw [← List.drop_eq_getElem_cons hjl, List.take_append_drop]
      conv_lhs => rw [h3]
      simp only [List.map_append, List.map_cons, List.append_assoc, List.cons_append]
      exact (List.perm_middle.cons _).trans (List.Perm.swap _ _ _)
    have hp1 := hi.hp.perm hperm
    obtain ⟨h5, e5, hp5, hf5, hL5⟩ := hp1.free
    simp only [Var.blk] at e5
    rw [e5, bnd_ok]
    have hf : ∀ x, Owned c ((a, 2 * cap) :: (vars.map Var.blk ++ client)) x → h5.mem (W x) = e.heap.mem (W x) :=
      fun x hx => hf5 x (owned_perm hperm hx)
    refine ⟨_, a, cap, rfl, ⟨hi.env, hi.capE, ⟨hroom, by omega⟩, hp5, ?_, ?_⟩, ?_, ⟨rfl, rfl⟩, hL5.mono (by omega)⟩
    · intro i _ hi'
      exact (hi.arr.owned hi.hp (s := 2 * cap) (by simp) (by simp; omega) hf) i (by simp; omega)
    · have hs : Strs h5.mem vars := hi.strs.owned hi.hp (fun v hv => List.mem_cons_of_mem _ (mem_blk hv _)) hf
      intro v hv
      apply hs v
      rcases List.mem_append.1 hv with hv | hv
      · exact List.mem_of_mem_take hv
      · exact List.mem_of_mem_drop hv
    · intro x hx
      exact hf x (owned_mono (by intro y hy; simp [hy]) hx)
  · -- a new entry
    have hje : j = vars.length := by omega
    subst hje
    rw [if_pos hi.elem_end]
    have htd : vars.take vars.length ++ vars.drop (vars.length + 1) = vars := by simp
    have fin : ∀ (e1 : ESt) (b n : Nat), InvAt c m0 k e1 client vars b n → vars.length + 2 ≤ n →
        Mid c m0 k (e1.setMem (e1.mem.sw (e1.environ + 2 * (W vars.length + 1)) 0)) client vars vars.length b n ∧
        Frame c client e1.mem (e1.setMem (e1.mem.sw (e1.environ + 2 * (W vars.length + 1)) 0)).mem ∧
        Leaves c e1.mem (e1.setMem (e1.mem.sw (e1.environ + 2 * (W vars.length + 1)) 0)).mem 0 := by
      intro e1 b n h1 h2
      have hb1 := h1.bound
      rw [h1.env, W_one, W_elem]
      have o1 : Only e1.mem (e1.mem.sw (W (b + 2 * (vars.length + 1))) 0) (b + 2 * (vars.length + 1)) 2 := Only.sw _ _ (by omega)
      have o2 : Only e1.heap.mem (e1.mem.sw (W (b + 2 * (vars.length + 1))) 0) b (2 * n) := o1.mono (by omega) (by omega)
      have hf := Only.owned h1.hp o2
      refine ⟨⟨h1.env, h1.capE, ⟨h1.room, h2⟩, ?_, ?_, ?_⟩, ?_, h1.hp.writeBlk_room o2⟩
      · rw [htd]; exact h1.hp.writeBlk o2
      · intro i hne hi'
        show ld (e1.mem.sw (W (b + 2 * (vars.length + 1))) 0) _ = _
        by_cases hl : i = vars.length + 1
        · subst hl
          rw [ld_sw_same]; simp [ptrs]
        · rw [o1.ld (by omega) (by omega)]
          exact h1.arr i (by simp; omega)
      · rw [htd]
        intro v hv
        refine ⟨((h1.strs.keep (m' := e1.mem.sw (W (b + 2 * (vars.length + 1))) 0)) ?_ v hv).1, (h1.strs v hv).2⟩
        intro v hv x h6 h7
        apply hf
        have hb := h1.hp.bounds (a := v.blk) (by simp; right; left; exact ⟨_, hv, rfl⟩)
        have := c.hi_le
        simp only [Var.blk] at hb
        exact ⟨by omega, Or.inl ⟨v.blk, mem_blk hv _, h6, h7⟩⟩
      · intro x hx
        exact hf x (owned_mono (by intro y hy; simp [hy]) hx)
    have hlt : ilt e.capacity (W vars.length + 2) = decide (cap < vars.length + 2) := by
      rw [hi.capE, W_add2]
      exact ilt_ofNat (by omega) (by omega)
    rw [hlt, W_add2]
    by_cases hcap : cap < vars.length + 2
    · simp only [hcap, decide_true, if_true]
      rcases reallocEnv_spec hi sp (n := vars.length + 2) (by omega) (by omega) with ⟨he, hF⟩ | ⟨e1, b, he, h1, hf1, h2, hL1⟩
      · rw [he]; exact Or.inl ⟨rfl, hF.mono (by omega)⟩
      · right
        rw [he, bnd_ok]
        obtain ⟨g1, g2, g3⟩ := fin e1 b _ h1 (le_refl _)
        exact ⟨_, b, _, rfl, g1, hf1.trans g2, h2, (hL1.trans g3).mono (by omega)⟩
    · right
      simp only [hcap, decide_false, Bool.false_eq_true, if_false]
      rw [bnd_ok]
      obtain ⟨g1, g2, g3⟩ := fin e a cap hi (by omega)
      exact ⟨_, a, _, rfl, g1, g2, ⟨rfl, rfl⟩, g3.mono (by omega)⟩

/-- setNEnv replaces the first entry with the name, or appends one. -/
theorem setNEnv_spec (hi : InvAt c m0 k e client vars a cap) (sp : Word) {name value : Word} {s v : List Byte} {n : Nat}
    (hn : CStr c client e.mem name s) (hv : CStr c client e.mem value v) (hnz : name ≠ 0) (hns : n ≤ s.length) (hn0 : 0 < n)
    (hn' : n + 1 < 32768) (hsz : n + v.length + 2 ≤ 65530) (ow : Bool) :
    (setNEnv k sp e name (W n) value ow = some (.error EUNOMEM) ∧
      Fails c sp e.mem (2 * vars.length + n + v.length + 30)) ∨
    ∃ e' vars' j, setNEnv k sp e name (W n) value ow = some (.ok (false, e')) ∧ Inv c m0 k e' client vars' ∧
      Found vars (s.take n) j ∧
      vars'.map Var.text = (vars.map Var.text).take j ++ (s.take n ++ 61#8 :: v) :: (vars.map Var.text).drop (j + 1) ∧
      Frame c client e.mem e'.mem ∧ (e'.errno = e.errno ∧ e'.attr = e.attr) ∧
      Leaves c e.mem e'.mem (2 * vars.length + n + v.length + 30) := by
  unfold setNEnv
  have hcond : ¬ (name = 0 ∨ ile (W n) 0 = true) := by
    rintro (h1 | h1)
    · exact hnz h1
    · have h2 : ile (W n) (W 0) = decide (n ≤ 0) := ile_ofNat (by omega) (by omega)
      rw [show (0 : Word) = W 0 from rfl, h2] at h1
      simp at h1; omega
  rw [if_neg hcond]
  obtain ⟨j, hj1, hj2⟩ := hi.index hn.1 hns (by omega)
  rw [hj1, lift_some, bnd_ok]
  rcases prepare_spec hi sp hj2.le with ⟨he, hF⟩ | ⟨e1, a1, cap1, he, hM, hf1, hr1, hL1⟩
  · rw [he]; exact Or.inl ⟨rfl, hF.mono (by omega)⟩
  · rw [he, bnd_ok]
    have hmono : ∀ y ∈ client, y ∈ (a1, 2 * cap1) :: ((vars.take j ++ vars.drop (j + 1)).map Var.blk ++ client) := by
      intro y hy; simp [hy]
    rcases makeEnvStr_spec hM.hp sp ((hn.keep hf1).mono hmono) ((hv.keep hf1).mono hmono) hns hn' hsz with
      ⟨he2, hF⟩ | ⟨p, h2, he2, hp2, hs2, hf2, hL2⟩
    · rw [he2]; exact Or.inl ⟨rfl, (hL1.fails hF).mono (by omega)⟩
    · right
      rw [he2, bnd_ok]
      simp only
      rw [hM.env, W_elem]
      have hp3 := hp2.perm (List.Perm.swap _ _ _)
      have hb := hp3.bounds (a := (a1, 2 * cap1)) (by simp)
      have hhi := c.hi_le
      have hroom := hM.room
      simp only at hb
      have o1 : Only h2.mem (h2.mem.sw (W (a1 + 2 * j)) (W p)) (a1 + 2 * j) 2 := Only.sw _ _ (by omega)
      have o2 : Only h2.mem (h2.mem.sw (W (a1 + 2 * j)) (W p)) a1 (2 * cap1) := o1.mono (by omega) (by omega)
      have hf3 := Only.owned hp3 o2
      have hp4 := hp3.writeBlk o2
      set nv : Var := ⟨p, n + v.length + 2, s.take n ++ 61#8 :: v⟩ with hnv
      have htext : nv.text.length + 1 ≤ nv.size := by
        simp [hnv]; omega
      refine ⟨_, vars.take j ++ nv :: vars.drop (j + 1), j, rfl, ⟨a1, cap1, ?_, ?_, ?_, ?_, ?_, ?_⟩, hj2, ?_, ?_, hr1,
        ((hL1.trans hL2).trans (hp3.writeBlk_room o2)).mono (by omega)⟩
      · rfl
      · exact hM.capE
      · simp; omega
      · apply hp4.perm
        apply List.Perm.cons
        simp only [List.map_append, List.map_cons, List.append_assoc, List.cons_append]
        exact List.perm_middle.symm
      · intro i hi'
        simp at hi'
        show ld (h2.mem.sw (W (a1 + 2 * j)) (W p)) _ = _
        have hjl := hj2.le
        by_cases hij : i = j
        · subst hij
          rw [ld_sw_same]
          simp only [ptrs, List.map_append, List.map_cons, List.map_take]
          rw [List.getElem?_append_right (by simp; omega)]
          have : i - (List.take i (vars.map fun v => W v.addr)).length = 0 := by simp; omega
          rw [this]; rfl
        · have hl : ld h2.mem (a1 + 2 * i) = ld e1.mem (a1 + 2 * i) := by
            have hib : ∀ x, a1 ≤ x → x < a1 + 2 * cap1 → h2.mem (W x) = e1.heap.mem (W x) := fun x h5 h6 =>
              hf2 x (hM.hp.inBlk (a := (a1, 2 * cap1)) (by simp) h5 h6)
            exact ld_keep (hib _ (by omega) (by omega)) (hib _ (by omega) (by omega))
          rw [o1.ld (by omega) (by omega), hl, hM.arr i hij (by omega)]
          congr 1
          simp only [ptrs, List.map_append, List.map_cons, List.map_take, List.map_drop]
          rcases Nat.lt_or_gt_of_ne hij with hlt | hgt
          · rw [List.getElem?_append_left (by simp; omega), List.getElem?_take_of_lt hlt]
          · rw [List.getElem?_append_right (by simp; omega)]
            have : i - (List.take j (vars.map fun v => W v.addr)).length = (i - j - 1) + 1 := by simp; omega
            rw [this, List.getElem?_cons_succ, List.getElem?_drop]
            congr 1; omega
      · have hs : Strs h2.mem (vars.take j ++ vars.drop (j + 1)) :=
          hM.strs.owned hM.hp (fun v hv => List.mem_cons_of_mem _ (mem_blk hv _)) hf2
        have hs' : Strs h2.mem (nv :: (vars.take j ++ vars.drop (j + 1))) := by
          intro w hw
          rcases List.mem_cons.1 hw with rfl | hw
          · exact ⟨hs2, htext⟩
          · exact hs w hw
        have hs'' : Strs h2.mem (vars.take j ++ nv :: vars.drop (j + 1)) := by
          intro w hw
          apply hs'
          simp at hw ⊢; tauto
        show Strs (h2.mem.sw (W (a1 + 2 * j)) (W p)) _
        apply hs''.keep
        intro w hw x h5 h6
        apply hf3
        have hwb : w.blk ∈ (p, n + v.length + 2) :: ((vars.take j ++ vars.drop (j + 1)).map Var.blk ++ client) := by
          have : w ∈ nv :: (vars.take j ++ vars.drop (j + 1)) := by simp at hw ⊢; tauto
          rcases List.mem_cons.1 this with rfl | hw
          · exact List.mem_cons_self
          · exact List.mem_cons_of_mem _ (mem_blk hw _)
        have := hp4.bounds (List.mem_cons_of_mem _ hwb)
        simp only [Var.blk] at this
        exact ⟨by omega, Or.inl ⟨w.blk, hwb, h5, h6⟩⟩
      · simp [hnv]
      · intro x hx
        show (h2.mem.sw (W (a1 + 2 * j)) (W p)) (W x) = _
        have hx1 := owned_mono hmono hx
        rw [hf3 x (owned_mono (by intro y hy; simp [hy]) hx), hf2 x hx1]
        exact hf1 x hx

/-- unsetEnv removes the first entry with the name. -/
theorem unsetEnv_spec (hi : InvAt c m0 k e client vars a cap) {name : Word} {s : List Byte}
    (hn : IsStr e.mem name s) (hn' : s.length < 32768) :
    ∃ e' vars' j, unsetEnv k e name = some (.ok (false, e')) ∧ Inv c m0 k e' client vars' ∧
      Found vars s j ∧ vars'.map Var.text = (vars.map Var.text).take j ++ (vars.map Var.text).drop (j + 1) ∧
      Frame c client e.mem e'.mem ∧ (e'.errno = e.errno ∧ e'.attr = e.attr) ∧ Leaves c e.mem e'.mem 0 := by
  have hb := hi.bound
  have hroom := hi.room
  unfold unsetEnv
  rw [strLen_eq hn, lift_some, bnd_ok]
  obtain ⟨j, hj1, hj2⟩ := hi.index hn (le_refl _) hn'
  rw [List.take_length] at hj2
  rw [hj1, lift_some, bnd_ok]
  by_cases hjl : j < vars.length
  · obtain ⟨h1, h2⟩ := hi.elem_lt hjl
    rw [if_neg h2, h1]
    have hperm : ((a, 2 * cap) :: (vars.map Var.blk ++ client)).Perm
        (vars[j].blk :: (a, 2 * cap) :: ((vars.take j ++ vars.drop (j + 1)).map Var.blk ++ client)) := by
      have h3 : vars = vars.take j ++ vars[j] :: vars.drop (j + 1) := by
        rw [← List.drop_eq_getElem_cons hjl, List.take_append_drop]
      conv_lhs => rw [h3]
      simp only [List.map_append, List.map_cons, List.append_assoc, List.cons_append]
      exact (List.perm_middle.cons _).trans (List.Perm.swap _ _ _)
    have hp1 := hi.hp.perm hperm
    obtain ⟨h5, e5, hp5, hf5, hL5⟩ := hp1.free
    simp only [Var.blk] at e5
    rw [e5, bnd_ok]
    have hf : ∀ x, Owned c ((a, 2 * cap) :: (vars.map Var.blk ++ client)) x → h5.mem (W x) = e.heap.mem (W x) :=
      fun x hx => hf5 x (owned_perm hperm hx)
    have hA5 : Arr h5.mem a (ptrs vars) := hi.arr.owned hi.hp (s := 2 * cap) (by simp) (by simp; omega) hf
    obtain ⟨m6, e6, o6, hA6⟩ := closeLoop_spec (a := a) (ws := ptrs vars) hi.nz (by simp; omega) (k := j) (vars.length - j) j h5.mem
      (by simp; omega) (le_refl _) (fun i _ h => hA5 i h) (by
        intro i hij
        rw [hA5 i (by simp; omega), List.getElem?_eraseIdx_of_lt hij])
    simp only [ptrs_length] at o6 hA6
    rw [hi.env, e6, lift_some, bnd_ok]
    have o7 : Only h5.mem m6 a (2 * cap) := o6.mono (by omega) (by omega)
    have hf7 := Only.owned hp5 o7
    refine ⟨_, vars.take j ++ vars.drop (j + 1), j, rfl, ⟨a, cap, rfl, hi.capE, ?_, hp5.writeBlk o7, ?_, ?_⟩, hj2, ?_, ?_, ⟨rfl, rfl⟩,
      hL5.trans (hp5.writeBlk_room o7)⟩
    · simp; omega
    · intro i hi'
      simp at hi'
      have := hA6 i (by omega)
      show ld m6 _ = _
      rw [this]
      congr 2
      rw [List.eraseIdx_eq_take_drop_succ]
      simp [ptrs]
    · show Strs m6 _
      have hs : Strs h5.mem vars := hi.strs.owned hi.hp (fun v hv => List.mem_cons_of_mem _ (mem_blk hv _)) hf
      have hs' : Strs h5.mem (vars.take j ++ vars.drop (j + 1)) := by
        intro v hv
        apply hs v
        rcases List.mem_append.1 hv with hv | hv
        · exact List.mem_of_mem_take hv
        · exact List.mem_of_mem_drop hv
      apply hs'.keep
      intro w hw x h6 h7
      apply hf7
      have hwb := mem_blk hw client
      have := hp5.bounds (List.mem_cons_of_mem _ hwb)
      have hhi := c.hi_le
      simp only [Var.blk] at this
      exact ⟨by omega, Or.inl ⟨w.blk, hwb, h6, h7⟩⟩
    · rw [List.map_append, List.map_take, List.map_drop]
    · intro x hx
      show m6 (W x) = _
      rw [hf7 x (owned_mono (by intro y hy; simp [hy]) hx)]
      exact hf x (owned_mono (by intro y hy; simp [hy]) hx)
  · have hje : j = vars.length := by have := hj2.le; omega
    subst hje
    rw [if_pos hi.elem_end]
    exact ⟨e, vars, vars.length, rfl, ⟨a, cap, hi⟩, hj2, by rw [List.take_of_length_le (by simp), List.drop_eq_nil_of_le (by simp), List.append_nil], fun _ _ => rfl, ⟨rfl, rfl⟩, Leaves.refl _⟩

end Cmm.Environ
