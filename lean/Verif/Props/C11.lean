import Verif.Props.C07

/-! C11: calloc. The property is false of the code for 32768 bytes and more. -/
namespace Cmm.Heap
open Cmm.Crt0 Cmm.Err

theorem ilt_W {a b : Nat} (ha : a < 32768) (hb : b < 32768) : ilt (W a) (W b) = decide (a < b) := by
  unfold ilt
  rw [BitVec.slt_eq_decide, BitVec.toInt_eq_toNat_of_lt (by rw [W_toNat (by omega)]; omega),
    BitVec.toInt_eq_toNat_of_lt (by rw [W_toNat (by omega)]; omega),
    W_toNat (by omega), W_toNat (by omega)]
  simp

theorem callocLoop_spec (a n : Nat) (hn : n < 32768) (han : a + n ≤ 65536) (r : Nat) :
    ∀ (k : Nat) (m : Mem), k + r = n → ∃ m', callocLoop (W a) (W n) m (W k) = some m' ∧
      (∀ j, k ≤ j → j < n → m' (W (a + j)) = 0) ∧
      (∀ x < 65536, x < a + k ∨ a + n ≤ x → m' (W x) = m (W x)) := by
  induction r with
  | zero =>
    intro k m hk
    rw [callocLoop, ilt_W (by omega) hn, decide_eq_false (by omega)]
    exact ⟨m, rfl, fun j h1 h2 => by omega, fun _ _ _ => rfl⟩
  | succ r ih =>
    intro k m hk
    rw [callocLoop, ilt_W (by omega) hn, decide_eq_true (by omega)]
    simp only [if_true, W_add, show W k + 1 = W (k + 1) from W_add k 1]
    obtain ⟨m', h1, h2, h3⟩ := ih (k + 1) (m.set (W (a + k)) 0#8) (by omega)
    refine ⟨m', h1, fun j hj1 hj2 => ?_, fun x hx hx2 => ?_⟩
    · by_cases e : j = k
      · subst e
        rw [h3 _ (by omega) (by omega), Mem.set_same]; rfl
      · exact h2 j (by omega) hj2
    · rw [h3 x hx (by omega), Mem.set_ne]
      intro e
      have := W_inj hx (by omega) e; omega

/-- For less than 32768 bytes: calloc ends the program with EUNOMEM, or returns a block of
`n * s` zero bytes inside the heap and apart from all live blocks, and changes no byte owned
by the client. -/
theorem C11_calloc_partial (c : Cfg) (m0 : Mem) (hz : c.lo + 4 ≤ c.hi)
    (h0 : ld m0 (c.pool + 2) = 0) {st : St} {live} (h : Hist c m0 st live) (sp : Word)
    {n s : Nat} (hs : n * s < 32768) :
    calloc (W c.pool) sp st (W n) (W s) = some (.error EUNOMEM) ∨
    ∃ p st', calloc (W c.pool) sp st (W n) (W s) = some (.ok (W p, st')) ∧
      (∀ j < n * s, st'.mem (W (p + j)) = 0) ∧
      c.lo + 4 ≤ p ∧ p + n * s ≤ c.hi ∧ (∀ a ∈ live, p + n * s ≤ a.1 ∨ a.1 + a.2 ≤ p) ∧
      (∀ x, Owned c live x → st'.mem (W x) = st.mem (W x)) ∧
      Hist c m0 st' ((p, n * s) :: live) := by
  have hm : W n * W s = W (n * s) := by
    apply BitVec.eq_of_toNat_eq; simp [BitVec.toNat_mul, Nat.mul_mod]
  unfold calloc
  rw [hm]
  rcases C07_malloc c m0 hz h0 h sp (siz := n * s) (by omega) with h1 | ⟨p, st1, h1, hown⟩
  · left; rw [h1]
  · right
    have hh := h.malloc (by omega) h1
    have h2 := C07_live c m0 hz h0 hh
    have h3 := h2.1 _ List.mem_cons_self
    have h4 := (List.pairwise_cons.1 h2.2).1
    have hp : W p.toNat = p := BitVec.eq_of_toNat_eq (W_toNat p.isLt)
    have hhi := c.hi_le
    have hpl := c.pool_lo
    simp only at h3
    obtain ⟨m', e1, e2, e3⟩ := callocLoop_spec p.toNat (n * s) hs (by omega) (n * s) 0 st1.mem (by omega)
    rw [hp] at e1
    refine ⟨p.toNat, ⟨m', st1.alc⟩, ?_, fun j hj => e2 j (by omega) hj, h3.1, h3.2.1, ?_, ?_, ?_⟩
    · rw [h1]; simp only [hp]
      rw [show (0 : Word) = W 0 from rfl, e1]
    · intro a ha
      have := h4 a ha; simp only at this; omega
    · intro x hx
      have hx2 := hx.1
      refine (e3 x hx2 ?_).trans (hown x hx)
      rcases hx.2 with ⟨a, ha, h5, h6⟩ | h5
      · have := h4 a ha; simp only at this; omega
      · omega
    · -- the clearing loop is a sequence of client writes
      have key : ∀ r k (m : Mem) m'', k + r = n * s →
          Hist c m0 ⟨m, st1.alc⟩ ((p.toNat, n * s) :: live) →
          callocLoop p (W (n * s)) m (W k) = some m'' →
          Hist c m0 ⟨m'', st1.alc⟩ ((p.toNat, n * s) :: live) := by
        intro r
        induction r with
        | zero =>
          intro k m m'' hk hm hl
          rw [callocLoop, ilt_W (by omega) hs, decide_eq_false (by omega)] at hl
          have : m = m'' := by simpa using hl
          exact this ▸ hm
        | succ r ih =>
          intro k m m'' hk hm hl
          rw [callocLoop, ilt_W (by omega) hs, decide_eq_true (by omega)] at hl
          simp only [if_true, show W k + 1 = W (k + 1) from W_add k 1] at hl
          refine ih (k + 1) _ m'' (by omega) ?_ hl
          have : p + W k = W (p.toNat + k) := by rw [← hp, W_add]; simp only [hp]
          rw [this]
          exact Hist.poke (x := p.toNat + k) hm ⟨by omega, Or.inl ⟨_, List.mem_cons_self, by simp only; omega, by simp only; omega⟩⟩
      exact key (n * s) 0 st1.mem m' (by omega) hh e1

/-- From 32768 bytes on nothing is cleared. -/
theorem C11_not_cleared (pool sp : Word) (st : St) (n s : Word) (h : 32768 ≤ (n * s).toNat) :
    calloc pool sp st n s = malloc pool sp st (n * s) := by
  unfold calloc
  cases malloc pool sp st (n * s) with
  | none => rfl
  | some r =>
    cases r with
    | error e => rfl
    | ok r =>
      obtain ⟨a, st'⟩ := r
      have : ilt 0 (n * s) = false := by
        unfold ilt
        rw [BitVec.slt_eq_decide, BitVec.toInt_eq_toNat_cond (x := n * s), if_neg (by omega)]
        have := (n * s).isLt
        simp only [decide_eq_false_iff_not, show (0 : Word).toInt = 0 from rfl]
        omega
      simp only
      rw [callocLoop, this]
      rfl

/-- The property as stated is false: calloc(1, 40000) on a fresh heap in memory full of ones
returns a block with a byte that is not zero. -/
theorem C11_false : ∃ (c : Cfg) (m0 : Mem) (st st' : St) (sp : Word) (p : Nat),
    Hist c m0 st [] ∧ calloc (W c.pool) sp st (W 1) (W 40000) = some (.ok (W p, st')) ∧
    st'.mem (W (p + 20000)) = 1 := by
  let m0 : Mem := fun x => if x = W 0x102 ∨ x = W 0x103 then 0 else 1
  have h0 : ld m0 (exCfg.pool + 2) = 0 := by decide +kernel
  have hr := Rep.init exCfg m0 (by decide) h0
  have hsz := hr.sizes _ List.mem_cons_self
  have hnx : next (init (W exCfg.pool) (W exCfg.lo) (W exCfg.hi) m0).mem (W exCfg.pool) = W exCfg.lo :=
    hr.walk.1
  have hloop : mallocLoop (init (W exCfg.pool) (W exCfg.lo) (W exCfg.hi) m0).mem (W 40004)
      (W exCfg.pool) (W exCfg.lo) = some (.ok (W exCfg.pool, W exCfg.lo)) := by
    rw [mallocLoop, size_eq, hsz]
    rfl
  have hrs : roundSize (W 1 * W 40000) = W 40004 := by decide
  have hmal : ∃ st', malloc (W exCfg.pool) 0xF000#16 (init (W exCfg.pool) (W exCfg.lo) (W exCfg.hi) m0)
      (W 1 * W 40000) = some (.ok (W (exCfg.lo + 4), st')) ∧ st'.mem (W (exCfg.lo + 4 + 20000)) = 1 := by
    unfold malloc
    simp only [hrs, hnx, hloop]
    have e1 : ile (uCmp (size (init (W exCfg.pool) (W exCfg.lo) (W exCfg.hi) m0).mem (W exCfg.lo))
        (W 40004 + MBSIZE + 2)) 0 = false := by
      rw [size_eq, hsz]; rfl
    have e2 : ¬ W 40004 = size (init (W exCfg.pool) (W exCfg.lo) (W exCfg.hi) m0).mem (W exCfg.lo) := by
      rw [size_eq, hsz]; decide
    have e3 : ile 0 (uCmp (addrAdd (W exCfg.lo) (W 40004)) (0xF000#16 - 10)) = false := by rfl
    simp only [e1, e2, Bool.false_and, Bool.false_eq_true, if_false, e3]
    refine ⟨_, rfl, ?_⟩
    simp only [setNext_eq, setSize_eq, addrAdd_W]
    unfold exCfg init
    simp only [setNext_eq, setSize_eq]
    rw [sw_frame _ _ (by decide) (by decide) (by decide), sw_frame _ _ (by decide) (by decide) (by decide),
      sw_frame _ _ (by decide) (by decide) (by decide), sw_frame _ _ (by decide) (by decide) (by decide),
      sw_frame _ _ (by decide) (by decide) (by decide)]
    simp only [next_eq, ld_sw_same, setSize_eq]
    rw [ld_sw_ne _ _ (by decide) (by decide) (by decide), ld_sw_same, setNext_eq]
    rw [sw_frame _ _ (by decide) (by decide) (by decide), sw_frame _ _ (by decide) (by decide) (by decide),
      sw_frame _ _ (by decide) (by decide) (by decide)]
    decide +kernel
  obtain ⟨st', h1, h2⟩ := hmal
  refine ⟨exCfg, m0, _, st', 0xF000#16, exCfg.lo + 4, Hist.init, ?_, h2⟩
  rw [C11_not_cleared _ _ _ _ _ (by decide)]
  exact h1

/-- The product wraps: 256 * 256 elements get a block of 0 bytes. -/
theorem C11_product_wraps (pool sp : Word) (st : St) :
    calloc pool sp st 256 256 = malloc pool sp st 0 := by
  unfold calloc
  rw [show (256 : Word) * 256 = 0 from rfl]
  cases malloc pool sp st 0 with
  | none => rfl
  | some r =>
    cases r with
    | error e => rfl
    | ok r =>
      obtain ⟨a, st'⟩ := r
      simp only
      rw [callocLoop]
      rfl

-- the hypotheses of C11_calloc_partial are met after a first allocation
example : ∃ st p, Hist exCfg (fun _ => 0) st [(p, 10)] ∧ 5 * 6 < 32768 := by
  obtain ⟨st, p, h⟩ := exHist 10 (by omega)
  exact ⟨st, p, h, by decide⟩

end Cmm.Heap
