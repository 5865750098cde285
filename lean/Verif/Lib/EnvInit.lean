import Verif.Lib.EnvInv

/- _environInit, setEnv, putEnv and the client's own use of the heap. -/
namespace Cmm.Environ
open Cmm.Crt0 Cmm.Err Cmm.Heap Cmm.Str

variable {c : Cfg} {m0 : Mem} {k : Cst} {e : ESt} {client : List (Nat × Nat)} {vars : List Var} {a cap : Nat}

/-- The argument of _environInit: an array of strings with a null at its end, in memory of the client. -/
structure Envp (c : Cfg) (client : List (Nat × Nat)) (m : Mem) (env : Nat) (ws : List Word) (ts : List (List Byte)) : Prop where
  fits : env + 2 * (ws.length + 1) ≤ 65536
  arr : Arr m env ws
  own : ∀ x, env ≤ x → x < env + 2 * (ws.length + 1) → Owned c client x
  nz : ∀ w ∈ ws, w ≠ 0
  len : ts.length = ws.length
  str : ∀ i (h : i < ws.length) (h' : i < ts.length), CStr c client m ws[i] ts[i] ∧ ts[i].length + 1 ≤ 65530

theorem Envp.keep {m m' : Mem} {env : Nat} {ws : List Word} {ts : List (List Byte)} (h : Envp c client m env ws ts)
    (hf : Frame c client m m') : Envp c client m' env ws ts :=
  { h with arr := h.arr.keep fun x h1 h2 => hf x (h.own x h1 h2)
           str := fun i h1 h2 => ⟨(h.str i h1 h2).1.keep hf, (h.str i h1 h2).2⟩ }

/-- The state of the loop of _environInit. -/
structure Part (c : Cfg) (m0 : Mem) (k : Cst) (h : St) (client : List (Nat × Nat)) (vars : List Var) (a cap : Nat) : Prop where
  hp : HP c m0 k h ((a, 2 * cap) :: (vars.map Var.blk ++ client))
  arr : ∀ i, i < vars.length → ld h.mem (a + 2 * i) = (ptrs vars)[i]?.getD 0
  strs : Strs h.mem vars

theorem copyOne_spec {h : St} {env : Nat} {ws : List Word} {ts : List (List Byte)} (sp : Word)
    (hP : Part c m0 k h client vars a cap) (hE : Envp c client h.mem env ws ts) (hi : vars.length < ws.length)
    (hcap : vars.length < cap) (hts : vars.length < ts.length) :
    (copyOne k sp (W env) (W a) h (W vars.length) = some (.error EUNOMEM) ∧ Fails c sp h.mem (ts[vars.length].length + 13)) ∨
    ∃ h' nv, copyOne k sp (W env) (W a) h (W vars.length) = some (.ok h') ∧ Part c m0 k h' client (vars ++ [nv]) a cap ∧
      nv.text = ts[vars.length] ∧ Frame c client h.mem h'.mem ∧ Leaves c h.mem h'.mem (ts[vars.length].length + 13) := by
  obtain ⟨hs, hl⟩ := hE.str _ hi hts
  have hfit := hE.fits
  have hel : ∀ {m : Mem}, Envp c client m env ws ts → elem m (W env) (W vars.length) = ws[vars.length] := by
    intro m hE
    rw [elem_W, hE.arr _ (by omega)]
    simp [hi]
  unfold copyOne
  rw [hel hE, strLen_eq hs.1, lift_some, bnd_ok, show BitVec.ofNat 16 (ts[vars.length]).length + 1 = W ((ts[vars.length]).length + 1) from W_one _]
  rcases hP.hp.malloc sp hl with ⟨he, hF⟩ | ⟨p, h1, he, hp1, hf1, hL1⟩
  · rw [he]; exact Or.inl ⟨rfl, hF⟩
  · right
    rw [he, bnd_ok]
    simp only
    rw [W_elem]
    have hp2 := hp1.perm (List.Perm.swap _ _ _)
    have hb := hp2.bounds (a := (a, 2 * cap)) (by simp)
    have hbp := hp2.bounds (a := (p, (ts[vars.length]).length + 1)) (by simp)
    have hhi := c.hi_le
    simp only at hb hbp
    have o2 : Only h1.mem (h1.mem.sw (W (a + 2 * vars.length)) (W p)) (a + 2 * vars.length) 2 := Only.sw _ _ (by omega)
    have o2' : Only h1.mem (h1.mem.sw (W (a + 2 * vars.length)) (W p)) a (2 * cap) := o2.mono (by omega) (by omega)
    have hf2 := Only.owned hp2 o2'
    have hp3 := (hp2.writeBlk o2').perm (List.Perm.swap _ _ _)
    have hF2 : Frame c client h.mem (h1.mem.sw (W (a + 2 * vars.length)) (W p)) := by
      intro x hx
      rw [hf2 x (owned_mono (by intro y hy; simp [hy]) hx)]
      exact hf1 x (owned_mono (by intro y hy; simp [hy]) hx)
    have hE2 := hE.keep hF2
    have hmono : ∀ y ∈ client, y ∈ (a, 2 * cap) :: (vars.map Var.blk ++ client) := by intro y hy; simp [hy]
    have hs2 := (hE2.str _ hi hts).1.mono hmono
    rw [hel hE2]
    obtain ⟨m3, e3, g1, _, g2⟩ := C02_strCpy _ (W p) _ _ hs2.1 (hp3.apartStr hs2)
    rw [e3, lift_some, bnd_ok]
    simp only
    have o3 : Only (h1.mem.sw (W (a + 2 * vars.length)) (W p)) m3 p ((ts[vars.length]).length + 1) := Only.of_same (by omega) g2
    have hf3 := Only.owned hp3 o3
    have hp4 := hp3.writeBlk o3
    refine ⟨_, ⟨p, (ts[vars.length]).length + 1, ts[vars.length]⟩, rfl, ⟨?_, ?_, ?_⟩, rfl, ?_,
      (hL1.trans (hp2.writeBlk_room o2')).trans (hp3.writeBlk_room o3)⟩
    · apply (hp4.perm (List.Perm.swap _ _ _)).perm
      apply List.Perm.cons
      simp only [List.map_append, List.map_cons, List.map_nil, List.append_assoc, List.cons_append, List.nil_append]
      exact List.perm_middle.symm
    · intro i hi'
      simp at hi'
      have hin : ∀ x, a ≤ x → x < a + 2 * cap → m3 (W x) = (h1.mem.sw (W (a + 2 * vars.length)) (W p)) (W x) :=
        fun x h5 h6 => hf3 x ⟨by omega, Or.inl ⟨(a, 2 * cap), by simp, h5, h6⟩⟩
      have hin1 : ∀ x, a ≤ x → x < a + 2 * cap → h1.mem (W x) = h.mem (W x) :=
        fun x h5 h6 => hf1 x ⟨by omega, Or.inl ⟨(a, 2 * cap), by simp, h5, h6⟩⟩
      show ld m3 _ = _
      rw [ld_keep (hin (a + 2 * i) (by omega) (by omega)) (hin (a + 2 * i + 1) (by omega) (by omega))]
      by_cases hil : i = vars.length
      · subst hil
        rw [ld_sw_same]; simp [ptrs]
      · rw [o2.ld (by omega) (by omega), ld_keep (hin1 (a + 2 * i) (by omega) (by omega)) (hin1 (a + 2 * i + 1) (by omega) (by omega)),
          hP.arr i (by omega)]
        simp only [ptrs, List.map_append]
        rw [List.getElem?_append_left (by simp; omega)]
    · intro v hv
      rcases List.mem_append.1 hv with hv | hv
      · have h5 : Strs m3 vars := by
          apply hP.strs.keep
          intro w hw x h6 h7
          have hwb := mem_blk hw client
          have hbw := hP.hp.bounds (List.mem_cons_of_mem _ hwb)
          simp only [Var.blk] at hbw
          have ho : Owned c (vars.map Var.blk ++ client) x := ⟨by omega, Or.inl ⟨w.blk, hwb, h6, h7⟩⟩
          rw [hf3 x (owned_mono (fun y hy => List.mem_cons_of_mem _ hy) ho),
            hf2 x (owned_mono (fun y hy => List.mem_cons_of_mem _ hy) ho),
            hf1 x (owned_mono (fun y hy => List.mem_cons_of_mem _ hy) ho)]
        exact h5 v hv
      · simp at hv
        subst hv
        exact ⟨g1, le_refl _⟩
    · intro x hx
      exact (hf3 x (owned_mono hmono hx)).trans (hF2 x hx)

/-- The bytes of heap the strings need at most. -/
def need (ts : List (List Byte)) : Nat := (ts.map fun t => t.length + 13).sum

theorem initLoop_spec {env : Nat} {ws : List Word} {ts : List (List Byte)} (sp : Word) (hws : ws.length < 32768)
    (hcap : ws.length < cap) : ∀ d h vars, vars.length + d = ws.length → Part c m0 k h client vars a cap →
    Envp c client h.mem env ws ts → vars.map Var.text = ts.take vars.length →
    (initLoop k sp (W env) (W a) (W ws.length) h (W vars.length) = some (.error EUNOMEM) ∧
      Fails c sp h.mem (need (ts.drop vars.length))) ∨
    ∃ h' vars', initLoop k sp (W env) (W a) (W ws.length) h (W vars.length) = some (.ok h') ∧
      Part c m0 k h' client vars' a cap ∧ vars'.map Var.text = ts ∧ Frame c client h.mem h'.mem ∧
      Leaves c h.mem h'.mem (need (ts.drop vars.length)) := by
  intro d
  induction d with
  | zero =>
    intro h vars hd hP hE ht
    right
    have hl := hE.len
    refine ⟨h, vars, ?_, hP, ?_, fun _ _ => rfl, (Leaves.refl _).mono (by omega)⟩
    · have h2 : ilt (W vars.length) (W ws.length) = decide (vars.length < ws.length) := ilt_ofNat (by omega) (by omega)
      rw [initLoop, h2]
      simp [show ¬ vars.length < ws.length by omega]
    · rw [ht, List.take_of_length_le (by omega)]
  | succ d ih =>
    intro h vars hd hP hE ht
    have hl := hE.len
    have h2 : ilt (W vars.length) (W ws.length) = decide (vars.length < ws.length) := ilt_ofNat (by omega) (by omega)
    rw [initLoop, h2]
    simp only [show vars.length < ws.length by omega, decide_true, if_true]
    have hneed : need (ts.drop vars.length) = (ts[vars.length]).length + 13 + need (ts.drop (vars.length + 1)) := by
      unfold need
      rw [List.drop_eq_getElem_cons (by omega), List.map_cons, List.sum_cons]
    rcases copyOne_spec sp hP hE (by omega) (by omega) (by omega) with ⟨he, hF⟩ | ⟨h1, nv, he, hP1, ht1, hf1, hL1⟩
    · rw [he]; exact Or.inl ⟨rfl, hF.mono (by rw [hneed]; omega)⟩
    · rw [he]
      simp only
      have := ih h1 (vars ++ [nv]) (by simp; omega) hP1 (hE.keep hf1) (by
        rw [List.map_append, ht]
        simp only [List.map_cons, List.map_nil, ht1, List.length_append, List.length_cons, List.length_nil, Nat.zero_add]
        rw [List.take_add_one]
        simp [show vars.length < ts.length by omega])
      simp only [List.length_append, List.length_cons, List.length_nil, Nat.zero_add] at this
      rw [W_one]
      rcases this with ⟨he, hF⟩ | ⟨h', vars', he, g1, g2, g3, g4⟩
      · exact Or.inl ⟨he, by rw [hneed]; exact hL1.fails hF⟩
      · exact Or.inr ⟨h', vars', he, g1, g2, hf1.trans g3, by rw [hneed]; exact hL1.trans g4⟩

/-- _environInit makes entries with the given strings. -/
theorem environInit_spec {env : Nat} {ws : List Word} {ts : List (List Byte)} (sp : Word) (hp : HP c m0 k e.heap client)
    (hE : Envp c client e.mem env ws ts) :
    (environInit k sp e (W env) = some (.error EUNOMEM) ∧ Fails c sp e.mem (2 * ts.length + 14 + need ts)) ∨
    ∃ e' vars, environInit k sp e (W env) = some (.ok e') ∧ Inv c m0 k e' client vars ∧ vars.map Var.text = ts ∧
      Frame c client e.mem e'.mem ∧ Leaves c e.mem e'.mem (2 * ts.length + 14 + need ts) := by
  have hfit := hE.fits
  unfold environInit
  have hc : countLoop e.mem (W env) 0 = some (W ws.length) := countLoop_spec hE.arr hE.nz ws.length 0 (by omega)
  rw [hc, lift_some, bnd_ok]
  unfold iMalloc
  rw [W_one, W_two]
  by_cases hbig : 2 * (ws.length + 1) ≤ 65530
  swap
  · exfalso
    -- the array and the heap do not both fit
    have h1 := hE.own env (by omega) (by omega)
    have hz := hp.hz
    have hhi := c.hi_le
    have hlo := c.lo_ge
    have hall : ∀ x, env ≤ x → x < env + 2 * (ws.length + 1) → Owned c client x := hE.own
    have hl : env ≤ 5 := by omega
    -- the header of the first block is not owned
    have hx := hall c.lo (by omega) (by omega)
    rcases hx.2 with ⟨b, hb, h2, h3⟩ | h2
    · have := hp.bounds hb; omega
    · omega
  rcases hp.malloc sp hbig with ⟨he, hF⟩ | ⟨a, h1, he, hp1, hf1, hL1⟩
  · rw [he]; exact Or.inl ⟨rfl, hF.mono (by have := hE.len; omega)⟩
  · rw [he, bnd_ok]
    simp only
    have hE1 := hE.keep (m' := h1.mem) hf1
    have hb := hp1.bounds (a := (a, 2 * (ws.length + 1))) (by simp)
    have hhi := c.hi_le
    have hlo := c.lo_ge
    simp only at hb
    have hP1 : Part c m0 k h1 client [] a (ws.length + 1) := ⟨by simpa using hp1, by intro i hi; simp at hi, by intro v hv; cases hv⟩
    rcases initLoop_spec sp (by omega) (by omega) ws.length h1 [] (by simp) hP1 hE1 (by simp) with ⟨he2, hF⟩ | ⟨h2, vars, he2, hP2, ht, hf2, hL2⟩
    · left
      simp only [List.length_nil, List.drop_zero] at he2 hF
      rw [show (0 : Word) = W 0 from rfl, he2]
      exact ⟨rfl, (hL1.fails hF).mono (by have := hE.len; omega)⟩
    · right
      simp only [List.length_nil, List.drop_zero] at he2 hL2
      rw [show initLoop k sp (W env) (W a) (W ws.length) h1 0 = _ from he2, bnd_ok, W_elem]
      have hlen : vars.length = ws.length := by
        have := congrArg List.length ht
        rw [List.length_map] at this
        rw [this, hE.len]
      have o1 : Only h2.mem (h2.mem.sw (W (a + 2 * ws.length)) 0) (a + 2 * ws.length) 2 := Only.sw _ _ (by omega)
      have o2 : Only h2.mem (h2.mem.sw (W (a + 2 * ws.length)) 0) a (2 * (ws.length + 1)) := o1.mono (by omega) (by omega)
      have hf3 := Only.owned hP2.hp o2
      refine ⟨_, vars, rfl, ⟨a, ws.length + 1, rfl, rfl, by omega, hP2.hp.writeBlk o2, ?_, ?_⟩, ht, ?_,
        ((hL1.trans hL2).trans (hP2.hp.writeBlk_room o2)).mono (by have := hE.len; omega)⟩
      · intro i hi
        simp at hi
        show ld (h2.mem.sw (W (a + 2 * ws.length)) 0) _ = _
        by_cases hil : i = ws.length
        · subst hil
          rw [ld_sw_same]; simp [ptrs, hlen]
        · rw [o1.ld (by omega) (by omega), hP2.arr i (by omega)]
      · show Strs (h2.mem.sw (W (a + 2 * ws.length)) 0) _
        apply hP2.strs.keep
        intro w hw x h6 h7
        have hwb := mem_blk hw client
        have hbw := hP2.hp.bounds (List.mem_cons_of_mem _ hwb)
        simp only [Var.blk] at hbw
        exact hf3 x ⟨by omega, Or.inl ⟨w.blk, hwb, h6, h7⟩⟩
      · intro x hx
        show (h2.mem.sw (W (a + 2 * ws.length)) 0) (W x) = _
        rw [hf3 x (owned_mono (by intro y hy; simp [hy]) hx), hf2 x hx]
        exact hf1 x hx

/-! ### The client's own calls and writes -/

theorem InvAt.poke (hi : InvAt c m0 k e client vars a cap) {x : Nat} (ho : Owned c client x) (hq : ¬ InEq k x) (v : Byte) :
    InvAt c m0 k (e.setMem (e.mem.set (W x) v)) client vars a cap := by
  have hset : ∀ y, y < 65536 → y ≠ x → (e.mem.set (W x) v) (W y) = e.mem (W y) := by
    intro y hy hne
    apply Mem.set_ne
    intro e1
    exact hne (W_inj hy ho.1 e1)
  have hsub : ∀ y ∈ client, y ∈ (a, 2 * cap) :: (vars.map Var.blk ++ client) := by intro y hy; simp [hy]
  have hout : ∀ b ∈ (a, 2 * cap) :: vars.map Var.blk, x < b.1 ∨ b.1 + b.2 ≤ x := by
    intro b hb
    obtain ⟨l, r, hlr⟩ := List.append_of_mem hb
    have hp := hi.hp.perm (blks' := b :: (l ++ r ++ client)) (by
      rw [← List.cons_append, hlr]
      simp only [List.append_assoc, List.cons_append]
      exact List.perm_middle)
    exact hp.notIn (owned_mono (by intro y hy; simp [hy]) ho)
  have hhi := c.hi_le
  refine ⟨hi.env, hi.capE, hi.room, ?_, ?_, ?_⟩
  · apply hi.hp.write
    intro y hy hd
    apply hset y hy
    rintro rfl
    rcases hd with hd | hd
    · exact hd (owned_mono hsub ho)
    · exact hq hd
  · apply hi.arr.keep
    intro y h1 h2
    have hb := hi.hp.bounds (a := (a, 2 * cap)) (by simp)
    have := hi.room
    have h3 := hout (a, 2 * cap) (by simp)
    simp at h2 hb h3
    apply hset y (by omega) (by omega)
  · apply hi.strs.keep
    intro w hw y h1 h2
    have hb := hi.hp.bounds (List.mem_cons_of_mem _ (mem_blk hw client))
    have h3 := hout w.blk (by simp; right; exact ⟨w, hw, rfl⟩)
    simp only [Var.blk] at hb h3
    exact hset y (by omega) (by omega)

theorem InvAt.cmalloc (hi : InvAt c m0 k e client vars a cap) {sp p : Word} {siz : Nat} {h' : St} (hs : siz ≤ 65530)
    (hm : malloc k.pool sp e.heap (W siz) = some (.ok (p, h'))) :
    InvAt c m0 k { e with heap := h' } ((p.toNat, siz) :: client) vars a cap ∧ Frame c client e.mem h'.mem := by
  rcases hi.hp.malloc sp hs with ⟨he, _⟩ | ⟨q, h1, he, hp1, hf1, _⟩
  · rw [hm] at he; cases he
  · rw [hm] at he
    injection he with he; injection he with he; injection he with he1 he2
    subst he1 he2
    have hb := hp1.bounds (a := (q, siz)) (by simp)
    have hhi := c.hi_le
    simp only at hb
    have hr := hi.room
    rw [W_toNat (by omega)]
    refine ⟨⟨hi.env, hi.capE, hi.room, ?_, hi.arr.owned hi.hp (s := 2 * cap) (by simp) (by simp; omega) hf1,
      hi.strs.owned hi.hp (fun v hv => List.mem_cons_of_mem _ (mem_blk hv _)) hf1⟩, ?_⟩
    · apply hp1.perm
      refine (List.Perm.swap _ _ _).trans (List.Perm.cons _ ?_)
      exact List.perm_middle.symm
    · intro x hx
      exact hf1 x (owned_mono (by intro y hy; simp [hy]) hx)

theorem InvAt.cfree (hi : InvAt c m0 k e client vars a cap) {b : Nat × Nat} {h' : St} (hb : b ∈ client)
    (hm : free k.pool e.heap (W b.1) = some (.ok h')) :
    InvAt c m0 k { e with heap := h' } (client.erase b) vars a cap ∧ Frame c (client.erase b) e.mem h'.mem := by
  have hperm : ((a, 2 * cap) :: (vars.map Var.blk ++ client)).Perm (b :: (a, 2 * cap) :: (vars.map Var.blk ++ client.erase b)) := by
    refine List.Perm.trans ?_ (List.Perm.swap _ _ _)
    apply List.Perm.cons
    refine List.Perm.trans ?_ List.perm_middle
    exact (List.perm_cons_erase hb).append_left _
  obtain ⟨h1, he, hp1, hf1, _⟩ := (hi.hp.perm hperm).free
  rw [hm] at he
  injection he with he; injection he with he
  subst he
  have hf : ∀ x, Owned c ((a, 2 * cap) :: (vars.map Var.blk ++ client)) x → h'.mem (W x) = e.heap.mem (W x) :=
    fun x hx => hf1 x (owned_perm hperm hx)
  have hr := hi.room
  refine ⟨⟨hi.env, hi.capE, hi.room, hp1, hi.arr.owned hi.hp (s := 2 * cap) (by simp) (by simp; omega) hf,
    hi.strs.owned hi.hp (fun v hv => List.mem_cons_of_mem _ (mem_blk hv _)) hf⟩, ?_⟩
  intro x hx
  exact hf x (owned_mono (by intro y hy; have := List.mem_of_mem_erase hy; simp [this]) hx)

end Cmm.Environ
