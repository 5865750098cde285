import Verif.Tac.Step

/-
The operations of src/vm2tac.c keep the relation `Rel`, continued: one operand, loads, pushes.
-/
namespace Cmm.Tac
open Cmm.Tree (World ofB)
open Cmm.Gen (Instr A1 A2 Data a1Val)

/-- A result for a longer run. -/
theorem Goes.then {E : Env} {F : Fr} {g g' : Gh} {t t1 t' : T} {its its' : List It} {s s' : Sto} {m : M}
    (h : Goes E F g t t1 its s m) (hk : ∀ m1, Rel E F g t1 its s m1 → Goes E F g' t1 t' its' s' m1) :
    Goes E F g' t t' its' s' m := by
  obtain ⟨m1, c1, o1, r1, k1⟩ := h
  obtain ⟨m2, c2, o2, r2, k2⟩ := hk m1 k1
  exact ⟨m2, c1 ++ c2, by rw [o2, o1, List.append_assoc], r1.append r2, k2⟩

/-! ### One operand -/

/-- An operation with a constant on the value on top. -/
theorem imm_rel {E : Env} {F : Fr} {g g' : Gh} {o : TOp} {c : Int} {t : T} {its : List It} {s : Sto} {m : M}
    {x p : Word} {a : Int} {es : List Ent} (w : W t) (hs : t.stk = ⟨.ACC, a⟩ :: es)
    (hf : ∀ e ∈ t.stk, e.sta ≠ .FLAG) (h1 : o ≠ .LD) (h2 : o ≠ .CMP)
    (hr : Rel E F g t (.val x p :: its) s m) (hg : g' = .all → ovf E o x (BitVec.ofInt 16 c) = false) :
    Goes E F g' t { t with out := t.out ++ [.op o (.g a) (.imm c)], flg := some es.length }
      (.val (alu E o x (BitVec.ofInt 16 c)) 0 :: its) s m := by
  obtain ⟨hw, hr⟩ := hr
  have hrepr := hr.repr
  have hn := w.nodup
  have hrg := w.rng a (by rw [hs]; simp [accs, acc1_ACC])
  have hregs := w.regs
  rw [hs] at hrepr hn hregs hf
  obtain ⟨hx, hrest⟩ := val_cons hrepr (by simp)
  have hxv : m.g a = x := hx
  have hflag := flags_arith E m h1 h2 x (BitVec.ofInt 16 c)
  refine ⟨_, _, rfl, runs_op m o (.g a) (.imm c), hw, ?_, hr.hwm, hr.sp, hr.fp, hr.room, hr.lim, hr.mem, ?_, ?_⟩
  · show Repr _ _ t.stk hw
    rw [hs]
    refine .val (by simp) ?_ (op_rest (hi := []) hn hrg.2 (fun e he => hregs e (by simp [he]))
      (fun e he => hf e (by simp [he])) hrest (fun r hne => setG_ne _ _ hne) rfl)
    show setG m.g a (alu E o (m.g a) _) a = _
    rw [setG_same, hxv]
    rfl
  · intro r k1 k2
    show setG m.g a _ r = _
    rw [setG_ne _ _ (by omega)]
    exact hr.reg r k1 k2
  · intro hgn
    refine ⟨?_, ?_⟩
    · show ∀ e ∈ t.stk, _
      rw [hs]
      exact hf
    · intro pp v hp hv
      cases hp
      rw [rev_top (by rw [hrest.vals_length])] at hv
      cases hv
      show (flags E m o (m.g a) _).2 = _ ∧ (_ → (flags E m o (m.g a) _).1 = _)
      rw [hxv]
      show (flags E m o x (BitVec.ofInt 16 c)).2 = _ ∧ (_ → (flags E m o x (BitVec.ofInt 16 c)).1 = _)
      rw [hflag]
      refine ⟨rfl, fun hgg => ?_⟩
      rw [hg hgg]
      simp

theorem xor_allOnes (x : Word) : x ^^^ BitVec.ofInt 16 (-1) = ~~~x := by
  rw [show BitVec.ofInt 16 (-1) = BitVec.allOnes 16 from by decide, BitVec.xor_allOnes]

theorem unary_rel {E : Env} {F : Fr} {g g' : Gh} {o : A1} {t t' : T} {its : List It} {s : Sto} {m : M}
    {x p : Word} {e0 : Ent} {es : List Ent} (w : W t) (hs : t.stk = e0 :: es)
    (hr : Rel E F g t (.val x p :: its) s m)
    (hg : g' = .all → o = .NEG → E.v .ADD (~~~x) 1 = false) (h : unary o t = some t') :
    Goes E F g' t t' (.val (a1Val o x) 0 :: its) s m := by
  obtain ⟨t1, a, es', mi, hs1, hl, hf, rfl⟩ := unary_form w hs h
  refine Goes.after mi w hr take1 fun m1 hr1 _ => ?_
  have w1 := mi.W w
  have hnf := w1.noFlag hf
  cases o with
  | NEG =>
    have k1 : Goes E F .no t1 { t1 with out := t1.out ++ [.op .XOR (.g a) (.imm (-1))], flg := some es'.length }
        (.val (~~~x) 0 :: its) s m1 := by
      have := imm_rel (o := .XOR) (c := -1) (g' := .no) w1 hs1 hnf (by simp) (by simp) hr1 (fun h => by cases h)
      rw [show alu E .XOR x (BitVec.ofInt 16 (-1)) = ~~~x from xor_allOnes x] at this
      exact this
    refine k1.then fun m2 hr2 => ?_
    have := imm_rel (o := .ADD) (c := 1) (g' := g') (E := E) (F := F) (s := s) (its := its) (x := ~~~x) (p := 0) (m := m2)
      (t := { t1 with out := t1.out ++ [.op .XOR (.g a) (.imm (-1))], flg := some es'.length })
      ((w1.setFlg hnf (f := some es'.length) (by intro p hp; cases hp; rw [hs1]; simp)).out _) hs1 hnf (by simp) (by simp) hr2 (fun hgg => hg hgg rfl)
    rw [show alu E .ADD (~~~x) (BitVec.ofInt 16 1) = a1Val .NEG x from ?_] at this
    · simpa [unLines] using this
    · show ~~~x + 1#16 = 0 - x
      rw [show (0 : Word) - x = -x from by simp, BitVec.neg_eq_not_add]
  | NOT =>
    have := imm_rel (o := .XOR) (c := 1) (g' := g') w1 hs1 hnf (by simp) (by simp) hr1 (fun _ => rfl)
    exact this
  | BNOT =>
    have := imm_rel (o := .XOR) (c := -1) (g' := g') w1 hs1 hnf (by simp) (by simp) hr1 (fun _ => rfl)
    rw [show alu E .XOR x (BitVec.ofInt 16 (-1)) = ~~~x from xor_allOnes x] at this
    exact this
  | CHR =>
    have := imm_rel (o := .AND) (c := 0xff) (g' := g') w1 hs1 hnf (by simp) (by simp) hr1 (fun _ => rfl)
    exact this
  | BOOL =>
    have := imm_rel (o := .AND) (c := 1) (g' := g') w1 hs1 hnf (by simp) (by simp) hr1 (fun _ => rfl)
    exact this

/-! ### Loads through an address -/

/-- The value behind an address. -/
def IndOk (F : Fr) (k : Sta) (s : Sto) (a v : Word) : Prop :=
  (k = .WINDR ∧ OutW F a ∧ s.mem.lw a = v) ∨ (k = .BINDR ∧ Out F a ∧ (s.mem a).setWidth 16 = v)

theorem IndOk.val {E : Env} {F : Fr} {j : Nat} {m : M} {k : Sta} {s : Sto} {a v : Word} {r : Int}
    (h : IndOk F k s a v) (hm : ∀ x, Out F x → m.mem x = s.mem x) (hg : m.g r = a) :
    Val E F j m ⟨k, r⟩ v a := by
  rcases h with ⟨rfl, h1, h2⟩ | ⟨rfl, h1, h2⟩
  · exact ⟨hg, h1, by rw [h1.lw hm]; exact h2⟩
  · exact ⟨hg, h1, by rw [hm _ h1]; exact h2⟩

theorem IndOk.sta {F : Fr} {k : Sta} {s : Sto} {a v : Word} (h : IndOk F k s a v) : k ≠ .STK := by
  rcases h with ⟨rfl, _⟩ | ⟨rfl, _⟩ <;> simp

/-- The index is 0: no code is printed. -/
theorem ld_zero {E : Env} {F : Fr} {g : Gh} {k : Sta} {t : T} {its : List It} {s : Sto} {m : M}
    {x y p q v : Word} {e0 e1 : Ent} {es : List Ent} (hs : t.stk = e0 :: e1 :: es) (hc : isCnst0 e0 = true)
    (h1 : e1.sta = .RVAR ∨ e1.sta = .ACC) (hr : Rel E F g t (.val y q :: .val x p :: its) s m)
    (hk : IndOk F k s x v) :
    Rel E F .no { relDrop e0 t with stk := ⟨k, e1.aux⟩ :: es } (.val v x :: its) s m := by
  obtain ⟨hw, hr⟩ := hr
  simp only [isCnst0, Bool.and_eq_true, decide_eq_true_eq] at hc
  have hrepr := hr.repr
  rw [hs] at hrepr
  obtain ⟨_, hrepr⟩ := val_cons hrepr (by rw [hc.1]; simp)
  obtain ⟨hx, hrest⟩ := val_cons hrepr (by rcases h1 with h | h <;> rw [h] <;> simp)
  have hxv : m.g e1.aux = x := by
    obtain ⟨sta, a⟩ := e1
    rcases h1 with h | h <;> (simp only at h; subst h; exact hx)
  refine ⟨hw, .val hk.sta (hk.val hr.mem hxv) hrest, hr.hwm, hr.sp, hr.fp, ?_, hr.lim, hr.mem, hr.reg, fun hg => absurd rfl hg⟩
  have := hr.room
  simp only [List.length_cons] at this ⊢
  omega

/-- The address is computed in the accumulator of one of the two entries. -/
theorem ld_op {E : Env} {F : Fr} {g : Gh} {o : TOp} {k : Sta} {t t' : T} {its : List It} {s : Sto} {m : M}
    {x y p q v : Word} {a : Int} {f : Ent} {es : List Ent} {sr : Src} (w : W t)
    (hs : t.stk = f :: ⟨.ACC, a⟩ :: es ∨ t.stk = ⟨.ACC, a⟩ :: f :: es) (hf : f.sta ≠ .STK)
    (hfl : t.flg = none) (ho : operand f = some sr)
    (hr : Rel E F g t (.val y q :: .val x p :: its) s m) (b : Word)
    (hb : (t.stk = f :: ⟨.ACC, a⟩ :: es → alu E o x y = b) ∧ (t.stk = ⟨.ACC, a⟩ :: f :: es → alu E o y x = b))
    (hk : IndOk F k s b v) (ht : t'.stk = ⟨k, a⟩ :: es) (hj : t'.jcc = t.jcc)
    (hout : t'.out = t.out ++ [.op o (.g a) sr]) :
    Goes E F .no t t' (.val v b :: its) s m := by
  obtain ⟨hw, hr⟩ := hr
  have hrepr := hr.repr
  have hn := w.nodup
  have hrg := w.rng a (by rcases hs with h | h <;> rw [h] <;> simp [accs, acc1_ACC])
  have hregs := w.regs
  have hnf := w.noFlag hfl
  have hroom := hr.room
  -- values of the two entries
  have hv : alu E o (m.g a) (srcVal E m sr) = b ∧ Repr (Val E F t.jcc m) its es hw ∧ a ∉ accs es ∧
      (∀ e ∈ es, RegOk e) ∧ ∀ e ∈ es, e.sta ≠ .FLAG := by
    rcases hs with h | h
    · have hb := hb.1 h
      rw [h] at hrepr hn hregs hnf
      obtain ⟨hy, hrepr⟩ := val_cons hrepr hf
      obtain ⟨hx, hrest⟩ := val_cons hrepr (by simp)
      rw [hy.src ho hr.fp, show m.g a = x from hx]
      exact ⟨hb, hrest, (nodup_split (hi := [f]) (a := a) hn (by simp [acc1_ACC])).2, fun e he => hregs e (by simp [he]),
        fun e he => hnf e (by simp [he])⟩
    · have hb := hb.2 h
      rw [h] at hrepr hn hregs hnf
      obtain ⟨hy, hrepr⟩ := val_cons hrepr (by simp)
      obtain ⟨hx, hrest⟩ := val_cons hrepr hf
      rw [hx.src ho hr.fp, show m.g a = y from hy]
      have n2 := (nodup_split (hi := []) (a := a) hn (by simp [acc1_ACC])).2
      rw [accs_cons] at n2
      exact ⟨hb, hrest, fun h => n2 (by simp [h]), fun e he => hregs e (by simp [he]),
        fun e he => hnf e (by simp [he])⟩
  obtain ⟨hv, hrest, hn, hregs, hnf⟩ := hv
  refine ⟨_, _, hout, runs_op m o (.g a) sr, hw, ?_, hr.hwm, hr.sp, hr.fp, ?_, hr.lim, hr.mem, ?_,
    fun hg => absurd rfl hg⟩
  · rw [ht]
    refine .val hk.sta (hk.val hr.mem ?_) ?_
    · show setG m.g a (alu E o (m.g a) (srcVal E m sr)) a = _
      rw [setG_same, hv]
    · rw [hj]
      exact hrest.acc hrg.2 hn hregs (fun r hne => setG_ne _ _ hne) (fun _ _ => rfl)
        fun e he hs => absurd hs (hnf e he)
  · simp only [List.length_cons] at hroom ⊢
    omega
  · intro r k1 k2
    show setG m.g a _ r = _
    rw [setG_ne _ _ (by omega)]
    exact hr.reg r k1 k2

theorem ldForm_rel {E : Env} {F : Fr} {g : Gh} {o : TOp} {k : Sta} {t t' : T} {its : List It} {s : Sto} {m : M}
    {x y p q v : Word} {e0 e1 : Ent} {es : List Ent} (w : W t) (hs : t.stk = e0 :: e1 :: es)
    (h0 : e0.sta ≠ .STK) (ho : alu E o x 0 = x) (hr : Rel E F g t (.val y q :: .val x p :: its) s m)
    (hk : IndOk F k s (alu E o x y) v) (h : LdForm o k t t' e0 e1 es) :
    Goes E F .no t t' (.val v (alu E o x y) :: its) s m := by
  have zero : isCnst0 e0 = true → alu E o x y = x := by
    intro hc
    simp only [isCnst0, Bool.and_eq_true, decide_eq_true_eq] at hc
    rw [cnst_val hc.1 (hr.top hs h0), hc.2]
    exact ho
  rcases h with ⟨hc, h1, rfl⟩ | ⟨hc, t1, a, es', mi, hs1, hl, rfl⟩ | ⟨t1, a, es', sr, mi, hs1, hl, hop, hf, rfl⟩
  · rw [zero hc] at hk ⊢
    exact ⟨m, [], by simp [relDrop], Runs.nil E m, ld_zero hs hc (.inl h1) hr hk⟩
  · rw [zero hc] at hk ⊢
    refine Goes.after mi w hr take2 fun m1 hr1 _ => ?_
    exact ⟨m1, [], by simp [relDrop], Runs.nil E m1, ld_zero hs1 hc (.inr rfl) hr1 hk⟩
  · refine Goes.after mi w hr take2 fun m1 hr1 _ => ?_
    refine ld_op (o := o) (k := k) (mi.W w) (.inl hs1) (unflag_stk h0) hf hop hr1 _ ⟨fun _ => rfl, fun h => ?_⟩ hk rfl rfl rfl
    rw [hs1] at h
    simp only [List.cons.injEq] at h
    exact absurd h.1.symm (by
      intro h2
      rw [← h2] at hop
      have : unflag e0 = ⟨.ACC, a⟩ := h2.symm
      have hn := (mi.W w).nodup
      rw [hs1, this] at hn
      simp [accs, acc1_ACC] at hn)

theorem ldW_rel {E : Env} {F : Fr} {g : Gh} {t t' : T} {its : List It} {s : Sto} {m : M}
    {x y p q : Word} {e0 e1 : Ent} {es : List Ent} (w : W t) (hs : t.stk = e0 :: e1 :: es)
    (h0 : e0.sta ≠ .STK) (hr : Rel E F g t (.val y q :: .val x p :: its) s m)
    (hk : OutW F (x + 2 * y)) (h : vmLdWrd t = some t') :
    Goes E F .no t t' (.val (s.mem.lw (x + 2 * y)) (x + 2 * y) :: its) s m :=
  ldForm_rel w hs h0 (o := .ADDS) (by simp [alu]) hr (.inl ⟨rfl, hk, rfl⟩) (vmLdWrd_form w hs h0 h)

theorem ldB_rel {E : Env} {F : Fr} {g : Gh} {t t' : T} {its : List It} {s : Sto} {m : M}
    {x y p q : Word} {e0 e1 : Ent} {es : List Ent} (w : W t) (hs : t.stk = e0 :: e1 :: es)
    (h0 : e0.sta ≠ .STK) (hr : Rel E F g t (.val y q :: .val x p :: its) s m)
    (hk : Out F (x + y)) (h : vmLdByt t = some t') :
    Goes E F .no t t' (.val ((s.mem (x + y)).setWidth 16) (x + y) :: its) s m := by
  have hi : IndOk F .BINDR s (x + y) ((s.mem (x + y)).setWidth 16) := .inr ⟨rfl, hk, rfl⟩
  rcases vmLdByt_form w hs h0 h with h | ⟨ha, h1, t1, sr, es', mi, hs1, hl, hop, hf, rfl⟩
  · exact ldForm_rel w hs h0 (o := .ADD) (by simp [alu]) hr hi h
  · refine Goes.after mi w hr take2 fun m1 hr1 _ => ?_
    obtain ⟨sta, a⟩ := e0
    simp only at ha
    subst ha
    refine ld_op (o := .ADD) (k := .BINDR) (mi.W w) (.inr hs1) (unflag_stk h1) hf hop hr1 _ ⟨fun _ => rfl, fun _ => ?_⟩ hi rfl rfl rfl
    exact BitVec.add_comm _ _

/-! ### Pushes -/

theorem push_rel {E : Env} {F : Fr} {g : Gh} {t t' : T} {its : List It} {s : Sto} {m : M} {e : Ent} {v p : Word}
    (w : W t) (hr : Rel E F g t its s m) (hv : Val E F t.jcc m e v p) (he : e.sta ≠ .STK) (hf : e.sta ≠ .FLAG)
    (hl : 2 * (its.length + 1) ≤ F.lim) (h : pushStk e t = some t') :
    Goes E F g t t' (.val v p :: its) s m := by
  have := pushStk_form h
  subst this
  obtain ⟨hw, hr⟩ := hr
  refine ⟨m, [], by simp, Runs.nil E m, hw, .val he hv hr.repr, hr.hwm, hr.sp, hr.fp, by simpa using hl, hr.lim, hr.mem, hr.reg, ?_⟩
  intro hg
  obtain ⟨k1, k2⟩ := hr.fl hg
  refine ⟨fun x hx => ?_, fun pp u hp hu => ?_⟩
  · simp only [List.mem_cons] at hx
    rcases hx with rfl | hx
    · exact hf
    · exact k1 x hx
  · have := w.flt pp hp
    rw [rev_low (by rw [hr.repr.vals_length]; exact this)] at hu
    exact k2 pp u hp hu

/-! ### The value on top goes away -/

theorem FlOk.pop {g : Gh} {f : Option Nat} {v p : Word} {its : List It} {e : Ent} {es : List Ent} {m : M}
    (hl : (vals its).length = es.length) (h : FlOk g f (.val v p :: its) (e :: es) m) :
    FlOk g (cutFlg f es.length) its es m := by
  intro hg
  obtain ⟨h1, h2⟩ := h hg
  refine ⟨fun x hx => h1 x (by simp [hx]), fun pp u hp hu => ?_⟩
  unfold cutFlg at hp
  split at hp
  · split at hp
    · cases hp
    · rename_i q hq
      cases hp
      exact h2 pp u rfl (by rw [rev_low (by omega)]; exact hu)
  · cases hp

theorem pop_rel {E : Env} {F : Fr} {g : Gh} {t : T} {its : List It} {s : Sto} {m : M} {e : Ent} {es : List Ent}
    {v p : Word} (hs : t.stk = e :: es) (h0 : e.sta ≠ .STK) (hr : Rel E F g t (.val v p :: its) s m) :
    Rel E F g (relDrop e t) its s m := by
  obtain ⟨hw, hr⟩ := hr
  have hrepr := hr.repr
  have hfl := hr.fl
  rw [hs] at hrepr hfl
  obtain ⟨_, hrest⟩ := val_cons hrepr h0
  refine ⟨hw, ?_, hr.hwm, hr.sp, hr.fp, ?_, hr.lim, hr.mem, hr.reg, ?_⟩
  · simpa [relDrop, hs] using hrest
  · have := hr.room
    simp only [List.length_cons] at this
    omega
  · simpa [relDrop, hs] using hfl.pop hrest.vals_length

theorem arg_rel {E : Env} {F : Fr} {g : Gh} {t t' : T} {its : List It} {s : Sto} {m : M} {e : Ent} {es : List Ent}
    {v p : Word} (w : W t) (hs : t.stk = e :: es) (hr : Rel E F g t (.val v p :: its) s m)
    (h : vmArg t = some t') : Goes E F g t t' (.arg v :: its) s m := by
  rcases vmArg_form w hs h with ⟨hrv, t1, es', mi, hs1, hl, ha, rfl⟩ | ⟨t1, a, es', mi, hs1, hl, ha, rfl⟩
  · refine Goes.after mi w hr take1 fun m1 hr1 _ => ?_
    obtain ⟨hw, hr1⟩ := hr1
    have hrepr := hr1.repr
    have hfl := hr1.fl
    rw [hs1] at hrepr hfl
    obtain ⟨hv, hrest⟩ := val_cons hrepr (by rw [hrv]; simp)
    have hval : m1.g e.aux = v := by
      obtain ⟨sta, a⟩ := e
      simp only at hrv
      subst hrv
      exact hv
    have hlen := hrest.hw_length
    have hroom : 2 * (hw.length + 1) ≤ F.lim := by
      have := hr1.room
      simp only [List.length_cons] at this
      omega
    have hsp : m1.sp - 2 = dn F.base (hw.length + 1) := by rw [hr1.sp, dn_succ]
    have hmem : ∀ x, Out F x → (m1.doPush (.g e.aux)).mem x = m1.mem x := by
      intro x hx
      show m1.mem.sw (m1.sp - 2) (m1.g e.aux) x = _
      rw [hsp]
      have := hx.dn (k := hw.length + 1) (by omega) hroom
      exact Mem.sw_ne _ _ this.1 this.2
    refine ⟨_, _, rfl, runs_push m1 (.g e.aux), v :: hw, ?_, ?_, hsp, hr1.fp, hr1.room, hr1.lim, ?_, hr1.reg, ?_⟩
    · have : (relDrop e { t1 with out := t1.out ++ [Line.push (.g e.aux)] }).stk = es' := by simp [relDrop, hs1]
      rw [this]
      exact .arg ha (hrest.keep (fun _ => rfl) hmem fun _ _ _ => ⟨rfl, rfl⟩)
    · show HwMem F.base (m1.mem.sw (m1.sp - 2) (m1.g e.aux)) _
      rw [hsp, hval]
      exact hr1.hwm.push v (by have := hr1.lim; omega)
    · intro x hx
      rw [hmem x hx]; exact hr1.mem x hx
    · have := hfl.pop hrest.vals_length
      have h2 : (relDrop e { t1 with out := t1.out ++ [Line.push (.g e.aux)] }).stk = es' := by simp [relDrop, hs1]
      have h3 : (relDrop e { t1 with out := t1.out ++ [Line.push (.g e.aux)] }).flg = cutFlg t1.flg es'.length := by
        simp [relDrop, hs1]
      rw [h2, h3]
      exact fun hg => this hg
  · refine Goes.after mi w hr take1 fun m1 hr1 _ => ?_
    obtain ⟨hw, hr1⟩ := hr1
    have hrepr := hr1.repr
    have hfl := hr1.fl
    rw [hs1] at hrepr hfl
    cases hrepr with
    | val h => exact absurd rfl h
    | @stk _ _ _ _ _ hw' k1 k2 =>
      refine ⟨m1, [], by simp [relDrop], Runs.nil E m1, _, ?_, hr1.hwm, hr1.sp, hr1.fp, hr1.room, hr1.lim, hr1.mem, hr1.reg, ?_⟩
      · have : (relDrop ⟨.STK, a⟩ t1).stk = es' := by simp [relDrop, hs1]
        rw [this]
        exact .arg k1 k2
      · have := hfl.pop k2.vals_length
        have h2 : (relDrop ⟨.STK, a⟩ t1).stk = es' := by simp [relDrop, hs1]
        have h3 : (relDrop ⟨.STK, a⟩ t1).flg = cutFlg t1.flg es'.length := by simp [relDrop, hs1]
        rw [h2, h3]
        exact fun hg => this hg

/-- A value that is returned: only that value is on the stack. -/
theorem mreg_rel {E : Env} {F : Fr} {g : Gh} {t t' : T} {s : Sto} {m : M} {e : Ent}
    {v p : Word} (w : W t) (hs : t.stk = [e]) (h0 : e.sta ≠ .STK) (hr : Rel E F g t [.val v p] s m)
    (h : vmMReg t = some t') :
    ∃ m' c, t'.out = t.out ++ c ∧ Runs E c m m' ∧ Rel E F g t' [] s m' ∧ m'.g 0 = v := by
  have fin : ∀ (o : List Line) (n : Nat) (g2 : Int → Word), (∀ r, r ≠ 0 → g2 r = m.g r) →
      Rel E F g (relDrop e { t with out := o, tlab := n }) [] s { m with g := g2 } := by
    intro o n g2 hg2
    obtain ⟨hw, hr⟩ := pop_rel hs h0 hr
    have hrepr := hr.repr
    simp only [relDrop, hs, List.tail_cons] at hrepr
    cases hrepr
    refine ⟨[], ?_, hr.hwm, hr.sp, hr.fp, hr.room, hr.lim, hr.mem, fun r h1 h2 => ?_, hr.fl⟩
    · show Repr _ _ t.stk.tail _
      rw [hs]
      exact .nil
    · show g2 r = _
      rw [hg2 r (by omega)]
      exact hr.reg r h1 h2
  have hv := hr.top hs h0
  rcases vmMReg_form w hs h0 h with ⟨he, rfl⟩ | ⟨he, rfl⟩ | ⟨sr, ho, _, rfl⟩
  · refine ⟨m, [], by simp [relDrop], Runs.nil E m, pop_rel hs h0 hr, ?_⟩
    rw [he] at hv
    exact hv
  · obtain ⟨sta, a⟩ := e
    simp only at he
    subst he
    exact ⟨_, _, rfl, flgCode_runs E 0 _ _ m, fin _ _ _ fun r hne => setG_ne _ _ hne, (setG_same m.g 0 _).trans hv⟩
  · refine ⟨_, _, rfl, runs_op m .LD (.g 0) sr, ?_, ?_⟩
    · exact fin _ t.tlab (setG m.g 0 (srcVal E m sr)) fun r hne => setG_ne _ _ hne
    · show setG m.g 0 (srcVal E m sr) 0 = v
      rw [setG_same]
      obtain ⟨_, hr⟩ := hr
      exact hv.src ho hr.fp

end Cmm.Tac
