import Verif.Lib.StdioLemmas
import Mathlib.Data.List.Nodup
import Mathlib.Data.List.Dedup
import Mathlib.Data.Finset.Card

/-
C22: open streams occupy distinct slots and stale streams are rejected.
-/
namespace Cmm.Stdio
open Cmm.Ctype Cmm.Str

/-- The linker gives the three standard streams different addresses that are not null. -/
def Std.Ok (d : Std) : Prop := [0, d.stdin, d.stdout, d.stderr].Nodup

/-- Specification: the streams a program opened by fopen and did not close by fclose yet. -/
def opens : List Act → List Word → List Word
  | [], l => l
  | .call (.opn _ _) r :: as, l => opens as (if r = 0 then l else r :: l)
  | .call (.cls fp) r :: as, l => opens as (if r = 0 then l.filter (· ≠ fp) else l)
  | _ :: as, l => opens as l

/-- The state when main starts. -/
abbrev begin (d : Std) (f : Word → FRec) (m : Mem) : St := stdioInit d (start d f m)

theorem live_append (es l) : ∀ tr, live (tr ++ es) l = live es (live tr l) := by
  intro tr
  induction tr generalizing l with
  | nil => rfl
  | cons e tr ih => cases e <;> simp only [List.cons_append, live, ih]

theorem live_on {fp} : ∀ {es : List Ev}, (∀ e ∈ es, e.on fp) → ∀ l, live es l = l := by
  intro es
  induction es with
  | nil => intro _ l; rfl
  | cons e es ih =>
    intro h l
    have he := h e (by simp)
    have := ih (fun x hx => h x (by simp [hx])) l
    cases e <;> first | exact this | exact he.elim

theorem Touch.live {fp st st'} (h : Touch fp st st') : Stdio.live st'.tr [] = Stdio.live st.tr [] := by
  obtain ⟨es, he, hon⟩ := h.tr
  rw [he, live_append, live_on hon]

theorem Touch.slot' {fp st st'} (h : Touch fp st st') (a) : (st'.file a).slot = (st.file a).slot := by
  by_cases e : a = fp
  · rw [e]; exact h.slot
  · rw [h.other a e]

theorem Touch.buf' {fp st st'} (h : Touch fp st st') (a) : (st'.file a).buf = (st.file a).buf := by
  by_cases e : a = fp
  · rw [e]; exact h.buf
  · rw [h.other a e]

/-- The invariant only depends on the table, the slots, the buffers and the allocated blocks. -/
theorem Inv.mono {d st st'} (h : Inv d st) (ha : st'.all = st.all)
    (hr : ∀ i < 8, st.at i ≠ 0 → (st'.file (st.at i)).slot = (st.file (st.at i)).slot ∧ (st'.file (st.at i)).buf = (st.file (st.at i)).buf)
    (hl : ∀ x, InUse st x → x ∈ live st.tr [] → x ∈ live st'.tr []) (hd : d.Ok) : Inv d st' := by
  have e : ∀ i, st'.at i = st.at i := fun i => by simp [St.at, ha]
  have n0 : st.at 0 ≠ 0 := by rw [h.std0]; simp [Std.Ok] at hd; tauto
  have n1 : st.at 1 ≠ 0 := by rw [h.std1]; simp [Std.Ok] at hd; tauto
  have n2 : st.at 2 ≠ 0 := by rw [h.std2]; simp [Std.Ok] at hd; tauto
  refine ⟨by rw [e, h.std0], by rw [e, h.std1], by rw [e, h.std2], ?_, ?_, ?_, ?_, ?_, ?_⟩
  · intro i hi hn; rw [e] at hn ⊢; rw [(hr i hi hn).1, h.slot i hi hn]
  · intro i hi h3 hn; rw [e] at hn ⊢; rw [(hr i hi hn).2]
    obtain ⟨a, b, c, f⟩ := h.own i hi h3 hn
    exact ⟨hl _ ⟨i, hi, hn, .inl rfl⟩ a, hl _ ⟨i, hi, hn, .inr rfl⟩ b, c, f⟩
  · intro i hi j hj h3 h3' hn hn'; rw [e] at hn hn'; rw [e, e, (hr i hi hn).2, (hr j hj hn').2]
    exact h.apart i hi j hj h3 h3' hn hn'
  · have := (hr 0 (by decide) n0).2; rw [h.std0] at this; rw [this, h.inBuf]
  · have := (hr 1 (by decide) n1).2; rw [h.std1] at this; rw [this, h.outBuf]
  · have := (hr 2 (by decide) n2).2; rw [h.std2] at this; rw [this, h.errBuf]

theorem Inv.touch {d st st' fp} (hd : d.Ok) (h : Inv d st) (t : Touch fp st st') : Inv d st' :=
  h.mono t.all (fun i _ _ => ⟨t.slot' _, t.buf' _⟩) (fun x _ hx => by rw [t.live]; exact hx) hd

/-- Only the open streams are accepted. -/
theorem Inv.accept {d st} (h : Inv d st) (fp) : badFp st fp = false ↔ fp ≠ 0 ∧ ∃ i < 8, st.at i = fp := by
  unfold badFp
  constructor
  · intro hb
    simp only [Bool.or_eq_false_iff, decide_eq_false_iff_not, not_not, NSLOT] at hb
    obtain ⟨⟨⟨h0, h1⟩, h2⟩, h3⟩ := hb
    refine ⟨h0, (st.file fp).slot.toNat, ?_, by simpa [St.at] using h3⟩
    unfold ilt at h1; unfold ile at h2
    simp only [BitVec.slt_eq_decide, BitVec.sle_eq_decide, decide_eq_false_iff_not] at h1 h2
    simp only [BitVec.toInt_eq_toNat_cond] at h1 h2
    have e0 : (0 : Word).toNat = 0 := rfl
    have e8 : (8 : Word).toNat = 8 := rfl
    rw [e0] at h1; rw [e8] at h2
    have := (st.file fp).slot.isLt
    omega
  · rintro ⟨h0, i, hi, rfl⟩
    have := h.slot i hi h0
    rw [this]
    have : ilt (BitVec.ofNat 16 i) 0 = false ∧ ile NSLOT (BitVec.ofNat 16 i) = false := by
      interval_cases i <;> decide
    rw [this.1, this.2]
    simp only [h0, decide_false, Bool.or_self, ne_eq, not_true_eq_false]

theorem srchLoop_spec (st : St) : ∀ n k, n + k = 8 →
    (srchLoop st n (BitVec.ofNat 16 k) = -1 ∧ ∀ j, k ≤ j → j < 8 → st.at j ≠ 0) ∨
    ∃ i, k ≤ i ∧ i < 8 ∧ srchLoop st n (BitVec.ofNat 16 k) = BitVec.ofNat 16 i ∧ st.at i = 0 ∧ ∀ j, k ≤ j → j < i → st.at j ≠ 0 := by
  intro n
  induction n with
  | zero => intro k hk; left; exact ⟨rfl, fun j h1 h2 => by omega⟩
  | succ n ih =>
    intro k hk
    unfold srchLoop
    by_cases h : st.all (BitVec.ofNat 16 k) = 0
    · right; exact ⟨k, Nat.le_refl _, by omega, by rw [if_pos h], h, fun j h1 h2 => by omega⟩
    · rw [if_neg h]
      have e : BitVec.ofNat 16 k + 1 = BitVec.ofNat 16 (k + 1) := add_ofNat_succ k
      rw [e]
      rcases ih (k + 1) (by omega) with ⟨h1, h2⟩ | ⟨i, h1, h2, h3, h4, h5⟩
      · refine .inl ⟨h1, fun j hj hj8 => ?_⟩
        rcases Nat.eq_or_lt_of_le hj with rfl | hlt
        · exact h
        · exact h2 j hlt hj8
      · refine .inr ⟨i, by omega, h2, h3, h4, fun j hj hji => ?_⟩
        rcases Nat.eq_or_lt_of_le hj with rfl | hlt
        · exact h
        · exact h5 j hlt hji

/-- A new stream takes the first free slot. -/
theorem allocFile_spec {S fd mode siz st fp st'} (h : allocFile S fd mode siz st = .ok (fp, st')) :
    ∃ i b, i < 8 ∧ st.at i = 0 ∧ (∀ j < i, st.at j ≠ 0) ∧ S.alloc st.tr = some fp ∧ S.alloc (st.tr ++ [.alloc fp]) = some b ∧
      st' = { tr := st.tr ++ [.alloc fp, .alloc b], all := fun x => if x = BitVec.ofNat 16 i then fp else st.all x, errno := st.errno,
              mem := st.mem, file := fun a => if a = fp then ⟨fd, mode, b, siz, 0, 0, false, false, false, BitVec.ofNat 16 i, (st.file a).data⟩
                else st.file a } := by
  unfold allocFile srchSlot at h
  rcases srchLoop_spec st 8 0 rfl with ⟨h1, h2⟩ | ⟨i, _, h2, h3, h4, h5⟩
  · have h1 : srchLoop st 8 0 = -1 := h1
    rw [h1] at h
    have : ilt (-1) 0 = true := by decide
    rw [if_pos this] at h; simp only [reduceCtorEq] at h
  · have h3 : srchLoop st 8 0 = BitVec.ofNat 16 i := h3
    rw [h3] at h
    have : ilt (BitVec.ofNat 16 i) 0 = false := by interval_cases i <;> decide
    simp only [this, Bool.false_eq_true, if_false] at h
    cases e1 : S.alloc st.tr with
    | none => rw [e1] at h; simp at h
    | some p =>
      simp only [e1] at h
      split at h
      · simp at h
      · rename_i b e2
        simp only [Except.ok.injEq, Prod.mk.injEq] at h
        obtain ⟨rfl, rfl⟩ := h
        refine ⟨i, b, h2, h4, fun j hj => h5 j (Nat.zero_le _) hj, rfl, e2, ?_⟩
        simp only [St.log, St.upd, List.append_assoc, List.singleton_append]
        congr 1
        funext a
        by_cases ha : a = p
        · simp [ha]
        · simp [ha]

/-- What fopen does before it makes a stream. -/
structure Opening (st s : St) : Prop where
  all : s.all = st.all
  file : s.file = st.file
  mem : s.mem = st.mem
  tr : ∃ es, s.tr = st.tr ++ es ∧ ∀ e ∈ es, (∃ a b c, e = .opened a b c) ∨ ∃ a b, e = .creat a b

theorem Opening.trans {s t u} (h : Opening s t) (k : Opening t u) : Opening s u := by
  obtain ⟨es, he, hon⟩ := h.tr; obtain ⟨es', he', hon'⟩ := k.tr
  refine ⟨k.all.trans h.all, k.file.trans h.file, k.mem.trans h.mem, es ++ es', by rw [he', he, List.append_assoc], ?_⟩
  intro e hm; rcases List.mem_append.1 hm with m | m
  · exact hon e m
  · exact hon' e m

theorem Opening.live {s t} (h : Opening s t) : Stdio.live t.tr [] = Stdio.live s.tr [] := by
  obtain ⟨es, he, hon⟩ := h.tr
  rw [he, live_append]
  generalize Stdio.live s.tr [] = l
  clear he
  induction es with
  | nil => rfl
  | cons e es ih =>
    have := ih (fun x hx => hon x (by simp [hx]))
    rcases hon e (by simp) with ⟨_, _, _, rfl⟩ | ⟨_, _, rfl⟩ <;> exact this

theorem doOpen_opening (S name mode st) : Opening st (doOpen S name mode st).2 := by
  unfold doOpen St.sysret
  simp only
  split
  · exact ⟨rfl, rfl, rfl, [.opened name mode (S.opn st.tr name mode)], rfl, by simp⟩
  · exact ⟨rfl, rfl, rfl, [.opened name mode (S.opn st.tr name mode)], rfl, by simp⟩

theorem doCreat_opening (S name st) : Opening st (doCreat S name st).2 := by
  unfold doCreat St.sysret
  simp only
  split
  · exact ⟨rfl, rfl, rfl, [.creat name (S.creat st.tr name)], rfl, by simp⟩
  · exact ⟨rfl, rfl, rfl, [.creat name (S.creat st.tr name)], rfl, by simp⟩

/-- The access mode for a mode string. -/
def modeOf (md : List Byte) : Option Word :=
  if md = [0x72#8] then some O_RDONLY else if md = [0x77#8] then some O_WRONLY else if md = [0x61#8] then some O_APPEND else none

theorem fopen_spec {S name md st r st'} (h : fopen S name md st = .ok (r, st')) :
    ∃ s, Opening st s ∧ (r = 0 ∧ st' = s ∨ ∃ fd mode, ilt fd 0 = false ∧ modeOf md = some mode ∧ allocFile S fd mode 128 s = .ok (r, st')) := by
  have aw : ∀ mode, awOpen S name mode st = .ok (r, st') →
      ∃ s, Opening st s ∧ (r = 0 ∧ st' = s ∨ ∃ fd, ilt fd 0 = false ∧ allocFile S fd mode 128 s = .ok (r, st')) := by
    intro mode h
    unfold awOpen at h
    have h1 := doOpen_opening S name mode st
    generalize doOpen S name mode st = q at h h1
    obtain ⟨fd, s⟩ := q
    simp only at h h1
    split at h
    · split at h
      · have h2 := h1.trans (doCreat_opening S name s)
        generalize doCreat S name s = q at h h2
        obtain ⟨c, s2⟩ := q
        simp only at h h2
        split at h
        · have h3 := h2.trans (doOpen_opening S name mode s2)
          generalize doOpen S name mode s2 = q at h h3
          obtain ⟨fd2, s3⟩ := q
          simp only at h h3
          split at h
          · cases h; exact ⟨_, h3, .inl ⟨rfl, rfl⟩⟩
          · rename_i hf; exact ⟨_, h3, .inr ⟨fd2, by simpa using hf, h⟩⟩
        · cases h; exact ⟨_, h2, .inl ⟨rfl, rfl⟩⟩
      · cases h; exact ⟨_, h1, .inl ⟨rfl, rfl⟩⟩
    · rename_i hf; exact ⟨_, h1, .inr ⟨fd, by simpa using hf, h⟩⟩
  unfold fopen at h
  unfold modeOf
  split at h
  · rename_i hm
    unfold rdOpen at h
    have h1 := doOpen_opening S name O_RDONLY st
    generalize doOpen S name O_RDONLY st = q at h h1
    obtain ⟨fd, s⟩ := q
    simp only at h h1
    split at h
    · cases h; exact ⟨_, h1, .inl ⟨rfl, rfl⟩⟩
    · rename_i hf; exact ⟨_, h1, .inr ⟨fd, _, by simpa using hf, by rw [if_pos hm], h⟩⟩
  · rename_i h0
    split at h
    · rename_i hm
      obtain ⟨s, hs, hh⟩ := aw _ h
      refine ⟨s, hs, hh.imp id ?_⟩
      rintro ⟨fd, hf, ha⟩; exact ⟨fd, _, hf, by rw [if_neg h0, if_pos hm], ha⟩
    · rename_i h1
      split at h
      · rename_i hm
        obtain ⟨s, hs, hh⟩ := aw _ h
        refine ⟨s, hs, hh.imp id ?_⟩
        rintro ⟨fd, hf, ha⟩; exact ⟨fd, _, hf, by rw [if_neg h0, if_neg h1, if_pos hm], ha⟩
      · simp at h

/-- What fclose does. -/
theorem fclose_spec {S fp st b st'} (h : fclose S fp st = .ok (b, st')) :
    badFp st fp = false ∧ ilt (st.file fp).slot 3 = false ∧ ∃ s, Touch fp st s ∧
      (b = true ∧ (st' = s ∨ ∃ r, st' = ((s.log (.close fp (s.file fp).fd r)).sysret r).upd fp fun f => { f with err := true, eof := true }) ∨
       b = false ∧ ∃ r fr, (fr = [] ∨ fr = [.free (s.file fp).buf]) ∧
         st' = { s with tr := s.tr ++ .close fp (s.file fp).fd r :: fr ++ [.free fp],
                        all := fun i => if i = (s.file fp).slot then 0 else s.all i }) := by
  have rest : ∀ s, Touch fp st s → fcloseRest S fp s = .ok (b, st') → ∃ s, Touch fp st s ∧
      (b = true ∧ (st' = s ∨ ∃ r, st' = ((s.log (.close fp (s.file fp).fd r)).sysret r).upd fp fun f => { f with err := true, eof := true }) ∨
       b = false ∧ ∃ r fr, (fr = [] ∨ fr = [.free (s.file fp).buf]) ∧
         st' = { s with tr := s.tr ++ .close fp (s.file fp).fd r :: fr ++ [.free fp],
                        all := fun i => if i = (s.file fp).slot then 0 else s.all i }) := by
    intro s hs h
    unfold fcloseRest at h
    simp only at h
    split at h
    · cases h; exact ⟨s, hs, .inl ⟨rfl, .inr ⟨_, rfl⟩⟩⟩
    · rename_i hneg
      have e : ∀ x : St, x.sysret (S.close s.tr (s.file fp).fd) = x := by intro x; unfold St.sysret; rw [if_neg hneg]
      rw [e] at h
      split at h
      · cases h; exact ⟨s, hs, .inr ⟨rfl, S.close s.tr (s.file fp).fd, [.free (s.file fp).buf], .inr rfl, by simp only [St.log, List.append_assoc]; rfl⟩⟩
      · cases h; exact ⟨s, hs, .inr ⟨rfl, S.close s.tr (s.file fp).fd, [], .inl rfl, by simp only [St.log, List.append_assoc]; rfl⟩⟩
  unfold fclose at h
  split at h; · simp at h
  rename_i hb
  split at h; · simp at h
  rename_i hs
  refine ⟨by simpa using hb, by simpa using hs, ?_⟩
  split at h
  · have ht := fflush_touch S fp st
    split at h
    · simp at h
    · rename_i s he; rw [he] at ht; cases h; exact ⟨_, ht, .inl ⟨rfl, .inl rfl⟩⟩
    · rename_i s he; rw [he] at ht; exact rest s ht h
  · exact rest st (.refl _ _) h

/-- The state of the program and the list of streams it opened agree. -/
structure Agree (d : Std) (st : St) (l : List Word) : Prop where
  inv : Inv d st
  mem : ∀ x, x ∈ l ↔ x ≠ 0 ∧ ∃ i < 8, 3 ≤ i ∧ st.at i = x
  nodup : l.Nodup

theorem ofNat_inj8 {i j : Nat} (hi : i < 8) (hj : j < 8) (h : BitVec.ofNat 16 i = BitVec.ofNat 16 j) : i = j := by
  have := congrArg BitVec.toNat h
  simp only [BitVec.toNat_ofNat] at this
  omega

/-- Two entries of the table are different streams. -/
theorem Inv.inj {d st} (h : Inv d st) {i j : Nat} (hi : i < 8) (hj : j < 8) (hn : st.at i ≠ 0) (e : st.at i = st.at j) : i = j := by
  have a := h.slot i hi hn
  have b := h.slot j hj (e ▸ hn)
  rw [e, b] at a
  exact (ofNat_inj8 hj hi a).symm

theorem Agree.mono {d st st' l} (h : Agree d st l) (ha : st'.all = st.all) (hi : Inv d st') : Agree d st' l :=
  ⟨hi, fun x => by rw [h.mem]; simp only [St.at, ha], h.nodup⟩

theorem live_alloc (a l tr) : live (tr ++ [.alloc a]) l = a :: live tr l := by rw [live_append]; rfl

theorem live_free (a l tr) : live (tr ++ [.free a]) l = (live tr l).filter (· ≠ a) := by rw [live_append]; rfl

/-- Opening a file. -/
theorem Agree.opn {S d st l name md r st'} (hd : d.Ok) (hS : HeapOk S d) (h : Agree d st l) (ho : fopen S name md st = .ok (r, st')) :
    Agree d st' (if r = 0 then l else r :: l) := by
  obtain ⟨s, hs, hh⟩ := fopen_spec ho
  have h1 : Agree d s l := h.mono hs.all (h.inv.mono hs.all (fun i _ _ => by rw [hs.file]; exact ⟨rfl, rfl⟩)
    (fun x _ hx => by rw [hs.live]; exact hx) hd)
  rcases hh with ⟨rfl, rfl⟩ | ⟨fd, mode, _, _, hal⟩
  · simpa using h1
  · obtain ⟨i, b, hi, h0, hlt, ha, hb, hst⟩ := allocFile_spec hal
    revert hst; generalize st' = t; intro hst
    have hr := hS _ _ ha
    have hb' := hS _ _ hb
    rw [live_alloc] at hb'
    have r0 : r ≠ 0 := fun e => hr.2 (by simp [Std.addrs, e])
    rw [if_neg r0]
    have I := h1.inv
    have i3 : 3 ≤ i := by
      by_contra hlt3
      have : i = 0 ∨ i = 1 ∨ i = 2 := by omega
      simp only [Std.Ok, List.nodup_cons, List.mem_cons, not_or, List.not_mem_nil, not_false_eq_true, List.nodup_nil, and_true] at hd
      rcases this with e | e | e <;> subst e
      · rw [I.std0] at h0; exact hd.1.1 h0.symm
      · rw [I.std1] at h0; exact hd.1.2.1 h0.symm
      · rw [I.std2] at h0; exact hd.1.2.2 h0.symm
    have hnew : ∀ j < 8, s.at j ≠ r := by
      intro j hj e
      by_cases hj3 : 3 ≤ j
      · exact hr.1 (e ▸ (I.own j hj hj3 (e ▸ r0)).1)
      · have : j = 0 ∨ j = 1 ∨ j = 2 := by omega
        apply hr.2
        rcases this with e' | e' | e' <;> subst e'
        · rw [I.std0] at e; simp [Std.addrs, e]
        · rw [I.std1] at e; simp [Std.addrs, e]
        · rw [I.std2] at e; simp [Std.addrs, e]
    have br : b ≠ r := fun e => hb'.1 (by simp [e])
    have ti : t.at i = r := by rw [hst]; exact if_pos rfl
    have tj : ∀ j < 8, j ≠ i → t.at j = s.at j := by
      intro j hj hji
      have : BitVec.ofNat 16 j ≠ BitVec.ofNat 16 i := fun e => hji (ofNat_inj8 hj hi e)
      rw [hst]; exact if_neg this
    have fr : t.file r = ⟨fd, mode, b, 128, 0, 0, false, false, false, BitVec.ofNat 16 i, (s.file r).data⟩ := by simp [hst]
    have fa : ∀ a, a ≠ r → t.file a = s.file a := by intro a ha; simp [hst, ha]
    have tl : live t.tr [] = b :: r :: live s.tr [] := by
      have : t.tr = (s.tr ++ [.alloc r]) ++ [.alloc b] := by simp [hst]
      rw [this, live_alloc, live_alloc]
    have as : ∀ a ∈ d.addrs, a ≠ r := fun a ha e => hr.2 (e ▸ ha)
    have sp : ∀ j < 8, j ≠ i → (t.file (t.at j)) = s.file (s.at j) := by
      intro j hj hji; rw [tj j hj hji, fa _ (hnew j hj)]
    refine ⟨⟨?_, ?_, ?_, ?_, ?_, ?_, ?_, ?_, ?_⟩, ?_, ?_⟩
    · rw [tj 0 (by decide) (by omega), I.std0]
    · rw [tj 1 (by decide) (by omega), I.std1]
    · rw [tj 2 (by decide) (by omega), I.std2]
    · intro j hj hn
      by_cases e : j = i
      · subst e; rw [ti, fr]
      · rw [sp j hj e]; rw [tj j hj e] at hn; exact I.slot j hj hn
    · intro j hj hj3 hn
      rw [tl]
      by_cases e : j = i
      · subst e; rw [ti, fr]; exact ⟨by simp, by simp, hr.2, hb'.2⟩
      · rw [sp j hj e]; rw [tj j hj e] at hn ⊢
        obtain ⟨a1, a2, a3, a4⟩ := I.own j hj hj3 hn
        exact ⟨by simp [a1], by simp [a2], a3, a4⟩
    · intro j hj k hk hj3 hk3 hn hn'
      by_cases e : j = i
      · subst e
        by_cases e' : k = j
        · subst e'; rw [ti, fr]; exact ⟨br.symm, fun x => absurd rfl x⟩
        · rw [sp k hk e', ti, fr]; rw [tj k hk e'] at hn'
          have o := I.own k hk hk3 hn'
          exact ⟨fun x => hr.1 (x ▸ o.2.1), fun _ x => hb'.1 (by simp only at x; rw [x]; simp [o.2.1])⟩
      · rw [sp j hj e]; rw [tj j hj e] at hn ⊢
        by_cases e' : k = i
        · subst e'; rw [ti, fr]
          have o := I.own j hj hj3 hn
          exact ⟨fun x => hb'.1 (by simp only at x; rw [← x]; simp [o.1]), fun _ x => hb'.1 (by simp only at x; rw [← x]; simp [o.2.1])⟩
        · rw [sp k hk e']; rw [tj k hk e'] at hn'
          exact I.apart j hj k hk hj3 hk3 hn hn'
    · rw [fa _ (as _ (by simp [Std.addrs])), I.inBuf]
    · rw [fa _ (as _ (by simp [Std.addrs])), I.outBuf]
    · rw [fa _ (as _ (by simp [Std.addrs])), I.errBuf]
    · intro x
      rw [List.mem_cons, h1.mem]
      constructor
      · rintro (rfl | ⟨hx, j, hj, hj3, e⟩)
        · exact ⟨r0, i, hi, i3, ti⟩
        · have : j ≠ i := fun e' => by subst e'; rw [h0] at e; exact hx e.symm
          exact ⟨hx, j, hj, hj3, by rw [tj j hj this]; exact e⟩
      · rintro ⟨hx, j, hj, hj3, e⟩
        by_cases e' : j = i
        · subst e'; left; rw [← e, ti]
        · right; rw [tj j hj e'] at e; exact ⟨hx, j, hj, hj3, e⟩
    · refine List.nodup_cons.2 ⟨fun hm => ?_, h1.nodup⟩
      obtain ⟨_, j, hj, _, e⟩ := (h1.mem r).1 hm
      exact hnew j hj e

/-- Closing a file. -/
theorem Agree.cls {S d st l fp b st'} (hd : d.Ok) (h : Agree d st l) (hc : fclose S fp st = .ok (b, st')) :
    Agree d st' (if b then l else l.filter (· ≠ fp)) := by
  obtain ⟨hbad, hslot, s, ht, hh⟩ := fclose_spec hc
  have h1 : Agree d s l := h.mono ht.all (h.inv.touch hd ht)
  rcases hh with ⟨rfl, rfl | ⟨r, rfl⟩⟩ | ⟨rfl, r, fr, hfr, hst⟩
  · exact h1
  · refine h1.mono ?_ (h1.inv.mono ?_ ?_ ?_ hd)
    · simp only [St.upd, St.sysret, St.log]; split <;> rfl
    · simp only [St.upd, St.sysret, St.log]; split <;> rfl
    · intro i _ _
      simp only [St.upd, St.sysret, St.log]; split <;> (split <;> exact ⟨rfl, rfl⟩)
    · intro x _ hx
      simp only [St.upd, St.sysret, St.log]; split <;> (rw [live_append]; exact hx)
  · obtain ⟨fp0, i, hi, hai⟩ := (h.inv.accept fp).1 hbad
    have hai : s.at i = fp := by rw [← hai]; simp only [St.at, ht.all]
    have I := h1.inv
    have hsl : (s.file fp).slot = BitVec.ofNat 16 i := by rw [← hai]; exact I.slot i hi (hai ▸ fp0)
    have i3 : 3 ≤ i := by
      rw [← ht.slot, hsl, show (3 : Word) = BitVec.ofNat 16 3 from rfl, ilt_ofNat (by omega) (by omega)] at hslot
      simpa using hslot
    revert hst; generalize st' = t; intro hst
    have tf : t.file = s.file := by simp [hst]
    have ti : t.at i = 0 := by rw [hst]; exact if_pos hsl.symm
    have tj : ∀ j < 8, j ≠ i → t.at j = s.at j := by
      intro j hj hji
      have : BitVec.ofNat 16 j ≠ BitVec.ofNat 16 i := fun e => hji (ofNat_inj8 hj hi e)
      rw [hst]; exact if_neg (hsl ▸ this)
    have nz : ∀ j, t.at j ≠ 0 → j ≠ i := by rintro j hn rfl; exact hn ti
    have tl : ∀ x, x ≠ fp → x ≠ (s.file fp).buf → x ∈ live s.tr [] → x ∈ live t.tr [] := by
      intro x hx1 hx2 hm
      have : live t.tr [] = (live fr (live s.tr [])).filter (· ≠ fp) := by
        have : t.tr = (s.tr ++ .close fp (s.file fp).fd r :: fr) ++ [.free fp] := by simp [hst]
        rw [this, live_free, live_append]; rfl
      rw [this]
      rcases hfr with rfl | rfl
      · simp [live, hm, hx1]
      · simp [live, hm, hx1, hx2]
    have ij : ∀ j < 8, j ≠ i → s.at j ≠ 0 → s.at j ≠ fp := fun j hj hji hn e => hji (I.inj hj hi hn (e.trans hai.symm))
    refine ⟨⟨?_, ?_, ?_, ?_, ?_, ?_, ?_, ?_, ?_⟩, ?_, ?_⟩
    · rw [tj 0 (by decide) (by omega), I.std0]
    · rw [tj 1 (by decide) (by omega), I.std1]
    · rw [tj 2 (by decide) (by omega), I.std2]
    · intro j hj hn
      have e := nz j hn
      rw [tf]; rw [tj j hj e] at hn ⊢; exact I.slot j hj hn
    · intro j hj hj3 hn
      have e := nz j hn
      rw [tf]; rw [tj j hj e] at hn ⊢
      obtain ⟨a1, a2, a3, a4⟩ := I.own j hj hj3 hn
      have a5 := I.apart j hj i hi hj3 i3 hn (hai ▸ fp0)
      have a6 := I.apart i hi j hj i3 hj3 (hai ▸ fp0) hn
      rw [hai] at a5 a6
      exact ⟨tl _ (ij j hj e hn) a5.1 a1, tl _ a6.1.symm (a5.2 e) a2, a3, a4⟩
    · intro j hj k hk hj3 hk3 hn hn'
      have e := nz j hn
      have e' := nz k hn'
      rw [tf]; rw [tj j hj e] at hn ⊢; rw [tj k hk e'] at hn' ⊢
      exact I.apart j hj k hk hj3 hk3 hn hn'
    · rw [tf, I.inBuf]
    · rw [tf, I.outBuf]
    · rw [tf, I.errBuf]
    · intro x
      rw [if_neg (by simp), List.mem_filter, h1.mem]
      constructor
      · rintro ⟨⟨hx, j, hj, hj3, e⟩, hne⟩
        have : j ≠ i := fun e' => by subst e'; rw [hai] at e; simp [e] at hne
        exact ⟨hx, j, hj, hj3, by rw [tj j hj this]; exact e⟩
      · rintro ⟨hx, j, hj, hj3, e⟩
        have e' : j ≠ i := fun e' => by subst e'; rw [ti] at e; exact hx e.symm
        rw [tj j hj e'] at e
        refine ⟨⟨hx, j, hj, hj3, e⟩, ?_⟩
        have := ij j hj e' (e ▸ hx)
        rw [e] at this; simpa using this
    · rw [if_neg (by simp)]; exact h1.nodup.filter _

theorem asWord_ok {q : X Bool} {r st} (h : asWord q = .ok (r, st)) : ∃ b, q = .ok (b, st) ∧ r = if b then 1 else 0 := by
  rcases q with e | ⟨b, s⟩
  · simp [asWord] at h
  · simp only [asWord, Except.ok.injEq, Prod.mk.injEq] at h
    exact ⟨b, by rw [h.2], h.1.symm⟩

/-- One step of the program. -/
theorem Agree.step {S d st l a st'} (hd : d.Ok) (hS : HeapOk S d) (h : Agree d st l) (hs : Step S st a st') :
    Agree d st' (opens [a] l) := by
  cases hs with
  | call hr =>
    rename_i c r
    cases ht : c.target with
    | none =>
      cases c <;> simp only [Call.target, reduceCtorEq] at ht
      simp only [Call.run, Option.some.injEq] at hr
      exact h.opn hd hS hr
    | some fp =>
      by_cases hc : c = .cls fp
      · subst hc
        simp only [Call.run, Option.some.injEq] at hr
        obtain ⟨b, hb, rfl⟩ := asWord_ok hr
        have := h.cls hd hb
        cases b
        · simpa [opens] using this
        · simpa [opens] using this
      · have := call_touch ht hc hr
        have k : opens [.call c r] l = l := by
          cases c <;> simp_all [Call.target, opens]
        rw [k]; exact h.mono this.all (h.inv.touch hd this)
  | alloc ha =>
    refine h.mono rfl (h.inv.mono rfl (fun _ _ _ => ⟨rfl, rfl⟩) ?_ hd)
    intro x _ hx; simp only [St.log, live_alloc]; simp [hx]
  | free ha =>
    refine h.mono rfl (h.inv.mono rfl (fun _ _ _ => ⟨rfl, rfl⟩) ?_ hd)
    intro x hu hx; simp only [St.log, live_free]
    simp only [List.mem_filter, hx, true_and, decide_eq_true_eq]
    rintro rfl; exact ha hu
  | store m => exact h.mono rfl (h.inv.mono rfl (fun _ _ _ => ⟨rfl, rfl⟩) (fun _ _ hx => hx) hd)
  | errno e => exact h.mono rfl (h.inv.mono rfl (fun _ _ _ => ⟨rfl, rfl⟩) (fun _ _ hx => hx) hd)
  | scribble hx =>
    rename_i x f
    refine h.mono rfl (h.inv.mono rfl (fun i hi hn => ?_) (fun _ _ hx => hx) hd)
    have : st.at i ≠ x := fun e => hx ⟨i, hi, hn, .inl e.symm⟩
    simp [St.upd, this]

theorem opens_cons (a as l) : opens (a :: as) l = opens as (opens [a] l) := by
  cases a <;> try rfl
  rename_i c r
  cases c <;> rfl

theorem Agree.steps {S d st l as st'} (hd : d.Ok) (hS : HeapOk S d) (hs : Steps S st as st') (h : Agree d st l) :
    Agree d st' (opens as l) := by
  induction hs generalizing l with
  | nil => exact h
  | cons h1 _ ih => rw [opens_cons]; exact ih (h.step hd hS h1)

theorem begin_all (d f m) : (begin d f m).all =
    fun i => if i = 2 then d.stderr else if i = 1 then d.stdout else if i = 0 then d.stdin else 0 := rfl

theorem begin_agree {d : Std} (hd : d.Ok) (f m) : Agree d (begin d f m) [] := by
  simp only [Std.Ok, List.nodup_cons, List.mem_cons, not_or, List.not_mem_nil, not_false_eq_true, List.nodup_nil, and_true] at hd
  obtain ⟨⟨n0, n1, n2⟩, ⟨n3, n4⟩, n5⟩ := hd
  have at3 : ∀ i, i < 8 → 3 ≤ i → (begin d f m).at i = 0 := by
    intro i hi h3
    simp only [St.at, begin_all]
    interval_cases i <;> rfl
  have a1 : d.stderr ≠ d.stdin := fun e => n4 e.symm
  have a2 : d.stderr ≠ d.stdout := fun e => n5 e.symm
  have a3 : d.stdout ≠ d.stdin := fun e => n3 e.symm
  refine ⟨⟨rfl, rfl, rfl, ?_, ?_, ?_, ?_, ?_, ?_⟩, ?_, List.nodup_nil⟩
  · intro i hi hn
    by_cases h3 : 3 ≤ i
    · exact absurd (at3 i hi h3) hn
    · have : i = 0 ∨ i = 1 ∨ i = 2 := by omega
      rcases this with e | e | e <;> subst e
      · show ((begin d f m).file d.stdin).slot = 0
        simp [begin, stdioInit, start, St.upd, n3]
      · show ((begin d f m).file d.stdout).slot = 1
        simp [begin, stdioInit, start, St.upd, a3]
      · show ((begin d f m).file d.stderr).slot = 2
        simp [begin, stdioInit, start, St.upd, a1, a2]
  · intro i hi h3 hn; exact absurd (at3 i hi h3) hn
  · intro i hi j hj h3 _ hn; exact absurd (at3 i hi h3) hn
  · simp [begin, stdioInit, start, St.upd, n3]
  · simp [begin, stdioInit, start, St.upd]
  · simp [begin, stdioInit, start, St.upd, a1, a2]
  · intro x
    simp only [List.not_mem_nil, ne_eq, false_iff, not_and, not_exists]
    intro hx i hi h3 e
    rw [at3 i hi h3] at e; exact hx e.symm

/-- The table holds the standard streams and the open files. -/
theorem Agree.reg {d st l} (hd : d.Ok) (A : Agree d st l) (fp : Word) :
    (fp ≠ 0 ∧ ∃ i < 8, st.at i = fp) ↔ fp ∈ [d.stdin, d.stdout, d.stderr] ∨ fp ∈ l := by
  have I := A.inv
  have hd' := hd
  simp only [Std.Ok, List.nodup_cons, List.mem_cons, not_or, List.not_mem_nil, not_false_eq_true, List.nodup_nil, and_true] at hd'
  rw [A.mem]
  constructor
  · rintro ⟨h0, i, hi, e⟩
    by_cases h3 : 3 ≤ i
    · exact .inr ⟨h0, i, hi, h3, e⟩
    · have : i = 0 ∨ i = 1 ∨ i = 2 := by omega
      left
      rcases this with e' | e' | e' <;> subst e'
      · rw [I.std0] at e; simp [e]
      · rw [I.std1] at e; simp [e]
      · rw [I.std2] at e; simp [e]
  · rintro (hm | ⟨h0, i, hi, _, e⟩)
    · simp only [List.mem_cons, List.not_mem_nil, or_false] at hm
      rcases hm with rfl | rfl | rfl
      · exact ⟨fun e => hd'.1.1 e.symm, 0, by decide, I.std0⟩
      · exact ⟨fun e => hd'.1.2.1 e.symm, 1, by decide, I.std1⟩
      · exact ⟨fun e => hd'.1.2.2 e.symm, 2, by decide, I.std2⟩
    · exact ⟨h0, i, hi, e⟩

/-- A call that looks at its stream: fputs of an empty string and fgets of at most one byte do not. -/
def Call.looks (m : Mem) : Call → Bool
  | .puts a _ => m a ≠ 0#8
  | .gets _ n _ => ilt 0 (n - 1)
  | _ => true

theorem reject {S : Sys} {st : St} {c : Call} {fp : Word} (hb : badFp st fp = true) (ht : c.target = some fp) (hl : c.looks st.mem) :
    c.run S st = some (.error (EUBADF, st)) := by
  cases c <;> simp only [Call.target, Option.some.injEq, reduceCtorEq] at ht <;> subst ht <;> simp only [Call.run]
  · simp only [fputc, hb, if_true]; rfl
  · rename_i a fp
    rw [fputs, fputsLoop, show a + 0 = a from BitVec.add_zero a]
    simp only [Call.looks, decide_eq_true_eq] at hl
    rw [if_pos hl]
    simp only [fputc, hb, if_true]; rfl
  · simp only [fflush, hb, if_true]; rfl
  · simp only [feof, hb, if_true]; rfl
  · simp only [fgetc, hb, if_true]; rfl
  · rw [fgets, fgetsLoop]
    simp only [Call.looks] at hl
    rw [if_pos hl]
    simp only [feof, hb, if_true]; rfl
  · simp only [fseek, hb, if_true]; rfl
  · simp only [fclose, hb, if_true]; rfl
  · simp only [ferror, hb, if_true]; rfl

/-- The main part of C22. After any sequence of steps of a program (calls of the stream functions, allocations, changes of its own
memory): slots 0 to 2 hold the standard streams; every entry of the table is the stream that has this slot recorded; the table holds
exactly the standard streams and the streams opened and not closed, all different, at most five; and a call with any other value as
stream ends the program with EUBADF in an unchanged state. Missing for the full claim: fputs of an empty string and fgets with n at most
1 do not look at the stream (see the theorems `_false`). -/
theorem C22_partial {S : Sys} {d : Std} {f : Word → FRec} {m : Mem} {as : List Act} {st : St} (hd : d.Ok) (hS : HeapOk S d)
    (h : Steps S (begin d f m) as st) :
    (st.at 0 = d.stdin ∧ st.at 1 = d.stdout ∧ st.at 2 = d.stderr) ∧
    (∀ i < 8, st.at i ≠ 0 → (st.file (st.at i)).slot = BitVec.ofNat 16 i) ∧
    (opens as []).Nodup ∧ (opens as []).length ≤ 5 ∧
    (∀ fp, (fp ≠ 0 ∧ ∃ i < 8, st.at i = fp) ↔ fp ∈ [d.stdin, d.stdout, d.stderr] ∨ fp ∈ opens as []) ∧
    (∀ fp ∉ [d.stdin, d.stdout, d.stderr], fp ∉ opens as [] → ∀ c : Call, c.target = some fp → c.looks st.mem →
      c.run S st = some (.error (EUBADF, st))) := by
  have A := (begin_agree hd f m).steps hd hS h
  have I := A.inv
  have key := fun fp => A.reg hd fp
  refine ⟨⟨I.std0, I.std1, I.std2⟩, I.slot, A.nodup, ?_, key, ?_⟩
  · have : opens as [] ⊆ [st.at 3, st.at 4, st.at 5, st.at 6, st.at 7] := by
      intro x hx
      obtain ⟨_, i, hi, h3, rfl⟩ := (A.mem x).1 hx
      interval_cases i <;> simp
    exact (A.nodup.subperm this).length_le
  · intro fp h1 h2 c ht hl
    refine reject ?_ ht hl
    by_contra hb
    have := (I.accept fp).1 (by simpa using hb)
    rcases (key fp).1 this with h | h
    · exact h1 h
    · exact h2 h

/-- The streams that are open are accepted by the test of every function. -/
theorem C22_accepts {S : Sys} {d : Std} {f : Word → FRec} {m : Mem} {as : List Act} {st : St} (hd : d.Ok) (hS : HeapOk S d)
    (h : Steps S (begin d f m) as st) {fp : Word} (hf : fp ∈ [d.stdin, d.stdout, d.stderr] ∨ fp ∈ opens as []) : badFp st fp = false := by
  have A := (begin_agree hd f m).steps hd hS h
  rw [A.inv.accept]
  exact (C22_partial hd hS h).2.2.2.2.1 fp |>.2 hf

/-- fopen never ends the program with EUNFILE while fewer than five files are open, and always does so when five are open and the
system opens the file. -/
theorem C22_full {S : Sys} {d : Std} {f : Word → FRec} {m : Mem} {as : List Act} {st : St} (hd : d.Ok) (hS : HeapOk S d)
    (h : Steps S (begin d f m) as st) (s : St) (hs : s.all = st.all) :
    srchSlot s = .error (EUNFILE, s) ↔ (opens as []).length = 5 := by
  have A := (begin_agree hd f m).steps hd hS h
  have hd' := hd
  simp only [Std.Ok, List.nodup_cons, List.mem_cons, not_or, List.not_mem_nil, not_false_eq_true, List.nodup_nil, and_true] at hd'
  have e : ∀ i, s.at i = st.at i := fun i => by simp only [St.at, hs]
  have hfull : (opens as []).length = 5 ↔ ∀ i < 8, 3 ≤ i → st.at i ≠ 0 := by
    constructor
    · intro hl i hi h3 h0
      have hsub : opens as [] ⊆ ([3, 4, 5, 6, 7].filter (· ≠ i)).map st.at := by
        intro x hx
        obtain ⟨hx0, j, hj, hj3, rfl⟩ := (A.mem x).1 hx
        have : j ≠ i := fun e' => hx0 (e' ▸ h0)
        refine List.mem_map.2 ⟨j, ?_, rfl⟩
        simp only [List.mem_filter, this, ne_eq, not_false_eq_true, decide_true, and_true]
        interval_cases j <;> decide
      have := (A.nodup.subperm hsub).length_le
      rw [hl, List.length_map] at this
      have : ([3, 4, 5, 6, 7].filter (· ≠ i)).length = 4 := by interval_cases i <;> decide
      omega
    · intro hall
      have hle := (C22_partial hd hS h).2.2.2.1
      have hsub : ([3, 4, 5, 6, 7].map st.at) ⊆ opens as [] := by
        intro x hx
        obtain ⟨j, hj, rfl⟩ := List.mem_map.1 hx
        have hj' : j < 8 ∧ 3 ≤ j := by
          simp only [List.mem_cons, List.not_mem_nil, or_false] at hj; omega
        exact (A.mem _).2 ⟨hall j hj'.1 hj'.2, j, hj'.1, hj'.2, rfl⟩
      have hnd : ([3, 4, 5, 6, 7].map st.at).Nodup := by
        refine (List.nodup_map_iff_inj_on (by decide)).2 ?_
        intro i hi j hj he
        have hb : ∀ k ∈ [3, 4, 5, 6, 7], k < 8 ∧ 3 ≤ k := by decide
        exact A.inv.inj (hb i hi).1 (hb j hj).1 (hall i (hb i hi).1 (hb i hi).2) he
      have := (hnd.subperm hsub).length_le
      simp only [List.length_map, List.length_cons, List.length_nil] at this
      omega
  rw [hfull]
  have n : ∀ i < 3, st.at i ≠ 0 := by
    intro i hi
    have : i = 0 ∨ i = 1 ∨ i = 2 := by omega
    rcases this with e' | e' | e' <;> subst e'
    · rw [A.inv.std0]; exact fun e => hd'.1.1 e.symm
    · rw [A.inv.std1]; exact fun e => hd'.1.2.1 e.symm
    · rw [A.inv.std2]; exact fun e => hd'.1.2.2 e.symm
  unfold srchSlot
  rcases srchLoop_spec s 8 0 rfl with ⟨h1, h2⟩ | ⟨i, _, h2, h3, h4, h5⟩
  · have h1 : srchLoop s 8 0 = -1 := h1
    rw [h1]
    refine ⟨fun _ i hi _ => ?_, fun _ => rfl⟩
    have := h2 i (Nat.zero_le _) hi; rwa [e] at this
  · have h3 : srchLoop s 8 0 = BitVec.ofNat 16 i := h3
    rw [h3]
    have hz : ilt (BitVec.ofNat 16 i) 0 = false := by interval_cases i <;> decide
    simp only [hz, Bool.false_eq_true, if_false, reduceCtorEq, false_iff]
    intro hall
    rw [e] at h4
    by_cases h : i < 3
    · exact n i h h4
    · exact hall i h2 (by omega) h4

/-- The full claim is false: fputs of an empty string returns "no error" for any value as stream. -/
theorem C22_fputs_false (S : Sys) (st : St) (a fp : Word) (h0 : st.mem a = 0#8) :
    (Call.puts a fp).run S st = some (.ok (0, st)) := by
  rw [Call.run, fputs, fputsLoop, show a + 0 = a from BitVec.add_zero a, if_neg (by simp [h0])]
  rfl

/-- And fgets with n = 1 returns for any value as stream, even null, after writing a byte. -/
theorem C22_fgets_false (S : Sys) (st : St) (str fp : Word) :
    (Call.gets str 1 fp).run S st = some (.ok (0, { st with mem := st.mem.set str 0#8 })) := by
  rw [Call.run, fgets, fgetsLoop, if_neg (by decide)]
  simp

/-- A kernel for the examples: every file can be opened, every write is complete, every file is empty. The allocator has four blocks. -/
def exSys : Sys where
  write _ _ bs := BitVec.ofNat 16 bs.length
  ttyRead _ _ := (1, [0x0a#8])
  read _ _ _ := (0, [])
  opn _ _ _ := 3
  creat _ _ := 0
  close _ _ := 0
  seek _ _ _ _ := 0
  alloc tr := [1000#16, 1100#16, 1200#16, 1300#16].find? fun a => decide (a ∉ live tr [])

def exStd : Std := ⟨100, 120, 140, 160, 240⟩

theorem exStd_ok : exStd.Ok := by unfold Std.Ok; decide

theorem exSys_ok : HeapOk exSys exStd := by
  intro tr a h
  have h1 := List.find?_some h
  have h2 := List.mem_of_find?_eq_some h
  simp only [decide_eq_true_eq] at h1
  refine ⟨h1, ?_⟩
  simp only [List.mem_cons, List.not_mem_nil, or_false] at h2
  rcases h2 with rfl | rfl | rfl | rfl <;> decide

/-- A file is opened, another one is opened, the first one is closed; the second one is the only one open, and a flush of the first one
ends the program. -/
example (f : Word → FRec) (m : Mem) : ∃ st, Steps exSys (begin exStd f m)
      [.call (.opn 500 [0x77#8]) 1000, .call (.opn 500 [0x72#8]) 1200, .call (.cls 1000) 0] st ∧
    st.at 3 = 0 ∧ st.at 4 = 1200 ∧ (Call.flush 1000).run exSys st = some (.error (EUBADF, st)) := by
  obtain ⟨st, h, h1⟩ : ∃ st, Steps exSys (begin exStd f m)
      [.call (.opn 500 [0x77#8]) 1000, .call (.opn 500 [0x72#8]) 1200, .call (.cls 1000) 0] st ∧ st.at 3 = 0 ∧ st.at 4 = 1200 := by
    refine ⟨_, .cons (.call rfl) (.cons (.call rfl) (.cons (.call rfl) .nil)), ?_⟩
    exact ⟨rfl, rfl⟩
  refine ⟨st, h, h1.1, h1.2, (C22_partial exStd_ok exSys_ok h).2.2.2.2.2 1000 (by decide) ?_ _ rfl rfl⟩
  decide

end Cmm.Stdio
