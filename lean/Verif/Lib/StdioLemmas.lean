import Verif.Lib.StdioHist

/-
The effect of the stream functions on what does not belong to the stream.
-/
namespace Cmm.Stdio
open Cmm.Ctype Cmm.Str

/-- The event belongs to the stream. -/
def Ev.on (fp : Word) : Ev → Prop
  | .ttyWrite g _ | .write g _ _ _ | .ttyRead g _ _ _ | .read g _ _ _ _ | .seek g _ _ _ _ => g = fp
  | _ => False

/-- From `st` to `st'` only the changing parts of the stream `fp`, the errno and the memory of the client changed. -/
structure Touch (fp : Word) (st st' : St) : Prop where
  all : st'.all = st.all
  other : ∀ a, a ≠ fp → st'.file a = st.file a
  slot : (st'.file fp).slot = (st.file fp).slot
  buf : (st'.file fp).buf = (st.file fp).buf
  mode : (st'.file fp).mode = (st.file fp).mode
  fd : (st'.file fp).fd = (st.file fp).fd
  size : (st'.file fp).size = (st.file fp).size
  tty : (st'.file fp).tty = (st.file fp).tty
  tr : ∃ es, st'.tr = st.tr ++ es ∧ ∀ e ∈ es, e.on fp

theorem Touch.refl (fp st) : Touch fp st st := ⟨rfl, fun _ _ => rfl, rfl, rfl, rfl, rfl, rfl, rfl, [], by simp, by simp⟩

theorem Touch.trans {fp s t u} (h : Touch fp s t) (k : Touch fp t u) : Touch fp s u := by
  obtain ⟨es, he, hon⟩ := h.tr; obtain ⟨es', he', hon'⟩ := k.tr
  refine ⟨k.all.trans h.all, fun a ha => (k.other a ha).trans (h.other a ha), k.slot.trans h.slot, k.buf.trans h.buf, k.mode.trans h.mode,
    k.fd.trans h.fd, k.size.trans h.size, k.tty.trans h.tty, es ++ es', by rw [he', he, List.append_assoc], ?_⟩
  intro e hm; rcases List.mem_append.1 hm with m | m
  · exact hon e m
  · exact hon' e m

theorem Touch.upd {fp st} {f : FRec → FRec} (h : ∀ r, (f r).slot = r.slot ∧ (f r).buf = r.buf ∧ (f r).mode = r.mode ∧ (f r).fd = r.fd ∧
    (f r).size = r.size ∧ (f r).tty = r.tty) : Touch fp st (st.upd fp f) := by
  refine ⟨rfl, fun a ha => by simp [St.upd, ha], ?_, ?_, ?_, ?_, ?_, ?_, [], by simp [St.upd], by simp⟩ <;> simp [St.upd, h]

theorem Touch.log {fp st e} (h : e.on fp) : Touch fp st (st.log e) :=
  ⟨rfl, fun _ _ => rfl, rfl, rfl, rfl, rfl, rfl, rfl, [e], rfl, by simpa using h⟩

theorem Touch.sysret {fp st r} : Touch fp st (st.sysret r) := by
  unfold St.sysret; split
  · exact ⟨rfl, fun _ _ => rfl, rfl, rfl, rfl, rfl, rfl, rfl, [], by simp, by simp⟩
  · exact .refl _ _

theorem Touch.mem {fp st} {m : Mem} : Touch fp st { st with mem := m } :=
  ⟨rfl, fun _ _ => rfl, rfl, rfl, rfl, rfl, rfl, rfl, [], by simp, by simp⟩

/-- The state after a call, returned or not. -/
def Res {α} (P : St → Prop) : X α → Prop
  | .ok (_, st) => P st
  | .error (_, st) => P st

theorem fflush_touch (S fp st) : Res (Touch fp st) (fflush S fp st) := by
  unfold fflush
  split; · exact .refl _ _
  split; · exact .refl _ _
  split; · exact .refl _ _
  split; · exact .refl _ _
  split; · exact .refl _ _
  simp only [Res]
  refine Touch.trans ?_ (.upd fun r => ⟨rfl, rfl, rfl, rfl, rfl, rfl⟩)
  split
  · exact (Touch.log (by simp [Ev.on])).trans (.upd fun r => ⟨rfl, rfl, rfl, rfl, rfl, rfl⟩)
  · split
    · exact ((Touch.log (by simp [Ev.on])).trans .sysret).trans (.upd fun r => ⟨rfl, rfl, rfl, rfl, rfl, rfl⟩)
    · exact (Touch.log (by simp [Ev.on])).trans .sysret

theorem fputc_touch (S c fp st) : Res (Touch fp st) (fputc S c fp st) := by
  unfold fputc
  split; · exact .refl _ _
  split; · exact .refl _ _
  split; · exact .refl _ _
  split; · exact .log rfl
  have h1 : Touch fp st ((st.upd fp fun f => { f with data := fun x => if x = f.cnt then c else f.data x }).upd fp
      fun f => { f with cnt := f.cnt + 1 }) :=
    Touch.trans (t := st.upd fp fun f => { f with data := fun x => if x = f.cnt then c else f.data x })
      (.upd fun r => ⟨rfl, rfl, rfl, rfl, rfl, rfl⟩) (.upd fun r => ⟨rfl, rfl, rfl, rfl, rfl, rfl⟩)
  simp only
  split
  · have := fflush_touch S fp ((st.upd fp fun f => { f with data := fun x => if x = f.cnt then c else f.data x }).upd fp
      fun f => { f with cnt := f.cnt + 1 })
    split
    · rename_i e he; rw [he] at this; exact h1.trans this
    · rename_i e he; rw [he] at this; exact h1.trans this
  · exact h1

theorem fputsLoop_touch (S a fp) : ∀ i st r, fputsLoop S a fp i st = some r → Res (Touch fp st) r := by
  refine fputsLoop.partial_correctness S a fp (motive := fun i st r => Res (Touch fp st) r) ?_
  intro loop ih i st r h
  split at h
  · have := fputc_touch S (st.mem (a + i)) fp st
    split at h
    · rename_i e he; rw [he] at this; cases h; exact this
    · rename_i e he; rw [he] at this; cases h; exact this
    · rename_i s he; rw [he] at this
      have k := ih _ _ _ h
      cases r with
      | error e => exact Touch.trans this k
      | ok e => exact Touch.trans this k
  · cases h; exact .refl _ _

theorem fillBuf_touch (S fp st) : Touch fp st (fillBuf S fp st) := by
  unfold fillBuf
  refine Touch.trans ?_ (.upd fun r => ⟨rfl, rfl, rfl, rfl, rfl, rfl⟩)
  have u : ∀ s bs, Touch fp s (s.upd fp fun f => f.fill bs) := fun s bs => .upd fun r => ⟨rfl, rfl, rfl, rfl, rfl, rfl⟩
  have w : ∀ s l, Touch fp s (s.upd fp fun f => { f with len := l }) := fun s bs => .upd fun r => ⟨rfl, rfl, rfl, rfl, rfl, rfl⟩
  split
  · exact (((Touch.log (by simp [Ev.on])).trans .sysret).trans (u _ _)).trans (w _ _)
  · refine Touch.trans (((Touch.log (e := .read fp (st.file fp).fd (st.file fp).size (S.read st.tr (st.file fp).fd (st.file fp).size).1
      (S.read st.tr (st.file fp).fd (st.file fp).size).2) rfl).trans
      (.sysret (r := (S.read st.tr (st.file fp).fd (st.file fp).size).1))).trans
      (u _ (S.read st.tr (st.file fp).fd (st.file fp).size).2)) ?_
    simp only
    split
    · refine Touch.trans ?_ (w _ _); exact .upd fun r => ⟨rfl, rfl, rfl, rfl, rfl, rfl⟩
    · split
      · refine Touch.trans ?_ (w _ _); exact .upd fun r => ⟨rfl, rfl, rfl, rfl, rfl, rfl⟩
      · refine Touch.trans ?_ (w _ _); exact .upd fun r => ⟨rfl, rfl, rfl, rfl, rfl, rfl⟩

theorem feof_touch (S fp st) : Res (Touch fp st) (feof S fp st) := by
  unfold feof
  split; · exact .refl _ _
  split; · exact .refl _ _
  simp only [Res]; split
  · exact fillBuf_touch S fp st
  · exact .refl _ _

theorem fgetc_touch (S fp st) : Res (Touch fp st) (fgetc S fp st) := by
  unfold fgetc
  split; · exact .refl _ _
  split; · exact .refl _ _
  have h : Touch fp st (if ile (st.file fp).len (st.file fp).cnt then fillBuf S fp st else st) := by
    split
    · exact fillBuf_touch S fp st
    · exact .refl _ _
  generalize (if ile (st.file fp).len (st.file fp).cnt then fillBuf S fp st else st) = s at h ⊢
  simp only
  split
  · exact h
  · exact h.trans (.upd fun r => ⟨rfl, rfl, rfl, rfl, rfl, rfl⟩)

theorem fgetsLoop_touch (S str n fp) : ∀ i st r, fgetsLoop S str n fp i st = some r → Res (Touch fp st) r := by
  refine fgetsLoop.partial_correctness S str n fp (motive := fun i st r => Res (Touch fp st) r) ?_
  intro loop ih i st r h
  split at h
  · have h1 := feof_touch S fp st
    split at h
    · rename_i e he; rw [he] at h1; cases h; exact h1
    · rename_i e he; rw [he] at h1; cases h; exact h1
    · rename_i s he; rw [he] at h1
      have h2 := fgetc_touch S fp s
      split at h
      · rename_i e he; rw [he] at h2; cases h; exact Touch.trans h1 h2
      · rename_i c s' he; rw [he] at h2
        have h3 : Touch fp st { s' with mem := s'.mem.set (str + i) c } := (Touch.trans h1 h2).trans .mem
        simp only at h
        split at h
        · cases h; exact h3
        · have k := ih _ _ _ h
          cases r with
          | error e => exact Touch.trans h3 k
          | ok e => exact Touch.trans h3 k
  · cases h; exact .refl _ _

theorem fgets_touch {S str n fp st r} (h : fgets S str n fp st = some r) : Res (Touch fp st) r := by
  unfold fgets at h
  cases e : fgetsLoop S str (n - 1) fp 0 st with
  | none => rw [e] at h; simp at h
  | some q =>
    have := fgetsLoop_touch S str (n - 1) fp _ _ _ e
    rw [e] at h; simp only [Option.map_some, Option.some.injEq] at h
    subst h
    cases q with
    | error e => exact this
    | ok q => exact Touch.trans this .mem

theorem fseek_touch (S fp h l st) : Res (Touch fp st) (fseek S fp h l st) := by
  unfold fseek
  split; · exact .refl _ _
  have h1 : Res (Touch fp st) (if (st.file fp).mode ≠ O_RDONLY then fflush S fp st else .ok (false, st)) := by
    split
    · exact fflush_touch S fp st
    · exact .refl _ _
  generalize (if (st.file fp).mode ≠ O_RDONLY then fflush S fp st else .ok (false, st)) = q at h1
  cases q with
  | error e => exact h1
  | ok q =>
    obtain ⟨b, s⟩ := q
    simp only
    have h2 : Touch fp st ((s.log (.seek fp (s.file fp).fd h l (S.seek s.tr (s.file fp).fd h l))).sysret
        (S.seek s.tr (s.file fp).fd h l)) := (Touch.trans h1 (Touch.log (by rfl))).trans .sysret
    split
    · exact h2
    · simp only [Res]; split
      · exact h2.trans (fillBuf_touch _ _ _)
      · exact h2

/-- Every call except fopen and fclose only touches its stream. -/
theorem call_touch {S : Sys} {c : Call} {fp : Word} {st : St} {r : X Word} (ht : c.target = some fp) (hc : c ≠ .cls fp) (h : c.run S st = some r) : Res (Touch fp st) r := by
  have aw : ∀ q : X Bool, Res (Touch fp st) q → Res (Touch fp st) (asWord q) := by
    intro q hq; rcases q with e | e <;> exact hq
  have cw : ∀ q : X Byte, Res (Touch fp st) q → Res (Touch fp st) (chWord q) := by
    intro q hq; rcases q with e | e <;> exact hq
  cases c <;> simp only [Call.target, Option.some.injEq, reduceCtorEq] at ht <;> subst ht <;>
    simp only [Call.run, Option.some.injEq] at h
  · subst h; exact aw _ (fputc_touch _ _ _ _)
  · rename_i a fp
    obtain ⟨q, hq, rfl⟩ := Option.map_eq_some_iff.1 h
    exact aw _ (fputsLoop_touch _ _ _ _ _ _ hq)
  · subst h; exact aw _ (fflush_touch _ _ _)
  · subst h; exact aw _ (feof_touch _ _ _)
  · subst h; exact cw _ (fgetc_touch _ _ _)
  · exact fgets_touch h
  · subst h; exact aw _ (fseek_touch _ _ _ _ _)
  · exact absurd rfl hc
  · subst h; refine aw _ ?_
    unfold ferror; split <;> exact .refl _ _

end Cmm.Stdio
