import Verif.Props.C22

/-
C20: buffered output delivers exactly the bytes written, in order, exactly once.
-/
namespace Cmm.Stdio
open Cmm.Ctype Cmm.Str

/-- The bytes an event delivers for a stream: of a write call as many as its result says. -/
def sentBy (fp : Word) : Ev → List Byte
  | .ttyWrite g bs => if g = fp then bs else []
  | .write g _ bs r => if g = fp ∧ ilt 0 r then bs.take r.toNat else []
  | _ => []

/-- The bytes delivered for a stream. -/
def sent (fp : Word) (tr : List Ev) : List Byte := tr.flatMap (sentBy fp)

/-- The bytes in the buffer of a stream. -/
def pending (st : St) (fp : Word) : List Byte := if (st.file fp).buf = 0 then [] else (st.file fp).bytes (st.file fp).cnt.toNat

/-- The streams in the table. -/
def Std.list (d : Std) : List Word := [d.stdin, d.stdout, d.stderr]

/-- A stream that is open for writing, without an error, with room in its buffer. -/
structure Ready (d : Std) (st : St) (fp : Word) : Prop where
  agree : ∃ l, Agree d st l ∧ (fp ∈ d.list ∨ fp ∈ l)
  mode : (st.file fp).mode ≠ O_RDONLY
  err : (st.file fp).err = false
  room : (st.file fp).buf ≠ 0 → ∃ k n, (st.file fp).cnt = BitVec.ofNat 16 k ∧ (st.file fp).size = BitVec.ofNat 16 n ∧ k < n ∧ n < 32768

/-- An action that is not a call with this stream. -/
def Act.avoids (fp : Word) : Act → Prop
  | .call c _ => c.target ≠ some fp
  | _ => True

/-- From `st` to `t` the program writes the bytes `bs` to the stream, by calls that all report success, between anything else it does. -/
inductive Writes (S : Sys) (fp : Word) : St → List Byte → St → Prop
  | nil {st} : Writes S fp st [] st
  | putc {st c s bs t} : fputc S c fp st = .ok (false, s) → Writes S fp s bs t → Writes S fp st (c :: bs) t
  | puts {st a w s bs t} : IsStr st.mem a w → fputs S a fp st = some (.ok (false, s)) → Writes S fp s bs t → Writes S fp st (w ++ bs) t
  | flush {st s bs t} : fflush S fp st = .ok (false, s) → Writes S fp s bs t → Writes S fp st bs t
  | other {st a s bs t} : Step S st a s → a.avoids fp → Writes S fp s bs t → Writes S fp st bs t

/-- The same without success: the calls may report errors. -/
inductive Tries (S : Sys) (fp : Word) : St → List Byte → St → Prop
  | nil {st} : Tries S fp st [] st
  | putc {st c b s bs t} : fputc S c fp st = .ok (b, s) → Tries S fp s bs t → Tries S fp st (c :: bs) t
  | puts {st a w b s bs t} : IsStr st.mem a w → fputs S a fp st = some (.ok (b, s)) → Tries S fp s bs t → Tries S fp st (w ++ bs) t
  | flush {st b s bs t} : fflush S fp st = .ok (b, s) → Tries S fp s bs t → Tries S fp st bs t
  | other {st a s bs t} : Step S st a s → a.avoids fp → Tries S fp s bs t → Tries S fp st bs t

theorem sent_append (fp tr es) : sent fp (tr ++ es) = sent fp tr ++ sent fp es := by simp [sent, List.flatMap_append]

theorem sent_on {fp g es} (hne : g ≠ fp) (h : ∀ e ∈ es, e.on g) : sent fp es = [] := by
  simp only [sent, List.flatMap_eq_nil_iff]
  intro e he
  have := h e he
  cases e <;> simp only [Ev.on] at this <;> simp_all [sentBy]

theorem bytes_length (f : FRec) (n) : (f.bytes n).length = n := by simp [FRec.bytes]

theorem sysret_file (st : St) (r) : (st.sysret r).file = st.file := by unfold St.sysret; split <;> rfl
theorem sysret_tr (st : St) (r) : (st.sysret r).tr = st.tr := by unfold St.sysret; split <;> rfl
theorem sysret_mem (st : St) (r) : (st.sysret r).mem = st.mem := by unfold St.sysret; split <;> rfl
theorem upd_same (st : St) (fp f) : (st.upd fp f).file fp = f (st.file fp) := by simp [St.upd]
theorem upd_tr (st : St) (fp f) : (st.upd fp f).tr = st.tr := rfl
theorem upd_mem (st : St) (fp f) : (st.upd fp f).mem = st.mem := rfl
theorem log_tr (st : St) (e) : (st.log e).tr = st.tr ++ [e] := rfl
theorem log_file (st : St) (e) : (st.log e).file = st.file := rfl
theorem log_mem (st : St) (e) : (st.log e).mem = st.mem := rfl

theorem asNat {k : Nat} (h : k < 32768) : (BitVec.ofNat 16 k).toNat = k := by simp; omega

/-- fflush on a stream without error, with any number of bytes in the buffer. -/
theorem fflush_spec {S fp st} (hb : badFp st fp = false) (hm : (st.file fp).mode ≠ O_RDONLY) (he : (st.file fp).err = false)
    (hc : (st.file fp).buf ≠ 0 → ∃ k, (st.file fp).cnt = BitVec.ofNat 16 k ∧ k < 32768) :
    ∃ b s, fflush S fp st = .ok (b, s) ∧ s.mem = st.mem ∧ (s.file fp).err = b ∧
      (b = false → pending s fp = [] ∧ sent fp s.tr = sent fp st.tr ++ pending st fp ∧ ((st.file fp).buf ≠ 0 → (s.file fp).cnt = 0)) ∧
      (b = true → sent fp s.tr <+: sent fp st.tr ++ pending st fp) := by
  unfold fflush
  rw [hb, he]
  simp only [Bool.false_eq_true, if_false, hm]
  by_cases h0 : (st.file fp).buf = 0
  · rw [if_pos h0]
    exact ⟨false, st, rfl, rfl, he, fun _ => ⟨by simp [pending, h0], by simp [pending, h0], fun h => absurd h0 h⟩, by simp⟩
  · rw [if_neg h0]
    obtain ⟨k, hk, hk2⟩ := hc h0
    by_cases hz : (st.file fp).cnt = 0
    · rw [if_pos hz]
      have : pending st fp = [] := by unfold pending; rw [if_neg h0, hz]; rfl
      exact ⟨false, st, rfl, rfl, he, fun _ => ⟨this, by rw [this, List.append_nil], fun _ => hz⟩, by simp⟩
    · rw [if_neg hz]
      have hp : pending st fp = (st.file fp).bytes (st.file fp).cnt.toNat := by unfold pending; rw [if_neg h0]
      by_cases ht : (st.file fp).tty
      · simp only [ht, if_true]
        refine ⟨_, _, rfl, rfl, rfl, fun _ => ⟨?_, ?_, ?_⟩, ?_⟩
        · simp only [pending, upd_same, log_file, h0, if_false]; rfl
        · simp only [upd_tr, log_tr, sent_append, hp]
          simp [sent, sentBy]
        · intro _; simp only [upd_same]
        · simp only [upd_same]; intro h; simp at h
      · simp only [ht, Bool.false_eq_true, if_false]
        generalize hl : S.write st.tr (st.file fp).fd ((st.file fp).bytes (st.file fp).cnt.toNat) = l
        by_cases hpos : ilt 0 l
        · simp only [hpos, if_true]
          refine ⟨_, _, rfl, by simp only [upd_mem, sysret_mem, log_mem], rfl, ?_, ?_⟩
          · simp only [upd_same, sysret_file, log_file, decide_eq_false_iff_not, not_not]
            intro hzz
            have hlc : l = (st.file fp).cnt := by
              have := congrArg BitVec.toNat hzz
              apply BitVec.eq_of_toNat_eq
              have a := l.isLt; have b := (st.file fp).cnt.isLt
              simp only [BitVec.toNat_sub, BitVec.toNat_zero, show (0 : Word).toNat = 0 from rfl] at this
              omega
            refine ⟨?_, ?_, ?_⟩
            · simp only [pending, upd_same, sysret_file, log_file, h0, if_false, hzz]; rfl
            · simp only [upd_tr, sysret_tr, log_tr, sent_append, hp, hlc]
              rw [hlc] at hpos
              simp only [sent, List.flatMap_cons, List.flatMap_nil, List.append_nil, sentBy, hpos, and_self, if_true]
              rw [List.take_of_length_le (by rw [bytes_length])]
            · intro _; exact hzz
          · intro _
            simp only [upd_tr, sysret_tr, log_tr, sent_append, hp]
            simp only [sent, List.flatMap_cons, List.flatMap_nil, List.append_nil, sentBy, hpos, and_self, if_true]
            exact List.prefix_append_right_inj _ |>.2 (List.take_prefix _ _)
        · simp only [hpos, Bool.false_eq_true, if_false]
          refine ⟨_, _, rfl, by simp only [upd_mem, sysret_mem, log_mem], rfl, ?_, ?_⟩
          · simp only [upd_same, sysret_file, log_file, decide_eq_false_iff_not, not_not]
            intro h; exact absurd h hz
          · intro _
            simp only [upd_tr, sysret_tr, log_tr, sent_append]
            simp only [sent, List.flatMap_cons, List.flatMap_nil, List.append_nil, sentBy, hpos, and_false, if_false, Bool.false_eq_true]
            exact List.prefix_append _ _

theorem Ready.accept {d st fp} (hd : d.Ok) (h : Ready d st fp) : badFp st fp = false := by
  obtain ⟨l, A, hm⟩ := h.agree
  exact (A.inv.accept fp).2 ((A.reg hd fp).2 hm)

/-- What is left of `Ready` when an error occurred. -/
structure Failed (d : Std) (st : St) (fp : Word) : Prop where
  agree : ∃ l, Agree d st l ∧ (fp ∈ d.list ∨ fp ∈ l)
  mode : (st.file fp).mode ≠ O_RDONLY
  err : (st.file fp).err = true

theorem Failed.accept {d st fp} (hd : d.Ok) (h : Failed d st fp) : badFp st fp = false := by
  obtain ⟨l, A, hm⟩ := h.agree
  exact (A.inv.accept fp).2 ((A.reg hd fp).2 hm)

theorem agree_touch {d st s fp g} (hd : d.Ok) (h : ∃ l, Agree d st l ∧ (fp ∈ d.list ∨ fp ∈ l)) (t : Touch g st s) :
    ∃ l, Agree d s l ∧ (fp ∈ d.list ∨ fp ∈ l) := by
  obtain ⟨l, A, hm⟩ := h
  exact ⟨l, A.mono t.all (A.inv.touch hd t), hm⟩

theorem bytes_snoc (f : FRec) (k : Nat) (hk : k < 32768) (c : Byte) (g : FRec)
    (hg : g.data = fun x => if x = BitVec.ofNat 16 k then c else f.data x) : g.bytes (k + 1) = f.bytes k ++ [c] := by
  unfold FRec.bytes
  rw [List.range_succ, List.map_append, List.map_singleton, hg]
  congr 1
  · apply List.map_congr_left
    intro i hi
    have hi := List.mem_range.1 hi
    have : BitVec.ofNat 16 i ≠ BitVec.ofNat 16 k := by
      intro e
      have := congrArg BitVec.toNat e
      rw [asNat (by omega), asNat hk] at this
      omega
    simp only [this, if_false]
  · simp

/-- fputc on a ready stream. -/
theorem fputc_spec {S d fp st} (hd : d.Ok) (h : Ready d st fp) (c : Byte) :
    ∃ b s, fputc S c fp st = .ok (b, s) ∧ s.mem = st.mem ∧
      (b = false → Ready d s fp ∧ sent fp s.tr ++ pending s fp = sent fp st.tr ++ pending st fp ++ [c]) ∧
      (b = true → Failed d s fp ∧ sent fp s.tr <+: sent fp st.tr ++ pending st fp ++ [c]) := by
  have ht := fputc_touch S c fp st
  have hb := h.accept hd
  have fin : ∀ b s, fputc S c fp st = .ok (b, s) → s.mem = st.mem → (s.file fp).err = b →
      (b = false → (sent fp s.tr ++ pending s fp = sent fp st.tr ++ pending st fp ++ [c]) ∧
        ((st.file fp).buf ≠ 0 → ∃ k n, (s.file fp).cnt = BitVec.ofNat 16 k ∧ (st.file fp).size = BitVec.ofNat 16 n ∧ k < n ∧ n < 32768)) →
      (b = true → sent fp s.tr <+: sent fp st.tr ++ pending st fp ++ [c]) →
      ∃ b s, fputc S c fp st = .ok (b, s) ∧ s.mem = st.mem ∧
        (b = false → Ready d s fp ∧ sent fp s.tr ++ pending s fp = sent fp st.tr ++ pending st fp ++ [c]) ∧
        (b = true → Failed d s fp ∧ sent fp s.tr <+: sent fp st.tr ++ pending st fp ++ [c]) := by
    intro b s e hm he h1 h2
    rw [e] at ht
    refine ⟨b, s, e, hm, fun hb => ⟨⟨agree_touch hd h.agree ht, by rw [ht.mode]; exact h.mode, by rw [he, hb], ?_⟩, (h1 hb).1⟩,
      fun hb => ⟨⟨agree_touch hd h.agree ht, by rw [ht.mode]; exact h.mode, by rw [he, hb]⟩, h2 hb⟩⟩
    rw [ht.buf, ht.size]; exact (h1 hb).2
  by_cases h0 : (st.file fp).buf = 0
  · refine fin false (st.log (.ttyWrite fp [c])) ?_ rfl h.err (fun _ => ⟨?_, fun x => absurd h0 x⟩) (by simp)
    · unfold fputc
      simp only [hb, h.err, Bool.false_eq_true, if_false, h.mode, h0, if_true, log_file]
    · simp [pending, log_file, h0, log_tr, sent, sentBy]
  · obtain ⟨k, n, hk, hn, hkn, hn2⟩ := h.room h0
    generalize hs : (st.upd fp fun f => { f with data := fun x => if x = f.cnt then c else f.data x }).upd fp
      (fun f => { f with cnt := f.cnt + 1 }) = s1
    have f1 : s1.file fp = { st.file fp with data := fun x => if x = (st.file fp).cnt then c else (st.file fp).data x,
                                             cnt := (st.file fp).cnt + 1 } := by
      rw [← hs, upd_same, upd_same]
    have c1 : (s1.file fp).cnt = BitVec.ofNat 16 (k + 1) := by rw [f1]; simp only [hk]; exact add_ofNat_succ k
    have p0 : pending st fp = (st.file fp).bytes k := by
      unfold pending; rw [if_neg h0, hk, asNat (by omega)]
    have p1 : pending s1 fp = (st.file fp).bytes k ++ [c] := by
      unfold pending
      rw [if_neg (by rw [f1]; exact h0), c1, asNat (by omega)]
      exact bytes_snoc _ k (by omega) c _ (by rw [f1, hk])
    have t1 : s1.tr = st.tr := by rw [← hs]; rfl
    have m1 : s1.mem = st.mem := by rw [← hs]; rfl
    have b1 : badFp s1 fp = false := by
      rw [← hb]; unfold badFp; rw [f1, ← hs]; rfl
    have run : fputc S c fp st = if ile (s1.file fp).size (s1.file fp).cnt || (s1.file fp).tty && c = 0x0a#8 then
        match fflush S fp s1 with
        | .error e => .error e
        | .ok (_, st) => .ok ((st.file fp).err, st)
      else .ok ((s1.file fp).err, s1) := by
      unfold fputc
      simp only [hb, h.err, Bool.false_eq_true, if_false, h.mode, h0, hs]
      rfl
    by_cases hf : (ile (s1.file fp).size (s1.file fp).cnt || (s1.file fp).tty && c = 0x0a#8) = true
    · obtain ⟨b, s, e, hm, he, r1, r2⟩ := fflush_spec (S := S) b1 (by rw [f1]; exact h.mode) (by rw [f1]; exact h.err)
        (fun _ => ⟨k + 1, c1, by omega⟩)
      refine fin b s ?_ (hm.trans m1) he (fun hb => ?_) (fun hb => ?_)
      · rw [run, if_pos hf, e]; simp only [he]
      · obtain ⟨q1, q2, q3⟩ := r1 hb
        refine ⟨?_, fun _ => ⟨0, n, q3 (by rw [f1]; exact h0), hn, by omega, hn2⟩⟩
        rw [q1, q2, p1, t1, p0]; simp
      · have := r2 hb
        rw [p1, t1] at this; rw [p0]; simpa using this
    · refine fin false s1 ?_ m1 (by rw [f1]; exact h.err) (fun _ => ⟨?_, fun _ => ⟨k + 1, n, c1, hn, ?_, hn2⟩⟩) (by simp)
      · rw [run, if_neg hf, f1]; simp only [h.err]
      · rw [p1, t1, p0]; simp
      · simp only [Bool.or_eq_true, not_or] at hf
        have := hf.1
        rw [c1, f1, hn, ile_ofNat (by omega) (by omega)] at this
        simpa using this

/-- After an error fputc does nothing. -/
theorem fputc_failed {S d fp st} (hd : d.Ok) (h : Failed d st fp) (c : Byte) : fputc S c fp st = .ok (true, st) := by
  unfold fputc
  simp only [h.accept hd, h.err, Bool.false_eq_true, if_false, h.mode, if_true]

theorem fflush_failed {S d fp st} (hd : d.Ok) (h : Failed d st fp) : fflush S fp st = .ok (true, st) := by
  unfold fflush
  simp only [h.accept hd, h.err, Bool.false_eq_true, if_false, h.mode, if_true]

theorem prefix_trans_app {a b c e : List Byte} (h : a <+: b) (e' : b ++ e = c) : a <+: c := by
  rw [← e']; exact h.trans (List.prefix_append _ _)

/-- fputs on a ready stream ends, and writes the string. -/
theorem fputs_spec {S d fp a w} (hd : d.Ok) : ∀ n k st, w.length - k = n → k ≤ w.length → IsStr st.mem a w → Ready d st fp →
    ∃ b s, fputsLoop S a fp (BitVec.ofNat 16 k) st = some (.ok (b, s)) ∧ s.mem = st.mem ∧
      (b = false → Ready d s fp ∧ sent fp s.tr ++ pending s fp = sent fp st.tr ++ pending st fp ++ w.drop k) ∧
      (b = true → Failed d s fp ∧ sent fp s.tr <+: sent fp st.tr ++ pending st fp ++ w.drop k) := by
  intro n
  induction n with
  | zero =>
    intro k st hn hk hw hr
    have hk : k = w.length := by omega
    subst hk
    rw [fputsLoop, add_ofNat, hw.nul]
    exact ⟨false, st, rfl, rfl, fun _ => ⟨hr, by simp⟩, by simp⟩
  | succ n ih =>
    intro k st hn hk hw hr
    have hlt : k < w.length := by omega
    rw [fputsLoop, add_ofNat, hw.get hlt, if_pos (hw.nz _ (List.getElem_mem hlt))]
    obtain ⟨b, s, e, hm, h1, h2⟩ := fputc_spec (S := S) hd hr (w[k])
    rw [e]
    have hdrop : w.drop k = w[k] :: w.drop (k + 1) := (List.getElem_cons_drop hlt).symm
    cases b with
    | true =>
      refine ⟨true, s, rfl, hm, by simp, fun _ => ⟨(h2 rfl).1, prefix_trans_app (h2 rfl).2 (e := w.drop (k + 1)) ?_⟩⟩
      rw [hdrop]; simp
    | false =>
      obtain ⟨r1, r2⟩ := h1 rfl
      rw [show BitVec.ofNat 16 k + 1 = BitVec.ofNat 16 (k + 1) from add_ofNat_succ k]
      obtain ⟨b', s', e', hm', h1', h2'⟩ := ih (k + 1) s (by omega) hlt (by rw [hm]; exact hw) r1
      refine ⟨b', s', e', hm'.trans hm, fun hb => ⟨(h1' hb).1, ?_⟩, fun hb => ⟨(h2' hb).1, ?_⟩⟩
      · rw [(h1' hb).2, r2, hdrop]; simp
      · have := (h2' hb).2; rw [r2] at this; rw [hdrop]; simpa using this

theorem fputs_failed {S d fp a st} (hd : d.Ok) (h : Failed d st fp) {b s}
    (e : fputs S a fp st = some (.ok (b, s))) : s = st := by
  rw [fputs, fputsLoop] at e
  split at e
  · rw [fputc_failed hd h] at e; cases e; rfl
  · cases e; rfl

theorem sent_opening {st s} (h : Opening st s) (fp) : sent fp s.tr = sent fp st.tr := by
  obtain ⟨es, he, hon⟩ := h.tr
  rw [he, sent_append]
  have : sent fp es = [] := by
    simp only [sent, List.flatMap_eq_nil_iff]
    intro e he
    rcases hon e he with ⟨_, _, _, rfl⟩ | ⟨_, _, rfl⟩ <;> rfl
  rw [this, List.append_nil]

/-- What a step without the stream does to the stream: nothing. -/
theorem step_other {S d fp st a s} (hd : d.Ok) (hS : HeapOk S d) (hs : Step S st a s) (ha : a.avoids fp)
    (h : ∃ l, Agree d st l ∧ (fp ∈ d.list ∨ fp ∈ l)) :
    (∃ l, Agree d s l ∧ (fp ∈ d.list ∨ fp ∈ l)) ∧ s.file fp = st.file fp ∧ sent fp s.tr = sent fp st.tr := by
  obtain ⟨l, A, hm⟩ := h
  have A' := A.step hd hS hs
  have hreg := (A.reg hd fp).2 hm
  cases hs with
  | call hr =>
    rename_i c r
    cases ht : c.target with
    | none =>
      cases c <;> simp only [Call.target, reduceCtorEq] at ht
      simp only [Call.run, Option.some.injEq] at hr
      obtain ⟨s1, ho, hh⟩ := fopen_spec hr
      rcases hh with ⟨rfl, rfl⟩ | ⟨fd, mode, _, _, hal⟩
      · refine ⟨⟨_, A', hm.imp id ?_⟩, by rw [ho.file], sent_opening ho fp⟩
        simp [opens]
      · obtain ⟨i, b, hi, h0, hlt, hal, hb, hst⟩ := allocFile_spec hal
        have hrr := hS _ _ hal
        rw [ho.live] at hrr
        have hne : fp ≠ r := by
          rintro rfl
          rcases hm with hm | hm
          · apply hrr.2
            simp only [Std.list, List.mem_cons, List.not_mem_nil, or_false] at hm
            rcases hm with h | h | h <;> simp [Std.addrs, h]
          · obtain ⟨_, j, hj, hj3, e⟩ := (A.mem fp).1 hm
            exact hrr.1 (e ▸ (A.inv.own j hj hj3 (e ▸ hreg.1)).1)
        refine ⟨⟨_, A', hm.imp id ?_⟩, ?_, ?_⟩
        · intro hm; simp only [opens]; split <;> simp [hm]
        · rw [hst]; simp [hne, ho.file]
        · rw [hst]; simp only [sent_append]; rw [sent_opening ho]; simp [sent, sentBy]
    | some g =>
      have hg : g ≠ fp := fun e => ha (by rw [ht, e])
      by_cases hc : c = .cls g
      · subst hc
        simp only [Call.run, Option.some.injEq] at hr
        obtain ⟨b, hb, rfl⟩ := asWord_ok hr
        obtain ⟨hbad, hslot, s1, t1, hh⟩ := fclose_spec hb
        refine ⟨⟨_, A', hm.imp id ?_⟩, ?_, ?_⟩
        · intro hm; simp only [opens]; split <;> split <;> simp [hm, Ne.symm hg]
        · have e1 := t1.other fp (Ne.symm hg)
          rcases hh with ⟨_, rfl | ⟨r, rfl⟩⟩ | ⟨_, r, fr, hfr, rfl⟩
          · exact e1
          · rw [← e1]; simp [St.upd, Ne.symm hg, sysret_file, log_file]
          · exact e1
        · have e2 : sent fp s1.tr = sent fp st.tr := by
            obtain ⟨es, he, hon⟩ := t1.tr
            rw [he, sent_append, sent_on hg hon, List.append_nil]
          rcases hh with ⟨_, rfl | ⟨r, rfl⟩⟩ | ⟨_, r, fr, hfr, rfl⟩
          · exact e2
          · rw [← e2, upd_tr, sysret_tr, log_tr, sent_append]; simp [sent, sentBy]
          · rw [← e2]; simp only [sent_append]
            rcases hfr with rfl | rfl <;> simp [sent, sentBy]
      · have t1 := call_touch ht hc hr
        refine ⟨agree_touch hd ⟨l, A, hm⟩ t1, t1.other fp (Ne.symm hg), ?_⟩
        obtain ⟨es, he, hon⟩ := t1.tr
        rw [he, sent_append, sent_on hg hon, List.append_nil]
  | alloc ha => exact ⟨⟨_, A', hm⟩, rfl, by simp [log_tr, sent, sentBy]⟩
  | free ha => exact ⟨⟨_, A', hm⟩, rfl, by simp [log_tr, sent, sentBy]⟩
  | store m => exact ⟨⟨_, A', hm⟩, rfl, rfl⟩
  | errno e => exact ⟨⟨_, A', hm⟩, rfl, rfl⟩
  | scribble hx =>
    rename_i x f
    refine ⟨⟨_, A', hm⟩, ?_, rfl⟩
    have : fp ≠ x := by
      rintro rfl
      obtain ⟨h0, i, hi, e⟩ := hreg
      exact hx ⟨i, hi, fun z => h0 (e.symm.trans z), .inl e.symm⟩
    simp [St.upd, this]

theorem Ready.other {S d fp st a s} (hd : d.Ok) (hS : HeapOk S d) (hs : Step S st a s) (ha : a.avoids fp) (h : Ready d st fp) :
    Ready d s fp ∧ sent fp s.tr ++ pending s fp = sent fp st.tr ++ pending st fp := by
  obtain ⟨h1, h2, h3⟩ := step_other hd hS hs ha h.agree
  exact ⟨⟨h1, by rw [h2]; exact h.mode, by rw [h2]; exact h.err, by rw [h2]; exact h.room⟩, by rw [h3]; simp only [pending, h2]⟩

theorem Ready.flush {S d fp st} (hd : d.Ok) (h : Ready d st fp) : ∃ b s, fflush S fp st = .ok (b, s) ∧ s.mem = st.mem ∧
    (b = false → Ready d s fp ∧ pending s fp = [] ∧ sent fp s.tr = sent fp st.tr ++ pending st fp) ∧
    (b = true → Failed d s fp ∧ sent fp s.tr <+: sent fp st.tr ++ pending st fp) := by
  obtain ⟨b, s, e, hm, he, h1, h2⟩ := fflush_spec (S := S) (h.accept hd) h.mode h.err
    (fun x => by obtain ⟨k, n, a, _, b, c⟩ := h.room x; exact ⟨k, a, by omega⟩)
  have ht := fflush_touch S fp st
  rw [e] at ht
  have ag := agree_touch hd h.agree ht
  have md : (s.file fp).mode ≠ O_RDONLY := by rw [ht.mode]; exact h.mode
  refine ⟨b, s, e, hm, fun hb => ⟨⟨ag, md, by rw [he, hb], ?_⟩, (h1 hb).1, (h1 hb).2.1⟩, fun hb => ⟨⟨ag, md, by rw [he, hb]⟩, h2 hb⟩⟩
  rw [ht.buf, ht.size]
  intro x
  obtain ⟨k, n, _, a, b, c⟩ := h.room x
  exact ⟨0, n, (h1 hb).2.2 x, a, by omega, c⟩

/-- C20: for every sequence of successful fputc, fputs and fflush on a stream, between any other steps of the program, the bytes delivered
followed by the bytes in the buffer are the bytes delivered and buffered before followed by the bytes written. `Ready` holds again, so
the index is always within the buffer. -/
theorem C20 {S : Sys} {d : Std} {fp : Word} {st t : St} {bs : List Byte} (hd : d.Ok) (hS : HeapOk S d) (h : Ready d st fp)
    (hw : Writes S fp st bs t) : Ready d t fp ∧ sent fp t.tr ++ pending t fp = sent fp st.tr ++ pending st fp ++ bs := by
  induction hw with
  | nil => exact ⟨h, by simp⟩
  | putc e _ ih =>
    rename_i st c s bs t _
    obtain ⟨b, s', e', _, h1, _⟩ := fputc_spec (S := S) hd h c
    rw [e] at e'; cases e'
    obtain ⟨r1, r2⟩ := h1 rfl
    obtain ⟨i1, i2⟩ := ih r1
    exact ⟨i1, by rw [i2, r2]; simp⟩
  | puts hs e _ ih =>
    rename_i st a w s bs t _
    obtain ⟨b, s', e', _, h1, _⟩ := fputs_spec (S := S) hd w.length 0 st (by simp) (Nat.zero_le _) hs h
    have e' : fputs S a fp st = _ := e'
    rw [e] at e'; cases e'
    obtain ⟨r1, r2⟩ := h1 rfl
    obtain ⟨i1, i2⟩ := ih r1
    exact ⟨i1, by rw [i2, r2]; simp⟩
  | flush e _ ih =>
    obtain ⟨b, s', e', _, h1, _⟩ := Ready.flush (S := S) hd h
    rw [e] at e'; cases e'
    obtain ⟨r1, r2, r3⟩ := h1 rfl
    obtain ⟨i1, i2⟩ := ih r1
    exact ⟨i1, by rw [i2, r2, r3]; simp⟩
  | other hs ha _ ih =>
    obtain ⟨r1, r2⟩ := h.other hd hS hs ha
    obtain ⟨i1, i2⟩ := ih r1
    exact ⟨i1, by rw [i2, r2]⟩

/-- C20: after a successful fflush nothing is in the buffer: everything written has been delivered. -/
theorem C20_fflush {S : Sys} {d : Std} {fp : Word} {st t u : St} {bs : List Byte} (hd : d.Ok) (hS : HeapOk S d) (h : Ready d st fp)
    (hw : Writes S fp st bs t) (hf : fflush S fp t = .ok (false, u)) : sent fp u.tr = sent fp st.tr ++ pending st fp ++ bs := by
  obtain ⟨h1, h2⟩ := C20 hd hS h hw
  obtain ⟨b, s', e', _, h3, _⟩ := Ready.flush (S := S) hd h1
  rw [hf] at e'; cases e'
  rw [(h3 rfl).2.2, h2]

/-- C20: the same after a successful fclose. -/
theorem C20_fclose {S : Sys} {d : Std} {fp : Word} {st t u : St} {bs : List Byte} (hd : d.Ok) (hS : HeapOk S d) (h : Ready d st fp)
    (hw : Writes S fp st bs t) (hf : fclose S fp t = .ok (false, u)) : sent fp u.tr = sent fp st.tr ++ pending st fp ++ bs := by
  obtain ⟨h1, h2⟩ := C20 hd hS h hw
  obtain ⟨b, s', e', _, h3, _⟩ := Ready.flush (S := S) hd h1
  unfold fclose at hf
  simp only [h1.accept hd, Bool.false_eq_true, if_false, ne_eq, h1.mode, not_false_eq_true, if_true, e'] at hf
  split at hf
  · simp at hf
  · cases b with
    | true => simp at hf
    | false =>
      simp only at hf
      rw [← h2, ← (h3 rfl).2.2]
      unfold fcloseRest at hf
      simp only at hf
      split at hf
      · simp at hf
      · split at hf
        · cases hf; simp only [log_tr, sysret_tr, sent_append]; simp [sent, sentBy]
        · cases hf; simp only [log_tr, sysret_tr, sent_append]; simp [sent, sentBy]

/-- Whatever errors occur, the bytes delivered are always the beginning of the bytes the program wanted to write: nothing is lost in
the middle, repeated or out of order. -/
theorem C20_prefix {S : Sys} {d : Std} {fp : Word} {st t : St} {bs : List Byte} (hd : d.Ok) (hS : HeapOk S d) (h : Ready d st fp)
    (hw : Tries S fp st bs t) : sent fp t.tr <+: sent fp st.tr ++ pending st fp ++ bs := by
  have fail : ∀ st bs t, Failed d st fp → Tries S fp st bs t → sent fp t.tr = sent fp st.tr := by
    intro st bs t h hw
    induction hw with
    | nil => rfl
    | putc e _ ih => rw [fputc_failed hd h] at e; cases e; exact ih h
    | puts _ e _ ih => have := fputs_failed hd h e; subst this; exact ih h
    | flush e _ ih => rw [fflush_failed hd h] at e; cases e; exact ih h
    | other hs ha _ ih =>
      obtain ⟨h1, h2, h3⟩ := step_other hd hS hs ha h.agree
      rw [ih ⟨h1, by rw [h2]; exact h.mode, by rw [h2]; exact h.err⟩, h3]
  induction hw with
  | nil => simp
  | putc e hw ih =>
    rename_i st c b s bs t
    obtain ⟨b', s', e', _, h1, h2⟩ := fputc_spec (S := S) hd h c
    rw [e] at e'; cases e'
    cases b with
    | false =>
      obtain ⟨r1, r2⟩ := h1 rfl
      have := ih r1; rw [r2] at this; simpa using this
    | true =>
      rw [fail _ _ _ (h2 rfl).1 hw]
      exact prefix_trans_app (h2 rfl).2 (by simp; rfl)
  | puts hs e hw ih =>
    rename_i st a w b s bs t
    obtain ⟨b', s', e', _, h1, h2⟩ := fputs_spec (S := S) hd w.length 0 st (by simp) (Nat.zero_le _) hs h
    have e' : fputs S a fp st = _ := e'
    rw [e] at e'; cases e'
    cases b with
    | false =>
      obtain ⟨r1, r2⟩ := h1 rfl
      have := ih r1; rw [r2] at this; simpa using this
    | true =>
      rw [fail _ _ _ (h2 rfl).1 hw]
      exact prefix_trans_app (h2 rfl).2 (by simp; rfl)
  | flush e hw ih =>
    rename_i st b s bs t
    obtain ⟨b', s', e', _, h1, h2⟩ := Ready.flush (S := S) hd h
    rw [e] at e'; cases e'
    cases b with
    | false =>
      obtain ⟨r1, r2, r3⟩ := h1 rfl
      have := ih r1; rw [r2, r3] at this; simpa using this
    | true =>
      rw [fail _ _ _ (h2 rfl).1 hw]
      exact prefix_trans_app (h2 rfl).2 (by simp; rfl)
  | other hs ha _ ih =>
    obtain ⟨r1, r2⟩ := h.other hd hS hs ha
    have := ih r1; rwa [r2] at this

theorem fflush_ok {S fp st} (hb : badFp st fp = false) (hm : (st.file fp).mode ≠ O_RDONLY) : ∃ b s, fflush S fp st = .ok (b, s) := by
  unfold fflush
  simp only [hb, Bool.false_eq_true, if_false, hm]
  split; · exact ⟨_, _, rfl⟩
  split; · exact ⟨_, _, rfl⟩
  split; · exact ⟨_, _, rfl⟩
  exact ⟨_, _, rfl⟩

theorem flushLoop_spec {S d l} (hd : d.Ok) : ∀ n k st, n + k = 8 → Agree d st l → ∃ t, flushLoop S n (BitVec.ofNat 16 k) st = .ok t ∧
    Agree d t l ∧ ∀ j < 8, Ready d st (st.at j) →
      (j < k → t.file (st.at j) = st.file (st.at j) ∧ sent (st.at j) t.tr = sent (st.at j) st.tr) ∧
      (k ≤ j → ((t.file (st.at j)).err = false → pending t (st.at j) = [] ∧
          sent (st.at j) t.tr = sent (st.at j) st.tr ++ pending st (st.at j)) ∧
        sent (st.at j) t.tr <+: sent (st.at j) st.tr ++ pending st (st.at j)) := by
  intro n
  induction n with
  | zero =>
    intro k st hk A
    exact ⟨st, rfl, A, fun j hj _ => ⟨fun _ => ⟨rfl, rfl⟩, fun h => by omega⟩⟩
  | succ n ih =>
    intro k st hk A
    have ek : BitVec.ofNat 16 k + 1 = BitVec.ofNat 16 (k + 1) := add_ofNat_succ k
    unfold flushLoop
    simp only [ek]
    by_cases hc : st.all (BitVec.ofNat 16 k) ≠ 0 ∧ (st.file (st.all (BitVec.ofNat 16 k))).mode ≠ O_RDONLY
    · rw [if_pos hc]
      have hbad : badFp st (st.at k) = false := (A.inv.accept _).2 ⟨hc.1, k, by omega, rfl⟩
      obtain ⟨b, s, e⟩ := fflush_ok (S := S) hbad hc.2
      have ht := fflush_touch S (st.at k) st
      rw [e] at ht
      have ht : Touch (st.at k) st s := ht
      have A' : Agree d s l := A.mono ht.all (A.inv.touch hd ht)
      have ea : ∀ j, s.at j = st.at j := fun j => by simp only [St.at, ht.all]
      obtain ⟨t, e', At, hj'⟩ := ih (k + 1) s (by omega) A'
      simp only [St.at] at e
      rw [e]
      refine ⟨t, e', At, fun j hj hr => ?_⟩
      by_cases hjk : j = k
      · subst hjk
        refine ⟨fun h => by omega, fun _ => ?_⟩
        obtain ⟨b', s', e'', _, h1, h2⟩ := hr.flush (S := S) hd
        simp only [St.at] at e''
        rw [e] at e''; cases e''
        cases b with
        | false =>
          obtain ⟨r1, r2, r3⟩ := h1 rfl
          have := (hj' j hj (by rw [ea]; exact r1)).1 (by omega)
          rw [ea] at this
          exact ⟨fun _ => ⟨by simp only [pending, this.1] at r2 ⊢; exact r2, by rw [this.2, r3]⟩, by rw [this.2, r3]⟩
        | true =>
          obtain ⟨r1, r2⟩ := h2 rfl
          have key : t.file (st.at j) = s.file (st.at j) ∧ sent (st.at j) t.tr = sent (st.at j) s.tr := by
            clear hj' h1 h2 hr ih
            have gen : ∀ n k u, n + k = 8 → j < k → Agree d u l → u.at j = st.at j → ∀ t, flushLoop S n (BitVec.ofNat 16 k) u = .ok t →
                t.file (st.at j) = u.file (st.at j) ∧ sent (st.at j) t.tr = sent (st.at j) u.tr := by
              intro n
              induction n with
              | zero => intro k u _ _ _ _ t e; cases e; exact ⟨rfl, rfl⟩
              | succ n ih =>
                intro k u hk hjk Au ej t e
                unfold flushLoop at e
                have ek : BitVec.ofNat 16 k + 1 = BitVec.ofNat 16 (k + 1) := add_ofNat_succ k
                simp only [ek] at e
                split at e
                · rename_i hcc
                  have ht := fflush_touch S (u.at k) u
                  split at e
                  · simp at e
                  · rename_i b v ev
                    rw [ev] at ht
                    have ht : Touch (u.at k) u v := ht
                    have hne : u.at k ≠ st.at j := by
                      intro h; exact absurd (Au.inv.inj (by omega) (by omega) hcc.1 (h.trans ej.symm)) (by omega)
                    have := ih (k + 1) v (by omega) (by omega) (Au.mono ht.all (Au.inv.touch hd ht))
                      (by simp only [St.at, ht.all] at ej ⊢; exact ej) t e
                    obtain ⟨es, hes, hon⟩ := ht.tr
                    exact ⟨this.1.trans (ht.other _ (Ne.symm hne)), by rw [this.2, hes, sent_append, sent_on hne hon, List.append_nil]⟩
                · exact ih (k + 1) u (by omega) (by omega) Au ej t e
            exact gen n (j + 1) s (by omega) (by omega) A' (ea j) t e'
          refine ⟨fun h => ?_, by rw [key.2]; exact r2⟩
          rw [key.1, r1.err] at h; simp at h
      · have hne : st.at k ≠ st.at j := fun h => hjk (A.inv.inj (by omega) hj hc.1 h).symm
        have hfj := ht.other _ (Ne.symm hne)
        obtain ⟨es, hes, hon⟩ := ht.tr
        have hsj : sent (st.at j) s.tr = sent (st.at j) st.tr := by rw [hes, sent_append, sent_on hne hon, List.append_nil]
        have := hj' j hj (by
          rw [ea]
          exact ⟨agree_touch hd hr.agree ht, by rw [hfj]; exact hr.mode, by rw [hfj]; exact hr.err, by rw [hfj]; exact hr.room⟩)
        rw [ea] at this
        refine ⟨fun h => ?_, fun h => ?_⟩
        · have := this.1 (by omega); rw [hfj, hsj] at this; exact this
        · have := this.2 (by omega); rw [hsj] at this; simp only [pending, hfj] at this ⊢; exact this
    · rw [if_neg hc]
      obtain ⟨t, e', At, hj'⟩ := ih (k + 1) st (by omega) A
      refine ⟨t, e', At, fun j hj hr => ?_⟩
      have := hj' j hj hr
      refine ⟨fun h => this.1 (by omega), fun h => this.2 ?_⟩
      rcases Nat.eq_or_lt_of_le h with rfl | h
      · exact absurd ⟨fun z => ((A.reg hd _).2 (by
          obtain ⟨l', A', hm⟩ := hr.agree; exact (A.reg hd _).1 ((A'.reg hd _).2 hm))).1 z, hr.mode⟩ hc
      · exact h

/-- C20: _flushAll, the first thing exit does (stdlib.cmm:182-184), always returns, and leaves nothing in the buffer of any stream
except when an error is recorded for it. -/
theorem C20_exit {S : Sys} {d : Std} {st : St} {l : List Word} (hd : d.Ok) (A : Agree d st l) :
    ∃ t, flushAll S st = .ok t ∧ ∀ fp, Ready d st fp → (t.file fp).err = false →
      pending t fp = [] ∧ sent fp t.tr = sent fp st.tr ++ pending st fp := by
  obtain ⟨t, e, _, h⟩ := flushLoop_spec (S := S) hd 8 0 st rfl A
  refine ⟨t, e, fun fp hr he => ?_⟩
  obtain ⟨l', A', hm⟩ := hr.agree
  obtain ⟨_, j, hj, rfl⟩ := (A'.reg hd fp).2 hm
  exact ((h j hj hr).2 (Nat.zero_le _)).1 he

/-- The system takes every write on this file completely. -/
def Takes (S : Sys) (fd : Word) : Prop := ∀ tr bs, S.write tr fd bs = BitVec.ofNat 16 bs.length

/-- When the system takes every write, fflush reports no error. -/
theorem fflush_takes {S fp st} (hb : badFp st fp = false) (hm : (st.file fp).mode ≠ O_RDONLY) (he : (st.file fp).err = false)
    (hc : (st.file fp).buf ≠ 0 → ∃ k, (st.file fp).cnt = BitVec.ofNat 16 k ∧ k < 32768) (hk : Takes S (st.file fp).fd) :
    ∃ s, fflush S fp st = .ok (false, s) := by
  obtain ⟨b, s, e, _, heb, _, _⟩ := fflush_spec (S := S) hb hm he hc
  suffices h : b = false by subst h; exact ⟨s, e⟩
  rw [← heb]
  unfold fflush at e
  simp only [hb, he, Bool.false_eq_true, if_false, hm] at e
  split at e; · cases e; exact he
  rename_i h0
  split at e; · cases e; exact he
  rename_i hz
  obtain ⟨k, h1, h2⟩ := hc h0
  have hl : S.write st.tr (st.file fp).fd ((st.file fp).bytes (st.file fp).cnt.toNat) = (st.file fp).cnt := by
    rw [hk, bytes_length]; simp
  have hpos : ilt 0 (st.file fp).cnt = true := by
    rw [h1, show (0 : Word) = BitVec.ofNat 16 0 from rfl, ilt_ofNat (by omega) (by omega)]
    have : k ≠ 0 := fun e => hz (by rw [h1, e]; rfl)
    simp; omega
  simp only [hl, hpos, if_true] at e
  cases e
  simp only [upd_same]
  split
  · simp [upd_same]
  · simp [upd_same, sysret_file, log_file]

/-- C20, without the assumption of success: when the system takes every write, every fputc, fputs and fflush on a ready stream returns
and reports success. -/
theorem C20_total {S : Sys} {d : Std} {fp : Word} {st : St} (hd : d.Ok) (h : Ready d st fp) (hk : Takes S (st.file fp).fd) :
    (∃ s, fflush S fp st = .ok (false, s)) ∧ (∀ c, ∃ s, fputc S c fp st = .ok (false, s)) ∧
    ∀ a w, IsStr st.mem a w → ∃ s, fputs S a fp st = some (.ok (false, s)) := by
  have pc : ∀ st, Ready d st fp → Takes S (st.file fp).fd → ∀ c, ∃ s, fputc S c fp st = .ok (false, s) := by
    intro st h hk c
    have hb := h.accept hd
    by_cases h0 : (st.file fp).buf = 0
    · refine ⟨st.log (.ttyWrite fp [c]), ?_⟩
      unfold fputc
      simp only [hb, h.err, Bool.false_eq_true, if_false, h.mode, h0, if_true, log_file]
    · obtain ⟨k, n, e1, e2, hkn, hn2⟩ := h.room h0
      generalize hs : (st.upd fp fun f => { f with data := fun x => if x = f.cnt then c else f.data x }).upd fp
        (fun f => { f with cnt := f.cnt + 1 }) = s1
      have f1 : s1.file fp = { st.file fp with data := fun x => if x = (st.file fp).cnt then c else (st.file fp).data x,
                                               cnt := (st.file fp).cnt + 1 } := by
        rw [← hs, upd_same, upd_same]
      have run : fputc S c fp st = if ile (s1.file fp).size (s1.file fp).cnt || (s1.file fp).tty && c = 0x0a#8 then
          match fflush S fp s1 with
          | .error e => .error e
          | .ok (_, st) => .ok ((st.file fp).err, st)
        else .ok ((s1.file fp).err, s1) := by
        unfold fputc
        simp only [hb, h.err, Bool.false_eq_true, if_false, h.mode, h0, hs]
        rfl
      rw [run]
      split
      · obtain ⟨s, e⟩ := fflush_takes (S := S) (st := s1) (by rw [← hb]; unfold badFp; rw [f1, ← hs]; rfl) (by rw [f1]; exact h.mode)
          (by rw [f1]; exact h.err) (fun _ => ⟨k + 1, by rw [f1]; simp only [e1]; exact add_ofNat_succ k, by omega⟩) (by rw [f1]; exact hk)
        obtain ⟨b', s', e', _, he, _, _⟩ := fflush_spec (S := S) (st := s1) (by rw [← hb]; unfold badFp; rw [f1, ← hs]; rfl)
          (by rw [f1]; exact h.mode) (by rw [f1]; exact h.err)
          (fun _ => ⟨k + 1, by rw [f1]; simp only [e1]; exact add_ofNat_succ k, by omega⟩)
        rw [e] at e'; cases e'
        rw [e]; exact ⟨s, by simp only [he]⟩
      · exact ⟨s1, by rw [f1]; simp only [h.err]⟩
  refine ⟨fflush_takes (h.accept hd) h.mode h.err (fun x => by
    obtain ⟨k, n, a, _, b, c⟩ := h.room x; exact ⟨k, a, by omega⟩) hk, pc st h hk, ?_⟩
  intro a w hw
  have loop : ∀ n k st, w.length - k = n → k ≤ w.length → IsStr st.mem a w → Ready d st fp → Takes S (st.file fp).fd →
      ∃ s, fputsLoop S a fp (BitVec.ofNat 16 k) st = some (.ok (false, s)) := by
    intro n
    induction n with
    | zero =>
      intro k st hn hk hw _ _
      have hk : k = w.length := by omega
      subst hk
      rw [fputsLoop, add_ofNat, hw.nul]
      exact ⟨st, rfl⟩
    | succ n ih =>
      intro k st hn hk hw hr hT
      have hlt : k < w.length := by omega
      rw [fputsLoop, add_ofNat, hw.get hlt, if_pos (hw.nz _ (List.getElem_mem hlt))]
      obtain ⟨s, e⟩ := pc st hr hT w[k]
      obtain ⟨b', s', e', hm, h1, _⟩ := fputc_spec (S := S) hd hr w[k]
      rw [e] at e'; cases e'
      have ht := fputc_touch S w[k] fp st
      rw [e] at ht
      have ht : Touch fp st s := ht
      rw [e, show BitVec.ofNat 16 k + 1 = BitVec.ofNat 16 (k + 1) from add_ofNat_succ k]
      exact ih (k + 1) s (by omega) hlt (by rw [hm]; exact hw) (h1 rfl).1 (by rw [ht.fd]; exact hT)
  exact loop _ 0 st rfl (Nat.zero_le _) hw h hk

/-- A stream just opened for writing is ready, with an empty buffer. -/
theorem C20_fopen {S : Sys} {d : Std} {st t : St} {l : List Word} {name fp : Word} {md : List Byte} (hd : d.Ok) (hS : HeapOk S d)
    (A : Agree d st l) (h : fopen S name md st = .ok (fp, t)) (h0 : fp ≠ 0) (hm : md = [0x77#8] ∨ md = [0x61#8]) :
    Ready d t fp ∧ pending t fp = [] := by
  have A' := A.opn hd hS h
  rw [if_neg h0] at A'
  obtain ⟨s, ho, hh⟩ := fopen_spec h
  rcases hh with ⟨rfl, rfl⟩ | ⟨fd, mode, _, hmode, hal⟩
  · exact absurd rfl h0
  · obtain ⟨i, b, hi, _, hlt, ha, hb, hst⟩ := allocFile_spec hal
    have hf : t.file fp = ⟨fd, mode, b, 128, 0, 0, false, false, false, BitVec.ofNat 16 i, (s.file fp).data⟩ := by rw [hst]; simp
    refine ⟨⟨⟨_, A', .inr (by simp)⟩, ?_, by rw [hf], fun _ => ⟨0, 128, by rw [hf]; rfl, by rw [hf]; rfl, by decide, by decide⟩⟩, ?_⟩
    · rw [hf]
      rcases hm with rfl | rfl
      · have : mode = O_WRONLY := by have h : some O_WRONLY = some mode := hmode; exact (Option.some.inj h).symm
        rw [this]; simp [O_WRONLY, O_APPEND, O_RDONLY]
      · have : mode = O_APPEND := by have h : some O_APPEND = some mode := hmode; exact (Option.some.inj h).symm
        rw [this]; simp [O_WRONLY, O_APPEND, O_RDONLY]
    · simp only [pending, hf]; split <;> rfl

/-- The standard output and error streams are ready when main starts. -/
theorem C20_std {d : Std} (hd : d.Ok) (f : Word → FRec) (m : Mem) :
    (Ready d (begin d f m) d.stdout ∧ pending (begin d f m) d.stdout = []) ∧
    (Ready d (begin d f m) d.stderr ∧ pending (begin d f m) d.stderr = []) := by
  have A := begin_agree hd f m
  have hd' := hd
  simp only [Std.Ok, List.nodup_cons, List.mem_cons, not_or, List.not_mem_nil, not_false_eq_true, List.nodup_nil, and_true] at hd'
  obtain ⟨⟨n0, n1, n2⟩, ⟨n3, n4⟩, n5⟩ := hd'
  have a1 : d.stderr ≠ d.stdin := fun e => n4 e.symm
  have a2 : d.stderr ≠ d.stdout := fun e => n5 e.symm
  have a3 : d.stdout ≠ d.stdin := fun e => n3 e.symm
  have f1 : (begin d f m).file d.stdout = ⟨-2, O_WRONLY, d.outBuf, 80, 0, 0, true, false, false, 1, (f d.stdout).data⟩ := by
    simp [begin, stdioInit, start, St.upd, a3]
  have f2 : (begin d f m).file d.stderr = ⟨-3, O_WRONLY, 0, 0, 0, 0, true, false, false, 2, (f d.stderr).data⟩ := by
    simp [begin, stdioInit, start, St.upd, a1, a2]
  refine ⟨⟨⟨⟨[], A, .inl (by simp [Std.list])⟩, by rw [f1]; simp [O_WRONLY, O_RDONLY], by rw [f1], fun _ =>
      ⟨0, 80, by rw [f1]; rfl, by rw [f1]; rfl, by decide, by decide⟩⟩, ?_⟩,
    ⟨⟨[], A, .inl (by simp [Std.list])⟩, by rw [f2]; simp [O_WRONLY, O_RDONLY], by rw [f2], fun h => by rw [f2] at h; exact absurd rfl h⟩, ?_⟩
  · simp only [pending, f1]; split <;> rfl
  · simp only [pending, f2]; rfl

/-- A program that writes "A", then a newline to the standard output: both bytes are delivered, because the newline flushes. -/
example (f : Word → FRec) (m : Mem) : ∃ t, Writes exSys exStd.stdout (begin exStd f m) [0x41#8, 0x0a#8] t ∧
    sent exStd.stdout t.tr ++ pending t exStd.stdout = [0x41#8, 0x0a#8] := by
  have hr := (C20_std exStd_ok f m).1
  obtain ⟨s, e⟩ := (C20_total (S := exSys) exStd_ok hr.1 fun _ _ => rfl).2.1 0x41#8
  have w1 : Writes exSys exStd.stdout (begin exStd f m) [0x41#8] s := .putc e .nil
  obtain ⟨h1, h2⟩ := C20 exStd_ok exSys_ok hr.1 w1
  obtain ⟨t, e2⟩ := (C20_total (S := exSys) exStd_ok h1 fun _ _ => rfl).2.1 0x0a#8
  refine ⟨t, .putc e (.putc e2 .nil), ?_⟩
  rw [(C20 exStd_ok exSys_ok hr.1 (.putc e (.putc e2 .nil))).2, hr.2]
  rfl

end Cmm.Stdio
