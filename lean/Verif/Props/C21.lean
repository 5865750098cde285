import Verif.Props.C20

/-
C21: buffered input delivers exactly the bytes of the file, in order, and EOF exactly at the end.
-/
namespace Cmm.Stdio
open Cmm.Ctype Cmm.Str

/-- The bytes an event reads for a stream. -/
def gotBy (fp : Word) : Ev → List Byte
  | .read g _ _ _ bs => if g = fp then bs else []
  | .ttyRead g _ _ bs => if g = fp then bs else []
  | _ => []

/-- The bytes read by the system for a stream. -/
def got (fp : Word) (tr : List Ev) : List Byte := tr.flatMap (gotBy fp)

/-- A read result is right: `j` bytes, the next ones of the file, none only at the end of the file, not more than asked for. -/
def Right (rest : List Byte) (n : Nat) (r : Word × List Byte) : Prop :=
  r.1 = BitVec.ofNat 16 r.2.length ∧ r.2.length ≤ n ∧ r.2 = rest.take r.2.length ∧ (r.2 = [] ↔ rest = [])

/-- The system reads the file `content` for the stream `fp` (descriptor `fd`): every read gives some of the following bytes, in any
portions. `base` is the number of bytes read for an earlier stream at the same address. -/
def Feeds (S : Sys) (tty : Bool) (fd fp : Word) (content : List Byte) (base : Nat) : Prop :=
  ∀ tr n, 0 < n → n < 32768 → Right (content.drop ((got fp tr).length - base)) n
    (if tty then S.ttyRead tr (BitVec.ofNat 16 n) else S.read tr fd (BitVec.ofNat 16 n))

/-- A stream that is open for reading; `done` are the bytes the program has consumed. -/
structure Reader (d : Std) (tty : Bool) (content : List Byte) (base : Nat) (st : St) (fp : Word) (done : List Byte) : Prop where
  agree : ∃ l, Agree d st l ∧ (fp ∈ d.list ∨ fp ∈ l)
  mode : (st.file fp).mode = O_RDONLY
  tty : (st.file fp).tty = tty
  based : base ≤ (got fp st.tr).length
  state : ∃ k l n, (st.file fp).cnt = BitVec.ofNat 16 k ∧ (st.file fp).len = BitVec.ofNat 16 l ∧ (st.file fp).size = BitVec.ofNat 16 n ∧
    k ≤ l ∧ l ≤ n ∧ 0 < n ∧ n < 32768 ∧
    done ++ ((st.file fp).bytes l).drop k = content.take ((got fp st.tr).length - base)
  bound : (got fp st.tr).length - base ≤ content.length
  eof : (st.file fp).eof = true → done = content

theorem Reader.accept {d tty content base st fp done} (hd : d.Ok) (h : Reader d tty content base st fp done) : badFp st fp = false := by
  obtain ⟨l, A, hm⟩ := h.agree
  exact (A.inv.accept fp).2 ((A.reg hd fp).2 hm)

theorem got_append (fp tr es) : got fp (tr ++ es) = got fp tr ++ got fp es := by simp [got, List.flatMap_append]

theorem bytes_fill (f : FRec) (bs : List Byte) (h : bs.length < 32768) : (f.fill bs).bytes bs.length = bs := by
  apply List.ext_getElem
  · rw [bytes_length]
  · intro i h1 h2
    simp only [FRec.bytes, FRec.fill, List.getElem_map, List.getElem_range, asNat (show i < 32768 by omega)]
    simp [h2]

theorem bytes_congr (f g : FRec) (h : f.data = g.data) (n) : f.bytes n = g.bytes n := by simp only [FRec.bytes, h]

/-- Refilling an empty buffer. -/
theorem fillBuf_spec {S d tty content base st fp done} (hd : d.Ok) (h : Reader d tty content base st fp done)
    (hF : Feeds S tty (st.file fp).fd fp content base) (he : ile (st.file fp).len (st.file fp).cnt = true)
    (ht : tty = true → done ≠ content) :
    Reader d tty content base (fillBuf S fp st) fp done ∧ ((fillBuf S fp st).file fp).eof = decide (done = content) ∧
    (fillBuf S fp st).mem = st.mem ∧
    (done ≠ content → ile ((fillBuf S fp st).file fp).len ((fillBuf S fp st).file fp).cnt = false) := by
  obtain ⟨k, l, n, hk, hl, hn, hkl, hln, hn0, hn2, hst⟩ := h.state
  have hkl' : k = l := by
    rw [hk, hl, ile_ofNat (by omega) (by omega)] at he
    have := of_decide_eq_true he; omega
  subst hkl'
  have hdone : done = content.take ((got fp st.tr).length - base) := by
    rw [List.drop_of_length_le (by rw [bytes_length])] at hst; simpa using hst
  have hF := hF st.tr n hn0 hn2
  have touch := fillBuf_touch S fp st
  generalize hp : (got fp st.tr).length - base = p at *
  have hdlen : done.length = p := by rw [hdone, List.length_take]; have := h.bound; omega
  have hfull : done = content ↔ content.drop p = [] := by
    rw [List.drop_eq_nil_iff, hdone]
    constructor
    · intro e; have := congrArg List.length e; rw [List.length_take] at this; omega
    · intro e; rw [List.take_of_length_le e]
  -- the part common to both kinds of streams
  have common : ∀ (bs : List Byte) (t : St), Right (content.drop p) n (BitVec.ofNat 16 bs.length, bs) → t = fillBuf S fp st →
      got fp t.tr = got fp st.tr ++ bs → t.mem = st.mem → (t.file fp).cnt = 0 → (t.file fp).len = BitVec.ofNat 16 bs.length →
      (t.file fp).data = ((st.file fp).fill bs).data → (t.file fp).eof = decide (done = content) →
      Reader d tty content base (fillBuf S fp st) fp done ∧ ((fillBuf S fp st).file fp).eof = decide (done = content) ∧
      (fillBuf S fp st).mem = st.mem ∧
      (done ≠ content → ile ((fillBuf S fp st).file fp).len ((fillBuf S fp st).file fp).cnt = false) := by
    rintro bs t ⟨_, r2, r3, r4⟩ rfl hg hm hc hlen hdata heof
    simp only at r2 r3 r4
    have hgl : (got fp (fillBuf S fp st).tr).length - base = p + bs.length := by
      rw [hg, List.length_append, ← hp]; have := h.based; omega
    have hle : bs.length ≤ (content.drop p).length := by
      have := congrArg List.length r3; rw [List.length_take] at this; omega
    refine ⟨⟨agree_touch hd h.agree touch, by rw [touch.mode]; exact h.mode, by rw [touch.tty]; exact h.tty, ?_, ?_, ?_, ?_⟩, heof, hm, ?_⟩
    · rw [hg, List.length_append]; have := h.based; omega
    · refine ⟨0, bs.length, n, by rw [hc]; rfl, hlen, by rw [touch.size]; exact hn, Nat.zero_le _, r2, hn0, hn2, ?_⟩
      rw [List.drop_zero, bytes_congr _ _ hdata, bytes_fill _ _ (by omega), hgl, hdone, List.take_add, ← r3]
    · rw [hgl]; rw [List.length_drop] at hle; have := h.bound; omega
    · rw [heof]; intro e; simpa using e
    · intro hne
      have : bs ≠ [] := fun e => hne (hfull.2 (r4.1 e))
      have : 0 < bs.length := List.length_pos_iff.2 this
      rw [hc, hlen, show (0 : Word) = BitVec.ofNat 16 0 from rfl, ile_ofNat (by omega) (by omega)]
      simp; omega
  cases tty with
  | true =>
    simp only [if_true] at hF
    generalize hr : S.ttyRead st.tr (BitVec.ofNat 16 n) = r at hF
    obtain ⟨lw, bs⟩ := r
    have hlw : lw = BitVec.ofNat 16 bs.length := hF.1
    subst hlw
    have eof0 : (st.file fp).eof = false := by
      by_contra hne; exact ht rfl (h.eof (by simpa using hne))
    refine common bs _ hF rfl ?_ ?_ ?_ ?_ ?_ ?_ <;>
      simp only [fillBuf, h.tty, if_true, hn, hr, upd_tr, upd_mem, upd_same, sysret_tr, sysret_mem, sysret_file, log_tr, log_mem, log_file,
        FRec.fill]
    · rw [got_append]; simp [got, gotBy]
    · rw [eof0]; simp [ht rfl]
  | false =>
    simp only [Bool.false_eq_true, if_false] at hF
    generalize hr : S.read st.tr (st.file fp).fd (BitVec.ofNat 16 n) = r at hF
    obtain ⟨lw, bs⟩ := r
    have hlw : lw = BitVec.ofNat 16 bs.length := hF.1
    subst hlw
    have hbn : bs.length ≤ n := hF.2.1
    have hneg : ilt (BitVec.ofNat 16 bs.length) 0 = false := by
      rw [show (0 : Word) = BitVec.ofNat 16 0 from rfl, ilt_ofNat (by omega) (by omega)]; simp
    by_cases h0 : bs = []
    · subst h0
      have hdc : done = content := hfull.2 (hF.2.2.2.1 rfl)
      refine common [] _ hF rfl ?_ ?_ ?_ ?_ ?_ ?_ <;>
        simp only [fillBuf, h.tty, Bool.false_eq_true, if_false, hn, hr, show ilt (0 : Word) 0 = false from rfl, List.length_nil, upd_tr, upd_mem, upd_same, sysret_tr,
          sysret_mem, sysret_file, log_tr, log_mem, log_file, FRec.fill, show BitVec.ofNat 16 0 = (0 : Word) from rfl, if_true]
      · rw [got_append]; simp [got, gotBy]
      · simp [hdc]
    · have hne : BitVec.ofNat 16 bs.length ≠ (0 : Word) := by
        intro z
        have := congrArg BitVec.toNat z
        rw [asNat (by omega), show (0 : Word).toNat = 0 from rfl] at this
        exact h0 (List.length_eq_zero_iff.1 this)
      have hdc : done ≠ content := fun e => h0 (hF.2.2.2.2 (hfull.1 e))
      refine common bs _ hF rfl ?_ ?_ ?_ ?_ ?_ ?_ <;>
        simp only [fillBuf, h.tty, Bool.false_eq_true, if_false, hn, hr, hneg, hne, upd_tr, upd_mem, upd_same, sysret_tr,
          sysret_mem, sysret_file, log_tr, log_mem, log_file, FRec.fill]
      · rw [got_append]; simp [got, gotBy]
      · simp [hdc]

/-- The state of feof and fgetc after refilling the buffer when it is empty. -/
theorem refill_spec {S d tty content base st fp done} (hd : d.Ok) (h : Reader d tty content base st fp done)
    (hF : Feeds S tty (st.file fp).fd fp content base) (ht : tty = true → done ≠ content) {s : St}
    (hs : s = if ile (st.file fp).len (st.file fp).cnt then fillBuf S fp st else st) :
    Reader d tty content base s fp done ∧ (s.file fp).eof = decide (done = content) ∧ s.mem = st.mem ∧
    (done ≠ content → ile (s.file fp).len (s.file fp).cnt = false) := by
  subst hs
  by_cases he : ile (st.file fp).len (st.file fp).cnt = true
  · rw [if_pos he]; exact fillBuf_spec hd h hF he ht
  · rw [if_neg he]
    obtain ⟨k, l, n, hk, hl, hn, hkl, hln, hn0, hn2, hst⟩ := h.state
    have hlt : k < l := by
      rw [hk, hl, ile_ofNat (by omega) (by omega)] at he; simp at he; exact he
    have hne : done ≠ content := by
      intro e
      have := congrArg List.length hst
      rw [List.length_append, List.length_drop, bytes_length, List.length_take, e] at this
      omega
    refine ⟨h, ?_, rfl, fun _ => by simpa using he⟩
    rw [decide_eq_false hne]
    by_contra hc
    exact hne (h.eof (by simpa using hc))

/-- C21: feof tells whether all bytes have been consumed. -/
theorem C21_feof {S : Sys} {d : Std} {content : List Byte} {base : Nat} {st : St} {fp : Word} {done : List Byte} (hd : d.Ok)
    (h : Reader d false content base st fp done) (hF : Feeds S false (st.file fp).fd fp content base) :
    ∃ s, feof S fp st = .ok (decide (done = content), s) ∧ Reader d false content base s fp done ∧ s.mem = st.mem ∧
      (s.file fp).fd = (st.file fp).fd := by
  obtain ⟨r1, r2, r3, _⟩ := refill_spec hd h hF (by simp) rfl
  have ht := feof_touch S fp st
  have e : feof S fp st = .ok (decide (done = content), if ile (st.file fp).len (st.file fp).cnt then fillBuf S fp st else st) := by
    unfold feof
    simp only [h.accept hd, Bool.false_eq_true, if_false, h.mode, ne_eq, not_true_eq_false]
    rw [r2]
  rw [e] at ht
  exact ⟨_, e, r1, r3, ht.fd⟩

/-- The byte taken from the buffer. -/
theorem Reader.take {d tty content base s fp done} (hd : d.Ok) (h : Reader d tty content base s fp done)
    (hne : ile (s.file fp).len (s.file fp).cnt = false) (heof : (s.file fp).eof = false) :
    ∃ c, content[done.length]? = some c ∧ (s.file fp).data (s.file fp).cnt = c ∧
      Reader d tty content base (s.upd fp fun f => { f with cnt := f.cnt + 1 }) fp (done ++ [c]) := by
  obtain ⟨k, l, n, hk, hl, hn, hkl, hln, hn0, hn2, hst⟩ := h.state
  have hlt : k < l := by
    rw [hk, hl, ile_ofNat (by omega) (by omega)] at hne; simpa using hne
  have hb : ((s.file fp).bytes l).drop k = (s.file fp).data (s.file fp).cnt :: ((s.file fp).bytes l).drop (k + 1) := by
    rw [List.drop_eq_getElem_cons (by rw [bytes_length]; exact hlt)]
    simp [FRec.bytes, hk]
  have touch : Touch fp s (s.upd fp fun f => { f with cnt := f.cnt + 1 }) := .upd fun r => ⟨rfl, rfl, rfl, rfl, rfl, rfl⟩
  refine ⟨_, ?_, rfl, agree_touch hd h.agree touch, by rw [touch.mode]; exact h.mode, by rw [touch.tty]; exact h.tty, h.based, ?_,
    h.bound, ?_⟩
  · have h1 : (content.take ((got fp s.tr).length - base))[done.length]? = some ((s.file fp).data (s.file fp).cnt) := by
      rw [← hst, hb, List.getElem?_append_right (Nat.le_refl _)]; simp
    rw [List.getElem?_take] at h1
    split at h1
    · exact h1
    · simp at h1
  · refine ⟨k + 1, l, n, ?_, ?_, ?_, hlt, hln, hn0, hn2, ?_⟩
    · rw [upd_same]; simp only [hk]; exact add_ofNat_succ k
    · rw [upd_same]; exact hl
    · rw [upd_same]; exact hn
    · have e1 : ((s.upd fp fun f => { f with cnt := f.cnt + 1 }).file fp).bytes l = (s.file fp).bytes l := by
        rw [upd_same]; exact bytes_congr _ _ rfl l
      rw [e1, upd_tr, ← hst, hb]; simp
  · rw [upd_same]; simp only [heof]; intro h; simp at h

/-- C21: fgetc gives the next byte when there is one; otherwise it ends the program with EUEOF. -/
theorem C21_fgetc {S : Sys} {d : Std} {content : List Byte} {base : Nat} {st : St} {fp : Word} {done : List Byte} (hd : d.Ok)
    (h : Reader d false content base st fp done) (hF : Feeds S false (st.file fp).fd fp content base) :
    (done = content → ∃ s, fgetc S fp st = .error (EUEOF, s)) ∧
    (done ≠ content → ∃ c s, fgetc S fp st = .ok (c, s) ∧ content[done.length]? = some c ∧ Reader d false content base s fp (done ++ [c]) ∧
      s.mem = st.mem ∧ (s.file fp).fd = (st.file fp).fd) := by
  obtain ⟨r1, r2, r3, r4⟩ := refill_spec hd h hF (by simp) rfl
  have ht := fgetc_touch S fp st
  constructor
  · intro e
    refine ⟨if ile (st.file fp).len (st.file fp).cnt then fillBuf S fp st else st, ?_⟩
    unfold fgetc
    simp only [h.accept hd, Bool.false_eq_true, if_false, h.mode, ne_eq, not_true_eq_false]
    rw [r2]; simp [e]
  · intro hne
    have heof : ((if ile (st.file fp).len (st.file fp).cnt then fillBuf S fp st else st).file fp).eof = false := by rw [r2]; simp [hne]
    obtain ⟨c, q1, q2, q3⟩ := r1.take hd (r4 hne) heof
    have e : fgetc S fp st = .ok (c, (if ile (st.file fp).len (st.file fp).cnt then fillBuf S fp st else st).upd fp
        fun f => { f with cnt := f.cnt + 1 }) := by
      unfold fgetc
      simp only [h.accept hd, Bool.false_eq_true, if_false, h.mode, ne_eq, not_true_eq_false]
      rw [heof, q2]; simp
    rw [e] at ht
    exact ⟨c, _, e, q1, q3, r3, ht.fd⟩

/-- C21 for the console: as long as the system has input, feof is false and fgetc gives the next byte. -/
theorem C21_console {S : Sys} {d : Std} {content : List Byte} {base : Nat} {st : St} {fp : Word} {done : List Byte} (hd : d.Ok)
    (h : Reader d true content base st fp done) (hF : Feeds S true (st.file fp).fd fp content base) (hne : done ≠ content) :
    (∃ s, feof S fp st = .ok (false, s) ∧ Reader d true content base s fp done) ∧
    (∃ c s, fgetc S fp st = .ok (c, s) ∧ content[done.length]? = some c ∧ Reader d true content base s fp (done ++ [c])) := by
  obtain ⟨r1, r2, r3, r4⟩ := refill_spec hd h hF (fun _ => hne) rfl
  have heof : ((if ile (st.file fp).len (st.file fp).cnt then fillBuf S fp st else st).file fp).eof = false := by rw [r2]; simp [hne]
  constructor
  · refine ⟨_, ?_, r1⟩
    unfold feof
    simp only [h.accept hd, Bool.false_eq_true, if_false, h.mode, ne_eq, not_true_eq_false]
    rw [heof]
  · obtain ⟨c, q1, q2, q3⟩ := r1.take hd (r4 hne) heof
    refine ⟨c, _, ?_, q1, q3⟩
    unfold fgetc
    simp only [h.accept hd, Bool.false_eq_true, if_false, h.mode, ne_eq, not_true_eq_false]
    rw [heof, q2]; simp

/-- Specification: the next line of at most `k` bytes, with its newline. -/
def nextLine : Nat → List Byte → List Byte
  | 0, _ => []
  | _, [] => []
  | k + 1, b :: rest => if b = 0x0a#8 then [b] else b :: nextLine k rest

/-- Specification: memory with some bytes stored. -/
def putAll (m : Mem) (a : Word) (w : List Byte) : Mem := fun x => w.getD (x - a).toNat (m x)

theorem putAll_nil (m a) : putAll m a [] = m := by funext x; simp [putAll]

theorem putAll_snoc (m : Mem) (a : Word) (w : List Byte) (c : Byte) (h : w.length < 65536) :
    (putAll m a w).set (a + BitVec.ofNat 16 w.length) c = putAll m a (w ++ [c]) := by
  funext x
  simp only [Mem.set, putAll]
  have hx : x = a + BitVec.ofNat 16 w.length ↔ (x - a).toNat = w.length := by
    constructor
    · rintro rfl
      simp only [BitVec.toNat_sub, BitVec.toNat_add, BitVec.toNat_ofNat]
      have := a.isLt; omega
    · intro e
      apply BitVec.eq_of_toNat_eq
      simp only [BitVec.toNat_sub, BitVec.toNat_add, BitVec.toNat_ofNat] at e ⊢
      have := a.isLt; have := x.isLt; omega
  by_cases e : x = a + BitVec.ofNat 16 w.length
  · rw [if_pos e]
    have := hx.1 e
    rw [this]; simp
  · rw [if_neg e]
    have hne : (x - a).toNat ≠ w.length := fun h => e (hx.2 h)
    by_cases hlt : (x - a).toNat < w.length
    · rw [List.getD_eq_getElem?_getD, List.getD_eq_getElem?_getD, List.getElem?_append_left hlt]
    · rw [List.getD_eq_getElem?_getD, List.getD_eq_getElem?_getD, List.getElem?_eq_none (by omega),
        List.getElem?_eq_none (by rw [List.length_append, List.length_singleton]; omega)]

theorem Reader.store {d tty content base st fp done} (h : Reader d tty content base st fp done) (m : Mem) :
    Reader d tty content base { st with mem := m } fp done :=
  ⟨by obtain ⟨l, A, hm⟩ := h.agree
      exact ⟨l, ⟨⟨A.inv.std0, A.inv.std1, A.inv.std2, A.inv.slot, A.inv.own, A.inv.apart, A.inv.inBuf, A.inv.outBuf, A.inv.errBuf⟩, A.mem, A.nodup⟩, hm⟩,
    h.mode, h.tty, h.based, h.state, h.bound, h.eof⟩

theorem Reader.prefix {d tty content base st fp done} (h : Reader d tty content base st fp done) : ∃ rest, content = done ++ rest := by
  obtain ⟨k, l, n, hk, hl, hn, hkl, hln, hn0, hn2, hst⟩ := h.state
  refine ⟨((st.file fp).bytes l).drop k ++ content.drop ((got fp st.tr).length - base), ?_⟩
  rw [← List.append_assoc, hst, List.take_append_drop]

theorem fgetsLoop_spec {S d content base fp str} (hd : d.Ok) {M : Nat} (hM : M < 32767) (m : Mem) : ∀ j i st done (w0 rest : List Byte),
    M - i = j → i ≤ M → w0.length = i → Reader d false content base st fp done → Feeds S false (st.file fp).fd fp content base →
    content = done ++ rest → st.mem = putAll m str w0 →
    ∃ s, fgetsLoop S str (BitVec.ofNat 16 M) fp (BitVec.ofNat 16 i) st = some (.ok (BitVec.ofNat 16 (i + (nextLine j rest).length), s)) ∧
      Reader d false content base s fp (done ++ nextLine j rest) ∧ s.mem = putAll m str (w0 ++ nextLine j rest) := by
  intro j
  induction j with
  | zero =>
    intro i st done w0 rest hj hi hw hr hF hc hm
    have : i = M := by omega
    subst this
    rw [fgetsLoop, ilt_ofNat (by omega) (by omega)]
    simp only [Nat.lt_irrefl, decide_false, Bool.false_eq_true, if_false, nextLine, List.length_nil, Nat.add_zero, List.append_nil]
    exact ⟨st, rfl, hr, hm⟩
  | succ j ih =>
    intro i st done w0 rest hj hi hw hr hF hc hm
    rw [fgetsLoop, ilt_ofNat (by omega) (by omega)]
    have hlt : i < M := by omega
    simp only [hlt, decide_true, if_true]
    obtain ⟨s1, e1, r1, m1, f1⟩ := C21_feof hd hr hF
    rw [e1]
    cases rest with
    | nil =>
      have : done = content := by rw [hc]; simp
      simp only [this, decide_true, nextLine, List.length_nil, Nat.add_zero, List.append_nil]
      exact ⟨s1, rfl, by rw [this] at r1; exact r1, by rw [m1]; exact hm⟩
    | cons b rest =>
      have hne : done ≠ content := by
        rw [hc]; intro e; have := congrArg List.length e; simp at this
      simp only [hne, decide_false]
      obtain ⟨c, s2, e2, g2, r2, m2, f2⟩ := (C21_fgetc hd r1 (by rw [f1]; exact hF)).2 hne
      have hcb : c = b := by
        rw [hc, List.getElem?_append_right (Nat.le_refl _)] at g2; simpa using g2.symm
      subst hcb
      rw [e2]
      have hmem : s2.mem.set (str + BitVec.ofNat 16 i) c = putAll m str (w0 ++ [c]) := by
        rw [m2, m1, hm, ← hw]; exact putAll_snoc _ _ _ _ (by omega)
      have e3 : BitVec.ofNat 16 i + 1 = BitVec.ofNat 16 (i + 1) := add_ofNat_succ i
      simp only [hmem, e3]
      by_cases hnl : c = 0x0a#8
      · rw [if_pos hnl]
        simp only [nextLine, if_pos hnl, List.length_singleton]
        exact ⟨_, rfl, r2.store _, rfl⟩
      · rw [if_neg hnl]
        simp only [nextLine, if_neg hnl, List.length_cons]
        obtain ⟨s, e, r, hm'⟩ := ih (i + 1) { s2 with mem := putAll m str (w0 ++ [c]) } (done ++ [c]) (w0 ++ [c]) rest (by omega) hlt
          (by simp [hw]) (r2.store _) (by simp only [f2, f1]; exact hF) (by rw [hc]; simp) rfl
        refine ⟨s, ?_, by simpa using r, by simpa using hm'⟩
        rw [e, Nat.add_assoc, Nat.add_comm 1]

theorem nextLine_length (k : Nat) : ∀ rest, (nextLine k rest).length ≤ k := by
  induction k with
  | zero => intro rest; simp [nextLine]
  | succ k ih =>
    intro rest
    cases rest with
    | nil => simp [nextLine]
    | cons b r => simp only [nextLine]; split <;> simp [ih]

/-- C21: fgets gives the next line, cut at n-1 bytes, and writes nothing else: the memory afterwards is the memory before with the line
and a NUL character at `str`, that is at most `n` bytes. It returns null exactly at the end of the file, or when n is 1. -/
theorem C21_fgets {S : Sys} {d : Std} {content rest : List Byte} {base n : Nat} {st : St} {fp str : Word} {done : List Byte} (hd : d.Ok)
    (h : Reader d false content base st fp done) (hF : Feeds S false (st.file fp).fd fp content base) (hc : content = done ++ rest)
    (hn : 1 ≤ n) (hn2 : n < 32768) :
    ∃ s, fgets S str (BitVec.ofNat 16 n) fp st = some (.ok (if nextLine (n - 1) rest = [] then 0 else str, s)) ∧
      Reader d false content base s fp (done ++ nextLine (n - 1) rest) ∧ s.mem = putAll st.mem str (nextLine (n - 1) rest ++ [0#8]) ∧
      (nextLine (n - 1) rest ++ [0#8]).length ≤ n := by
  have e1 : BitVec.ofNat 16 n - 1 = BitVec.ofNat 16 (n - 1) := by
    apply BitVec.eq_of_toNat_eq
    simp only [BitVec.toNat_sub, BitVec.toNat_ofNat, show (1 : Word).toNat = 1 from rfl]
    omega
  obtain ⟨s, e, r, hm⟩ := fgetsLoop_spec (S := S) (str := str) hd (M := n - 1) (by omega) st.mem (n - 1) 0 st done [] rest (by omega)
    (Nat.zero_le _) rfl h hF hc (putAll_nil _ _).symm
  have hl := nextLine_length (n - 1) rest
  rw [Nat.zero_add] at e
  rw [List.nil_append] at hm
  refine ⟨{ s with mem := putAll st.mem str (nextLine (n - 1) rest ++ [0#8]) }, ?_, r.store _, rfl, by simp; omega⟩
  unfold fgets
  rw [e1, show (0 : Word) = BitVec.ofNat 16 0 from rfl, e]
  simp only [Option.map_some, hm, putAll_snoc _ _ _ _ (show (nextLine (n - 1) rest).length < 65536 by omega)]
  congr 3
  by_cases h0 : nextLine (n - 1) rest = []
  · simp [h0]
  · rw [if_neg h0, if_neg]
    intro z
    have := congrArg BitVec.toNat z
    rw [asNat (by omega), asNat (by omega)] at this
    exact h0 (List.length_eq_zero_iff.1 this)

/-- Calls on a stream open for reading, with their results. -/
inductive RCall where
  | getc (c : Byte)
  | eof (b : Bool)
  | gets (str : Word) (n : Nat) (m : Mem) (r : Word) (m' : Mem)

/-- The program makes these calls, between anything else it does. -/
inductive Reads (S : Sys) (fp : Word) : St → List RCall → St → Prop
  | nil {st} : Reads S fp st [] st
  | getc {st c s rs t} : fgetc S fp st = .ok (c, s) → Reads S fp s rs t → Reads S fp st (.getc c :: rs) t
  | eof {st b s rs t} : feof S fp st = .ok (b, s) → Reads S fp s rs t → Reads S fp st (.eof b :: rs) t
  | gets {st str n r s rs t} : 1 ≤ n → n < 32768 → fgets S str (BitVec.ofNat 16 n) fp st = some (.ok (r, s)) → Reads S fp s rs t →
      Reads S fp st (.gets str n st.mem r s.mem :: rs) t
  | other {st a s rs t} : Step S st a s → a.avoids fp → Reads S fp s rs t → Reads S fp st rs t

/-- Specification: what the calls give when `rest` is the rest of the file. -/
inductive Gives : List Byte → List RCall → List Byte → Prop
  | nil {rest} : Gives rest [] rest
  | getc {c rest rs end_} : Gives rest rs end_ → Gives (c :: rest) (.getc c :: rs) end_
  | eof {rest rs end_} : Gives rest rs end_ → Gives rest (.eof (decide (rest = [])) :: rs) end_
  | gets {w rest str n m r rs end_} : nextLine (n - 1) (w ++ rest) = w → (r = if w = [] then 0 else str) → Gives rest rs end_ →
      Gives (w ++ rest) (.gets str n m r (putAll m str (w ++ [0#8])) :: rs) end_

/-- A step without the stream adds no event of the stream. -/
theorem step_trace {S fp st a s} (hs : Step S st a s) (ha : a.avoids fp) :
    got fp s.tr = got fp st.tr := by
  have on : ∀ g es, g ≠ fp → (∀ e ∈ es, Ev.on g e) → got fp es = [] := by
    intro g es hne h
    simp only [got, List.flatMap_eq_nil_iff]
    intro e he
    have := h e he
    cases e <;> simp only [Ev.on] at this <;> simp_all [gotBy]
  have op : ∀ u v, Opening u v → got fp v.tr = got fp u.tr := by
    intro u v h
    obtain ⟨es, he, hon⟩ := h.tr
    rw [he, got_append]
    have : got fp es = [] := by
      simp only [got, List.flatMap_eq_nil_iff]
      intro e he
      rcases hon e he with ⟨_, _, _, rfl⟩ | ⟨_, _, rfl⟩ <;> rfl
    rw [this, List.append_nil]
  cases hs with
  | call hr =>
    rename_i c r
    cases ht : c.target with
    | none =>
      cases c <;> simp only [Call.target, reduceCtorEq] at ht
      simp only [Call.run, Option.some.injEq] at hr
      obtain ⟨s1, ho, hh⟩ := fopen_spec hr
      rcases hh with ⟨rfl, rfl⟩ | ⟨fd, mode, _, _, hal⟩
      · exact op _ _ ho
      · obtain ⟨i, b, hi, h0, hlt, hal, hb, hst⟩ := allocFile_spec hal
        rw [hst]; simp only [got_append]; rw [op _ _ ho]; simp [got, gotBy]
    | some g =>
      have hg : g ≠ fp := fun e => ha (by rw [ht, e])
      by_cases hc : c = .cls g
      · subst hc
        simp only [Call.run, Option.some.injEq] at hr
        obtain ⟨b, hb, rfl⟩ := asWord_ok hr
        obtain ⟨hbad, hslot, s1, t1, hh⟩ := fclose_spec hb
        have e2 : got fp s1.tr = got fp st.tr := by
          obtain ⟨es, he, hon⟩ := t1.tr
          rw [he, got_append, on g es hg hon, List.append_nil]
        rcases hh with ⟨_, rfl | ⟨r, rfl⟩⟩ | ⟨_, r, fr, hfr, rfl⟩
        · exact e2
        · rw [← e2, upd_tr, sysret_tr, log_tr, got_append]; simp [got, gotBy]
        · rw [← e2]; simp only [got_append]
          rcases hfr with rfl | rfl <;> simp [got, gotBy]
      · have t1 := call_touch ht hc hr
        obtain ⟨es, he, hon⟩ := t1.tr
        rw [he, got_append, on g es hg hon, List.append_nil]
  | alloc ha => simp [log_tr, got, gotBy]
  | free ha => simp [log_tr, got, gotBy]
  | store m => rfl
  | errno e => rfl
  | scribble hx => rfl

/-- C21: the results of any sequence of fgetc, feof and fgets, between any other steps of the program, are what the specification says
about the bytes of the file not consumed yet: for every content of the file and every way the system splits it into portions. The read
index never passes the number of valid bytes (`Reader.state`). -/
theorem C21_partial {S : Sys} {d : Std} {content rest : List Byte} {base : Nat} {st t : St} {fp : Word} {done : List Byte} {rs : List RCall}
    (hd : d.Ok) (hS : HeapOk S d) (h : Reader d false content base st fp done) (hF : Feeds S false (st.file fp).fd fp content base)
    (hc : content = done ++ rest) (hr : Reads S fp st rs t) :
    ∃ done' rest', content = done' ++ rest' ∧ Gives rest rs rest' ∧ Reader d false content base t fp done' := by
  induction hr generalizing done rest with
  | nil => exact ⟨done, rest, hc, .nil, h⟩
  | getc e _ ih =>
    rename_i st c s rs t _
    by_cases hne : done = content
    · obtain ⟨s', e'⟩ := (C21_fgetc hd h hF).1 hne
      rw [e] at e'; simp at e'
    · obtain ⟨c', s', e', g, r, _, f⟩ := (C21_fgetc hd h hF).2 hne
      rw [e] at e'; cases e'
      cases rest with
      | nil => exact absurd (by rw [hc]; simp) hne
      | cons b rest =>
        rw [hc, List.getElem?_append_right (Nat.le_refl _)] at g
        simp at g; subst g
        obtain ⟨d', r', q1, q2, q3⟩ := ih (done := done ++ [b]) (rest := rest) r (by rw [f]; exact hF) (by rw [hc]; simp)
        exact ⟨d', r', q1, .getc q2, q3⟩
  | eof e _ ih =>
    obtain ⟨s', e', r, _, f⟩ := C21_feof hd h hF
    rw [e] at e'; cases e'
    obtain ⟨d', r', q1, q2, q3⟩ := ih r (by rw [f]; exact hF) hc
    refine ⟨d', r', q1, ?_, q3⟩
    have : decide (done = content) = decide (rest = []) := by
      rw [hc]; simp
    rw [this]; exact .eof q2
  | gets h1 h2 e _ ih =>
    rename_i st str n r s rs t _
    obtain ⟨s', e', r', hm, _⟩ := C21_fgets (str := str) hd h hF hc h1 h2
    rw [e] at e'; cases e'
    obtain ⟨w, hw⟩ : ∃ w, nextLine (n - 1) rest = w := ⟨_, rfl⟩
    obtain ⟨rest2, h2⟩ := r'.prefix
    rw [hw] at h2 r' hm
    have hrest : rest = w ++ rest2 := by
      rw [hc, List.append_assoc] at h2; exact List.append_cancel_left h2
    have ht := fgets_touch e
    have ht : Touch fp st s := ht
    obtain ⟨d', r'', q1, q2, q3⟩ := ih (done := done ++ w) (rest := rest2) r' (by rw [ht.fd]; exact hF) (by rw [hc, hrest]; simp)
    refine ⟨d', r'', q1, ?_, q3⟩
    rw [hm, hrest]
    exact .gets (by rw [← hrest]; exact hw) (by rw [← hrest, hw]) q2
  | other hs ha _ ih =>
    rename_i st a s rs t _
    obtain ⟨h1, h2, _⟩ := step_other hd hS hs ha h.agree
    have h3 := step_trace hs ha
    exact ih ⟨h1, by rw [h2]; exact h.mode, by rw [h2]; exact h.tty, by rw [h3]; exact h.based, by rw [h2, h3]; exact h.state,
      by rw [h3]; exact h.bound, by rw [h2]; exact h.eof⟩ (by rw [h2]; exact hF) hc

/-- A stream just opened for reading has consumed nothing. -/
theorem C21_fopen {S : Sys} {d : Std} {st t : St} {l : List Word} {name fp : Word} (content : List Byte) (hd : d.Ok) (hS : HeapOk S d)
    (A : Agree d st l) (h : fopen S name [0x72#8] st = .ok (fp, t)) (h0 : fp ≠ 0) :
    Reader d false content (got fp st.tr).length t fp [] := by
  have A' := A.opn hd hS h
  rw [if_neg h0] at A'
  obtain ⟨s, ho, hh⟩ := fopen_spec h
  rcases hh with ⟨rfl, rfl⟩ | ⟨fd, mode, _, hmode, hal⟩
  · exact absurd rfl h0
  · obtain ⟨i, b, hi, _, hlt, ha, hb, hst⟩ := allocFile_spec hal
    have hf : t.file fp = ⟨fd, mode, b, 128, 0, 0, false, false, false, BitVec.ofNat 16 i, (s.file fp).data⟩ := by rw [hst]; simp
    have hg : got fp t.tr = got fp st.tr := by
      refine step_trace (S := S) (fp := fp) (a := .call (.opn name [0x72#8]) fp) (.call (c := .opn name [0x72#8]) (by
        simp only [Call.run]; rw [h])) (by simp [Act.avoids, Call.target])
    refine ⟨⟨_, A', .inr (by simp)⟩, ?_, by rw [hf], by rw [hg], ⟨0, 0, 128, by rw [hf]; rfl, by rw [hf]; rfl, by rw [hf]; rfl,
      Nat.le_refl _, by decide, by decide, by decide, ?_⟩, by rw [hg]; simp, ?_⟩
    · rw [hf]; have h : some O_RDONLY = some mode := hmode; exact (Option.some.inj h).symm
    · rw [hg]; simp [FRec.bytes]
    · rw [hf]; simp

/-- The full claim is false for the console: when the system gives no bytes, feof stays false, fgetc returns a byte that was never read,
and the read index passes the number of valid bytes. -/
theorem C21_console_false (f : Word → FRec) (m : Mem) :
    let S := { exSys with ttyRead := fun _ _ => (0, []) }
    let st := begin exStd f m
    ∃ s t, feof S 100 st = .ok (false, s) ∧ fgetc S 100 s = .ok ((f 100).data 0, t) ∧ (t.file 100).len = 0 ∧ (t.file 100).cnt = 1 := by
  refine ⟨_, _, rfl, rfl, ?_⟩
  exact ⟨rfl, rfl⟩

/-- fgets with n = 0 writes a byte although there is no room for it. -/
theorem C21_zero_false (S : Sys) (st : St) (str fp : Word) :
    fgets S str 0 fp st = some (.ok (0, { st with mem := st.mem.set str 0#8 })) := by
  rw [fgets, fgetsLoop, if_neg (by decide)]
  simp

/-- A system that gives the file "A\nB" in portions of one byte. -/
def exFeed : Sys := { exSys with
  read := fun tr _ _ =>
    let bs := (([0x41#8, 0x0a#8, 0x42#8].drop (got 1000 tr).length).take 1)
    (BitVec.ofNat 16 bs.length, bs) }

theorem exFeed_feeds (fd : Word) : Feeds exFeed false fd 1000 [0x41#8, 0x0a#8, 0x42#8] 0 := by
  intro tr n h0 _
  simp only [Bool.false_eq_true, if_false, exFeed, Nat.sub_zero, Right]
  generalize [0x41#8, 0x0a#8, 0x42#8].drop (got 1000 tr).length = rest
  cases rest with
  | nil => simp
  | cons a l => simp; omega

/-- The file is opened; the first line is read in two portions. -/
example (f : Word → FRec) (m : Mem) : ∃ fp t s, fopen exFeed 500 [0x72#8] (begin exStd f m) = .ok (fp, t) ∧
    fgets exFeed 600 10 fp t = some (.ok (600, s)) ∧ s.mem = putAll t.mem 600 [0x41#8, 0x0a#8, 0#8] := by
  obtain ⟨t, e⟩ : ∃ t, fopen exFeed 500 [0x72#8] (begin exStd f m) = .ok (1000, t) := ⟨_, rfl⟩
  have r := C21_fopen (S := exFeed) [0x41#8, 0x0a#8, 0x42#8] exStd_ok exSys_ok (begin_agree exStd_ok f m) e (by decide)
  obtain ⟨s, e2, _, hm, _⟩ := C21_fgets (S := exFeed) (str := 600) (n := 10) exStd_ok r (exFeed_feeds _) (rest := [0x41#8, 0x0a#8, 0x42#8])
    rfl (by decide) (by decide)
  exact ⟨1000, t, s, e, e2, hm⟩

end Cmm.Stdio
