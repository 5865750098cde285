import Verif.Props.C21

/-
C82: input with fseek continues at the byte that was asked for.
-/
namespace Cmm.Stdio
open Cmm.Ctype Cmm.Str

/-- Specification: how an event moves the place of the stream in its file: a seek that succeeds goes to the offset given by its two
words, a read goes on by the bytes it gives. -/
def move (fp : Word) (q : Nat) : Ev → Nat
  | .seek g _ h l r => if g = fp ∧ r = 0 then h.toNat * 65536 + l.toNat else q
  | .read g _ _ _ bs => if g = fp then q + bs.length else q
  | _ => q

/-- Specification: the place in the file after some events. -/
def place (fp : Word) (q : Nat) (tr : List Ev) : Nat := tr.foldl (move fp) q

/-- The system serves the file `content` for the stream `fp`, opened after `k` events: every read gives some of the bytes at the
place, in any portions. -/
def Serves (S : Sys) (fd fp : Word) (content : List Byte) (k : Nat) : Prop :=
  ∀ tr n, k ≤ tr.length → 0 < n → n < 32768 →
    Right (content.drop (place fp 0 (tr.drop k))) n (S.read tr fd (BitVec.ofNat 16 n))

/-- Events other than a seek of the stream. -/
def Ev.still (fp : Word) : Ev → Prop
  | .seek g _ _ _ _ | .ttyRead g _ _ _ => g ≠ fp
  | _ => True

/-- The trace went on without a seek of the stream. -/
def Onward (fp : Word) (T tr : List Ev) : Prop := ∃ es, tr = T ++ es ∧ ∀ e ∈ es, e.still fp

theorem Onward.refl (fp T) : Onward fp T T := ⟨[], by simp, by simp⟩

theorem Onward.trans {fp T U V} (h : Onward fp T U) (k : Onward fp U V) : Onward fp T V := by
  obtain ⟨es, rfl, h⟩ := h; obtain ⟨fs, rfl, k⟩ := k
  refine ⟨es ++ fs, by simp, ?_⟩
  intro e he
  rcases List.mem_append.1 he with he | he
  · exact h e he
  · exact k e he

theorem place_still {fp} : ∀ (es : List Ev) q, (∀ e ∈ es, e.still fp) → place fp q es = q + (got fp es).length := by
  intro es
  induction es with
  | nil => intro q _; simp [place, got]
  | cons e es ih =>
    intro q h
    have h1 := h e (by simp)
    have h2 := ih (move fp q e) fun x hx => h x (by simp [hx])
    simp only [place, List.foldl_cons, got, List.flatMap_cons, List.length_append] at h2 ⊢
    rw [h2]
    have : move fp q e = q + (gotBy fp e).length := by
      cases e <;> simp only [Ev.still] at h1 <;> simp [move, gotBy, h1]
      split <;> simp
    omega

/-- The place after going on. -/
theorem Onward.place {fp T tr k} (h : Onward fp T tr) (hk : k ≤ T.length) :
    place fp 0 (tr.drop k) = place fp 0 (T.drop k) + ((got fp tr).length - (got fp T).length) := by
  obtain ⟨es, rfl, h⟩ := h
  rw [List.drop_append_of_le_length hk, got_append, List.length_append]
  have := place_still es (Stdio.place fp 0 (T.drop k)) h
  simp only [Stdio.place, List.foldl_append] at this ⊢
  omega

open Classical in
/-- A system that agrees with `S` as long as no seek of the stream happens, and goes on with the bytes `c` otherwise. -/
noncomputable def steady (S : Sys) (fp : Word) (T : List Ev) (c : List Byte) : Sys := { S with
  read := fun tr fd n => if Onward fp T tr then S.read tr fd n else
    let bs := (c.drop ((got fp tr).length - (got fp T).length)).take n.toNat
    (BitVec.ofNat 16 bs.length, bs) }

theorem steady_feeds {S fd fp content k T} (hS : Serves S fd fp content k) (hk : k ≤ T.length) :
    Feeds (steady S fp T (content.drop (place fp 0 (T.drop k)))) false fd fp (content.drop (place fp 0 (T.drop k))) (got fp T).length := by
  intro tr n h0 hn
  simp only [Bool.false_eq_true, if_false, steady]
  by_cases h : Onward fp T tr
  · rw [if_pos h]
    have := hS tr n (by obtain ⟨es, rfl, _⟩ := h; simp; omega) h0 hn
    rw [h.place hk, ← List.drop_drop] at this
    exact this
  · rw [if_neg h, asNat (by omega)]
    generalize (List.drop (place fp 0 (List.drop k T)) content).drop _ = rest
    refine ⟨rfl, by simp, ?_, ?_⟩
    · simp only [List.length_take]
      rcases Nat.le_total n rest.length with h | h
      · rw [Nat.min_eq_left h]
      · rw [Nat.min_eq_right h, List.take_of_length_le h, List.take_length]
    · simp only [List.take_eq_nil_iff]; constructor
      · rintro (h | h)
        · omega
        · exact h
      · exact .inr

theorem fillBuf_congr {S S' : Sys} {fp st} (hr : ∀ n, S'.read st.tr (st.file fp).fd n = S.read st.tr (st.file fp).fd n)
    (ht : (st.file fp).tty = false) : fillBuf S' fp st = fillBuf S fp st := by
  unfold fillBuf
  simp only [ht, hr, Bool.false_eq_true, if_false]

theorem feof_congr {S S' : Sys} {fp st} (hr : ∀ n, S'.read st.tr (st.file fp).fd n = S.read st.tr (st.file fp).fd n)
    (ht : (st.file fp).tty = false) : feof S' fp st = feof S fp st := by
  unfold feof; rw [fillBuf_congr hr ht]

theorem fgetc_congr {S S' : Sys} {fp st} (hr : ∀ n, S'.read st.tr (st.file fp).fd n = S.read st.tr (st.file fp).fd n)
    (ht : (st.file fp).tty = false) : fgetc S' fp st = fgetc S fp st := by
  unfold fgetc; rw [fillBuf_congr hr ht]

theorem steady_read {S fp T c tr} (h : Onward fp T tr) (fd n) : (steady S fp T c).read tr fd n = S.read tr fd n := by
  simp only [steady]; rw [if_pos h]

theorem fillBuf_onward (S fp st) (ht : (st.file fp).tty = false) : Onward fp st.tr (fillBuf S fp st).tr := by
  refine ⟨[.read fp (st.file fp).fd (st.file fp).size (S.read st.tr (st.file fp).fd (st.file fp).size).1
    (S.read st.tr (st.file fp).fd (st.file fp).size).2], ?_, by simp [Ev.still]⟩
  unfold fillBuf
  simp only [ht, Bool.false_eq_true, if_false]
  split
  · simp only [upd_tr, sysret_tr, log_tr]
  · split <;> simp only [upd_tr, sysret_tr, log_tr]

theorem feof_onward {S fp st b s} (ht : (st.file fp).tty = false) (h : feof S fp st = .ok (b, s)) : Onward fp st.tr s.tr := by
  unfold feof at h
  split at h; · cases h
  split at h; · cases h
  simp only at h
  split at h <;> cases h
  · exact fillBuf_onward S fp st ht
  · exact .refl _ _

theorem fgetc_onward {S fp st b s} (ht : (st.file fp).tty = false) (h : fgetc S fp st = .ok (b, s)) : Onward fp st.tr s.tr := by
  unfold fgetc at h
  split at h; · cases h
  split at h; · cases h
  have k : Onward fp st.tr (if ile (st.file fp).len (st.file fp).cnt then fillBuf S fp st else st).tr := by
    split
    · exact fillBuf_onward S fp st ht
    · exact .refl _ _
  generalize (if ile (st.file fp).len (st.file fp).cnt then fillBuf S fp st else st) = u at h k
  simp only at h
  split at h
  · cases h
  · cases h; rw [upd_tr]; exact k

theorem fgetsLoop_steady {S fp T c str n} : ∀ i st r, fgetsLoop (steady S fp T c) str n fp i st = some r → Onward fp T st.tr →
    (st.file fp).tty = false → fgetsLoop S str n fp i st = some r ∧ ∀ i' s, r = .ok (i', s) → Onward fp T s.tr := by
  refine fgetsLoop.partial_correctness (steady S fp T c) str n fp (motive := fun i st r => Onward fp T st.tr →
    (st.file fp).tty = false → fgetsLoop S str n fp i st = some r ∧ ∀ i' s, r = .ok (i', s) → Onward fp T s.tr) ?_
  intro loop ih i st r h ho ht
  rw [fgetsLoop]
  rw [feof_congr (S := S) (fun n => steady_read ho _ n) ht] at h
  by_cases hi : ilt i n = true
  · rw [if_pos hi] at h ⊢
    cases e1 : feof S fp st with
    | error e => rw [e1] at h; cases h; exact ⟨rfl, nofun⟩
    | ok q =>
      obtain ⟨b, s⟩ := q
      have o1 := ho.trans (feof_onward ht e1)
      have t1 := feof_touch S fp st
      rw [e1] at t1 h
      have t1 : Touch fp st s := t1
      cases b with
      | true => cases h; exact ⟨rfl, fun i' s' e => by cases e; exact o1⟩
      | false =>
        simp only at h ⊢
        have ht1 : (s.file fp).tty = false := by rw [t1.tty]; exact ht
        rw [fgetc_congr (S := S) (fun n => steady_read o1 _ n) ht1] at h
        cases e2 : fgetc S fp s with
        | error e => rw [e2] at h; cases h; exact ⟨rfl, nofun⟩
        | ok q =>
          obtain ⟨b, u⟩ := q
          have o2 := o1.trans (fgetc_onward ht1 e2)
          have t2 := fgetc_touch S fp s
          rw [e2] at t2 h
          have t2 : Touch fp s u := t2
          simp only at h ⊢
          by_cases hb : b = 0x0a#8
          · rw [if_pos hb] at h ⊢; cases h; exact ⟨rfl, fun i' s' e => by cases e; exact o2⟩
          · rw [if_neg hb] at h ⊢
            exact ih _ _ _ h o2 (by show (u.file fp).tty = false; rw [t2.tty]; exact ht1)
  · rw [if_neg hi] at h ⊢
    cases h; exact ⟨rfl, fun i' s' e => by cases e; exact ho⟩

theorem fgets_steady {S fp T c str n st r} (h : fgets (steady S fp T c) str n fp st = some r) (ho : Onward fp T st.tr)
    (ht : (st.file fp).tty = false) : fgets S str n fp st = some r ∧ ∀ i' s, r = .ok (i', s) → Onward fp T s.tr := by
  unfold fgets at h ⊢
  cases e : fgetsLoop (steady S fp T c) str (n - 1) fp 0 st with
  | none => rw [e] at h; simp at h
  | some q =>
    obtain ⟨h1, h2⟩ := fgetsLoop_steady _ _ _ e ho ht
    rw [e] at h; rw [h1]
    refine ⟨h, ?_⟩
    simp only [Option.map_some, Option.some.injEq] at h
    cases q with
    | error q => subst h; nofun
    | ok q =>
      obtain ⟨i, u⟩ := q
      subst h
      intro i' s e; cases e
      exact h2 i u rfl

/-- A step without the stream is no seek of the stream. -/
theorem step_onward {S fp st a s} (hs : Step S st a s) (ha : a.avoids fp) : Onward fp st.tr s.tr := by
  have on : ∀ g u v, g ≠ fp → Touch g u v → Onward fp u.tr v.tr := by
    intro g u v hne h
    obtain ⟨es, he, hon⟩ := h.tr
    refine ⟨es, he, fun e h => ?_⟩
    have := hon e h
    cases e <;> simp only [Ev.on] at this <;> simp_all [Ev.still]
  have op : ∀ u v, Opening u v → Onward fp u.tr v.tr := by
    intro u v h
    obtain ⟨es, he, hon⟩ := h.tr
    refine ⟨es, he, fun e h => ?_⟩
    rcases hon e h with ⟨_, _, _, rfl⟩ | ⟨_, _, rfl⟩ <;> trivial
  cases hs with
  | call hr =>
    rename_i c r
    cases ht : c.target with
    | none =>
      cases c <;> simp only [Call.target, reduceCtorEq] at ht
      simp only [Call.run, Option.some.injEq] at hr
      obtain ⟨s1, ho, hh⟩ := fopen_spec hr
      rcases hh with ⟨rfl, rfl⟩ | ⟨fd, mode, _, _, hal⟩
      · exact op _ _ ho
      · obtain ⟨i, b, hi, h0, hlt, hal, hb, hst⟩ := allocFile_spec hal
        refine (op _ _ ho).trans ⟨_, by rw [hst], by simp [Ev.still]⟩
    | some g =>
      have hg : g ≠ fp := fun e => ha (by rw [ht, e])
      by_cases hc : c = .cls g
      · subst hc
        simp only [Call.run, Option.some.injEq] at hr
        obtain ⟨b, hb, rfl⟩ := asWord_ok hr
        obtain ⟨hbad, hslot, s1, t1, hh⟩ := fclose_spec hb
        refine (on _ _ _ hg t1).trans ?_
        rcases hh with ⟨_, rfl | ⟨r, rfl⟩⟩ | ⟨_, r, fr, hfr, rfl⟩
        · exact .refl _ _
        · exact ⟨_, by rw [upd_tr, sysret_tr, log_tr], by simp [Ev.still]⟩
        · refine ⟨.close g (s1.file g).fd r :: fr ++ [.free g], by simp, ?_⟩
          rcases hfr with rfl | rfl <;> simp [Ev.still]
      · exact on _ _ _ hg (call_touch ht hc hr)
  | alloc ha => exact ⟨_, log_tr .., by simp [Ev.still]⟩
  | free ha => exact ⟨_, log_tr .., by simp [Ev.still]⟩
  | store m => exact .refl _ _
  | errno e => exact .refl _ _
  | scribble hx => exact .refl _ _

/-- A stream open for reading, not the console, whose file was opened after `k` events; `rest` are the bytes the program gets next. -/
structure Sought (d : Std) (content : List Byte) (k : Nat) (st : St) (fp : Word) (rest : List Byte) : Prop where
  ex : ∃ T done, k ≤ T.length ∧ Onward fp T st.tr ∧ content.drop (place fp 0 (T.drop k)) = done ++ rest ∧
    Reader d false (content.drop (place fp 0 (T.drop k))) (got fp T).length st fp done

/-- Specification: calls of a program: readings without a seek, and seeks with their results. -/
inductive SCall where
  | reads (rs : List RCall)
  | seek (h l : Word) (b : Bool)

/-- The program makes these calls, between anything else it does. -/
inductive Runs (S : Sys) (fp : Word) : St → List SCall → St → Prop
  | nil {st} : Runs S fp st [] st
  | reads {st rs s cs t} : Reads S fp st rs s → Runs S fp s cs t → Runs S fp st (.reads rs :: cs) t
  | seek {st h l b s cs t} : fseek S fp h l st = .ok (b, s) → Runs S fp s cs t → Runs S fp st (.seek h l b :: cs) t

/-- Specification: what the calls give: a seek goes to the byte with the number of its two words, wherever the program was before, and
is told as a success. -/
inductive Tells (content : List Byte) : List Byte → List SCall → List Byte → Prop
  | nil {rest} : Tells content rest [] rest
  | reads {rest rs r cs end_} : Gives rest rs r → Tells content r cs end_ → Tells content rest (.reads rs :: cs) end_
  | seek {rest h l cs end_} : Tells content (content.drop (h.toNat * 65536 + l.toNat)) cs end_ →
      Tells content rest (.seek h l false :: cs) end_

theorem reads_sought {S d content k fp} (hd : d.Ok) (hH : HeapOk S d) {st rs t rest} (hr : Reads S fp st rs t)
    (h : Sought d content k st fp rest) (hS : Serves S (st.file fp).fd fp content k) :
    ∃ rest', Gives rest rs rest' ∧ Sought d content k t fp rest' ∧ (t.file fp).fd = (st.file fp).fd := by
  induction hr generalizing rest with
  | nil => exact ⟨rest, .nil, h, rfl⟩
  | getc e _ ih =>
    rename_i st c s rs t _
    obtain ⟨T, done, hk, ho, hc, h⟩ := h.ex
    have hty := h.tty
    have hF := steady_feeds hS hk
    have e' := fgetc_congr (fun n => steady_read (S := S) (c := content.drop (place fp 0 (T.drop k))) ho _ n) h.tty
    rw [e] at e'
    by_cases hne : done = content.drop (place fp 0 (T.drop k))
    · obtain ⟨s', e2⟩ := (C21_fgetc hd h hF).1 hne
      rw [e'] at e2; cases e2
    · obtain ⟨c', s', e2, g, r, _, f⟩ := (C21_fgetc hd h hF).2 hne
      rw [e'] at e2; cases e2
      cases rest with
      | nil => exact absurd (by rw [hc]; simp) hne
      | cons b rest =>
        rw [hc, List.getElem?_append_right (Nat.le_refl _)] at g
        simp at g; subst g
        obtain ⟨r', q1, q2, q3⟩ := ih (rest := rest) ⟨T, done ++ [b], hk, ho.trans (fgetc_onward hty e), by rw [hc]; simp, r⟩
          (by rw [f]; exact hS)
        exact ⟨r', .getc q1, q2, by rw [q3, f]⟩
  | eof e _ ih =>
    rename_i st c s rs t _
    obtain ⟨T, done, hk, ho, hc, h⟩ := h.ex
    have hF := steady_feeds hS hk
    have e' := feof_congr (fun n => steady_read (S := S) (c := content.drop (place fp 0 (T.drop k))) ho _ n) h.tty
    rw [e] at e'
    obtain ⟨s', e2, r, _, f⟩ := C21_feof hd h hF
    rw [e'] at e2; cases e2
    obtain ⟨r', q1, q2, q3⟩ := ih (rest := rest) ⟨T, done, hk, ho.trans (feof_onward h.tty e), hc, r⟩ (by rw [f]; exact hS)
    have : decide (done = content.drop (place fp 0 (T.drop k))) = decide (rest = []) := by rw [hc]; simp
    exact ⟨r', by rw [this]; exact .eof q1, q2, by rw [q3, f]⟩
  | gets h1 h2 e _ ih =>
    rename_i st str n r s rs t _
    obtain ⟨T, done, hk, ho, hc, h⟩ := h.ex
    have hF := steady_feeds hS hk
    obtain ⟨s', e2, r', hm, _⟩ := C21_fgets (str := str) hd h hF hc h1 h2
    obtain ⟨e3, o3⟩ := fgets_steady e2 ho h.tty
    have o3 := o3 _ _ rfl
    rw [e] at e3; cases e3
    obtain ⟨w, hw⟩ : ∃ w, nextLine (n - 1) rest = w := ⟨_, rfl⟩
    obtain ⟨rest2, h3⟩ := r'.prefix
    rw [hw] at h3 r' hm
    have hrest : rest = w ++ rest2 := by
      rw [hc, List.append_assoc] at h3; exact List.append_cancel_left h3
    have ht : Touch fp st s := fgets_touch e
    obtain ⟨r'', q1, q2, q3⟩ := ih (rest := rest2) ⟨T, done ++ w, hk, o3, h3, r'⟩ (by rw [ht.fd]; exact hS)
    refine ⟨r'', ?_, q2, by rw [q3, ht.fd]⟩
    rw [hm, hrest]
    exact .gets (by rw [← hrest]; exact hw) (by rw [← hrest, hw]) q1
  | other hs ha _ ih =>
    rename_i st a s rs t _
    obtain ⟨T, done, hk, ho, hc, h⟩ := h.ex
    obtain ⟨h1, h2, _⟩ := step_other hd hH hs ha h.agree
    have h3 := step_trace hs ha
    obtain ⟨r', q1, q2, q3⟩ := ih (rest := rest) ⟨T, done, hk, ho.trans (step_onward hs ha), hc,
      ⟨h1, by rw [h2]; exact h.mode, by rw [h2]; exact h.tty, by rw [h3]; exact h.based, by rw [h2, h3]; exact h.state,
      by rw [h3]; exact h.bound, by rw [h2]; exact h.eof⟩⟩ (by rw [h2]; exact hS)
    exact ⟨r', q1, q2, by rw [q3, h2]⟩

theorem upd_upd (st : St) (fp f g) : (st.upd fp f).upd fp g = st.upd fp fun r => g (f r) := by
  simp only [St.upd]; congr 1; funext a; split <;> rfl

theorem upd_log (st : St) (fp f e) : (st.upd fp f).log e = (st.log e).upd fp f := rfl

theorem upd_sysret (st : St) (fp f r) : (st.upd fp f).sysret r = (st.sysret r).upd fp f := by
  simp only [St.sysret]; split <;> rfl

/-- fillBuf does not look at the old contents of the buffer. -/
theorem fillBuf_fresh (S fp st) (ht : (st.file fp).tty = false) :
    fillBuf S fp (st.upd fp fun f => { f with cnt := 0, len := 0, eof := false }) = fillBuf S fp st := by
  unfold fillBuf
  simp only [upd_same, ht, Bool.false_eq_true, if_false, upd_tr, upd_log, upd_sysret]
  split
  · simp only [upd_upd, FRec.fill]
  · split <;> simp only [upd_upd, FRec.fill]

/-- A seek that succeeds. -/
theorem fseek_sought {S d content k fp} (hd : d.Ok) {st rest h l b s} (he : fseek S fp h l st = .ok (b, s))
    (hR : Sought d content k st fp rest) (hS : Serves S (st.file fp).fd fp content k) :
    b = false ∧ Sought d content k s fp (content.drop (h.toNat * 65536 + l.toNat)) ∧ (s.file fp).fd = (st.file fp).fd := by
  have ht := fseek_touch S fp h l st
  rw [he] at ht
  have ht : Touch fp st s := ht
  obtain ⟨T, done, hk, ho, hc, hR⟩ := hR.ex
  unfold fseek at he
  simp only [hR.accept hd, Bool.false_eq_true, if_false, hR.mode, ne_eq, not_true_eq_false, sysret_file, log_file, if_true] at he
  split at he
  · cases he
  rename_i hz
  simp only [not_not] at hz
  cases he
  refine ⟨rfl, ?_, ht.fd⟩
  rw [hz] at ht ⊢
  generalize hu : (st.log (.seek fp (st.file fp).fd h l 0)).sysret 0 = u at ht ⊢
  have hutr : u.tr = st.tr ++ [.seek fp (st.file fp).fd h l 0] := by rw [← hu, sysret_tr, log_tr]
  have huf : u.file = st.file := by rw [← hu, sysret_file, log_file]
  have tu : Touch fp st u := by rw [← hu]; exact (Touch.log (by rfl)).trans .sysret
  have hpl : place fp 0 (u.tr.drop k) = h.toNat * 65536 + l.toNat := by
    have : k ≤ st.tr.length := by obtain ⟨es, e, _⟩ := ho; rw [e, List.length_append]; omega
    rw [hutr, List.drop_append_of_le_length this]
    simp [place, move]
  have huk : k ≤ u.tr.length := by
    obtain ⟨es, e, _⟩ := ho; rw [hutr, e]; simp; omega
  have hg : (st.file fp).tty = false := hR.tty
  rw [← fillBuf_fresh S fp u (by rw [huf]; exact hg)]
  generalize hv : (u.upd fp fun f => { f with cnt := 0, len := 0, eof := false }) = v
  have tv : Touch fp u v := by rw [← hv]; exact .upd fun r => ⟨rfl, rfl, rfl, rfl, rfl, rfl⟩
  have hvtr : v.tr = u.tr := by rw [← hv, upd_tr]
  have tsv := tu.trans tv
  obtain ⟨k', l', n, _, _, hn, _, _, hn0, hn2, _⟩ := hR.state
  have hc0 : (v.file fp).cnt = 0 := by rw [← hv, upd_same]
  have hl0 : (v.file fp).len = 0 := by rw [← hv, upd_same]
  have he0 : (v.file fp).eof = false := by rw [← hv, upd_same]
  have hRv : Reader d false (content.drop (h.toNat * 65536 + l.toNat)) (got fp u.tr).length v fp [] := by
    refine ⟨agree_touch hd hR.agree tsv, by rw [tsv.mode]; exact hR.mode, by rw [tsv.tty]; exact hg, by rw [hvtr],
      ⟨0, 0, n, hc0, hl0, by rw [tsv.size]; exact hn, Nat.le_refl _, Nat.zero_le _, hn0, hn2, ?_⟩, by rw [hvtr]; simp, by rw [he0]; nofun⟩
    rw [hvtr]; simp [FRec.bytes]
  have hF := steady_feeds (T := u.tr) hS huk
  rw [hpl] at hF
  have hcongr : fillBuf (steady S fp u.tr (content.drop (h.toNat * 65536 + l.toNat))) fp v = fillBuf S fp v :=
    fillBuf_congr (fun n => by rw [hvtr]; exact steady_read (.refl _ _) _ n) hRv.tty
  obtain ⟨r1, _⟩ := fillBuf_spec hd hRv (by rw [tsv.fd]; exact hF) (by rw [hc0, hl0]; decide) nofun
  rw [hcongr] at r1
  refine ⟨u.tr, [], huk, ?_, by rw [hpl]; simp, by rw [hpl]; exact r1⟩
  have := fillBuf_onward S fp v hRv.tty
  rwa [hvtr] at this

/-- C82: in every sequence of fgetc, feof, fgets and fseek on a stream that is open for reading, between any other steps of the program,
every result is what the specification says: after a seek the program gets the bytes from the offset on, whatever was in the buffer, and
the end of the file is seen exactly there, also when it had been seen before; for every content of the file and every way the system
splits it into portions. -/
theorem C82 {S : Sys} {d : Std} {content rest : List Byte} {k : Nat} {st t : St} {fp : Word} {cs : List SCall} (hd : d.Ok)
    (hH : HeapOk S d) (h : Sought d content k st fp rest) (hS : Serves S (st.file fp).fd fp content k) (hr : Runs S fp st cs t) :
    ∃ rest', Tells content rest cs rest' ∧ Sought d content k t fp rest' := by
  induction hr generalizing rest with
  | nil => exact ⟨rest, .nil, h⟩
  | reads h1 _ ih =>
    obtain ⟨r', q1, q2, q3⟩ := reads_sought hd hH h1 h hS
    obtain ⟨r2, q4, q5⟩ := ih q2 (by rw [q3]; exact hS)
    exact ⟨r2, .reads q1 q4, q5⟩
  | seek h1 _ ih =>
    obtain ⟨rfl, q2, q3⟩ := fseek_sought hd h1 h hS
    obtain ⟨r2, q4, q5⟩ := ih q2 (by rw [q3]; exact hS)
    exact ⟨r2, .seek q4, q5⟩

/-- A stream just opened for reading gives the bytes of the file from the first one on. -/
theorem C82_fopen {S : Sys} {d : Std} {st t : St} {l : List Word} {name fp : Word} (content : List Byte) (hd : d.Ok) (hS : HeapOk S d)
    (A : Agree d st l) (h : fopen S name [0x72#8] st = .ok (fp, t)) (h0 : fp ≠ 0) : Sought d content t.tr.length t fp content := by
  have hr := C21_fopen content hd hS A h h0
  have hg : got fp t.tr = got fp st.tr :=
    step_trace (S := S) (fp := fp) (a := .call (.opn name [0x72#8]) fp) (.call (c := .opn name [0x72#8]) (by
      simp only [Call.run]; rw [h])) (by simp [Act.avoids, Call.target])
  rw [← hg] at hr
  exact ⟨t.tr, [], Nat.le_refl _, .refl _ _, by simp [place], by simpa [place] using hr⟩

/-- C82: a seek the system refuses ends the program with the result of the system; nothing was read or written for it. -/
theorem C82_refused {S : Sys} {d : Std} {content rest : List Byte} {k : Nat} {st : St} {fp h l : Word} (hd : d.Ok)
    (hR : Sought d content k st fp rest) (hr : S.seek st.tr (st.file fp).fd h l ≠ 0) :
    ∃ s, fseek S fp h l st = .error (S.seek st.tr (st.file fp).fd h l, s) ∧
      s.tr = st.tr ++ [.seek fp (st.file fp).fd h l (S.seek st.tr (st.file fp).fd h l)] ∧ s.file = st.file ∧ s.mem = st.mem := by
  obtain ⟨T, done, hk, ho, hc, hR⟩ := hR.ex
  refine ⟨(st.log (.seek fp (st.file fp).fd h l (S.seek st.tr (st.file fp).fd h l))).sysret (S.seek st.tr (st.file fp).fd h l), ?_, ?_, ?_, ?_⟩
  · unfold fseek
    simp only [hR.accept hd, Bool.false_eq_true, if_false, hR.mode, ne_eq, not_true_eq_false, hr, not_false_eq_true, if_true]
  · rw [sysret_tr, log_tr]
  · rw [sysret_file, log_file]
  · rw [sysret_mem, log_mem]

/-- C82: every call has a result: feof tells whether bytes are left, fgetc gives the next one, and ends the program with EUEOF if there
is none, and a seek the system accepts succeeds. -/
theorem C82_total {S : Sys} {d : Std} {content rest : List Byte} {k : Nat} {st : St} {fp : Word} (hd : d.Ok)
    (h : Sought d content k st fp rest) (hS : Serves S (st.file fp).fd fp content k) :
    (∃ s, feof S fp st = .ok (decide (rest = []), s)) ∧ (∀ c r, rest = c :: r → ∃ s, fgetc S fp st = .ok (c, s)) ∧
    (rest = [] → ∃ s, fgetc S fp st = .error (EUEOF, s)) ∧
    ∀ h l, S.seek st.tr (st.file fp).fd h l = 0 → ∃ s, fseek S fp h l st = .ok (false, s) := by
  obtain ⟨T, done, hk, ho, hc, hq⟩ := h.ex
  clear h
  have hF := steady_feeds hS hk
  have rd := fun n => steady_read (S := S) (c := content.drop (place fp 0 (T.drop k))) ho (st.file fp).fd n
  refine ⟨?_, ?_, ?_, ?_⟩
  · obtain ⟨s, e, _⟩ := C21_feof hd hq hF
    rw [feof_congr rd hq.tty] at e
    refine ⟨s, by rw [e, hc]; simp⟩
  · rintro c r rfl
    obtain ⟨c', s, e, g, _⟩ := (C21_fgetc hd hq hF).2 (by rw [hc]; intro e; have := congrArg List.length e; simp at this)
    rw [fgetc_congr rd hq.tty] at e
    rw [hc, List.getElem?_append_right (Nat.le_refl _)] at g
    simp at g; subst g
    exact ⟨s, e⟩
  · rintro rfl
    obtain ⟨s, e⟩ := (C21_fgetc hd hq hF).1 (by rw [hc]; simp)
    rw [fgetc_congr rd hq.tty] at e
    exact ⟨s, e⟩
  · intro hi lo hz
    unfold fseek
    simp only [hq.accept hd, Bool.false_eq_true, if_false, hq.mode, ne_eq, not_true_eq_false, hz]
    exact ⟨_, rfl⟩

/-! Output with fseek. -/

/-- Specification: the bytes of a file and the place in it. -/
abbrev Img := (Nat → Byte) × Nat

/-- Specification: bytes written at the place. -/
def putAt (w : Img) (bs : List Byte) : Img := (fun x => if w.2 ≤ x then bs.getD (x - w.2) (w.1 x) else w.1 x, w.2 + bs.length)

/-- Specification: what an event does to the file of the stream, if the system writes at the place. -/
def imprint (fp : Word) (w : Img) : Ev → Img
  | .seek g _ h l r => if g = fp ∧ r = 0 then (w.1, h.toNat * 65536 + l.toNat) else w
  | e => putAt w (sentBy fp e)

/-- Specification: the file after some events. -/
def image (fp : Word) (w : Img) (tr : List Ev) : Img := tr.foldl (imprint fp) w

theorem putAt_nil (w) : putAt w [] = w := by
  obtain ⟨f, q⟩ := w
  simp only [putAt, List.length_nil, Nat.add_zero, Prod.mk.injEq, and_true]
  funext x; simp

theorem putAt_append (w a b) : putAt (putAt w a) b = putAt w (a ++ b) := by
  obtain ⟨f, q⟩ := w
  simp only [putAt, List.length_append, Nat.add_assoc, Prod.mk.injEq, and_true]
  funext x
  by_cases h1 : q + a.length ≤ x
  · have h2 : q ≤ x := by omega
    simp only [h1, h2, if_true, List.getD_eq_getElem?_getD]
    rw [List.getElem?_eq_none (l := a) (by omega), List.getElem?_append_right (by omega), show x - q - a.length = x - (q + a.length) by omega]
    rfl
  · simp only [h1, if_false]
    by_cases h2 : q ≤ x
    · simp only [h2, if_true, List.getD_eq_getElem?_getD]
      rw [List.getElem?_append_left (by omega)]
    · simp only [h2, if_false]

theorem image_still {fp} : ∀ (es : List Ev) w, (∀ e ∈ es, e.still fp) → image fp w es = putAt w (sent fp es) := by
  intro es
  induction es with
  | nil => intro w _; simp [image, sent, putAt_nil]
  | cons e es ih =>
    intro w h
    have h1 := h e (by simp)
    have h2 := ih (imprint fp w e) fun x hx => h x (by simp [hx])
    simp only [image, List.foldl_cons, sent, List.flatMap_cons] at h2 ⊢
    rw [h2, ← putAt_append]
    congr 1
    cases e <;> simp only [Ev.still] at h1 <;> simp [imprint, sentBy, h1, putAt_nil]

theorem fflush_onward {S fp st b s} (h : fflush S fp st = .ok (b, s)) : Onward fp st.tr s.tr := by
  unfold fflush at h
  split at h; · cases h
  split at h; · cases h
  split at h; · cases h; exact .refl _ _
  split at h; · cases h; exact .refl _ _
  split at h; · cases h; exact .refl _ _
  simp only [Except.ok.injEq, Prod.mk.injEq] at h
  rw [← h.2, upd_tr]
  split
  · rw [upd_tr, log_tr]; exact ⟨_, rfl, by simp [Ev.still]⟩
  · split
    · rw [upd_tr, sysret_tr, log_tr]; exact ⟨_, rfl, by simp [Ev.still]⟩
    · rw [sysret_tr, log_tr]; exact ⟨_, rfl, by simp [Ev.still]⟩

theorem fputc_onward {S c fp st b s} (h : fputc S c fp st = .ok (b, s)) : Onward fp st.tr s.tr := by
  unfold fputc at h
  split at h; · cases h
  split at h; · cases h
  split at h; · cases h; exact .refl _ _
  split at h
  · simp only [Except.ok.injEq, Prod.mk.injEq] at h
    rw [← h.2, log_tr]; exact ⟨_, rfl, by simp [Ev.still]⟩
  simp only at h
  split at h
  · split at h
    · cases h
    · rename_i e; have := fflush_onward e
      rw [upd_tr, upd_tr] at this
      simp only [Except.ok.injEq, Prod.mk.injEq] at h
      rw [← h.2]; exact this
  · simp only [Except.ok.injEq, Prod.mk.injEq] at h
    rw [← h.2, upd_tr, upd_tr]; exact .refl _ _

theorem fputsLoop_onward (S a fp) : ∀ i st r, fputsLoop S a fp i st = some r → ∀ b s, r = .ok (b, s) → Onward fp st.tr s.tr := by
  refine fputsLoop.partial_correctness S a fp (motive := fun i st r => ∀ b s, r = .ok (b, s) → Onward fp st.tr s.tr) ?_
  intro loop ih i st r h b s hr
  subst hr
  split at h
  · split at h
    · cases h
    · rename_i e; cases h; exact fputc_onward e
    · rename_i e; exact (fputc_onward e).trans (ih _ _ _ h _ _ rfl)
  · cases h; exact .refl _ _

theorem writes_onward {S fp st bs t} (h : Writes S fp st bs t) : Onward fp st.tr t.tr := by
  induction h with
  | nil => exact .refl _ _
  | putc e _ ih => exact (fputc_onward e).trans ih
  | puts _ e _ ih => exact (fputsLoop_onward _ _ _ _ _ _ e _ _ rfl).trans ih
  | flush e _ ih => exact (fflush_onward e).trans ih
  | other hs ha _ ih => exact (step_onward hs ha).trans ih

/-- Specification: output of a program: bytes, and seeks. -/
inductive OCall where
  | out (bs : List Byte)
  | seek (h l : Word)

/-- Specification: what the calls do to a file without a buffer. -/
def direct (w : Img) : List OCall → Img
  | [] => w
  | .out bs :: cs => direct (putAt w bs) cs
  | .seek h l :: cs => direct (w.1, h.toNat * 65536 + l.toNat) cs

/-- The program makes these calls, between anything else it does; the stream has no error after a seek. -/
inductive Outs (S : Sys) (fp : Word) : St → List OCall → St → Prop
  | nil {st} : Outs S fp st [] st
  | out {st bs s cs t} : Writes S fp st bs s → Outs S fp s cs t → Outs S fp st (.out bs :: cs) t
  | seek {st h l b s cs t} : fseek S fp h l st = .ok (b, s) → (s.file fp).err = false → Outs S fp s cs t →
      Outs S fp st (.seek h l :: cs) t

/-- A seek of a stream open for writing that leaves no error: the buffer is flushed before. -/
theorem fseek_out {S d fp st h l b s} (hd : d.Ok) (hR : Ready d st fp) (he : fseek S fp h l st = .ok (b, s)) (hs : (s.file fp).err = false) :
    b = false ∧ Ready d s fp ∧ pending s fp = [] ∧ ∃ es fd, s.tr = st.tr ++ es ++ [.seek fp fd h l 0] ∧ (∀ e ∈ es, e.still fp) ∧
      sent fp es = pending st fp := by
  obtain ⟨b1, u, e1, _, h1, h2⟩ := Ready.flush (S := S) hd hR
  have tu := fflush_touch S fp st
  rw [e1] at tu
  have tu : Touch fp st u := tu
  unfold fseek at he
  have hmu : (u.file fp).mode ≠ O_RDONLY := by rw [tu.mode]; exact hR.mode
  simp only [hR.accept hd, Bool.false_eq_true, if_false, ne_eq, hR.mode, not_false_eq_true, if_true, e1, sysret_file, log_file, hmu] at he
  split at he
  · cases he
  rename_i hz
  simp only [not_not] at hz
  cases he
  rw [hz] at hs ⊢
  rw [sysret_file, log_file] at hs
  cases b1 with
  | true => obtain ⟨f, _⟩ := h2 rfl; rw [f.err] at hs; cases hs
  | false =>
    obtain ⟨r1, r2, r3⟩ := h1 rfl
    have tv : Touch fp u ((u.log (.seek fp (u.file fp).fd h l 0)).sysret 0) := (Touch.log (by rfl)).trans .sysret
    obtain ⟨es, q1, q2⟩ := fflush_onward e1
    refine ⟨rfl, ⟨agree_touch hd r1.agree tv, by rw [tv.mode]; exact r1.mode, by rw [sysret_file, log_file]; exact r1.err,
      by rw [sysret_file, log_file]; exact r1.room⟩, by rw [← r2]; simp only [pending, sysret_file, log_file],
      es, (u.file fp).fd, by rw [sysret_tr, log_tr, q1], q2, ?_⟩
    rw [q1, sent_append] at r3
    exact List.append_cancel_left r3

/-- C82: output. After every sequence of fputc, fputs, fflush and fseek without errors on a stream open for writing, between any other
steps of the program, the file (with the bytes still in the buffer) is the one a program without a buffer makes: every byte is at its
place, whatever was in the buffer when the program went to another place. -/
theorem C82_output {S : Sys} {d : Std} {fp : Word} {st t : St} {cs : List OCall} (hd : d.Ok) (hH : HeapOk S d) (h : Ready d st fp)
    (hw : Outs S fp st cs t) : Ready d t fp ∧ ∃ es, t.tr = st.tr ++ es ∧
      ∀ w, putAt (image fp w es) (pending t fp) = direct (putAt w (pending st fp)) cs := by
  induction hw with
  | nil => exact ⟨h, [], by simp, fun w => rfl⟩
  | out hw _ ih =>
    rename_i st bs s cs t _
    obtain ⟨h1, h2⟩ := C20 hd hH h hw
    obtain ⟨es, q1, q2⟩ := writes_onward hw
    obtain ⟨h3, fs, q3, q4⟩ := ih h1
    refine ⟨h3, es ++ fs, by rw [q3, q1, List.append_assoc], fun w => ?_⟩
    rw [q1, sent_append, List.append_assoc, List.append_assoc] at h2
    have h2 := List.append_cancel_left h2
    have e : image fp w (es ++ fs) = image fp (image fp w es) fs := by simp [image]
    rw [e, q4, image_still es w q2, putAt_append, h2, direct, putAt_append]
  | seek he hs _ ih =>
    rename_i st hi lo b s cs t _
    obtain ⟨_, h1, h2, es, fd, q1, q2, q3⟩ := fseek_out hd h he hs
    obtain ⟨h3, fs, q4, q5⟩ := ih h1
    refine ⟨h3, es ++ [.seek fp fd hi lo 0] ++ fs, by rw [q4, q1]; simp, fun w => ?_⟩
    have e : image fp w (es ++ [.seek fp fd hi lo 0] ++ fs) = image fp (imprint fp (image fp w es) (.seek fp fd hi lo 0)) fs := by simp [image]
    rw [e, q5, h2, putAt_nil, image_still es w q2, q3]
    simp [imprint, direct]

/-- C82: with a system that takes all bytes and accepts the seek, fseek has no error. -/
theorem C82_output_total {S : Sys} {d : Std} {fp : Word} {st : St} (hd : d.Ok) (h : Ready d st fp) (hk : Takes S (st.file fp).fd) (hi lo : Word)
    (hz : ∀ tr, S.seek tr (st.file fp).fd hi lo = 0) : ∃ s, fseek S fp hi lo st = .ok (false, s) ∧ (s.file fp).err = false := by
  obtain ⟨u, e⟩ := (C20_total (S := S) hd h hk).1
  obtain ⟨b, u', e', _, h1, _⟩ := Ready.flush (S := S) hd h
  rw [e] at e'; cases e'
  have tu := fflush_touch S fp st
  rw [e] at tu
  have tu : Touch fp st u := tu
  have hm : (u.file fp).mode ≠ O_RDONLY := by rw [tu.mode]; exact h.mode
  refine ⟨(u.log (.seek fp (u.file fp).fd hi lo 0)).sysret 0, ?_, by rw [sysret_file, log_file]; exact (h1 rfl).1.err⟩
  unfold fseek
  simp only [h.accept hd, Bool.false_eq_true, if_false, ne_eq, h.mode, not_false_eq_true, if_true, e, tu.fd, hz, not_true_eq_false,
    sysret_file, log_file, hm]

/-- The condition on errors is needed: fseek reports success although the flush before it failed; the byte is lost. -/
theorem C82_error_false (f : Word → FRec) (m : Mem) :
    let S := { exSys with write := fun _ _ _ => -1 }
    ∃ t s u, fopen S 500 [0x77#8] (begin exStd f m) = .ok (1000, t) ∧ fputc S 0x41#8 1000 t = .ok (false, s) ∧
      fseek S 1000 0 0 s = .ok (false, u) ∧ sent 1000 u.tr = [] ∧ (u.file 1000).err = true := by
  refine ⟨_, _, _, rfl, rfl, rfl, ?_⟩
  exact ⟨rfl, rfl⟩

theorem Gives.getc_one {c r x} (h : Gives (c :: r) [.getc c] x) : x = r := by
  generalize hy : c :: r = y at h
  generalize hc : [RCall.getc c] = cs at h
  cases h with
  | getc h => cases hy; cases hc; cases h; rfl
  | nil => cases hc
  | eof _ => cases hc
  | gets _ _ _ => cases hc

/-- A system that serves the file "A\nB" in portions of one byte. -/
def exSeek : Sys := { exSys with
  read := fun tr _ _ =>
    let bs := (([0x41#8, 0x0a#8, 0x42#8].drop (place 1000 0 (tr.drop 3))).take 1)
    (BitVec.ofNat 16 bs.length, bs) }

theorem exSeek_serves (fd : Word) : Serves exSeek fd 1000 [0x41#8, 0x0a#8, 0x42#8] 3 := by
  intro tr n _ h0 _
  simp only [exSeek, Right]
  generalize [0x41#8, 0x0a#8, 0x42#8].drop (place 1000 0 (tr.drop 3)) = rest
  cases rest with
  | nil => simp
  | cons a l => simp; omega

/-- The file is opened and a byte is read; the program goes to byte 2, reads it, is at the end, goes back and reads the first byte again. -/
example (f : Word → FRec) (m : Mem) : ∃ t u, fopen exSeek 500 [0x72#8] (begin exStd f m) = .ok (1000, t) ∧
    Runs exSeek 1000 t [.reads [.getc 0x41#8], .seek 0 2 false, .reads [.getc 0x42#8, .eof true], .seek 0 0 false,
      .reads [.getc 0x41#8]] u ∧ Sought exStd [0x41#8, 0x0a#8, 0x42#8] 3 u 1000 [0x0a#8, 0x42#8] := by
  obtain ⟨t, e, hl⟩ : ∃ t, fopen exSeek 500 [0x72#8] (begin exStd f m) = .ok (1000, t) ∧ t.tr.length = 3 := ⟨_, rfl, rfl⟩
  have h := C82_fopen (S := exSeek) [0x41#8, 0x0a#8, 0x42#8] exStd_ok exSys_ok (begin_agree exStd_ok f m) e (by decide)
  rw [hl] at h
  have sv := fun (st : St) => exSeek_serves (st.file 1000).fd
  have get : ∀ {st c r}, Sought exStd [0x41#8, 0x0a#8, 0x42#8] 3 st 1000 (c :: r) → ∃ s, fgetc exSeek 1000 st = .ok (c, s) ∧
      Sought exStd [0x41#8, 0x0a#8, 0x42#8] 3 s 1000 r := by
    intro st c r h
    obtain ⟨s, e⟩ := (C82_total exStd_ok h (sv st)).2.1 c r rfl
    obtain ⟨_, g, q, _⟩ := reads_sought (S := exSeek) exStd_ok exSys_ok (.getc e .nil) h (sv st)
    have := g.getc_one; subst this; exact ⟨s, e, q⟩
  have go : ∀ {st r} h l, Sought exStd [0x41#8, 0x0a#8, 0x42#8] 3 st 1000 r → ∃ s, fseek exSeek 1000 h l st = .ok (false, s) ∧
      Sought exStd [0x41#8, 0x0a#8, 0x42#8] 3 s 1000 ([0x41#8, 0x0a#8, 0x42#8].drop (h.toNat * 65536 + l.toNat)) := by
    intro st r h l hs
    obtain ⟨s, e⟩ := (C82_total exStd_ok hs (sv st)).2.2.2 h l rfl
    exact ⟨s, e, (fseek_sought exStd_ok e hs (sv st)).2.1⟩
  obtain ⟨s1, e1, h1⟩ := get h
  obtain ⟨s2, e2, h2⟩ := go 0 2 h1
  obtain ⟨s3, e3, h3⟩ := get (c := 0x42#8) (r := []) h2
  obtain ⟨s4, e4⟩ := (C82_total exStd_ok h3 (sv s3)).1
  obtain ⟨_, g4, h4, _⟩ := reads_sought (S := exSeek) exStd_ok exSys_ok (.eof e4 .nil) h3 (sv s3)
  obtain ⟨s5, e5, h5⟩ := go 0 0 h4
  obtain ⟨s6, e6, h6⟩ := get (c := 0x41#8) (r := [0x0a#8, 0x42#8]) h5
  exact ⟨t, s6, e, .reads (.getc e1 .nil) (.seek e2 (.reads (.getc e3 (.eof e4 .nil)) (.seek e5 (.reads (.getc e6 .nil) .nil)))), h6⟩

/-- "A" is written at byte 1 and the program goes back to the beginning: the byte is in the file. -/
example (f : Word → FRec) (m : Mem) : ∃ t u es, fopen exSys 500 [0x77#8] (begin exStd f m) = .ok (1000, t) ∧
    Outs exSys 1000 t [.seek 0 1, .out [0x41#8], .seek 0 0] u ∧ u.tr = t.tr ++ es ∧
    putAt (image 1000 (fun _ => 0#8, 0) es) (pending u 1000) = (fun x => if x = 1 then 0x41#8 else 0#8, 0) := by
  obtain ⟨t, e⟩ : ∃ t, fopen exSys 500 [0x77#8] (begin exStd f m) = .ok (1000, t) := ⟨_, rfl⟩
  have h := C20_fopen (S := exSys) exStd_ok exSys_ok (begin_agree exStd_ok f m) e (by decide) (.inl rfl)
  obtain ⟨s1, e1, r1⟩ := C82_output_total (S := exSys) exStd_ok h.1 (fun _ _ => rfl) 0 1 fun _ => rfl
  have h1 := (fseek_out exStd_ok h.1 e1 r1).2.1
  obtain ⟨s2, e2⟩ := (C20_total (S := exSys) exStd_ok h1 fun _ _ => rfl).2.1 0x41#8
  have h2 := (C20 exStd_ok exSys_ok h1 (.putc e2 .nil)).1
  obtain ⟨u, e3, r3⟩ := C82_output_total (S := exSys) exStd_ok h2 (fun _ _ => rfl) 0 0 fun _ => rfl
  have hw : Outs exSys 1000 t [.seek 0 1, .out [0x41#8], .seek 0 0] u := .seek e1 r1 (.out (.putc e2 .nil) (.seek e3 r3 .nil))
  obtain ⟨_, es, q1, q2⟩ := C82_output exStd_ok exSys_ok h.1 hw
  refine ⟨t, u, es, e, hw, q1, ?_⟩
  rw [q2, h.2]
  simp only [direct, putAt_nil, putAt]
  refine Prod.ext (funext fun x => ?_) rfl
  rcases x with _ | _ | x <;> simp

end Cmm.Stdio
