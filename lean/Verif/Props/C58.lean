import Verif.Props.C19
import Verif.Props.C20

/-
C58: formatted output reaches the file: fprintf on a buffered stream.
-/
namespace Cmm.Stdio
open Cmm.Ctype Cmm.Str Cmm.Printf

/-- The stream functions of stdio.cmm as the stream of printf.cmm (which only calls fputc). -/
def strm (S : Sys) (fp : Word) : Strm St where
  fputc c st := match fputc S c fp st with
    | .error (e, _) => .error e
    | .ok r => .ok r

theorem write_strm {S d fp} (hd : d.Ok) (t : List Byte) : ∀ st, Ready d st fp → Takes S (st.file fp).fd →
    ∃ s, write (strm S fp) t st = .ok (t.length, s) ∧ Ready d s fp ∧ sent fp s.tr ++ pending s fp = sent fp st.tr ++ pending st fp ++ t ∧
      (s.file fp).fd = (st.file fp).fd := by
  induction t with
  | nil => intro st h _; exact ⟨st, rfl, h, by simp, rfl⟩
  | cons c t ih =>
    intro st h hk
    obtain ⟨s, e⟩ := (C20_total hd h hk).2.1 c
    obtain ⟨b, s', e', _, h1, _⟩ := fputc_spec (S := S) hd h c
    rw [e] at e'; cases e'
    have ht := fputc_touch S c fp st
    rw [e] at ht
    have ht : Touch fp st s := ht
    obtain ⟨u, e2, r, hs, hf⟩ := ih s (h1 rfl).1 (by rw [ht.fd]; exact hk)
    refine ⟨u, ?_, r, by rw [hs, (h1 rfl).2]; simp, hf.trans ht.fd⟩
    simp only [write]
    rw [show (strm S fp).fputc c st = .ok (false, s) by simp only [strm, e]]
    simp only
    rw [e2]
    simp

/-- C58: on a stream that is ready and whose writes the system takes, fprintf (print with the arguments in memory) returns the number
of characters of the text, and this text, and nothing else, is appended to what the stream has delivered and buffered; after fflush all
of it has been delivered. -/
theorem C58 {S : Sys} {d : Std} {fp : Word} {st : St} (hd : d.Ok) (hr : Ready d st fp) (hk : Takes S (st.file fp).fd)
    {A : Arith} {N : Nat} (hA : A.OkTo N) (hN : 32768 ≤ N) {prot : Word → Prop} {m : Mem} {f : List Byte} {as : List Word} {t : List Byte}
    {arg fmt tab : Word} {offs : Nat} (h : Fmt N prot true m f as t)
    (hfmt : m.lw (off arg (2 * offs)) = fmt) (hf : IsStr m fmt f) (hpf : ∀ k ≤ f.length, prot (off fmt k))
    (has : ∀ j (h : j < as.length), m.lw (off arg (2 * (offs + 1 + j))) = as[j])
    (hpa : ∀ j < as.length, prot (off arg (2 * (offs + 1 + j))) ∧ prot (off arg (2 * (offs + 1 + j) + 1)))
    (ht : Tab m tab) (hpt : ∀ d < 16, prot (off tab d)) :
    ∃ s, (print A (strm S fp) tab m arg (BitVec.ofNat 16 offs) st).map outcome = some (.ok (BitVec.ofNat 16 t.length, s)) ∧
      Ready d s fp ∧ sent fp s.tr ++ pending s fp = sent fp st.tr ++ pending st fp ++ t ∧
      ∃ u, fflush S fp s = .ok (false, u) ∧ sent fp u.tr = sent fp st.tr ++ pending st fp ++ t := by
  obtain ⟨s, e, r, hs, hfd⟩ := write_strm hd t st hr hk
  refine ⟨s, ?_, r, hs, ?_⟩
  · rw [C19_partial (S := strm S fp) hA hN h hfmt hf hpf has hpa ht hpt]
    unfold expected
    rw [e]; rfl
  · obtain ⟨u, eu⟩ := (C20_total hd r (by rw [hfd]; exact hk)).1
    obtain ⟨b, u', e', _, h1, _⟩ := Ready.flush (S := S) hd r
    rw [eu] at e'; cases e'
    exact ⟨u, eu, by rw [(h1 rfl).2.2, hs]⟩

/-- C58 for fprintf: the stream is the first argument, the format the second one. -/
theorem C58_fprintf {S : Sys} {d : Std} {fp : Word} {st : St} (hd : d.Ok) (hr : Ready d st fp) (hk : Takes S (st.file fp).fd)
    {A : Arith} {N : Nat} (hA : A.OkTo N) (hN : 32768 ≤ N) {prot : Word → Prop} {m : Mem} {f : List Byte} {as : List Word} {t : List Byte}
    {arg fmt tab : Word} (h : Fmt N prot true m f as t)
    (hfmt : m.lw (off arg 2) = fmt) (hf : IsStr m fmt f) (hpf : ∀ k ≤ f.length, prot (off fmt k))
    (has : ∀ j (h : j < as.length), m.lw (off arg (4 + 2 * j)) = as[j])
    (hpa : ∀ j < as.length, prot (off arg (4 + 2 * j)) ∧ prot (off arg (4 + 2 * j + 1)))
    (ht : Tab m tab) (hpt : ∀ d < 16, prot (off tab d)) :
    ∃ s, (fprintf A (strm S fp) tab m arg st).map outcome = some (.ok (BitVec.ofNat 16 t.length, s)) ∧
      Ready d s fp ∧ sent fp s.tr ++ pending s fp = sent fp st.tr ++ pending st fp ++ t := by
  obtain ⟨s, h1, h2, h3, -⟩ := C58 (offs := 1) hd hr hk hA hN h hfmt hf hpf
    (fun j hj => by rw [show 2 * (1 + 1 + j) = 4 + 2 * j by omega]; exact has j hj)
    (fun j hj => by rw [show 2 * (1 + 1 + j) = 4 + 2 * j by omega]; exact hpa j hj) ht hpt
  exact ⟨s, h1, h2, h3⟩

/-- C58 for printf: the format is the first argument. -/
theorem C58_printf {S : Sys} {d : Std} {fp : Word} {st : St} (hd : d.Ok) (hr : Ready d st fp) (hk : Takes S (st.file fp).fd)
    {A : Arith} {N : Nat} (hA : A.OkTo N) (hN : 32768 ≤ N) {prot : Word → Prop} {m : Mem} {f : List Byte} {as : List Word} {t : List Byte}
    {arg fmt tab : Word} (h : Fmt N prot true m f as t)
    (hfmt : m.lw arg = fmt) (hf : IsStr m fmt f) (hpf : ∀ k ≤ f.length, prot (off fmt k))
    (has : ∀ j (h : j < as.length), m.lw (off arg (2 + 2 * j)) = as[j])
    (hpa : ∀ j < as.length, prot (off arg (2 + 2 * j)) ∧ prot (off arg (2 + 2 * j + 1)))
    (ht : Tab m tab) (hpt : ∀ d < 16, prot (off tab d)) :
    ∃ s, (Printf.printf A (strm S fp) tab m arg st).map outcome = some (.ok (BitVec.ofNat 16 t.length, s)) ∧
      Ready d s fp ∧ sent fp s.tr ++ pending s fp = sent fp st.tr ++ pending st fp ++ t := by
  obtain ⟨s, h1, h2, h3, -⟩ := C58 (offs := 0) hd hr hk hA hN h (by simpa [off] using hfmt) hf hpf
    (fun j hj => by rw [show 2 * (0 + 1 + j) = 2 + 2 * j by omega]; exact has j hj)
    (fun j hj => by rw [show 2 * (0 + 1 + j) = 2 + 2 * j by omega]; exact hpa j hj) ht hpt
  exact ⟨s, h1, h2, h3⟩

/-- printf("x=%3d, %s%%", 42, "ok") on the standard output. -/
example (A : Arith) (hA : A.OkTo 32768) (g : Word → FRec) (m : Mem) :
    ∃ s, (Printf.printf A (strm exSys exStd.stdout) 0x10 zMem 0x200 (begin exStd g m)).map outcome = some (.ok (10, s)) ∧
      sent exStd.stdout s.tr ++ pending s exStd.stdout = "x= 42, ok%".toList.map byte := by
  have hr := (C20_std exStd_ok g m).1
  obtain ⟨s, e, _, hs, _⟩ := C58 (S := exSys) exStd_ok hr.1 (fun _ _ => rfl) hA (Nat.le_refl _) zOk (tab := 0x10) (arg := 0x200)
    (fmt := 0x100) (offs := 0) (by decide +kernel)
    (isStr_of (by decide +kernel) (by decide) (by decide +kernel) (by decide)) (fun _ _ => trivial)
    (by
      intro j hj
      have : j = 0 ∨ j = 1 := by simp at hj; omega
      rcases this with rfl | rfl <;> simp only [List.getElem_cons_zero, List.getElem_cons_succ] <;> clear hj <;> decide +kernel)
    (fun _ _ => ⟨trivial, trivial⟩) zTab (fun _ _ => trivial)
  exact ⟨s, e, by rw [hs, hr.2]; rfl⟩

end Cmm.Stdio
