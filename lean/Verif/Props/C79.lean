import Verif.CText.Direct

/-
C79: the C translator leaves out the declarations of headers of the system and prints `#include <x.h>` for them; all others are printed, in their order.
-/
namespace Cmm.CText

/-- C79 (invariant): while the contents of `f` are read, inhibitOut says whether `f` is a header of the system; what is printed is `Contents`. -/
theorem contents_run {f ps t} (h : Contents f ps t) :
    psGetSrc (decide (SysHeader f)) (cpp f ps) = some (t, decide (SysHeader f)) := by
  induction h with
  | nil => rfl
  | sys hs _ ih => simp only [cpp, psGetSrc, ih]; simp [hs]
  | own hs _ ih => simp only [cpp, psGetSrc, ih]; simp [hs]
  | mark _ ih => simp only [cpp, psGetSrc, genDirect_line, ih]; simp
  | incl ho _ _ ih1 ih2 =>
    simp only [cpp, List.cons_append, psGetSrc, genDirect_open ho, psGetSrc_append, ih1, genDirect_line, ih2]
    simp

/-- C79: for every file with all files it includes, whatever has been read before. -/
theorem C79_run {f ps o t} (inh : Bool) (ho : Opening f o) (h : Contents f ps t) :
    psGetSrc inh (.dir 1 f :: cpp f ps) = some (o ++ t, decide (SysHeader f)) := by
  simp only [psGetSrc, genDirect_open ho, contents_run h]; rfl

theorem opening_total (f : Text) : ∃ o, Opening f o := by
  by_cases hs : SysHeader f
  · obtain ⟨x, hx⟩ := hs.base
    exact ⟨_, .sys hs hx⟩
  · exact ⟨_, .own hs⟩

theorem contents_total (ps : Parts) : ∀ f, ∃ t, Contents f ps t := by
  induction ps with
  | nil => exact fun f => ⟨_, .nil⟩
  | decl e ks r ih =>
    intro f
    obtain ⟨t, h⟩ := ih f
    by_cases hs : SysHeader f
    · exact ⟨_, .sys hs h⟩
    · exact ⟨_, .own hs h⟩
  | mark k r ih => intro f; obtain ⟨t, h⟩ := ih f; exact ⟨_, .mark h⟩
  | incl k g b r ih1 ih2 =>
    intro f
    obtain ⟨s, h1⟩ := ih1 g
    obtain ⟨t, h2⟩ := ih2 f
    obtain ⟨o, ho⟩ := opening_total g
    exact ⟨_, .incl ho h1 h2⟩

/-- C79: for every file and every tree of includes below it there is one right text, and it is what is printed; no null pointer is used. -/
theorem C79 (inh : Bool) (f : Text) (ps : Parts) :
    ∃ o t, Opening f o ∧ Contents f ps t ∧ psGetSrc inh (.dir 1 f :: cpp f ps) = some (o ++ t, decide (SysHeader f)) ∧
      (∀ o' t', Opening f o' → Contents f ps t' → o' ++ t' = o ++ t) := by
  obtain ⟨o, ho⟩ := opening_total f
  obtain ⟨t, ht⟩ := contents_total ps f
  have h := C79_run inh ho ht
  refine ⟨o, t, ho, ht, h, ?_⟩
  intro o' t' ho' ht'
  have h' := C79_run inh ho' ht'
  rw [h] at h'
  simp only [Option.some.injEq, Prod.mk.injEq, and_true] at h'
  exact h'.symm

/-- The declarations of a file without those of headers of the system. -/
def Parts.own (f : Text) : Parts → List Ext
  | .nil => []
  | .decl e _ r => if SysHeader f then r.own f else e :: r.own f
  | .mark _ r => r.own f
  | .incl _ g b r => b.own g ++ r.own f

/-- No header of the system is included. -/
def Parts.NoSys : Parts → Prop
  | .nil => True
  | .decl _ _ r => r.NoSys
  | .mark _ r => r.NoSys
  | .incl _ g b r => ¬ SysHeader g ∧ b.NoSys ∧ r.NoSys

theorem own_contents {ps : Parts} : ∀ {f}, ps.NoSys → Contents f ps (pfile (ps.own f)) := by
  induction ps with
  | nil => intro f _; exact .nil
  | decl e ks r ih =>
    intro f h
    rw [Parts.own]
    split
    · next hs => exact .sys hs (ih h)
    · next hs => exact .own hs (ih h)
  | mark k r ih => intro f h; exact .mark (ih h)
  | incl k g b r ih1 ih2 =>
    intro f h
    have := Contents.incl (k := k) (f := f) (.own h.1) (ih1 (f := g) h.2.1) (ih2 (f := f) h.2.2)
    simpa [pfile, Parts.own] using this

/-- C79: without headers of the system the text is that of all declarations (`pfile`, the text C78 speaks about). -/
theorem C79_file (inh : Bool) {f ps} (hf : ¬ SysHeader f) (h : ps.NoSys) :
    psGetSrc inh (.dir 1 f :: cpp f ps) = some (pfile (ps.own f), false) := by
  have := C79_run inh (.own hf) (own_contents h)
  simpa [hf] using this

/-- C79: strEndsWith, strstr and strrchr decide what they are asked. -/
theorem C79_ends (s n : Text) : strEndsWith s n = true ↔ n <:+ s := by
  rw [strEndsWith_iff]
  constructor
  · rintro ⟨a, e⟩; exact ⟨a, e.symm⟩
  · rintro ⟨a, e⟩; exact ⟨a, e.symm⟩

/-- The header of C that `#include <p>` of C-- should become: the same path with `.h`. -/
def Wanted (p q : Text) : Prop := ∃ x, p = x ++ t!".hmm" ∧ q = x ++ t!".h"

/-- C79: headers directly in a directory `cmmInclude` become the headers of C of the same name. -/
theorem C79_header_partial {d p q : Text} (hw : Wanted p q) (hp : '/' ∉ p) :
    genDirect 1 (d ++ t!"/cmmInclude/" ++ p) = some (t!"#include <" ++ q ++ t!">\n", true) := by
  obtain ⟨x, rfl, rfl⟩ := hw
  have hs : SysHeader (d ++ t!"/cmmInclude/" ++ (x ++ t!".hmm")) :=
    ⟨⟨d, _, rfl⟩, d ++ t!"/cmmInclude/" ++ x, by simp⟩
  have hb : Base (d ++ t!"/cmmInclude/" ++ (x ++ t!".hmm")) x := ⟨⟨d ++ t!"/cmmInclude", by simp⟩, by simp at hp; exact hp⟩
  rw [genDirect_open (.sys hs hb), decide_eq_true hs]
  simp

/-- C79: it is false for those in directories below, as sys/fs.hmm and sys/tty.hmm (include/syslib.hmm:40-41): `#include <fs.h>` is printed. -/
theorem C79_header_false : ¬ ∀ d p q : Text, Wanted p q →
    genDirect 1 (d ++ t!"/cmmInclude/" ++ p) = some (t!"#include <" ++ q ++ t!">\n", true) := by
  intro h
  have := h t!"/usr/local" t!"sys/fs.hmm" t!"sys/fs.h" ⟨t!"sys/fs", rfl, rfl⟩
  revert this
  decide

/-- C79: so different headers are not told apart. -/
theorem C79_same : genDirect 1 t!"/usr/local/cmmInclude/sys/fs.hmm" = genDirect 1 t!"/usr/local/cmmInclude/fs.hmm" := by decide

/-! ### Examples -/

def vx (x : Text) : Ext := .var true false .int 0 x

/-- A file that includes a header of the system with another one in it, and one of its own. -/
def exParts : Parts :=
  .decl (vx t!"a") [] <|
  .incl 2 t!"/usr/local/cmmInclude/syslib.hmm"
    (.incl 39 t!"/usr/local/cmmInclude/sys/fs.hmm" (.decl (vx t!"p") [] .nil) (.decl (vx t!"q") [60] .nil)) <|
  .decl (vx t!"b") [] <|
  .incl 5 t!"my.hmm" (.mark 10 (.decl (vx t!"c") [] .nil)) <|
  .decl (vx t!"d") [] .nil

example : (psGetSrc true (.dir 1 t!"m.cmm" :: cpp t!"m.cmm" exParts)).map (fun r => String.ofList r.1) =
    some "int a;\n#include <syslib.h>\n#include <fs.h>\nint b;\nint c;\nint d;\n" := by decide +kernel

example : SysHeader t!"/usr/local/cmmInclude/stdio.hmm" ∧ ¬ SysHeader t!"my.hmm" ∧ ¬ SysHeader t!"/usr/local/cmmInclude/x.cmm" := by decide

/-- The hypotheses of `C79_file`. -/
example : ¬ SysHeader t!"m.cmm" ∧ (Parts.incl 5 t!"my.hmm" (.decl (vx t!"c") [] .nil) (.decl (vx t!"d") [] .nil)).NoSys :=
  ⟨by decide, by decide, trivial, trivial⟩

example : Wanted t!"stdio.hmm" t!"stdio.h" ∧ '/' ∉ t!"stdio.hmm" := ⟨⟨t!"stdio", rfl, rfl⟩, by decide⟩

end Cmm.CText
