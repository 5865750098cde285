import Verif.Tac.VmSim
import Verif.Props.C67

/-
C68: the other back end, src/vm2vm.c. The text it prints for a program that the compiler accepts, read by an assembler for the
stack machine and executed by that machine, does what the trees of the program mean.
-/
namespace Cmm.Tac
open Cmm.CText (Text)
open Cmm.Tree (Kind Stmt)
open Cmm.Gen (Instr Data Cfg Step Steps genSw NoBC UniqueLabels OrderedS)

variable {E : Env} {ext : Int → List Cmm.Word → Mem → Option (Cmm.Word × Mem)} {new : VM → Int → Cmm.Word} {P : List Instr}

/-! ### The machine is deterministic -/

theorem step_ne {a b : Cfg AS} {i : Instr} (h : Step (vworld E) P a b) (hp : P[a.pc]? = some i) :
    (∀ f, i ≠ .nam f) ∧ (∀ n, i ≠ .entry n) ∧ (∀ n, i ≠ .entryK n) ∧ (∀ b n f, i ≠ vcall b n f) ∧ i ≠ .ret := by
  cases h with
  | @next pc d j d' h1 h2 =>
    rw [h1] at hp
    cases hp
    refine ⟨?_, ?_, ?_, ?_, ?_⟩
    · rintro f rfl; cases h2
    · rintro f rfl; cases h2
    · rintro f rfl; cases h2
    · rintro b n f rfl; cases b <;> cases h2
    · rintro rfl; cases h2
  | jmp h1 | jtT h1 | jtF h1 | jfT h1 | jfF h1 =>
    rw [h1] at hp
    cases hp
    refine ⟨nofun, nofun, nofun, ?_, nofun⟩
    intro b n f hh
    cases b <;> cases hh

theorem vcall_inj {b b' : Bool} {n n' : Nat} {f f' : Int} (h : vcall b n f = vcall b' n' f') : b = b' ∧ n = n' ∧ f = f' := by
  cases b <;> cases b' <;> cases h <;> exact ⟨rfl, rfl, rfl⟩

theorem vcall_ne {b : Bool} {n : Nat} {f : Int} {i : Instr} (h : vcall b n f = i) (hi : calling i = false) : False := by
  cases b <;> cases h <;> cases hi

theorem Defined.unique {f : Int} {k k' : Nat} (h : Defined P f k) (h' : Defined P f k') : k = k' := by
  rcases Nat.lt_trichotomy k k' with hl | hl | hl
  · exact absurd h.1 (h'.2 k hl)
  · exact hl
  · exact absurd h'.1 (h.2 k' hl)

/-- If labels are unique, there is at most one next state. -/
theorem C68_det (hu : UniqueLabels P) {a b c : VM} (h : VStep E ext new P a b) (h' : VStep E ext new P a c) : b = c := by
  have key : ∀ {pc : Nat} {d : Data AS} {x : Cfg AS} {i : Instr}, Step (vworld E) P ⟨pc, d⟩ x → P[pc]? = some i →
      (∃ f, i = .nam f) ∨ (∃ n, i = .entry n) ∨ (∃ n, i = .entryK n) ∨ (∃ b n f, i = vcall b n f) ∨ i = .ret → False := by
    intro pc d x i hs hp hi
    obtain ⟨h1, h2, h3, h4, h5⟩ := step_ne hs hp
    rcases hi with ⟨f, hi⟩ | ⟨n, hi⟩ | ⟨n, hi⟩ | ⟨b, n, f, hi⟩ | hi
    · exact h1 _ hi
    · exact h2 _ hi
    · exact h3 _ hi
    · exact h4 _ _ _ hi
    · exact h5 hi
  cases h with
  | step h1 =>
    cases h' with
    | step h2 => have := h1.det hu h2; cases this; rfl
    | nam h2 => exact (key h1 h2 (.inl ⟨_, rfl⟩)).elim
    | entry h2 =>
      rcases h2 with h2 | h2
      · exact (key h1 h2 (.inr (.inl ⟨_, rfl⟩))).elim
      · exact (key h1 h2 (.inr (.inr (.inl ⟨_, rfl⟩)))).elim
    | call h2 => exact (key h1 h2 (.inr (.inr (.inr (.inl ⟨_, _, _, rfl⟩))))).elim
    | ext h2 => exact (key h1 h2 (.inr (.inr (.inr (.inl ⟨_, _, _, rfl⟩))))).elim
    | ret h2 => exact (key h1 h2 (.inr (.inr (.inr (.inr rfl))))).elim
  | nam h1 =>
    cases h' with
    | step h2 => exact (key h2 h1 (.inl ⟨_, rfl⟩)).elim
    | nam h2 => rfl
    | entry h2 => rfl
    | call h2 | ext h2 => rw [h1] at h2; exact (vcall_ne (Option.some.inj h2).symm rfl).elim
    | ret h2 => rw [h1] at h2; cases h2
  | entry h1 =>
    cases h' with
    | step h2 =>
      rcases h1 with h1 | h1
      · exact (key h2 h1 (.inr (.inl ⟨_, rfl⟩))).elim
      · exact (key h2 h1 (.inr (.inr (.inl ⟨_, rfl⟩)))).elim
    | nam h2 => rfl
    | entry h2 => rfl
    | call h2 | ext h2 =>
      rcases h1 with h1 | h1 <;> rw [h1] at h2 <;> exact (vcall_ne (Option.some.inj h2).symm rfl).elim
    | ret h2 => rcases h1 with h1 | h1 <;> rw [h1] at h2 <;> cases h2
  | call h1 hd =>
    cases h' with
    | step h2 => exact (key h2 h1 (.inr (.inr (.inr (.inl ⟨_, _, _, rfl⟩))))).elim
    | nam h2 => rw [h1] at h2; exact (vcall_ne (Option.some.inj h2) rfl).elim
    | entry h2 => rcases h2 with h2 | h2 <;> rw [h1] at h2 <;> exact (vcall_ne (Option.some.inj h2) rfl).elim
    | call h2 hd' =>
      rw [h1] at h2
      obtain ⟨rfl, rfl, rfl⟩ := vcall_inj (Option.some.inj h2)
      cases hd.unique hd'
      rfl
    | ext h2 hn =>
      rw [h1] at h2
      obtain ⟨rfl, rfl, rfl⟩ := vcall_inj (Option.some.inj h2)
      exact absurd (List.mem_of_getElem? hd.1) hn
    | ret h2 => rw [h1] at h2; exact (vcall_ne (Option.some.inj h2) rfl).elim
  | ext h1 hn hx =>
    cases h' with
    | step h2 => exact (key h2 h1 (.inr (.inr (.inr (.inl ⟨_, _, _, rfl⟩))))).elim
    | nam h2 => rw [h1] at h2; exact (vcall_ne (Option.some.inj h2) rfl).elim
    | entry h2 => rcases h2 with h2 | h2 <;> rw [h1] at h2 <;> exact (vcall_ne (Option.some.inj h2) rfl).elim
    | call h2 hd =>
      rw [h1] at h2
      obtain ⟨rfl, rfl, rfl⟩ := vcall_inj (Option.some.inj h2)
      exact absurd (List.mem_of_getElem? hd.1) hn
    | ext h2 _ hx' =>
      rw [h1] at h2
      obtain ⟨rfl, rfl, rfl⟩ := vcall_inj (Option.some.inj h2)
      rw [hx] at hx'
      cases hx'
      rfl
    | ret h2 => rw [h1] at h2; exact (vcall_ne (Option.some.inj h2) rfl).elim
  | ret h1 =>
    cases h' with
    | step h2 => exact (key h2 h1 (.inr (.inr (.inr (.inr rfl))))).elim
    | nam h2 => rw [h1] at h2; cases h2
    | entry h2 => rcases h2 with h2 | h2 <;> rw [h1] at h2 <;> cases h2
    | call h2 | ext h2 => rw [h1] at h2; exact (vcall_ne (Option.some.inj h2).symm rfl).elim
    | ret h2 => rfl

/-! ### Compiled functions -/

section
variable {p void : Int → Bool}

theorem shapesF_noBug (c : List Instr) : ∀ {l l' : List Bool}, shapesF c l = some l' → Instr.bug ∉ c := by
  induction c with
  | nil => intro l l' _ hi; cases hi
  | cons j c ih =>
    intro l l' h hi
    simp only [shapesF] at h
    cases h1 : shapeF j l with
    | none => rw [h1] at h; cases h
    | some l1 =>
      rw [h1] at h
      rcases List.mem_cons.1 hi with rfl | hi
      · cases h1
      · exact ih h hi

/-- The code of a function can be printed. -/
theorem comp_vm {fn : SrcFn} (h : Writable p void fn) (hval : ∀ f, E.val f = !void f) (n : Nat) :
    BodyOk E (fn.comp void n).1.body ∧ ∀ i ∈ (fn.comp void n).1.code, vmFit (p · = true) i := by
  have hz : WZ (useOk ⟨fn.cnt, void⟩ (usable p fn.cnt)) (needS fn.body) (fn.comp void n).1.body :=
    (genS_wz fn.body h.ok (Nat.le_refl _) _ _).append (wz_printLab _)
  obtain ⟨b', hz⟩ := hz false
  obtain ⟨h1, -, h3, -⟩ := trail_sound hz
  have hin := shapesF_inExpr _ h1
  have hnb := shapesF_noBug _ h1
  refine ⟨⟨hin, fun k f hm => ?_⟩, fun i hi => ?_⟩
  · have := h3 _ hm
    simp only [useOk, Bool.and_eq_true] at this
    rw [hval, this.2]
  · unfold Fn.code at hi
    simp only [List.mem_append, List.mem_cons, List.not_mem_nil, or_false] at hi
    rcases hi with ((rfl | rfl) | hi) | rfl
    · exact h.name
    · split <;> trivial
    · have hk := h3 i hi
      have hx := hin i hi
      cases i <;> simp_all [useOk, usable, vmFit, inExpr]
    · trivial

theorem compile_mem {fns : List SrcFn} : ∀ {k : Nat} {g : Fn}, g ∈ compile void fns k → ∃ fn ∈ fns, ∃ n, g = (fn.comp void n).1 := by
  induction fns with
  | nil => intro k g hg; cases hg
  | cons fn fns ih =>
    intro k g hg
    rw [compile] at hg
    rcases List.mem_cons.1 hg with rfl | hg
    · exact ⟨fn, by simp, _, rfl⟩
    · obtain ⟨fn', h1, h2⟩ := ih hg
      exact ⟨fn', by simp [h1], h2⟩

/-- `C61_stack_code` with what it needs. -/
theorem stack_code {L : Lay} {fns : List SrcFn} (k : Nat) (hok : ∀ fn ∈ fns, NoBC fn.body ∧ ∃ V, okS ⟨fn.cnt, void⟩ V fn.body = true) (n : Nat) :
    Le (evS E L genSw fns ext n) (ev E L (compile void fns k) ext n) := by
  induction n with
  | zero =>
    intro f vs mem r h
    have hc := compile_find void fns f k
    rw [evS] at h
    rw [ev]
    cases hf : fns.find? (fun fn => fn.f = f) with
    | none => rw [hf] at h hc; rw [hc]; exact h
    | some fn => rw [hf] at h; cases h
  | succ n ih =>
    intro f vs mem r h
    have hc := compile_find void fns f k
    cases hf : fns.find? (fun fn => fn.f = f) with
    | none => rw [evS] at h; rw [ev]; rw [hf] at h hc; rw [hc]; exact h
    | some fn =>
      rw [hf] at hc
      obtain ⟨j, hj⟩ := hc
      obtain ⟨h1, V, h2⟩ := hok fn (List.mem_of_find?_eq_some hf)
      exact (C60_ev_iff hj (comp_unique h1 j)).2 (ret_of_src ih h1 h2 ((C61_ev_iff hf).1 h))

theorem labels_slot {cnt : Int → Int} (c : List Instr) : Gen.labels (c.map (slot cnt)) = labsI c := by
  induction c with
  | nil => rfl
  | cons i c ih => cases i <;> simpa [Gen.labels, labsI, slot] using ih

theorem labels_code (fn : Fn) : Gen.labels (fn.code.map (slot fn.cnt)) = labsI fn.body := by
  rw [labels_slot]
  unfold Fn.code
  cases fn.ker <;> simp [labsI]

theorem labels_vmCode (fns : List Fn) : Gen.labels (vmCode fns) = progLabs fns := by
  induction fns with
  | nil => rfl
  | cons fn fns ih =>
    have e : vmCode (fn :: fns) = fn.code.map (slot fn.cnt) ++ vmCode fns := rfl
    rw [e, Gen.labels, List.filterMap_append]
    exact congrArg₂ (· ++ ·) (labels_code fn) ih

/-- All labels of the text are different. -/
theorem vmCode_unique {fns : List SrcFn} (h : ∀ fn ∈ fns, NoBC fn.body) (k : Nat) : UniqueLabels (vmCode (compile void fns k)) :=
  Gen.uniqueLabels_of_nodup (by rw [labels_vmCode]; exact (compile_labels fns k h).1)

variable {N : Int → Option Sym} {id : Sym → Int}

/-- C68 for programs of trees. -/
theorem C68_trees {fns : List SrcFn} (hval : ∀ f, E.val f = !void f) (hn : ∀ i, p i = true → NameOk N id i)
    (hw : ∀ fn ∈ fns, Writable p void fn) (hb : ∀ fn ∈ fns, NoBC fn.body) (k : Nat) :
    (∃ x, VmProg N (compile void fns k) x) ∧ ∀ x, VmProg N (compile void fns k) x → ∃ P, readVm id x = some P ∧ UniqueLabels P ∧
      ∀ new n, Calls E ext new P (evS E noStack genSw fns ext n) := by
  have hc : ∀ g ∈ compile void fns k, BodyOk E g.body ∧ ∀ i ∈ g.code, vmFit (NameOk N id) i := by
    intro g hg
    obtain ⟨fn, hm, n, rfl⟩ := compile_mem hg
    obtain ⟨h1, h2⟩ := comp_vm (E := E) (hw fn hm) hval n
    refine ⟨h1, fun i hi => ?_⟩
    have := h2 i hi
    cases i <;> first | exact hn _ this | exact this
  refine ⟨prog_ex fun g hg => (hc g hg).2, fun x hx => ⟨_, readVm_prog hx fun g hg => (hc g hg).2, vmCode_unique hb k, fun new n => ?_⟩⟩
  intro f vs mem v mem' he
  exact ev_calls (fun g hg => (hc g hg).1) n f vs mem v mem'
    (stack_code k (fun fn hm => ⟨hb fn hm, _, (hw fn hm).ok⟩) n f vs mem _ he)

end

end Cmm.Tac

namespace Cmm.Parse
open Cmm.CText (Text)
open Cmm.Tree (Stmt)
open Cmm.Gen (genSw UniqueLabels OrderedS)
open Cmm.Tac

/-! ### Accepted programs -/

variable {o : Opts} {src : List Nat} {s : PS} {E : Env} {id : Label → Int} {strs : String → Nat} {N : Int → Option Sym}
  {ext : Int → List Word → Mem → Option (Word × Mem)}

/-- Functions and global variables are printed by name, and private names do not look like labels of the compiler. -/
def Legible (id : Label → Int) (N : Int → Option Sym) (t : Tab) : Prop :=
  ∀ e ∈ t, IsFun e.scope ∨ IsVar e.scope → N (id e.label) = some (sym e.label) ∧ Plainly (sym e.label)

theorem Legible.ok (h : accept o src = some s) (h0 : 0 ∉ src) (hb : 202 ∉ src) (hn : Legible id N s.tab) (i : Int)
    (hi : known id s.tab i = true) : NameOk N (idText id) i := by
  obtain ⟨e, he, hs, rfl⟩ := known_iff.1 hi
  obtain ⟨h1, h3⟩ := hn e he hs
  refine ⟨_, h1, by simp [idText, sym, Ent.label], ?_, h3⟩
  rcases C67_names h h0 hb e he with h4 | ⟨w, h4, -, h5⟩
  · show Letters e.name.toList
    rw [h4]; exact nofun
  · show Letters e.name.toList
    rw [h5]; exact text_letters h4

/-- C68: the text that the compiler with the back end vm2vm.c prints for a source text does what the trees of the program mean. Conditions
are that && and || are used in conditions only (`tameS`). -/
theorem C68 (h : accept o src = some s) (h0 : 0 ∉ src) (hb : 202 ∉ src) (ho : o.opt = false) (hr : Resolves E noStack id s.tab)
    (hn : Legible id N s.tab) (hf : ∀ fn ∈ prog id o strs s.out, tameS ⟨fn.cnt, fun f => !E.val f⟩ fn.body = true) (k : Nat) :
    (∃ x, VmProg N (compile (fun f => !E.val f) (prog id o strs s.out) k) x) ∧
      ∀ x, VmProg N (compile (fun f => !E.val f) (prog id o strs s.out) k) x → ∃ P, readVm (idText id) x = some P ∧ UniqueLabels P ∧
      ∀ new n, Calls E ext new P (evS E noStack genSw (prog id o strs s.out) ext n) := by
  obtain ⟨toks, h1, -⟩ := accept_names h h0 hb
  refine C68_trees (fun f => (Bool.not_not _).symm) (fun i hi => hn.ok h h0 hb i hi) (fun fn hm => C66_writable h1 ho hr hm (hf fn hm))
    (fun fn hm => ?_) k
  obtain ⟨f, frame, src, body, tab, pts, e, hx, he, rfl⟩ := mem_prog hm
  have hb : body = src := by
    have := C38_body o toks s h1 f frame src body tab pts hx
    rw [ho] at this
    exact this
  subst hb
  obtain ⟨d, -, hj, -⟩ := C38 o toks s h1 f frame body body tab pts hx
  exact noBC_of hj

/-- Conditions on functions that are optimised. -/
structure Tidy (E : Env) (fn : SrcFn) : Prop where
  tame : tameS ⟨fn.cnt, fun f => !E.val f⟩ fn.body = true
  mild : Opt.mild fn.body = true
  opt : tameS ⟨fn.opt.cnt, fun f => !E.val f⟩ fn.opt.body = true
  ordered : OrderedS fn.opt.body

/-- C68 with the optimiser: the trees are those before they are optimised. -/
theorem C68_optimised (h : accept o src = some s) (h0 : 0 ∉ src) (hb : 202 ∉ src) (ho : o.opt = true) (hr : Resolves E noStack id s.tab)
    (hn : Legible id N s.tab) (hf : ∀ fn ∈ prog id o strs (s.out.map Out.written), Tidy E fn) (k : Nat) :
    (∃ x, VmProg N (compile (fun f => !E.val f) (prog id o strs s.out) k) x) ∧
      ∀ x, VmProg N (compile (fun f => !E.val f) (prog id o strs s.out) k) x → ∃ P, readVm (idText id) x = some P ∧ UniqueLabels P ∧
      ∀ new n, Calls E ext new P (evS E noStack (fun _ _ _ => false) (prog id o strs (s.out.map Out.written)) ext n) := by
  obtain ⟨toks, h1, -⟩ := accept_names h h0 hb
  rw [C65_prog h1 ho]
  have hmem : ∀ fn ∈ (prog id o strs (s.out.map Out.written)).map SrcFn.opt, ∃ g ∈ prog id o strs (s.out.map Out.written), fn = g.opt := by
    intro fn hm
    obtain ⟨g, hg, rfl⟩ := List.mem_map.1 hm
    exact ⟨g, hg, rfl⟩
  have key := C68_trees (N := N) (id := idText id) (ext := ext) (E := E) (void := fun f => !E.val f) (fun f => (Bool.not_not _).symm)
    (fun i hi => hn.ok h h0 hb i hi) (fns := (prog id o strs (s.out.map Out.written)).map SrcFn.opt)
    (fun fn hm => (by
      obtain ⟨g, hg, rfl⟩ := hmem fn hm
      exact C66_writable_opt h1 hr hg (hf g hg).tame (hf g hg).opt))
    (fun fn hm => (by
      obtain ⟨g, hg, rfl⟩ := hmem fn hm
      have hmild := (hf g hg).mild
      obtain ⟨f, frame, src, body, tab, pts, e, hx, he, rfl⟩ := mem_prog hg
      obtain ⟨x, hx, hw⟩ := List.mem_map.1 hx
      cases x with
      | data | bss => cases hw
      | func f' frame' src' body' tab' pts' =>
        cases hw
        obtain ⟨d, -, hj, -⟩ := C38 o toks s h1 f frame src body' tab pts hx
        have hj : JumpOk false (renS (nameOf id tab) src) := (jumpOk_ren src).2 hj
        revert hmild
        unfold SrcFn.opt
        dsimp only
        cases hb : Opt.optTree (renS (nameOf id tab) src) with
        | none => exact fun _ => noBC_jump hj
        | some b => exact fun hmild => noBC_jump (optTree_jump _ hb (mild_doOk hj hmild) hj))) k
  refine ⟨key.1, fun x hx => ?_⟩
  obtain ⟨P, h2, h3, h4⟩ := key.2 x hx
  refine ⟨P, h2, h3, fun new n f vs mem v mem' he => h4 new n f vs mem v mem' ?_⟩
  refine Tac.C61_order (fun fn hm => ?_) _ _ _ _ _ (Tac.C65_program (fun fn hm => (hf fn hm).mild) _ _ _ _ _ he)
  obtain ⟨g, hg, rfl⟩ := hmem fn hm
  exact (hf g hg).ordered

/-! ### Example -/

/-- What is printed for the functions of `src67`. -/
def text68 : String :=
  ".acc\n\tENTRY\t1\n\tLDC\t0\n\tSTL\t1\n\tPOP\n.L1\n\tLDL\t1\n\tLDP\t1\n\tLT\n\tJF\t.L2\n\tLDG\t.total\n\tLDC\t1\n\tGE\n\tJF\t.L2\n" ++
  "\tLDL\t1\n\tARG\n\tCALLF\t1,.sum\n\tLDG\t.total\n\tADD\n\tSTG\t.total\n\tPOP\n\tLDL\t1\n\tLDC\t1\n\tADD\n\tSTL\t1\n\tPOP\n\tJMP\t.L1\n" ++
  ".L2\n\tRET\n.sum\n\tENTRY\t0\n\tLDP\t1\n\tLDC\t1\n\tEQ\n\tJF\t.L3\n\tLDC\t1\n\tMREG\n\tJMP\t.L4\n.L3\n\tLDP\t1\n\tLDC\t1\n\tSUB\n\tARG\n" ++
  "\tCALLF\t1,.sum\n\tLDP\t1\n\tADD\n\tMREG\n.L4\n\tRET\n"

theorem vmPrinted_mapM {cnt : Int → Int} : ∀ {is : List Gen.Instr} {xs : List Text}, is.mapM (vmText N cnt) = some xs → VmPrinted N cnt is xs.flatten
  | [], xs, h => by
    simp only [List.mapM_nil] at h
    cases h
    exact .nil
  | i :: is, xs, h => by
    simp only [List.mapM_cons, Option.bind_eq_bind, Option.bind_eq_some_iff] at h
    obtain ⟨x, h1, ys, h2, h3⟩ := h
    cases h3
    exact .cons h1 (vmPrinted_mapM h2)

theorem vmProg_mapM : ∀ {fns : List Tac.Fn} {xs : List Text},
    fns.mapM (fun fn : Tac.Fn => (fn.code.mapM (vmText N fn.cnt)).map List.flatten) = some xs → VmProg N fns xs.flatten
  | [], xs, h => by
    simp only [List.mapM_nil] at h
    cases h
    exact .nil
  | fn :: fns, xs, h => by
    simp only [List.mapM_cons, Option.bind_eq_bind, Option.bind_eq_some_iff, Option.map_eq_some_iff] at h
    obtain ⟨x, ⟨y, h0, rfl⟩, ys, h2, h3⟩ := h
    cases h3
    exact .cons (vmPrinted_mapM h0) (vmProg_mapM h2)

/-- The functions of `src67`. -/
def fns68 : List SrcFn := tree64.2.reverse.filterMap fun x =>
  srcFn id64 ⟨false, false⟩ (fun _ => 0) (.func x.1 x.2.1 x.2.2.1 x.2.2.1 x.2.2.2 [])

/-- `sum(1)` is 1. -/
theorem sum68 (mem : Mem) : evS Tac.exSrcEnv noStack genSw fns68 (fun _ _ _ => none) 1 7 [1] mem = some (1, mem) := by
  refine (Tac.C61_ev_iff (fn := fns68[1]) rfl).2 ⟨rfl, fun loc => ⟨.ret (some 1), ⟨mem, loc, fun c => [1].getD c.toNat 0⟩, rfl, ?_, (if_pos rfl).mpr rfl⟩⟩
  exact .seqX (.ifT (.intro _ ⟨rfl, by rfl⟩) (.ret (vs := [1]) rfl)) (by simp)

/-- The text is accepted, all conditions are met, `text68` is printed, and on the machine the function `sum` called with 1 returns 1. -/
example : ∃ s, accept ⟨false, false⟩ src67 = some s ∧
    VmProg names66 (compile (fun f => !Tac.exSrcEnv.val f) (prog id64 ⟨false, false⟩ (fun _ => 0) s.out) 0) text68.toList ∧
    ∃ P, readVm (idText id64) text68.toList = some P ∧
      ∀ new mem, Does Tac.exSrcEnv (fun _ _ _ => none) new P 7 [1] mem 1 mem := by
  obtain ⟨ts, h1, h2⟩ := lex67
  obtain ⟨s, h, ht⟩ := run64
  obtain ⟨ht, ho⟩ := Prod.mk.inj (ht.trans (Prod.eta tree64).symm)
  have ha : accept ⟨false, false⟩ src67 = some s := by rw [accept_ok h1, h2]; exact h
  have hp : prog id64 ⟨false, false⟩ (fun _ => 0) s.out = fns68 := by rw [prog_fun64, ho]; rfl
  have hx : VmProg names66 (compile (fun f => !Tac.exSrcEnv.val f) fns68 0) text68.toList := by
    have h4 : ((compile (fun f => !Tac.exSrcEnv.val f) fns68 0).mapM fun fn : Tac.Fn =>
        (fn.code.mapM (vmText names66 fn.cnt)).map List.flatten).map List.flatten = some text68.toList := by decide +kernel
    obtain ⟨xs, h5, h6⟩ := Option.map_eq_some_iff.1 h4
    rw [← h6]
    exact vmProg_mapM h5
  obtain ⟨-, h3⟩ := C68 (E := Tac.exSrcEnv) (N := names66) (id := id64) (strs := fun _ => 0) (ext := fun _ _ _ => none) ha
    (by decide +kernel) (by decide +kernel) rfl ⟨by rw [ht]; decide +kernel, by rw [ht]; decide +kernel⟩
    (by rw [ht]; exact fun e he hs => ⟨(spelt64 e he hs).1, (spelt64 e he hs).2.2.1⟩) (by rw [hp]; decide +kernel) 0
  rw [hp] at h3
  obtain ⟨P, h4, -, h5⟩ := h3 _ hx
  refine ⟨s, ha, by rw [hp]; exact hx, P, h4, fun new mem => ?_⟩
  rcases h5 new 1 7 [1] mem 1 mem (sum68 mem) with ⟨-, h6⟩ | h6
  · cases h6
  · exact h6

/-- If a private name is `L5`, no reader can tell its address from the label 5. -/
theorem C68_label_false (i : Int) (h : N i = some (false, ['L', '5'])) (cnt : Int → Int) :
    ¬ ∃ rd : Text → Option Gen.Instr, ∀ l x, vmText N cnt l = some x → rd x = some l := by
  rintro ⟨rd, hr⟩
  have h1 := hr (.ldNam i) _ (by simp only [vmText, namTxt, h]; rfl)
  have h2 := hr (.ldLab 5) _ rfl
  have h5 : vmLabel 5 = ['.', 'L', '5'] := by decide +kernel
  rw [h5] at h2
  have h3 := h1.symm.trans h2
  cases h3

end Cmm.Parse
