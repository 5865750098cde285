import Verif.Tac.LineOk
import Verif.Props.C65

/-
C66: the characters that vm2tac.c prints. Verif/Tac/Text.lean gives the text of every line (`Line.text`, from the printf calls
of vm2tac.c) and, apart from it, a reader of assembler text (`assemble`). For every accepted program the text exists - vm2tac.c
reads its tables `regs` and `jcc` within their bounds - and it is read as the lines of the model, so what C64 and C65 say of
the lines holds of the text. That needs names that do not look like labels of the compiler: `C66_label_false`, `C66_stkChk_false`.
-/
namespace Cmm.Tac
open Cmm.Tree (Kind Expr Stmt)
open Cmm.Gen (Instr NT)
open Cmm.CText (Text)

/-! ### Conditions on trees -/

/-- Names for which `p` holds, strings whose labels are not negative, and numbered local variables. -/
def usable (p : Int → Bool) (cnt : Int → Int) (k : Kind) (n : Int) : Bool :=
  match k with
  | .glb | .addr => p n
  | .str => decide (0 ≤ n)
  | .loc => decide (1 ≤ cnt n)
  | _ => true

/-- The function and all that its tree uses have names for which `p` holds. -/
structure Writable (p : Int → Bool) (void : Int → Bool) (fn : SrcFn) : Prop where
  name : p fn.f = true
  ok : okS ⟨fn.cnt, void⟩ (usable p fn.cnt) fn.body = true

section
variable {p void : Int → Bool}

theorem comp_vmOk {fn : SrcFn} (h : Writable p void fn) (n : Nat) :
    ∀ v ∈ (fn.comp void n).1.code.map Vm.i, vmOk (p · = true) (p · = true) fn.cnt v := by
  have hz : WZ (useOk ⟨fn.cnt, void⟩ (usable p fn.cnt)) (needS fn.body) (fn.comp void n).1.body :=
    (genS_wz fn.body h.ok (Nat.le_refl _) _ _).append (wz_printLab _)
  obtain ⟨b', hz⟩ := hz false
  obtain ⟨-, -, h3, -⟩ := trail_sound hz
  intro v hv
  obtain ⟨i, hi, rfl⟩ := List.mem_map.1 hv
  have key : ∀ j, useOk ⟨fn.cnt, void⟩ (usable p fn.cnt) j = true → (∀ f, j ≠ .nam f) → insOk (p · = true) (p · = true) fn.cnt j := by
    intro j hj hn
    cases j <;> simp_all [useOk, usable, insOk]
  show insOk _ _ _ i
  unfold Fn.code at hi
  simp only [List.mem_append, List.mem_cons, List.not_mem_nil, or_false] at hi
  rcases hi with ((rfl | rfl) | hi) | rfl
  · exact h.name
  · split <;> trivial
  · refine key i (h3 i hi) fun f hf => ?_
    subst hf
    exact absurd (shapesF_inExpr _ (trail_sound hz).1 _ hi) (by simp [inExpr])
  · trivial

/-! ### The lines -/

theorem tied_append {a b : List Line} (ha : tied a = true) (hb : tied b = true) : tied (a ++ b) = true := by
  induction a with
  | nil => exact hb
  | cons l a ih =>
    cases l with
    | nam f =>
      cases a with
      | nil => cases ha
      | cons k a =>
        simp only [tied, Bool.and_eq_true] at ha
        simp only [List.cons_append, tied, Bool.and_eq_true] at ih ⊢
        exact ⟨ha.1, ih ha.2⟩
    | _ => exact ih ha

theorem tied_of {c : List Line} (h : names c = []) : tied c = true := by
  induction c with
  | nil => rfl
  | cons l c ih =>
    cases l with
    | nam f => cases h
    | _ => exact ih h

theorem entry_tied (fn : Fn) : tied fn.entryLines = true := by
  have h := (entry_labs fn).2
  unfold Fn.entryLines at h ⊢
  have h : names (frameIn fn.d ++ if fn.ker then [] else [.stkChk]) = [] := (List.cons.inj h).2
  have h2 : ∃ ls, frameIn fn.d = .push .fp :: ls := ⟨_, rfl⟩
  obtain ⟨ls, h2⟩ := h2
  have := tied_of h
  rw [h2] at this ⊢
  exact this

/-- Every name in the text is followed by an instruction. -/
theorem prog_tied {E : Env} {L : Lay} {S : Nat} (fns : List Fn) : ∀ {t0 tQ : T}, W t0 → t0.stk = [] → ProgOk E L S fns t0 →
    emitProg fns t0 = some tQ → tied t0.out = true → tied tQ.out = true := by
  induction fns with
  | nil => intro t0 tQ _ _ _ h ht; cases h; exact ht
  | cons fn fns ih =>
    intro t0 tQ w hs hp h ht
    simp only [emitProg, Option.bind_eq_some_iff] at h
    obtain ⟨t1, h1, h⟩ := h
    obtain ⟨tB, c, k1, k2, k3, k4, k5⟩ := fn_text w hs hp.1 h1
    have hx := shapesF_inExpr fn.body hp.1.shape
    obtain ⟨c2, p1, p2, -⟩ := emits_grow (fn.body.map .i) (b := false) (Fn.entered_w w hs).1 nofun hp.1.disc hp.1.counted
      (fun v hv => by
        obtain ⟨i, hi, rfl⟩ := List.mem_map.1 hv
        exact hx i hi) k1
    rw [fn.entered_out] at p1
    have e2 : c2 = c := List.append_cancel_left (p1.symm.trans k2)
    subst e2
    have hnam : names c2 = [] := by
      unfold names
      rw [List.filterMap_eq_nil_iff]
      intro l hl
      have := p2 l hl
      cases l <;> first | rfl | exact absurd this (by simp [Plain])
    refine ih k4 k5 (hp.2 t1 h1) h ?_
    rw [k3, k2]
    exact tied_append (tied_append (tied_append ht (entry_tied fn)) (tied_of hnam)) (tied_of (exit_labs fn.d).2)

theorem prog_lw : ∀ (fns : List SrcFn) (k : Nat) {t tQ : T}, (∀ fn ∈ fns, Writable p void fn) →
    LW (p · = true) (p · = true) t → emitProg (compile void fns k) t = some tQ → LW (p · = true) (p · = true) tQ := by
  intro fns
  induction fns with
  | nil => intro k t tQ _ w h; cases h; exact w
  | cons fn fns ih =>
    intro k t tQ ho w h
    simp only [compile, emitProg, Option.bind_eq_some_iff] at h
    obtain ⟨t1, h1, h⟩ := h
    exact ih _ (fun fn hf => ho fn (List.mem_cons_of_mem _ hf))
      (emits_lw w (comp_vmOk (ho fn (List.mem_cons_self ..)) k) h1) h

/-- The lines of a program have existing registers, and names are on the line of an instruction. -/
theorem C66_lines {E : Env} {L : Lay} {S : Nat} {fns : List SrcFn} (hval : ∀ f, E.val f = !void f)
    (hs : ∀ fn ∈ fns, Sound E L void S fn) (hw : ∀ fn ∈ fns, Writable p void fn) {k : Nat} {tQ : T}
    (he : emitProg (compile void fns k) T.init = some tQ) :
    tied tQ.out = true ∧ ∀ l ∈ tQ.out, l.Ok (p · = true) (p · = true) :=
  ⟨prog_tied _ W.init rfl (compile_ok hval fns k _ (fun fn h => (hs fn h).src) (C63_fitsAll fns k _ hs rest_init)) he rfl,
    (prog_lw fns k hw init_lw he).out⟩

/-- The text of a program exists and is read as its lines. -/
theorem C66_text {E : Env} {L : Lay} {S : Nat} {fns : List SrcFn} (hval : ∀ f, E.val f = !void f)
    (hs : ∀ fn ∈ fns, Sound E L void S fn) (hw : ∀ fn ∈ fns, Writable p void fn) {k : Nat} {tQ : T}
    (he : emitProg (compile void fns k) T.init = some tQ) {N : Int → Option Sym} {id : Sym → Int}
    (hp : ∀ i, p i = true → NameOk N id i ∧ N i ≠ some chkSym) :
    (∃ x, Printed N tQ.out x) ∧ ∀ x, Printed N tQ.out x → assemble id x = some tQ.out := by
  obtain ⟨h1, h2⟩ := C66_lines hval hs hw he
  have h3 : ∀ l ∈ tQ.out, l.Ok (NameOk N id) (p · = true) := fun l hl => (h2 l hl).mono fun i hi => (hp i hi).1
  exact ⟨printed_some h3, fun x hx => assemble_printed (fun i hi => (hp i hi).2) hx h1 h3⟩

end
end Cmm.Tac

namespace Cmm.Parse
open Cmm.Tree (Expr Stmt)
open Cmm.Gen (genSw)
open Cmm.Tac
open Cmm.CText (Text)

/-! ### Accepted programs -/

/-- The symbol that stands for an entry of the name table: vm2tac.c prints getPref and ntGetName. -/
def sym (l : Label) : Sym := (l.1, l.2.toList)

/-- The numbers of symbols. -/
def idText (id : Label → Int) (s : Sym) : Int := id (s.1, String.ofList s.2)

/-- Functions and global variables are printed by name. The names have letters, digits and `_` only (as the lexer makes them);
those that are not public do not look like labels of the compiler, and the public ones are not that of the stack check. -/
def Spelt (id : Label → Int) (N : Int → Option Sym) (t : Tab) : Prop :=
  ∀ e ∈ t, IsFun e.scope ∨ IsVar e.scope →
    N (id e.label) = some (sym e.label) ∧ Letters e.name.toList ∧ Plainly (sym e.label) ∧ sym e.label ≠ chkSym

/-- The numbers of functions and global variables of a table. -/
def known (id : Label → Int) (t : Tab) (i : Int) : Bool :=
  t.any fun e => decide (IsFun e.scope ∨ IsVar e.scope) && decide (id e.label = i)

variable {o : Opts} {toks : List Tok} {s : PS} {E : Env} {L : Lay} {S : Nat} {id : Label → Int} {strs : String → Nat}
  {N : Int → Option Sym}

theorem known_iff {t : Tab} {i : Int} : known id t i = true ↔ ∃ e ∈ t, (IsFun e.scope ∨ IsVar e.scope) ∧ id e.label = i := by
  simp [known]

theorem Spelt.ok {t : Tab} (h : Spelt id N t) (i : Int) (hi : known id t i = true) :
    NameOk N (idText id) i ∧ N i ≠ some chkSym := by
  obtain ⟨e, he, hs, rfl⟩ := known_iff.1 hi
  obtain ⟨h1, h2, h3, h4⟩ := h e he hs
  refine ⟨⟨_, h1, ?_, h2, h3⟩, ?_⟩
  · simp [idText, sym, Ent.label]
  · rw [h1]; exact fun h => h4 (Option.some.inj h)

theorem known_of {f frame : Nat} {src body : Stmt} {tab : Tab} {pts : List Tab} (hn : Named s.tab (.func f frame src body tab pts))
    {d : Ent} (hd : d ∈ tab) (hs : IsFun d.scope ∨ IsVar d.scope) : known id s.tab (id d.label) = true := by
  obtain ⟨d', h1, h2, h0, h3, h4, h5, h6, -⟩ := hn d hd hs
  refine known_iff.2 ⟨d', h1, ?_, by rw [Ent.label, Ent.label, h0, h2]⟩
  rcases hs with hs | hs
  · exact .inl (h5 hs).1
  · exact .inr (h6 hs)

theorem told_usable {f frame : Nat} {src body : Stmt} {tab : Tab} {pts : List Tab} {e : Ent}
    (hn : Named s.tab (.func f frame src body tab pts)) (hr : Resolves E L id s.tab) :
    Told ⟨(ntOf tab).cnt, fun f => !E.val f⟩ (nameOf id tab) (usable (known id s.tab) (ntOf tab).cnt) tab frame e.cnt := by
  have h0 := told_of (o := ⟨false, false⟩) (strs := fun _ => 0) (e := e) hn hr
  refine ⟨h0.fn, fun n d hd hs => ?_, fun n d hd h1 h2 => ?_, fun _ _ _ _ => rfl, fun n hn => decide_eq_true hn, fun n d hd hs => ?_⟩
  · rw [nameOf_get hd]; exact known_of hn (List.mem_of_getElem? hd) (.inr hs)
  · simp [usable, ntOf, hd]; omega
  · rw [nameOf_get hd]; exact known_of hn (List.mem_of_getElem? hd) hs

/-- Functions of accepted programs use names of the table only. -/
theorem C66_writable (h : getSrc o (start toks) = some s) (ho : o.opt = false) (hr : Resolves E L id s.tab) {fn : SrcFn}
    (hm : fn ∈ prog id o strs s.out) (hf : tameS ⟨fn.cnt, fun f => !E.val f⟩ fn.body = true) :
    Writable (known id s.tab) (fun f => !E.val f) fn := by
  obtain ⟨f, frame, src, body, tab, pts, e, hx, he, rfl⟩ := mem_prog hm
  have hb : body = src := by
    have := C38_body o toks s h f frame src body tab pts hx
    rw [ho] at this
    exact this
  subst hb
  obtain ⟨d, h1, h2, h3, h4⟩ := treeOk_of h hx
  rw [he] at h1
  cases h1
  have hn := ((nam_inv o).final h).2.named _ hx
  exact ⟨known_of hn (List.mem_of_getElem? he) (.inl (.inr h2)),
    h4 _ _ _ (told_usable hn hr) hf⟩

variable {X : Nat} {ext : Int → List Word → Mem → Option (Word × Mem)} {A : Nat → Word}

/-- C66: the text that the compiler prints for an accepted program, read by an assembler, does what the trees mean. -/
theorem C66 (h : getSrc o (start toks) = some s) (ho : o.opt = false) (hr : Resolves E L id s.tab) (hn : Spelt id N s.tab)
    (hf : ∀ fn ∈ prog id o strs s.out, Fair E S fn)
    (hz : L.size < 65535) (hX : 2 ≤ X) (hchk : ChkAt E L X) (hext : ExtOk E L X ext) (hdv : DivOk E) (k : Nat) :
    ∃ tQ, emitProg (compile (fun f => !E.val f) (prog id o strs s.out) k) T.init = some tQ ∧ (∃ x, Printed N tQ.out x) ∧
      ∀ x, Printed N tQ.out x → ∃ Q, assemble (idText id) x = some Q ∧
      ∀ {rest : List Line} {n : Nat} {f : Int} {vs : List Word} {v : Word} {mem' : Mem} {pc : Nat} {m : M} {x : Int},
      evS E L genSw (prog id o strs s.out) ext n f vs (L.clean m.mem) = some (v, mem') →
      (Q ++ rest)[pc]? = some (.call f) → Ready L vs m x → ((n * S + X : Nat) : Int) ≤ x →
      ∃ m', FSteps E A (Q ++ rest) ⟨pc, m⟩ ⟨pc + 1, m'⟩ ∧ Returns L (E.val f) v mem' (x + 2 * vs.length) m m' := by
  obtain ⟨tQ, h1, h2⟩ := C64 (A := A) h ho hr hf hz hX hchk hext hdv k rest_init
  obtain ⟨h3, h4⟩ := C66_text (fun f => (Bool.not_not _).symm) (fun _ hm => C64_sound h ho hr hm (hf _ hm))
    (fun _ hm => C66_writable h ho hr hm (hf _ hm).tame) h1 hn.ok
  exact ⟨tQ, h1, h3, fun x hx => ⟨_, h4 x hx, h2⟩⟩

/-- The same for trees that are optimised. -/
theorem C66_writable_opt (h : getSrc o (start toks) = some s) (hr : Resolves E L id s.tab) {fn : SrcFn}
    (hm : fn ∈ prog id o strs (s.out.map Out.written)) (hf : tameS ⟨fn.cnt, fun f => !E.val f⟩ fn.body = true)
    (ht : tameS ⟨fn.opt.cnt, fun f => !E.val f⟩ fn.opt.body = true) : Writable (known id s.tab) (fun f => !E.val f) fn.opt := by
  obtain ⟨f, frame, src, body, tab, pts, e, hx, he, rfl⟩ := mem_prog hm
  obtain ⟨x, hx, hw⟩ := List.mem_map.1 hx
  cases x with
  | data | bss => cases hw
  | func f' frame' src' body' tab' pts' =>
    cases hw
    obtain ⟨d, h1, h2, h3, h4⟩ := treeOk_of h hx
    rw [he] at h1
    cases h1
    have hn := ((nam_inv o).final h).2.named _ hx
    have hok := h4 _ _ _ (told_usable hn hr) hf
    refine ⟨known_of hn (List.mem_of_getElem? he) (.inl (.inr h2)), ?_⟩
    revert ht
    unfold SrcFn.opt
    dsimp only
    cases hb : Opt.optTree (renS (nameOf id tab) src) with
    | none => exact fun _ => hok
    | some b => exact fun ht => Opt.optTree_ok hb hok ht

/-- C66 with the optimiser: the trees are those before they are optimised. -/
theorem C66_optimised (h : getSrc o (start toks) = some s) (ho : o.opt = true) (hr : Resolves E L id s.tab) (hn : Spelt id N s.tab)
    (hf : ∀ fn ∈ prog id o strs (s.out.map Out.written), FairO E S fn)
    (hz : L.size < 65535) (hX : 2 ≤ X) (hchk : ChkAt E L X) (hext : ExtOk E L X ext) (hdv : DivOk E) (k : Nat) :
    ∃ tQ, emitProg (compile (fun f => !E.val f) (prog id o strs s.out) k) T.init = some tQ ∧ (∃ x, Printed N tQ.out x) ∧
      ∀ x, Printed N tQ.out x → ∃ Q, assemble (idText id) x = some Q ∧
      ∀ {rest : List Line} {n : Nat} {f : Int} {vs : List Word} {v : Word} {mem' : Mem} {pc : Nat} {m : M} {x : Int},
      evS E L (fun _ _ _ => false) (prog id o strs (s.out.map Out.written)) ext n f vs (L.clean m.mem) = some (v, mem') →
      (Q ++ rest)[pc]? = some (.call f) → Ready L vs m x → ((n * S + X : Nat) : Int) ≤ x →
      ∃ m', FSteps E A (Q ++ rest) ⟨pc, m⟩ ⟨pc + 1, m'⟩ ∧ Returns L (E.val f) v mem' (x + 2 * vs.length) m m' := by
  obtain ⟨tQ, h1, h2⟩ := C65 (A := A) h ho hr hf hz hX hchk hext hdv k rest_init
  rw [C65_prog h ho] at h1
  obtain ⟨h3, h4⟩ := C66_text (fun f => (Bool.not_not _).symm)
    (fun fn hm => (by obtain ⟨fn, hm', rfl⟩ := List.mem_map.1 hm; exact C65_sound h hr hm' (hf _ hm')))
    (fun fn hm => (by obtain ⟨fn, hm', rfl⟩ := List.mem_map.1 hm; exact C66_writable_opt h hr hm' (hf _ hm').tame (hf _ hm').fair.tame)) h1 hn.ok
  rw [C65_prog h ho]
  exact ⟨tQ, h1, h3, fun x hx => ⟨_, h4 x hx, h2⟩⟩

/-! ### What is false

getPref (vm2tac.c:102-105) gives `.` for names that are not public, and the labels of the compiler are `.L` and a number too
(vm2tac.c:290 and others); the stack check is called as `__stkChk` (vm2tac.c:353). -/

/-- If a private name is `L5`, no reader can tell its address from the label 5. -/
theorem C66_label_false (i : Int) (h : N i = some (false, ['L', '5'])) :
    ¬ ∃ rd : Text → Option Line, ∀ l x, l.text N = some x → rd x = some l := by
  rintro ⟨rd, hr⟩
  have h1 := hr (.op .LD (.g 3) (.nam i)) _ (by simp only [Line.text, Src.text, namTxt, h]; rfl)
  have h2 := hr (.op .LD (.g 3) (.lab 5)) _ rfl
  have h5 : CText.decI 5 = ['5'] := by decide +kernel
  rw [h5] at h2
  have h3 := h1.symm.trans h2
  cases h3

/-- If a public name is `_stkChk`, no reader can tell a call of it from the stack check. -/
theorem C66_stkChk_false (i : Int) (h : N i = some (true, "_stkChk".toList)) :
    ¬ ∃ rd : Text → Option Line, ∀ l x, l.text N = some x → rd x = some l := by
  rintro ⟨rd, hr⟩
  have h1 := hr (.call i) _ (by simp only [Line.text, namTxt, h]; rfl)
  have h2 := hr .stkChk _ rfl
  have h3 := h1.symm.trans h2
  cases h3

/-! ### Example -/

/-- The names of `prog64`. -/
def names66 (i : Int) : Option Sym :=
  if i = 3 then some (false, "total".toList) else if i = 7 then some (false, "sum".toList)
  else if i = 8 then some (false, "acc".toList) else none

/-- What is printed for the functions of `prog64`. -/
def text66 : String :=
  ".acc\tPUSH\tFP\n\tLD\tFP,SP\n\tPUSH\tG3\n\tCALL\t__stkChk\n\tLD\tG3,#0\n.L1\n\tCMP\tG3,4,FP\n\tJGE\t.L2\n" ++
  "\tLD\tG0,.total\n\tCMP\tG0,#1\n\tJLT\t.L2\n\tPUSH\tG3\n\tCALL\t.sum\n\tADD\tSP,#2\n\tADD\tG0,.total\n" ++
  "\tST\tG0,.total\n\tLD\tG0,G3\n\tADD\tG0,#1\n\tLD\tG3,G0\n\tJMP\t.L1\n.L2\n\tPOP\tG3\n\tPOP\tFP\n\tRET\n" ++
  ".sum\tPUSH\tFP\n\tLD\tFP,SP\n\tCALL\t__stkChk\n\tLD\tG0,4,FP\n\tCMP\tG0,#1\n\tJNZ\t.L3\n\tLD\tG0,#1\n\tJMP\t.L4\n" ++
  ".L3\n\tLD\tG0,4,FP\n\tSUB\tG0,#1\n\tPUSH\tG0\n\tCALL\t.sum\n\tADD\tSP,#2\n\tADD\tG0,4,FP\n.L4\n\tPOP\tFP\n\tRET\n"

theorem printed_mapM : ∀ {ls : List Line} {xs : List Text}, ls.mapM (Line.text N) = some xs → Printed N ls xs.flatten
  | [], xs, h => by
    simp only [List.mapM_nil] at h
    cases h
    exact .nil
  | l :: ls, xs, h => by
    simp only [List.mapM_cons, Option.bind_eq_bind, Option.bind_eq_some_iff] at h
    obtain ⟨x, hx, ys, hy, h⟩ := h
    cases h
    exact .cons (.inl hx) (printed_mapM hy)

theorem letters_of {x : Text} (h : (x.all fun c => c.isAlphanum || decide (c = '_')) = true) : Letters x := by
  intro c hc
  simpa using List.all_eq_true.1 h c hc

theorem plainly_of {s : Sym} (h : s.2.head? ≠ some 'L' ∧ s.2.head? ≠ some 'T') : Plainly s := by
  rintro - n
  exact ⟨fun hc => h.1 (by rw [hc]; rfl), fun hc => h.2 (by rw [hc]; rfl)⟩

theorem spelt64 : Spelt id64 names66 tree64.1 := by
  have h1 : ∀ e ∈ tree64.1, IsFun e.scope ∨ IsVar e.scope → names66 (id64 e.label) = some (sym e.label) ∧
      (e.name.toList.all fun c => c.isAlphanum || decide (c = '_')) = true ∧
      ((sym e.label).2.head? ≠ some 'L' ∧ (sym e.label).2.head? ≠ some 'T') ∧ sym e.label ≠ chkSym := by decide +kernel
  intro e he hs
  obtain ⟨k1, k2, k3, k4⟩ := h1 e he hs
  exact ⟨k1, letters_of k2, plainly_of k3, k4⟩

/-- The program of C64 is accepted, `text66` is printed for it, and that is read as the lines that C64 is about. -/
theorem run66 : ∃ s, getSrc ⟨false, false⟩ (start prog64) = some s ∧ Spelt id64 names66 s.tab ∧
    ∃ tQ, emitProg (compile (fun f => !Tac.exSrcEnv.val f) (prog id64 ⟨false, false⟩ (fun _ => 0) s.out) 0) T.init = some tQ ∧
      Printed names66 tQ.out text66.toList ∧ assemble (idText id64) text66.toList = some tQ.out := by
  obtain ⟨s, h, ht⟩ := run64
  obtain ⟨ht, ho⟩ := Prod.mk.inj (ht.trans (Prod.eta tree64).symm)
  have hf : ∀ fn ∈ prog id64 ⟨false, false⟩ (fun _ => 0) s.out, Fair Tac.exSrcEnv 20 fn := by
    intro fn hm
    rw [prog_fun64, ho] at hm
    have h1 : ∀ fn ∈ tree64.2.reverse.filterMap fun x =>
        srcFn id64 ⟨false, false⟩ (fun _ => 0) (.func x.1 x.2.1 x.2.2.1 x.2.2.1 x.2.2.2 []),
        tameS ⟨fn.cnt, fun f => !Tac.exSrcEnv.val f⟩ fn.body = true ∧ needS fn.body ≤ 20 ∧ mulS fn.body = true ∧
        fitS fn.cnt fn.body = true ∧ 4 + memLocals fn.d + 2 * saved fn.d + 2 * needS fn.body ≤ 20 := by decide +kernel
    obtain ⟨h1, h2, h3, h4, h5⟩ := h1 fn hm
    exact ⟨h1, h2, h3, h4, h5⟩
  obtain ⟨tQ, h1, -, h3⟩ := C66 (A := fun _ => 0) (N := names66) (S := 20) (X := 2) (E := Tac.exSrcEnv) (L := Tac.sumLay)
    (id := id64) (strs := fun _ => 0) (ext := fun _ _ _ => none) h rfl
    ⟨by rw [ht]; decide +kernel, by rw [ht]; decide +kernel⟩ (by rw [ht]; exact spelt64) hf (by decide) (by decide)
    (fun m x _ _ _ => ⟨{ m with g := Tac.setG m.g 0 0 }, rfl, rfl, rfl, fun r hr => by simp [Tac.setG, hr], fun _ _ _ => rfl⟩)
    (fun _ _ _ _ _ _ h => by cases h) (fun _ _ _ => ⟨rfl, rfl⟩) 0
  have hp : Printed names66 tQ.out text66.toList := by
    have h4 : (emitProg (compile (fun f => !Tac.exSrcEnv.val f) (tree64.2.reverse.filterMap fun x =>
        srcFn id64 ⟨false, false⟩ (fun _ => 0) (.func x.1 x.2.1 x.2.2.1 x.2.2.1 x.2.2.2 [])) 0) T.init).bind
          (fun t => (t.out.mapM (Line.text names66)).map List.flatten) = some text66.toList := by decide +kernel
    rw [prog_fun64, ho] at h1
    rw [h1] at h4
    simp only [Option.bind_some, Option.map_eq_some_iff] at h4
    obtain ⟨xs, h5, h6⟩ := h4
    rw [← h6]
    exact printed_mapM h5
  obtain ⟨Q, h5, -⟩ := h3 _ hp
  have hs : Spelt id64 names66 s.tab := by rw [ht]; exact spelt64
  refine ⟨s, h, hs, tQ, h1, hp, ?_⟩
  exact (C66_text (fun f => (Bool.not_not _).symm) (fun _ hm => C64_sound (E := Tac.exSrcEnv) (L := Tac.sumLay) h rfl ⟨by rw [ht]; decide +kernel, by rw [ht]; decide +kernel⟩ hm (hf _ hm))
    (fun _ hm => C66_writable (E := Tac.exSrcEnv) (L := Tac.sumLay) h rfl ⟨by rw [ht]; decide +kernel, by rw [ht]; decide +kernel⟩ hm (hf _ hm).tame) h1 hs.ok).2 _ hp

/-- A table with a private name `L5`, and one with a public `_stkChk`. -/
example : (∃ N : Int → Option Sym, ∃ i, N i = some (false, ['L', '5'])) ∧
    ∃ N : Int → Option Sym, ∃ i, N i = some (true, "_stkChk".toList) :=
  ⟨⟨fun _ => some (false, ['L', '5']), 0, rfl⟩, fun _ => some (true, "_stkChk".toList), 0, rfl⟩

end Cmm.Parse
