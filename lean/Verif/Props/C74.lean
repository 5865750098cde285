import Verif.Tac.IcText
import Verif.Props.C68
import Verif.Props.C69

/-
C74: the third back end, src/vm2ic.c, which prints the calls of the functions of vm.h. From its text the calls can be read back: the text
determines them, apart from the indices of local variables and parameters, in place of which it has their numbers. The instructions read
are those that the text of vm2vm.c stands for, and do what the trees of the program mean.
-/
namespace Cmm.Tac
open Cmm.CText (Text)
open Cmm.Gen (Instr Dir genSw NoBC UniqueLabels)

variable {cnt cnt' : Int → Int}

/-- C74: every list of calls is printed and read back. Strings are in one line. -/
theorem C74 {cs : List Call} (hc : ∀ c ∈ cs, c.Ok) : ∃ x, icText cnt cs = some x ∧ readIc x = some (cs.map (Call.seen cnt)) := by
  obtain ⟨x, h⟩ := icText_some (cnt := cnt) hc
  refine ⟨x, h, ?_⟩
  have := readIc_append h hc (y := []) (ds := []) rfl
  simpa using this

/-- What is printed for the parts of a program: the calls for each function or variable, with the name table of that time. -/
def icParts : List ((Int → Int) × List Call) → Option Text
  | [] => some []
  | (cnt, cs) :: ps => (icText cnt cs).bind fun x => (icParts ps).map fun xs => x ++ xs

/-- C74 for whole programs. -/
theorem C74_parts {ps : List ((Int → Int) × List Call)} (hp : ∀ p ∈ ps, ∀ c ∈ p.2, c.Ok) :
    ∃ x, icParts ps = some x ∧ readIc x = some (ps.flatMap fun p => p.2.map (Call.seen p.1)) := by
  induction ps with
  | nil => exact ⟨[], rfl, rfl⟩
  | cons p ps ih =>
    obtain ⟨xs, h1, h2⟩ := ih fun q hq => hp q (by simp [hq])
    obtain ⟨x, h3⟩ := icText_some (cnt := p.1) (hp p (by simp))
    exact ⟨x ++ xs, by rw [icParts, h3, h1]; rfl, readIc_append h3 (hp p (by simp)) h2⟩

/-- The text determines the calls. -/
theorem C74_determined {cs ds : List Call} (hc : ∀ c ∈ cs, c.Ok) (hd : ∀ d ∈ ds, d.Ok) {x : Text} (h : icText cnt cs = some x)
    (h' : icText cnt' ds = some x) : cs.map (Call.seen cnt) = ds.map (Call.seen cnt') := by
  obtain ⟨y, h1, h2⟩ := C74 (cnt := cnt) hc
  obtain ⟨z, h3, h4⟩ := C74 (cnt := cnt') hd
  rw [h] at h1
  rw [h'] at h3
  cases h1
  cases h3
  rw [h2] at h4
  exact Option.some.inj h4

/-- A label and its address, a parameter and a local variable, a call with value and one without, and data of all kinds. -/
example : ∃ x, icText (· + 4) [.dir (.lab 1), .dir (.str "a(\"b, )"), .dir (.nam 0), .dir (.dwLab 1), .vm (.i (.nam 2)), .vm (.i (.entry 3)),
      .vm (.i (.ldP (-4))), .vm (.i (.stL 2)), .vm (.i (.callF 2 7)), .vm (.boolOR 3 none 4), .vm (.boolAND 5 (some 6) 7)] = some x ∧
    x = ("vmLab(1)\nvmStr(\"a(\"b, )\")\nvmNam(0)\nvmDwLab(1)\nvmNam(2)\nvmEntry(3)\nvmLdPrm(1)\nvmStLoc(6)\nvmCallF(2, 7)\n" ++
      "vmBoolOR(3, -1, 4)\nvmBoolAND(5, 6, 7)\n").toList ∧
    readIc x = some [.vm (.i (.lab 1)), .dir (.str "a(\"b, )"), .vm (.i (.nam 0)), .dir (.dwLab 1), .vm (.i (.nam 2)), .vm (.i (.entry 3)),
      .vm (.i (.ldP 0)), .vm (.i (.stL 6)), .vm (.i (.callF 2 7)), .vm (.boolOR 3 none 4), .vm (.boolAND 5 (some 6) 7)] :=
  ⟨_, rfl, by decide +kernel, by decide +kernel⟩

/-- A string with a newline in it could be taken for a call: the condition on strings is needed. -/
theorem C74_newline_false : ∃ cs ds : List Call, icText (fun n => n) cs = icText (fun n => n) ds ∧ icText (fun n => n) cs ≠ none ∧
    cs.map (Call.seen fun n => n) ≠ ds.map (Call.seen fun n => n) :=
  ⟨[.dir (.str "a\")\nvmStr(\"b")], [.dir (.str "a"), .dir (.str "b")], by decide +kernel, by decide +kernel, by decide +kernel⟩

/-! ### The instructions -/

/-- What the macro instructions stand for (vm2vm.c:352-379). -/
def Vm.expand : Vm → List Instr
  | .i j => [j]
  | .boolOR a b c => Gen.boolMacro 1 (some a) b c
  | .boolAND a b c => Gen.boolMacro 0 (some a) b c

/-- The instructions that calls generate. -/
def codeOf : List Call → List Instr
  | [] => []
  | .vm v :: cs => v.expand ++ codeOf cs
  | .dir _ :: cs => codeOf cs

/-- What is printed for the functions of a program: calls that generate their code. The names have the numbers of the code, one for each
name; the C program prints indices of the name table, which are other numbers if a name is declared more than once (C74_index_false). -/
inductive IcProg : List Fn → Text → Prop
  | nil : IcProg [] []
  | cons {fn fns} {vs : List Vm} {x xs} : vs.flatMap Vm.expand = fn.code → icText fn.cnt (vs.map Call.vm) = some x → IcProg fns xs →
      IcProg (fn :: fns) (x ++ xs)

theorem expand_seen (v : Vm) : ∃ w, (Call.vm v).seen cnt = .vm w ∧ w.expand = v.expand.map (slot cnt) := by
  cases v with
  | i i => exact ⟨_, rfl, rfl⟩
  | boolOR a b c | boolAND a b c => exact ⟨_, rfl, by cases b <;> rfl⟩

theorem codeOf_seen (vs : List Vm) (cs : List Call) :
    codeOf (((vs.map Call.vm).map (Call.seen cnt)) ++ cs) = (vs.flatMap Vm.expand).map (slot cnt) ++ codeOf cs := by
  induction vs with
  | nil => rfl
  | cons v vs ih =>
    obtain ⟨w, h1, h2⟩ := expand_seen (cnt := cnt) v
    simp only [List.map_cons, List.cons_append, h1, codeOf, ih, h2, List.flatMap_cons, List.map_append, List.append_assoc]

theorem ok_of_expand {vs : List Vm} (h : Instr.bug ∉ vs.flatMap Vm.expand) : ∀ c ∈ vs.map Call.vm, c.Ok := by
  intro c hc
  obtain ⟨v, hv, rfl⟩ := List.mem_map.1 hc
  cases v with
  | i i =>
    cases i with
    | bug => exact h (List.mem_flatMap.2 ⟨_, hv, List.mem_singleton.2 rfl⟩)
    | _ => trivial
  | _ => trivial

/-- The code of a program is read from the text of vm2ic.c. -/
theorem C74_code {fns : List Fn} {x : Text} (h : IcProg fns x) (hb : ∀ fn ∈ fns, Instr.bug ∉ fn.code) :
    ∃ cs, readIc x = some cs ∧ codeOf cs = vmCode fns := by
  induction h with
  | nil => exact ⟨[], rfl, rfl⟩
  | @cons fn fns vs x xs h1 h2 _ ih =>
    obtain ⟨cs, h3, h4⟩ := ih fun g hg => hb g (by simp [hg])
    refine ⟨_, readIc_append h2 (ok_of_expand (by rw [h1]; exact hb fn (by simp))) h3, ?_⟩
    rw [codeOf_seen, h1, h4]
    rfl

theorem expand_map (is : List Instr) : (is.map Vm.i).flatMap Vm.expand = is := by
  induction is with
  | nil => rfl
  | cons i is ih => rw [List.map_cons, List.flatMap_cons, ih]; rfl

theorem icProg_parts : ∀ {fns : List Fn} {x : Text}, icParts (fns.map fun fn => (fn.cnt, (fn.code.map Vm.i).map Call.vm)) = some x → IcProg fns x
  | [], x, h => by cases h; exact .nil
  | fn :: fns, x, h => by
    rw [List.map_cons, icParts] at h
    obtain ⟨y, h1, h2⟩ := Option.bind_eq_some_iff.1 h
    obtain ⟨z, h3, rfl⟩ := Option.map_eq_some_iff.1 h2
    exact .cons (expand_map _) h1 (icProg_parts h3)

theorem icProg_ex {fns : List Fn} (hb : ∀ fn ∈ fns, Instr.bug ∉ fn.code) : ∃ x, IcProg fns x := by
  induction fns with
  | nil => exact ⟨_, .nil⟩
  | cons fn fns ih =>
    obtain ⟨xs, h⟩ := ih fun g hg => hb g (by simp [hg])
    obtain ⟨x, h1⟩ := icText_some (cnt := fn.cnt) (ok_of_expand (by rw [expand_map]; exact hb fn (by simp)))
    exact ⟨_, .cons (expand_map _) h1 h⟩

/-- The two back ends agree: whatever is read from the text of vm2vm.c is what the text of vm2ic.c says. -/
theorem C74_agree {N : Int → Option Sym} {id : Sym → Int} {fns : List Fn} {x y : Text} (hx : VmProg N fns x) (hy : IcProg fns y)
    (hi : ∀ fn ∈ fns, ∀ i ∈ fn.code, vmFit (NameOk N id) i) : ∃ cs, readIc y = some cs ∧ readVm id x = some (codeOf cs) := by
  obtain ⟨cs, h1, h2⟩ := C74_code hy fun fn hm hc => hi fn hm _ hc
  exact ⟨cs, h1, by rw [readVm_prog hx hi, h2]⟩

section
variable {E : Env} {ext : Int → List Cmm.Word → Mem → Option (Cmm.Word × Mem)} {void : Int → Bool} {p : Int → Bool}

/-- C74 for programs of trees: names need not be written in a special way, as the text has their indices only. -/
theorem C74_trees {fns : List SrcFn} (hval : ∀ f, E.val f = !void f) (hw : ∀ fn ∈ fns, Writable p void fn) (hb : ∀ fn ∈ fns, NoBC fn.body)
    (k : Nat) : (∃ x, IcProg (compile void fns k) x) ∧ ∀ x, IcProg (compile void fns k) x → ∃ cs, readIc x = some cs ∧
      UniqueLabels (codeOf cs) ∧ ∀ new n, Calls E ext new (codeOf cs) (evS E noStack genSw fns ext n) := by
  have hc : ∀ g ∈ compile void fns k, BodyOk E g.body ∧ Instr.bug ∉ g.code := by
    intro g hg
    obtain ⟨fn, hm, n, rfl⟩ := compile_mem hg
    obtain ⟨h1, h2⟩ := comp_vm (E := E) (hw fn hm) hval n
    exact ⟨h1, fun hi => h2 _ hi⟩
  refine ⟨icProg_ex fun g hg => (hc g hg).2, fun x hx => ?_⟩
  obtain ⟨cs, h1, h2⟩ := C74_code hx fun g hg => (hc g hg).2
  refine ⟨cs, h1, by rw [h2]; exact vmCode_unique hb k, fun new n => ?_⟩
  rw [h2]
  intro f vs mem v mem' he
  exact ev_calls (fun g hg => (hc g hg).1) n f vs mem v mem'
    (stack_code k (fun fn hm => ⟨hb fn hm, _, (hw fn hm).ok⟩) n f vs mem _ he)

end

end Cmm.Tac

namespace Cmm.Parse
open Cmm.CText (Text)
open Cmm.Gen (Dir DT genSw UniqueLabels genStr dataLabs Rep)
open Cmm.Tac

variable {o : Opts} {src : List Nat} {s : PS} {E : Env} {id : Label → Int} {strs : String → Nat}
  {ext : Int → List Word → Mem → Option (Word × Mem)}

/-- C74 for source texts: the text that the compiler with the back end vm2ic.c prints for the functions of an accepted source text is a list of
calls whose code does what the trees of the program mean. Conditions are that && and || are used in conditions only (`tameS`). -/
theorem C74_program (h : accept o src = some s) (h0 : 0 ∉ src) (hb : 202 ∉ src) (ho : o.opt = false) (hr : Resolves E noStack id s.tab)
    (hf : ∀ fn ∈ prog id o strs s.out, tameS ⟨fn.cnt, fun f => !E.val f⟩ fn.body = true) (k : Nat) :
    (∃ x, IcProg (compile (fun f => !E.val f) (prog id o strs s.out) k) x) ∧
      ∀ x, IcProg (compile (fun f => !E.val f) (prog id o strs s.out) k) x → ∃ cs, readIc x = some cs ∧ UniqueLabels (codeOf cs) ∧
      ∀ new n, Calls E ext new (codeOf cs) (evS E noStack genSw (prog id o strs s.out) ext n) := by
  obtain ⟨toks, h1, -⟩ := accept_names h h0 hb
  refine C74_trees (fun f => (Bool.not_not _).symm) (fun fn hm => C66_writable h1 ho hr hm (hf fn hm)) (fun fn hm => ?_) k
  obtain ⟨f, frame, src, body, tab, pts, e, hx, he, rfl⟩ := mem_prog hm
  have hb : body = src := by
    have := C38_body o toks s h1 f frame src body tab pts hx
    rw [ho] at this
    exact this
  subst hb
  obtain ⟨d, -, hj, -⟩ := C38 o toks s h1 f frame body body tab pts hx
  exact noBC_of hj

/-- C74 with the optimiser: the trees are those before they are optimised. -/
theorem C74_optimised (h : accept o src = some s) (h0 : 0 ∉ src) (hb : 202 ∉ src) (ho : o.opt = true) (hr : Resolves E noStack id s.tab)
    (hf : ∀ fn ∈ prog id o strs (s.out.map Out.written), Tidy E fn) (k : Nat) :
    (∃ x, IcProg (compile (fun f => !E.val f) (prog id o strs s.out) k) x) ∧
      ∀ x, IcProg (compile (fun f => !E.val f) (prog id o strs s.out) k) x → ∃ cs, readIc x = some cs ∧ UniqueLabels (codeOf cs) ∧
      ∀ new n, Calls E ext new (codeOf cs) (evS E noStack (fun _ _ _ => false) (prog id o strs (s.out.map Out.written)) ext n) := by
  obtain ⟨toks, h1, -⟩ := accept_names h h0 hb
  rw [C65_prog h1 ho]
  have hmem : ∀ fn ∈ (prog id o strs (s.out.map Out.written)).map SrcFn.opt, ∃ g ∈ prog id o strs (s.out.map Out.written), fn = g.opt := by
    intro fn hm
    obtain ⟨g, hg, rfl⟩ := List.mem_map.1 hm
    exact ⟨g, hg, rfl⟩
  have key := C74_trees (ext := ext) (E := E) (void := fun f => !E.val f) (fun f => (Bool.not_not _).symm)
    (fns := (prog id o strs (s.out.map Out.written)).map SrcFn.opt)
    (fun fn hm => (by
      obtain ⟨g, hg, rfl⟩ := hmem fn hm
      exact C66_writable_opt h1 hr hg (hf g hg).tame (hf g hg).opt))
    (fun fn hm => (by
      obtain ⟨g, hg, rfl⟩ := hmem fn hm
      have hmild := (hf g hg).mild
      obtain ⟨f, frame, src, body, tab, pts, e, hx, he, rfl⟩ := mem_prog hg
      obtain ⟨x, hx, hw⟩ := List.mem_map.1 hx
      cases x with
      | data | bss => cases hw
      | func f' frame' src' body' tab' pts' =>
        cases hw
        obtain ⟨d, -, hj, -⟩ := C38 o toks s h1 f frame src body' tab pts hx
        have hj : JumpOk false (renS (nameOf id tab) src) := (jumpOk_ren src).2 hj
        revert hmild
        unfold SrcFn.opt
        dsimp only
        cases hb : Opt.optTree (renS (nameOf id tab) src) with
        | none => exact fun _ => noBC_jump hj
        | some b => exact fun hmild => noBC_jump (optTree_jump _ hb (mild_doOk hj hmild) hj))) k
  refine ⟨key.1, fun x hx => ?_⟩
  obtain ⟨P, h2, h3, h4⟩ := key.2 x hx
  refine ⟨P, h2, h3, fun new n f vs mem v mem' he => h4 new n f vs mem v mem' ?_⟩
  refine Tac.C61_order (fun fn hm => ?_) _ _ _ _ _ (Tac.C65_program (fun fn hm => (hf fn hm).mild) _ _ _ _ _ he)
  obtain ⟨g, hg, rfl⟩ := hmem fn hm
  exact (hf g hg).ordered

/-! ### Data -/

/-- The calls for the data of an accepted source text are read back, and the data represent the initial values as the text says them. -/
theorem C74_data (h : accept o src = some s) (h0 : 0 ∉ src) (hb : 202 ∉ src) {idx k : Nat} {d : DT} {tab : Tab}
    (hx : .data idx d tab k ∈ s.out) (cnt : Int → Int) :
    ∃ x e c v, icText cnt ((dataOf id (.data idx d tab k)).map Call.dir) = some x ∧ tab[idx]? = some e ∧
      readIc x = some ((c ++ [.nam (id e.label), v]).map fun d => (Call.dir d).seen cnt) ∧
      ∀ p q, (∀ l ∈ dataLabs p, l ≤ k) → Rep (p ++ (c ++ [.nam (id e.label), v] ++ q)) (renD (nameOf id tab) d) [v] := by
  obtain ⟨toks, h3, -⟩ := accept_names h h0 hb
  obtain ⟨e, c, v, h4, h5, h6⟩ := data_rep (id := id) h3 hx
  obtain ⟨x, h1, h2⟩ := C74 (cnt := cnt) (cs := (dataOf id (.data idx d tab k)).map Call.dir) (fun c hc => by
    obtain ⟨y, hy, rfl⟩ := List.mem_map.1 hc
    obtain ⟨e, k1, -, k3, -, k5⟩ := var_ok h3 _ hx
    obtain ⟨c, v, c1, c2, c3⟩ := genData_fine (shape_addrs k3) idx e.dim k
    simp only [dataOf, k1, genData_ren] at hy
    obtain ⟨z, hz, rfl⟩ := List.mem_map.1 hy
    have hb : z ≠ .bug := fun e => k5 (e ▸ hz)
    have hs : ∀ x, z ≠ .str x := by
      rintro x rfl
      rw [c1] at hz
      rcases List.mem_append.1 hz with hz | hz
      · exact c2 _ hz
      · simp only [List.mem_cons, List.not_mem_nil, or_false, reduceCtorEq, false_or] at hz
        rw [← hz] at c3
        exact c3
    cases z with
    | bug => exact absurd rfl hb
    | str x => exact absurd rfl (hs x)
    | _ => trivial)
  exact ⟨x, e, c, v, h1, h4, by rw [h2, h5, List.map_map]; rfl, by rw [← h5]; exact h6⟩

/-- C74 for strings (vmCode.c:805-810). -/
theorem C74_string (x : String) (k : Nat) (hx : '\n' ∉ x.toList) (cnt : Int → Int) :
    ∃ y, icText cnt ((genStr x k).1.map Call.dir) = some y ∧ readIc y = some [.vm (.i (.lab (k + 1))), .dir (.str x)] :=
  C74 (cnt := cnt) (List.forall_mem_cons.2 ⟨trivial, List.forall_mem_cons.2 ⟨hx, nofun⟩⟩)

/-! ### Examples -/

/-- What is printed for the functions of `src67`; `acc` is 8, `sum` is 7 and `total` is 3. -/
def text74 : String :=
  "vmNam(8)\nvmEntry(1)\nvmLdCns(0)\nvmStLoc(1)\nvmPop()\nvmLab(1)\nvmLdLoc(1)\nvmLdPrm(1)\nvmLt()\nvmJF(2)\nvmLdGlb(3)\n" ++
  "vmLdCns(1)\nvmGe()\nvmJF(2)\nvmLdLoc(1)\nvmArg()\nvmCallF(1, 7)\nvmLdGlb(3)\nvmAdd()\nvmStGlb(3)\nvmPop()\nvmLdLoc(1)\n" ++
  "vmLdCns(1)\nvmAdd()\nvmStLoc(1)\nvmPop()\nvmJmp(1)\nvmLab(2)\nvmRet()\nvmNam(7)\nvmEntry(0)\nvmLdPrm(1)\nvmLdCns(1)\n" ++
  "vmEq()\nvmJF(3)\nvmLdCns(1)\nvmMReg()\nvmJmp(4)\nvmLab(3)\nvmLdPrm(1)\nvmLdCns(1)\nvmSub()\nvmArg()\nvmCallF(1, 7)\n" ++
  "vmLdPrm(1)\nvmAdd()\nvmMReg()\nvmLab(4)\nvmRet()\n"

/-- The text is accepted, all conditions are met, `text74` is printed, and on the machine the function `sum` called with 1 returns 1. -/
example : ∃ s, accept ⟨false, false⟩ src67 = some s ∧
    IcProg (compile (fun f => !Tac.exSrcEnv.val f) (prog id64 ⟨false, false⟩ (fun _ => 0) s.out) 0) text74.toList ∧
    ∃ cs, readIc text74.toList = some cs ∧
      ∀ new mem, Does Tac.exSrcEnv (fun _ _ _ => none) new (codeOf cs) 7 [1] mem 1 mem := by
  obtain ⟨ts, h1, h2⟩ := lex67
  obtain ⟨s, h, ht⟩ := run64
  obtain ⟨ht, ho⟩ := Prod.mk.inj (ht.trans (Prod.eta tree64).symm)
  have ha : accept ⟨false, false⟩ src67 = some s := by rw [accept_ok h1, h2]; exact h
  have hp : prog id64 ⟨false, false⟩ (fun _ => 0) s.out = fns68 := by rw [prog_fun64, ho]; rfl
  have hx : IcProg (compile (fun f => !Tac.exSrcEnv.val f) fns68 0) text74.toList := by
    have h4 : icParts ((compile (fun f => !Tac.exSrcEnv.val f) fns68 0).map fun fn : Tac.Fn => (fn.cnt, (fn.code.map Vm.i).map Call.vm)) =
        some text74.toList := by decide +kernel
    exact icProg_parts h4
  obtain ⟨-, h3⟩ := C74_program (E := Tac.exSrcEnv) (id := id64) (strs := fun _ => 0) (ext := fun _ _ _ => none) ha
    (by decide +kernel) (by decide +kernel) rfl ⟨by rw [ht]; decide +kernel, by rw [ht]; decide +kernel⟩
    (by rw [hp]; decide +kernel) 0
  rw [hp] at h3
  obtain ⟨cs, h4, -, h5⟩ := h3 _ hx
  refine ⟨s, ha, by rw [hp]; exact hx, cs, h4, fun new mem => ?_⟩
  rcases h5 new 1 7 [1] mem 1 mem (sum68 mem) with ⟨-, h6⟩ | h6
  · cases h6
  · exact h6

def ic69 : List (Option String) := [
   some "vmLab(1)\nvmDwCns(1)\nvmDwCns(2)\nvmLab(2)\nvmDwCns(65533)\nvmLab(3)\nvmDwLab(1)\nvmDwLab(2)\nvmNam(1)\nvmDwLab(3)\n",
   some "vmNam(2)\nvmDwLab(4)\n", some "vmLab(5)\nvmDbCns(65)\nvmDbCns(66)\nvmNam(3)\nvmDwLab(5)\n", some "vmNam(4)\nvmWs(1)\n",
   some "vmLab(6)\nvmWs(3)\nvmLab(7)\nvmWs(3)\nvmLab(8)\nvmDwLab(6)\nvmDwLab(7)\nvmNam(5)\nvmDwLab(8)\n", some "",
   some "vmNam(7)\nvmDwName(6)\n"]

/-- What is printed for the variables of `src69`, which is accepted. -/
example : ∃ s, accept ⟨false, false⟩ src69 = some s ∧ 0 ∉ src69 ∧ 202 ∉ src69 ∧
    (s.out.reverse.map fun x => (icText (fun n => n) ((dataOf id69 x).map Call.dir)).map String.ofList) = ic69 := by
  obtain ⟨ts, h1, h2⟩ := lex69
  obtain ⟨s, h, hs⟩ := run_ok (o := ⟨false, false⟩) (toks := toks69) 60 (fun s =>
    s.out.reverse.map fun x => (icText (fun n => n) ((dataOf id69 x).map Call.dir)).map String.ofList) (v := ic69) (by decide +kernel)
  exact ⟨s, by rw [accept_ok h1, h2]; exact h, by decide +kernel, by decide +kernel, hs⟩

/-! ### Names that are declared twice

When a name is declared again, its new entry in the name table is removed after the declaration (parser.c getGVars, getFunc), and vm2ic.c
prints the index of the new entry for the definition, but that of the first entry for uses. The next name declared gets the same index. -/

def src74 : List Nat := Lex.bytes "int x;\nint x=1;\nint f() { return x; }\n"

def toks74 : List Tok := ((Lex.lexAll (Lex.start src74)).toOption.getD []).filterMap tok

theorem lex74 : ∃ ts, Lex.lexAll (Lex.start src74) = .ok ts ∧ ts.filterMap tok = toks74 := by
  have h : (Lex.lexAll (Lex.start src74)).toOption.isSome := by decide +kernel
  unfold toks74
  revert h
  cases Lex.lexAll (Lex.start src74) with
  | error => intro h; cases h
  | ok ts => exact fun h => ⟨ts, rfl, rfl⟩

/-- It is false that an index in the text of vm2ic.c belongs to one name: the variable `x` is defined with its value as 1 (`vmNam(1)`), the
function `f` is defined as 1 too, and uses `x` as 0 (`vmLdGlb(0)`). -/
theorem C74_index_false : ∃ s, accept ⟨false, false⟩ src74 = some s ∧
    (s.out.reverse.filterMap fun | .data i _ t _ => t[i]?.map fun e => (i, e.name) | _ => none) = [(1, "x")] ∧
    (s.out.reverse.filterMap fun | .func i _ _ _ t _ => t[i]?.map fun e => (i, e.name) | _ => none) = [(1, "f")] ∧
    (s.out.reverse.filterMap fun | .func _ _ b _ t _ => t[0]?.map fun e => (b, e.name) | _ => none) =
      [(.ret (some (.leaf .glb 0)), "x")] := by
  obtain ⟨ts, h1, h2⟩ := lex74
  obtain ⟨s, h, hs⟩ := run_ok (o := ⟨false, false⟩) (toks := toks74) 60 (fun s => (
    (s.out.reverse.filterMap fun | .data i _ t _ => t[i]?.map fun e => (i, e.name) | _ => none),
    (s.out.reverse.filterMap fun | .func i _ _ _ t _ => t[i]?.map fun e => (i, e.name) | _ => none),
    s.out.reverse.filterMap fun | .func _ _ b _ t _ => t[0]?.map fun e => (b, e.name) | _ => none))
    (v := ([(1, "x")], [(1, "f")], [(.ret (some (.leaf .glb 0)), "x")])) (by decide +kernel)
  obtain ⟨g1, g2⟩ := Prod.mk.inj hs
  obtain ⟨g2, g3⟩ := Prod.mk.inj g2
  exact ⟨s, by rw [accept_ok h1, h2]; exact h, g1, g2, g3⟩

end Cmm.Parse
