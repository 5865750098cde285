import Mathlib.Logic.Equiv.List
import Verif.Parse.Ready4
import Verif.Props.C38
import Verif.Props.C63

/-
C64: from tokens to lines. If the parser accepts a list of tokens, the functions it hands to the code generator meet the
conditions of C63 on names, types and jumps; what is left are conditions on each tree that the parser does not check
(`Fair`) and on the addresses of the global variables (`Resolves`). So the lines that the compiler prints for the program
do what the trees mean. Compiled with -O0; Verif/Props/C43.lean is about the optimiser.
-/
namespace Cmm.Parse
open Cmm.Tree
open Cmm.Gen (NT Mode callsAll callsS renI genSw)
open Cmm.Tac (SrcFn SrcOk Sound Env Lay Line M T avail okS needS mulS fitS memLocals saved compile emitProg evS Ready
  Returns FSteps ChkAt ExtOk DivOk Rest)

/-! ### The program of the functions -/

/-- What vm2tac.c prints for an entry of the name table, `_` or `.` (vm2tac.c:102-105 getPref) and the name (line 303 and
others). -/
abbrev Label := Bool × String

def Ent.label (e : Ent) : Label := (e.pub, e.name)

/-- Entries of the name table become labels; `id` numbers the labels. -/
def nameOf (id : Label → Int) (tab : Tab) (n : Int) : Int :=
  match tab[n.toNat]? with
  | some e => id e.label
  | none => 0

/-- A function as the code generator gets it (parser.c:1011), with the `strs` labels of strings before it. -/
def srcFn (id : Label → Int) (o : Opts) (strs : String → Nat) : Out → Option SrcFn
  | .func f frame _ body tab _ => tab[f]?.map fun e =>
    ⟨id e.label, frame, e.cnt, o.krn, (ntOf tab).cnt, strs e.name, renS (nameOf id tab) body⟩
  | _ => none

/-- The functions in the order of the source (`out` has the latest first). -/
def prog (id : Label → Int) (o : Opts) (strs : String → Nat) (out : List Out) : List SrcFn :=
  out.reverse.filterMap (srcFn id o strs)

/-! ### Conditions -/

/-- Functions have a value unless they are declared void, and global variables are not in the stack. -/
structure Resolves (E : Env) (L : Lay) (id : Label → Int) (t : Tab) : Prop where
  fn : ∀ e ∈ t, IsFun e.scope → (E.val (id e.label) = false ↔ (e.type, e.dim) = (TyVOID, 0))
  var : ∀ e ∈ t, IsVar e.scope → L.pub (E.adr (id e.label)) = true ∧ L.pub (E.adr (id e.label) + 1) = true

/-- Conditions on a tree that the parser does not check: `tameS` of Verif/Parse/Ready.lean, the others as in C63. -/
structure Fair (E : Env) (S : Nat) (fn : SrcFn) : Prop where
  tame : tameS ⟨fn.cnt, fun f => !E.val f⟩ fn.body = true
  short : needS fn.body ≤ 20
  mul : mulS fn.body = true
  fit : fitS fn.cnt fn.body = true
  frame : 4 + memLocals fn.d + 2 * saved fn.d + 2 * needS fn.body ≤ S

/-! ### Proofs -/

theorem noBC_of {g : Int → Int} {s : Stmt} (h : JumpOk false s) : Gen.NoBC (renS g s) := by
  induction s with
  | brk | cnt => cases h
  | ifs c a ih => exact ih h
  | els c a b ih1 ih2 => exact ⟨ih1 h.1, ih2 h.2⟩
  | seq b x y ih1 ih2 => exact ⟨ih1 h.1, ih2 h.2⟩
  | _ => trivial

variable {o : Opts} {toks : List Tok} {s : PS} {E : Env} {L : Lay} {S : Nat} {id : Label → Int} {strs : String → Nat}

theorem nameOf_get {tab : Tab} {n : Nat} {e : Ent} (h : tab[n]? = some e) : nameOf id tab n = id e.label := by
  simp [nameOf, h]

/-- What the name table of a function says, if the names are resolved at the end. -/
theorem told_of {f frame : Nat} {src body : Stmt} {tab : Tab} {pts : List Tab} {e : Ent} (hn : Named s.tab (.func f frame src body tab pts))
    (hr : Resolves E L id s.tab) :
    Told ⟨(ntOf tab).cnt, fun f => !E.val f⟩ (nameOf id tab)
      (avail E L ⟨id e.label, frame, e.cnt, o.krn, (ntOf tab).cnt, strs e.name, renS (nameOf id tab) body⟩) tab frame e.cnt := by
  constructor
  · intro n d hd hs
    obtain ⟨d', h1, h2, h0, h3, h4, h5, -⟩ := hn d (List.mem_of_getElem? hd) (.inl hs)
    have := hr.fn d' h1 (h5 hs).1
    rw [show d'.label = d.label by rw [Ent.label, Ent.label, h0, h2], h3, h4] at this
    rw [nameOf_get hd, ← this]
    simp
  · intro n d hd hs
    obtain ⟨d', h1, h2, h0, h3, h4, -, h5, -⟩ := hn d (List.mem_of_getElem? hd) (.inr hs)
    have := hr.var d' h1 (h5 hs)
    rw [show d'.label = d.label by rw [Ent.label, Ent.label, h0, h2]] at this
    rw [nameOf_get hd]
    simp only [avail, this.1, this.2]; rfl
  · intro n d hd h1 h2
    simp [avail, ntOf, hd]
    omega
  · intro n d hd h1
    simp [avail, ntOf, hd]
    omega
  · exact fun _ _ => rfl
  · exact fun _ _ _ _ => rfl

/-- A function of the program is one that the parser has handed to the code generator. -/
theorem mem_prog {fn : SrcFn} {out : List Out} (h : fn ∈ prog id o strs out) : ∃ f frame src body tab pts e,
    Out.func f frame src body tab pts ∈ out ∧ tab[f]? = some e ∧
    fn = ⟨id e.label, frame, e.cnt, o.krn, (ntOf tab).cnt, strs e.name, renS (nameOf id tab) body⟩ := by
  simp only [prog, List.mem_filterMap, List.mem_reverse] at h
  obtain ⟨x, hx, h⟩ := h
  cases x with
  | func f frame src body tab pts =>
    simp only [srcFn, Option.map_eq_some_iff] at h
    obtain ⟨e, he, rfl⟩ := h
    exact ⟨f, frame, src, body, tab, pts, e, hx, he, rfl⟩
  | data | bss => cases h

theorem treeOk_of (h : getSrc o (start toks) = some s) {f frame : Nat} {src body : Stmt} {tab : Tab} {pts : List Tab}
    (hm : Out.func f frame src body tab pts ∈ s.out) : ∃ d, tab[f]? = some d ∧ d.scope = ScFUNC ∧ callsS (FnIdx tab) src ∧
      ∀ nt g V, Told nt g V tab frame d.cnt → tameS nt (renS g src) = true → okS nt V (renS g src) = true :=
  ((treeOk_inv o).final h).2 _ hm (((slotsOk_inv o).final h).2 _ hm)

/-- Every function of an accepted program is as C63 wants it. -/
theorem C64_sound (h : getSrc o (start toks) = some s) (ho : o.opt = false) (hr : Resolves E L id s.tab) {fn : SrcFn}
    (hm : fn ∈ prog id o strs s.out) (hf : Fair E S fn) : Sound E L (fun f => !E.val f) S fn := by
  obtain ⟨f, frame, src, body, tab, pts, e, hx, he, rfl⟩ := mem_prog hm
  have hb : body = src := by
    have := C38_body o toks s h f frame src body tab pts hx
    rw [ho] at this
    exact this
  subst hb
  obtain ⟨d, h1, h2, h3, h4⟩ := treeOk_of h hx
  rw [he] at h1
  cases h1
  obtain ⟨d, -, hj, -⟩ := C38 o toks s h f frame body body tab pts hx
  refine ⟨⟨noBC_of hj, ?_, hf.frame⟩, hf.short, hf.mul, hf.fit⟩
  exact h4 _ _ _ (told_of (((nam_inv o).final h).2.named _ hx) hr) hf.tame

/-- The code of the function is what the code generator makes of the tree of the parser, with the indices of the name table
replaced by those of names. -/
theorem C64_code (h : getSrc o (start toks) = some s) (ho : o.opt = false) (hr : Resolves E L id s.tab) {f frame : Nat}
    {src body : Stmt} {tab : Tab} {pts : List Tab} {e : Ent} (hx : Out.func f frame src body tab pts ∈ s.out)
    (he : tab[f]? = some e) (hi : e.type ≠ TyINTR) (k : Nat) :
    ∃ fn ∈ prog id o strs s.out, srcFn id o strs (.func f frame src body tab pts) = some fn ∧
      (fn.comp (fun f => !E.val f) k).1.code =
        (Gen.genFunc (ntOf tab) f (e.type == TyINTR) o.krn frame body (k + strs e.name)).1.map (renI (nameOf id tab)) ∧
      (fn.comp (fun f => !E.val f) k).2 = (Gen.genFunc (ntOf tab) f (e.type == TyINTR) o.krn frame body (k + strs e.name)).2 := by
  have hs : srcFn id o strs (.func f frame src body tab pts) = some
      ⟨id e.label, frame, e.cnt, o.krn, (ntOf tab).cnt, strs e.name, renS (nameOf id tab) body⟩ := by
    simp [srcFn, he]
  refine ⟨_, List.mem_filterMap.2 ⟨_, List.mem_reverse.2 hx, hs⟩, hs, ?_⟩
  have hb : body = src := by
    have := C38_body o toks s h f frame src body tab pts hx
    rw [ho] at this
    exact this
  subst hb
  obtain ⟨d, -, -, h3, -⟩ := treeOk_of h hx
  have hn := ((nam_inv o).final h).2.named _ hx
  have hc : callsS (fun f _ => (!E.val (nameOf id tab f)) = (ntOf tab).void f) body := by
    refine callsS.mono ?_ h3
    rintro f k ⟨n, d, rfl, hd, hs, -⟩
    obtain ⟨d', k1, k2, k0, k3, k4, k5, -⟩ := hn d (List.mem_of_getElem? hd) (.inl hs)
    have := hr.fn d' k1 (k5 hs).1
    rw [show d'.label = d.label by rw [Ent.label, Ent.label, k0, k2], k3, k4, Prod.mk.injEq] at this
    rw [nameOf_get hd]
    simp only [ntOf, Int.toNat_natCast, hd]
    rw [Bool.eq_iff_iff]
    simpa using this
  have hg := Gen.ren_genFunc (nt := ntOf tab) (nt' := ⟨(ntOf tab).cnt, fun f => !E.val f⟩) rfl body hc f false o.krn frame
    (k + strs e.name)
  have hk := Tac.comp_code (fun f => !E.val f) k
    ⟨id e.label, frame, e.cnt, o.krn, (ntOf tab).cnt, strs e.name, renS (nameOf id tab) body⟩
  rw [nameOf_get he] at hg
  have hi' : (e.type == TyINTR) = false := by simpa using hi
  rw [hi']
  dsimp only at hk
  rw [hg] at hk
  exact hk

/-- No function is defined twice. -/
theorem C64_once (h : getSrc o (start toks) = some s) : (s.out.filterMap fnName).Nodup :=
  ((nam_inv o).final h).2.nodup

/-- So different functions have different numbers, if different labels have. -/
theorem C64_distinct (h : getSrc o (start toks) = some s) (hid : ∀ x y, id x = id y → x = y) :
    ((prog id o strs s.out).map (·.f)).Nodup := by
  have key : ∀ out : List Out, ∃ l : List Label, (out.filterMap (srcFn id o strs)).map (·.f) = l.map id ∧
      out.filterMap fnName = l.map (·.2) := by
    intro out
    induction out with
    | nil => exact ⟨[], rfl, rfl⟩
    | cons x out ih =>
      obtain ⟨l, h1, h2⟩ := ih
      cases x with
      | func f c src body tab pts =>
        cases he : tab[f]? with
        | none => exact ⟨l, by simp [srcFn, he, h1], by simp [fnName, he, h2]⟩
        | some e =>
          exact ⟨e.label :: l, by simp [srcFn, he, h1], by simp [fnName, he, h2, Ent.label]⟩
      | data => exact ⟨l, by simpa [List.filterMap_cons, srcFn] using h1, by simpa [List.filterMap_cons, fnName] using h2⟩
      | bss => exact ⟨l, by simpa [List.filterMap_cons, srcFn] using h1, by simpa [List.filterMap_cons, fnName] using h2⟩
  obtain ⟨l, h1, h2⟩ := key s.out
  rw [prog, List.filterMap_reverse, List.map_reverse, List.nodup_reverse, h1]
  have := C64_once h
  rw [h2, List.Nodup, List.pairwise_map] at this
  rw [List.Nodup, List.pairwise_map]
  exact this.imp fun hne heq => hne (congrArg Prod.snd (hid _ _ heq))

/-- Calls of functions of the program have as many arguments as the function has parameters, if no `...` is declared. -/
theorem C64_args (h : getSrc o (start toks) = some s) (hid : ∀ x y, id x = id y → x = y) {f frame : Nat} {src body : Stmt}
    {tab : Tab} {pts : List Tab} (hx : Out.func f frame src body tab pts ∈ s.out) (hd : ∀ d ∈ tab, d.type ≠ TyDOTDOTDOT) :
    callsS (fun f k => ∀ fn ∈ prog id o strs s.out, fn.f = nameOf id tab f → k = fn.np) src := by
  obtain ⟨-, -, -, h3, -⟩ := treeOk_of h hx
  have hN := ((nam_inv o).final h)
  refine callsS.mono ?_ h3
  rintro f k ⟨n, d, rfl, h1, h2, h3⟩ fn hm hf
  obtain ⟨f', frame', src', body', tab', pts', e, hx', he, rfl⟩ := mem_prog hm
  obtain ⟨e', h1', hsc, -⟩ := treeOk_of h hx'
  rw [he] at h1'
  cases h1'
  obtain ⟨a, a1, a2, a3, -, -, a4, -⟩ := hN.2.named _ hx d (List.mem_of_getElem? h1) (.inl h2)
  have hse : IsFun e.scope := by rw [hsc]; unfold IsFun; decide
  obtain ⟨b, b1, b2, b3, -, -, b4, -⟩ := hN.2.named _ hx' e (List.mem_of_getElem? he) (.inl hse)
  rw [nameOf_get h1] at hf
  have hl := hid _ _ hf
  have hab : a = b := by
    have hn : a.name = b.name := by rw [a2, b2]; exact (congrArg Prod.snd hl).symm
    have va : ScVOID < a.scope := by have := (a4 h2).1; unfold IsFun at this; rcases this with h | h <;> rw [h] <;> decide
    have vb : ScVOID < b.scope := by have := (b4 hse).1; unfold IsFun at this; rcases this with h | h <;> rw [h] <;> decide
    have hdist := hN.1.dist
    unfold Distinct at hdist
    rw [List.pairwise_iff_getElem] at hdist
    obtain ⟨i, hi', hi⟩ := List.mem_iff_getElem.1 a1
    obtain ⟨j, hj', hj⟩ := List.mem_iff_getElem.1 b1
    rcases Nat.lt_trichotomy i j with hij | hij | hij
    · exact absurd (by rw [hi, hj, hn]) (hdist i j hi' hj' hij (by rw [hi]; exact va) (by rw [hj]; exact vb))
    · subst hij; exact hi.symm.trans hj
    · exact absurd (by rw [hi, hj, hn]) (hdist j i hj' hi' hij (by rw [hj]; exact vb) (by rw [hi]; exact va))
  rcases h3 with rfl | ⟨j, c, -, -, h5, h6⟩
  · rw [← (a4 h2).2, hab, (b4 hse).2]
  · exact absurd h6 (hd c (List.mem_of_getElem? h5))

variable {ext : Int → List Word → Mem → Option (Word × Mem)} {A : Nat → Word} {X : Nat} {t0 : T}

/-- C64: the compiler comes to an end on the functions of an accepted program, and its lines do what the trees mean. -/
theorem C64 (h : getSrc o (start toks) = some s) (ho : o.opt = false) (hr : Resolves E L id s.tab)
    (hf : ∀ fn ∈ prog id o strs s.out, Fair E S fn)
    (hz : L.size < 65535) (hX : 2 ≤ X) (hchk : ChkAt E L X) (hext : ExtOk E L X ext) (hdv : DivOk E) (k : Nat) (h0 : Rest t0) :
    ∃ tQ, emitProg (compile (fun f => !E.val f) (prog id o strs s.out) k) t0 = some tQ ∧
      ∀ {rest : List Line} {n : Nat} {f : Int} {vs : List Word} {v : Word} {mem' : Mem} {pc : Nat} {m : M} {x : Int},
      evS E L genSw (prog id o strs s.out) ext n f vs (L.clean m.mem) = some (v, mem') →
      (tQ.out ++ rest)[pc]? = some (.call f) → Ready L vs m x → ((n * S + X : Nat) : Int) ≤ x →
      ∃ m', FSteps E A (tQ.out ++ rest) ⟨pc, m⟩ ⟨pc + 1, m'⟩ ∧ Returns L (E.val f) v mem' (x + 2 * vs.length) m m' :=
  Tac.C63 hz hX hchk hext hdv (fun f => (Bool.not_not _).symm) (fun _ hm => C64_sound h ho hr hm (hf _ hm)) k h0

/-- The same with operands evaluated from left to right, if the code generator exchanges only operands without side
effects. -/
theorem C64_left_to_right (h : getSrc o (start toks) = some s) (ho : o.opt = false) (hr : Resolves E L id s.tab)
    (hf : ∀ fn ∈ prog id o strs s.out, Fair E S fn) (hord : ∀ fn ∈ prog id o strs s.out, Gen.OrderedS fn.body)
    (hz : L.size < 65535) (hX : 2 ≤ X) (hchk : ChkAt E L X) (hext : ExtOk E L X ext) (hdv : DivOk E) (k : Nat) (h0 : Rest t0) :
    ∃ tQ, emitProg (compile (fun f => !E.val f) (prog id o strs s.out) k) t0 = some tQ ∧
      ∀ {rest : List Line} {n : Nat} {f : Int} {vs : List Word} {v : Word} {mem' : Mem} {pc : Nat} {m : M} {x : Int},
      evS E L (fun _ _ _ => false) (prog id o strs s.out) ext n f vs (L.clean m.mem) = some (v, mem') →
      (tQ.out ++ rest)[pc]? = some (.call f) → Ready L vs m x → ((n * S + X : Nat) : Int) ≤ x →
      ∃ m', FSteps E A (tQ.out ++ rest) ⟨pc, m⟩ ⟨pc + 1, m'⟩ ∧ Returns L (E.val f) v mem' (x + 2 * vs.length) m m' :=
  Tac.C63_left_to_right hz hX hchk hext hdv (fun f => (Bool.not_not _).symm) (fun _ hm => C64_sound h ho hr hm (hf _ hm)) hord
    k h0

/-! ### Example -/

/-- `int total; int sum(int n);`
`void acc(int n) { int i = 0; while (i < n && total >= 1) { total = sum(i) + total; i = i + 1; } }`
`int sum(int n) { if (n == 1) return 1; return sum(n - 1) + n; }` -/
def prog64 : List Tok :=
  [Lx.INT, .name "total", Lx.semi, Lx.INT, .name "sum", Lx.lpar, Lx.INT, .name "n", Lx.rpar, Lx.semi,
   Lx.VOID, .name "acc", Lx.lpar, Lx.INT, .name "n", Lx.rpar, Lx.lbrc, Lx.INT, .name "i", Lx.eq, .int 0, Lx.semi,
   Lx.WHILE, Lx.lpar, .name "i", Lx.lt, .name "n", Lx.AND, .name "total", Lx.GTE, .int 1, Lx.rpar, Lx.lbrc,
   .name "total", Lx.eq, .name "sum", Lx.lpar, .name "i", Lx.rpar, Lx.plus, .name "total", Lx.semi,
   .name "i", Lx.eq, .name "i", Lx.plus, .int 1, Lx.semi, Lx.rbrc, Lx.rbrc,
   Lx.INT, .name "sum", Lx.lpar, Lx.INT, .name "n", Lx.rpar, Lx.lbrc,
   Lx.IF, Lx.lpar, .name "n", Lx.EQU, .int 1, Lx.rpar, Lx.RETURN, .int 1, Lx.semi,
   Lx.RETURN, .name "sum", Lx.lpar, .name "n", Lx.minus, .int 1, Lx.rpar, Lx.plus, .name "n", Lx.semi, Lx.rbrc]

def id64 (x : Label) : Int := if x.2 = "total" then 3 else if x.2 = "sum" then 7 else if x.2 = "acc" then 8 else 0

/-- Index, frame, tree and table of a function. -/
def fun64 : Out → Option (Nat × Nat × Stmt × Tab)
  | .func f frame _ body tab _ => some (f, frame, body, tab)
  | _ => none

theorem prog_fun64 {id : Label → Int} {o : Opts} {strs : String → Nat} (out : List Out) : prog id o strs out =
    (out.filterMap fun64).reverse.filterMap fun x => srcFn id o strs (.func x.1 x.2.1 x.2.2.1 x.2.2.1 x.2.2.2 []) := by
  rw [prog, ← List.filterMap_reverse, List.filterMap_filterMap]
  congr 1
  funext x
  cases x <;> rfl

/-- What the parser makes of it. -/
def tree64 : Tab × List (Nat × Nat × Stmt × Tab) :=
  let total : Ent := ⟨"total", ScCOMM, TyINT, 0, 0, false⟩
  let sum (c : Int) : Ent := ⟨"sum", c, TyINT, 0, 1, false⟩
  let acc : Ent := ⟨"acc", ScFUNC, TyVOID, 0, 1, false⟩
  let n (c : Int) : Ent := ⟨"n", c, TyINT, 0, 0, false⟩
  ([total, sum ScFUNC, n ScVOID, acc, n ScVOID],
   [(5, 0, .seq true (.ifs (.bin .equ (.leaf .prm 6) (.cnst 1)) (.ret (some (.cnst 1))))
      (.ret (some (.bin .add (.func 5 (.bin .sub (.leaf .prm 6) (.cnst 1))) (.leaf .prm 6)))),
     [total, sum ScFUNC, n ScVOID, acc, n ScVOID, sum ScFUNC, n ScPRM]),
    (3, 1, .seq true (.seq false .empty (.exp (.assV .loc 5 (.cnst 0))))
      (.whl (some (.bin .and (.bin .lt (.leaf .loc 5) (.leaf .prm 4)) (.bin .ge (.leaf .glb 0) (.cnst 1))))
        (.seq true (.exp (.assV .glb 0 (.bin .add (.func 1 (.leaf .loc 5)) (.leaf .glb 0))))
          (.exp (.assV .loc 5 (.bin .add (.leaf .loc 5) (.cnst 1))))) none),
     [total, sum ScPROT, n ScVOID, acc, n ScPRM, ⟨"i", ScVOID, TyINT, 0, 1, false⟩])])

instance : DecidableEq (Tab × List (Nat × Nat × Stmt × Tab)) := by
  have : DecidableEq (Stmt × Tab) := inferInstance
  have : DecidableEq (Nat × Nat × Stmt × Tab) := inferInstance
  infer_instance

theorem run64 : ∃ s, getSrc ⟨false, false⟩ (start prog64) = some s ∧ (s.tab, s.out.filterMap fun64) = tree64 :=
  run_ok 60 (fun s => (s.tab, s.out.filterMap fun64)) (by decide +kernel)

/-- The parser accepts the program and all the conditions are met, so it is compiled correctly. -/
example (A : Nat → Word) : ∃ s, getSrc ⟨false, false⟩ (start prog64) = some s ∧
    (prog id64 ⟨false, false⟩ (fun _ => 0) s.out).map (·.f) = [8, 7] ∧
    ∃ tQ, emitProg (compile (fun f => !Tac.exSrcEnv.val f) (prog id64 ⟨false, false⟩ (fun _ => 0) s.out) 0) T.init = some tQ ∧
      ∀ {rest : List Line} {n : Nat} {f : Int} {vs : List Word} {v : Word} {mem' : Mem} {pc : Nat} {m : M} {x : Int},
      evS Tac.exSrcEnv Tac.sumLay genSw (prog id64 ⟨false, false⟩ (fun _ => 0) s.out) (fun _ _ _ => none) n f vs
        (Tac.sumLay.clean m.mem) = some (v, mem') →
      (tQ.out ++ rest)[pc]? = some (.call f) → Ready Tac.sumLay vs m x → ((n * 20 + 2 : Nat) : Int) ≤ x →
      ∃ m', FSteps Tac.exSrcEnv A (tQ.out ++ rest) ⟨pc, m⟩ ⟨pc + 1, m'⟩ ∧
        Returns Tac.sumLay (Tac.exSrcEnv.val f) v mem' (x + 2 * vs.length) m m' := by
  obtain ⟨s, h, ht⟩ := run64
  obtain ⟨ht, ho⟩ := Prod.mk.inj (ht.trans (Prod.eta tree64).symm)
  refine ⟨s, h, ?_, C64 h rfl ⟨?_, ?_⟩ (fun fn hm => ?_) (by decide) (by decide)
    (fun m x _ _ _ => ⟨{ m with g := Tac.setG m.g 0 0 }, rfl, rfl, rfl, fun r hr => by simp [Tac.setG, hr], fun _ _ _ => rfl⟩)
    (fun _ _ _ _ _ _ h => by cases h) (fun _ _ _ => ⟨rfl, rfl⟩) 0 Tac.rest_init⟩
  · rw [prog_fun64, ho]; decide +kernel
  · rw [ht]; decide +kernel
  · rw [ht]; decide +kernel
  · rw [prog_fun64, ho] at hm
    have h1 : ∀ fn ∈ tree64.2.reverse.filterMap fun x =>
        srcFn id64 ⟨false, false⟩ (fun _ => 0) (.func x.1 x.2.1 x.2.2.1 x.2.2.1 x.2.2.2 []),
        tameS ⟨fn.cnt, fun f => !Tac.exSrcEnv.val f⟩ fn.body = true ∧ needS fn.body ≤ 20 ∧ mulS fn.body = true ∧
        fitS fn.cnt fn.body = true ∧ 4 + memLocals fn.d + 2 * saved fn.d + 2 * needS fn.body ≤ 20 := by decide +kernel
    obtain ⟨h1, h2, h3, h4, h5⟩ := h1 fn hm
    exact ⟨h1, h2, h3, h4, h5⟩

/-- Labels can be numbered, and calls in `prog64` have the arguments that the functions want. -/
example : ∃ id : Label → Int, (∀ x y, id x = id y → x = y) ∧ ∃ s, getSrc ⟨false, false⟩ (start prog64) = some s ∧
    ∀ x ∈ s.out.filterMap fun64, ∀ d ∈ x.2.2.2, d.type ≠ TyDOTDOTDOT := by
  have : Function.Injective fun x : Label => (x.1, x.2.toList.map Char.toNat) := fun x y h => by
    obtain ⟨h1, h2⟩ := Prod.mk.inj h
    have hc : Function.Injective Char.toNat := fun a b h => Char.toNat_inj.1 h
    exact Prod.ext h1 (String.toList_inj.1 (List.map_injective_iff.2 hc h2))
  obtain ⟨s, h, ht⟩ := run64
  refine ⟨fun x => ((Encodable.encode (x.1, x.2.toList.map Char.toNat) : Nat) : Int),
    fun x y h => this (Encodable.encode_injective (Int.ofNat.inj h)), s, h, ?_⟩
  rw [(Prod.mk.inj (ht.trans (Prod.eta tree64).symm)).2]
  decide +kernel

end Cmm.Parse
