import Verif.Opt.RefineS
import Verif.Opt.OkKeep
import Verif.Parse.OptRen
import Verif.Props.C64

/-
C65: from tokens to lines with the optimiser, which is on unless -O0 is given (cmmc main.c). The lines that the compiler
prints for an accepted program do what the trees mean that the parser has built *before* they are optimised, with operands
evaluated from left to right. The conditions are those of C64 for the optimised trees, and for the trees before `Opt.mild`
(Verif/Opt/RefineS.lean): known defects of the optimiser (DESIGN.md) do not occur.
-/
namespace Cmm.Tac
open Cmm.Tree (Bin Expr Stmt Exec)
open Cmm.Gen (OrderedS)

/-- A function with its tree as src/optree.c leaves it (parser.c:1010). -/
def SrcFn.opt (fn : SrcFn) : SrcFn := { fn with body := (Opt.optTree fn.body).getD fn.body }

section
variable {E : Env} {L : Lay} {fns : List SrcFn} {ext : Int → List Word → Mem → Option (Word × Mem)}

/-- Where the calls of a program return something, the calls of the optimised program return the same. -/
theorem C65_program (hm : ∀ fn ∈ fns, Opt.mild fn.body = true) (n : Nat) :
    Le (evS E L (fun _ _ _ => false) fns ext n) (evS E L (fun _ _ _ => false) (fns.map SrcFn.opt) ext n) := by
  have hfind : ∀ f, (fns.map SrcFn.opt).find? (fun fn => fn.f = f) = (fns.find? fun fn => fn.f = f).map SrcFn.opt := by
    intro f; rw [List.find?_map]; rfl
  induction n with
  | zero =>
    intro f vs mem r h
    rw [evS] at h ⊢
    rw [hfind]
    cases hf : fns.find? (fun fn => fn.f = f) with
    | none => rw [hf] at h; exact h
    | some fn => rw [hf] at h; cases h
  | succ n ih =>
    intro f vs mem r h
    cases hf : fns.find? (fun fn => fn.f = f) with
    | none => rw [evS] at h ⊢; rw [hf] at h; rw [hfind, hf]; exact h
    | some fn =>
      obtain ⟨h1, h2⟩ := (C61_ev_iff hf).1 h
      refine (C61_ev_iff (fn := fn.opt) (by rw [hfind, hf]; rfl)).2 ⟨h1, fun loc => ?_⟩
      obtain ⟨o, s', h3, h4, h5⟩ := h2 loc
      refine ⟨o, s', h3, ?_, h5⟩
      have h6 := exec_mono (eval_mono ih (fun _ _ _ => false)) h4
      show Exec _ ((Opt.optTree fn.body).getD fn.body) _ _ _
      cases hb : Opt.optTree fn.body with
      | none => exact h6
      | some b => exact Opt.optTree_exec h6 hb (hm fn (List.mem_of_find?_eq_some hf))

/-! ### Without the condition -/

/-- `int f() { return (total = 5) * 0; }` -/
def lostSrc : SrcFn where
  f := 7
  d := 0
  np := 0
  ker := true
  cnt n := n
  strs := 0
  body := .ret (some (.bin .mul (.assV .glb 3 (.cnst 5)) (.cnst 0)))

example : Opt.mild lostSrc.body = false := by decide

example : lostSrc.opt.body = .ret (some (.cnst 0)) := rfl

/-- The assignment is lost (optree.c:247). -/
theorem C65_lost_false : ¬ ∀ fns n, Le (evS exSrcEnv sumLay (fun _ _ _ => false) fns (fun _ _ _ => none) n)
    (evS exSrcEnv sumLay (fun _ _ _ => false) (fns.map SrcFn.opt) (fun _ _ _ => none) n) := by
  intro h
  let mem : Mem := fun _ => 0
  have h1 : evS exSrcEnv sumLay (fun _ _ _ => false) [lostSrc] (fun _ _ _ => none) 1 7 [] mem =
      some (0, mem.sw (exSrcEnv.adr 3) 5) :=
    (C61_ev_iff (fn := lostSrc) rfl).2 ⟨rfl, fun loc => ⟨.ret (some 0), _, rfl, .ret (vs := [0]) rfl, (if_pos rfl).mpr rfl⟩⟩
  have h2 : evS exSrcEnv sumLay (fun _ _ _ => false) [lostSrc.opt] (fun _ _ _ => none) 1 7 [] mem = some (0, mem) :=
    (C61_ev_iff (fn := lostSrc.opt) rfl).2 ⟨rfl, fun loc => ⟨.ret (some 0), _, rfl, .ret (vs := [0]) rfl, (if_pos rfl).mpr rfl⟩⟩
  have h3 := h [lostSrc] 1 7 [] mem _ h1
  rw [show [lostSrc].map SrcFn.opt = [lostSrc.opt] from rfl, h2] at h3
  have h4 := congrFun (congrArg Prod.snd (Option.some.inj h3)) (exSrcEnv.adr 3 + 1)
  revert h4
  decide

end

end Cmm.Tac

namespace Cmm.Parse
open Cmm.Tree
open Cmm.Gen (NT Mode genSw OrderedS)
open Cmm.Tac (SrcFn SrcOk Sound Env Lay Line M T avail okS needS mulS fitS memLocals saved compile emitProg evS Ready
  Returns FSteps ChkAt ExtOk DivOk Rest)

/-! ### Specification -/

/-- A function with its tree as it was before src/optree.c. -/
def Out.written : Out → Out
  | .func f frame src _ tab pts => .func f frame src src tab pts
  | x => x

/-- Conditions on a function before the optimiser (`tame`, `mild`) and after (`Fair` of C64; the code generator
exchanges only operands without side effects). -/
structure FairO (E : Env) (S : Nat) (fn : SrcFn) : Prop where
  tame : tameS ⟨fn.cnt, fun f => !E.val f⟩ fn.body = true
  mild : Opt.mild fn.body = true
  fair : Fair E S fn.opt
  ordered : OrderedS fn.opt.body

/-! ### Proofs -/

variable {o : Opts} {toks : List Tok} {s : PS} {E : Env} {L : Lay} {S : Nat} {id : Label → Int} {strs : String → Nat}

theorem jumpOk_ren {g : Int → Int} (a : Stmt) : ∀ {l}, JumpOk l (renS g a) ↔ JumpOk l a := by
  induction a with
  | ifs c a ih => intro l; exact ih
  | els c a b ih1 ih2 => intro l; exact and_congr ih1 ih2
  | seq k a b ih1 ih2 => intro l; exact and_congr ih1 ih2
  | whl c a r ih => intro l; exact ih
  | dos a c ih => intro l; exact ih
  | _ => intro l; exact Iff.rfl

theorem noBC_jump {a : Stmt} (h : JumpOk false a) : Gen.NoBC a := by
  induction a with
  | brk | cnt => cases h
  | ifs c a ih => exact ih h
  | els c a b ih1 ih2 => exact ⟨ih1 h.1, ih2 h.2⟩
  | seq b x y ih1 ih2 => exact ⟨ih1 h.1, ih2 h.2⟩
  | _ => trivial

theorem jumpOk_noBC {a : Stmt} : JumpOk true a → Opt.noBC a = true → JumpOk false a := by
  induction a with
  | brk => intro _ h; cases h
  | cnt => intro _ h; cases h
  | ifs c a ih => exact ih
  | els c a b ih1 ih2 =>
    intro h h'
    obtain ⟨h1, h2⟩ := Bool.and_eq_true_iff.1 h'
    exact ⟨ih1 h.1 h1, ih2 h.2 h2⟩
  | seq k a b ih1 ih2 =>
    intro h h'
    obtain ⟨h1, h2⟩ := Bool.and_eq_true_iff.1 h'
    exact ⟨ih1 h.1 h1, ih2 h.2 h2⟩
  | _ => intro h _; exact h

theorem mild_doOk {a : Stmt} : ∀ {l}, JumpOk l a → Opt.mild a = true → DoOk a := by
  induction a with
  | ifs c a ih => intro l h hm; simp only [Opt.mild, Bool.and_eq_true] at hm; exact ih (l := l) h hm.2
  | els c a b ih1 ih2 =>
    intro l h hm
    simp only [Opt.mild, Bool.and_eq_true] at hm
    exact ⟨ih1 h.1 hm.1.2, ih2 h.2 hm.2⟩
  | seq k a b ih1 ih2 =>
    intro l h hm
    simp only [Opt.mild, Bool.and_eq_true] at hm
    exact ⟨ih1 h.1 hm.1, ih2 h.2 hm.2⟩
  | whl c a r ih => intro l h hm; simp only [Opt.mild, Bool.and_eq_true] at hm; exact ih (l := true) h hm.1.2
  | dos a c ih =>
    intro l h hm
    simp only [Opt.mild, Bool.and_eq_true] at hm
    refine ⟨ih (l := true) h hm.1.2, fun ⟨v, h1, h2⟩ => jumpOk_noBC h ?_⟩
    have : Opt.never c = true := by simp [Opt.never, h1, h2]
    rw [this] at hm
    simpa using hm.2
  | _ => intro _ _ _; trivial

/-- The optimised program is the program written, optimised. -/
theorem C65_prog (h : getSrc o (start toks) = some s) (ho : o.opt = true) :
    prog id o strs s.out = (prog id o strs (s.out.map Out.written)).map SrcFn.opt := by
  have key : ∀ out : List Out, (∀ f c src body tab pts, .func f c src body tab pts ∈ out → Opt.optTree src = some body) →
      out.filterMap (srcFn id o strs) = ((out.map Out.written).filterMap (srcFn id o strs)).map SrcFn.opt := by
    intro out
    induction out with
    | nil => intro _; rfl
    | cons x out ih =>
      intro hx
      have ih := ih fun f c src body tab pts hm => hx f c src body tab pts (List.mem_cons_of_mem _ hm)
      cases x with
      | func f c src body tab pts =>
        have hb := hx f c src body tab pts (List.mem_cons_self ..)
        cases he : tab[f]? with
        | none => simpa [srcFn, Out.written, he] using ih
        | some e =>
          have : Opt.optTree (renS (nameOf id tab) src) = some (renS (nameOf id tab) body) := by rw [ren_optTree, hb]; rfl
          simpa [srcFn, Out.written, he, SrcFn.opt, this] using ih
      | data => simpa [srcFn, Out.written, List.filterMap_cons] using ih
      | bss => simpa [srcFn, Out.written, List.filterMap_cons] using ih
  rw [prog, prog, ← List.map_reverse]
  refine key _ fun f c src body tab pts hm => ?_
  have := C38_body o toks s h f c src body tab pts (List.mem_reverse.1 hm)
  rwa [if_pos ho] at this

/-- The optimised functions are as C63 wants them. -/
theorem C65_sound (h : getSrc o (start toks) = some s) (hr : Resolves E L id s.tab) {fn : SrcFn}
    (hm : fn ∈ prog id o strs (s.out.map Out.written)) (hf : FairO E S fn) : Sound E L (fun f => !E.val f) S fn.opt := by
  obtain ⟨f, frame, src, body, tab, pts, e, hx, he, rfl⟩ := mem_prog hm
  obtain ⟨x, hx, hw⟩ := List.mem_map.1 hx
  cases x with
  | data | bss => cases hw
  | func f' frame' src' body' tab' pts' =>
    cases hw
    obtain ⟨d, h1, h2, h3, h4⟩ := treeOk_of h hx
    rw [he] at h1
    cases h1
    obtain ⟨d, -, hj, -⟩ := C38 o toks s h f frame src body' tab pts hx
    have hj : JumpOk false (renS (nameOf id tab) src) := (jumpOk_ren src).2 hj
    have hok := h4 _ _ _ (told_of (o := o) (strs := strs) (e := e) (((nam_inv o).final h).2.named _ hx) hr) hf.tame
    have key : JumpOk false (SrcFn.opt ⟨id e.label, frame, e.cnt, o.krn, (ntOf tab).cnt, strs e.name, renS (nameOf id tab) src⟩).body ∧
        okS ⟨(ntOf tab).cnt, fun f => !E.val f⟩
          (avail E L (SrcFn.opt ⟨id e.label, frame, e.cnt, o.krn, (ntOf tab).cnt, strs e.name, renS (nameOf id tab) src⟩))
          (SrcFn.opt ⟨id e.label, frame, e.cnt, o.krn, (ntOf tab).cnt, strs e.name, renS (nameOf id tab) src⟩).body = true := by
      have ht := hf.fair.tame
      have hm := hf.mild
      revert ht
      unfold SrcFn.opt
      dsimp only at hm ⊢
      cases hb : Opt.optTree (renS (nameOf id tab) src) with
      | none => exact fun _ => ⟨hj, hok⟩
      | some b => exact fun ht => ⟨optTree_jump _ hb (mild_doOk hj hm) hj, Opt.optTree_ok hb hok ht⟩
    exact ⟨⟨noBC_jump key.1, key.2, hf.fair.frame⟩, hf.fair.short, hf.fair.mul, hf.fair.fit⟩

variable {ext : Int → List Word → Mem → Option (Word × Mem)} {A : Nat → Word} {X : Nat} {t0 : T}

/-- C65: the optimising compiler comes to an end on the functions of an accepted program, and its lines do what the trees
mean that have been built from the source. -/
theorem C65 (h : getSrc o (start toks) = some s) (ho : o.opt = true) (hr : Resolves E L id s.tab)
    (hf : ∀ fn ∈ prog id o strs (s.out.map Out.written), FairO E S fn)
    (hz : L.size < 65535) (hX : 2 ≤ X) (hchk : ChkAt E L X) (hext : ExtOk E L X ext) (hdv : DivOk E) (k : Nat) (h0 : Rest t0) :
    ∃ tQ, emitProg (compile (fun f => !E.val f) (prog id o strs s.out) k) t0 = some tQ ∧
      ∀ {rest : List Line} {n : Nat} {f : Int} {vs : List Word} {v : Word} {mem' : Mem} {pc : Nat} {m : M} {x : Int},
      evS E L (fun _ _ _ => false) (prog id o strs (s.out.map Out.written)) ext n f vs (L.clean m.mem) = some (v, mem') →
      (tQ.out ++ rest)[pc]? = some (.call f) → Ready L vs m x → ((n * S + X : Nat) : Int) ≤ x →
      ∃ m', FSteps E A (tQ.out ++ rest) ⟨pc, m⟩ ⟨pc + 1, m'⟩ ∧ Returns L (E.val f) v mem' (x + 2 * vs.length) m m' := by
  rw [C65_prog h ho]
  obtain ⟨tQ, h1, h2⟩ := Tac.C63_left_to_right (A := A) hz hX hchk hext hdv (fun f => (Bool.not_not _).symm)
    (fns := (prog id o strs (s.out.map Out.written)).map SrcFn.opt)
    (fun fn hm => (by obtain ⟨fn, hm', rfl⟩ := List.mem_map.1 hm; exact C65_sound h hr hm' (hf _ hm')))
    (fun fn hm => (by obtain ⟨fn, hm', rfl⟩ := List.mem_map.1 hm; exact (hf _ hm').ordered)) k h0
  exact ⟨tQ, h1, fun hv => h2 (Tac.C65_program (fun fn hm => (hf fn hm).mild) _ _ _ _ _ hv)⟩

/-! ### Example -/

/-- Where the code generator exchanges operands, these contain no call and no assignment. -/
def orderE : Expr → Bool
  | .cnst _ | .leaf _ _ | .func0 _ => true
  | .func _ a => orderE a
  | .un _ e => orderE e
  | .bin op l r => (!genSw op l r || (Opt.eff l == 0 && Opt.eff r == 0)) && orderE l && orderE r
  | .assV _ _ r => orderE r
  | .assM _ a i r => orderE a && orderE i && orderE r

def orderS : Stmt → Bool
  | .empty | .brk | .cnt => true
  | .exp e => orderE e
  | .ifs c a => orderE c && orderS a
  | .els c a b => orderE c && orderS a && orderS b
  | .whl c a re => c.all orderE && orderS a && re.all orderE
  | .dos a c => orderS a && orderE c
  | .ret e => e.all orderE
  | .seq _ a b => orderS a && orderS b

theorem pure_of_eff {e : Expr} : Opt.eff e = 0 → Opt.Pure e := by
  induction e with
  | cnst v => intro _; trivial
  | leaf k n => intro _; trivial
  | un op e ih => exact ih
  | bin op l r ih1 ih2 =>
    intro h
    simp only [Opt.eff] at h
    exact ⟨ih1 (by omega), ih2 (by omega)⟩
  | _ => intro h; simp [Opt.eff] at h

theorem orderE_ordered {e : Expr} : orderE e = true → Gen.Ordered e := by
  induction e with
  | func f a ih => exact ih
  | un op e ih => exact ih
  | bin op l r ih1 ih2 =>
    intro h
    simp only [orderE, Bool.and_eq_true, Bool.or_eq_true, Bool.not_eq_true', beq_iff_eq] at h
    refine ⟨fun hg => ?_, ih1 h.1.2, ih2 h.2⟩
    rcases h.1.1 with h' | h'
    · rw [hg] at h'; cases h'
    · exact ⟨pure_of_eff h'.1, pure_of_eff h'.2⟩
  | assV k n r ih => exact ih
  | assM op a i r h1 h2 h3 =>
    intro h
    simp only [orderE, Bool.and_eq_true] at h
    exact ⟨h1 h.1.1, h2 h.1.2, h3 h.2⟩
  | _ => intro _; trivial

theorem orderS_ordered {a : Stmt} : orderS a = true → OrderedS a := by
  have all : ∀ {e : Option Expr}, e.all orderE = true → ∀ x, e = some x → Gen.Ordered x := by
    rintro _ h x rfl
    exact orderE_ordered h
  induction a with
  | exp e => exact orderE_ordered
  | ifs c a ih => intro h; simp only [orderS, Bool.and_eq_true] at h; exact ⟨orderE_ordered h.1, ih h.2⟩
  | els c a b ih1 ih2 =>
    intro h; simp only [orderS, Bool.and_eq_true] at h; exact ⟨orderE_ordered h.1.1, ih1 h.1.2, ih2 h.2⟩
  | whl c a r ih => intro h; simp only [orderS, Bool.and_eq_true] at h; exact ⟨all h.1.1, ih h.1.2, all h.2⟩
  | dos a c ih => intro h; simp only [orderS, Bool.and_eq_true] at h; exact ⟨ih h.1, orderE_ordered h.2⟩
  | ret e => exact all
  | seq k a b ih1 ih2 => intro h; simp only [orderS, Bool.and_eq_true] at h; exact ⟨ih1 h.1, ih2 h.2⟩
  | _ => intro _; trivial

/-- `int total;`
`int sum(int n) { if (1 == 1 && n == 1) return 3 - 2; return sum(n - 3 + 2) + (n + 0); }`
`void acc(int n) { int i = 4 - 3; while (2 >= 1) { if (i >= n) break; total = sum(i) + total; i = 2 + i - 1; }`
`do total = total + 0; while (1 == 2); }` -/
def prog65 : List Tok :=
  [Lx.INT, .name "total", Lx.semi,
   Lx.INT, .name "sum", Lx.lpar, Lx.INT, .name "n", Lx.rpar, Lx.lbrc,
   Lx.IF, Lx.lpar, .int 1, Lx.EQU, .int 1, Lx.AND, .name "n", Lx.EQU, .int 1, Lx.rpar, Lx.RETURN, .int 3, Lx.minus, .int 2, Lx.semi,
   Lx.RETURN, .name "sum", Lx.lpar, .name "n", Lx.minus, .int 3, Lx.plus, .int 2, Lx.rpar, Lx.plus, Lx.lpar, .name "n", Lx.plus,
   .int 0, Lx.rpar, Lx.semi, Lx.rbrc,
   Lx.VOID, .name "acc", Lx.lpar, Lx.INT, .name "n", Lx.rpar, Lx.lbrc, Lx.INT, .name "i", Lx.eq, .int 4, Lx.minus, .int 3, Lx.semi,
   Lx.WHILE, Lx.lpar, .int 2, Lx.GTE, .int 1, Lx.rpar, Lx.lbrc,
   Lx.IF, Lx.lpar, .name "i", Lx.GTE, .name "n", Lx.rpar, Lx.BREAK, Lx.semi,
   .name "total", Lx.eq, .name "sum", Lx.lpar, .name "i", Lx.rpar, Lx.plus, .name "total", Lx.semi,
   .name "i", Lx.eq, .int 2, Lx.plus, .name "i", Lx.minus, .int 1, Lx.semi, Lx.rbrc,
   Lx.DO, .name "total", Lx.eq, .name "total", Lx.plus, .int 0, Lx.semi, Lx.WHILE, Lx.lpar, .int 1, Lx.EQU, .int 2, Lx.rpar, Lx.semi,
   Lx.rbrc]

/-- What the parser makes of it before the optimiser. -/
def tree65 : Tab × List (Nat × Nat × Stmt × Tab) :=
  let total : Ent := ⟨"total", ScCOMM, TyINT, 0, 0, false⟩
  let sum : Ent := ⟨"sum", ScFUNC, TyINT, 0, 1, false⟩
  let acc : Ent := ⟨"acc", ScFUNC, TyVOID, 0, 1, false⟩
  let n (c : Int) : Ent := ⟨"n", c, TyINT, 0, 0, false⟩
  ([total, sum, n ScVOID, acc, n ScVOID],
   [(3, 1, .seq true (.seq false (.seq false .empty (.exp (.assV .loc 5 (.bin .sub (.cnst 4) (.cnst 3)))))
      (.whl (some (.bin .ge (.cnst 2) (.cnst 1)))
        (.seq true (.seq false (.ifs (.bin .ge (.leaf .loc 5) (.leaf .prm 4)) .brk)
            (.exp (.assV .glb 0 (.bin .add (.func 1 (.leaf .loc 5)) (.leaf .glb 0)))))
          (.exp (.assV .loc 5 (.bin .sub (.bin .add (.cnst 2) (.leaf .loc 5)) (.cnst 1))))) none))
      (.dos (.exp (.assV .glb 0 (.bin .add (.leaf .glb 0) (.cnst 0)))) (.bin .equ (.cnst 1) (.cnst 2))),
     [total, sum, n ScVOID, acc, n ScPRM, ⟨"i", ScVOID, TyINT, 0, 1, false⟩]),
    (1, 0, .seq true
      (.ifs (.bin .and (.bin .equ (.cnst 1) (.cnst 1)) (.bin .equ (.leaf .prm 2) (.cnst 1))) (.ret (some (.bin .sub (.cnst 3) (.cnst 2)))))
      (.ret (some (.bin .add (.func 1 (.bin .add (.bin .sub (.leaf .prm 2) (.cnst 3)) (.cnst 2))) (.bin .add (.leaf .prm 2) (.cnst 0))))),
     [total, sum, n ScPRM])])

theorem run65 : ∃ s, getSrc ⟨true, false⟩ (start prog65) = some s ∧
    (s.tab, (s.out.map Out.written).filterMap fun64) = tree65 :=
  run_ok 60 (fun s => (s.tab, (s.out.map Out.written).filterMap fun64)) (by decide +kernel)

/-- The parser accepts the program and all the conditions are met. -/
example (A : Nat → Word) : ∃ s, getSrc ⟨true, false⟩ (start prog65) = some s ∧
    ∃ tQ, emitProg (compile (fun f => !Tac.exSrcEnv.val f) (prog id64 ⟨true, false⟩ (fun _ => 0) s.out) 0) T.init = some tQ ∧
      ∀ {rest : List Line} {n : Nat} {f : Int} {vs : List Word} {v : Word} {mem' : Mem} {pc : Nat} {m : M} {x : Int},
      evS Tac.exSrcEnv Tac.sumLay (fun _ _ _ => false) (prog id64 ⟨true, false⟩ (fun _ => 0) (s.out.map Out.written))
        (fun _ _ _ => none) n f vs (Tac.sumLay.clean m.mem) = some (v, mem') →
      (tQ.out ++ rest)[pc]? = some (.call f) → Ready Tac.sumLay vs m x → ((n * 20 + 2 : Nat) : Int) ≤ x →
      ∃ m', FSteps Tac.exSrcEnv A (tQ.out ++ rest) ⟨pc, m⟩ ⟨pc + 1, m'⟩ ∧
        Returns Tac.sumLay (Tac.exSrcEnv.val f) v mem' (x + 2 * vs.length) m m' := by
  obtain ⟨s, h, ht⟩ := run65
  obtain ⟨ht, ho⟩ := Prod.mk.inj (ht.trans (Prod.eta tree65).symm)
  refine ⟨s, h, C65 h rfl ⟨?_, ?_⟩ (fun fn hm => ?_) (by decide) (by decide)
    (fun m x _ _ _ => ⟨{ m with g := Tac.setG m.g 0 0 }, rfl, rfl, rfl, fun r hr => by simp [Tac.setG, hr], fun _ _ _ => rfl⟩)
    (fun _ _ _ _ _ _ h => by cases h) (fun _ _ _ => ⟨rfl, rfl⟩) 0 Tac.rest_init⟩
  · rw [ht]; decide +kernel
  · rw [ht]; decide +kernel
  · rw [prog_fun64, ho] at hm
    have h1 : ∀ fn ∈ tree65.2.reverse.filterMap fun x =>
        srcFn id64 ⟨true, false⟩ (fun _ => 0) (.func x.1 x.2.1 x.2.2.1 x.2.2.1 x.2.2.2 []),
        tameS ⟨fn.cnt, fun f => !Tac.exSrcEnv.val f⟩ fn.body = true ∧ Opt.mild fn.body = true ∧
        tameS ⟨fn.cnt, fun f => !Tac.exSrcEnv.val f⟩ fn.opt.body = true ∧ needS fn.opt.body ≤ 20 ∧ mulS fn.opt.body = true ∧
        fitS fn.cnt fn.opt.body = true ∧ 4 + memLocals fn.d + 2 * saved fn.d + 2 * needS fn.opt.body ≤ 20 ∧
        orderS fn.opt.body = true := by decide +kernel
    obtain ⟨h1, h2, h3, h4, h5, h6, h7, h8⟩ := h1 fn hm
    exact ⟨h1, h2, ⟨h3, h4, h5, h6, h7⟩, orderS_ordered h8⟩

end Cmm.Parse
