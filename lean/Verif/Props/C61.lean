import Verif.Tac.Src

/-
C61: the compiler as a whole. A program of syntax trees (what the parser builds) is translated to stack code by
src/vmCode.c and to lines of TaC assembler by src/vm2tac.c. If calling function `f` of the program returns `v`
(`evS`, the meaning of the trees), then CALL f on the TaC machine comes back to the next line with `v` in G0, the
memory as the program leaves it, and SP, FP and the register variables of the caller as they were.
-/
namespace Cmm.Tac
open Cmm.Tree (Kind Bin Un Expr Stmt World Outcome Exec Den Cond CondO Eff)
open Cmm.Gen (Instr A1 A2 NT Data Cfg Step Steps Idle UniqueLabels evalP evalG evalLR genSw NoBC OrderedS)

/-! ### The specification does not depend on choices -/

section
variable {E : Env} {L : Lay} {sw : Bin → Expr → Expr → Bool} {fns : List SrcFn}
  {ext : Int → List Word → Mem → Option (Word × Mem)}

/-- A call has at most one result. -/
theorem C61_ret_unique {call : Int → List Word → Mem → Option (Word × Mem)} {fn : SrcFn} {vs : List Word} {mem : Mem}
    {v v' : Word} {mem' mem'' : Mem} (h : RetS E L sw call fn vs mem v mem') (h' : RetS E L sw call fn vs mem v' mem'') :
    v = v' ∧ mem' = mem'' := by
  obtain ⟨-, h⟩ := h
  obtain ⟨-, h'⟩ := h'
  obtain ⟨o1, s1, e1, x1, h⟩ := h fun _ => 0
  obtain ⟨o2, s2, e2, x2, h'⟩ := h' fun _ => 0
  obtain ⟨ho, hs⟩ := exec_det x1 x2
  refine ⟨?_, by rw [← e1, ← e2, hs]⟩
  split at h
  · rename_i hv
    rw [if_pos hv] at h'
    rw [h, h'] at ho
    simpa using ho
  · rename_i hv
    rw [if_neg hv] at h'
    rw [h.2, h'.2]

/-- The results of `evS`. -/
theorem C61_ev_iff {n : Nat} {f : Int} {fn : SrcFn} (hf : fns.find? (fun fn => fn.f = f) = some fn)
    {vs : List Word} {mem : Mem} {v : Word} {mem' : Mem} :
    evS E L sw fns ext (n + 1) f vs mem = some (v, mem') ↔ RetS E L sw (evS E L sw fns ext n) fn vs mem v mem' := by
  rw [evS, hf]
  simp only
  split
  · rename_i h
    have hc := h.choose_spec
    constructor
    · intro e
      have e := Option.some.inj e
      rw [e] at hc
      exact hc
    · intro hr
      obtain ⟨h1, h2⟩ := C61_ret_unique hc hr
      congr 1
      exact Prod.ext h1 h2
  · rename_i h
    constructor
    · intro e; cases e
    · intro hr; exact absurd ⟨(v, mem'), hr⟩ h

end

/-! ### Conditions on the program -/

/-- The variables of a function: globals outside of the stack, locals 1 to `d` and parameters 0 to `np - 1`. -/
def avail (E : Env) (L : Lay) (fn : SrcFn) (k : Kind) (n : Int) : Bool :=
  match k with
  | .glb => L.pub (E.adr n) && L.pub (E.adr n + 1)
  | .loc => decide (1 ≤ fn.cnt n) && decide (fn.cnt n ≤ fn.d)
  | .prm => decide (0 ≤ fn.cnt n) && decide (fn.cnt n < fn.np)
  | _ => true

/-- Conditions on a function: `break` and `continue` are in loops, the expressions are as the parser builds them (with &&
and || in conditions only), and `S` bytes are enough for its frame. -/
structure SrcOk (E : Env) (L : Lay) (void : Int → Bool) (S : Nat) (fn : SrcFn) : Prop where
  bc : NoBC fn.body
  ok : okS ⟨fn.cnt, void⟩ (avail E L fn) fn.body = true
  frame : 4 + memLocals fn.d + 2 * saved fn.d + 2 * needS fn.body ≤ S

/-- The translation meets none of the known defects of vm2tac.c (`Fits`, Verif/Props/C59.lean). -/
def FitsAll : List Fn → T → Prop
  | [], _ => True
  | fn :: fns, t => Fits fn.cnt fn.keep fn.body .all (fn.entered t) = true ∧
      ∀ t', emits fn.cnt (fn.code.map .i) t = some t' → FitsAll fns t'

section
variable {E : Env} {L : Lay} {void : Int → Bool} {fns : List SrcFn} {ext : Int → List Word → Mem → Option (Word × Mem)}
  {A : Nat → Word} {S X : Nat} {t0 tQ : T} {rest : List Line}

/-- The stack code of such a function keeps the discipline of vm2tac.c. -/
theorem comp_ok (hval : ∀ f, E.val f = !void f) {fn : SrcFn} (h : SrcOk E L void S fn) (n : Nat) {t : T}
    (hfit : Fits fn.cnt (fn.comp void n).1.keep (fn.comp void n).1.body .all t = true) :
    FnOk E L S (fn.comp void n).1 t := by
  have hz : WZ (useOk ⟨fn.cnt, void⟩ (avail E L fn)) (needS fn.body) (fn.comp void n).1.body :=
    (genS_wz fn.body h.ok (Nat.le_refl _) _ _).append (wz_printLab _)
  obtain ⟨b', hz⟩ := hz false
  obtain ⟨h1, h2, h3, h4⟩ := trail_sound hz
  refine ⟨h2, h1, hfit, fun n hn => ?_, fun n hn => ?_, fun n hn => ?_, fun n f hf => ?_, 2 * needS fn.body, ?_, h.frame⟩
  · have : avail E L fn .glb n = true := by rcases hn with hn | hn <;> exact h3 _ hn
    simpa [avail, Lay.pubW] using this
  · have : avail E L fn .loc n = true := by rcases hn with hn | hn <;> exact h3 _ hn
    have h5 : 1 ≤ fn.cnt n ∧ fn.cnt n ≤ fn.d := by simpa [avail] using this
    exact h5
  · have : avail E L fn .prm n = true := by rcases hn with hn | hn <;> exact h3 _ hn
    have h5 : 0 ≤ fn.cnt n ∧ fn.cnt n < fn.np := by simpa [avail] using this
    exact h5
  · rw [hval]; exact h3 _ hf
  · intro n l hl
    have := h4 (Nat.zero_le _) n l hl
    omega

theorem compile_ok (hval : ∀ f, E.val f = !void f) : ∀ (fns : List SrcFn) (k : Nat) (t : T),
    (∀ fn ∈ fns, SrcOk E L void S fn) → FitsAll (compile void fns k) t → ProgOk E L S (compile void fns k) t := by
  intro fns
  induction fns with
  | nil => intros; trivial
  | cons fn fns ih =>
    intro k t h hf
    exact ⟨comp_ok hval (h fn (List.mem_cons_self ..)) k hf.1, fun t' ht' =>
      ih _ t' (fun fn hf => h fn (List.mem_cons_of_mem _ hf)) (hf.2 t' ht')⟩

/-- The stack code of a program returns what the trees return. -/
theorem C61_stack_code (k : Nat) (hok : ∀ fn ∈ fns, SrcOk E L void S fn) (n : Nat) :
    Le (evS E L genSw fns ext n) (ev E L (compile void fns k) ext n) := by
  induction n with
  | zero =>
    intro f vs mem r h
    have hc := compile_find void fns f k
    rw [evS] at h
    rw [ev]
    cases hf : fns.find? (fun fn => fn.f = f) with
    | none => rw [hf] at h hc; rw [hc]; exact h
    | some fn => rw [hf] at h; cases h
  | succ n ih =>
    intro f vs mem r h
    have hc := compile_find void fns f k
    cases hf : fns.find? (fun fn => fn.f = f) with
    | none => rw [evS] at h; rw [ev]; rw [hf] at h hc; rw [hc]; exact h
    | some fn =>
      rw [hf] at hc
      obtain ⟨j, hj⟩ := hc
      have hm := hok fn (List.mem_of_find?_eq_some hf)
      exact (C60_ev_iff hj (comp_unique hm.bc j)).2 (ret_of_src ih hm.bc hm.ok ((C61_ev_iff hf).1 h))

/-- C61: the program `fns` is compiled; the lines are part of a text with other lines before (those in `t0`) and after
(`rest`). If calling `f` with arguments `vs` returns `v` and memory `mem'` by the meaning of the trees, with operands
evaluated in the order the code generator chooses and calls nested at most `n` deep, and there are `n * S + X` bytes of
stack left, then CALL f gets to the next line, with the registers and the memory as `Returns` says. -/
theorem C61_partial (hz : L.size < 65535) (hX : 2 ≤ X) (hchk : ChkAt E L X) (hext : ExtOk E L X ext) (hdv : DivOk E)
    (hval : ∀ f, E.val f = !void f) (hok : ∀ fn ∈ fns, SrcOk E L void S fn) {k : Nat}
    (w : W t0) (hs : t0.stk = []) (hfit : FitsAll (compile void fns k) t0) (he : emitProg (compile void fns k) t0 = some tQ)
    {n : Nat} {f : Int} {vs : List Word} {v : Word} {mem' : Mem} {pc : Nat} {m : M} {x : Int}
    (h : evS E L genSw fns ext n f vs (L.clean m.mem) = some (v, mem'))
    (hpc : (tQ.out ++ rest)[pc]? = some (.call f)) (hr : Ready L vs m x) (hx : ((n * S + X : Nat) : Int) ≤ x) :
    ∃ m', FSteps E A (tQ.out ++ rest) ⟨pc, m⟩ ⟨pc + 1, m'⟩ ∧ Returns L (E.val f) v mem' (x + 2 * vs.length) m m' :=
  C60 hz hX hchk hext hdv w hs (compile_ok hval fns k t0 hok hfit) he (C61_stack_code k hok n f vs _ _ h) hpc hr hx

/-! ### Evaluation from left to right -/

theorem mono_bind1 {σ : Type} {o o' : Cmm.Tree.Out σ} {f g : Word → σ → Cmm.Tree.Out σ} (h : ∀ r, o = some r → o' = some r)
    (h' : ∀ v s r, f v s = some r → g v s = some r) : ∀ r, Cmm.Tree.bind1 o f = some r → Cmm.Tree.bind1 o' g = some r := by
  intro r hr
  cases o with
  | none => cases hr
  | some q => rw [h q rfl]; exact h' _ _ _ hr

/-- More calls return, more expressions have a value. -/
theorem eval_mono {cnt : Int → Int} {call1 call2} (hle : Le call1 call2) (sw : Bin → Expr → Expr → Bool) (e : Expr) :
    ∀ s r, evalP (aworld E L cnt call1) sw e s = some r → evalP (aworld E L cnt call2) sw e s = some r := by
  have hc : ∀ f vs (s : AS) r, (aworld E L cnt call1).call f vs s = some r → (aworld E L cnt call2).call f vs s = some r := by
    intro f vs s r hx
    simp only [aworld] at hx ⊢
    cases h1 : call1 f vs (L.clean s.mem) with
    | none => rw [h1] at hx; cases hx
    | some q => rw [h1] at hx; rw [hle _ _ _ _ h1]; exact hx
  have hcall : ∀ (f : Int) (d d' : Den AS), (∀ s r, d s = some r → d' s = some r) → ∀ s r,
      Cmm.Tree.callD (aworld E L cnt call1) f d s = some r → Cmm.Tree.callD (aworld E L cnt call2) f d' s = some r := by
    intro f d d' h s r hr
    unfold Cmm.Tree.callD at hr ⊢
    cases h1 : d s with
    | none => rw [h1] at hr; cases hr
    | some q =>
      rw [h1] at hr
      rw [h _ _ h1]
      simp only at hr ⊢
      cases h2 : (aworld E L cnt call1).call f q.1 q.2 with
      | none => rw [h2] at hr; cases hr
      | some q2 => rw [h2] at hr; rw [hc _ _ _ _ h2]; exact hr
  induction e with
  | cnst v => intro s r h; exact h
  | leaf k n => intro s r h; exact h
  | func0 f => intro s r h; exact hcall f _ _ (fun _ _ h => h) s r h
  | func f a ih => intro s r h; exact hcall f _ _ ih s r h
  | un op e ih => intro s r h; simp only [evalP, Cmm.Tree.unD] at h ⊢; exact mono_bind1 (ih s) (fun _ _ _ h => h) r h
  | assV k n x ih => intro s r h; simp only [evalP, Cmm.Tree.assVD] at h ⊢; exact mono_bind1 (ih s) (fun _ _ _ h => h) r h
  | assM op a i x iha ihi ihx =>
    intro s r h
    simp only [evalP, Cmm.Gen.assMG] at h ⊢
    exact mono_bind1 (ihx s) (fun _ s r h => mono_bind1 (iha s) (fun _ s r h => mono_bind1 (ihi s) (fun _ _ _ h => h) r h) r h) r h
  | bin op l x ihl ihx =>
    intro s r h
    simp only [evalP] at h ⊢
    split
    · rename_i hs
      rw [if_pos hs] at h
      have e1 : Cmm.Tree.binVal (aworld E L cnt call1) op = Cmm.Tree.binVal (aworld E L cnt call2) op := by cases op <;> rfl
      have e2 : Cmm.Gen.okB (aworld E L cnt call1) op = Cmm.Gen.okB (aworld E L cnt call2) op := by cases op <;> rfl
      rw [e1, e2] at h
      simp only [Cmm.Gen.strictRL] at h ⊢
      exact mono_bind1 (ihx s) (fun _ s r h => mono_bind1 (ihl s) (fun _ _ _ h => h) r h) r h
    · rename_i hs
      rw [if_neg hs] at h
      cases op
      case and =>
        simp only [Cmm.Gen.binG, Cmm.Tree.andD] at h ⊢
        refine mono_bind1 (ihl s) (fun v s r h => ?_) r h
        split
        · rename_i hv; rw [if_pos hv] at h; exact h
        · rename_i hv; rw [if_neg hv] at h; exact mono_bind1 (ihx s) (fun _ _ _ h => h) r h
      case or =>
        simp only [Cmm.Gen.binG, Cmm.Tree.orD] at h ⊢
        refine mono_bind1 (ihl s) (fun v s r h => ?_) r h
        split
        · rename_i hv; rw [if_pos hv] at h; exact mono_bind1 (ihx s) (fun _ _ _ h => h) r h
        · rename_i hv; rw [if_neg hv] at h; exact h
      case semi =>
        simp only [Cmm.Gen.binG, Cmm.Tree.semiD] at h ⊢
        cases h1 : evalP (aworld E L cnt call1) sw x s with
        | none => rw [h1] at h; cases h
        | some q =>
          rw [h1] at h
          rw [ihx _ _ h1]
          simp only at h ⊢
          cases h2 : evalP (aworld E L cnt call1) sw l q.2 with
          | none => rw [h2] at h; cases h
          | some q2 => rw [h2] at h; rw [ihl _ _ h2]; exact h
      all_goals
        simp only [Cmm.Gen.binG, Cmm.Gen.strictG] at h ⊢
        exact mono_bind1 (ihl s) (fun _ s r h => mono_bind1 (ihx s) (fun _ _ _ h => h) r h) r h

theorem exec_mono {σ : Type} {e1 e2 : Expr → Den σ} (h : ∀ e s r, e1 e s = some r → e2 e s = some r) {S : Stmt} {s : σ} {o s'}
    (hx : Exec e1 S s o s') : Exec e2 S s o s' := by
  have cond : ∀ {c : Expr} {s b s'}, Cond e1 c s b s' → Cond e2 c s b s' := fun ⟨vs, h1, h2⟩ => ⟨vs, h _ _ _ h1, h2⟩
  have condO : ∀ {c : Option Expr} {s b s'}, CondO e1 c s b s' → CondO e2 c s b s' := by
    intro c s b s' hc
    cases c with
    | none => exact hc
    | some c => exact cond hc
  have eff : ∀ {c : Option Expr} {s s'}, Eff e1 c s s' → Eff e2 c s s' := by
    intro c s s' hc
    cases c with
    | none => exact hc
    | some c => obtain ⟨vs, h1⟩ := hc; exact ⟨vs, h _ _ _ h1⟩
  induction hx with
  | empty => exact .empty
  | exp h1 => exact .exp (h _ _ _ h1)
  | ifT hc _ ih => exact .ifT (cond hc) ih
  | ifF hc => exact .ifF (cond hc)
  | elsT hc _ ih => exact .elsT (cond hc) ih
  | elsF hc _ ih => exact .elsF (cond hc) ih
  | whlF hc => exact .whlF (condO hc)
  | whlB hc _ ih => exact .whlB (condO hc) ih
  | whlR hc _ ih => exact .whlR (condO hc) ih
  | whlL hc _ ho he _ ih ih2 => exact .whlL (condO hc) ih ho (eff he) ih2
  | doB _ ih => exact .doB ih
  | doR _ ih => exact .doR ih
  | doF _ ho hc ih => exact .doF ih ho (cond hc)
  | doL _ ho hc _ ih ih2 => exact .doL ih ho (cond hc) ih2
  | brk => exact .brk
  | cnt => exact .cnt
  | ret0 => exact .ret0
  | ret h1 => exact .ret (h _ _ _ h1)
  | seqN _ _ ih ih2 => exact .seqN ih ih2
  | seqX _ ho ih => exact .seqX ih ho

/-- If wherever the code generator exchanges operands these have no side effects, a program means the same with
operands evaluated from left to right. -/
theorem C61_order (hord : ∀ fn ∈ fns, OrderedS fn.body) (n : Nat) :
    Le (evS E L (fun _ _ _ => false) fns ext n) (evS E L genSw fns ext n) := by
  induction n with
  | zero => intro f vs mem r h; exact h
  | succ n ih =>
    intro f vs mem r h
    cases hf : fns.find? (fun fn => fn.f = f) with
    | none => rw [evS] at h ⊢; rw [hf] at h ⊢; exact h
    | some fn =>
      obtain ⟨h1, h2⟩ := (C61_ev_iff hf).1 h
      refine (C61_ev_iff hf).2 ⟨h1, fun loc => ?_⟩
      obtain ⟨o, s', h3, h4, h5⟩ := h2 loc
      exact ⟨o, s', h3, exec_mono (eval_mono ih genSw)
        (Gen.C46_ordered_guarded _ fn.body (hord fn (List.mem_of_find?_eq_some hf)) _ _ _ h4), h5⟩

/-- C61 for programs in which the order of evaluation does not matter. -/
theorem C61_left_to_right_partial (hz : L.size < 65535) (hX : 2 ≤ X) (hchk : ChkAt E L X) (hext : ExtOk E L X ext) (hdv : DivOk E)
    (hval : ∀ f, E.val f = !void f) (hok : ∀ fn ∈ fns, SrcOk E L void S fn) (hord : ∀ fn ∈ fns, OrderedS fn.body) {k : Nat}
    (w : W t0) (hs : t0.stk = []) (hfit : FitsAll (compile void fns k) t0) (he : emitProg (compile void fns k) t0 = some tQ)
    {n : Nat} {f : Int} {vs : List Word} {v : Word} {mem' : Mem} {pc : Nat} {m : M} {x : Int}
    (h : evS E L (fun _ _ _ => false) fns ext n f vs (L.clean m.mem) = some (v, mem'))
    (hpc : (tQ.out ++ rest)[pc]? = some (.call f)) (hr : Ready L vs m x) (hx : ((n * S + X : Nat) : Int) ≤ x) :
    ∃ m', FSteps E A (tQ.out ++ rest) ⟨pc, m⟩ ⟨pc + 1, m'⟩ ∧ Returns L (E.val f) v mem' (x + 2 * vs.length) m m' :=
  C61_partial hz hX hchk hext hdv hval hok w hs hfit he (C61_order hord n f vs _ _ h) hpc hr hx

/-- The text of a compiled program has every label and every name once, so the run is the only one (`C60_det`). -/
theorem C61_definite {k : Nat} (hval : ∀ f, E.val f = !void f) (hok : ∀ fn ∈ fns, SrcOk E L void S fn)
    (hfit : FitsAll (compile void fns k) T.init) (he : emitProg (compile void fns k) T.init = some tQ)
    (hf : (fns.map (·.f)).Nodup) (hA : ∀ i j, i ≤ tQ.out.length → j ≤ tQ.out.length → A i = A j → i = j)
    (hown : ∀ fn ∈ fns, ∀ m, E.fn fn.f m = none) : Definite E A tQ.out := by
  have hm : ∀ (fns : List SrcFn) k, (compile void fns k).map (·.f) = fns.map (·.f) := by
    intro fns
    induction fns with
    | nil => intro k; rfl
    | cons fn fns ih => intro k; rw [compile, List.map_cons, List.map_cons, ih]; rfl
  refine C60_definite (compile_ok hval fns k _ hok hfit) he (compile_labels fns k fun fn h => (hok fn h).bc).1
    (by rw [hm]; exact hf) hA fun fn h m => ?_
  have : fn.f ∈ (compile void fns k).map (·.f) := List.mem_map.2 ⟨fn, h, rfl⟩
  rw [hm] at this
  obtain ⟨fn', h', e⟩ := List.mem_map.1 this
  rw [← e]
  exact hown fn' h' m

end

/-! ### Example -/

/-- `int sum(int n) { if (n == 0) return 0; return sum(n - 1) + n; }` -/
def sumSrc : SrcFn where
  f := 7
  d := 0
  np := 1
  ker := false
  cnt n := n
  strs := 0
  body := .seq true (.ifs (.bin .equ (.leaf .prm 0) (.cnst 0)) (.ret (some (.cnst 0))))
    (.ret (some (.bin .add (.func 7 (.bin .sub (.leaf .prm 0) (.cnst 1))) (.leaf .prm 0))))

/-- `void acc(int n) { int i = 0; while (i < n && 0 <= total) { total = sum(i) + total; i = i + 1; } }`, the global
variable `total` has name 3. -/
def accSrc : SrcFn where
  f := 8
  d := 1
  np := 1
  ker := false
  cnt n := n
  strs := 0
  body := .seq true (.exp (.assV .loc 1 (.cnst 0)))
    (.whl (some (.bin .and (.bin .lt (.leaf .loc 1) (.leaf .prm 0)) (.bin .le (.cnst 0) (.leaf .glb 3))))
      (.seq true (.exp (.assV .glb 3 (.bin .add (.func 7 (.leaf .loc 1)) (.leaf .glb 3))))
        (.exp (.assV .loc 1 (.bin .add (.leaf .loc 1) (.cnst 1))))) none)

/-- Function 8 returns nothing. -/
def exVoid (f : Int) : Bool := f = 8

def exSrcEnv : Env := { sumEnv with val := fun f => !exVoid f }

theorem exSrc_ok : ∀ fn ∈ [sumSrc, accSrc], SrcOk exSrcEnv sumLay exVoid 20 fn := by
  intro fn h
  simp only [List.mem_cons, List.not_mem_nil, or_false] at h
  rcases h with rfl | rfl
  · exact ⟨by simp [sumSrc, NoBC], by decide, by decide⟩
  · exact ⟨by simp [accSrc, NoBC], by decide, by decide⟩

theorem exSrc_fits : FitsAll (compile exVoid [sumSrc, accSrc] 0) T.init := by
  refine ⟨by decide +kernel, fun t' h => ⟨?_, fun _ _ => trivial⟩⟩
  have : t' = ((emits sumSrc.cnt ((sumSrc.comp exVoid 0).1.code.map .i) T.init).getD T.init) := by
    have h : emits sumSrc.cnt ((sumSrc.comp exVoid 0).1.code.map .i) T.init = some t' := h
    rw [h]; rfl
  rw [this]
  decide +kernel

/-- The lines of the program. -/
example : (emitProg (compile exVoid [sumSrc, accSrc] 0) T.init).map (·.out) = some
    [.nam 7, .push .fp, .op .LD .fp (.reg .sp), .stkChk,
     .op .LD (.g 0) (.fp 4), .op .CMP (.g 0) (.imm 0), .jcc 5 (.L 1), .op .LD (.g 0) (.imm 0), .jmp (.L 2), .lab (.L 1),
     .op .LD (.g 0) (.fp 4), .op .SUB (.g 0) (.imm 1), .push (.g 0), .call 7, .op .ADD .sp (.imm 2),
     .op .ADD (.g 0) (.fp 4), .lab (.L 2), .pop .fp, .ret,
     .nam 8, .push .fp, .op .LD .fp (.reg .sp), .push (.g 3), .stkChk,
     .op .LD (.g 3) (.imm 0), .lab (.L 3), .op .CMP (.g 3) (.fp 4), .jcc 3 (.L 4),
     .op .LD (.g 0) (.imm 0), .op .CMP (.g 0) (.glb 3), .jcc 4 (.L 4),
     .push (.g 3), .call 7, .op .ADD .sp (.imm 2), .op .ADD (.g 0) (.glb 3), .st 0 (.glb 3),
     .op .LD (.g 0) (.reg (.g 3)), .op .ADD (.g 0) (.imm 1), .op .LD (.g 3) (.reg (.g 0)), .jmp (.L 3), .lab (.L 4),
     .pop (.g 3), .pop .fp, .ret] := by
  decide +kernel

/-- The code generator exchanges nothing. -/
theorem exSrc_ordered : ∀ fn ∈ [sumSrc, accSrc], OrderedS fn.body := by
  have no : ∀ {op l r}, genSw op l r = false → (genSw op l r = true → Opt.Pure l ∧ Opt.Pure r) := by
    intro op l r h h'; rw [h] at h'; cases h'
  intro fn h
  simp only [List.mem_cons, List.not_mem_nil, or_false] at h
  rcases h with rfl | rfl
  · refine ⟨⟨⟨no rfl, trivial, trivial⟩, fun x hx => by cases hx; trivial⟩, fun x hx => ?_⟩
    cases hx
    exact ⟨no rfl, ⟨no rfl, trivial, trivial⟩, trivial⟩
  · refine ⟨trivial, fun x hx => ?_, ⟨⟨no rfl, trivial, trivial⟩, no rfl, trivial, trivial⟩, nofun⟩
    cases hx
    exact ⟨no rfl, ⟨no rfl, trivial, trivial⟩, no rfl, trivial, trivial⟩

/-- The trees add up the numbers. -/
theorem sum_evS (k : Nat) : k < 65536 → ∀ mem, evS exSrcEnv sumLay (fun _ _ _ => false) [sumSrc, accSrc] (fun _ _ _ => none) (k + 1) 7
    [BitVec.ofNat 16 k] (sumLay.clean mem) = some (tri k, sumLay.clean mem) := by
  induction k with
  | zero =>
    intro _ mem
    refine (C61_ev_iff (fn := sumSrc) rfl).2 ⟨rfl, fun loc => ⟨.ret (some 0), ⟨sumLay.clean mem, loc, fun c => [BitVec.ofNat 16 0].getD c.toNat 0⟩, rfl, ?_, (if_pos rfl).mpr rfl⟩⟩
    exact .seqX (.ifT (.intro _ ⟨rfl, by rfl⟩) (.ret (vs := [0]) rfl)) (by simp)
  | succ k ih =>
    intro hk mem
    refine (C61_ev_iff (fn := sumSrc) rfl).2 ⟨rfl, fun loc =>
      ⟨.ret (some (tri (k + 1))), ⟨sumLay.clean mem, loc, fun c => [BitVec.ofNat 16 (k + 1)].getD c.toNat 0⟩, rfl, ?_, (if_pos rfl).mpr rfl⟩⟩
    have hne : BitVec.ofNat 16 (k + 1) ≠ 0 := by
      intro h
      have := congrArg BitVec.toNat h
      rw [BitVec.toNat_ofNat] at this
      have h0 : (0 : Word).toNat = 0 := rfl
      omega
    have hsub : BitVec.ofNat 16 (k + 1) - BitVec.ofInt 16 1 = BitVec.ofNat 16 k := by
      apply BitVec.eq_of_toNat_eq
      simp only [BitVec.toNat_sub, BitVec.toNat_ofNat]
      show (65536 - 1 + (k + 1) % 65536) % 65536 = k % 65536
      omega
    have hcl : sumLay.clean (sumLay.clean mem) = sumLay.clean mem :=
      Lay.clean_eq fun a ha => by unfold Lay.clean; rw [if_pos ha]
    have hrec : evS exSrcEnv sumLay (fun _ _ _ => false) [sumSrc, accSrc] (fun _ _ _ => none) (k + 1) 7
        [BitVec.ofNat 16 (k + 1) - BitVec.ofInt 16 1] (sumLay.clean (sumLay.clean mem)) = some (tri k, sumLay.clean mem) := by
      rw [hsub, hcl]; exact ih (by omega) mem
    refine .seqN (.ifF ⟨_, rfl, ?_⟩) ?_
    · show false = (Cmm.Tree.ofB (BitVec.ofNat 16 (k + 1) == (0 : Word)) != 0)
      rw [beq_false_of_ne hne]; rfl
    · have e : tri (k + 1) = [tri k + BitVec.ofNat 16 (k + 1)].headD 0 := by
        show _ + _ = _ + _
        rw [BitVec.add_comm]
      rw [e]
      refine .ret ?_
      have hc : (aworld exSrcEnv sumLay sumSrc.cnt (evS exSrcEnv sumLay (fun _ _ _ => false) [sumSrc, accSrc] (fun _ _ _ => none) (k + 1))).call 7
          [BitVec.ofNat 16 (k + 1) - BitVec.ofInt 16 1] ⟨sumLay.clean mem, loc, fun c => [BitVec.ofNat 16 (k + 1)].getD c.toNat 0⟩ =
          some (tri k, ⟨sumLay.clean mem, loc, fun c => [BitVec.ofNat 16 (k + 1)].getD c.toNat 0⟩) := by
        simp only [aworld, hrec, Option.map_some]
      generalize evS exSrcEnv sumLay (fun _ _ _ => false) [sumSrc, accSrc] (fun _ _ _ => none) (k + 1) = call at hc ⊢
      have hf : evalP (aworld exSrcEnv sumLay sumSrc.cnt call) (fun _ _ _ => false)
          (.func 7 (.bin .sub (.leaf .prm 0) (.cnst 1))) ⟨sumLay.clean mem, loc, fun c => [BitVec.ofNat 16 (k + 1)].getD c.toNat 0⟩ =
          some ([tri k], ⟨sumLay.clean mem, loc, fun c => [BitVec.ofNat 16 (k + 1)].getD c.toNat 0⟩) := by
        have e1 : evalP (aworld exSrcEnv sumLay sumSrc.cnt call) (fun _ _ _ => false) (.bin .sub (.leaf .prm 0) (.cnst 1))
            ⟨sumLay.clean mem, loc, fun c => [BitVec.ofNat 16 (k + 1)].getD c.toNat 0⟩ =
            some ([BitVec.ofNat 16 (k + 1) - BitVec.ofInt 16 1],
              ⟨sumLay.clean mem, loc, fun c => [BitVec.ofNat 16 (k + 1)].getD c.toNat 0⟩) := rfl
        rw [evalP, Cmm.Tree.callD, e1]
        simp only [hc]
      rw [evalP, if_neg (by simp), Cmm.Gen.binG, Cmm.Gen.strictG, hf]
      · rfl
      all_goals nofun

/-- The printed lines of the program `sum` add up the numbers up to k, for every k there is room for on the stack. -/
example (A : Nat → Word) (tQ : T) (he : emitProg (compile exVoid [sumSrc, accSrc] 0) T.init = some tQ) (k : Nat) (m : M) (x : Int)
    (hx : 20 * (k + 1) + 2 ≤ x) (hx' : x + 2 ≤ 32000) (hsp : m.sp = ad 0x8000 x) (harg : m.mem.lw m.sp = BitVec.ofNat 16 k) :
    ∃ m', FSteps exSrcEnv A (tQ.out ++ [.call 7]) ⟨tQ.out.length, m⟩ ⟨tQ.out.length + 1, m'⟩ ∧ m'.g 0 = tri k ∧ m'.sp = m.sp ∧
      m'.fp = m.fp ∧ ∀ r, 3 ≤ r → r ≤ 11 → m'.g r = m.g r := by
  obtain ⟨m', h1, h2⟩ := C61_left_to_right_partial (E := exSrcEnv) (L := sumLay) (A := A) (S := 20) (X := 2) (n := k + 1) (rest := [.call 7])
    (pc := tQ.out.length) (x := x) (k := 0) (by decide) (by decide)
    (fun m x _ _ _ => ⟨_, rfl, rfl, rfl, fun r hr => by simp [setG, hr], fun _ _ _ => rfl⟩) (fun _ _ _ _ _ _ h => by cases h)
    (fun _ _ _ => ⟨rfl, rfl⟩) (fun _ => rfl) exSrc_ok exSrc_ordered W.init rfl exSrc_fits he (sum_evS k (by omega) m.mem) (by simp)
    ⟨hsp, by show x + 2 * (1 : Int) ≤ 32000; omega, fun i w hi => (by
      cases i with
      | zero =>
        simp only [List.getElem?_cons_zero, Option.some.injEq] at hi
        rw [← hi, ← harg, hsp, show x + 2 * ((0 : Nat) : Int) = x by omega]
        rfl
      | succ i => simp at hi)⟩ (by omega)
  exact ⟨m', h1, h2.val rfl, h2.sp, h2.fp, h2.reg⟩

end Cmm.Tac
