import Verif.Tac.View2
import Verif.Props.C62
import Mathlib.Tactic.ByContra

/-
C63: the conditions of C61 on the translation (`FitsAll`, decided by running vm2tac.c on the code) replaced by a
condition on the trees, `fitS` (Verif/Tac/View2.lean): nothing is changed while its old value is pending on the virtual
stack, comparisons with 0 follow an operation that leaves the right flags, and so do tests with JT and JF. With C62 this
leaves no condition on what the compiler does: for every program whose trees meet these conditions, the compiler comes to
an end and its lines do what the trees mean.
-/
namespace Cmm.Tac
open Cmm.Tree (Kind Bin Un Expr Stmt World)
open Cmm.Gen (Instr A1 A2 NT Mode OrderedS genSw)

/-! ### Conditions on the variables -/

theorem okE_mono {nt : NT} {V V' : Kind → Int → Bool} (h : ∀ k n, V k n = true → V' k n = true) (e : Expr) :
    ∀ m, okE nt V m e = true → okE nt V' m e = true := by
  induction e with
  | cnst v => intro m h; exact h
  | leaf k n => intro m ho; simp only [okE, Bool.and_eq_true] at ho ⊢; exact ⟨ho.1, h _ _ ho.2⟩
  | func0 f => intro m ho; simp only [okE, Bool.and_eq_true] at ho ⊢; exact ⟨h _ _ ho.1, ho.2⟩
  | func f a ih => intro m ho; simp only [okE, Bool.and_eq_true] at ho ⊢; exact ⟨⟨h _ _ ho.1.1, ho.1.2⟩, ih _ ho.2⟩
  | un op e ih => intro m ho; exact ih _ ho
  | assV k n r ih =>
    intro m ho
    simp only [okE, Bool.and_eq_true] at ho ⊢
    exact ⟨⟨ho.1.1, h _ _ ho.1.2⟩, ih _ ho.2⟩
  | assM op a i r iha ihi ihr =>
    intro m ho
    simp only [okE, Bool.and_eq_true] at ho ⊢
    refine ⟨⟨?_, iha _ ho.1.2⟩, ihr _ ho.2⟩
    have := ho.1.1
    cases op <;> first | exact ihi _ this | exact this
  | bin op l r ihl ihr =>
    intro m ho
    cases op <;> simp only [okE, Bool.and_eq_true] at ho ⊢ <;> first
      | exact ⟨ihl _ ho.1, ihr _ ho.2⟩
      | exact ⟨⟨ho.1.1, ihl _ ho.1.2⟩, ihr _ ho.2⟩
      | exact ⟨⟨ho.1.1, ihl _ ho.1.2⟩, ho.2⟩

theorem okS_mono {nt : NT} {V V' : Kind → Int → Bool} (h : ∀ k n, V k n = true → V' k n = true) (S : Stmt) :
    okS nt V S = true → okS nt V' S = true := by
  have opt : ∀ {m : Mode} {c : Option Expr}, c.all (okE nt V m) = true → c.all (okE nt V' m) = true := by
    intro m c hc
    cases c with
    | none => rfl
    | some c => exact okE_mono h c m hc
  induction S with
  | empty | brk | cnt => exact id
  | exp e => exact okE_mono h e _
  | ifs c a ih => simp only [okS, Bool.and_eq_true]; exact fun ho => ⟨okE_mono h c _ ho.1, ih ho.2⟩
  | els c a b iha ihb =>
    simp only [okS, Bool.and_eq_true]
    exact fun ho => ⟨⟨okE_mono h c _ ho.1.1, iha ho.1.2⟩, ihb ho.2⟩
  | whl c a re ih => simp only [okS, Bool.and_eq_true]; exact fun ho => ⟨⟨opt ho.1.1, ih ho.1.2⟩, opt ho.2⟩
  | dos a c ih => simp only [okS, Bool.and_eq_true]; exact fun ho => ⟨ih ho.1, okE_mono h c _ ho.2⟩
  | ret e => exact opt
  | seq k a b iha ihb => simp only [okS, Bool.and_eq_true]; exact fun ho => ⟨iha ho.1, ihb ho.2⟩

section
variable {E : Env} {L : Lay} {void : Int → Bool} {S : Nat}

/-- Conditions on a function, all of them on its tree: C61's (`SrcOk`), C62's (at most 20 entries on the virtual stack and no
product with a comparison as last operand) and `fitS`. -/
structure Sound (E : Env) (L : Lay) (void : Int → Bool) (S : Nat) (fn : SrcFn) : Prop where
  src : SrcOk E L void S fn
  short : needS fn.body ≤ 20
  mul : mulS fn.body = true
  fit : fitS fn.cnt fn.body = true

theorem Sound.shortF {fn : SrcFn} (h : Sound E L void S fn) : Short void fn := by
  refine ⟨okS_mono (fun k n hv => ?_) _ h.src.ok, h.short, h.mul⟩
  unfold counted
  cases k <;> simp_all [avail]

/-- The code of such a function meets none of the known defects, whatever was translated before. -/
theorem C63_fits {fn : SrcFn} (h : Sound E L void S fn) (n : Nat) {t : T} (w : W t) (hs : t.stk = []) :
    Fits fn.cnt (fn.comp void n).1.keep (fn.comp void n).1.body .all t = true := by
  have hz : WZ (useOk ⟨fn.cnt, void⟩ (avail E L fn)) (needS fn.body) (fn.comp void n).1.body :=
    (genS_wz fn.body h.src.ok (Nat.le_refl _) _ _).append (wz_printLab _)
  obtain ⟨b', hz⟩ := hz false
  obtain ⟨-, -, h3, -⟩ := trail_sound hz
  have hq : VQ fn.cnt [] (fn.comp void n).1.body := (genS_vq fn.body h.src.ok h.fit _ _).append (vq_printLab _)
  have hloc : ∀ k, .ldL k ∈ (fn.comp void n).1.body ∨ .stL k ∈ (fn.comp void n).1.body → 1 ≤ fn.cnt k ∧ fn.cnt k ≤ fn.d := by
    intro k hk
    have : avail E L fn .loc k = true := by rcases hk with hk | hk <;> exact h3 _ hk
    simpa [avail] using this
  have hprm : ∀ k, .ldP k ∈ (fn.comp void n).1.body → 0 ≤ fn.cnt k ∧ fn.cnt k < fn.np := by
    intro k hk
    have : avail E L fn .prm k = true := h3 _ hk
    simpa [avail] using this
  have hkeep : ∀ j, (fn.comp void n).1.keep j = (decide (-(memLocals fn.d : Int) ≤ j) && decide (j < 4 + 2 * (fn.np : Int))) :=
    fun _ => rfl
  obtain ⟨a', ha, -⟩ := hq ⟨[], none, .all, false, false, false⟩ rfl nofun
  refine views_fits w (fun k hk => (hloc k ?_).1) ⟨fun k hk h9 => ?_, fun k hk => ?_⟩ (seen_empty w hs) ha
  · simpa using hk
  · have := hloc k (.inl hk)
    rw [hkeep, hkeep]
    simp only [Bool.and_eq_true, decide_eq_true_eq]
    unfold memLocals
    omega
  · have := hprm k hk
    rw [hkeep, hkeep]
    simp only [Bool.and_eq_true, decide_eq_true_eq]
    omega

/-- A program of such functions meets none of the known defects. -/
theorem C63_fitsAll : ∀ (fns : List SrcFn) (k : Nat) (t : T), (∀ fn ∈ fns, Sound E L void S fn) → Rest t →
    FitsAll (compile void fns k) t := by
  intro fns
  induction fns with
  | nil => intros; trivial
  | cons fn fns ih =>
    intro k t h hr
    obtain ⟨w, hs⟩ := Fn.entered_w (fn := (fn.comp void k).1) hr.1 hr.2
    refine ⟨C63_fits (h fn (List.mem_cons_self ..)) k w hs, fun t' ht' => ?_⟩
    obtain ⟨t1, h1, hr1⟩ := C62_function (h fn (List.mem_cons_self ..)).shortF k hr
    have : some t1 = some t' := by rw [← h1]; exact ht'
    cases this
    exact ih _ _ (fun fn hf => h fn (List.mem_cons_of_mem _ hf)) hr1

variable {fns : List SrcFn} {ext : Int → List Word → Mem → Option (Word × Mem)} {A : Nat → Word} {X : Nat} {t0 : T}

/-- C63: the compiler comes to an end, and its lines do what the trees mean. -/
theorem C63 (hz : L.size < 65535) (hX : 2 ≤ X) (hchk : ChkAt E L X) (hext : ExtOk E L X ext) (hdv : DivOk E)
    (hval : ∀ f, E.val f = !void f) (hok : ∀ fn ∈ fns, Sound E L void S fn) (k : Nat) (h0 : Rest t0) :
    ∃ tQ, emitProg (compile void fns k) t0 = some tQ ∧ ∀ {rest : List Line} {n : Nat} {f : Int} {vs : List Word} {v : Word}
      {mem' : Mem} {pc : Nat} {m : M} {x : Int}, evS E L genSw fns ext n f vs (L.clean m.mem) = some (v, mem') →
      (tQ.out ++ rest)[pc]? = some (.call f) → Ready L vs m x → ((n * S + X : Nat) : Int) ≤ x →
      ∃ m', FSteps E A (tQ.out ++ rest) ⟨pc, m⟩ ⟨pc + 1, m'⟩ ∧ Returns L (E.val f) v mem' (x + 2 * vs.length) m m' :=
  C62_correct_partial hz hX hchk hext hdv hval (fun fn h => (hok fn h).src) (fun fn h => (hok fn h).shortF) h0
    (C63_fitsAll fns k t0 hok h0)

/-- The same with operands evaluated from left to right, if the code generator exchanges only operands without side
effects. -/
theorem C63_left_to_right (hz : L.size < 65535) (hX : 2 ≤ X) (hchk : ChkAt E L X) (hext : ExtOk E L X ext) (hdv : DivOk E)
    (hval : ∀ f, E.val f = !void f) (hok : ∀ fn ∈ fns, Sound E L void S fn) (hord : ∀ fn ∈ fns, OrderedS fn.body) (k : Nat)
    (h0 : Rest t0) :
    ∃ tQ, emitProg (compile void fns k) t0 = some tQ ∧ ∀ {rest : List Line} {n : Nat} {f : Int} {vs : List Word} {v : Word}
      {mem' : Mem} {pc : Nat} {m : M} {x : Int}, evS E L (fun _ _ _ => false) fns ext n f vs (L.clean m.mem) = some (v, mem') →
      (tQ.out ++ rest)[pc]? = some (.call f) → Ready L vs m x → ((n * S + X : Nat) : Int) ≤ x →
      ∃ m', FSteps E A (tQ.out ++ rest) ⟨pc, m⟩ ⟨pc + 1, m'⟩ ∧ Returns L (E.val f) v mem' (x + 2 * vs.length) m m' := by
  obtain ⟨tQ, he, h⟩ := C63 (A := A) hz hX hchk hext hdv hval hok k h0
  exact ⟨tQ, he, fun hv => h (C61_order hord _ _ _ _ _ hv)⟩

end

/-! ### Simple programs -/

/-- No constant 0 is compared and nothing tested is a value from memory. -/
def mild : Expr → Bool
  | .cnst _ | .leaf _ _ | .func0 _ => true
  | .func _ a => mild a
  | .un _ e => mild e
  | .bin op l r => match op with
    | .gt | .ge | .lt | .le | .equ | .neq => mild l && mild r && nz l && nz r
    | .and | .or => mild l && mild r && testOk l && testOk r
    | .dot => mild l
    | _ => mild l && mild r
  | .assV _ _ r => mild r
  | .assM _ a i r => mild a && mild i && mild r
where
  nz : Expr → Bool
    | .cnst v => v ≠ 0
    | .bin .comm _ _ | .assV _ _ _ | .assM _ _ _ _ => false
    | _ => true

theorem mild_descr {cnt : Int → Int} {e : Expr} (h : mild.nz e = true) : descr cnt e ≠ .zero := by
  cases e with
  | cnst v => simp only [mild.nz, decide_eq_true_eq] at h; simp only [descr]; rw [if_neg h]; intro hx; cases hx
  | leaf k n => cases k <;> simp only [descr] <;> first | (intro hx; cases hx; done) | (unfold locD; split <;> (intro hx; cases hx))
  | func0 f => nofun
  | func f a => nofun
  | un op e => nofun
  | assV k n r => cases h
  | assM op a i r => cases h
  | bin op l r => cases op <;> simp only [descr] <;> first | (intro hx; cases hx; done) | (cases h; done) | (cases descr cnt l <;> (intro hx; cases hx))

/-- Expressions without calls and assignments need no condition on what is pending. -/
theorem C63_pure (cnt : Int → Int) (e : Expr) (hp : Opt.Pure e) (hc : mild e = true) : ∀ P, fitE cnt P e = true := by
  induction e with
  | cnst v => intro P; rfl
  | leaf k n => intro P; rfl
  | func0 f => exact hp.elim
  | func f a ih => exact hp.elim
  | assV k n r ih => exact hp.elim
  | assM op a i r iha ihi ihr => exact hp.elim
  | un op e ih => intro P; exact ih hp hc P
  | bin op l r ihl ihr =>
    intro P
    cases op <;> simp only [mild, Bool.and_eq_true] at hc
    case gt | ge | lt | le | equ | neq =>
      have h1 := mild_descr (cnt := cnt) hc.1.2
      have h2 := mild_descr (cnt := cnt) hc.2
      simp only [fitE]
      split <;> simp [ihl hp.1 hc.1.1.1, ihr hp.2 hc.1.1.2, cmpOk, h1, h2]
    case and | or => simp [fitE, ihl hp.1 hc.1.1.1, ihr hp.2 hc.1.1.2, hc.1.2, hc.2]
    case dot => exact ihl hp.1 hc P
    case comm | semi => simp [fitE, ihl hp.1 hc.1, ihr hp.2 hc.2]
    all_goals
      simp only [fitE]
      split <;> simp [ihl hp.1 hc.1, ihr hp.2 hc.2]

/-! ### Examples -/

/-- `x + a[i] < (y & 3) && b[j]`, with anything pending. -/
example (cnt : Int → Int) (P : List D) : fitE cnt P (.bin .and
    (.bin .lt (.bin .add (.leaf .loc 1) (.bin .idxi (.leaf .glb 2) (.leaf .prm 0))) (.bin .band (.leaf .glb 3) (.cnst 3)))
    (.bin .idxb (.leaf .glb 4) (.leaf .loc 5))) = true :=
  C63_pure cnt _ (by simp [Opt.Pure]) (by decide) P

/-- `while ((p = p + 1)[0] != 5 && f(a[i = i + 1]) > 2) a[i] = f(a[i - 1]) + (i & 7);` with `p`, `i` local and `a` global. -/
example : fitS (fun n => n) (.whl (some (.bin .and
    (.bin .neq (.bin .idxi (.assV .loc 1 (.bin .add (.leaf .loc 1) (.cnst 1))) (.cnst 0)) (.cnst 5))
    (.bin .gt (.func 7 (.bin .idxi (.leaf .glb 2) (.assV .loc 3 (.bin .add (.leaf .loc 3) (.cnst 1))))) (.cnst 2))))
    (.exp (.assM .idxi (.leaf .glb 2) (.leaf .loc 3) (.bin .add (.func 7 (.bin .idxi (.leaf .glb 2)
      (.bin .sub (.leaf .loc 3) (.cnst 1)))) (.bin .band (.leaf .loc 3) (.cnst 7))))) none) = true := by
  decide

theorem exSrc_sound : ∀ fn ∈ [sumSrc, accSrc], Sound exSrcEnv sumLay exVoid 20 fn := by
  intro fn h
  refine ⟨exSrc_ok fn h, ?_, ?_, ?_⟩ <;> simp only [List.mem_cons, List.not_mem_nil, or_false] at h <;>
    rcases h with rfl | rfl <;> decide

/-- The program `sum`, `acc` of C61 again. -/
example (A : Nat → Word) : ∃ tQ, emitProg (compile exVoid [sumSrc, accSrc] 0) T.init = some tQ ∧
    ∀ (k : Nat) (m : M) (x : Int), 20 * (k + 1) + 2 ≤ x → x + 2 ≤ 32000 → m.sp = ad 0x8000 x → m.mem.lw m.sp = BitVec.ofNat 16 k →
    ∃ m', FSteps exSrcEnv A (tQ.out ++ [.call 7]) ⟨tQ.out.length, m⟩ ⟨tQ.out.length + 1, m'⟩ ∧ m'.g 0 = tri k := by
  obtain ⟨tQ, he, h⟩ := C63_left_to_right (E := exSrcEnv) (L := sumLay) (A := A) (S := 20) (X := 2) (by decide) (by decide)
    (fun m x _ _ _ => ⟨_, rfl, rfl, rfl, fun r hr => by simp [setG, hr], fun _ _ _ => rfl⟩)
    (ext := fun _ _ _ => none) (fun _ _ _ _ _ _ h => by cases h) (fun _ _ _ => ⟨rfl, rfl⟩) (fun _ => rfl) exSrc_sound exSrc_ordered 0 rest_init
  refine ⟨tQ, he, fun k m x hx hx' hsp harg => ?_⟩
  obtain ⟨m', h1, h2⟩ := h (rest := [.call 7]) (pc := tQ.out.length) (x := x) (sum_evS k (by omega) m.mem) (by simp)
    ⟨hsp, by show x + 2 * (1 : Int) ≤ 32000; omega, fun i w hi => (by
      cases i with
      | zero =>
        simp only [List.getElem?_cons_zero, Option.some.injEq] at hi
        rw [← hi, ← harg, hsp, show x + 2 * ((0 : Nat) : Int) = x by omega]
        rfl
      | succ i => simp at hi)⟩ (by omega)
  exact ⟨m', h1, h2.val rfl⟩

/-! ### Without the condition -/

/-- `int f() { int a; return (a = 1) + (a = 2); }`, compiled with -K. -/
def lazySrc : SrcFn where
  f := 7
  d := 1
  np := 0
  ker := true
  cnt n := n
  strs := 0
  body := .ret (some (.bin .add (.assV .loc 1 (.cnst 1)) (.assV .loc 1 (.cnst 2))))

/-- It meets all the other conditions. -/
theorem lazySrc_ok : SrcOk exSrcEnv sumLay exVoid 20 lazySrc ∧ Short exVoid lazySrc :=
  ⟨⟨by simp [lazySrc, Gen.NoBC], by decide, by decide⟩, by decide, by decide, by decide⟩

example : fitS lazySrc.cnt lazySrc.body = false := by decide

theorem stuck_unique {E : Env} {A : Nat → Word} {Q : List Line} (hd : Definite E A Q) {a b c : TC} (h : FSteps E A Q a b)
    (h' : FSteps E A Q a c) (hb : ∀ d, ¬ FStep E A Q b d) (hc : ∀ d, ¬ FStep E A Q c d) : b = c := by
  induction h with
  | refl =>
    cases h' with
    | refl => rfl
    | head h1 _ => exact absurd h1 (hb _)
  | head h1 _ ih =>
    cases h' with
    | refl => exact absurd h1 (hc _)
    | head h1' h2' =>
      rw [C60_det hd h1' h1] at h2'
      exact ih h2' hb

/-- Lines of the function and a call. -/
def lazyText : List Line :=
  [.nam 7, .push .fp, .op .LD .fp (.reg .sp), .push (.g 3), .op .LD (.g 3) (.imm 1), .op .LD (.g 3) (.imm 2),
   .op .LD (.g 0) (.reg (.g 3)), .op .ADD (.g 0) (.reg (.g 3)), .pop (.g 3), .pop .fp, .ret, .call 7]

/-- They are the lines the compiler prints. -/
theorem lazy_text : (emitProg (compile exVoid [lazySrc] 0) T.init).map (·.out ++ [.call 7]) = some lazyText := by decide +kernel

/-- The machine before the call: 1000 bytes of stack, everything else 0. -/
def lazyM : M := ⟨fun _ => 0, 0, 0x83e8, false, false, fun _ => 0⟩

/-- One line without jumps. -/
def lineF (a : TC) : TC := ⟨a.pc + 1, ((lazyText[a.pc]?).bind (a.m.line exSrcEnv)).getD a.m⟩

theorem line_step {a : TC} {l : Line} (h1 : lazyText[a.pc]? = some l) (h2 : (a.m.line exSrcEnv l).isSome = true) :
    FStep exSrcEnv (fun i => BitVec.ofNat 16 i) lazyText a (lineF a) := by
  obtain ⟨m', hm⟩ := Option.isSome_iff_exists.1 h2
  have : lineF a = ⟨a.pc + 1, m'⟩ := by unfold lineF; rw [h1]; simp [hm]
  rw [this]
  exact .plain (.line h1 hm)

/-- The machine after the CALL. -/
def lazyM0 : TC := ⟨0, { lazyM with sp := lazyM.sp - 2, mem := lazyM.mem.sw (lazyM.sp - 2) 12 }⟩

/-- The machine before the RET. -/
def lazyM1 : TC := lineF (lineF (lineF (lineF (lineF (lineF (lineF (lineF (lineF (lineF lazyM0)))))))))

theorem lazy_run : FSteps exSrcEnv (fun i => BitVec.ofNat 16 i) lazyText ⟨11, lazyM⟩
    ⟨12, { lazyM1.m with sp := lazyM1.m.sp + 2 }⟩ := by
  refine .head (b := lazyM0) (.call (f := 7) rfl rfl) ?_
  refine .head (line_step rfl rfl) <| .head (line_step rfl rfl) <| .head (line_step rfl rfl) <| .head (line_step rfl rfl) <|
    .head (line_step rfl rfl) <| .head (line_step rfl rfl) <| .head (line_step rfl rfl) <| .head (line_step rfl rfl) <|
    .head (line_step rfl rfl) <| .head (line_step rfl rfl) <| .head ?_ .refl
  exact .ret (pc := 10) (r := 12) (m := lazyM1.m) rfl (by decide +kernel) (by decide)

/-- The trees return 3, the lines return 4: without `fitS` the claim is false. -/
theorem C63_false : ¬ ∀ (E : Env) (L : Lay) (void : Int → Bool) (S X : Nat) (fns : List SrcFn) (A : Nat → Word),
    L.size < 65535 → 2 ≤ X → ChkAt E L X → ExtOk E L X (fun _ _ _ => none) → DivOk E → (∀ f, E.val f = !void f) →
    (∀ fn ∈ fns, SrcOk E L void S fn) → (∀ fn ∈ fns, Short void fn) → ∀ tQ, emitProg (compile void fns 0) T.init = some tQ →
    ∀ (n : Nat) (f : Int) (v : Word) (mem' : Mem) (m : M) (x : Int),
      evS E L (fun _ _ _ => false) fns (fun _ _ _ => none) n f [] (L.clean m.mem) = some (v, mem') → Ready L [] m x →
      ((n * S + X : Nat) : Int) ≤ x →
      ∃ m', FSteps E A (tQ.out ++ [.call f]) ⟨tQ.out.length, m⟩ ⟨tQ.out.length + 1, m'⟩ ∧ Returns L (E.val f) v mem' x m m' := by
  intro h
  have ht := lazy_text
  cases he : emitProg (compile exVoid [lazySrc] 0) T.init with
  | none => rw [he] at ht; cases ht
  | some tQ =>
    rw [he] at ht
    have ht : tQ.out ++ [.call 7] = lazyText := Option.some.inj ht
    have hl : tQ.out.length = 11 := by
      have := congrArg List.length ht
      rw [List.length_append] at this
      exact Nat.succ.inj this
    have hev : evS exSrcEnv sumLay (fun _ _ _ => false) [lazySrc] (fun _ _ _ => none) 1 7 [] (sumLay.clean lazyM.mem) =
        some (3, sumLay.clean lazyM.mem) := by
      refine (C61_ev_iff (fn := lazySrc) rfl).2 ⟨rfl, fun loc => ⟨.ret (some 3), ⟨sumLay.clean lazyM.mem, _, _⟩, rfl,
        .ret (vs := [3]) rfl, (if_pos rfl).mpr rfl⟩⟩
    obtain ⟨m', h1, h2⟩ := h exSrcEnv sumLay exVoid 20 2 [lazySrc] (fun i => BitVec.ofNat 16 i) (by decide) (by decide)
      (fun m x _ _ _ => ⟨_, rfl, rfl, rfl, fun r hr => by simp [setG, hr], fun _ _ _ => rfl⟩) (fun _ _ _ _ _ _ h => by cases h)
      (fun _ _ _ => ⟨rfl, rfl⟩) (fun _ => rfl) (by simpa using lazySrc_ok.1) (by simpa using lazySrc_ok.2) tQ he 1 7 3 _ lazyM 1000 hev
      ⟨by decide, by decide, nofun⟩ (by decide)
    rw [ht, hl] at h1
    have hd : Definite exSrcEnv (fun i => BitVec.ofNat 16 i) lazyText := by
      refine ⟨fun i j b hi hj => ?_, fun i j f hi hj => ?_, fun i j hi hj e => ?_, fun _ _ _ => rfl⟩
      · have := List.mem_of_getElem? hi
        simp [lazyText] at this
      · have key : ∀ i : Nat, lazyText[i]? = some (.nam f) → i = 0 := by
          intro i hi
          by_contra h0
          obtain ⟨k, rfl⟩ := Nat.exists_eq_succ_of_ne_zero h0
          have := List.mem_of_getElem? (l := lazyText.tail) (by rw [List.getElem?_tail]; exact hi)
          simp [lazyText] at this
        rw [key i hi, key j hj]
      · have hlen : lazyText.length = 12 := rfl
        have := congrArg BitVec.toNat e
        simp only [BitVec.toNat_ofNat] at this
        omega
    have stuck : ∀ m d, ¬ FStep exSrcEnv (fun i => BitVec.ofNat 16 i) lazyText ⟨12, m⟩ d := by
      intro m d hs
      have : lazyText[12]? = none := rfl
      cases hs with
      | plain hs => cases hs <;> simp_all
      | call hs _ => rw [this] at hs; cases hs
      | ret hs _ _ => rw [this] at hs; cases hs
    have := stuck_unique hd h1 lazy_run (stuck _) (stuck _)
    have hm : m' = { lazyM1.m with sp := lazyM1.m.sp + 2 } := congrArg TC.m this
    have h4 : m'.g 0 = 4 := by rw [hm]; decide +kernel
    have h3 : m'.g 0 = 3 := h2.val rfl
    rw [h3] at h4
    revert h4
    decide

end Cmm.Tac
