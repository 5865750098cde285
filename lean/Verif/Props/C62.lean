import Verif.Tac.Live2
import Verif.Props.C61

/-
C62: the compiler comes to an end. src/vm2tac.c has many tests for its own mistakes (BUG) and one for a full virtual stack
("stack overflow...pushStk"); each stops the compiler. For programs whose expressions need at most 20 entries none of them
is reached, apart from multiplications whose last operand is a comparison.
-/
namespace Cmm.Tac
open Cmm.Tree (Kind Bin Un Expr Stmt World)
open Cmm.Gen (Instr A1 A2 NT)

/-- Local variables are counted from 1 (parser.c:728, 1001). -/
def counted (cnt : Int → Int) (k : Kind) (n : Int) : Bool := decide (k ≠ .loc) || decide (1 ≤ cnt n)

/-- What is asked of a function: trees as the parser builds them, && and || as conditions only (`okS`), at most 20 entries
on the virtual stack, no multiplication whose last operand is a comparison. -/
structure Short (void : Int → Bool) (fn : SrcFn) : Prop where
  ok : okS ⟨fn.cnt, void⟩ (counted fn.cnt) fn.body = true
  short : needS fn.body ≤ 20
  mul : mulS fn.body = true

/-- The state between two functions. -/
def Rest (t : T) : Prop := W t ∧ t.stk = []

theorem C62_function {void : Int → Bool} {fn : SrcFn} (h : Short void fn) (n : Nat) {t : T} (hr : Rest t) :
    ∃ t', emits fn.cnt ((fn.comp void n).1.code.map .i) t = some t' ∧ Rest t' := by
  have hz : WZ (useOk ⟨fn.cnt, void⟩ (counted fn.cnt)) (needS fn.body) (fn.comp void n).1.body :=
    (genS_wz fn.body h.ok (Nat.le_refl _) _ _).append (wz_printLab _)
  obtain ⟨b', hz⟩ := hz false
  obtain ⟨-, -, h3, -⟩ := trail_sound hz
  have hm : MulOk true (fn.comp void n).1.body := (genS_mul fn.body h.mul _ _).append (mulOk_printLab _)
  have hc : Counted fn.cnt ((fn.comp void n).1.body.map .i) := by
    intro k hk
    have : counted fn.cnt .loc k = true := by
      rcases hk with hk | hk <;>
      · obtain ⟨i, hi, e⟩ := List.mem_map.1 hk
        cases e
        exact h3 _ hi
    simpa [counted] using this
  obtain ⟨w1, hs1⟩ := Fn.entered_w (fn := (fn.comp void n).1) hr.1 hr.2
  obtain ⟨tB, hB, wB, hlB⟩ := emits_ok h.short hz (Nat.zero_le _) w1 nofun (by rw [hs1]; rfl) hc hm nofun
  have hsB : tB.stk = [] := List.length_eq_zero_iff.1 hlB
  obtain ⟨t2, h2⟩ := cancelFrame_ok wB hsB
  have e0 : emits fn.cnt (([.nam fn.f, if fn.ker then .entryK fn.d else .entry fn.d] : List Instr).map .i) t =
      some ((fn.comp void n).1.entered t) := by
    unfold Fn.entered
    show _ = some (if fn.ker then _ else _)
    cases fn.ker <;> rfl
  have hr : vmRet tB = some (t2.print .ret) := by
    unfold vmRet; rw [h2]; rfl
  refine ⟨t2.print .ret, ?_, ?_⟩
  · show emits fn.cnt ((([.nam fn.f, if fn.ker then .entryK fn.d else .entry fn.d] : List Instr) ++ (fn.comp void n).1.body ++ [Instr.ret]).map .i) t = _
    rw [List.map_append, List.map_append, emits_append, emits_append, e0, Option.bind_some, hB, Option.bind_some]
    show (vmRet tB).bind some = _
    rw [hr]
    rfl
  · unfold cancelFrame at h2
    rw [if_neg (by rw [hsB]; simp)] at h2
    split at h2
    · cases h2
    · cases h2
      exact ⟨wB.frame, hsB⟩

/-- C62: every such program is translated. -/
theorem C62_partial {void : Int → Bool} : ∀ (fns : List SrcFn) (k : Nat) (t : T), (∀ fn ∈ fns, Short void fn) → Rest t →
    ∃ tQ, emitProg (compile void fns k) t = some tQ ∧ Rest tQ := by
  intro fns
  induction fns with
  | nil => intro k t _ hr; exact ⟨t, rfl, hr⟩
  | cons fn fns ih =>
    intro k t h hr
    obtain ⟨t1, h1, hr1⟩ := C62_function (h fn (List.mem_cons_self ..)) k hr
    obtain ⟨tQ, h2, hr2⟩ := ih (fn.comp void k).2 t1 (fun fn hf => h fn (List.mem_cons_of_mem _ hf)) hr1
    refine ⟨tQ, ?_, hr2⟩
    show (emits fn.cnt ((fn.comp void k).1.code.map .i) t).bind (emitProg (compile void fns (fn.comp void k).2)) = _
    rw [h1]
    exact h2

/-- C61 without supposing that the compiler comes to an end. -/
theorem C62_correct_partial {E : Env} {L : Lay} {void : Int → Bool} {fns : List SrcFn}
    {ext : Int → List Word → Mem → Option (Word × Mem)} {A : Nat → Word} {S X : Nat} {t0 : T}
    (hz : L.size < 65535) (hX : 2 ≤ X) (hchk : ChkAt E L X) (hext : ExtOk E L X ext) (hdv : DivOk E)
    (hval : ∀ f, E.val f = !void f) (hok : ∀ fn ∈ fns, SrcOk E L void S fn) (hsh : ∀ fn ∈ fns, Short void fn) {k : Nat}
    (h0 : Rest t0) (hfit : FitsAll (compile void fns k) t0) :
    ∃ tQ, emitProg (compile void fns k) t0 = some tQ ∧ ∀ {rest : List Line} {n : Nat} {f : Int} {vs : List Word} {v : Word}
      {mem' : Mem} {pc : Nat} {m : M} {x : Int}, evS E L Gen.genSw fns ext n f vs (L.clean m.mem) = some (v, mem') →
      (tQ.out ++ rest)[pc]? = some (.call f) → Ready L vs m x → ((n * S + X : Nat) : Int) ≤ x →
      ∃ m', FSteps E A (tQ.out ++ rest) ⟨pc, m⟩ ⟨pc + 1, m'⟩ ∧ Returns L (E.val f) v mem' (x + 2 * vs.length) m m' := by
  obtain ⟨tQ, he, -⟩ := C62_partial fns k t0 hsh h0
  exact ⟨tQ, he, fun h hpc hr hx => C61_partial hz hX hchk hext hdv hval hok h0.1 h0.2 hfit he h hpc hr hx⟩

/-! ### The array of the virtual stack

The arrays stkSta and stkAux have StkSIZ = 20 elements (vm2tac.c:136-138). -/

theorem pushStk_len {e : Ent} {t t' : T} (h : pushStk e t = some t') : t'.stk.length ≤ 20 := by
  unfold pushStk at h
  split at h
  · cases h
  · rename_i hl
    cases h
    show t.stk.length + 1 ≤ 20
    have : StkSIZ = 20 := rfl
    omega

theorem bound_step {cnt : Int → Int} {i : Instr} {t t' : T} {l l' : List Bool} (w : W t) (hot : uses (.i i) = true → Hot t)
    (hl : t.stk.length = l.count true) (hsh : shapeF i l = some l') (h : emit cnt i t = some t') (hb : t.stk.length ≤ 20) :
    t'.stk.length ≤ 20 := by
  have hlen := emit_len w hot hl hsh h
  have less : l'.count true ≤ l.count true → t'.stk.length ≤ 20 := by omega
  cases i with
  | ldC v => exact pushStk_len h
  | ldG n => exact pushStk_len h
  | ldP n => exact pushStk_len h
  | ldLab n => exact pushStk_len h
  | ldNam n => exact pushStk_len h
  | ldL n =>
    have h : vmLdLoc (cnt n) t = some t' := h
    unfold vmLdLoc at h
    split at h
    · exact pushStk_len h
    · exact pushStk_len h
  | callF n f =>
    have h : vmCallF n f t = some t' := h
    unfold vmCallF at h
    cases h1 : call n f t with
    | none => rw [h1] at h; cases h
    | some t1 =>
      rw [h1] at h
      simp only [Option.bind_eq_bind, Option.bind_some] at h
      cases h2 : allocAcc t1 with
      | none => rw [h2] at h; cases h
      | some q =>
        rw [h2] at h
        simp only [Option.bind_some] at h
        split at h
        · cases h
        · exact pushStk_len h
  | callP n f =>
    simp only [shapeF, shape] at hsh
    split at hsh
    · cases hsh; exact less ((List.drop_sublist n l).count_le true)
    · cases hsh
  | lab n => simp only [shapeF] at hsh; split at hsh <;> cases hsh; exact less (by simp)
  | jmp n => simp only [shapeF] at hsh; split at hsh <;> cases hsh; exact less (by simp)
  | jt n => simp only [shapeF] at hsh; split at hsh <;> cases hsh; exact less (by simp)
  | jf n => simp only [shapeF] at hsh; split at hsh <;> cases hsh; exact less (by simp)
  | mreg => simp only [shapeF] at hsh; split at hsh <;> cases hsh; exact less (by simp)
  | nam f => cases hsh
  | entry d => cases hsh
  | entryK d => cases hsh
  | entryI d => cases hsh
  | ret => cases hsh
  | retI => cases hsh
  | bug => cases hsh
  | _ =>
    refine less ?_
    rcases l with _ | ⟨_ | _, _ | ⟨_ | _, _ | ⟨_ | _, l⟩⟩⟩ <;> simp only [shapeF, shape, reduceCtorEq] at hsh <;> cases hsh <;> simp

/-- vm2tac.c never writes outside of the arrays of the virtual stack: at every point of the translation of any code that
keeps the discipline, whatever its depth, there are at most 20 entries (otherwise the compiler stops). -/
theorem C62_bound {cnt : Int → Int} {p : List Instr} : ∀ {b : Bool} {t t' : T} {l l' : List Bool}, W t → (b = true → Hot t) →
    t.stk.length = l.count true → t.stk.length ≤ 20 → Disc b (p.map .i) → Counted cnt (p.map .i) → shapesF p l = some l' →
    emits cnt (p.map .i) t = some t' → t'.stk.length ≤ 20 := by
  induction p with
  | nil => intro b t t' l l' _ _ _ hb _ _ _ h; cases h; exact hb
  | cons i p ih =>
    intro b t t' l l' w hot hl hb hd hc hsh h
    simp only [List.map_cons, emits] at h
    cases h1 : emitV cnt (.i i) t with
    | none => rw [h1] at h; cases h
    | some t1 =>
      rw [h1] at h
      simp only [shapesF] at hsh
      cases h2 : shapeF i l with
      | none => rw [h2] at hsh; cases hsh
      | some l1 =>
        rw [h2] at hsh
        have hs := emitV_step w hot hd.1 (fun n hn => hc n (by simp only [List.mem_singleton] at hn; rcases hn with hn | hn <;> simp [hn])) h1
        have hu : uses (.i i) = true → Hot t := fun hu => hot (hd.1 hu)
        exact ih hs.1 hs.2 (emit_len w hu hl h2 h1) (bound_step w hu hl h2 h1 hb) hd.2
          (fun n hn => hc n (hn.imp (List.mem_cons_of_mem _) (List.mem_cons_of_mem _))) hsh h

/-- 20 constants fill the stack, and a sum of 20 is translated. -/
example : (emits id ((List.replicate 20 (.ldC 1 : Instr)).map .i) T.init).map (·.stk.length) = some 20 ∧
    shapesF (List.replicate 20 (.ldC 1)) [] = some (List.replicate 20 true) := by
  decide

/-! ### Examples -/

theorem rest_init : Rest T.init := ⟨W.init, rfl⟩

/-- The example of C61. -/
example : ∃ tQ, emitProg (compile exVoid [sumSrc, accSrc] 0) T.init = some tQ ∧ Rest tQ :=
  C62_partial _ _ _ (by
    intro fn h
    simp only [List.mem_cons, List.not_mem_nil, or_false] at h
    rcases h with rfl | rfl <;> exact ⟨by decide, by decide, by decide⟩) rest_init

/-- A function with the one statement `e;`. -/
def oneSrc (e : Expr) : SrcFn where
  f := 7
  d := 0
  np := 0
  ker := false
  cnt n := n
  strs := 0
  body := .exp e

/-- `p - (p - (p - …))` with `n` minus signs. -/
def deep : Nat → Expr
  | 0 => .leaf .prm 0
  | n + 1 => .bin .sub (.leaf .prm 0) (deep n)

theorem deep_need (n : Nat) : need (deep n) = n + 1 := by
  induction n with
  | zero => rfl
  | succ n ih =>
    show 1 + max 1 (need (deep n)) = _
    rw [ih]
    omega

/-- Up to 20 entries such an expression is translated. -/
theorem C62_deep (n : Nat) (hn : n ≤ 19) :
    ∃ tQ, emitProg (compile (fun _ => false) [oneSrc (deep n)] 0) T.init = some tQ ∧ Rest tQ := by
  have hok : ∀ n, okE ⟨fun n => n, fun _ => false⟩ (counted fun n => n) .val (deep n) = true := by
    intro n
    induction n with
    | zero => rfl
    | succ n ih => simp only [deep, okE, ih]; rfl
  have hmul : ∀ n, mulE (deep n) = true := by
    intro n
    induction n with
    | zero => rfl
    | succ n ih => simp [deep, mulE, ih]
  refine C62_partial _ _ _ ?_ rest_init
  intro fn h
  simp only [List.mem_cons, List.not_mem_nil, or_false] at h
  subst h
  refine ⟨?_, ?_, hmul n⟩
  · show okE _ _ .void (deep n) = true
    cases n with
    | zero => rfl
    | succ n => exact Bool.and_eq_true_iff.2 ⟨rfl, hok n⟩
  · show need (deep n) ≤ 20
    rw [deep_need]
    omega

/-- With 21 entries the compiler stops ("stack overflow...pushStk"). -/
theorem C62_deep_false : ¬ ∀ n, ∃ tQ, emitProg (compile (fun _ => false) [oneSrc (deep n)] 0) T.init = some tQ := by
  intro h
  obtain ⟨tQ, h⟩ := h 20
  have : emitProg (compile (fun _ => false) [oneSrc (deep 20)] 0) T.init = none := by decide +kernel
  rw [this] at h
  cases h

/-- `(p, 2) * ord(p < q)` -/
def mulCmp : Expr := .bin .mul (.bin .comm (.leaf .prm 0) (.cnst 2)) (.bin .lt (.leaf .prm 0) (.leaf .prm 1))

/-- The compiler stops at a product of a power of two and a comparison, if the comparison comes last (vmMul,
vm2tac.c:711-717, moves the entry and loses the flags). -/
theorem C62_mul_false : ¬ ∀ e, okE ⟨fun n => n, fun _ => false⟩ (counted fun n => n) .void e = true → need e ≤ 20 →
    ∃ tQ, emitProg (compile (fun _ => false) [oneSrc e] 0) T.init = some tQ := by
  intro h
  obtain ⟨tQ, h⟩ := h mulCmp (by decide) (by decide)
  have : emitProg (compile (fun _ => false) [oneSrc mulCmp] 0) T.init = none := by decide +kernel
  rw [this] at h
  cases h

/-- In the other order it is translated, and also with other numbers. -/
example : mulE (.bin .mul (.cnst 2) (.bin .lt (.leaf .prm 0) (.leaf .prm 1))) = true ∧
    mulE (.bin .mul (.bin .lt (.leaf .prm 0) (.leaf .prm 1)) (.bin .comm (.leaf .prm 0) (.cnst 2))) = true := by
  decide

end Cmm.Tac
