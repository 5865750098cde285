import Verif.CText.CTypeFn
import Verif.Props.C76

/-
C77: types in the text of the C translator. C-- has its own rules of types; the text must also be well typed by the rules of C, or the C
compiler rejects it. `HasTy`, `Wt` and `WtFn` (Verif/CText/CType.lean, CTypeStm.lean, CTypeFn.lean) are these rules: which expressions have a
type, and which statements and functions are well typed behind given declarations.

Proved for programs that are well typed by the manual of C-- (the compiler accepts some more, C37) without arrays of more than one dimension of
void and without null behind a comma; each of these is shown to be necessary below. Left out: initial values of global variables (C75) and
the declarations of structures, which are the members `M` here.
-/
namespace Cmm.CText
open Cmm.Tree (Expr Stmt)
open Cmm.Parse (Tab Ent Spot Sees Sig nowFun VarKind IsFun Field manual actual AllGlob TyVOID TyINT TyCHAR TyBOOL TyINTR TySTRUC TyDOTDOTDOT
  ScLVAR ScPRM ScVOID ScFUNC ScCOMM ScGVAR ScSTRC ScFLD)

variable {N : Nat → Text} {G : Gam} {M : Text → Text → Option CT} {T : Tab} {F : Int × Nat} {p p1 p2 p3 p' : Spot} {ts ps : List Parse.Tok} {l q : Bool}

/-- Every expression has a type in C: the one its variable would be declared with, or int where that is int or char. `null` is the constant 0. -/
theorem C77_expression_partial (D : DeclsOk N G M T) (nv : NoVoids T) (V : NotVoid T) {m : Nat} {x : Parse.SX} {t : Int × Nat} {e : Expr}
    (h : Parse.Ty manual T m x [t] e) (hn : NoNull x) :
    ∃ u, HasTy G M (tr (toE N e)) u ∧
      (u = declTy N t ∨ (Arith u ∧ Arith (declTy N t)) ∨ (bare x = Parse.SX.nul ∧ t = (TyVOID, 1) ∧ tr (toE N e) = .num 0 ∧ u = .int)) := by
  obtain ⟨u, h1, h2 | h2 | h2⟩ := (shown D nv V h hn).good
  · exact ⟨u, h1, .inr (.inl h2)⟩
  · exact ⟨u, h1, .inl h2⟩
  · exact ⟨u, h1, .inr (.inr h2)⟩

/-- What the compiler lets be assigned can be assigned in C. -/
theorem C77_assign_partial (D : DeclsOk N G M T) (nv : NoVoids T) (V : NotVoid T) {m : Nat} {x : Parse.SX} {s t : Int × Nat} {e : Expr}
    (h : Parse.Ty manual T m x [s] e) (hn : NoNull x) (ha : Parse.Assignable s t) (ht : Flat t) (hv : t ≠ (TyVOID, 0)) :
    ∃ u, HasTy G M (tr (toE N e)) u ∧ Gets (declTy N t) (tr (toE N e)) u :=
  gets_of ha (shown D nv V h hn).flat ht hv (shown D nv V h hn).good

/-- The text of an expression is one expression of C, and it has a type. -/
theorem C77_text_partial (D : DeclsOk N G M T) (nv : NoVoids T) (V : NotVoid T) {m : Nat} {x : Parse.SX} {t : Int × Nat} {e : Expr}
    (h : Parse.Ty manual T m x [t] e) (hn : NoNull x) (tn : Text → Bool) (htn : Types tn) (hl : LexOk (toE N e)) (hg : GOk tn (toE N e)) :
    (∃ us c, Lex (pexp (toE N e)) us ∧ CText.D tn 0 us c) ∧
    ∀ us c, Lex (pexp (toE N e)) us → CText.D tn 0 us c → ∃ u, HasTy G M c u := by
  obtain ⟨⟨us, h1, h2⟩, h3⟩ := C55_expr_partial tn htn _ hl hg
  refine ⟨⟨us, _, h1, h2⟩, fun us c h4 h5 => ?_⟩
  rw [h3 us c h4 h5]
  obtain ⟨u, h6, -⟩ := C77_expression_partial D nv V h hn
  exact ⟨u, h6⟩

/-- Statements; behind them the same declarations are in force. -/
theorem C77_statement_partial {v : Option VS} (h : SynT F (.stat q) l p ts v p') (hF : F.1 ≠ TyINTR) (hF' : Flat F) (hi : Inv N G M p.tab)
    (hN : Names N p'.tab) (nv : NoVoids p'.tab) :
    Wt M (declTy N F) G (CS.ofList (trS (toS N (stOfV v)))) G ∧ Inv N G M p'.tab := by
  obtain ⟨h1, h2⟩ := truns (N := N) (M := M) hF hF' h
  have h3 := TClosed.body ⟨h1, h2⟩ (runs (N := N) h.plainV).1 hi hN nv
  obtain ⟨c, hc⟩ := (runs (N := N) h.plainV).1
  rw [hc] at h3 ⊢
  exact ⟨wt_one.2 h3, (h2 G hi hN nv).2⟩

/-- Functions. `G` are the declarations before the function. -/
theorem C77_function_partial {ty : Int} {dim : Nat} {pub : Bool} {x : String} {old : Option Nat} {prm : Tab} {b : Option VS}
    (hs : Sig ty dim pub x p ps old prm p1)
    (hp : p2 = { p1 with tab := nowFun old p.tab ++ ⟨x, ScFUNC, ty, dim, prm.length, pub⟩ :: prm, most := 0, cnt := 0 })
    (hb : SynT (ty, dim) (.items none) false p2 ts b p3) (hi : Inv N G M (nowFun old p.tab)) (hty : ty ≠ TyINTR) (hst : ty ≠ TySTRUC)
    (hN : Names N p3.tab) (nv : NoVoids p3.tab) : WtFn M G (trF (toFn N ty dim pub x prm b)) := by
  obtain ⟨k, e1, e2, e3, -⟩ := prms_tab hs.prms
  obtain ⟨k', f1, f2⟩ := prms_ent hs.prms
  have hk : k = prm := by
    rw [hs.tab] at e1
    simpa [Spot.enter] using e1.symm
  have hk' : k' = prm := by
    rw [hs.tab] at f1
    simpa [Spot.enter] using f1.symm
  subst hk hk'
  have hpre : p2.tab <+: p3.tab := by
    obtain ⟨cs, os, -, -, -, d⟩ := runs (N := N) hb.plainV
    exact d
  have hin := Inv.enter (f := ⟨x, ScFUNC, ty, dim, k'.length, pub⟩) (l := k') hi (hN.mono (by rw [hp] at hpre; exact hpre)) rfl rfl hst
    (fun d hd => ⟨(e2 d hd).1, (e2 d hd).2, (f2 d hd).1, (f2 d hd).2⟩) e3
  have hfl : Flat (ty, dim) := nv.mono hpre ⟨x, ScFUNC, ty, dim, k'.length, pub⟩ (by rw [hp]; simp)
  have hd := dcl_eq (N := N) k'
  rw [← hd.1, ← hd.2] at hin
  have h5 : p2.tab = nowFun old p.tab ++ ⟨x, ScFUNC, ty, dim, k'.length, pub⟩ :: k' := by rw [hp]
  rw [← h5] at hin
  obtain ⟨G', w⟩ := body_wt hty hfl hb hin hN nv
  refine ⟨G', ?_⟩
  simpa [trF, trHead, toFn, CHead.dcl, Function.comp_def, declTy] using w

/-- The text of a function is one function of C, and it is well typed. -/
theorem C77_function_text_partial {ty : Int} {dim : Nat} {pub : Bool} {x : String} {old : Option Nat} {prm : Tab} {b : Option VS}
    (hs : Sig ty dim pub x p ps old prm p1)
    (hp : p2 = { p1 with tab := nowFun old p.tab ++ ⟨x, ScFUNC, ty, dim, prm.length, pub⟩ :: prm, most := 0, cnt := 0 })
    (hb : SynT (ty, dim) (.items none) false p2 ts b p3) (hi : Inv N G M (nowFun old p.tab)) (hty : ty ≠ TyINTR) (hst : ty ≠ TySTRUC)
    (hN : Names N p3.tab) (nv : NoVoids p3.tab)
    (tn : Text → Bool) (htn : Types tn) (hl : FnLexOk (toFn N ty dim pub x prm b)) (ho : FnOk tn (toFn N ty dim pub x prm b)) :
    (∃ us f, Lex (pfn (toFn N ty dim pub x prm b)) us ∧ FunT tn us f) ∧
    ∀ us f, Lex (pfn (toFn N ty dim pub x prm b)) us → FunT tn us f → WtFn M G f := by
  obtain ⟨⟨us, h1, h2⟩, h3⟩ := C55_fn_partial tn htn _ hl ho
  refine ⟨⟨us, _, h1, h2⟩, fun us f h4 h5 => ?_⟩
  rw [h3 us f h4 h5]
  exact C77_function_partial hs hp hb hi hty hst hN nv

/-! ### What is false -/

/-- `void[][] v; int[] a; char[] c; void f() {}` -/
def voidTab : Tab :=
  [⟨"v", ScGVAR, TyVOID, 2, 0, true⟩, ⟨"a", ScGVAR, TyINT, 1, 0, true⟩, ⟨"c", ScGVAR, TyCHAR, 1, 0, true⟩, ⟨"f", ScFUNC, TyVOID, 0, 0, true⟩]

/-- As they are declared in C: `void **v; int *a; char *c; void f();` and the strings. -/
def voidGam : Gam := fun y =>
  if y = t!"v" then some (.obj (t!"void", 2)) else if y = t!"a" then some (.obj (t!"int", 1))
  else if y = t!"f" then some (.fn (t!"void", 0) [] false) else some (.obj (t!"char", 1))

theorem voidTab_get {n : Nat} {e : Ent} (h : voidTab[n]? = some e) :
    (n = 0 ∧ e = ⟨"v", ScGVAR, TyVOID, 2, 0, true⟩) ∨ (n = 1 ∧ e = ⟨"a", ScGVAR, TyINT, 1, 0, true⟩) ∨
    (n = 2 ∧ e = ⟨"c", ScGVAR, TyCHAR, 1, 0, true⟩) ∨ (n = 3 ∧ e = ⟨"f", ScFUNC, TyVOID, 0, 0, true⟩) := by
  rcases n with _ | _ | _ | _ | n
  · cases h; exact .inl ⟨rfl, rfl⟩
  · cases h; exact .inr (.inl ⟨rfl, rfl⟩)
  · cases h; exact .inr (.inr (.inl ⟨rfl, rfl⟩))
  · cases h; exact .inr (.inr (.inr ⟨rfl, rfl⟩))
  · cases h

theorem voidTab_notStruc {n : Nat} {e : Ent} (h : voidTab[n]? = some e) : e.type ≠ TySTRUC := by
  rcases voidTab_get h with ⟨-, rfl⟩ | ⟨-, rfl⟩ | ⟨-, rfl⟩ | ⟨-, rfl⟩ <;> decide

theorem voidDecls : DeclsOk (names voidTab) voidGam (fun _ _ => none) voidTab where
  var x n e k hs hk _ := by
    rcases voidTab_get hs.1 with ⟨rfl, rfl⟩ | ⟨rfl, rfl⟩ | ⟨rfl, rfl⟩ | ⟨rfl, rfl⟩
    · decide +kernel
    · decide +kernel
    · decide +kernel
    · generalize hq : ScFUNC = s at hk
      cases hk <;> exact absurd hq (by decide)
  fn x n e hs hf := by
    rcases voidTab_get hs.1 with ⟨rfl, rfl⟩ | ⟨rfl, rfl⟩ | ⟨rfl, rfl⟩ | ⟨rfl, rfl⟩
    · rcases hf with h | h <;> exact absurd h (by decide)
    · rcases hf with h | h <;> exact absurd h (by decide)
    · rcases hf with h | h <;> exact absurd h (by decide)
    · rfl
  str l := by
    have h1 : ∀ c, strLab l ≠ [c] := by intro c h; have := congrArg List.length h; simp [strLab] at this
    rw [voidGam, if_neg (h1 _), if_neg (h1 _), if_neg (h1 _)]
  mem i d f n e h1 h2 _ := absurd h2 (voidTab_notStruc h1)

theorem voidNot : NotVoid voidTab where
  var e he k hk := by
    obtain ⟨n, hn⟩ := List.mem_iff_getElem?.1 he
    rcases voidTab_get hn with ⟨-, rfl⟩ | ⟨-, rfl⟩ | ⟨-, rfl⟩ | ⟨-, rfl⟩
    · decide
    · decide
    · decide
    · generalize hq : ScFUNC = s at hk
      cases hk <;> exact absurd hq (by decide)
  prm x n e hs hf d hd := by
    rcases voidTab_get hs.1 with ⟨rfl, rfl⟩ | ⟨rfl, rfl⟩ | ⟨rfl, rfl⟩ | ⟨rfl, rfl⟩ <;> cases hd
  fld i d f n e h1 h2 _ := absurd h2 (voidTab_notStruc h1)

theorem sees_v : Sees voidTab "v" 0 ⟨"v", ScGVAR, TyVOID, 2, 0, true⟩ := sees_of rfl rfl (by decide) (by decide +kernel)
theorem sees_a : Sees voidTab "a" 1 ⟨"a", ScGVAR, TyINT, 1, 0, true⟩ := sees_of rfl rfl (by decide) (by decide +kernel)
theorem sees_c : Sees voidTab "c" 2 ⟨"c", ScGVAR, TyCHAR, 1, 0, true⟩ := sees_of rfl rfl (by decide) (by decide +kernel)
theorem sees_f : Sees voidTab "f" 3 ⟨"f", ScFUNC, TyVOID, 0, 0, true⟩ := sees_of rfl rfl (by decide) (by decide +kernel)

section
variable {a b : CE} {u : CT}

theorem ass_inv (h : HasTy G M (.bin .ass a b) u) : ∃ t w, HasTy G M a t ∧ HasTy G M b w ∧ Gets t b w := by
  cases h with
  | bin h => exact absurd h (by decide)
  | equ h => rcases h with h | h <;> cases h
  | log h => rcases h with h | h <;> cases h
  | ass _ h1 h2 h3 => exact ⟨_, _, h1, h2, h3⟩

theorem eq_inv (h : HasTy G M (.bin .eq a b) u) : ∃ t w, HasTy G M a t ∧ HasTy G M b w ∧ Equal a t b w := by
  cases h with
  | bin h => exact absurd h (by decide)
  | equ _ h1 h2 h3 => exact ⟨_, _, h1, h2, h3⟩
  | log h => rcases h with h | h <;> cases h

theorem com_inv (h : HasTy G M (.bin .comma a b) u) : HasTy G M b u := by
  cases h with
  | bin h => exact absurd h (by decide)
  | equ h => rcases h with h | h <;> cases h
  | log h => rcases h with h | h <;> cases h
  | com _ h => exact h

theorem id_inv {x : Text} (h : HasTy G M (.id x) u) : G x = some (.obj u) := by cases h; assumption
end

theorem star_not_arith {w : Text} {n : Nat} : ¬ Arith (w, n + 1) := fun h => absurd h.1 (Nat.succ_ne_zero n)

/-- `v = a`: void[][] takes every array, `void **` does not take `int *`. -/
theorem C77_voids_false : ∃ x t e, Parse.Ty manual voidTab 0 x [t] e ∧ NoNull x ∧ pexp (toE (names voidTab) e) = t!"(v=a)" ∧
    ∀ u, ¬ HasTy voidGam (fun _ _ => none) (tr (toE (names voidTab) e)) u := by
  refine ⟨.ass (.var "v") (.var "a"), _, _,
    .ass (.var sees_v .gvar) rfl (.var sees_a .gvar) (.toVoid (by decide) (by decide)) .var, ⟨show "v" ≠ "" by decide, show "a" ≠ "" by decide⟩, by decide +kernel, ?_⟩
  intro u h
  have h : HasTy voidGam (fun _ _ => none) (.bin .ass (.id t!"v") (.id t!"a")) u := h
  obtain ⟨t, w, h1, h2, h3⟩ := ass_inv h
  cases id_inv h1
  cases id_inv h2
  rcases h3 with h3 | h3 | h3 | h3
  · exact star_not_arith h3.1
  · exact absurd h3.1 (by decide +kernel)
  · rcases h3.2.2 with h | h <;> exact absurd h (by unfold VoidPtr; decide +kernel)
  · cases h3.2

/-- `c == a`, which the compiler accepts: `char *` and `int *` cannot be compared. -/
theorem C77_compare_false : ∃ x t e, Parse.Ty actual voidTab 0 x [t] e ∧ NoNull x ∧ pexp (toE (names voidTab) e) = t!"(c==a)" ∧
    ∀ u, ¬ HasTy voidGam (fun _ _ => none) (tr (toE (names voidTab) e)) u := by
  refine ⟨.bin Parse.Lx.EQU (.var "c") (.var "a"), _, _,
    .bin (k := 6) (op := .equ) (a := (TyCHAR, 1)) (b := (TyINT, 1)) ⟨_, rfl, by decide, by decide⟩ (.equal (.inr (.inr ⟨by decide, rfl, .inl ⟨rfl, rfl⟩⟩)))
      (.var sees_c .gvar) (.var sees_a .gvar), ⟨show "c" ≠ "" by decide, show "a" ≠ "" by decide⟩, by decide +kernel, ?_⟩
  intro u h
  have h : HasTy voidGam (fun _ _ => none) (.bin .eq (.id t!"c") (.id t!"a")) u := h
  obtain ⟨t, w, h1, h2, h3⟩ := eq_inv h
  cases id_inv h1
  cases id_inv h2
  rcases h3 with h3 | h3 | h3 | h3 | h3
  · exact star_not_arith h3.1
  · exact absurd h3.1 (by decide +kernel)
  · rcases h3.2.2 with h | h <;> exact absurd h (by unfold VoidPtr; decide +kernel)
  · cases h3.2
  · cases h3.1

/-- `f() == f()`, which the compiler accepts: void has no values. -/
theorem C77_void_false : ∃ x t e, Parse.Ty actual voidTab 0 x [t] e ∧ NoNull x ∧ pexp (toE (names voidTab) e) = t!"(f()==f())" ∧
    ∀ u, ¬ HasTy voidGam (fun _ _ => none) (tr (toE (names voidTab) e)) u := by
  have hf : Parse.Ty actual voidTab 0 (.call0 "f") [(TyVOID, 0)] (.func0 3) := .call0 sees_f (.inr rfl) (by decide) (.done (by decide))
  refine ⟨.bin Parse.Lx.EQU (.call0 "f") (.call0 "f"), _, _,
    .bin (k := 6) (op := .equ) ⟨_, rfl, by decide, by decide⟩ (.equal (.inr (.inl ⟨rfl, rfl⟩))) hf hf, ⟨trivial, trivial⟩, by decide +kernel, ?_⟩
  intro u h
  have h : HasTy voidGam (fun _ _ => none) (.bin .eq (.call (.id t!"f") .nil) (.call (.id t!"f") .nil)) u := h
  obtain ⟨t, w, h1, h2, h3⟩ := eq_inv h
  cases h1 with
  | call h1 _ =>
    cases h1
    rcases h3 with h3 | h3 | h3 | h3 | h3
    · exact scalar_ne (.inl h3.1) rfl
    · exact absurd h3.2 (Nat.lt_irrefl 0)
    · exact absurd h3.1 (Nat.lt_irrefl 0)
    · exact absurd h3.1 (Nat.lt_irrefl 0)
    · cases h3.1

/-- `a = (f(), null)`: 0 behind a comma is an int in C and not a null pointer. -/
theorem C77_null_false : ∃ x t e, Parse.Ty manual voidTab 0 x [t] e ∧ pexp (toE (names voidTab) e) = t!"(a=(f(),0))" ∧
    ∀ u, ¬ HasTy voidGam (fun _ _ => none) (tr (toE (names voidTab) e)) u := by
  have hf : Parse.Ty manual voidTab 0 (.call0 "f") [(TyVOID, 0)] (.func0 3) := .call0 sees_f (.inr rfl) (by decide) (.done (by decide))
  refine ⟨.ass (.var "a") (.par (.com (.call0 "f") .nul)), _, _,
    .ass (.var sees_a .gvar) rfl (.par (.com hf .nul)) (.fromVoid (by decide) (by decide)) .var, by decide +kernel, ?_⟩
  intro u h
  have h : HasTy voidGam (fun _ _ => none) (.bin .ass (.id t!"a") (.bin .comma (.call (.id t!"f") .nil) (.num 0))) u := h
  obtain ⟨t, w, h1, h2, h3⟩ := ass_inv h
  cases id_inv h1
  cases com_inv h2
  rcases h3 with h3 | h3 | h3 | h3
  · exact star_not_arith h3.1
  · exact absurd h3.1 (by decide +kernel)
  · exact absurd h3.2.1 (Nat.lt_irrefl 0)
  · cases h3.2

/-! ### Examples -/

/-- `struct S { S next; int[] v; }; S p; int g(int n, ...);` -/
def exTab : Tab :=
  [⟨"S", ScSTRC, TySTRUC, 0, 2, true⟩, ⟨"next", ScVOID, 0, 0, 0, false⟩, ⟨"v", ScVOID, TyINT, 1, 0, false⟩, ⟨"p", ScGVAR, 0, 0, 0, true⟩,
   ⟨"g", Parse.ScPROT, TyINT, 0, 2, true⟩, ⟨"n", ScVOID, TyINT, 0, 0, false⟩, ⟨"", ScVOID, TyDOTDOTDOT, 0, 0, false⟩]

def exGam : Gam := fun y =>
  if y = t!"p" then some (.obj (t!"S", 1)) else if y = t!"g" then some (.fn (t!"int", 0) [(t!"int", 0)] true) else some (.obj (t!"char", 1))

def exMem (w x : Text) : Option CT :=
  if w = t!"S" then (if x = t!"next" then some (t!"S", 1) else if x = t!"v" then some (t!"int", 1) else none) else none

theorem exTab_get {n : Nat} {e : Ent} (h : exTab[n]? = some e) (hs : 0 ≤ e.scope) :
    (n = 3 ∧ e = ⟨"p", ScGVAR, 0, 0, 0, true⟩) ∨ (n = 4 ∧ e = ⟨"g", Parse.ScPROT, TyINT, 0, 2, true⟩) := by
  rcases n with _ | _ | _ | _ | _ | _ | _ | n
  · cases h; exact absurd hs (by decide)
  · cases h; exact absurd hs (by decide)
  · cases h; exact absurd hs (by decide)
  · cases h; exact .inl ⟨rfl, rfl⟩
  · cases h; exact .inr ⟨rfl, rfl⟩
  · cases h; exact absurd hs (by decide)
  · cases h; exact absurd hs (by decide)
  · cases h

theorem exTab_struc {i : Nat} {d : Ent} (h : exTab[i]? = some d) (ht : d.type = TySTRUC) : i = 0 ∧ d = ⟨"S", ScSTRC, TySTRUC, 0, 2, true⟩ := by
  rcases i with _ | _ | _ | _ | _ | _ | _ | i
  · cases h; exact ⟨rfl, rfl⟩
  all_goals first | (cases h; exact absurd ht (by decide)) | cases h

theorem exTab_field {f : String} {n : Nat} {e : Ent} (h : Field exTab 0 f n e) :
    (n = 1 ∧ e = ⟨"next", ScVOID, 0, 0, 0, false⟩) ∨ (n = 2 ∧ e = ⟨"v", ScVOID, TyINT, 1, 0, false⟩) := by
  obtain ⟨⟨d, h1, h2, h3⟩, h4, -⟩ := h
  cases h1
  have h3 : n ≤ 2 := h3
  rcases n with _ | _ | _ | n
  · omega
  · cases h4; exact .inl ⟨rfl, rfl⟩
  · cases h4; exact .inr ⟨rfl, rfl⟩
  · omega

theorem exDecls : Inv (names exTab) exGam exMem exTab where
  dcl := {
    var := fun x n e k hs hk _ => by
      rcases exTab_get hs.1 hs.2.2.1 with ⟨rfl, rfl⟩ | ⟨rfl, rfl⟩
      · rfl
      · generalize hq : Parse.ScPROT = s at hk
        cases hk <;> exact absurd hq (by decide)
    fn := fun x n e hs hf => by
      rcases exTab_get hs.1 hs.2.2.1 with ⟨rfl, rfl⟩ | ⟨rfl, rfl⟩
      · rcases hf with h | h <;> exact absurd h (by decide)
      · decide +kernel
    str := fun l => by
      have h1 : ∀ c, strLab l ≠ [c] := by intro c h; have := congrArg List.length h; simp [strLab] at this
      rw [exGam, if_neg (h1 _), if_neg (h1 _)]
    mem := fun i d f n e h1 h2 h3 => by
      obtain ⟨rfl, rfl⟩ := exTab_struc h1 h2
      rcases exTab_field h3 with ⟨rfl, rfl⟩ | ⟨rfl, rfl⟩ <;> decide +kernel }
  val := {
    var := fun e he k hk => by
      obtain ⟨n, hn⟩ := List.mem_iff_getElem?.1 he
      have hs : 0 ≤ e.scope := by
        generalize e.scope = s at hk
        cases hk <;> decide
      rcases exTab_get hn hs with ⟨-, rfl⟩ | ⟨-, rfl⟩ <;> decide
    prm := fun x n e hs hf d hd => by
      rcases exTab_get hs.1 hs.2.2.1 with ⟨rfl, rfl⟩ | ⟨rfl, rfl⟩
      · cases hd
      · have : ∀ d ∈ (exTab.drop 5).take 2, (d.type, d.dim) ≠ (TyVOID, 0) := by decide +kernel
        exact this d hd
    fld := fun i d f n e h1 h2 h3 => by
      obtain ⟨rfl, rfl⟩ := exTab_struc h1 h2
      rcases exTab_field h3 with ⟨rfl, rfl⟩ | ⟨rfl, rfl⟩ <;> decide }
  rng := by
    intro n e h hk
    rcases n with _ | _ | _ | _ | _ | _ | _ | n <;> cases h <;> decide

theorem exVoids : NoVoids exTab := by unfold NoVoids; decide +kernel

/-- `p.next.v[0] = g(1, null)`: it is printed as `(p->next->v[0]=g(1,0))` and has the type int. -/
theorem example_expr : ∃ e, Parse.Ty manual exTab 0
      (.ass (.idx (.fld (.fld (.var "p") "next") "v") (.int 0)) (.call "g" (.args (.int 1) .nul))) [(TyINT, 0)] e ∧
    pexp (toE (names exTab) e) = t!"(p->next->v[0]=g(1,0))" ∧ ∃ u, HasTy exGam exMem (tr (toE (names exTab) e)) u ∧ Arith u := by
  have hp : Sees exTab "p" 3 ⟨"p", ScGVAR, 0, 0, 0, true⟩ := sees_of rfl rfl (by decide) (by decide +kernel)
  have hg : Sees exTab "g" 4 ⟨"g", Parse.ScPROT, TyINT, 0, 2, true⟩ := sees_of rfl rfl (by decide) (by decide +kernel)
  have f1 : Field exTab 0 "next" 1 ⟨"next", ScVOID, 0, 0, 0, false⟩ := ⟨⟨_, rfl, by decide, by decide⟩, rfl, rfl, fun m e' h1 h2 => by omega⟩
  have f2 : Field exTab 0 "v" 2 ⟨"v", ScVOID, TyINT, 1, 0, false⟩ := ⟨⟨_, rfl, by decide, by decide⟩, rfl, rfl, fun m e' h1 h2 h3 => by
    have : m = 1 := by omega
    subst this; cases h3; decide⟩
  have t1 : Parse.Ty manual exTab 0 (.ass (.idx (.fld (.fld (.var "p") "next") "v") (.int 0)) (.call "g" (.args (.int 1) .nul))) [(TyINT, 0)] _ :=
    .ass (.idx (t := TyINT) (d := 0) (.fld (i := 0) (.fld (i := 0) (.var hp .gvar) rfl rfl f1) rfl rfl f2) .int .int) rfl
      (.call hg (.inl rfl) (by decide) (.args .int .nul)
        (.one (by decide) rfl (by decide) .same (.dots (by decide) rfl rfl (by decide)))) .same .mem
  refine ⟨_, t1, by decide +kernel, ?_⟩
  obtain ⟨u, h1, h2⟩ := C77_expression_partial exDecls.dcl exVoids exDecls.val t1
    ⟨⟨show "p" ≠ "" by decide, trivial⟩, trivial, trivial⟩
  refine ⟨u, h1, ?_⟩
  rcases h2 with h2 | h2 | h2
  · rw [h2]; exact arith_int
  · exact h2.1
  · exact absurd h2.2.1 (by decide)

/-- The table inside `int h(S q) { ... }`. -/
def exSpot : Spot := ⟨exTab ++ [⟨"h", ScFUNC, TyINT, 0, 1, true⟩, ⟨"q", ScPRM, 0, 0, 0, false⟩], 0, 0, 0, none, 0⟩

/-- `int h(S q) { q = p.next; return g(1); }` behind these declarations: the hypotheses of C77_function_partial hold. -/
theorem example_fn77 : ∃ (v : Option VS) (p' : Spot),
    SynT (TyINT, 0) (.items none) false exSpot
      [.name "q", Parse.Lx.eq, .name "p", Parse.Lx.dot, .name "next", Parse.Lx.semi,
        Parse.Lx.RETURN, .name "g", Parse.Lx.lpar, .int 1, Parse.Lx.rpar, Parse.Lx.semi] v p' ∧ Names (names p'.tab) p'.tab ∧ NoVoids p'.tab ∧
    p'.tab = exSpot.tab ∧
    pfn (toFn (names p'.tab) TyINT 0 true "h" [⟨"q", ScPRM, 0, 0, 0, false⟩] v) = t!"int h(S *q){\n(q=p->next);\nreturn g(1);\n}\n" := by
  have hq : Sees exSpot.tab "q" 8 ⟨"q", ScPRM, 0, 0, 0, false⟩ := sees_of rfl rfl (by decide) (by decide +kernel)
  have hp : Sees exSpot.tab "p" 3 ⟨"p", ScGVAR, 0, 0, 0, true⟩ := sees_of rfl rfl (by decide) (by decide +kernel)
  have hg : Sees exSpot.tab "g" 4 ⟨"g", Parse.ScPROT, TyINT, 0, 2, true⟩ := sees_of rfl rfl (by decide) (by decide +kernel)
  have f1 : Field exSpot.tab 0 "next" 1 ⟨"next", ScVOID, 0, 0, 0, false⟩ := ⟨⟨_, rfl, by decide, by decide⟩, rfl, rfl, fun m e' h1 h2 => by omega⟩
  have e1 : ExpT exSpot 13 (.ass (.var "q") (.fld (.var "p") "next")) (0, 0) _ :=
    ⟨.up (.ass (up .var 11) (up (.fld .var) 12)), .ass (.var hq .prm) rfl (.fld (i := 0) (.var hp .gvar) rfl rfl f1) .same .var,
      show "q" ≠ "" by decide, show "p" ≠ "" by decide⟩
  have e2 : ExpT { exSpot with last := some (.name "q") } 13 (.call "g" (.int 1)) (TyINT, 0) _ :=
    ⟨up (.call1 (up .int 12)) 13, .call hg (.inl rfl) (by decide) .int (.one (by decide) rfl (by decide) .same (.dots (by decide) rfl rfl nofun)), trivial⟩
  have nt : Parse.NoType exSpot.tab [.name "q", Parse.Lx.eq, .name "p", Parse.Lx.dot, .name "next", Parse.Lx.semi] := by
    intro k ty hk ht
    cases hk
    cases ht with
    | name h1 =>
      obtain ⟨⟨e, he, h2, h3⟩, -⟩ := h1
      have : ∀ e ∈ exSpot.tab, e.name = "q" → e.scope ≠ ScSTRC := by decide +kernel
      exact this e (List.mem_of_getElem? he) h2 h3
  refine ⟨_, _, .stat (ts := [.name "q", Parse.Lx.eq, .name "p", Parse.Lx.dot, .name "next", Parse.Lx.semi]) (.exp e1) nt
    (.stat (us := []) (ts := [Parse.Lx.RETURN, .name "g", Parse.Lx.lpar, .int 1, Parse.Lx.rpar, Parse.Lx.semi])
      (.retV ⟨by decide, by decide⟩ e2 .same) (fun k ty hk ht => by cases hk; cases ht) .done), names_ok (by decide +kernel), ?_, rfl, by decide +kernel⟩
  show NoVoids exSpot.tab
  unfold NoVoids
  decide +kernel

/-- Its signature. -/
example : Sig TyINT 0 true "h" ⟨exTab, 0, 0, 0, none, 0⟩ [.name "S", .name "q"] none [⟨"q", ScPRM, 0, 0, 0, false⟩]
    ⟨exTab ++ [⟨"h", Parse.ScPROT, TyINT, 0, 0, true⟩, ⟨"q", ScPRM, 0, 0, 0, false⟩], 0, 0, 0, none, 0⟩ :=
  ⟨by simp [Parse.Earlier, exTab], nofun, fun h => absurd h (by decide),
    .last (dim := 0) (.name (n := 0) ⟨⟨⟨"S", ScSTRC, TySTRUC, 0, 2, true⟩, rfl, rfl, rfl⟩, fun m e h => absurd h (Nat.not_lt_zero m)⟩) ⟨by decide, by decide⟩ nofun ⟨by decide, by
      simp [Spot.enter, exTab, Parse.ScPROT, ScGVAR, ScVOID, Parse.ScSTRC, ScPRM, ScLVAR]⟩, rfl⟩

end Cmm.CText
