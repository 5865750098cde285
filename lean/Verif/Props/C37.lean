import Verif.Props.C36

/-! C37: accepted expressions are well typed. -/
namespace Cmm.Parse
open Cmm.Tree

/-- What getExpr accepts is an expression of the grammar, well typed by the rules `actual` (the
rules of the manual plus the three exceptions named there), with the type, tree and
assignability it returns. Conditions, arguments and operands are covered by the same relation. -/
theorem C37_accepted_partial {s s' : PS} {w : W} (h : getExpr s = some (w, s')) :
    ∃ x : SX, x.At 13 ∧ s.toks = x.toks ++ s'.toks ∧
      Ty actual s.tab s.lab x [(w.type, w.dim)] w.tree ∧ w.lhs = x.lv ∧
      s' = { s with toks := s'.toks, lab := s.lab + x.strs } := by
  obtain ⟨x, hx⟩ := lev_sound h (by omega)
  exact ⟨x, hx.lev, hx.toks, hx.ty, hx.lv, hx.st⟩

/-- Conversely everything well typed by these rules is accepted: the rules are exactly those
of the compiler. -/
theorem C37_exact_partial {s s' : PS} {w : W} (hr : Ends s'.toks) :
    getExpr s = some (w, s') ↔
    ∃ x : SX, x.At 13 ∧ s.toks = x.toks ++ s'.toks ∧
      Ty actual s.tab s.lab x [(w.type, w.dim)] w.tree ∧ w.lhs = x.lv ∧
      s' = { s with toks := s'.toks, lab := s.lab + x.strs } := by
  refine ⟨C37_accepted_partial, ?_⟩
  rintro ⟨x, h1, h2, h3, h4, h5⟩
  have := (reads x).full (k := 13) h2 h3 (by omega) h1 hr.fol
  unfold getExpr
  rw [this, Option.some.injEq, Prod.mk.injEq]
  refine ⟨?_, ?_⟩
  · cases w; simp only [res] at *; simp [h4]
  · rw [h5]; rfl

/-- The type is unique. -/
theorem C37_type_unique {T : Tab} {m : Nat} {x : SX} {t t' : Int × Nat} {e e' : Expr}
    (hx : x.At 13) (h : Ty actual T m x [t] e) (h' : Ty actual T m x [t'] e') : t = t' ∧ e = e' :=
  C36_unambiguous hx hx rfl h h'

/-- `==` and `!=` do not occur. -/
def SX.noEq : SX → Prop
  | .call _ a | .par a | .conv _ a | .fld a _ | .pre _ a => a.noEq
  | .bin t l r => t ≠ Lx.EQU ∧ t ≠ Lx.NEQ ∧ l.noEq ∧ r.noEq
  | .args l r | .idx l r | .ass l r | .com l r => l.noEq ∧ r.noEq
  | _ => True

/-- Types that are not basic refer to a structure or typedef entry (every table built by the
compiler is like this: types come from getType). -/
def TypesOk (T : Tab) : Prop :=
  ∀ (n : Nat) (e : Ent), T[n]? = some e → e.type ≤ 0 → ∃ d : Ent, T[(-e.type).toNat]? = some d ∧ d.scope = ScSTRC

theorem Ty.typesOk {R : Rules} {T : Tab} (hT : TypesOk T) {m : Nat} {x : SX}
    {ts : List (Int × Nat)} {e : Expr} (h : Ty R T m x ts e) :
    ∀ t ∈ ts, t.1 ≤ 0 → ∃ d : Ent, T[(-t.1).toNat]? = some d ∧ d.scope = ScSTRC := by
  induction h with
  | var h _ => intro t ht; simp only [List.mem_singleton] at ht; subst ht; exact hT _ _ h.1
  | call0 h => intro t ht; simp only [List.mem_singleton] at ht; subst ht; exact hT _ _ h.1
  | call h => intro t ht; simp only [List.mem_singleton] at ht; subst ht; exact hT _ _ h.1
  | args _ _ ih1 ih2 =>
    intro t ht
    rcases List.mem_append.1 ht with ht | ht
    · exact ih1 t ht
    · exact ih2 t ht
  | par _ ih => exact ih
  | @idx _ _ t d _ _ _ _ _ _ _ ih _ =>
    intro t' ht; simp only [List.mem_singleton] at ht; subst ht
    exact ih (t, d + 1) (List.mem_singleton.2 rfl)
  | fld _ _ _ h => intro t ht; simp only [List.mem_singleton] at ht; subst ht; exact hT _ _ h.2.1
  | ass _ _ _ _ _ ih _ => exact ih
  | com _ _ _ ih => exact ih
  | conv h =>
    intro t ht hle; simp only [List.mem_singleton] at ht; subst ht
    cases h <;> exact absurd hle (by decide)
  | pre h =>
    intro t ht hle; simp only [List.mem_singleton] at ht; subst ht
    cases h <;> exact absurd hle (by decide)
  | bin _ h =>
    intro t ht hle; simp only [List.mem_singleton] at ht; subst ht
    cases h <;> exact absurd hle (by decide)
  | _ =>
    intro t ht hle; simp only [List.mem_singleton] at ht; subst ht
    exact absurd hle (by decide)

/-- The full claim (well typed by the manual) holds for expressions without `==` and `!=` over
tables without typedef names. For comparisons and typedef names it is false, see below. -/
theorem C37_manual_partial {T : Tab} (hT : TypesOk T)
    (hR : ∀ (n : Nat) (d : Ent), T[n]? = some d → d.scope = ScSTRC → d.type = TySTRUC) {m : Nat}
    {x : SX} {ts : List (Int × Nat)} {e : Expr} (h : Ty actual T m x ts e) (hx : x.noEq) :
    Ty manual T m x ts e := by
  induction h with
  | int => exact .int
  | chr => exact .chr
  | log => exact .log
  | str => exact .str
  | nul => exact .nul
  | sizeof h h' => exact .sizeof h h'
  | addrof h h' => exact .addrof h h'
  | var h h' => exact .var h h'
  | call0 h1 h2 h3 h4 => exact .call0 h1 h2 h3 h4
  | call h1 h2 h3 _ h5 ih => exact .call h1 h2 h3 (ih hx) h5
  | args _ _ ih1 ih2 => exact .args (ih1 hx.1) (ih2 hx.2)
  | par _ ih => exact .par (ih hx)
  | conv h _ ih => exact .conv h (ih hx)
  | idx _ _ h ih1 ih2 => exact .idx (ih1 hx.1) (ih2 hx.2) h
  | fld h1 h2 _ h4 ih =>
    refine .fld (ih hx) h2 (hR _ _ h2 ?_) h4
    obtain ⟨d', e1, e2⟩ := h1.typesOk hT _ (List.mem_singleton.2 rfl) (by simp only; omega)
    simp only [Int.neg_neg, Int.toNat_natCast] at e1
    rw [h2] at e1
    cases e1
    exact e2
  | pre h _ ih => exact .pre h (ih hx)
  | bin hb ht _ _ ih1 ih2 =>
    refine .bin hb ?_ (ih1 hx.2.2.1) (ih2 hx.2.2.2)
    cases ht with
    | arith a b c => exact .arith a b c
    | order a b => exact .order a b
    | logic a => exact .logic a
    | equal _ =>
      exfalso
      have hb' := binOp_iff.2 hb
      unfold binOp at hb'
      split at hb' <;> first | omega | exact hx.1 rfl | exact hx.2.1 rfl | cases hb'
  | ass _ h2 _ h4 h5 ih1 ih2 => exact .ass (ih1 hx.1) h2 (ih2 hx.2) h4 h5
  | com _ _ ih1 ih2 => exact .com (ih1 hx.1) (ih2 hx.2)

/-- A parser state before the tokens of `x`, in front of `;`. -/
def before (T : Tab) (x : SX) : PS :=
  { toks := x.toks ++ [Lx.semi], tab := T, lab := 0, curCnt := 0, maxCnt := 0, depth := 0,
    lastStat := none }

theorem accepts {T : Tab} {x : SX} {t : Int × Nat} {e : Expr} (hx : x.At 13)
    (h : Ty actual T 0 x [t] e) : (getExpr (before T x)).isSome := by
  have := (reads x).full (s := before T x) (rest := [Lx.semi]) (k := 13) rfl h (by omega) hx
    (.cons (by decide))
  unfold getExpr
  rw [this]; rfl

/-- An entry of a concrete table is what its name means. -/
theorem sees_of {T : Tab} {x : String} {n : Nat} {e : Ent} (h : srcName T x = some n)
    (he : T[n]? = some e) : Sees T x n e := by
  obtain ⟨e', h'⟩ := srcName_iff.1 h
  have := h'.1
  rw [he] at this
  cases this
  exact h'

/-- `char[] c; int[] v;` -/
def cmpTab : Tab := [⟨"c", ScGVAR, TyCHAR, 1, 0, false⟩, ⟨"v", ScGVAR, TyINT, 1, 0, false⟩]

/-- The full claim is false: `c == v` is accepted although the types of the arrays differ. -/
theorem C37_arrays_false : let x := SX.bin Lx.EQU (.var "c") (.var "v")
    (getExpr (before cmpTab x)).isSome ∧ ∀ t e, ¬ Ty manual cmpTab 0 x [t] e := by
  have hc : Sees cmpTab "c" 0 ⟨"c", ScGVAR, TyCHAR, 1, 0, false⟩ := sees_of (by decide) rfl
  have hv : Sees cmpTab "v" 1 ⟨"v", ScGVAR, TyINT, 1, 0, false⟩ := sees_of (by decide) rfl
  have hb : IsBin 6 Lx.EQU .equ := binOp_iff.1 rfl
  refine ⟨accepts ((SX.At.bin hb (SX.At.var.mono (by omega)) (SX.At.var.mono (by omega))).mono (by omega))
    (.bin (a := (TyCHAR, 1)) (b := (TyINT, 1)) hb
      (.equal (.inr (.inr ⟨by decide, rfl, .inl ⟨rfl, rfl⟩⟩))) (.var hc .gvar) (.var hv .gvar)), ?_⟩
  intro t e h
  cases h with
  | bin b ht hl hr =>
    have hk := b.tokLev
    cases hl with
    | var s1 _ =>
    cases hr with
    | var s2 _ =>
    obtain ⟨rfl, rfl⟩ := s1.unique hc
    obtain ⟨rfl, rfl⟩ := s2.unique hv
    generalize hA : ((⟨"c", ScGVAR, TyCHAR, 1, 0, false⟩ : Ent).type, (⟨"c", ScGVAR, TyCHAR, 1, 0, false⟩ : Ent).dim) = A at ht
    generalize hB : ((⟨"v", ScGVAR, TyINT, 1, 0, false⟩ : Ent).type, (⟨"v", ScGVAR, TyINT, 1, 0, false⟩ : Ent).dim) = B at ht
    simp only at hA hB
    cases ht with
    | arith h => subst hk; revert h; decide
    | order => revert hk; decide
    | logic h => subst hk; revert h; decide
    | equal h =>
      subst hA hB
      obtain ⟨-, -, h⟩ := h
      generalize hA : (TyCHAR, 1) = A at h
      generalize hB : (TyINT, 1) = B at h
      rcases h with h | h <;> cases h <;> first | (exact absurd (hA.trans hB.symm) (by decide)) |
        (simp only [Prod.mk.injEq, TyINT, TyCHAR, TyVOID] at hA hB; omega)

/-- `void f();` -/
def voidTab : Tab := [⟨"f", ScPROT, TyVOID, 0, 0, false⟩]

/-- The full claim is false: `f() == f()` is accepted for a void function. -/
theorem C37_void_false : let x := SX.bin Lx.EQU (.call0 "f") (.call0 "f")
    (getExpr (before voidTab x)).isSome ∧ ∀ t e, ¬ Ty manual voidTab 0 x [t] e := by
  have hc : Sees voidTab "f" 0 ⟨"f", ScPROT, TyVOID, 0, 0, false⟩ := sees_of (by decide) rfl
  have hb : IsBin 6 Lx.EQU .equ := binOp_iff.1 rfl
  refine ⟨accepts ((SX.At.bin hb (SX.At.call0.mono (by omega)) (SX.At.call0.mono (by omega))).mono (by omega))
    (.bin hb (.equal (.inr (.inl ⟨rfl, rfl⟩))) (.call0 hc (.inl rfl) (by decide) (.done (by decide)))
      (.call0 hc (.inl rfl) (by decide) (.done (by decide)))), ?_⟩
  intro t e h
  cases h with
  | bin b ht hl hr =>
    have hk := b.tokLev
    cases hl with
    | call0 s1 _ _ _ =>
    obtain ⟨rfl, rfl⟩ := s1.unique hc
    generalize hA : ((⟨"f", ScPROT, TyVOID, 0, 0, false⟩ : Ent).type, (⟨"f", ScPROT, TyVOID, 0, 0, false⟩ : Ent).dim) = A at ht
    cases ht with
    | arith h => subst hk; revert h; decide
    | order => revert hk; decide
    | logic h => subst hk; revert h; decide
    | equal h => exact h.1 hA.symm

/-- `typedef T` with a count left over from a function with one local variable, then `int g`
and `T x`. -/
def typedefTab : Tab :=
  [⟨"T", ScSTRC, TyREF, 0, 1, false⟩, ⟨"g", ScGVAR, TyINT, 0, 0, false⟩,
   ⟨"x", ScGVAR, 0, 0, 0, false⟩]

/-- The full claim is false: `x.g` is accepted although the type of `x` has no fields; `g` is
a variable. -/
theorem C37_typedef_false : let x := SX.fld (.var "x") "g"
    (getExpr (before typedefTab x)).isSome ∧ ∀ t e, ¬ Ty manual typedefTab 0 x [t] e := by
  have hc : Sees typedefTab "x" 2 ⟨"x", ScGVAR, 0, 0, 0, false⟩ := sees_of (by decide) rfl
  have hf : Field typedefTab 0 "g" 1 ⟨"g", ScGVAR, TyINT, 0, 0, false⟩ := by
    refine ⟨⟨_, rfl, by decide, by decide⟩, rfl, rfl, ?_⟩
    intro m e' h1 h2; omega
  refine ⟨accepts ((SX.At.fld SX.At.var).mono (by omega))
    (.fld (i := 0) (.var hc .gvar) rfl trivial hf), ?_⟩
  intro t e h
  generalize hts : [t] = ts at h
  cases h with
  | @fld _ _ i d _ n e ea h1 h2 h3 h4 =>
    generalize hA : [(-(i : Int), 0)] = A at h1
    cases h1 with
    | var s1 _ =>
      obtain ⟨rfl, rfl⟩ := s1.unique hc
      simp only [List.cons.injEq, Prod.mk.injEq, and_true] at hA
      obtain rfl : i = 0 := by omega
      cases h2
      have h3' : TyREF = TySTRUC := h3
      exact absurd h3' (by decide)

/-- An expression without `==` over a table without typedef names. -/
example : TypesOk exTab ∧ (∀ (n : Nat) (d : Ent), exTab[n]? = some d → d.scope = ScSTRC → d.type = TySTRUC) ∧
    exU.noEq := by
  refine ⟨?_, ?_, by simp [exU, SX.noEq]⟩
  · intro n e h
    match n with
    | 0 | 1 | 2 | 3 | 4 => cases h; decide
    | n + 5 => cases h
  · intro n e h
    match n with
    | 0 | 1 | 2 | 3 | 4 => cases h; decide
    | n + 5 => cases h

end Cmm.Parse
