import Verif.Parse.Facts

/- Whatever the parser accepts is an expression of the specification. -/
namespace Cmm.Parse
open Cmm.Tree

/-- Reading from `s` to `s'` was reading the expression `x` of level `k`, with result `w`. -/
structure Ok (k : Nat) (s s' : PS) (w : W) (x : SX) : Prop where
  toks : s.toks = x.toks ++ s'.toks
  st : s' = { s with toks := s'.toks, lab := s.lab + x.strs }
  lev : x.At k
  ty : Ty actual s.tab s.lab x [(w.type, w.dim)] w.tree
  lv : w.lhs = x.lv

theorem SX.At.mono {s : SX} {k : Nat} (h : s.At k) {k' : Nat} (hk : k ≤ k') : s.At k' := by
  induction hk with
  | refl => exact h
  | step _ ih => exact .up ih

theorem Ok.up {k k' : Nat} {s s' : PS} {w : W} {x : SX} (h : Ok k s s' w x) (hk : k ≤ k') :
    Ok k' s s' w x := ⟨h.toks, h.st, h.lev.mono hk, h.ty, h.lv⟩

theorem Ok.tab {k : Nat} {s s' : PS} {w : W} {x : SX} (h : Ok k s s' w x) : s'.tab = s.tab := by
  rw [h.st]

theorem Ok.labs {k : Nat} {s s' : PS} {w : W} {x : SX} (h : Ok k s s' w x) :
    s'.lab = s.lab + x.strs := by
  rw [h.st]

theorem chkTok_some {t : Tok} {s s' : PS} (h : chkTok t s = some s') :
    s.toks = t :: s'.toks ∧ s' = { s with toks := s'.toks } := by
  unfold chkTok at h
  split at h
  · rename_i ht
    cases h
    cases hs : s.toks with
    | nil => simp [hs] at ht
    | cons a r =>
      simp only [hs, List.head?_cons, Option.some.injEq] at ht
      subst ht
      exact ⟨by simp [PS.next, hs], rfl⟩
  · cases h

theorem chkTok_ok {t : Tok} {s : PS} {r : List Tok} (h : s.toks = t :: r) :
    chkTok t s = some { s with toks := r } := by
  unfold chkTok PS.next
  simp [h]

/-- Two expressions with a token between them. -/
theorem Ok.two {k k2 : Nat} {s s1 s2 s' : PS} {w w2 : W} {x y : SX} {t : Tok}
    (h : Ok k s s1 w x) (ht : s1.toks = t :: s2.toks) (hs : s2 = { s1 with toks := s2.toks })
    (h2 : Ok k2 s2 s' w2 y) :
    s.toks = (x.toks ++ t :: y.toks) ++ s'.toks ∧
    s' = { s with toks := s'.toks, lab := s.lab + (x.strs + y.strs) } ∧
    Ty actual s.tab (s.lab + x.strs) y [(w2.type, w2.dim)] w2.tree := by
  refine ⟨?_, ?_, ?_⟩
  · rw [h.toks, ht, h2.toks]; simp
  · rw [h2.st, hs, h.st]; simp [Nat.add_assoc]
  · have := h2.ty
    rw [hs, h.st] at this
    exact this

/-- List of arguments. -/
def ArgAt (a : SX) : Prop := a.At 12 ∨ ∃ l r, a = .args l r ∧ a.At 14

/-- Arguments read from `s` to `s'` for the parameters from `i` to `last`; next is `j`. -/
structure OkA (last i j : Nat) (s s' : PS) (e : Expr) (x : SX) (ts : List (Int × Nat)) : Prop where
  toks : s.toks = x.toks ++ s'.toks
  st : s' = { s with toks := s'.toks, lab := s.lab + x.strs }
  lev : ArgAt x
  ty : Ty actual s.tab s.lab x ts e
  run : argRun s.tab last i ts = some j

theorem idxOp_iff {t : Int} {d : Nat} {op : Bin} : idxOp t d = some op ↔ Elem (t, d) op := by
  unfold idxOp
  constructor
  · intro h
    split at h
    · rename_i h0; cases h; exact .ref (by rcases h0 with h0 | h0; exact .inl h0; exact .inr h0)
    · rename_i h0
      have hd : d = 0 := by omega
      subst hd
      split at h
      · rename_i h1; subst h1; cases h; exact .int
      · split at h
        · rename_i h1; subst h1; cases h; exact .char
        · split at h
          · rename_i h1; subst h1; cases h; exact .bool
          · cases h
  · intro h
    cases h with
    | ref h => rw [if_pos h]
    | int => rfl
    | char => rfl
    | bool => rfl

theorem sizeVal_iff {T : Tab} {t : Int} {d : Nat} {v : Int} :
    sizeVal T t d = some v ↔ SizeOf T (t, d) v := by
  unfold sizeVal
  by_cases ht : t ≤ 0
  · obtain ⟨n, rfl⟩ : ∃ n : Nat, t = -(n : Int) := ⟨(-t).toNat, by omega⟩
    simp only [ht, if_true, Int.neg_neg, Int.toNat_natCast]
    cases he : T[n]? with
    | none =>
      simp only [Option.map_none, reduceCtorEq, false_iff]
      intro h
      generalize hA : (-(n : Int), d) = A at h
      cases h with
      | arr h1 h2 h3 =>
        simp only [Prod.mk.injEq] at hA
        obtain ⟨rfl, rfl⟩ := hA
        have := h3 ht
        simp [he] at this
      | @struc n' e' h1 h2 =>
        simp only [Prod.mk.injEq] at hA
        obtain rfl : n = n' := by omega
        rw [h1] at he; cases he
      | char => simp only [Prod.mk.injEq] at hA; rw [hA.1] at ht; exact absurd ht (by decide)
      | bool => simp only [Prod.mk.injEq] at hA; rw [hA.1] at ht; exact absurd ht (by decide)
      | word h => simp only [Prod.mk.injEq] at hA; omega
    | some e =>
      simp only
      by_cases hr : e.type = TyREF
      · simp only [hr, if_true, Option.map_none, reduceCtorEq, false_iff]
        intro h
        generalize hA : (-(n : Int), d) = A at h
        cases h with
        | arr h1 h2 h3 =>
          simp only [Prod.mk.injEq] at hA
          obtain ⟨rfl, rfl⟩ := hA
          exact h2 e ht (by simpa using he) hr
        | @struc n' e' h1 h2 =>
          simp only [Prod.mk.injEq] at hA
          obtain rfl : n = n' := by omega
          rw [h1] at he; cases he
          exact h2 hr
        | char => simp only [Prod.mk.injEq] at hA; rw [hA.1] at ht; exact absurd ht (by decide)
        | bool => simp only [Prod.mk.injEq] at hA; rw [hA.1] at ht; exact absurd ht (by decide)
        | word h => simp only [Prod.mk.injEq] at hA; omega
      · simp only [hr, if_false, Option.map_some, Option.some.injEq]
        by_cases hd : d = 0
        · subst hd
          simp only [if_true]
          constructor
          · rintro rfl; exact .struc he hr
          · intro h
            generalize hA : (-(n : Int), 0) = A at h
            cases h with
            | arr h1 => simp only [Prod.mk.injEq] at hA; omega
            | @struc n' e' h1 h2 =>
              simp only [Prod.mk.injEq] at hA
              obtain rfl : n = n' := by omega
              rw [h1] at he; cases he; rfl
            | char => simp only [Prod.mk.injEq] at hA; rw [hA.1] at ht; exact absurd ht (by decide)
            | bool => simp only [Prod.mk.injEq] at hA; rw [hA.1] at ht; exact absurd ht (by decide)
            | word h => simp only [Prod.mk.injEq] at hA; omega
        · simp only [hd, if_false]
          constructor
          · rintro rfl
            refine .arr (by omega) (fun e' _ he' => ?_) fun _ => by simp [he]
            simp only [Int.neg_neg, Int.toNat_natCast, he, Option.some.injEq] at he'
            subst he'; exact hr
          · intro h
            generalize hA : (-(n : Int), d) = A at h
            cases h with
            | arr h1 => rfl
            | _ => simp only [Prod.mk.injEq] at hA; omega
  · simp only [ht, if_false, Option.map_some, Option.some.injEq]
    by_cases hd : d = 0
    · subst hd
      simp only [if_true]
      by_cases hc : t = TyCHAR ∨ t = TyBOOL
      · simp only [hc, if_true]
        constructor
        · rintro rfl
          rcases hc with rfl | rfl
          · exact .char
          · exact .bool
        · intro h
          generalize hA : (t, 0) = A at h
          cases h with
          | arr h1 => simp only [Prod.mk.injEq] at hA; omega
          | struc h1 h2 => simp only [Prod.mk.injEq] at hA; omega
          | char => rfl
          | bool => rfl
          | word h h1 h2 =>
            simp only [Prod.mk.injEq] at hA
            rcases hc with rfl | rfl
            · exact absurd hA.1.symm h1
            · exact absurd hA.1.symm h2
      · simp only [hc, if_false]
        simp only [not_or] at hc
        constructor
        · rintro rfl; exact .word (by omega) hc.1 hc.2
        · intro h
          generalize hA : (t, 0) = A at h
          cases h with
          | arr h1 => simp only [Prod.mk.injEq] at hA; omega
          | struc h1 h2 => simp only [Prod.mk.injEq] at hA; omega
          | char => simp only [Prod.mk.injEq] at hA; exact absurd hA.1 hc.1
          | bool => simp only [Prod.mk.injEq] at hA; exact absurd hA.1 hc.2
          | word h h1 h2 => rfl
    · simp only [hd, if_false]
      constructor
      · rintro rfl
        exact .arr (by omega) (fun e h => absurd h ht) (fun h => absurd h ht)
      · intro h
        generalize hA : (t, d) = A at h
        cases h with
        | arr h1 => rfl
        | _ => simp only [Prod.mk.injEq] at hA; omega

theorem getType_some {s s' : PS} {ty : Int} {d : Nat} (h : getType s = some (ty, d, s')) :
    ∃ k, s.toks = k :: (dimToks d ++ s'.toks) ∧ TypeTok s.tab k ty ∧
      s' = { s with toks := s'.toks } := by
  unfold getType at h
  split at h
  · rename_i t r hr
    split at h
    · cases h
    · rename_i hn
      simp only [Option.map_eq_some_iff] at h
      obtain ⟨⟨d', r'⟩, hd, h⟩ := h
      simp only [Prod.mk.injEq] at h
      obtain ⟨h1, h2, h3⟩ := h
      subst h1 h2 h3
      exact ⟨t, by rw [hr, getDims_spec hd], (typeOf_iff hn).1 rfl, rfl⟩
  · cases h

theorem getType_ok {s : PS} {k : Tok} {ty : Int} {d : Nat} {r : List Tok}
    (ht : TypeTok s.tab k ty) (hs : s.toks = k :: (dimToks d ++ r)) (hr : r.head? ≠ some Lx.lbrk) :
    getType s = some (ty, d, { s with toks := r }) := by
  unfold getType
  rw [hs]
  have := (typeOf_iff ht.ne_non).2 ht
  simp only [this, ht.ne_non, if_false, getDims_ok hr, Option.map_some]

theorem atomW_ok {s s' : PS} {w : W} (h : atomW s = some (w, s')) : ∃ x, Ok 0 s s' w x := by
  unfold atomW at h
  split at h
  · rename_i v r hs
    cases h
    exact ⟨.int v, by simp [PS.next, hs, SX.toks], rfl, .int, .int, rfl⟩
  · rename_i v r hs
    cases h
    exact ⟨.chr v, by simp [PS.next, hs, SX.toks], rfl, .chr, .chr, rfl⟩
  · rename_i v r hs
    cases h
    exact ⟨.log v, by simp [PS.next, hs, SX.toks], rfl, .log, .log, rfl⟩
  · rename_i v r hs
    cases h
    exact ⟨.str v, by simp [PS.next, hs, SX.toks], rfl, .str, .str, rfl⟩
  · rename_i r hs
    cases h
    exact ⟨.nul, by simp [PS.next, hs, SX.toks], rfl, .nul, .nul, rfl⟩
  · rename_i r hs
    simp only [Option.bind_eq_bind, Option.bind_eq_some_iff] at h
    obtain ⟨s1, h1, ⟨ty, d, s2⟩, h2, v, h3, s3, h4, h⟩ := h
    cases h
    obtain ⟨a1, b1⟩ := chkTok_some h1
    obtain ⟨k, a2, c2, b2⟩ := getType_some h2
    obtain ⟨a4, b4⟩ := chkTok_some h4
    have et : s1.tab = s.tab := by rw [b1]; rfl
    have et2 : s2.tab = s1.tab := by rw [b2]
    have hv : SizeOf s.tab (ty, d) v := by
      have := sizeVal_iff.1 h3
      rwa [et2, et] at this
    refine ⟨.sizeof k d, ?_, ?_, .sizeof, .sizeof (et ▸ c2) hv, rfl⟩
    · have e0 : s.next.toks = r := by simp [PS.next, hs]
      rw [hs, ← e0, a1, a2, a4]
      simp [SX.toks]
    · rw [b4, b2, b1]; rfl
  · rename_i x r hs
    simp only [Option.bind_eq_bind, Option.bind_eq_some_iff] at h
    obtain ⟨w', h1, h⟩ := h
    cases h
    unfold addrofW at h1
    simp only [Option.bind_eq_bind, Option.bind_eq_some_iff] at h1
    obtain ⟨i, h2, e, h3, h4⟩ := h1
    split at h4
    · rename_i hsc
      cases h4
      obtain ⟨e', he'⟩ := srcName_iff.1 h2
      have : e' = e := by
        have := he'.1.symm.trans h3
        exact Option.some.inj this
      subst this
      refine ⟨.addrof x, by simp [hs, SX.toks], rfl, .addrof, .addrof he' ?_, rfl⟩
      rcases hsc with h | h | h | h
      · exact .inl (.inl h)
      · exact .inl (.inr h)
      · exact .inr (h ▸ .comm)
      · exact .inr (h ▸ .gvar)
    · cases h4
  · cases h

theorem varW_some {n : Nat} {e : Ent} {w : W} (h : varW n e = some w) :
    ∃ k, VarKind e.scope k ∧ w = ⟨e.type, e.dim, true, .leaf k n⟩ := by
  unfold varW at h
  split at h
  · rename_i h0; cases h
    rcases h0 with h0 | h0
    · exact ⟨.glb, h0 ▸ .comm, rfl⟩
    · exact ⟨.glb, h0 ▸ .gvar, rfl⟩
  · split at h
    · rename_i h0; cases h; exact ⟨.loc, h0 ▸ .lvar, rfl⟩
    · split at h
      · rename_i h0; cases h; exact ⟨.prm, h0 ▸ .prm, rfl⟩
      · cases h

theorem uniOp_some {t : Tok} {o : Int × (Expr → Expr)} {w w' : W} (h : uniOp t = some o)
    (hw : uniW o w = some w') : IsPre t ∧ w'.lhs = false ∧
    ∃ f, Pre t (w.type, w.dim) (w'.type, w'.dim) f ∧ w'.tree = f w.tree := by
  unfold uniW at hw
  simp only [Option.map_eq_some_iff] at hw
  obtain ⟨x, hx, rfl⟩ := hw
  unfold uniOp at h
  split at h
  · cases h
    obtain ⟨h1, h2, h3, h4⟩ := chkType_int hx
    refine ⟨.inl rfl, rfl, id, ?_, by simp [h4]⟩
    simp only [h2, h3]
    exact .plus h1
  · cases h
    obtain ⟨h1, h2, h3, h4⟩ := chkType_int hx
    refine ⟨.inr (.inl rfl), rfl, .un .neg, ?_, by simp only [h4]⟩
    simp only [h2, h3]
    exact .minus h1
  · cases h
    obtain ⟨h1, rfl⟩ := chkType_bool hx
    refine ⟨.inr (.inr (.inl rfl)), rfl, _, ?_, rfl⟩
    simp only [h1]
    exact .excl
  · cases h
    obtain ⟨h1, h2, h3, h4⟩ := chkType_int hx
    refine ⟨.inr (.inr (.inr rfl)), rfl, .un .bnot, ?_, by simp only [h4]⟩
    simp only [h2, h3]
    exact .tilde h1
  · cases h

theorem convW_some {op : Un} {k : Tok} {ty : Int} {w w' : W} (hk : Conv k TyINT ty (.un op))
    (h : convW op ty w = some w') : w'.lhs = false ∧ w'.dim = 0 ∧
    ∃ t f, Conv k t w'.type f ∧ w.type = t ∧ w.dim = 0 ∧ w'.tree = f w.tree := by
  unfold convW at h
  split at h
  · cases h
  · rename_i h0
    simp only [ne_eq, not_or, not_not] at h0
    cases h
    exact ⟨rfl, h0.1, _, _, hk, h0.2, h0.1, rfl⟩

theorem ordW_some {w w' : W} (h : ordW w = some w') : w'.lhs = false ∧ w'.dim = 0 ∧
    ∃ t f, Conv Lx.ORD t w'.type f ∧ w.type = t ∧ w.dim = 0 ∧ w'.tree = f w.tree := by
  unfold ordW at h
  split at h
  · cases h
  · rename_i h0
    cases h
    have h1 : w.dim = 0 := by
      by_contra hd; exact h0 (.inr hd)
    by_cases hb : w.type = TyBOOL
    · exact ⟨rfl, h1, _, _, .ordB, hb, h1, rfl⟩
    · have hc : w.type = TyCHAR := by
        by_contra hc; exact h0 (.inl ⟨hb, hc⟩)
      exact ⟨rfl, h1, _, _, .ordC, hc, h1, rfl⟩

/-- The rules for parentheses and conversions, whose operand stands in parentheses. -/
theorem Ok.inPar {s s0 s1 s2 : PS} {w : W} {x : SX} (h1 : s0.toks = Lx.lpar :: s1.toks)
    (h2 : s1 = { s0 with toks := s1.toks }) (h : Ok 13 s1 s2 w x) (h3 : chkTok Lx.rpar s2 = some s) :
    s0.toks = Lx.lpar :: (x.toks ++ [Lx.rpar]) ++ s.toks ∧
    s = { s0 with toks := s.toks, lab := s0.lab + x.strs } ∧
    Ty actual s0.tab s0.lab x [(w.type, w.dim)] w.tree := by
  obtain ⟨a, b⟩ := chkTok_some h3
  refine ⟨?_, ?_, ?_⟩
  · rw [h1, h.toks, a]; simp
  · rw [b, h.st, h2]
  · have := h.ty
    rw [h2] at this
    exact this

theorem Store.of {l r e : Expr} (h : assTree l r = some e) : Store l r e := by
  unfold assTree at h
  split at h
  · cases h; exact .var
  · cases h; exact .mem
  · cases h

theorem assW_some {w w2 w' : W} (h : assW w w2 = some w') :
    Assignable (w2.type, w2.dim) (w.type, w.dim) ∧ w.lhs = true ∧
    ∃ e, Store w.tree w2.tree e ∧ w' = ⟨w.type, w.dim, false, e⟩ := by
  unfold assW at h
  simp only [Option.bind_eq_bind, Option.bind_eq_some_iff] at h
  obtain ⟨x, hx, h⟩ := h
  split at h
  · rename_i hl
    simp only [Option.bind_eq_some_iff] at h
    obtain ⟨e, he, h⟩ := h
    cases h
    refine ⟨chkCmpat_iff.1 (by rw [hx]; rfl), hl, e, ?_, rfl⟩
    rw [chkCmpat_tree hx] at he
    exact .of he
  · cases h

theorem idxW_some {w w2 w' : W} (h0 : w.dim ≠ 0) (h : idxW w w2 = some w') :
    ∃ d op, w.dim = d + 1 ∧ (w2.type, w2.dim) = (TyINT, 0) ∧ Elem (w.type, d) op ∧
      w' = ⟨w.type, d, true, .bin op w.tree w2.tree⟩ := by
  unfold idxW at h
  split at h
  · cases h
  · rename_i h1
    simp only [ne_eq, not_or, not_not] at h1
    simp only [Option.map_eq_some_iff] at h
    obtain ⟨op, ho, rfl⟩ := h
    exact ⟨w.dim - 1, op, by omega, Prod.ext h1.1 h1.2, idxOp_iff.1 ho, rfl⟩

theorem dotW_some {T : Tab} {w w' : W} {f : String} (h : dotW T w f = some w') :
    ∃ (i : Nat) (n : Nat) (d e : Ent), (w.type, w.dim) = (-(i : Int), 0) ∧ T[i]? = some d ∧ Field T i f n e ∧
      w' = ⟨e.type, e.dim, true, .bin .dot w.tree (.cnst n)⟩ := by
  unfold dotW at h
  split at h
  · cases h
  · rename_i h0
    simp only [Option.bind_eq_bind, Option.bind_eq_some_iff] at h
    obtain ⟨n, hn, e, he, h⟩ := h
    cases h
    have hi : w.type = -(((-w.type).toNat : Nat) : Int) := by omega
    rw [hi] at hn
    obtain ⟨e', he'⟩ := srcField_iff.1 hn
    have : e' = e := Option.some.inj (he'.2.1.symm.trans he)
    subst this
    obtain ⟨⟨d, hd, -⟩, -⟩ := id he'
    exact ⟨_, n, d, e', Prod.ext hi (by simp only; omega), hd, he', rfl⟩

theorem cat_some {l e : Expr} : cat (some l) e = .bin .semi l e := rfl

set_option maxHeartbeats 1000000 in
theorem sound_all :
    (∀ k s r, lev k s = some r → k ≤ 13 → ∃ x, Ok k s r.2 r.1 x) ∧
    (∀ k w s r, binLoop k w s = some r → 2 ≤ k → k ≤ 11 → ∀ s0 x, Ok k s0 s w x →
      ∃ x', Ok k s0 r.2 r.1 x') ∧
    (∀ w s r, commaLoop w s = some r → ∀ s0 x, Ok 13 s0 s w x → ∃ x', Ok 13 s0 r.2 r.1 x') ∧
    (∀ w s r, postLoop w s = some r → ∀ s0 x, Ok 0 s0 s w x → ∃ x', Ok 0 s0 r.2 r.1 x') ∧
    (∀ s r, factor s = some r → ∃ x, Ok 0 s r.2 r.1 x) ∧
    (∀ n e s r, call n e s = some r → ∀ f s0, s0.toks = .name f :: s.toks →
      s = { s0 with toks := s.toks } → Sees s0.tab f n e → IsFun e.scope → ∃ x, Ok 0 s0 r.2 r.1 x) ∧
    (∀ last idx list s r, argsLoop last idx list s = some r → ∀ s0 i,
      (list = none ∧ s0 = s ∧ i = idx) ∨ (∃ s1 el x ts, list = some el ∧
        OkA last i idx s0 s1 el x ts ∧ s1.toks = Lx.comma :: s.toks ∧ s = { s1 with toks := s.toks }) →
      ∃ x ts, OkA last i r.1 s0 r.2.2 r.2.1 x ts) := by
  refine lev.mutual_partial_correctness
    (fun k s r => k ≤ 13 → ∃ x, Ok k s r.2 r.1 x)
    (fun k w s r => 2 ≤ k → k ≤ 11 → ∀ s0 x, Ok k s0 s w x → ∃ x', Ok k s0 r.2 r.1 x')
    (fun w s r => ∀ s0 x, Ok 13 s0 s w x → ∃ x', Ok 13 s0 r.2 r.1 x')
    (fun w s r => ∀ s0 x, Ok 0 s0 s w x → ∃ x', Ok 0 s0 r.2 r.1 x')
    (fun s r => ∃ x, Ok 0 s r.2 r.1 x)
    (fun n e s r => ∀ f s0, s0.toks = .name f :: s.toks → s = { s0 with toks := s.toks } →
      Sees s0.tab f n e → IsFun e.scope → ∃ x, Ok 0 s0 r.2 r.1 x)
    (fun last idx list s r => ∀ s0 i,
      (list = none ∧ s0 = s ∧ i = idx) ∨ (∃ s1 el x ts, list = some el ∧
        OkA last i idx s0 s1 el x ts ∧ s1.toks = Lx.comma :: s.toks ∧ s = { s1 with toks := s.toks }) →
      ∃ x ts, OkA last i r.1 s0 r.2.2 r.2.1 x ts) ?_ ?_ ?_ ?_ ?_ ?_ ?_
  · -- lev
    intro lev binLoop commaLoop postLoop factor ih1 ih2 ih3 ih4 ih5 k s r h hk
    split at h
    · simp only [Option.bind_eq_bind, Option.bind_eq_some_iff] at h
      obtain ⟨⟨w, s1⟩, h1, h2⟩ := h
      obtain ⟨x, hx⟩ := ih5 _ _ h1
      exact ih4 _ _ _ h2 s x hx
    · split at h
      · rename_i t tl hs
        split at h
        · rename_i o ho
          simp only [Option.bind_eq_bind, Option.bind_eq_some_iff] at h
          obtain ⟨⟨w, s1⟩, h1, w', h2, h⟩ := h
          cases h
          obtain ⟨x, hx⟩ := ih1 _ _ _ h1 (by omega)
          obtain ⟨a1, a2, f, a3, a4⟩ := uniOp_some ho h2
          refine ⟨.pre t x, ?_, ?_, .pre a1 hx.lev, ?_, a2⟩
          · have := hx.toks
            simp only [PS.next, hs, List.tail_cons] at this
            simp only [hs, this, SX.toks, List.cons_append]
          · rw [hx.st]; rfl
          · simp only [a4]
            exact .pre a3 hx.ty
        · obtain ⟨x, hx⟩ := ih1 _ _ _ h (by omega)
          exact ⟨x, hx.up (by omega)⟩
      · cases h
    · simp only [Option.bind_eq_bind, Option.bind_eq_some_iff] at h
      obtain ⟨⟨w, s1⟩, h1, h⟩ := h
      obtain ⟨x, hx⟩ := ih1 _ _ _ h1 (by omega)
      simp only at h hx
      split at h
      · rename_i tl hs
        simp only [Option.bind_eq_some_iff] at h
        obtain ⟨⟨w2, s2⟩, h2, w', h3, h⟩ := h
        cases h
        obtain ⟨y, hy⟩ := ih1 _ _ _ h2 (by omega)
        obtain ⟨c1, c2, c3⟩ := hx.two (t := Lx.eq) (by simp [PS.next, hs]) rfl hy
        obtain ⟨a1, a2, e, a3, rfl⟩ := assW_some h3
        exact ⟨.ass x y, c1, c2, .ass hx.lev hy.lev,
          .ass hx.ty (by rw [← hx.lv]; exact a2) c3 a1 a3, rfl⟩
      · cases h
        exact ⟨x, hx.up (by omega)⟩
    · simp only [Option.bind_eq_bind, Option.bind_eq_some_iff] at h
      obtain ⟨⟨w, s1⟩, h1, h⟩ := h
      obtain ⟨x, hx⟩ := ih1 _ _ _ h1 (by omega)
      exact ih3 _ _ _ h s x (hx.up (by omega))
    · rename_i k h0 h12 h13
      have h0' : k ≠ 0 := h0
      have h12' : k ≠ 11 := h12
      have h13' : k ≠ 12 := h13
      simp only [Option.bind_eq_bind, Option.bind_eq_some_iff] at h
      obtain ⟨⟨w, s1⟩, h1', h⟩ := h
      obtain ⟨x, hx⟩ := ih1 _ _ _ h1' (by omega)
      exact ih2 _ _ _ _ h (by omega) (by omega) s x (hx.up (by omega))
  · -- binLoop
    intro lev binLoop ih1 ih2 k w s r h hk2 hk11 s0 x hx
    split at h
    · rename_i t tl hs
      split at h
      · rename_i op ho
        simp only [Option.bind_eq_bind, Option.bind_eq_some_iff] at h
        obtain ⟨⟨w2, s2⟩, h2, w', h3, h⟩ := h
        obtain ⟨y, hy⟩ := ih1 _ _ _ h2 (by omega)
        obtain ⟨c1, c2, c3⟩ := hx.two (t := t) (by simp [PS.next, hs]) rfl hy
        obtain ⟨c, hc, rfl⟩ := (binW_iff hk2 hk11).1 h3
        have ho' := binOp_iff.1 ho
        exact ih2 _ _ _ _ h hk2 hk11 s0 (.bin t x y) ⟨c1, c2, .bin ho' hx.lev hy.lev,
          .bin ho' hc hx.ty c3, rfl⟩
      · cases h; exact ⟨x, hx⟩
    · cases h; exact ⟨x, hx⟩
  · -- commaLoop
    intro lev commaLoop ih1 ih2 w s r h s0 x hx
    split at h
    · rename_i tl hs
      simp only [Option.bind_eq_bind, Option.bind_eq_some_iff] at h
      obtain ⟨⟨w2, s2⟩, h2, h⟩ := h
      obtain ⟨y, hy⟩ := ih1 _ _ _ h2 (by omega)
      obtain ⟨c1, c2, c3⟩ := hx.two (t := Lx.comma) (by simp [PS.next, hs]) rfl hy
      exact ih2 _ _ _ h s0 (.com x y) ⟨c1, c2, .com hx.lev hy.lev, .com hx.ty c3, rfl⟩
    · cases h; exact ⟨x, hx⟩
  · -- postLoop
    intro lev postLoop ih1 ih2 w s r h s0 x hx
    split at h
    · rename_i tl hs
      split at h
      · cases h
      · rename_i hd
        simp only [Option.bind_eq_bind, Option.bind_eq_some_iff] at h
        obtain ⟨⟨w2, s2⟩, h2, s3, h3, w', h4, h⟩ := h
        obtain ⟨y, hy⟩ := ih1 _ _ _ h2 (by omega)
        obtain ⟨c1, c2, c3⟩ := hx.two (t := Lx.lbrk) (by simp [PS.next, hs]) rfl hy
        obtain ⟨d, op, e1, e2, e3, rfl⟩ := idxW_some hd h4
        obtain ⟨b1, b2⟩ := chkTok_some h3
        refine ih2 _ _ _ h s0 (.idx x y) ⟨?_, ?_, .idx hx.lev hy.lev, ?_, rfl⟩
        · rw [c1, b1]; simp [SX.toks]
        · rw [b2, c2]; rfl
        · refine .idx (d := d) ?_ ?_ e3
          · rw [← e1]; exact hx.ty
          · rw [← e2]; exact c3
    · rename_i f tl hs
      simp only [Option.bind_eq_bind, Option.bind_eq_some_iff] at h
      obtain ⟨w', h1, h⟩ := h
      obtain ⟨i, n, d, e, e1, e2, e3, rfl⟩ := dotW_some h1
      rw [hx.tab] at e2 e3
      refine ih2 _ _ _ h s0 (.fld x f) ⟨?_, ?_, .fld hx.lev, ?_, rfl⟩
      · rw [hx.toks, hs]; simp [SX.toks]
      · show { s with toks := tl } = _
        rw [hx.st]; rfl
      · exact .fld (i := i) (e1 ▸ hx.ty) e2 trivial e3
    · cases h
    · cases h; exact ⟨x, hx⟩
  · -- factor
    intro lev call ih1 ih2 s r h
    have conv : ∀ (k : Tok) (tl : List Tok) (s1 s2 s3 : PS) (w w' : W), s.toks = k :: tl →
        chkTok Lx.lpar s.next = some s1 → lev 13 s1 = some (w, s2) → chkTok Lx.rpar s2 = some s3 →
        (w'.lhs = false ∧ w'.dim = 0 ∧
          ∃ t f, Conv k t w'.type f ∧ w.type = t ∧ w.dim = 0 ∧ w'.tree = f w.tree) →
        ∃ x, Ok 0 s s3 w' x := by
      rintro k tl s1 s2 s3 w w' hs h1 h2 h3 ⟨g1, g2, t, f, g3, g4, g5, g6⟩
      obtain ⟨b1, b2⟩ := chkTok_some h1
      obtain ⟨x, hx⟩ := ih1 _ _ _ h2 (by omega)
      obtain ⟨c1, c2, c3⟩ := hx.inPar b1 b2 h3
      refine ⟨.conv k x, ?_, ?_, .conv hx.lev, ?_, g1⟩
      · simp only [PS.next, hs, List.tail_cons] at c1
        rw [hs, c1]; rfl
      · rw [c2]; rfl
      · rw [g2, g6]
        refine .conv g3 ?_
        have := c3
        rw [g4, g5] at this
        exact this
    split at h
    · rename_i tl hs
      simp only [Option.bind_eq_bind, Option.bind_eq_some_iff] at h
      obtain ⟨⟨w, s2⟩, h2, s3, h3, h⟩ := h
      cases h
      obtain ⟨x, hx⟩ := ih1 _ _ _ h2 (by omega)
      obtain ⟨c1, c2, c3⟩ := hx.inPar (s0 := s) (by simp [PS.next, hs]) rfl h3
      exact ⟨.par x, c1, c2, .par hx.lev, .par c3, hx.lv⟩
    · rename_i f tl hs
      simp only [Option.bind_eq_bind, Option.bind_eq_some_iff] at h
      obtain ⟨n, h1, e, h2, h⟩ := h
      obtain ⟨e', he⟩ := srcName_iff.1 h1
      have : e' = e := Option.some.inj (he.1.symm.trans h2)
      subst this
      split at h
      · rename_i hf
        exact ih2 _ _ _ _ h f s (by simp [PS.next, hs]) rfl he hf
      · simp only [Option.bind_eq_some_iff] at h
        obtain ⟨w, h3, h⟩ := h
        cases h
        obtain ⟨k, g1, rfl⟩ := varW_some h3
        exact ⟨.var f, by simp [PS.next, hs, SX.toks], rfl, .var, .var he g1, rfl⟩
    · rename_i tl hs
      simp only [Option.bind_eq_bind, Option.bind_eq_some_iff] at h
      obtain ⟨s1, h1, ⟨w, s2⟩, h2, s3, h3, w', h4, h⟩ := h
      cases h
      exact conv _ _ _ _ _ _ _ hs h1 h2 h3 (ordW_some h4)
    · rename_i tl hs
      simp only [Option.bind_eq_bind, Option.bind_eq_some_iff] at h
      obtain ⟨s1, h1, ⟨w, s2⟩, h2, s3, h3, w', h4, h⟩ := h
      cases h
      exact conv _ _ _ _ _ _ _ hs h1 h2 h3 (convW_some .chr h4)
    · rename_i tl hs
      simp only [Option.bind_eq_bind, Option.bind_eq_some_iff] at h
      obtain ⟨s1, h1, ⟨w, s2⟩, h2, s3, h3, w', h4, h⟩ := h
      cases h
      exact conv _ _ _ _ _ _ _ hs h1 h2 h3 (convW_some .bool h4)
    · exact atomW_ok h
  · -- call
    intro argsLoop ih n e s r h f s0 hs0 hst hsee hfun
    simp only [Option.bind_eq_bind, Option.bind_eq_some_iff] at h
    obtain ⟨s1, h1, h⟩ := h
    obtain ⟨b1, b2⟩ := chkTok_some h1
    have et : s1.tab = s0.tab := by rw [b2, hst]
    split at h
    · cases h
    · rename_i hintr
      split at h
      · rename_i tl hs
        split at h
        · rename_i he
          cases h
          refine ⟨.call0 f, ?_, ?_, .call0, .call0 hsee hfun hintr ?_, rfl⟩
          · rw [hs0, b1, hs]; simp [SX.toks, PS.next, hs]
          · show s1.next = _
            unfold PS.next
            rw [b2, hst]; rfl
          · exact conform_iff.2 ⟨_, rfl, et ▸ he⟩
        · cases h
      · simp only [Option.bind_eq_some_iff] at h
        obtain ⟨⟨idx, a, s2⟩, h2, s3, h3, h⟩ := h
        split at h
        · rename_i he
          cases h
          obtain ⟨x, ts, hx⟩ := ih _ _ _ _ _ h2 s1 (n + 1) (.inl ⟨rfl, rfl, rfl⟩)
          obtain ⟨b3, b4⟩ := chkTok_some h3
          have et3 : s3.tab = s0.tab := by rw [b4, hx.st, ← et]
          have hxt := hx.toks
          have hxst := hx.st
          have hxty := hx.ty
          have hxr := hx.run
          simp only at hxt hxst hxty hxr
          refine ⟨.call f x, ?_, ?_, ?_, .call (ts := ts) hsee hfun hintr ?_ ?_, rfl⟩
          · rw [hs0, b1, hxt, b3]; simp [SX.toks]
          · show s3 = _
            rw [b4, hxst, b2, hst]; rfl
          · rcases hx.lev with h | ⟨l, r, rfl, h⟩
            · exact .call1 h
            · exact .calln h
          · rw [b2, hst] at hxty; exact hxty
          · exact conform_iff.2 ⟨idx, et ▸ hxr, et3 ▸ he⟩
        · cases h
  · -- argsLoop
    intro lev argsLoop ih1 ih2 last idx list s r h s0 i hpre
    simp only [Option.bind_eq_bind, Option.bind_eq_some_iff] at h
    obtain ⟨⟨w, s1⟩, h1, j, h2, h⟩ := h
    obtain ⟨y, hy⟩ := ih1 _ _ _ h1 (by omega)
    simp only at hy h2 h
    rw [argOk_w, hy.tab] at h2
    have post : ∃ x ts, OkA last i j s0 s1 (cat list w.tree) x ts := by
      rcases hpre with ⟨rfl, rfl, rfl⟩ | ⟨s3, el, x, ts, rfl, hx, e1, e2⟩
      · refine ⟨y, _, hy.toks, hy.st, .inl hy.lev, hy.ty, ?_⟩
        show (argOk _ _ _ _).bind _ = _
        rw [h2]; rfl
      · refine ⟨.args x y, ts ++ [(w.type, w.dim)], ?_, ?_, ?_, ?_, ?_⟩
        · rw [hx.toks, e1, hy.toks]; simp [SX.toks]
        · rw [hy.st, e2, hx.st]; simp [SX.strs, Nat.add_assoc]
        · rcases hx.lev with h | ⟨l, r, rfl, h⟩
          · exact .inr ⟨_, _, rfl, .args1 h hy.lev⟩
          · exact .inr ⟨_, _, rfl, .argsn h hy.lev⟩
        · refine .args hx.ty ?_
          have := hy.ty
          rw [e2, hx.st] at this
          exact this
        · rw [argRun_append, hx.run]
          show (argOk _ _ _ _).bind _ = _
          have : s.tab = s0.tab := by rw [e2, hx.st]
          rw [← this, h2]; rfl
    obtain ⟨x, ts, hx⟩ := post
    split at h
    · rename_i tl hs
      exact ih2 _ _ _ _ _ h s0 i (.inr ⟨s1, _, x, ts, rfl, hx, by simp [PS.next, hs], rfl⟩)
    · cases h
      exact ⟨x, ts, hx⟩

theorem lev_sound {k : Nat} {s s' : PS} {w : W} (h : lev k s = some (w, s')) (hk : k ≤ 13) :
    ∃ x, Ok k s s' w x := sound_all.1 k s _ h hk

end Cmm.Parse
