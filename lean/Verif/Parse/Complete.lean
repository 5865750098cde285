import Verif.Parse.Sound

/- Every well typed expression with enough parentheses is read back as its tree. -/
namespace Cmm.Parse
open Cmm.Tree

/-- The level at which a token continues an expression: 0 index and field, 2-11 binary
operators, 12 assignment, 13 comma, 14 none. -/
def tokLev : Tok → Nat
  | Lx.lbrk | Lx.dot => 0
  | Lx.star | Lx.slash | Lx.perc => 2
  | Lx.plus | Lx.minus => 3
  | Lx.SHL | Lx.SHR => 4
  | Lx.gt | Lx.GTE | Lx.lt | Lx.LTE => 5
  | Lx.EQU | Lx.NEQ => 6
  | Lx.amp => 7
  | Lx.caret => 8
  | Lx.bar => 9
  | Lx.AND => 10
  | Lx.OR => 11
  | Lx.eq => 12
  | Lx.comma => 13
  | _ => 14

/-- The rest does not continue an expression at a level below `k`. -/
def FolLt (k : Nat) (r : List Tok) : Prop := ∀ t, r.head? = some t → k ≤ tokLev t

theorem FolLt.mono {k k' : Nat} {r : List Tok} (h : FolLt k r) (hk : k' ≤ k) : FolLt k' r :=
  fun t ht => Nat.le_trans hk (h t ht)

theorem IsBin.tokLev {k : Nat} {t : Tok} {op : Bin} (h : IsBin k t op) : tokLev t = k := by
  have h' := binOp_iff.2 h
  unfold binOp at h'
  split at h' <;> first | rfl | cases h'

theorem binOp_none {k : Nat} {t : Tok} {r : List Tok} (h : FolLt (k + 1) (t :: r)) :
    binOp k t = none := by
  cases hb : binOp k t with
  | none => rfl
  | some op =>
    have := (binOp_iff.1 hb).tokLev
    have := h t rfl
    omega

/-- The exact level of an expression. -/
inductive SX.Ex : SX → Nat → Prop
  | int {v} : SX.Ex (.int v) 0
  | chr {v} : SX.Ex (.chr v) 0
  | log {v} : SX.Ex (.log v) 0
  | str {v} : SX.Ex (.str v) 0
  | nul : SX.Ex .nul 0
  | sizeof {t d} : SX.Ex (.sizeof t d) 0
  | addrof {x} : SX.Ex (.addrof x) 0
  | var {x} : SX.Ex (.var x) 0
  | call0 {f} : SX.Ex (.call0 f) 0
  | call {f a} : ArgAt a → SX.Ex (.call f a) 0
  | args {l r} : ArgAt l → SX.At r 12 → SX.Ex (.args l r) 14
  | par {e} : SX.At e 13 → SX.Ex (.par e) 0
  | conv {k e} : SX.At e 13 → SX.Ex (.conv k e) 0
  | idx {a i} : SX.At a 0 → SX.At i 12 → SX.Ex (.idx a i) 0
  | fld {a f} : SX.At a 0 → SX.Ex (.fld a f) 0
  | pre {t e} : IsPre t → SX.At e 1 → SX.Ex (.pre t e) 1
  | bin {k t op l r} : IsBin k t op → SX.At l k → SX.At r (k - 1) → SX.Ex (.bin t l r) k
  | ass {l r} : SX.At l 11 → SX.At r 12 → SX.Ex (.ass l r) 12
  | com {l r} : SX.At l 13 → SX.At r 12 → SX.Ex (.com l r) 13

theorem SX.At.ex {x : SX} {k : Nat} (h : x.At k) : ∃ k0, k0 ≤ k ∧ x.Ex k0 := by
  induction h with
  | up _ ih => obtain ⟨k0, h1, h2⟩ := ih; exact ⟨k0, by omega, h2⟩
  | int => exact ⟨0, by omega, .int⟩
  | chr => exact ⟨0, by omega, .chr⟩
  | log => exact ⟨0, by omega, .log⟩
  | str => exact ⟨0, by omega, .str⟩
  | nul => exact ⟨0, by omega, .nul⟩
  | sizeof => exact ⟨0, by omega, .sizeof⟩
  | addrof => exact ⟨0, by omega, .addrof⟩
  | var => exact ⟨0, by omega, .var⟩
  | call0 => exact ⟨0, by omega, .call0⟩
  | call1 h => exact ⟨0, by omega, .call (.inl h)⟩
  | calln h => exact ⟨0, by omega, .call (.inr ⟨_, _, rfl, h⟩)⟩
  | args1 h h2 => exact ⟨14, by omega, .args (.inl h) h2⟩
  | argsn h h2 => exact ⟨14, by omega, .args (.inr ⟨_, _, rfl, h⟩) h2⟩
  | par h => exact ⟨0, by omega, .par h⟩
  | conv h => exact ⟨0, by omega, .conv h⟩
  | idx h h2 => exact ⟨0, by omega, .idx h h2⟩
  | fld h => exact ⟨0, by omega, .fld h⟩
  | pre h h2 => exact ⟨1, by omega, .pre h h2⟩
  | bin h h2 h3 => exact ⟨_, Nat.le_refl _, .bin h h2 h3⟩
  | ass h h2 => exact ⟨12, by omega, .ass h h2⟩
  | com h h2 => exact ⟨13, by omega, .com h h2⟩

/-- How reading at a level goes on behind an expression of that level. -/
def cont : Nat → W → PS → Option (W × PS)
  | 0, w, s => postLoop w s
  | 1, w, s => some (w, s)
  | 12, w, s => some (w, s)
  | 13, w, s => commaLoop w s
  | k, w, s => binLoop k w s

/-- What must not follow for that. -/
def fol (k : Nat) : Nat := if k = 1 then 2 else if k = 12 then 13 else k

theorem cont_bin {k : Nat} (h2 : 2 ≤ k) (h11 : k ≤ 11) (w : W) (s : PS) :
    cont k w s = binLoop k w s := by
  unfold cont
  split <;> first | rfl | omega

theorem postLoop_end {w : W} {s : PS} (h : FolLt 1 s.toks) : postLoop w s = some (w, s) := by
  rw [postLoop]
  split
  · rename_i hs; rw [hs] at h; exact absurd (h _ rfl) (by decide)
  · rename_i hs; rw [hs] at h; exact absurd (h _ rfl) (by decide)
  · rename_i hs; rw [hs] at h; exact absurd (h _ rfl) (by decide)
  · rfl

theorem binLoop_end {k : Nat} {w : W} {s : PS} (h : FolLt (k + 1) s.toks) :
    binLoop k w s = some (w, s) := by
  rw [binLoop]
  split
  · rename_i t r hs
    rw [hs] at h
    rw [binOp_none h]
  · rfl

theorem commaLoop_end {w : W} {s : PS} (h : FolLt 14 s.toks) : commaLoop w s = some (w, s) := by
  rw [commaLoop]
  split
  · rename_i hs; rw [hs] at h; exact absurd (h _ rfl) (by decide)
  · rfl

theorem cont_end {k : Nat} (hk : k ≤ 13) {w : W} {s : PS} (h : FolLt (k + 1) s.toks) :
    cont k w s = some (w, s) := by
  unfold cont
  split
  · exact postLoop_end h
  · rfl
  · rfl
  · exact commaLoop_end h
  · exact binLoop_end h

/-- One level up. -/
theorem climb1 {k : Nat} {s s' : PS} {w : W} (h : lev k s = cont k w s') (hk : k < 13)
    (hf : FolLt (fol (k + 1)) s'.toks) (h0 : k = 0 → ∃ t r, s.toks = t :: r ∧ uniOp t = none) :
    lev (k + 1) s = cont (k + 1) w s' := by
  have hs : lev k s = some (w, s') := by
    rw [h]
    refine cont_end (by omega) (hf.mono ?_)
    unfold fol
    split
    · omega
    · split <;> omega
  rw [lev.eq_def]
  split
  · omega
  · rename_i h1
    have : k = 0 := by omega
    subst this
    obtain ⟨t, r, e1, e2⟩ := h0 rfl
    rw [e1]
    simp only [e2]
    exact hs
  · rename_i h1
    have : k = 11 := by omega
    subst this
    rw [hs]
    simp only [Option.bind_eq_bind, Option.bind_some]
    split
    · rename_i r ht
      rw [ht] at hf
      exact absurd (hf _ rfl) (by decide)
    · rfl
  · rename_i h1
    have : k = 12 := by omega
    subst this
    rw [hs]
    rfl
  · rename_i k' g0 g1 g2 h1
    have e : k' = k := by omega
    subst e
    rw [hs, cont_bin (by have : k' ≠ 0 := g0; omega) (by have : k' ≠ 11 := g1; have : k' ≠ 12 := g2; omega)]
    rfl

theorem fol_mono {k k' : Nat} (h : k ≤ k') : fol k ≤ fol k' := by
  unfold fol
  split <;> split <;> (try split) <;> (try split) <;> omega

theorem climb {k0 k : Nat} {s s' : PS} {w : W} (h : lev k0 s = cont k0 w s') (hk : k0 ≤ k)
    (h13 : k ≤ 13) (hf : FolLt (fol k) s'.toks)
    (h0 : k0 = 0 → ∃ t r, s.toks = t :: r ∧ uniOp t = none) : lev k s = cont k w s' := by
  induction k with
  | zero => have : k0 = 0 := by omega
            subst this; exact h
  | succ k ih =>
    rcases Nat.eq_or_lt_of_le hk with rfl | hlt
    · exact h
    · exact climb1 (ih (by omega) (by omega) (hf.mono (fol_mono (by omega)))) (by omega) hf
        (fun e => h0 (by omega))

/-- Expressions begin with a token that is neither `)` nor, for factors, a prefix operator. -/
theorem head_ok : ∀ {x : SX} {R : Rules} {T : Tab} {m : Nat} {ts : List (Int × Nat)} {e : Expr},
    Ty R T m x ts e → ∃ t r, x.toks = t :: r ∧ t ≠ Lx.rpar ∧ (x.At 0 → uniOp t = none) := by
  intro x R T m ts e h
  induction h with
  | int => exact ⟨_, _, rfl, by simp, fun _ => rfl⟩
  | chr => exact ⟨_, _, rfl, by simp, fun _ => rfl⟩
  | log => exact ⟨_, _, rfl, by simp, fun _ => rfl⟩
  | str => exact ⟨_, _, rfl, by simp, fun _ => rfl⟩
  | nul => exact ⟨_, _, rfl, by simp, fun _ => rfl⟩
  | sizeof => exact ⟨_, _, rfl, by simp, fun _ => rfl⟩
  | addrof => exact ⟨_, _, rfl, by simp, fun _ => rfl⟩
  | var => exact ⟨_, _, rfl, by simp, fun _ => rfl⟩
  | call0 => exact ⟨_, _, rfl, by simp, fun _ => rfl⟩
  | call => exact ⟨_, _, rfl, by simp, fun _ => rfl⟩
  | par => exact ⟨_, _, rfl, by simp, fun _ => rfl⟩
  | conv h => exact ⟨_, _, rfl, by cases h <;> simp, fun _ => by cases h <;> rfl⟩
  | pre h =>
    refine ⟨_, _, rfl, by cases h <;> simp, fun h' => ?_⟩
    obtain ⟨k0, h1, h2⟩ := h'.ex
    cases h2
    omega
  | args _ _ ih =>
    obtain ⟨t, r, h1, h2, h3⟩ := ih
    refine ⟨t, _, by simp only [SX.toks, h1, List.cons_append]; rfl, h2, fun h' => ?_⟩
    obtain ⟨k0, g1, g2⟩ := h'.ex
    cases g2
    omega
  | idx _ _ _ ih =>
    obtain ⟨t, r, h1, h2, h3⟩ := ih
    refine ⟨t, _, by simp only [SX.toks, h1, List.cons_append]; rfl, h2, fun h' => ?_⟩
    obtain ⟨k0, g1, g2⟩ := h'.ex
    cases g2 with
    | idx h _ => exact h3 h
  | fld _ _ _ _ ih =>
    obtain ⟨t, r, h1, h2, h3⟩ := ih
    refine ⟨t, _, by simp only [SX.toks, h1, List.cons_append]; rfl, h2, fun h' => ?_⟩
    obtain ⟨k0, g1, g2⟩ := h'.ex
    cases g2 with
    | fld h => exact h3 h
  | bin _ _ _ _ ih =>
    obtain ⟨t, r, h1, h2, h3⟩ := ih
    refine ⟨t, _, by simp only [SX.toks, h1, List.cons_append]; rfl, h2, fun h' => ?_⟩
    obtain ⟨k0, g1, g2⟩ := h'.ex
    cases g2 with
    | bin h => have := h.range; omega
  | ass _ _ _ _ _ ih =>
    obtain ⟨t, r, h1, h2, h3⟩ := ih
    refine ⟨t, _, by simp only [SX.toks, h1, List.cons_append]; rfl, h2, fun h' => ?_⟩
    obtain ⟨k0, g1, g2⟩ := h'.ex
    cases g2
    omega
  | com _ _ ih =>
    obtain ⟨t, r, h1, h2, h3⟩ := ih
    refine ⟨t, _, by simp only [SX.toks, h1, List.cons_append]; rfl, h2, fun h' => ?_⟩
    obtain ⟨k0, g1, g2⟩ := h'.ex
    cases g2
    omega

/-- The state behind the expression `x`. -/
def after (s : PS) (x : SX) (rest : List Tok) : PS :=
  { s with toks := rest, lab := s.lab + x.strs }

/-- What is known of it. -/
def res (x : SX) (t : Int × Nat) (e : Expr) : W := ⟨t.1, t.2, x.lv, e⟩

/-- How getArgs goes on behind an argument. -/
def argCont (last j : Nat) (e : Expr) (s : PS) : Option (Nat × Expr × PS) :=
  match s.toks with
  | Lx.comma :: _ => argsLoop last j (some e) s.next
  | _ => some (j, e, s)

theorem argsLoop_eq {last i j : Nat} {list : Option Expr} {s s' : PS} {w : W}
    (h : lev 12 s = some (w, s')) (ha : argOk s'.tab w i last = some j) :
    argsLoop last i list s = argCont last j (cat list w.tree) s' := by
  rw [argsLoop, h]
  simp only [Option.bind_eq_bind, Option.bind_some, ha]
  rfl

theorem uniOp_ok {t : Tok} {a b : Int × Nat} {f : Expr → Expr} {w : W} (h : Pre t a b f)
    (hw : (w.type, w.dim) = a) :
    ∃ o, uniOp t = some o ∧ uniW o w = some ⟨b.1, b.2, false, f w.tree⟩ := by
  cases h with
  | plus h =>
    obtain ⟨w', h1, h2, h3, h4⟩ := chkType_int_ok (w := w) (hw ▸ h)
    exact ⟨_, rfl, by simp [uniW, h1, h2, h3, h4]⟩
  | minus h =>
    obtain ⟨w', h1, h2, h3, h4⟩ := chkType_int_ok (w := w) (hw ▸ h)
    exact ⟨_, rfl, by simp [uniW, h1, h2, h3, h4]⟩
  | tilde h =>
    obtain ⟨w', h1, h2, h3, h4⟩ := chkType_int_ok (w := w) (hw ▸ h)
    exact ⟨_, rfl, by simp [uniW, h1, h2, h3, h4]⟩
  | excl =>
    have h1 := chkType_bool_ok (w := w) hw
    simp only [Prod.mk.injEq] at hw
    exact ⟨_, rfl, by simp [uniW, h1, hw.1, hw.2]⟩

theorem assW_ok {w w2 : W} {e : Expr} (h : Assignable (w2.type, w2.dim) (w.type, w.dim))
    (hl : w.lhs = true) (hs : Store w.tree w2.tree e) :
    assW w w2 = some ⟨w.type, w.dim, false, e⟩ := by
  unfold assW
  obtain ⟨x, hx⟩ := Option.isSome_iff_exists.1 (chkCmpat_iff.2 h)
  have ht := chkCmpat_tree hx
  rw [hx]
  simp only [Option.bind_eq_bind, Option.bind_some, hl, if_true, ht]
  generalize hA : w.tree = A at hs
  generalize hB : w2.tree = B at hs
  cases hs <;> rfl

theorem idxW_ok {w w2 : W} {d : Nat} {op : Bin} (h1 : w.dim = d + 1)
    (h2 : (w2.type, w2.dim) = (TyINT, 0)) (h3 : Elem (w.type, d) op) :
    idxW w w2 = some ⟨w.type, d, true, .bin op w.tree w2.tree⟩ := by
  simp only [Prod.mk.injEq] at h2
  unfold idxW
  simp only [h1, h2, Nat.add_sub_cancel, idxOp_iff.2 h3]
  simp

theorem dotW_ok {T : Tab} {w : W} {i n : Nat} {f : String} {e : Ent}
    (h : (w.type, w.dim) = (-(i : Int), 0)) (hf : Field T i f n e) :
    dotW T w f = some ⟨e.type, e.dim, true, .bin .dot w.tree (.cnst n)⟩ := by
  simp only [Prod.mk.injEq] at h
  unfold dotW
  have h0 : ¬ (w.type > 0 ∨ w.dim > 0) := by omega
  rw [if_neg h0, h.1, srcField_iff.2 ⟨e, hf⟩]
  simp [hf.2.1]

theorem convW_ok {k : Tok} {t t' : Int} {f : Expr → Expr} {w : W} (h : Conv k t t' f)
    (hw : (w.type, w.dim) = (t, 0)) :
    (k = Lx.ORD ∧ ordW w = some ⟨t', 0, false, f w.tree⟩) ∨
    (k = Lx.CHR ∧ convW .chr TyCHAR w = some ⟨t', 0, false, f w.tree⟩) ∨
    (k = Lx.BOL ∧ convW .bool TyBOOL w = some ⟨t', 0, false, f w.tree⟩) := by
  obtain ⟨wt, wd, lhs, tree⟩ := w
  simp only [Prod.mk.injEq] at hw
  obtain ⟨rfl, rfl⟩ := hw
  cases h with
  | ordC => exact .inl ⟨rfl, rfl⟩
  | ordB => exact .inl ⟨rfl, rfl⟩
  | chr => exact .inr (.inl ⟨rfl, rfl⟩)
  | bool => exact .inr (.inr ⟨rfl, rfl⟩)

theorem varW_ok {n : Nat} {e : Ent} {k : Kind} (h : VarKind e.scope k) :
    varW n e = some ⟨e.type, e.dim, true, .leaf k n⟩ ∧ ¬ (e.scope = ScPROT ∨ e.scope = ScFUNC) := by
  unfold varW
  generalize e.scope = sc at h
  cases h <;> exact ⟨rfl, by decide⟩

theorem sees_get {T : Tab} {x : String} {n : Nat} {e : Ent} (h : Sees T x n e) :
    srcName T x = some n ∧ T[n]? = some e := ⟨srcName_iff.2 ⟨e, h⟩, h.1⟩

theorem lev0_eq {s s' : PS} {w : W} (h : factor s = some (w, s')) : lev 0 s = postLoop w s' := by
  rw [lev, h]; rfl

theorem Ty.single {R : Rules} {T : Tab} {m : Nat} {x : SX} {ts : List (Int × Nat)} {e : Expr}
    (h : Ty R T m x ts e) (hx : x.At 13) : ∃ t, ts = [t] := by
  cases h with
  | args =>
    obtain ⟨k0, h1, h2⟩ := hx.ex
    cases h2; omega
  | _ => exact ⟨_, rfl⟩

/-- The statement for one expression. -/
def Reads (x : SX) : Prop :=
  (∀ (s : PS) rest t e k, s.toks = x.toks ++ rest → Ty actual s.tab s.lab x [t] e → k ≤ 13 →
    x.At k → FolLt (fol k) rest → lev k s = cont k (res x t e) (after s x rest)) ∧
  (∀ (s : PS) rest ts e last i j, s.toks = x.toks ++ rest → Ty actual s.tab s.lab x ts e →
    ArgAt x → FolLt 13 rest → argRun s.tab last i ts = some j →
    argsLoop last i none s = argCont last j e (after s x rest))

theorem Reads.full {x : SX} (h : Reads x) {s : PS} {rest : List Tok} {t : Int × Nat} {e : Expr}
    {k : Nat} (hs : s.toks = x.toks ++ rest) (ht : Ty actual s.tab s.lab x [t] e) (hk : k ≤ 13)
    (ha : x.At k) (hf : FolLt (k + 1) rest) :
    lev k s = some (res x t e, after s x rest) := by
  rw [h.1 s rest t e k hs ht hk ha (hf.mono (by unfold fol; split <;> (try split) <;> omega))]
  exact cont_end hk hf

/-- From the exact level to all. -/
theorem reads_of {x : SX} (hne : ∀ l r, x ≠ .args l r)
    (h : ∀ (s : PS) rest t e k, s.toks = x.toks ++ rest → Ty actual s.tab s.lab x [t] e → k ≤ 13 →
      x.Ex k → FolLt (fol k) rest → lev k s = cont k (res x t e) (after s x rest)) : Reads x := by
  have first : ∀ (s : PS) rest t e k, s.toks = x.toks ++ rest → Ty actual s.tab s.lab x [t] e →
      k ≤ 13 → x.At k → FolLt (fol k) rest → lev k s = cont k (res x t e) (after s x rest) := by
    intro s rest t e k hs ht hk ha hf
    obtain ⟨k0, h1, h2⟩ := ha.ex
    refine climb (h s rest t e k0 hs ht (by omega) h2 (hf.mono (fol_mono h1))) h1 hk hf ?_
    rintro rfl
    obtain ⟨t, r, e1, e2, e3⟩ := head_ok ht
    refine ⟨t, r ++ rest, by rw [hs, e1]; rfl, e3 ?_⟩
    clear h ha hs ht e1 e2 e3
    cases h2 with
    | int => exact .int
    | chr => exact .chr
    | log => exact .log
    | str => exact .str
    | nul => exact .nul
    | sizeof => exact .sizeof
    | addrof => exact .addrof
    | var => exact .var
    | call0 => exact .call0
    | call h =>
      rcases h with h | ⟨l, r, rfl, h⟩
      · exact .call1 h
      · exact .calln h
    | par h => exact .par h
    | conv h => exact .conv h
    | idx h h' => exact .idx h h'
    | fld h => exact .fld h
    | bin h => have := h.range; omega
  refine ⟨first, ?_⟩
  intro s rest ts e last i j hs ht ha hf hr
  rcases ha with ha | ⟨l, r, rfl, -⟩
  · obtain ⟨t, rfl⟩ := ht.single (ha.mono (by omega))
    have hl : lev 12 s = some (res x t e, after s x rest) := by
      rw [first s rest t e 12 hs ht (by omega) ha hf]
      exact cont_end (by omega) hf
    refine argsLoop_eq hl ?_
    rw [argOk_w]
    show argOk s.tab ⟨t.1, t.2, false, .cnst 0⟩ i last = some j
    simp only [argRun] at hr
    cases hj : argOk s.tab ⟨t.1, t.2, false, .cnst 0⟩ i last with
    | none => rw [hj] at hr; cases hr
    | some j' => rw [hj] at hr; exact hr
  · exact absurd rfl (hne l r)

theorem FolLt.cons {k : Nat} {t : Tok} {r : List Tok} (h : k ≤ tokLev t) : FolLt k (t :: r) := by
  intro t' ht
  cases ht
  exact h

/-- The main theorem: what is well typed and has enough parentheses is read. -/
theorem reads : ∀ x : SX, Reads x := by
  intro x
  induction x with
  | int v =>
    refine reads_of (by simp) ?_
    intro s rest t e k hs ht hk hx hf
    cases hx; cases ht
    refine lev0_eq ?_
    rw [factor, hs]
    simp [SX.toks, atomW, hs, res, after, PS.next, SX.lv, SX.strs]
  | chr v =>
    refine reads_of (by simp) ?_
    intro s rest t e k hs ht hk hx hf
    cases hx; cases ht
    refine lev0_eq ?_
    rw [factor, hs]
    simp [SX.toks, atomW, hs, res, after, PS.next, SX.lv, SX.strs]
  | log v =>
    refine reads_of (by simp) ?_
    intro s rest t e k hs ht hk hx hf
    cases hx; cases ht
    refine lev0_eq ?_
    rw [factor, hs]
    simp [SX.toks, atomW, hs, res, after, PS.next, SX.lv, SX.strs]
  | str v =>
    refine reads_of (by simp) ?_
    intro s rest t e k hs ht hk hx hf
    cases hx; cases ht
    refine lev0_eq ?_
    rw [factor, hs]
    simp [SX.toks, atomW, hs, res, after, PS.next, SX.lv, SX.strs]
  | nul =>
    refine reads_of (by simp) ?_
    intro s rest t e k hs ht hk hx hf
    cases hx; cases ht
    refine lev0_eq ?_
    rw [factor, hs]
    simp [SX.toks, atomW, hs, res, after, PS.next, SX.lv, SX.strs]
  | sizeof ty d =>
    refine reads_of (by simp) ?_
    intro s rest t e k hs ht hk hx hf
    cases hx
    cases ht with
    | @sizeof _ _ _ t v h1 h2 =>
    refine lev0_eq ?_
    have hs' : s.toks = Lx.SIZEOF :: Lx.lpar :: ty :: (dimToks d ++ Lx.rpar :: rest) := by
      rw [hs]; simp [SX.toks]
    have c1 : chkTok Lx.lpar s.next
        = some { s with toks := ty :: (dimToks d ++ Lx.rpar :: rest) } :=
      chkTok_ok (by simp [PS.next, hs'])
    have c2 := getType_ok (s := { s with toks := ty :: (dimToks d ++ Lx.rpar :: rest) }) h1 rfl
      (by simp)
    rw [factor, hs']
    simp only [atomW, hs', c1, c2, Option.bind_eq_bind, Option.bind_some]
    rw [chkTok_ok (r := rest) rfl]
    simp only [Option.bind_some, sizeVal_iff.2 h2]
    simp [res, after, SX.lv, SX.strs]
  | addrof x =>
    refine reads_of (by simp) ?_
    intro s rest t e k hs ht hk hx hf
    cases hx
    cases ht with
    | @addrof _ _ n e h1 h2 =>
    refine lev0_eq ?_
    have hs' : s.toks = Lx.ADDROF :: Lx.lpar :: .name x :: Lx.rpar :: rest := by
      rw [hs]; simp [SX.toks]
    obtain ⟨g1, g2⟩ := sees_get h1
    have g3 : addrofW s.tab x = some ⟨TyINT, 0, false, .leaf .addr n⟩ := by
      unfold addrofW
      have : e.scope = ScPROT ∨ e.scope = ScFUNC ∨ e.scope = ScCOMM ∨ e.scope = ScGVAR := by
        rcases h2 with h2 | h2
        · rcases h2 with h2 | h2
          · exact .inl h2
          · exact .inr (.inl h2)
        · generalize e.scope = sc at h2
          cases h2
          · exact .inr (.inr (.inl rfl))
          · exact .inr (.inr (.inr rfl))
      simp only [g1, g2, Option.bind_eq_bind, Option.bind_some]
      rw [if_pos this]
    rw [factor, hs']
    simp only [atomW, hs', g3, Option.bind_eq_bind, Option.bind_some]
    simp [res, after, SX.lv, SX.strs]
  | var x =>
    refine reads_of (by simp) ?_
    intro s rest t e k hs ht hk hx hf
    cases hx
    cases ht with
    | @var _ _ n e kd h1 h2 =>
    refine lev0_eq ?_
    obtain ⟨g1, g2⟩ := sees_get h1
    obtain ⟨g3, g4⟩ := varW_ok (n := n) h2
    rw [factor, hs]
    simp only [SX.toks, List.cons_append, List.nil_append, g1, g2, Option.bind_eq_bind,
      Option.bind_some, if_neg g4, g3]
    simp [res, after, SX.lv, SX.strs, PS.next, hs, SX.toks]
  | call0 f =>
    refine reads_of (by simp) ?_
    intro s rest t e k hs ht hk hx hf
    cases hx
    cases ht with
    | @call0 _ _ n e h1 h2 h3 h4 =>
    refine lev0_eq ?_
    obtain ⟨g1, g2⟩ := sees_get h1
    obtain ⟨j, hj, hend⟩ := conform_iff.1 h4
    cases hj
    have hs' : s.toks = .name f :: Lx.lpar :: Lx.rpar :: rest := by
      rw [hs]; simp [SX.toks]
    have c1 : chkTok Lx.lpar s.next = some { s with toks := Lx.rpar :: rest } :=
      chkTok_ok (by simp [PS.next, hs'])
    rw [factor, hs']
    simp only [g1, g2, Option.bind_eq_bind, Option.bind_some]
    rw [if_pos (show e.scope = ScPROT ∨ e.scope = ScFUNC from h2), call, c1]
    simp only [Option.bind_eq_bind, Option.bind_some, if_neg h3, hend, if_true]
    simp [res, after, SX.lv, SX.strs, PS.next, callTree]
  | call f a ih =>
    refine reads_of (by simp) ?_
    intro s rest t e k hs ht hk hx hf
    cases hx with
    | call ha =>
    cases ht with
    | @call _ _ n e _ ts ea h1 h2 h3 h5 h4 =>
    refine lev0_eq ?_
    obtain ⟨g1, g2⟩ := sees_get h1
    obtain ⟨j, hj, hend⟩ := conform_iff.1 h4
    have hs' : s.toks = .name f :: Lx.lpar :: (a.toks ++ Lx.rpar :: rest) := by
      rw [hs]; simp [SX.toks]
    have c1 : chkTok Lx.lpar s.next = some { s with toks := a.toks ++ Lx.rpar :: rest } :=
      chkTok_ok (by simp [PS.next, hs'])
    have c2 := ih.2 { s with toks := a.toks ++ Lx.rpar :: rest } (Lx.rpar :: rest) ts ea
      (n + e.cnt) (n + 1) j rfl h5 ha (.cons (by decide)) hj
    obtain ⟨t0, r0, e1, e2, -⟩ := head_ok h5
    rw [factor, hs']
    simp only [g1, g2, Option.bind_eq_bind, Option.bind_some]
    rw [if_pos (show e.scope = ScPROT ∨ e.scope = ScFUNC from h2), call, c1]
    simp only [Option.bind_eq_bind, Option.bind_some, if_neg h3]
    split
    · rename_i heq
      rw [e1] at heq
      simp only [List.cons_append, List.cons.injEq] at heq
      exact absurd heq.1 e2
    · rw [c2]
      simp only [argCont, after, Option.bind_some]
      rw [chkTok_ok (r := rest) rfl]
      simp only [Option.bind_some, hend, if_true]
      simp [res, SX.lv, SX.strs, callTree]
  | args l r ihl ihr =>
    refine ⟨?_, ?_⟩
    · intro s rest t e k hs ht hk hx hf
      obtain ⟨k0, h1, h2⟩ := hx.ex
      cases h2; omega
    · intro s rest ts e last i j hs ht ha hf hr
      have hx : SX.Ex (.args l r) 14 := by
        rcases ha with ha | ⟨_, _, -, ha⟩
        · obtain ⟨k0, h1, h2⟩ := ha.ex
          cases h2; omega
        · obtain ⟨k0, h1, h2⟩ := ha.ex
          cases h2 with
          | args a b => exact .args a b
      cases hx with
      | args hl hr' =>
      cases ht with
      | @args _ _ ts1 el _ t er t1 t2 =>
      rw [argRun_append] at hr
      cases hj : argRun s.tab last i ts1 with
      | none => rw [hj] at hr; cases hr
      | some j1 =>
      rw [hj] at hr
      simp only [Option.bind_some, argRun] at hr
      have hs1 : s.toks = l.toks ++ Lx.comma :: (r.toks ++ rest) := by
        rw [hs]; simp [SX.toks]
      have c1 := ihl.2 s (Lx.comma :: (r.toks ++ rest)) ts1 el last i j1 hs1 t1 hl
        (.cons (by decide)) hj
      have c2 := ihr.full (s := { s with toks := r.toks ++ rest, lab := s.lab + l.strs }) rfl t2
        (by omega) hr' hf
      rw [c1]
      simp only [argCont, after]
      show argsLoop last j1 (some el) { s with toks := r.toks ++ rest, lab := s.lab + l.strs } = _
      have c3 : argOk s.tab ⟨t.1, t.2, false, .cnst 0⟩ j1 last = some j := by
        cases hq : argOk s.tab ⟨t.1, t.2, false, .cnst 0⟩ j1 last with
        | none => rw [hq] at hr; cases hr
        | some j' => rw [hq] at hr; exact hr
      rw [argsLoop_eq c2 (by rw [argOk_w]; exact c3)]
      simp [argCont, after, res, cat, SX.strs, Nat.add_assoc]
  | par a ih =>
    refine reads_of (by simp) ?_
    intro s rest t e k hs ht hk hx hf
    cases hx with
    | par ha =>
    cases ht with
    | par h1 =>
    refine lev0_eq ?_
    have hs' : s.toks = Lx.lpar :: (a.toks ++ Lx.rpar :: rest) := by
      rw [hs]; simp [SX.toks]
    have hn : s.next = { s with toks := a.toks ++ Lx.rpar :: rest } := by
      simp [PS.next, hs']
    have c2 := ih.full (s := { s with toks := a.toks ++ Lx.rpar :: rest }) (rest := Lx.rpar :: rest)
      (k := 13) rfl h1 (by omega) ha (.cons (by decide))
    rw [factor, hs']
    simp only [hn, c2, Option.bind_eq_bind, Option.bind_some]
    rw [chkTok_ok (r := rest) rfl]
    simp [res, after, SX.lv, SX.strs]
  | conv kk a ih =>
    refine reads_of (by simp) ?_
    intro s rest t e k hs ht hk hx hf
    cases hx with
    | conv ha =>
    cases ht with
    | @conv _ _ _ t1 t2 f e1 h0 h1 =>
    refine lev0_eq ?_
    have hs' : s.toks = kk :: Lx.lpar :: (a.toks ++ Lx.rpar :: rest) := by
      rw [hs]; simp [SX.toks]
    have c1 : chkTok Lx.lpar s.next = some { s with toks := a.toks ++ Lx.rpar :: rest } :=
      chkTok_ok (by simp [PS.next, hs'])
    have c2 := ih.full (s := { s with toks := a.toks ++ Lx.rpar :: rest }) (rest := Lx.rpar :: rest)
      (k := 13) rfl h1 (by omega) ha (.cons (by decide))
    have c3 := convW_ok (w := res a (t1, 0) e1) h0 rfl
    rw [factor, hs']
    rcases c3 with ⟨rfl, c3⟩ | ⟨rfl, c3⟩ | ⟨rfl, c3⟩
    all_goals
      simp only [c1, c2, Option.bind_eq_bind, Option.bind_some]
      rw [chkTok_ok (r := rest) rfl]
      simp only [c3, Option.bind_some]
      simp [res, after, SX.lv, SX.strs]
  | idx a i iha ihi =>
    refine reads_of (by simp) ?_
    intro s rest t e k hs ht hk hx hf
    cases hx with
    | idx ha hi =>
    cases ht with
    | @idx _ _ t d ea _ ei op h1 h2 h3 =>
    have hs1 : s.toks = a.toks ++ Lx.lbrk :: (i.toks ++ Lx.rbrk :: rest) := by
      rw [hs]; simp [SX.toks]
    rw [iha.1 s _ _ _ 0 hs1 h1 (by omega) ha (.cons (by decide))]
    show postLoop _ _ = postLoop _ _
    rw [postLoop]
    have c2 := ihi.full (s := { s with toks := i.toks ++ Lx.rbrk :: rest, lab := s.lab + a.strs })
      (rest := Lx.rbrk :: rest) (k := 12) rfl h2 (by omega) hi (.cons (by decide))
    have hd : ¬ (res a (t, d + 1) ea).dim = 0 := by simp [res]
    have c3 := idxW_ok (w := res a (t, d + 1) ea) (w2 := res i (TyINT, 0) ei) rfl rfl h3
    show (if (res a (t, d + 1) ea).dim = 0 then none else _) = _
    rw [if_neg hd]
    have hn : (after s a (Lx.lbrk :: (i.toks ++ Lx.rbrk :: rest))).next
      = { s with toks := i.toks ++ Lx.rbrk :: rest, lab := s.lab + a.strs } := rfl
    simp only [hn, c2, Option.bind_eq_bind, Option.bind_some]
    rw [chkTok_ok (r := rest) rfl]
    simp only [Option.bind_some, c3]
    simp [res, after, SX.lv, SX.strs, Nat.add_assoc]
  | fld a f iha =>
    refine reads_of (by simp) ?_
    intro s rest t e k hs ht hk hx hf
    cases hx with
    | fld ha =>
    cases ht with
    | @fld _ _ i d _ n e ea h1 h2 h3 h4 =>
    have hs1 : s.toks = a.toks ++ Lx.dot :: .name f :: rest := by
      rw [hs]; simp [SX.toks]
    rw [iha.1 s _ _ _ 0 hs1 h1 (by omega) ha (.cons (by decide))]
    show postLoop _ _ = postLoop _ _
    rw [postLoop]
    have c3 := dotW_ok (w := res a (-(i : Int), 0) ea) rfl h4
    show (dotW s.tab (res a (-(i : Int), 0) ea) f >>= _) = _
    rw [c3]
    simp [res, after, SX.lv, SX.strs]
  | pre op a iha =>
    refine reads_of (by simp) ?_
    intro s rest t e k hs ht hk hx hf
    cases hx with
    | pre hp ha =>
    cases ht with
    | @pre _ _ _ t1 t2 f e1 h0 h1 =>
    have hs' : s.toks = op :: (a.toks ++ rest) := by
      rw [hs]; simp [SX.toks]
    have hn : s.next = { s with toks := a.toks ++ rest } := by
      simp [PS.next, hs']
    have c2 := iha.full (s := { s with toks := a.toks ++ rest })
      (k := 1) rfl h1 (by omega) ha hf
    obtain ⟨o, c3, c4⟩ := uniOp_ok (w := res a t1 e1) h0 rfl
    rw [lev, hs']
    simp only [c3, hn, c2, Option.bind_eq_bind, Option.bind_some, c4]
    simp [cont, res, after, SX.lv, SX.strs]
  | bin op l r ihl ihr =>
    refine reads_of (by simp) ?_
    intro s rest t e k hs ht hk hx hf
    cases hx with
    | @bin k _ o _ _ hb hl hr =>
    cases ht with
    | @bin _ k2 _ o2 _ a el _ b er c h0 h1 h2 h3 =>
    have hkk : k2 = k := h0.tokLev.symm.trans hb.tokLev
    subst hkk
    have hoo : o2 = o := by
      have e1 := binOp_iff.2 h0
      have e2 := binOp_iff.2 hb
      rw [e1] at e2
      exact Option.some.inj e2
    subst hoo
    have hrg := hb.range
    have hfk : fol k2 = k2 := by unfold fol; split <;> (try split) <;> omega
    rw [hfk] at hf
    have hs1 : s.toks = l.toks ++ op :: (r.toks ++ rest) := by
      rw [hs]; simp [SX.toks]
    rw [ihl.1 s _ _ _ k2 hs1 h2 hk hl (.cons (by rw [hfk, hb.tokLev]; exact Nat.le_refl _))]
    rw [cont_bin (by omega) (by omega), cont_bin (by omega) (by omega), binLoop]
    have c2 := ihr.full (s := { s with toks := r.toks ++ rest, lab := s.lab + l.strs })
      (rest := rest) (k := k2 - 1) rfl h3 (by omega) hr (hf.mono (by omega))
    have c3 := (binW_iff (op := o2) (w := res l a el) (w2 := res r b er) (by omega) (by omega)).2
      ⟨t, h1, rfl⟩
    have hn : (after s l (op :: (r.toks ++ rest))).next
      = { s with toks := r.toks ++ rest, lab := s.lab + l.strs } := rfl
    simp only [show (after s l (op :: (r.toks ++ rest))).toks = op :: (r.toks ++ rest) from rfl,
      binOp_iff.2 hb, hn, c2, Option.bind_eq_bind, Option.bind_some, c3]
    simp [res, after, SX.lv, SX.strs, Nat.add_assoc]
  | ass l r ihl ihr =>
    refine reads_of (by simp) ?_
    intro s rest t e k hs ht hk hx hf
    cases hx with
    | ass hl hr =>
    cases ht with
    | @ass _ _ a el _ b er _ h1 h2 h3 h4 h5 =>
    have hs1 : s.toks = l.toks ++ Lx.eq :: (r.toks ++ rest) := by
      rw [hs]; simp [SX.toks]
    have c1 := ihl.full hs1 h1 (k := 11) (by omega) hl (.cons (by decide))
    have c2 := ihr.full (s := { s with toks := r.toks ++ rest, lab := s.lab + l.strs })
      (rest := rest) (k := 12) rfl h3 (by omega) hr hf
    have c3 := assW_ok (w := res l t el) (w2 := res r b er) h4 h2 h5
    have hn : (after s l (Lx.eq :: (r.toks ++ rest))).next
      = { s with toks := r.toks ++ rest, lab := s.lab + l.strs } := rfl
    rw [lev, c1]
    simp only [Option.bind_eq_bind, Option.bind_some,
      show (after s l (Lx.eq :: (r.toks ++ rest))).toks = Lx.eq :: (r.toks ++ rest) from rfl,
      hn, c2, c3]
    simp [cont, res, after, SX.lv, SX.strs, Nat.add_assoc]
  | com l r ihl ihr =>
    refine reads_of (by simp) ?_
    intro s rest t e k hs ht hk hx hf
    cases hx with
    | com hl hr =>
    cases ht with
    | @com _ _ a el _ b er h1 h2 =>
    have hs1 : s.toks = l.toks ++ Lx.comma :: (r.toks ++ rest) := by
      rw [hs]; simp [SX.toks]
    rw [ihl.1 s _ _ _ 13 hs1 h1 hk hl (.cons (by decide))]
    have c2 := ihr.full (s := { s with toks := r.toks ++ rest, lab := s.lab + l.strs })
      (rest := rest) (k := 12) rfl h2 (by omega) hr hf
    have hn : (after s l (Lx.comma :: (r.toks ++ rest))).next
      = { s with toks := r.toks ++ rest, lab := s.lab + l.strs } := rfl
    show commaLoop _ _ = commaLoop _ _
    rw [commaLoop]
    simp only [Option.bind_eq_bind, Option.bind_some,
      show (after s l (Lx.comma :: (r.toks ++ rest))).toks = Lx.comma :: (r.toks ++ rest) from rfl,
      hn, c2]
    simp [res, after, SX.lv, SX.strs, Nat.add_assoc]

end Cmm.Parse
