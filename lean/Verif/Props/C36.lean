import Verif.Parse.Complete

/-! C36: precedence and associativity. -/
namespace Cmm.Parse
open Cmm.Tree

/-- The row of a binary operator in the table of the manual. -/
def rowOf (t : Tok) : Nat := binRows.findIdx (fun row => row.any (fun p => p.1 = t)) + 2

/-- The row of the outermost operator: 0 factors, 1 prefix operators, 2-11 the binary rows, 12
assignment, 13 comma, 14 lists of arguments. -/
def SX.row : SX → Nat
  | .pre _ _ => 1
  | .bin t _ _ => rowOf t
  | .ass _ _ => 12
  | .com _ _ => 13
  | .args _ _ => 14
  | _ => 0

/-- Parentheses if the operator binds less tightly than row `k`. -/
def SX.wrap (k : Nat) (s : SX) : SX := if s.row ≤ k then s else .par s

/-- A list of arguments keeps its commas, a single argument that is a comma expression is put
in parentheses. -/
def SX.wrapArg : SX → SX
  | .args l r => .args l r
  | s => s.wrap 12

/-- The expression with the parentheses the table requires: operands of a prefix operator are
of row 1 or tighter; of a binary operator the left operand is of its row or tighter, the right
one is tighter; assignment associates to the right; the array and the structure of postfix
operators are factors; arguments and indices do not contain an open comma. -/
def SX.minPar : SX → SX
  | .call f a => .call f a.minPar.wrapArg
  | .args l r => .args l.minPar.wrapArg (r.minPar.wrap 12)
  | .par e => .par e.minPar
  | .conv k e => .conv k e.minPar
  | .idx a i => .idx (a.minPar.wrap 0) (i.minPar.wrap 12)
  | .fld a f => .fld (a.minPar.wrap 0) f
  | .pre t e => .pre t (e.minPar.wrap 1)
  | .bin t l r => .bin t (l.minPar.wrap (rowOf t)) (r.minPar.wrap (rowOf t - 1))
  | .ass l r => .ass (l.minPar.wrap 11) (r.minPar.wrap 12)
  | .com l r => .com (l.minPar.wrap 13) (r.minPar.wrap 12)
  | s => s

/-- `AddPar s s'`: `s'` is `s` with more (or the same) parentheses around some of its
subexpressions. -/
inductive AddPar : SX → SX → Prop
  | refl {s} : AddPar s s
  | here {s s'} : (∀ l r, s ≠ .args l r) → AddPar s s' → AddPar s (.par s')
  | call {f a a'} : AddPar a a' → AddPar (.call f a) (.call f a')
  | args {l l' r r'} : AddPar l l' → AddPar r r' → AddPar (.args l r) (.args l' r')
  | par {s s'} : AddPar s s' → AddPar (.par s) (.par s')
  | conv {k s s'} : AddPar s s' → AddPar (.conv k s) (.conv k s')
  | idx {a a' i i'} : AddPar a a' → AddPar i i' → AddPar (.idx a i) (.idx a' i')
  | fld {a a' f} : AddPar a a' → AddPar (.fld a f) (.fld a' f)
  | pre {t s s'} : AddPar s s' → AddPar (.pre t s) (.pre t s')
  | bin {t l l' r r'} : AddPar l l' → AddPar r r' → AddPar (.bin t l r) (.bin t l' r')
  | ass {l l' r r'} : AddPar l l' → AddPar r r' → AddPar (.ass l r) (.ass l' r')
  | com {l l' r r'} : AddPar l l' → AddPar r r' → AddPar (.com l r) (.com l' r')

/-- The tokens by which an expression can continue. -/
def contToks : List Tok :=
  [Lx.lbrk, Lx.dot, Lx.star, Lx.slash, Lx.perc, Lx.plus, Lx.minus, Lx.SHL, Lx.SHR, Lx.gt, Lx.GTE,
   Lx.lt, Lx.LTE, Lx.EQU, Lx.NEQ, Lx.amp, Lx.caret, Lx.bar, Lx.AND, Lx.OR, Lx.eq, Lx.comma]

/-- What follows does not continue an expression. -/
def Ends (r : List Tok) : Prop := ∀ t, r.head? = some t → t ∉ contToks

theorem Ends.fol {r : List Tok} (h : Ends r) : FolLt 14 r := by
  intro t ht
  have h' := h t ht
  unfold tokLev
  split <;> first | omega | (exact absurd (by decide) h')

theorem IsBin.row {k : Nat} {t : Tok} {op : Bin} (h : IsBin k t op) : rowOf t = k := by
  have h' := binOp_iff.2 h
  unfold binOp at h'
  split at h' <;> first | rfl | cases h'

theorem SX.Ex.row {s : SX} {k : Nat} (h : s.Ex k) : s.row = k := by
  cases h with
  | bin h _ _ => exact h.row
  | _ => rfl

/-- Without parentheses an expression is not admitted at a row tighter than its own. -/
theorem SX.At.row_le {s : SX} {k : Nat} (h : s.At k) : s.row ≤ k := by
  obtain ⟨k0, h1, h2⟩ := h.ex
  rw [h2.row]; exact h1

theorem SX.Ex.at {s : SX} {k : Nat} (h : s.Ex k) : s.At k := by
  cases h with
  | int => exact .int
  | chr => exact .chr
  | log => exact .log
  | str => exact .str
  | nul => exact .nul
  | sizeof => exact .sizeof
  | addrof => exact .addrof
  | var => exact .var
  | call0 => exact .call0
  | call h =>
    rcases h with h | ⟨l, r, rfl, h⟩
    · exact .call1 h
    · exact .calln h
  | args h h2 =>
    rcases h with h | ⟨l, r, rfl, h⟩
    · exact .args1 h h2
    · exact .argsn h h2
  | par h => exact .par h
  | conv h => exact .conv h
  | idx h h' => exact .idx h h'
  | fld h => exact .fld h
  | pre h h' => exact .pre h h'
  | bin h h1 h2 => exact .bin h h1 h2
  | ass h h' => exact .ass h h'
  | com h h' => exact .com h h'

theorem SX.At.own {s : SX} {k : Nat} (h : s.At k) : s.At s.row := by
  obtain ⟨k0, h1, h2⟩ := h.ex
  rw [h2.row]; exact h2.at

theorem SX.wrap_at {s : SX} {j k : Nat} (h : s.At j) (hj : s.row ≤ 13) : (s.wrap k).At k := by
  unfold SX.wrap
  split
  · rename_i hk; exact h.own.mono hk
  · exact (SX.At.par (h.own.mono hj)).mono (Nat.zero_le _)

theorem Pre.isPre {t : Tok} {a b : Int × Nat} {f : Expr → Expr} (h : Pre t a b f) : IsPre t := by
  cases h
  · exact .inl rfl
  · exact .inr (.inl rfl)
  · exact .inr (.inr (.inr rfl))
  · exact .inr (.inr (.inl rfl))

theorem SX.minPar_row (s : SX) : s.minPar.row = s.row := by
  cases s <;> rfl

theorem SX.row_args {s : SX} (h : ¬ s.row ≤ 13) (hb : ∀ t l r, s = .bin t l r → ∃ k op, IsBin k t op) :
    ∃ l r, s = .args l r := by
  cases s with
  | args l r => exact ⟨l, r, rfl⟩
  | bin t l r =>
    obtain ⟨k, op, hk⟩ := hb t l r rfl
    have := hk.range
    have := hk.row
    simp only [SX.row] at h
    omega
  | _ => simp [SX.row] at h

/-- A well typed expression of one type is no list. -/
theorem Ty.row {R : Rules} {T : Tab} {m : Nat} {s : SX} {ts : List (Int × Nat)} {e : Expr}
    (h : Ty R T m s ts e) : ts ≠ [] ∧ (ts.length = 1 → s.row ≤ 13) := by
  induction h with
  | @args _ _ ts _ _ _ _ _ _ ih1 _ =>
    refine ⟨by simp, fun h => ?_⟩
    have : ts = [] := by cases ts <;> simp_all
    exact absurd this ih1.1
  | bin h =>
    refine ⟨by simp, fun _ => ?_⟩
    have := h.range
    simp only [SX.row, h.row]
    omega
  | _ => exact ⟨by simp, fun _ => by simp [SX.row]⟩

theorem SX.minPar_arg {R : Rules} {T : Tab} {m : Nat} {a : SX} {ts : List (Int × Nat)} {e : Expr}
    (h : Ty R T m a ts e) (ih : a.minPar.At a.row) : ArgAt a.minPar.wrapArg := by
  by_cases hr : a.row ≤ 13
  · left
    have : a.minPar.wrapArg = a.minPar.wrap 12 := by
      generalize hg : a.minPar = b
      cases b <;> first | rfl | skip
      have := SX.minPar_row a
      rw [hg] at this
      have this : 14 = a.row := this
      omega
    rw [this]
    exact SX.wrap_at ih (by rw [SX.minPar_row]; exact hr)
  · right
    obtain ⟨l, r, rfl⟩ : ∃ l r, a = .args l r := by
      cases h <;> first | exact ⟨_, _, rfl⟩ | (exfalso; apply hr; simp [SX.row]; done) | skip
      rename_i hb _ _ _
      exfalso; apply hr
      have := hb.range
      simp only [SX.row, hb.row]; omega
    exact ⟨_, _, rfl, ih⟩

/-- The parentheses put in are enough. -/
theorem SX.minPar_at {R : Rules} {T : Tab} {m : Nat} {s : SX} {ts : List (Int × Nat)} {e : Expr}
    (h : Ty R T m s ts e) : s.minPar.At s.row := by
  induction h with
  | int => exact .int
  | chr => exact .chr
  | log => exact .log
  | str => exact .str
  | nul => exact .nul
  | sizeof => exact .sizeof
  | addrof => exact .addrof
  | var => exact .var
  | call0 => exact .call0
  | call _ _ _ ha _ ih => exact (SX.Ex.call (SX.minPar_arg ha ih)).at
  | args hl hr ihl ihr =>
    refine (SX.Ex.args (SX.minPar_arg hl ihl) (SX.wrap_at ihr ?_)).at
    rw [SX.minPar_row]; exact hr.row.2 rfl
  | par h ih => exact .par (ih.mono (h.row.2 rfl))
  | conv _ h ih => exact .conv (ih.mono (h.row.2 rfl))
  | idx ha hi _ iha ihi =>
    refine .idx (SX.wrap_at iha ?_) (SX.wrap_at ihi ?_)
    · rw [SX.minPar_row]; exact ha.row.2 rfl
    · rw [SX.minPar_row]; exact hi.row.2 rfl
  | fld ha _ _ _ iha =>
    refine .fld (SX.wrap_at iha ?_)
    rw [SX.minPar_row]; exact ha.row.2 rfl
  | pre hp h ih =>
    refine .pre hp.isPre (SX.wrap_at ih ?_)
    rw [SX.minPar_row]; exact h.row.2 rfl
  | bin hb _ hl hr ihl ihr =>
    have hrow := hb.row
    simp only [SX.row, SX.minPar, hrow]
    refine .bin hb (SX.wrap_at ihl ?_) (SX.wrap_at ihr ?_)
    · rw [SX.minPar_row]; exact hl.row.2 rfl
    · rw [SX.minPar_row]; exact hr.row.2 rfl
  | ass hl _ hr _ _ ihl ihr =>
    refine .ass (SX.wrap_at ihl ?_) (SX.wrap_at ihr ?_)
    · rw [SX.minPar_row]; exact hl.row.2 rfl
    · rw [SX.minPar_row]; exact hr.row.2 rfl
  | com hl hr ihl ihr =>
    refine .com (SX.wrap_at ihl ?_) (SX.wrap_at ihr ?_)
    · rw [SX.minPar_row]; exact hl.row.2 rfl
    · rw [SX.minPar_row]; exact hr.row.2 rfl

/-- Same type, tree, strings and assignability. -/
def Like (s s' : SX) : Prop :=
  s'.strs = s.strs ∧ s'.lv = s.lv ∧
  ∀ (R : Rules) (T : Tab) (m : Nat) ts e, Ty R T m s ts e → Ty R T m s' ts e

theorem Like.refl {s : SX} : Like s s := ⟨rfl, rfl, fun _ _ _ _ _ h => h⟩

theorem Like.par {s s' : SX} (h : Like s s') (hs : ∀ l r, s ≠ .args l r) : Like s (.par s') := by
  refine ⟨h.1, h.2.1, fun R T m ts e ht => ?_⟩
  have : ∃ t, ts = [t] := by
    cases ht with
    | args => exact absurd rfl (hs _ _)
    | _ => exact ⟨_, rfl⟩
  obtain ⟨t, rfl⟩ := this
  exact .par (h.2.2 R T m _ e ht)

theorem Like.call {f : String} {a a' : SX} (h : Like a a') : Like (.call f a) (.call f a') := by
  refine ⟨h.1, rfl, fun R T m ts e ht => ?_⟩
  cases ht with
  | call h1 h2 h3 h4 h5 => exact .call h1 h2 h3 (h.2.2 _ _ _ _ _ h4) h5

theorem Like.args {l l' r r' : SX} (hl : Like l l') (hr : Like r r') :
    Like (.args l r) (.args l' r') := by
  refine ⟨by simp only [SX.strs, hl.1, hr.1], rfl, fun R T m ts e ht => ?_⟩
  cases ht with
  | args h1 h2 => exact .args (hl.2.2 _ _ _ _ _ h1) (by rw [hl.1]; exact hr.2.2 _ _ _ _ _ h2)

theorem Like.conv {k : Tok} {a a' : SX} (h : Like a a') : Like (.conv k a) (.conv k a') := by
  refine ⟨h.1, rfl, fun R T m ts e ht => ?_⟩
  cases ht with
  | conv h1 h2 => exact .conv h1 (h.2.2 _ _ _ _ _ h2)

theorem Like.inPar {a a' : SX} (h : Like a a') : Like (.par a) (.par a') := by
  refine ⟨h.1, h.2.1, fun R T m ts e ht => ?_⟩
  cases ht with
  | par h2 => exact .par (h.2.2 _ _ _ _ _ h2)

theorem Like.idx {l l' r r' : SX} (hl : Like l l') (hr : Like r r') :
    Like (.idx l r) (.idx l' r') := by
  refine ⟨by simp only [SX.strs, hl.1, hr.1], rfl, fun R T m ts e ht => ?_⟩
  cases ht with
  | idx h1 h2 h3 => exact .idx (hl.2.2 _ _ _ _ _ h1) (by rw [hl.1]; exact hr.2.2 _ _ _ _ _ h2) h3

theorem Like.fld {f : String} {a a' : SX} (h : Like a a') : Like (.fld a f) (.fld a' f) := by
  refine ⟨h.1, rfl, fun R T m ts e ht => ?_⟩
  cases ht with
  | fld h1 h2 h3 h4 => exact .fld (h.2.2 _ _ _ _ _ h1) h2 h3 h4

theorem Like.pre {k : Tok} {a a' : SX} (h : Like a a') : Like (.pre k a) (.pre k a') := by
  refine ⟨h.1, rfl, fun R T m ts e ht => ?_⟩
  cases ht with
  | pre h1 h2 => exact .pre h1 (h.2.2 _ _ _ _ _ h2)

theorem Like.bin {t : Tok} {l l' r r' : SX} (hl : Like l l') (hr : Like r r') :
    Like (.bin t l r) (.bin t l' r') := by
  refine ⟨by simp only [SX.strs, hl.1, hr.1], rfl, fun R T m ts e ht => ?_⟩
  cases ht with
  | bin h1 h2 h3 h4 => exact .bin h1 h2 (hl.2.2 _ _ _ _ _ h3) (by rw [hl.1]; exact hr.2.2 _ _ _ _ _ h4)

theorem Like.ass {l l' r r' : SX} (hl : Like l l') (hr : Like r r') :
    Like (.ass l r) (.ass l' r') := by
  refine ⟨by simp only [SX.strs, hl.1, hr.1], rfl, fun R T m ts e ht => ?_⟩
  cases ht with
  | ass h1 h2 h3 h4 h5 =>
    exact .ass (hl.2.2 _ _ _ _ _ h1) (by rw [hl.2.1]; exact h2)
      (by rw [hl.1]; exact hr.2.2 _ _ _ _ _ h3) h4 h5

theorem Like.com {l l' r r' : SX} (hl : Like l l') (hr : Like r r') :
    Like (.com l r) (.com l' r') := by
  refine ⟨by simp only [SX.strs, hl.1, hr.1], rfl, fun R T m ts e ht => ?_⟩
  cases ht with
  | com h1 h2 => exact .com (hl.2.2 _ _ _ _ _ h1) (by rw [hl.1]; exact hr.2.2 _ _ _ _ _ h2)

theorem Like.trans {a b c : SX} (h : Like a b) (h' : Like b c) : Like a c :=
  ⟨h'.1.trans h.1, h'.2.1.trans h.2.1, fun R T m ts e ht => h'.2.2 _ _ _ _ _ (h.2.2 R T m ts e ht)⟩

/-- Parentheses change neither type nor tree. -/
theorem AddPar.like {s s' : SX} (h : AddPar s s') : Like s s' := by
  induction h with
  | refl => exact .refl
  | here h _ ih => exact ih.par h
  | call _ ih => exact ih.call
  | args _ _ h1 h2 => exact h1.args h2
  | par _ ih => exact ih.inPar
  | conv _ ih => exact ih.conv
  | idx _ _ h1 h2 => exact h1.idx h2
  | fld _ ih => exact ih.fld
  | pre _ ih => exact ih.pre
  | bin _ _ h1 h2 => exact h1.bin h2
  | ass _ _ h1 h2 => exact h1.ass h2
  | com _ _ h1 h2 => exact h1.com h2

theorem AddPar.row {s s' : SX} (h : AddPar s s') : s'.row ≤ s.row ∧
    ((∃ l r, s = .args l r) ↔ ∃ l r, s' = .args l r) := by
  cases h with
  | here h => exact ⟨Nat.zero_le _, by simp [h]⟩
  | refl => exact ⟨Nat.le_refl _, Iff.rfl⟩
  | _ => exact ⟨Nat.le_refl _, by simp⟩

/-- More parentheses do no harm. -/
theorem AddPar.at {s s' : SX} (h : AddPar s s') : ∀ k, s.At k → s'.At k := by
  induction h with
  | refl => exact fun _ h => h
  | @here s s' hs _ ih =>
    intro k hk
    have : s.row ≤ 13 := by
      refine Decidable.byContradiction fun hn => ?_
      obtain ⟨l, r, e⟩ := SX.row_args hn (by
        rintro t l r rfl
        obtain ⟨k0, _, h2⟩ := hk.ex
        cases h2 with
        | bin h => exact ⟨_, _, h⟩)
      exact hs l r e
    exact (SX.At.par (ih 13 (hk.own.mono this))).mono (Nat.zero_le _)
  | @call f a a' ha ih =>
    intro k hk
    obtain ⟨k0, h1, h2⟩ := hk.ex
    cases h2 with
    | call h =>
      refine (SX.Ex.call (?_ : ArgAt a')).at.mono h1
      rcases h with h | ⟨l, r, rfl, h⟩
      · exact .inl (ih _ h)
      · obtain ⟨l', r', rfl⟩ := ha.row.2.1 ⟨l, r, rfl⟩
        exact .inr ⟨l', r', rfl, ih _ h⟩
  | @args l l' r r' hl hr ihl ihr =>
    intro k hk
    obtain ⟨k0, h1, h2⟩ := hk.ex
    cases h2 with
    | args h h' =>
      refine (SX.Ex.args (?_ : ArgAt l') (ihr _ h')).at.mono h1
      rcases h with h | ⟨l, r, rfl, h⟩
      · exact .inl (ihl _ h)
      · obtain ⟨l', r', rfl⟩ := hl.row.2.1 ⟨l, r, rfl⟩
        exact .inr ⟨l', r', rfl, ihl _ h⟩
  | par _ ih =>
    intro k hk
    obtain ⟨k0, h1, h2⟩ := hk.ex
    cases h2 with
    | par h => exact (SX.At.par (ih _ h)).mono h1
  | conv _ ih =>
    intro k hk
    obtain ⟨k0, h1, h2⟩ := hk.ex
    cases h2 with
    | conv h => exact (SX.At.conv (ih _ h)).mono h1
  | idx _ _ iha ihi =>
    intro k hk
    obtain ⟨k0, h1, h2⟩ := hk.ex
    cases h2 with
    | idx h h' => exact (SX.At.idx (iha _ h) (ihi _ h')).mono h1
  | fld _ ih =>
    intro k hk
    obtain ⟨k0, h1, h2⟩ := hk.ex
    cases h2 with
    | fld h => exact (SX.At.fld (ih _ h)).mono h1
  | pre _ ih =>
    intro k hk
    obtain ⟨k0, h1, h2⟩ := hk.ex
    cases h2 with
    | pre hp h => exact (SX.At.pre hp (ih _ h)).mono h1
  | bin _ _ ihl ihr =>
    intro k hk
    obtain ⟨k0, h1, h2⟩ := hk.ex
    cases h2 with
    | bin hb h h' => exact (SX.At.bin hb (ihl _ h) (ihr _ h')).mono h1
  | ass _ _ ihl ihr =>
    intro k hk
    obtain ⟨k0, h1, h2⟩ := hk.ex
    cases h2 with
    | ass h h' => exact (SX.At.ass (ihl _ h) (ihr _ h')).mono h1
  | com _ _ ihl ihr =>
    intro k hk
    obtain ⟨k0, h1, h2⟩ := hk.ex
    cases h2 with
    | com h h' => exact (SX.At.com (ihl _ h) (ihr _ h')).mono h1

theorem SX.wrap_like {s : SX} {k : Nat} {s0 : SX} (h : Like s0 s) (hs : ∀ l r, s0 ≠ .args l r) :
    Like s0 (s.wrap k) := by
  unfold SX.wrap
  split
  · exact h
  · exact h.par hs

theorem SX.wrapArg_like {s s0 : SX} (h : Like s0 s)
    (hs : (∃ l r, s0 = .args l r) → ∃ l r, s = .args l r) : Like s0 s.wrapArg := by
  by_cases ha : ∃ l r, s0 = .args l r
  · obtain ⟨l, r, rfl⟩ := hs ha
    exact h
  · unfold SX.wrapArg
    split
    · exact h
    · exact SX.wrap_like h (fun l r e => ha ⟨l, r, e⟩)

/-- The parentheses of minPar change neither type nor tree. -/
theorem Ty.minPar {R : Rules} {T : Tab} {m : Nat} {s : SX} {ts : List (Int × Nat)} {e : Expr}
    (h : Ty R T m s ts e) : Like s s.minPar := by
  have key : ∀ {R : Rules} {T : Tab} {m : Nat} {s : SX} {t : Int × Nat} {e : Expr} (k : Nat),
      Ty R T m s [t] e → Like s s.minPar → Like s (s.minPar.wrap k) := by
    intro R T m s t e k h ih
    refine SX.wrap_like ih ?_
    rintro l r rfl
    have := h.row.2 rfl
    simp [SX.row] at this
  have karg : ∀ {s : SX}, Like s s.minPar → Like s s.minPar.wrapArg := by
    intro s ih
    refine SX.wrapArg_like ih ?_
    rintro ⟨l, r, rfl⟩
    exact ⟨_, _, rfl⟩
  induction h with
  | call _ _ _ _ _ ih => exact (karg ih).call
  | args _ hr ihl ihr => exact (karg ihl).args (key _ hr ihr)
  | par _ ih => exact ih.inPar
  | conv _ _ ih => exact ih.conv
  | idx ha hi _ iha ihi => exact (key _ ha iha).idx (key _ hi ihi)
  | fld ha _ _ _ ih => exact (key _ ha ih).fld
  | pre _ h ih => exact (key _ h ih).pre
  | bin _ _ hl hr ihl ihr => exact (key _ hl ihl).bin (key _ hr ihr)
  | ass hl _ hr _ _ ihl ihr => exact (key _ hl ihl).ass (key _ hr ihr)
  | com hl hr ihl ihr => exact (key _ hl ihl).com (key _ hr ihr)
  | _ => exact .refl

/-- Every well typed expression `u`, written with the parentheses the table of the manual
requires or with any superset of them, is read as the tree of `u`; exactly its tokens are
consumed. -/
theorem C36_round_trip {s : PS} {u x : SX} {t : Int × Nat} {e : Expr} {rest : List Tok}
    (hu : Ty actual s.tab s.lab u [t] e) (hx : AddPar u.minPar x)
    (hs : s.toks = x.toks ++ rest) (hr : Ends rest) :
    getExpr s = some (⟨t.1, t.2, x.lv, e⟩, { s with toks := rest, lab := s.lab + u.strs }) := by
  have l1 := Ty.minPar hu
  have l2 := l1.trans hx.like
  have hat : x.At 13 := hx.at 13 ((SX.minPar_at hu).mono (hu.row.2 rfl))
  have := (reads x).full (k := 13) hs (l2.2.2 _ _ _ _ _ hu) (by omega) hat hr.fol
  rw [← l2.1]
  exact this

/-- The parentheses are minimal: an operand is put in parentheses only if the table does not
admit it in its place without. -/
theorem C36_minimal (s : SX) (k : Nat) : s.wrap k ≠ s → ¬ s.At k := by
  intro h hk
  apply h
  unfold SX.wrap
  rw [if_pos hk.row_le]

/-- The tree is determined by the tokens: two expressions with enough parentheses and the same
tokens have the same tree and type. -/
theorem C36_unambiguous {T : Tab} {m : Nat} {x y : SX} {t t' : Int × Nat} {e e' : Expr}
    (hx : x.At 13) (hy : y.At 13) (h : x.toks = y.toks)
    (tx : Ty actual T m x [t] e) (ty : Ty actual T m y [t'] e') : t = t' ∧ e = e' := by
  let s : PS := { toks := x.toks, tab := T, lab := m, curCnt := 0, maxCnt := 0, depth := 0, lastStat := none }
  have h1 := (reads x).full (s := s) (rest := []) (k := 13) (by simp [s]) tx (by omega) hx
    (by intro _ h; cases h)
  have h2 := (reads y).full (s := s) (rest := []) (k := 13) (by simp [s, h]) ty (by omega) hy
    (by intro _ h; cases h)
  rw [h1] at h2
  simp only [Option.some.injEq, Prod.mk.injEq, res, W.mk.injEq] at h2
  obtain ⟨⟨a, b, -, c⟩, -⟩ := h2
  exact ⟨Prod.ext a b, c⟩

/-- A table with three variables and a function. -/
def exTab : Tab :=
  [⟨"a", ScGVAR, TyINT, 0, 0, false⟩, ⟨"b", ScGVAR, TyINT, 0, 0, false⟩,
   ⟨"v", ScGVAR, TyINT, 1, 0, false⟩, ⟨"f", ScFUNC, TyINT, 0, 1, false⟩,
   ⟨"p", ScPRM, TyINT, 0, 0, false⟩]

/-- `a = (b + 2) * v[b] - -f((a, b))` as a tree. -/
def exU : SX :=
  .ass (.var "a") (.bin Lx.minus
    (.bin Lx.star (.bin Lx.plus (.var "b") (.int 2)) (.idx (.var "v") (.var "b")))
    (.pre Lx.minus (.call "f" (.com (.var "a") (.var "b")))))

/-- Parentheses go around `b + 2` and around the comma expression, nowhere else. -/
example : exU.minPar.toks = [.name "a", Lx.eq, Lx.lpar, .name "b", Lx.plus, .int 2, Lx.rpar,
    Lx.star, .name "v", Lx.lbrk, .name "b", Lx.rbrk, Lx.minus, Lx.minus, .name "f", Lx.lpar,
    Lx.lpar, .name "a", Lx.comma, .name "b", Lx.rpar, Lx.rpar] := by decide

theorem exSees (x : String) (n : Nat) (h : srcName exTab x = some n) : ∃ e, Sees exTab x n e :=
  srcName_iff.1 h

example : ∃ e, Ty actual exTab 0 exU [(TyINT, 0)] e := by
  have va : Sees exTab "a" 0 ⟨"a", ScGVAR, TyINT, 0, 0, false⟩ := by
    obtain ⟨e, h⟩ := exSees "a" 0 (by decide)
    have : e = _ := Option.some.inj (h.1.symm.trans rfl)
    exact this ▸ h
  have vb : Sees exTab "b" 1 ⟨"b", ScGVAR, TyINT, 0, 0, false⟩ := by
    obtain ⟨e, h⟩ := exSees "b" 1 (by decide)
    have : e = _ := Option.some.inj (h.1.symm.trans rfl)
    exact this ▸ h
  have vv : Sees exTab "v" 2 ⟨"v", ScGVAR, TyINT, 1, 0, false⟩ := by
    obtain ⟨e, h⟩ := exSees "v" 2 (by decide)
    have : e = _ := Option.some.inj (h.1.symm.trans rfl)
    exact this ▸ h
  have vf : Sees exTab "f" 3 ⟨"f", ScFUNC, TyINT, 0, 1, false⟩ := by
    obtain ⟨e, h⟩ := exSees "f" 3 (by decide)
    have : e = _ := Option.some.inj (h.1.symm.trans rfl)
    exact this ▸ h
  have ii : IntLike (TyINT, 0) := .inl rfl
  have b1 : ∀ k t op, binOp k t = some op → IsBin k t op := fun k t op h => binOp_iff.1 h
  refine ⟨_, .ass (.var va .gvar) rfl (.bin (k := 3) (b1 _ _ .sub rfl) (.arith (by omega) ii ii)
    (.bin (k := 2) (b1 _ _ .mul rfl) (.arith (by omega) ii ii)
      (.bin (k := 3) (b1 _ _ .add rfl) (.arith (by omega) ii ii) (.var vb .gvar) .int)
      (.idx (.var vv .gvar) (.var vb .gvar) .int))
    (.pre (.minus ii) (.call vf (.inr rfl) (by decide) (.com (.var va .gvar) (.var vb .gvar)) ?_)))
    .same .var⟩
  exact .one (e := ⟨"p", ScPRM, TyINT, 0, 0, false⟩) (by decide) rfl (by decide) .same (.done (by decide))

end Cmm.Parse
