import Verif.Props.C35
import Verif.Props.C39
import Verif.Tac.Walk

/-
The trees of the parser meet the conditions of the code generator (`okE`, `okS` of Verif/Tac/Walk.lean): lemmas for
Verif/Props/C64.lean. What the parser does not rule out, or the back end does not compile correctly, is said by a
condition on the tree alone (`tame`): && and || as values, elements and fields that are read for nothing, and results of
void functions that are compared or put into a field.
-/
namespace Cmm.Parse
open Cmm.Tree
open Cmm.Gen (NT Mode)
open Cmm.Tac (okE okS fieldOk)

/-! ### Conditions on trees -/

section
variable (nt : NT)

/-- The value of the expression is that of a call of a void function. -/
def voidCall : Expr → Bool
  | .func0 f | .func f _ => nt.void f
  | .bin .comm _ r => voidCall r
  | _ => false

/-- && and || are used as conditions only, elements and fields are not read for nothing, and results of void functions
are neither compared nor put into a field. -/
def tame : Mode → Expr → Bool
  | _, .cnst _ => true
  | _, .leaf _ _ => true
  | _, .func0 _ => true
  | _, .func _ a => tame .args a
  | _, .un _ e => tame .val e
  | m, .bin op l r =>
    match op with
    | .semi => tame .args l && tame .val r
    | .comm => tame .void l && tame (if m = .void then .void else .val) r
    | .dot => decide (m ≠ .void) && tame .val l
    | .and | .or => decide (m = .cond) && tame .cond l && tame .cond r
    | .idxr | .idxi | .idxc | .idxb => decide (m ≠ .void) && tame .val l && tame .val r
    | .equ | .neq => !voidCall nt l && !voidCall nt r && tame .val l && tame .val r
    | _ => tame .val l && tame .val r
  | _, .assV _ _ r => tame .val r
  | _, .assM op a i r => (decide (op ≠ .dot) || !voidCall nt r) && tame .val a && tame .val i && tame .val r

/-- Statements of such expressions. -/
def tameS : Stmt → Bool
  | .empty | .brk | .cnt => true
  | .exp e => tame nt .void e
  | .ifs c a => tame nt .cond c && tameS a
  | .els c a b => tame nt .cond c && tameS a && tameS b
  | .whl c a re => c.all (tame nt .cond) && tameS a && re.all (tame nt .void)
  | .dos a c => tameS a && tame nt .cond c
  | .ret e => e.all (tame nt .val)
  | .seq _ a b => tameS a && tameS b

end

/-! ### Names -/

/-- Global variables and functions are printed with their names (vmCode.c, vm2tac.c); the indices of the parser, of which
there may be several for one name, become those of names. -/
def renK (g : Int → Int) (k : Kind) (n : Int) : Int :=
  match k with
  | .glb | .addr => g n
  | _ => n

def ren (g : Int → Int) : Expr → Expr
  | .cnst v => .cnst v
  | .leaf k n => .leaf k (renK g k n)
  | .func0 f => .func0 (g f)
  | .func f a => .func (g f) (ren g a)
  | .un op e => .un op (ren g e)
  | .bin op l r => .bin op (ren g l) (ren g r)
  | .assV k n r => .assV k (renK g k n) (ren g r)
  | .assM op a i r => .assM op (ren g a) (ren g i) (ren g r)

def renS (g : Int → Int) : Stmt → Stmt
  | .empty => .empty
  | .brk => .brk
  | .cnt => .cnt
  | .exp e => .exp (ren g e)
  | .ifs c a => .ifs (ren g c) (renS g a)
  | .els c a b => .els (ren g c) (renS g a) (renS g b)
  | .whl c a re => .whl (c.map (ren g)) (renS g a) (re.map (ren g))
  | .dos a c => .dos (renS g a) (ren g c)
  | .ret e => .ret (e.map (ren g))
  | .seq b x y => .seq b (renS g x) (renS g y)

/-! ### Expressions -/

/-- What the tables behind an expression have to say: functions are void in `nt` if they are in the table, the variables
there are in `V` and not of type void, nor are parameters. -/
structure Fit (nt : NT) (g : Int → Int) (V : Kind → Int → Bool) (T : Tab) : Prop where
  fn : ∀ (n : Nat) (e : Ent), T[n]? = some e → IsFun e.scope → (nt.void (g n) = true ↔ (e.type, e.dim) = (TyVOID, 0))
  var : ∀ (n : Nat) (e : Ent) (k : Kind), T[n]? = some e → VarKind e.scope k → V k (renK g k n) = true ∧ (e.type, e.dim) ≠ (TyVOID, 0)
  str : ∀ n : Int, 0 ≤ n → V .str n = true
  addr : ∀ (n : Nat) (e : Ent), T[n]? = some e → IsFun e.scope ∨ VarKind e.scope .glb → V .addr (g n) = true
  prm : ∀ (n j : Nat) (e d : Ent), T[n]? = some e → IsFun e.scope → n < j → j ≤ n + e.cnt → T[j]? = some d →
    (d.type, d.dim) ≠ (TyVOID, 0)
  len : T.length ≤ 500

variable {nt : NT} {g : Int → Int} {V : Kind → Int → Bool} {T : Tab}

theorem VarKind.kinds {c : Int} {k : Kind} (h : VarKind c k) : k = .loc ∨ k = .prm ∨ k = .glb := by
  cases h <;> simp

theorem Ty.void (hf : Fit nt g V T) {m : Nat} {s : SX} {ts : List (Int × Nat)} {e : Expr} (h : Ty actual T m s ts e) :
    (∃ t, ts = [t] ∧ t ≠ (TyVOID, 0)) → voidCall nt (ren g e) = false := by
  induction h with
  | call0 h1 h2 _ _ =>
    rintro ⟨t, ht, hv⟩
    cases ht
    have := hf.fn _ _ h1.1 h2
    simp only [ren, voidCall]
    rw [Bool.eq_false_iff]
    exact fun h => hv (this.1 h)
  | call h1 h2 _ _ _ =>
    rintro ⟨t, ht, hv⟩
    cases ht
    have := hf.fn _ _ h1.1 h2
    simp only [ren, voidCall]
    rw [Bool.eq_false_iff]
    exact fun h => hv (this.1 h)
  | par _ ih => exact ih
  | conv hc _ ih =>
    intro _
    cases hc with
    | ordC => exact ih ⟨_, rfl, by decide⟩
    | ordB => exact ih ⟨_, rfl, by decide⟩
    | chr => rfl
    | bool => rfl
  | idx _ _ he _ _ => intro _; cases he <;> rfl
  | pre hp _ ih =>
    intro _
    cases hp with
    | plus h => exact ih ⟨_, rfl, by rcases h with rfl | rfl <;> decide⟩
    | minus => rfl
    | tilde => rfl
    | excl => rfl
  | @bin _ k tok op _ _ _ _ _ _ _ hb _ _ _ _ _ =>
    intro _
    obtain ⟨row, h1, -, h2⟩ := hb
    have : op ≠ .comm := by
      rintro rfl
      have hall : ∀ row ∈ binRows, ∀ p ∈ row, p.2 ≠ Bin.comm := by decide
      exact hall row (List.mem_of_getElem? h1) _ h2 rfl
    cases op <;> first | rfl | exact absurd rfl this
  | ass _ _ _ _ hs _ _ => intro _; cases hs <;> rfl
  | com _ _ _ ih =>
    rintro ⟨t, ht, hv⟩
    exact ih ⟨t, ht, hv⟩
  | args => intro _; rfl
  | _ => intro _; rfl

/-- Values stored are not of type void, unless into a field. -/
theorem Ty.lv (hf : Fit nt g V T) {m : Nat} {s : SX} {ts : List (Int × Nat)} {e : Expr} (h : Ty actual T m s ts e) :
    s.lv = true → (∃ k n, e = .leaf k n ∧ (k = .loc ∨ k = .prm ∨ k = .glb) ∧ (TyVOID, 0) ∉ ts) ∨
      (∃ op a i, e = .bin op a i ∧ (op = .idxr ∨ op = .idxi ∨ op = .idxc ∨ op = .idxb) ∧ (TyVOID, 0) ∉ ts) ∨
      ∃ a i, e = .bin .dot a i := by
  induction h with
  | var h1 h2 =>
    intro _
    refine .inl ⟨_, _, rfl, h2.kinds, ?_⟩
    rw [List.mem_singleton]
    exact fun h => (hf.var _ _ _ h1.1 h2).2 h.symm
  | par _ ih => exact ih
  | idx _ _ he _ _ =>
    intro _
    refine .inr (.inl ⟨_, _, _, rfl, by cases he <;> simp, ?_⟩)
    rw [List.mem_singleton]
    intro h
    cases h
    cases he with
    | ref h => exact absurd h (by decide)
  | fld => exact fun _ => .inr (.inr ⟨_, _, rfl⟩)
  | _ => exact fun h => absurd h (by simp [SX.lv])

/-- Arguments are not of type void. -/
theorem Conform.nv (hf : Fit nt g V T) {n : Nat} {e : Ent} (h1 : T[n]? = some e) (h2 : IsFun e.scope)
    {i last : Nat} {ts : List (Int × Nat)} (h : Conform T i last ts) :
    n < i → last ≤ n + e.cnt → ∀ t ∈ ts, t ≠ (TyVOID, 0) := by
  induction h with
  | done => intro _ _ t ht; cases ht
  | one g1 g2 _ g3 _ ih =>
    intro k1 k2 t ht
    rcases List.mem_cons.1 ht with rfl | ht
    · exact g3.nv (hf.prm n _ e _ h1 h2 k1 (by omega) g2)
    · exact ih (by omega) k2 t ht
  | dots _ _ _ h => exact fun _ _ => h

/-- What the types have to be for a mode. -/
def TyOk (nt : NT) (m : Mode) (ts : List (Int × Nat)) (e : Expr) : Prop :=
  match m with
  | .void => ts.length = 1
  | .args => ∀ t ∈ ts, t ≠ (TyVOID, 0)
  | _ => ts.length = 1 ∧ voidCall nt e = false

theorem TyOk.val {t : Int × Nat} {e : Expr} (h : voidCall nt e = false) : TyOk nt .val [t] e := ⟨rfl, h⟩
theorem TyOk.cond {t : Int × Nat} {e : Expr} (h : voidCall nt e = false) : TyOk nt .cond [t] e := ⟨rfl, h⟩

/-- A value that is used is not that of a void function. -/
theorem TyOk.fn {md : Mode} {t : Int × Nat} {e : Expr} (h : TyOk nt md [t] e)
    (hv : t ≠ (TyVOID, 0) → voidCall nt e = false) : (!voidCall nt e || decide (md = .void)) = true := by
  cases md with
  | void => simp
  | args => rw [hv (h t (List.mem_singleton_self t))]; rfl
  | val => rw [h.2]; rfl
  | cond => rw [h.2]; rfl

theorem intLike_nv {t : Int × Nat} (h : IntLike t) : t ≠ (TyVOID, 0) := by
  rcases h with rfl | rfl <;> decide

/-- Well-typed expressions are compiled correctly. -/
theorem Ty.ready (hf : Fit nt g V T) {m : Nat} {s : SX} {ts : List (Int × Nat)} {e : Expr} (h : Ty actual T m s ts e) :
    ∀ md, TyOk nt md ts (ren g e) → tame nt md (ren g e) = true → okE nt V md (ren g e) = true := by
  induction h with
  | int | chr | log | nul | sizeof => intro md _ _; simp [ren, okE]
  | @str m v => intro md _ _; simp [ren, okE, hf.str ((m : Int) + 1) (by omega), renK]
  | addrof h1 h2 => intro md _ _; simp [ren, okE, hf.addr _ _ h1.1 h2, renK]
  | var h1 h2 =>
    intro md _ _
    have := (hf.var _ _ _ h1.1 h2).1
    rcases h2.kinds with h | h | h <;> subst h <;> simp [ren, okE, this]
  | call0 h1 h2 h3 h4 =>
    intro md ht _
    have hv := Ty.void hf (.call0 (m := 0) h1 h2 h3 h4)
    simp only [ren, okE, hf.addr _ _ h1.1 (.inl h2), Bool.true_and]
    exact ht.fn fun h => hv ⟨_, rfl, h⟩
  | @call m f n e a ts ea h1 h2 h3 h4 h5 ih =>
    intro md ht hm
    have hv := Ty.void hf (.call h1 h2 h3 h4 h5)
    simp only [ren, tame] at hm
    simp only [ren, okE, Bool.and_eq_true]
    exact ⟨⟨hf.addr _ _ h1.1 (.inl h2), ht.fn fun h => hv ⟨_, rfl, h⟩⟩, ih .args (h5.nv hf h1.1 h2 (by omega) (Nat.le_refl _)) hm⟩
  | @args m l ts el r t er h1 h2 ih1 ih2 =>
    intro md ht hm
    have hlen : ∀ {s ts e}, Ty actual T m s ts e → 0 < ts.length := by
      intro s ts e h
      cases h <;> simp
    have hl := hlen h1
    simp only [ren, tame, Bool.and_eq_true] at hm
    cases md with
    | void => simp only [TyOk, List.length_append, List.length_singleton] at ht; omega
    | val => simp only [TyOk, List.length_append, List.length_singleton] at ht; omega
    | cond => simp only [TyOk, List.length_append, List.length_singleton] at ht; omega
    | args =>
      simp only [TyOk] at ht
      simp only [ren, okE, decide_true, Bool.true_and, Bool.and_eq_true]
      refine ⟨ih1 .args (fun x hx => ht x (List.mem_append_left _ hx)) hm.1, ih2 .val (.val ?_) hm.2⟩
      exact h2.void hf ⟨_, rfl, ht t (by simp)⟩
  | par _ ih => exact ih
  | @conv m k s t t' f e hc h1 ih =>
    intro md ht hm
    have nv : t ≠ TyVOID → voidCall nt (ren g e) = false := fun h => h1.void hf ⟨_, rfl, fun hx => h (congrArg Prod.fst hx)⟩
    cases hc with
    | ordC => exact ih md (by cases md <;> first | exact ht | (intro x hx; rw [List.mem_singleton] at hx; subst hx; decide)) hm
    | ordB => exact ih md (by cases md <;> first | exact ht | (intro x hx; rw [List.mem_singleton] at hx; subst hx; decide)) hm
    | chr => exact ih .val (.val (nv (by decide))) hm
    | bool => exact ih .val (.val (nv (by decide))) hm
  | @idx m a t d ea i ei op h1 h2 he ih1 ih2 =>
    intro md ht hm
    have v1 : voidCall nt (ren g ea) = false := h1.void hf ⟨_, rfl, by intro h; cases h⟩
    have v2 : voidCall nt (ren g ei) = false := h2.void hf ⟨_, rfl, by decide⟩
    cases he <;>
    · simp only [ren, tame, Bool.and_eq_true] at hm
      simp only [ren, okE, Bool.and_eq_true]
      exact ⟨⟨hm.1.1, ih1 .val (.val v1) hm.1.2⟩, ih2 .val (.val v2) hm.2⟩
  | @fld m a i d f n e ea h1 _ _ h2 ih =>
    intro md ht hm
    have v1 : voidCall nt (ren g ea) = false := h1.void hf ⟨_, rfl, by
      intro h
      have h : -(i : Int) = TyVOID := congrArg Prod.fst h
      have : 0 < TyVOID := by decide
      omega⟩
    simp only [ren, tame, Bool.and_eq_true] at hm
    simp only [ren, okE, fieldOk, Bool.and_eq_true, decide_eq_true_eq]
    have := (List.getElem?_eq_some_iff.1 h2.2.1).1
    have := hf.len
    exact ⟨⟨by simpa using hm.1, ih .val (.val v1) hm.2⟩, by omega, by omega⟩
  | @pre m k s t t' f e hp h1 ih =>
    intro md ht hm
    have nv : t ≠ (TyVOID, 0) → voidCall nt (ren g e) = false := fun h => h1.void hf ⟨_, rfl, h⟩
    cases hp with
    | plus h =>
      have := intLike_nv h
      refine ih md ?_ hm
      cases md with
      | args => intro x hx; rw [List.mem_singleton] at hx; subst hx; exact this
      | void => exact ht
      | val => exact ht
      | cond => exact ht
    | minus h => exact ih .val (.val (nv (intLike_nv h))) hm
    | tilde h => exact ih .val (.val (nv (intLike_nv h))) hm
    | excl => exact ih .val (.val (nv (by decide))) hm
  | @bin m k tok op l a el r b er c hb hty h1 h2 ih1 ih2 =>
    intro md ht hm
    have nv1 : a ≠ (TyVOID, 0) → voidCall nt (ren g el) = false := fun h => h1.void hf ⟨_, rfl, h⟩
    have nv2 : b ≠ (TyVOID, 0) → voidCall nt (ren g er) = false := fun h => h2.void hf ⟨_, rfl, h⟩
    obtain ⟨row, h3, h4, h5⟩ := hb
    have hk : k - 2 < 10 := (List.getElem?_eq_some_iff.1 h3).1
    have key : ∀ j < 10, ∀ row, binRows[j]? = some row → ∀ p ∈ row,
        (p.2 ∈ [Bin.equ, .neq] ∧ j = 4) ∨ (p.2 ∈ [Bin.and, .or] ∧ 8 ≤ j) ∨
        (p.2 ∈ [Bin.add, .sub, .shl, .shr, .band, .bxor, .bor, .mul, .div, .mod, .gt, .ge, .lt, .le] ∧ j ≠ 4 ∧ j < 8) := by
      intro j hj row hrow
      have hd : ∀ j < 10, ∀ p ∈ (binRows[j]?).getD [],
        (p.2 ∈ [Bin.equ, .neq] ∧ j = 4) ∨ (p.2 ∈ [Bin.and, .or] ∧ 8 ≤ j) ∨
        (p.2 ∈ [Bin.add, .sub, .shl, .shr, .band, .bxor, .bor, .mul, .div, .mod, .gt, .ge, .lt, .le] ∧ j ≠ 4 ∧ j < 8) := by
        decide
      have := hd j hj
      rw [hrow] at this
      exact this
    rcases key (k - 2) hk row h3 _ h5 with ⟨ho, hj⟩ | ⟨ho, hj⟩ | ⟨ho, hj, hj'⟩
    · have hcmp : tame nt md (.bin op (ren g el) (ren g er)) = (!voidCall nt (ren g el) && !voidCall nt (ren g er) && tame nt .val (ren g el) && tame nt .val (ren g er)) ∧
          okE nt V md (.bin op (ren g el) (ren g er)) = (okE nt V .val (ren g el) && okE nt V .val (ren g er)) := by
        simp only [List.mem_cons, List.not_mem_nil, or_false] at ho
        rcases ho with rfl | rfl <;> exact ⟨rfl, rfl⟩
      rw [ren, hcmp.1] at hm
      rw [ren, hcmp.2]
      simp only [Bool.and_eq_true, Bool.not_eq_true'] at hm ⊢
      exact ⟨ih1 .val (.val hm.1.1.1) hm.1.2, ih2 .val (.val hm.1.1.2) hm.2⟩
    · have hcmp : tame nt md (.bin op (ren g el) (ren g er)) = (decide (md = .cond) && tame nt .cond (ren g el) && tame nt .cond (ren g er)) ∧
          okE nt V md (.bin op (ren g el) (ren g er)) = (decide (md = .cond) && okE nt V .cond (ren g el) && okE nt V .cond (ren g er)) := by
        simp only [List.mem_cons, List.not_mem_nil, or_false] at ho
        rcases ho with rfl | rfl <;> exact ⟨rfl, rfl⟩
      rw [ren, hcmp.1] at hm
      rw [ren, hcmp.2]
      simp only [Bool.and_eq_true] at hm ⊢
      have hab : a = (TyBOOL, 0) ∧ b = (TyBOOL, 0) := by
        cases hty with
        | arith h => omega
        | order => omega
        | equal => omega
        | logic => exact ⟨rfl, rfl⟩
      exact ⟨⟨hm.1.1, ih1 .cond (.cond (nv1 (by rw [hab.1]; decide))) hm.1.2⟩,
        ih2 .cond (.cond (nv2 (by rw [hab.2]; decide))) hm.2⟩
    · have hcmp : tame nt md (.bin op (ren g el) (ren g er)) = (tame nt .val (ren g el) && tame nt .val (ren g er)) ∧
          okE nt V md (.bin op (ren g el) (ren g er)) = (okE nt V .val (ren g el) && okE nt V .val (ren g er)) := by
        simp only [List.mem_cons, List.not_mem_nil, or_false] at ho
        rcases ho with rfl | rfl | rfl | rfl | rfl | rfl | rfl | rfl | rfl | rfl | rfl | rfl | rfl | rfl <;> exact ⟨rfl, rfl⟩
      rw [ren, hcmp.1] at hm
      rw [ren, hcmp.2]
      simp only [Bool.and_eq_true] at hm ⊢
      have hab : a ≠ (TyVOID, 0) ∧ b ≠ (TyVOID, 0) := by
        cases hty with
        | arith _ h h' => exact ⟨intLike_nv h, intLike_nv h'⟩
        | order h h' => exact ⟨intLike_nv h, intLike_nv h'⟩
        | equal => omega
        | logic => exact ⟨by decide, by decide⟩
      exact ⟨ih1 .val (.val (nv1 hab.1)) hm.1, ih2 .val (.val (nv2 hab.2)) hm.2⟩
  | @ass m l a el r b er e h1 hl h2 ha hs ih1 ih2 =>
    intro md ht hm
    have nv : a ≠ (TyVOID, 0) → voidCall nt (ren g er) = false := fun h => h2.void hf ⟨_, rfl, ha.nv h⟩
    rcases h1.lv hf hl with ⟨k, n, rfl, hk, hn⟩ | ⟨op, x, i, rfl, hk, hn⟩ | ⟨x, i, rfl⟩
    · cases hs
      have h0 := ih1 .void rfl (by simp [ren, tame])
      simp only [ren, okE, Bool.and_eq_true, decide_eq_true_eq] at h0
      simp only [ren, tame] at hm
      simp only [ren, okE, Bool.and_eq_true, Bool.or_eq_true, decide_eq_true_eq]
      exact ⟨⟨by rcases hk with rfl | rfl | rfl <;> simp, h0.2⟩,
        ih2 .val (.val (nv fun h => hn (by rw [h]; simp))) hm⟩
    · cases hs
      simp only [ren, tame, Bool.and_eq_true] at hm
      have h0 := ih1 .val (.val (by rcases hk with rfl | rfl | rfl | rfl <;> rfl))
        (by rcases hk with rfl | rfl | rfl | rfl <;> simp [ren, tame, hm.1.1.2, hm.1.2])
      simp only [ren, okE, Bool.and_eq_true]
      refine ⟨?_, ih2 .val (.val (nv fun h => hn (by rw [h]; simp))) hm.2⟩
      rcases hk with rfl | rfl | rfl | rfl <;>
      · simp only [ren, okE, Bool.and_eq_true] at h0
        exact ⟨h0.2, h0.1.2⟩
    · cases hs
      simp only [ren, tame, Bool.and_eq_true] at hm
      have h0 := ih1 .val (.val rfl) (by simp [ren, tame, hm.1.1.2])
      simp only [ren, okE, Bool.and_eq_true] at h0 ⊢
      exact ⟨⟨h0.2, h0.1.2⟩, ih2 .val (.val (by simpa using hm.1.1.1)) hm.2⟩
  | @com m l a el r b er h1 h2 ih1 ih2 =>
    intro md ht hm
    simp only [ren, tame, Bool.and_eq_true] at hm
    simp only [ren, okE, Bool.and_eq_true]
    refine ⟨ih1 .void rfl hm.1, ih2 _ ?_ hm.2⟩
    cases md with
    | void => exact rfl
    | val => exact ht
    | cond => exact ht
    | args => exact .val (h2.void hf ⟨_, rfl, ht _ (by simp)⟩)

end Cmm.Parse
