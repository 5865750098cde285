import Verif.Tac.View
import Verif.Tac.Live2

/-
A criterion on the tree of a function that keeps it away from the known defects of src/vm2tac.c: the code that src/vmCode.c
makes for it passes the abstraction of Verif/Tac/View.lean. For Verif/Props/C63.lean.
-/
namespace Cmm.Tac
open Cmm.Tree (Expr Kind Un Bin Stmt)
open Cmm.Gen (Instr A1 A2 Place NT Mode BRes)

/-! ### The criterion -/

section
variable (cnt : Int → Int)

/-- What the value of an expression still depends on when it is on the virtual stack. -/
def descr : Expr → D
  | .cnst v => if v = 0 then .zero else .free
  | .leaf .glb _ => .glb
  | .leaf .loc n => locD cnt n
  | .leaf .prm _ => .frame
  | .leaf _ _ => .free
  | .func0 _ | .func _ _ | .un _ _ => .free
  | .bin .comm _ r => descr r
  | .bin op l _ => match op with
    | .idxr | .idxi | .idxc | .idxb | .dot => (descr l).deref
    | _ => .free
  | .assV .loc n r => if cnt n ≤ 9 then .reg (cnt n + 2) else (descr r).kept
  | .assV _ _ r => (descr r).kept
  | .assM _ _ _ r => (descr r).kept

/-- What is known about the flags when they may be taken for those of the value: `none` if they are not. -/
def flagE : Expr → Option Gh
  | .cnst _ | .leaf _ _ | .func0 _ | .func _ _ => none
  | .un .neg _ => some .z
  | .un _ _ => some .all
  | .bin op l r => match op with
    | .comm => flagE r
    | .idxr | .idxi | .idxc | .idxb | .dot => (flagE l).map fun _ => .no
    | .band | .bxor | .bor => some .all
    | .gt | .ge | .lt | .le | .equ | .neq => some .no
    | _ => some .z
  | .assV _ _ r => flagE r
  | .assM _ _ _ r => (flagE r).map fun _ => .no

/-- Flags that are good enough to leave out the comparison with 0. -/
def goodFl (eq : Bool) : Option Gh → Bool
  | none => true
  | some g => if eq then g != .no else g == .all

/-- A constant written in the program. -/
def lit : Expr → Bool
  | .cnst _ => true
  | _ => false

/-- A comparison of `x`, computed first, and `y`. -/
def cmpOk (op : Bin) (x y : Expr) : Bool :=
  let eq := decide (op = .equ) || decide (op = .neq)
  (decide (descr cnt y ≠ .zero) || (lit y && goodFl eq (flagE x))) && (decide (descr cnt x ≠ .zero) || goodFl eq (flagE y))

/-- A condition that is tested with JT or JF. -/
def testOk (e : Expr) : Bool := (Gen.logOp e).isSome || cmpTop e || decide (flagE e ≠ some .no)

/-- The expression meets none of the known defects when it is computed while values described by the list are pending. -/
def fitE : List D → Expr → Bool
  | _, .cnst _ | _, .leaf _ _ => true
  | P, .func0 _ => P.all D.callFree
  | P, .func _ a => fitE P a && P.all D.callFree
  | P, .un _ e => fitE P e
  | P, .bin op l r => match op with
    | .semi | .comm => fitE P l && fitE P r
    | .and | .or => fitE P l && fitE P r && testOk l && testOk r
    | .dot => fitE P l
    | .gt | .ge | .lt | .le | .equ | .neq =>
      if Gen.evalDepth l < Gen.evalDepth r then fitE P r && fitE (descr cnt r :: P) l && cmpOk cnt op r l
      else fitE P l && fitE (descr cnt l :: P) r && cmpOk cnt op l r
    | _ =>
      if Gen.isCommutativeOp op && decide (Gen.evalDepth l < Gen.evalDepth r) then fitE P r && fitE (descr cnt r :: P) l
      else fitE P l && fitE (descr cnt l :: P) r
  | P, .assV .loc n r => fitE P r && P.all (if cnt n ≤ 9 then D.regFree (cnt n + 2) else D.memFree)
  | P, .assV _ _ r => fitE P r && P.all D.memFree
  | P, .assM op a i r => fitE P r && fitE (descr cnt r :: P) a &&
      (decide (op = .dot) || fitE (descr cnt a :: descr cnt r :: P) i) && P.all D.memFree

/-- Statements of such expressions. -/
def fitS : Stmt → Bool
  | .empty | .brk | .cnt => true
  | .exp e => fitE cnt [] e
  | .ifs c a => fitE cnt [] c && testOk c && fitS a
  | .els c a b => fitE cnt [] c && testOk c && fitS a && fitS b
  | .whl c a re => c.all (fun c => fitE cnt [] c && testOk c) && fitS a && re.all (fitE cnt [])
  | .dos a c => fitS a && (fitE cnt [] c && testOk c)
  | .ret e => e.all (fitE cnt [])
  | .seq _ a b => fitS a && fitS b

end

/-! ### The code of an expression -/

section
variable {cnt : Int → Int}

theorem views1 (i : Instr) (a : Vw) : views cnt [i] a = view cnt i a := by
  simp only [views]
  cases view cnt i a <;> rfl

/-- After the code for the value of `e`, begun with values described by `P` and `pt`. -/
structure Ran (cnt : Int → Int) (e : Expr) (P : List D) (pt : Option Nat) (a : Vw) : Prop where
  stk : a.stk = descr cnt e :: P
  h0 : a.h0 = true
  low : ∀ k, a.pt = some k → k < P.length → pt = some k
  up : ∀ k, a.pt = some k → k ≤ P.length
  fl : a.pt = some P.length → ∃ g, flagE e = some g ∧ g.le a.g
  fg : cmpTop e = true → a.fg = true

/-- Nothing was pushed. -/
structure Still (P : List D) (pt : Option Nat) (a : Vw) : Prop where
  stk : a.stk = P
  pt : ∀ k, a.pt = some k → pt = some k

/-- What a variable or constant stands for. -/
def placeD (cnt : Int → Int) : Place → Option D
  | .cnst v => some (if v = 0 then .zero else .free)
  | .gvar _ => some .glb
  | .lvar n => some (locD cnt n)
  | .prm _ => some .frame
  | .str _ | .labl _ => some .free
  | _ => none

/-- After the code of `e`, whose value is at place `p`. -/
def Post (cnt : Int → Int) (e : Expr) (P : List D) (pt : Option Nat) (p : Place) (a : Vw) : Prop :=
  match p with
  | .stkd => Ran cnt e P pt a
  | .stkw | .stkb => ∃ d d1, a.stk = d :: d1 :: P ∧ d1.deref = descr cnt e ∧ a.h0 = true ∧ cmpTop e = false ∧
      ∀ k, a.pt = some k → (k < P.length → pt = some k) ∧ (k = P.length → flagE e = some .no)
  | .inval => Still P pt a
  | p => Still P pt a ∧ placeD cnt p = some (descr cnt e) ∧ cmpTop e = false

/-- Nothing is known about entries that are not there. -/
def Below (P : List D) (pt : Option Nat) : Prop := ∀ k, pt = some k → k < P.length

def VB (cnt : Int → Int) (e : Expr) (P : List D) (c : List Instr) (p : Place) : Prop :=
  ∀ a : Vw, a.stk = P → Below P a.pt → ∃ a', views cnt c a = some a' ∧ Post cnt e P a.pt p a'

def VE (cnt : Int → Int) (e : Expr) (P : List D) (c : List Instr) : Prop :=
  ∀ a : Vw, a.stk = P → Below P a.pt → ∃ a', views cnt c a = some a' ∧ Ran cnt e P a.pt a'

def VQ (cnt : Int → Int) (P : List D) (c : List Instr) : Prop :=
  ∀ a : Vw, a.stk = P → Below P a.pt → ∃ a', views cnt c a = some a' ∧ Still P a.pt a'

theorem Still.below {P : List D} {pt : Option Nat} {a : Vw} (h : Still P pt a) (hb : Below P pt) : Below P a.pt :=
  fun k hk => hb k (h.pt k hk)

theorem Ran.below {e : Expr} {P : List D} {pt : Option Nat} {a : Vw} (h : Ran cnt e P pt a) : Below (descr cnt e :: P) a.pt :=
  fun k hk => Nat.lt_succ_of_le (h.up k hk)

theorem VQ.nil (P : List D) : VQ cnt P [] := fun a h _ => ⟨a, rfl, h, fun _ h => h⟩

theorem VQ.append {P : List D} {c d : List Instr} (h : VQ cnt P c) (h' : VQ cnt P d) : VQ cnt P (c ++ d) := by
  intro a ha hb
  obtain ⟨a1, h1, q1⟩ := h a ha hb
  obtain ⟨a2, h2, q2⟩ := h' a1 q1.stk (q1.below hb)
  refine ⟨a2, ?_, q2.stk, fun k hk => q1.pt k (q2.pt k hk)⟩
  rw [views_append, h1]
  exact h2

/-- The value is taken from the stack. -/
theorem VE.take {e : Expr} {P : List D} {c d : List Instr} (h : VE cnt e P c)
    (hd : ∀ a : Vw, a.stk = descr cnt e :: P → a.h0 = true → (a.pt = some P.length → ∃ g, flagE e = some g ∧ g.le a.g) →
      (cmpTop e = true → a.fg = true) →
      ∃ a', views cnt d a = some a' ∧ a'.stk = P ∧ a'.pt = cutFlg a.pt P.length) : VQ cnt P (c ++ d) := by
  intro a ha hb
  obtain ⟨a1, h1, r⟩ := h a ha hb
  obtain ⟨a2, h2, h3, h4⟩ := hd a1 r.stk r.h0 r.fl r.fg
  refine ⟨a2, ?_, h3, fun k hk => ?_⟩
  · rw [views_append, h1]; exact h2
  · rw [h4] at hk
    obtain ⟨h5, h6⟩ := cut_le hk
    exact r.low k h5 h6

theorem view_pop {i : Instr} (hi : i = .pop ∨ i = .arg ∨ i = .mreg) {d : D} {P : List D} {a : Vw} (h : a.stk = d :: P) (h0 : a.h0 = true) :
    ∃ a', views cnt [i] a = some a' ∧ a'.stk = P ∧ a'.pt = cutFlg a.pt P.length := by
  rw [views1]
  rcases hi with rfl | rfl | rfl <;> refine ⟨_, by simp only [view, h, h0, if_true]; rfl, rfl, rfl⟩

theorem VE.pop {e : Expr} {P : List D} {c : List Instr} (h : VE cnt e P c) {i : Instr} (hi : i = .pop ∨ i = .arg ∨ i = .mreg) :
    VQ cnt P (c ++ [i]) := h.take fun _ h1 h2 _ _ => view_pop hi h1 h2

theorem VB.load {e : Expr} {P : List D} {b : Nat → BRes} {n : Nat} (h : VB cnt e P (b n).1 (b n).2.1) (hp : (b n).2.1 ≠ .inval) :
    VE cnt e P (Gen.genE b n).1 := by
  intro a ha hb
  obtain ⟨a1, h1, h2⟩ := h a ha hb
  have hx : (Gen.genE b n).1 = (b n).1 ++ Gen.load (b n).2.1 := rfl
  rw [hx, views_append, h1]
  generalize (b n).2.1 = p at *
  have var : ∀ {i : Instr} {d : D}, view cnt i a1 = some (a1.push d) → Still P a.pt a1 ∧ some d = some (descr cnt e) ∧ cmpTop e = false →
      ∃ a', views cnt [i] a1 = some a' ∧ Ran cnt e P a.pt a' := by
    intro i d hi ⟨q, hd, hc⟩
    cases hd
    refine ⟨_, (views1 i a1).trans hi, by simp [Vw.push, q.stk], rfl, fun k hk _ => q.pt k hk, fun k hk => ?_, fun hk => ?_, fun h => ?_⟩
    · exact Nat.le_of_lt (q.below hb k hk)
    · exact absurd (q.below hb _ hk) (Nat.lt_irrefl _)
    · rw [hc] at h; cases h
  have mem : ∀ {i : Instr}, (i = .ldW ∨ i = .ldB) → (∃ d d1, a1.stk = d :: d1 :: P ∧ d1.deref = descr cnt e ∧ a1.h0 = true ∧ cmpTop e = false ∧
      ∀ k, a1.pt = some k → (k < P.length → a.pt = some k) ∧ (k = P.length → flagE e = some .no)) →
      ∃ a', views cnt [i] a1 = some a' ∧ Ran cnt e P a.pt a' := by
    intro i hi ⟨d, d1, hs, hd, h0, hc, hk⟩
    refine ⟨⟨d1.deref :: P, cutFlg a1.pt (P.length + 1), .no, false, true, false⟩, ?_, by rw [hd], rfl, fun k h _ => ?_, fun k h => ?_, fun h => ?_, fun h => ?_⟩
    · rw [views1]
      rcases hi with rfl | rfl <;> simp only [view, hs, h0, if_true]
    · obtain ⟨h1, h2⟩ := cut_le h
      exact (hk k h1).1 (by assumption)
    · exact Nat.le_of_lt_succ (cut_le h).2
    · exact ⟨.no, (hk _ (cut_le h).1).2 rfl, trivial⟩
    · rw [hc] at h; cases h
  cases p with
  | inval => exact absurd rfl hp
  | stkd => exact ⟨a1, rfl, h2⟩
  | stkw => exact mem (.inl rfl) h2
  | stkb => exact mem (.inr rfl) h2
  | gvar n => exact var (i := .ldG n) rfl h2
  | lvar n => exact var (i := .ldL n) rfl h2
  | prm n => exact var (i := .ldP n) rfl h2
  | cnst v => exact var (i := .ldC v) rfl h2
  | str v => exact var (i := .ldLab v) rfl h2
  | labl v => exact var (i := .ldNam v) rfl h2

theorem VB.drop {e : Expr} {P : List D} {c : List Instr} {p : Place} (h : VB cnt e P c p) (h1 : p ≠ .stkw) (h2 : p ≠ .stkb) :
    VQ cnt P (c ++ Gen.popP p) := by
  cases p with
  | stkw => exact absurd rfl h1
  | stkb => exact absurd rfl h2
  | stkd => exact VE.pop (e := e) h (.inl rfl)
  | inval => simp only [Gen.popP, List.append_nil]; exact h
  | _ =>
    simp only [Gen.popP, List.append_nil]
    intro a ha hb
    obtain ⟨a1, h3, h4⟩ := h a ha hb
    exact ⟨a1, h3, h4.1⟩

/-- First `x`, then `y`. -/
theorem VE.two {x y : Expr} {P : List D} {c d : List Instr} (h1 : VE cnt x P c) (h2 : VE cnt y (descr cnt x :: P) d) {a : Vw}
    (ha : a.stk = P) (hb : Below P a.pt) : ∃ a1 a2, views cnt c a = some a1 ∧ Ran cnt x P a.pt a1 ∧ views cnt d a1 = some a2 ∧
      Ran cnt y (descr cnt x :: P) a1.pt a2 := by
  obtain ⟨a1, e1, r1⟩ := h1 a ha hb
  obtain ⟨a2, e2, r2⟩ := h2 a1 r1.stk r1.below
  exact ⟨a1, a2, e1, r1, e2, r2⟩

theorem goodFl_le {eq : Bool} {g g' : Gh} (h : goodFl eq (some g) = true) (hl : g.le g') :
    (if eq then g' != .no else g' == .all) = true := by
  cases eq <;> cases g <;> cases g' <;> simp_all [goodFl, Gh.le]

/-- What a comparison asks for. -/
theorem cmp_two {eq : Bool} {x y : Expr} {P : List D} {pt : Option Nat} {a1 a2 : Vw} {d : List Instr} (r1 : Ran cnt x P pt a1)
    (e2 : views cnt d a1 = some a2) (r2 : Ran cnt y (descr cnt x :: P) a1.pt a2)
    (hy : lit y = true → ∃ v, d = [.ldC v])
    (h1 : descr cnt y ≠ .zero ∨ (lit y = true ∧ goodFl eq (flagE x) = true))
    (h2 : descr cnt x ≠ .zero ∨ goodFl eq (flagE y) = true) : cmpFit eq (descr cnt y) (descr cnt x) P.length a2 = true := by
  simp only [cmpFit, Bool.and_eq_true, Bool.or_eq_true, Bool.not_eq_true', Bool.and_eq_false_iff, decide_eq_false_iff_not]
  constructor
  · by_cases hz : descr cnt y = .zero
    · by_cases hp : a2.pt = some P.length
      · right
        rcases h1 with h1 | ⟨h1, h3⟩
        · exact absurd hz h1
        · obtain ⟨v, rfl⟩ := hy h1
          rw [views1] at e2
          simp only [view, Option.some.injEq] at e2
          subst e2
          obtain ⟨g, hg, hle⟩ := r1.fl hp
          rw [hg] at h3
          exact ⟨r1.h0, goodFl_le h3 hle⟩
      · exact .inl (.inr hp)
    · exact .inl (.inl hz)
  · by_cases hz : descr cnt x = .zero
    · by_cases hp : a2.pt = some (P.length + 1)
      · right
        rcases h2 with h2 | h2
        · exact absurd hz h2
        · obtain ⟨g, hg, hle⟩ := r2.fl hp
          rw [hg] at h2
          exact goodFl_le h2 hle
      · exact .inl (.inr hp)
    · exact .inl (.inl hz)

/-- Two operands and a binary instruction. -/
theorem two_view {x y e : Expr} {P : List D} {c d : List Instr} {o : A2} (h1 : VE cnt x P c) (h2 : VE cnt y (descr cnt x :: P) d)
    (hd : descr cnt e = .free) (hf : ∀ g, flagE e = some (sgh g (.a2 o))) (hc : cmpTop e = isCmp (.a2 o))
    (hy : lit y = true → ∃ v, d = [.ldC v])
    (hcmp : isCmp (.a2 o) = true → (descr cnt y ≠ .zero ∨ (lit y = true ∧ goodFl (decide (o = .EQ) || decide (o = .NE)) (flagE x) = true)) ∧
      (descr cnt x ≠ .zero ∨ goodFl (decide (o = .EQ) || decide (o = .NE)) (flagE y) = true)) :
    VB cnt e P (c ++ d ++ [.a2 o]) .stkd := by
  intro a ha hb
  obtain ⟨a1, a2, e1, r1, e2, r2⟩ := h1.two h2 ha hb
  have hv : view cnt (.a2 o) a2 = some ⟨.free :: P, some P.length, sgh a2.g (.a2 o), isCmp (.a2 o), true, false⟩ := by
    simp only [view, r2.stk]
    rw [if_pos]
    simp only [r2.h0, Bool.true_and]
    cases o <;> first
      | rfl
      | exact cmp_two (eq := true) r1 e2 r2 hy (hcmp rfl).1 (hcmp rfl).2
      | exact cmp_two (eq := false) r1 e2 r2 hy (hcmp rfl).1 (hcmp rfl).2
  refine ⟨⟨.free :: P, some P.length, sgh a2.g (.a2 o), isCmp (.a2 o), true, false⟩, ?_, ?_⟩
  · rw [List.append_assoc, views_append, e1]
    simp only [Option.bind_some]
    rw [views_append, e2]
    simp only [Option.bind_some]
    rw [views1, hv]
  · refine ⟨by rw [hd], rfl, fun k hk hl => ?_, fun k hk => ?_, fun _ => ⟨_, hf a2.g, Gh.le_refl _⟩, fun h => by rw [← hc]; exact h⟩
    · cases hk; omega
    · cases hk; omega

/-- Two operands of an index. -/
theorem idx_view {x y e : Expr} {P : List D} {c d : List Instr} {p : Place} (hp : p = .stkw ∨ p = .stkb) (h1 : VE cnt x P c)
    (h2 : VE cnt y (descr cnt x :: P) d) (hd : descr cnt e = (descr cnt x).deref) (hf : flagE e = (flagE x).map fun _ => .no)
    (hc : cmpTop e = false) : VB cnt e P (c ++ d ++ []) p := by
  intro a ha hb
  obtain ⟨a1, a2, e1, r1, e2, r2⟩ := h1.two h2 ha hb
  have : ∃ d d1, a2.stk = d :: d1 :: P ∧ d1.deref = descr cnt e ∧ a2.h0 = true ∧ cmpTop e = false ∧
      ∀ k, a2.pt = some k → (k < P.length → a.pt = some k) ∧ (k = P.length → flagE e = some .no) := by
    refine ⟨_, _, r2.stk, hd.symm, r2.h0, hc, fun k hk => ⟨fun hl => ?_, fun hl => ?_⟩⟩
    · exact r1.low k (r2.low k hk (Nat.lt_succ_of_lt hl)) hl
    · subst hl
      obtain ⟨g, hg, -⟩ := r1.fl (r2.low _ hk (Nat.lt_succ_self _))
      rw [hf, hg]; rfl
  refine ⟨a2, ?_, ?_⟩
  · rw [List.append_nil, views_append, e1]; exact e2
  · rcases hp with rfl | rfl <;> exact this

/-- A store through two operands. -/
theorem stM_view {x y e r : Expr} {P : List D} {c0 c d : List Instr} {i : Instr} (hi : i = .stW ∨ i = .stB) (h0 : VE cnt r P c0)
    (h1 : VE cnt x (descr cnt r :: P) c) (h2 : VE cnt y (descr cnt x :: descr cnt r :: P) d) (hP : P.all D.memFree = true)
    (hd : descr cnt e = (descr cnt r).kept) (hf : flagE e = (flagE r).map fun _ => .no) (hc : cmpTop e = false) :
    VB cnt e P (c0 ++ (c ++ d) ++ [i]) .stkd := by
  intro a ha hb
  obtain ⟨a0, e0, r0⟩ := h0 a ha hb
  obtain ⟨a1, a2, e1, r1, e2, r2⟩ := h1.two h2 r0.stk r0.below
  have hv : view cnt i a2 = some ⟨(descr cnt r).kept :: P, cutFlg a2.pt (P.length + 1), .no, false, true, false⟩ := by
    rcases hi with rfl | rfl <;> simp only [view, r2.stk, r2.h0, hP, Bool.and_self, if_true]
  refine ⟨⟨(descr cnt r).kept :: P, cutFlg a2.pt (P.length + 1), .no, false, true, false⟩, ?_, ?_⟩
  · rw [List.append_assoc, views_append, e0]
    simp only [Option.bind_some]
    rw [List.append_assoc, views_append, e1]
    simp only [Option.bind_some]
    rw [views_append, e2]
    simp only [Option.bind_some]
    rw [views1, hv]
  · have down : ∀ k, k < P.length + 1 → a2.pt = some k → a0.pt = some k := fun k hl hk =>
      r1.low k (r2.low k hk (by simp; omega)) (by simpa using hl)
    refine ⟨by rw [hd], rfl, fun k hk hl => ?_, fun k hk => ?_, fun hk => ?_, fun h => by rw [hc] at h; cases h⟩
    · obtain ⟨h3, h4⟩ := cut_le hk
      exact r0.low k (down k h4 h3) hl
    · exact Nat.le_of_lt_succ (cut_le hk).2
    · obtain ⟨h3, h4⟩ := cut_le hk
      obtain ⟨g, hg, -⟩ := r0.fl (down _ h4 h3)
      exact ⟨.no, by rw [hf, hg]; rfl, trivial⟩

/-- A store to a variable. -/
theorem stV_view {e r : Expr} {P : List D} {c : List Instr} {i : Instr} {dd : D} (h : VE cnt r P c)
    (hv : ∀ a : Vw, a.stk = descr cnt r :: P → a.h0 = true → view cnt i a = some ⟨dd :: P, a.pt, a.g, false, true, false⟩)
    (hd : descr cnt e = dd) (hf : flagE e = flagE r) (hc : cmpTop e = false) : VB cnt e P (c ++ [] ++ [i]) .stkd := by
  intro a ha hb
  obtain ⟨a1, e1, r1⟩ := h a ha hb
  refine ⟨⟨dd :: P, a1.pt, a1.g, false, true, false⟩, ?_, ?_⟩
  · rw [List.append_nil, views_append, e1]
    simp only [Option.bind_some]
    rw [views1, hv a1 r1.stk r1.h0]
  · exact ⟨by rw [hd], rfl, r1.low, r1.up, fun hk => by rw [hf]; exact r1.fl hk, fun h => by rw [hc] at h; cases h⟩

theorem Post.mono {e e' : Expr} {P : List D} {pt pt' : Option Nat} {p : Place} {a : Vw} (h : Post cnt e P pt p a)
    (hp : ∀ k, pt = some k → pt' = some k) (hd : descr cnt e' = descr cnt e) (hf : flagE e' = flagE e) (hc : cmpTop e' = cmpTop e) :
    Post cnt e' P pt' p a := by
  have st : Still P pt a → Still P pt' a := fun q => ⟨q.stk, fun k hk => hp k (q.pt k hk)⟩
  cases p with
  | stkd =>
    have h : Ran cnt e P pt a := h
    exact ⟨by rw [hd]; exact h.stk, h.h0, fun k hk hl => hp k (h.low k hk hl), h.up, by rw [hf]; exact h.fl, by rw [hc]; exact h.fg⟩
  | inval => exact st h
  | stkw =>
    obtain ⟨d, d1, h1, h2, h3, h4, h5⟩ := h
    exact ⟨d, d1, h1, by rw [hd]; exact h2, h3, by rw [hc]; exact h4, fun k hk => ⟨fun hl => hp k ((h5 k hk).1 hl), by rw [hf]; exact (h5 k hk).2⟩⟩
  | stkb =>
    obtain ⟨d, d1, h1, h2, h3, h4, h5⟩ := h
    exact ⟨d, d1, h1, by rw [hd]; exact h2, h3, by rw [hc]; exact h4, fun k hk => ⟨fun hl => hp k ((h5 k hk).1 hl), by rw [hf]; exact (h5 k hk).2⟩⟩
  | _ =>
    obtain ⟨h1, h2, h3⟩ := h
    exact ⟨st h1, by rw [hd]; exact h2, by rw [hc]; exact h3⟩

/-- The code of a call. -/
theorem call_view {nt : NT} {e : Expr} {f : Int} {j : Nat} {P : List D} {c : List Instr} (h : VQ cnt P c) (hP : P.all D.callFree = true)
    (hd : descr cnt e = .free) (hc : cmpTop e = false) : VB cnt e P (c ++ (Gen.callCode nt f j).1) (Gen.callCode nt f j).2 := by
  intro a ha hb
  obtain ⟨a1, e1, q⟩ := h a ha hb
  rw [views_append, e1]
  unfold Gen.callCode
  by_cases hv : nt.void f = true
  · simp only [hv, if_true, Option.bind_some]
    refine ⟨⟨P, a1.pt, .no, false, false, false⟩, ?_, rfl, q.pt⟩
    rw [views1]
    simp only [view, q.stk, hP, if_true]
  · simp only [hv, Bool.false_eq_true, if_false, Option.bind_some]
    refine ⟨⟨.free :: P, a1.pt, .no, false, true, false⟩, ?_, by rw [hd], rfl, fun k hk _ => q.pt k hk, fun k hk => ?_, fun hk => ?_, fun h => ?_⟩
    · rw [views1]
      simp only [view, q.stk, hP, if_true]
    · exact Nat.le_of_lt (q.below hb k hk)
    · exact absurd (q.below hb _ hk) (Nat.lt_irrefl _)
    · rw [hc] at h; cases h

end


section
variable {nt : NT} {V : Kind → Int → Bool}

structure GoodV (nt : NT) (V : Kind → Int → Bool) (e : Expr) : Prop where
  val : okE nt V .val e = true → ∀ P, fitE nt.cnt P e = true → ∀ n, VB nt.cnt e P ((Gen.gen nt e).bool n).1 ((Gen.gen nt e).bool n).2.1
  void : okE nt V .void e = true → ∀ P, fitE nt.cnt P e = true → ∀ n, VB nt.cnt e P ((Gen.gen nt e).bool n).1 ((Gen.gen nt e).bool n).2.1
  args : okE nt V .args e = true → ∀ P, fitE nt.cnt P e = true → ∀ n, VQ nt.cnt P ((Gen.gen nt e).args n).1
  cond : okE nt V .cond e = true → fitE nt.cnt [] e = true → Gen.logOp e ≠ none → ∀ left A B n, 2 ≤ left →
    VQ nt.cnt [] ((Gen.gen nt e).log left A B n).1

theorem place_val {e : Expr} (ho : okE nt V .val e = true) (n : Nat) : ((Gen.gen nt e).bool n).2.1 ≠ .inval := by
  intro h
  have := ((gen_good (N := 0) e).val ho n).2
  rw [h] at this
  cases this

theorem GoodV.ve {e : Expr} (h : GoodV nt V e) (ho : okE nt V .val e = true) {P : List D} (hf : fitE nt.cnt P e = true) (n : Nat) :
    VE nt.cnt e P (Gen.genE (Gen.gen nt e).bool n).1 :=
  (h.val ho P hf n).load (place_val ho n)

theorem GoodV.vq {e : Expr} (h : GoodV nt V e) (ho : okE nt V .void e = true) {P : List D} (hf : fitE nt.cnt P e = true) (n : Nat) :
    VQ nt.cnt P (((Gen.gen nt e).bool n).1 ++ Gen.popP ((Gen.gen nt e).bool n).2.1) := by
  have := (gen_good (N := 0) e).void ho n
  exact (h.void ho P hf n).drop this.2.1 this.2.2

theorem lit_code {y : Expr} (h : lit y = true) (n : Nat) : ∃ v, (Gen.genE (Gen.gen nt y).bool n).1 = [.ldC v] := by
  cases y with
  | cnst v => exact ⟨v, rfl⟩
  | _ => cases h

theorem GoodV.plain {e : Expr} {b : Nat → BRes} (hg : Gen.gen nt e = .plain b) (hlog : Gen.logOp e = none)
    (hv : okE nt V .val e = true ∨ okE nt V .void e = true → ∀ P, fitE nt.cnt P e = true → ∀ n, VB nt.cnt e P (b n).1 (b n).2.1)
    (ha : okE nt V .args e = true → okE nt V .val e = true) : GoodV nt V e := by
  refine ⟨?_, ?_, ?_, fun _ _ h => absurd hlog h⟩
  · rw [hg]; exact fun ho => hv (.inl ho)
  · rw [hg]; exact fun ho => hv (.inr ho)
  · intro ho P hf n
    have hp := place_val (ha ho) n
    rw [hg] at hp ⊢
    exact VE.pop (VB.load (hv (.inl (ha ho)) P hf n) hp) (.inr (.inl rfl))

theorem GoodV.binary {op : Bin} {l r : Expr} (h1 : op ≠ .semi) (h2 : op ≠ .and) (h3 : op ≠ .or)
    (hv : okE nt V .val (.bin op l r) = true ∨ okE nt V .void (.bin op l r) = true → ∀ P, fitE nt.cnt P (.bin op l r) = true → ∀ n,
      VB nt.cnt (.bin op l r) P (Gen.genBin nt op l r (Gen.gen nt l) (Gen.gen nt r) n).1 (Gen.genBin nt op l r (Gen.gen nt l) (Gen.gen nt r) n).2.1)
    (ha : okE nt V .args (.bin op l r) = true → okE nt V .val (.bin op l r) = true) : GoodV nt V (.bin op l r) := by
  refine ⟨fun ho => hv (.inl ho), fun ho => hv (.inr ho), fun ho P hf n => ?_, fun _ _ h => ?_⟩
  · have hx : (Gen.gen nt (.bin op l r)).args = Gen.argOne (Gen.genBin nt op l r (Gen.gen nt l) (Gen.gen nt r)) := by
      cases op <;> first | rfl | exact absurd rfl h1
    rw [hx]
    exact VE.pop (VB.load (hv (.inl (ha ho)) P hf n) (place_val (ha ho) n)) (.inr (.inl rfl))
  · exfalso
    cases op <;> first | exact h rfl | exact h2 rfl | exact h3 rfl

theorem vq_lab (n : Nat) : VQ cnt [] [.lab n] := fun a ha _ =>
  ⟨⟨[], none, .all, false, false, false⟩, by rw [views1]; simp only [view, ha], rfl, nofun⟩
theorem vq_jmp (n : Nat) : VQ cnt [] [.jmp n] := fun a ha _ =>
  ⟨⟨[], none, .all, false, false, false⟩, by rw [views1]; simp only [view, ha], rfl, nofun⟩
theorem vq_printLab (l : Option Nat) : VQ cnt [] (Gen.printLab l) := by
  cases l with
  | none => exact .nil _
  | some k => exact vq_lab k

/-- A test. -/
theorem VE.test {e : Expr} {c : List Instr} (h : VE cnt e [] c) (hl : Gen.logOp e = none) (ht : testOk e = true) (tf : Bool)
    (l : Gen.Lab) (n : Nat) : VQ cnt [] (c ++ (Gen.boolJmp tf l n).1) := by
  refine h.take fun a h1 h2 h3 h4 => ?_
  simp only [testOk, hl, Option.isSome_none, Bool.false_or, Bool.or_eq_true, decide_eq_true_eq] at ht
  have hx : (a.h0 && (a.fg || decide (a.pt ≠ some ([] : List D).length) || a.g != .no)) = true := by
    simp only [h2, Bool.true_and, Bool.or_eq_true, decide_eq_true_eq, bne_iff_ne]
    rcases ht with ht | ht
    · exact .inl (.inl (h4 ht))
    · by_cases hp : a.pt = some ([] : List D).length
      · right
        obtain ⟨g, hg, hle⟩ := h3 hp
        intro hn
        rw [hn] at hle
        apply ht
        rw [hg]
        cases g <;> simp_all [Gh.le]
      · exact .inl (.inr hp)
  have key : ∀ i : Instr, (∃ k, i = .jt k ∨ i = .jf k) → ∃ a', views cnt [i] a = some a' ∧ a'.stk = [] ∧ a'.pt = cutFlg a.pt ([] : List D).length := by
    rintro i ⟨k, rfl | rfl⟩
    · rw [views1]
      exact ⟨_, by simp only [view, h1]; exact if_pos hx, rfl, rfl⟩
    · rw [views1]
      exact ⟨_, by simp only [view, h1]; exact if_pos hx, rfl, rfl⟩
  unfold Gen.boolJmp
  cases l.no <;> cases tf <;> first | exact key _ ⟨_, .inl rfl⟩ | exact key _ ⟨_, .inr rfl⟩

/-- && and || as conditions. -/
theorem log_vq {op : Bin} {l r : Expr} (hl : GoodV nt V l) (hr : GoodV nt V r) (ol : okE nt V .cond l = true)
    (or' : okE nt V .cond r = true) (fl : fitE nt.cnt [] l = true) (fr : fitE nt.cnt [] r = true) (tl : testOk l = true) (tr : testOk r = true)
    (left : Nat) (A B : Gen.Lab) (n : Nat) (h2 : 2 ≤ left) :
    VQ nt.cnt [] (Gen.genLogExpr op (Gen.logOp l) (Gen.logOp r) (Gen.gen nt l) (Gen.gen nt r) left A B n).1 := by
  have one : ∀ {e : Expr}, GoodV nt V e → okE nt V .cond e = true → fitE nt.cnt [] e = true → testOk e = true → Gen.logOp e = none →
      ∀ n tf A m, VQ nt.cnt [] ((Gen.genE (Gen.gen nt e).bool n).1 ++ (Gen.boolJmp tf A m).1) := by
    intro e he oe fe te hlog n tf A m
    exact (he.ve (okE_of_cond oe hlog) fe n).test hlog te tf A m
  have hL : VQ nt.cnt [] (Gen.genLogL op (Gen.logOp l) (Gen.gen nt l) left A n).1 := by
    unfold Gen.genLogL
    cases hlog : Gen.logOp l with
    | none => exact one hl ol fl tl hlog _ _ _ _
    | some lop =>
      dsimp only
      split
      · exact (hl.cond ol fl (by simp [hlog]) _ _ _ _ (by omega)).append (vq_printLab _)
      · exact (hl.cond ol fl (by simp [hlog]) _ _ _ _ (by omega)).append (vq_printLab _)
  have hR : ∀ A B n, VQ nt.cnt [] (Gen.genLogR op (Gen.logOp r) (Gen.gen nt r) left A B n).1 := by
    intro A B n
    unfold Gen.genLogR
    cases hlog : Gen.logOp r with
    | none =>
      dsimp only
      rw [if_pos h2]
      split
      · exact one hr or' fr tr hlog _ _ _ _
      · exact one hr or' fr tr hlog _ _ _ _
    | some rop =>
      dsimp only
      split
      · exact hr.cond or' fr (by simp [hlog]) _ _ _ _ h2
      · exact hr.cond or' fr (by simp [hlog]) _ _ _ _ h2
  exact hL.append (hR _ _ _)

/-- A variable or constant. -/
theorem var_view {e : Expr} {P : List D} {p : Place} (hp : placeD cnt p = some (descr cnt e)) (hc : cmpTop e = false) :
    VB cnt e P [] p := by
  intro a ha hb
  refine ⟨a, rfl, ?_⟩
  have q : Still P a.pt a := ⟨ha, fun _ h => h⟩
  cases p <;> first | cases hp; done | exact ⟨q, hp, hc⟩

theorem gen_view (e : Expr) : GoodV nt V e := by
  induction e with
  | cnst v => exact .plain rfl rfl (fun _ P _ n => var_view (p := .cnst v) rfl rfl) id
  | leaf k v =>
    refine .plain rfl rfl (fun h P _ n => ?_) id
    have hk : k ≠ .size := by rcases h with h | h <;> simp only [okE, Bool.and_eq_true, decide_eq_true_eq] at h <;> exact h.1
    cases k <;> first
      | exact absurd rfl hk
      | exact var_view rfl rfl
  | func0 f =>
    refine .plain rfl rfl (fun h P hf n => ?_) (by simp [okE])
    exact call_view (c := []) (.nil _) hf rfl rfl
  | func f a ih =>
    refine .plain rfl rfl (fun h P hf n => ?_) (by simp [okE])
    simp only [fitE, Bool.and_eq_true] at hf
    have ho : okE nt V .args a = true := by rcases h with h | h <;> simp only [okE, Bool.and_eq_true] at h <;> exact h.2
    exact call_view (ih.args ho P hf.1 n) hf.2 rfl rfl
  | un op e ih =>
    refine .plain rfl rfl (fun h P hf n => ?_) id
    have ho : okE nt V .val e = true := by rcases h with h | h <;> exact h
    intro a ha hb
    obtain ⟨a1, e1, r⟩ := ih.ve ho (P := P) hf n a ha hb
    have : ∃ o, Gen.unInstr op = .a1 o := by cases op <;> exact ⟨_, rfl⟩
    obtain ⟨o, hu⟩ := this
    refine ⟨⟨.free :: P, some P.length, sgh a1.g (Gen.unInstr op), false, true, false⟩, ?_, rfl, rfl, fun k hk hl => ?_, fun k hk => ?_, fun _ => ?_, nofun⟩
    · show views nt.cnt ((Gen.genE (Gen.gen nt e).bool n).1 ++ [Gen.unInstr op]) a = _
      rw [views_append, e1]
      simp only [Option.bind_some]
      rw [views1, hu]
      simp only [view, r.stk, r.h0, if_true]
    · cases hk; omega
    · cases hk; omega
    · cases op <;> exact ⟨_, rfl, Gh.le_refl _⟩
  | assV k v r ih =>
    refine .plain rfl rfl (fun h P hf n => ?_) id
    have ho : okE nt V .val (.assV k v r) = true := by rcases h with h | h <;> exact h
    simp only [okE, Bool.and_eq_true, Bool.or_eq_true, decide_eq_true_eq] at ho
    rcases ho.1.1 with (rfl | rfl) | rfl <;> simp only [fitE, Bool.and_eq_true] at hf
    · refine stV_view (ih.ve ho.2 hf.1 n) (i := .stL v) (fun a h1 h2 => ?_) rfl rfl rfl
      simp only [view, h1, h2, hf.2, Bool.and_self, if_true]; rfl
    · refine stV_view (ih.ve ho.2 hf.1 n) (i := .stP v) (fun a h1 h2 => ?_) rfl rfl rfl
      simp only [view, h1, h2, hf.2, Bool.and_self, if_true]; rfl
    · refine stV_view (ih.ve ho.2 hf.1 n) (i := .stG v) (fun a h1 h2 => ?_) rfl rfl rfl
      simp only [view, h1, h2, hf.2, Bool.and_self, if_true]; rfl
  | assM op a i r iha ihi ihr =>
    refine .plain rfl rfl (fun h P hf n => ?_) id
    have ho : okE nt V .val (.assM op a i r) = true := by rcases h with h | h <;> exact h
    simp only [okE, Bool.and_eq_true] at ho
    simp only [fitE, Bool.and_eq_true, Bool.or_eq_true, decide_eq_true_eq] at hf
    obtain ⟨⟨⟨f1, f2⟩, f3⟩, f4⟩ := hf
    have hr := ihr.ve ho.2 f1 n
    have ha := iha.ve ho.1.2 f2 (Gen.genE (Gen.gen nt r).bool n).2
    have idx : ∀ {ins : Instr} (_ : ins = .stW ∨ ins = .stB), okE nt V .val i = true → op ≠ .dot → VB nt.cnt (.assM op a i r) P
        ((Gen.genE (Gen.gen nt r).bool n).1 ++ ((Gen.genE (Gen.gen nt a).bool (Gen.genE (Gen.gen nt r).bool n).2).1 ++
          (Gen.genE (Gen.gen nt i).bool (Gen.genE (Gen.gen nt a).bool (Gen.genE (Gen.gen nt r).bool n).2).2).1 ++ []) ++ [ins]) .stkd := by
      intro ins hins hi hd
      rw [List.append_nil]
      exact stM_view hins hr ha (ihi.ve hi (f3.resolve_left hd) _) f4 rfl rfl rfl
    cases op <;> simp only [Bool.false_eq_true, false_and] at ho
    case dot =>
      obtain ⟨ix, rfl, -⟩ := fieldOk_iff ho.1.1
      refine stM_view (y := .cnst (nt.cnt ix)) (d := [.ldC (nt.cnt ix)]) (.inl rfl) hr ha ?_ f4 rfl rfl rfl
      exact VB.load (b := fun n => ([], .cnst (nt.cnt ix), n)) (n := 0) (var_view rfl rfl) nofun
    case idxr => exact idx (.inl rfl) ho.1.1 nofun
    case idxi => exact idx (.inl rfl) ho.1.1 nofun
    case idxc => exact idx (.inr rfl) ho.1.1 nofun
    case idxb => exact idx (.inr rfl) ho.1.1 nofun
  | bin op l r ihl ihr =>
    have arith : ∀ {b : Nat → BRes} (o : A2), Gen.genBin nt op l r (Gen.gen nt l) (Gen.gen nt r) = b →
        b = (if (Gen.isCommutativeOp op && decide (Gen.evalDepth l < Gen.evalDepth r)) = true then
            Gen.genTwo (Gen.gen nt r).bool (Gen.gen nt l).bool [.a2 o] .stkd
            else Gen.genTwo (Gen.gen nt l).bool (Gen.gen nt r).bool [.a2 o] .stkd) →
        op ≠ .semi → op ≠ .and → op ≠ .or → (∀ m, okE nt V m (.bin op l r) = (okE nt V .val l && okE nt V .val r)) →
        (∀ P, fitE nt.cnt P (.bin op l r) = (if (Gen.isCommutativeOp op && decide (Gen.evalDepth l < Gen.evalDepth r)) = true then
          fitE nt.cnt P r && fitE nt.cnt (descr nt.cnt r :: P) l else fitE nt.cnt P l && fitE nt.cnt (descr nt.cnt l :: P) r)) →
        descr nt.cnt (.bin op l r) = .free → (∀ g, flagE (.bin op l r) = some (sgh g (.a2 o))) → cmpTop (.bin op l r) = false →
        isCmp (.a2 o) = false → GoodV nt V (.bin op l r) := by
      intro b o h1 h2 hs ha ho hok hfit hd hf hc hi
      refine .binary hs ha ho (fun h P hfP n => ?_) (by rw [hok, hok]; exact id)
      have h : okE nt V .val l = true ∧ okE nt V .val r = true := by
        rcases h with h | h <;> rw [hok, Bool.and_eq_true] at h <;> exact h
      rw [h1, h2]
      rw [hfit] at hfP
      by_cases hsw : (Gen.isCommutativeOp op && decide (Gen.evalDepth l < Gen.evalDepth r)) = true
      · rw [if_pos hsw, Bool.and_eq_true] at hfP
        rw [if_pos hsw]
        exact two_view (ihr.ve h.2 hfP.1 n) (ihl.ve h.1 hfP.2 _) hd hf (by rw [hc, hi]) (fun hl => lit_code hl _)
          (fun hx => by rw [hi] at hx; cases hx)
      · rw [if_neg hsw, Bool.and_eq_true] at hfP
        rw [if_neg hsw]
        exact two_view (ihl.ve h.1 hfP.1 n) (ihr.ve h.2 hfP.2 _) hd hf (by rw [hc, hi]) (fun hl => lit_code hl _)
          (fun hx => by rw [hi] at hx; cases hx)
    have comp : ∀ {b : Nat → BRes} (o o' : A2), Gen.genBin nt op l r (Gen.gen nt l) (Gen.gen nt r) = b →
        b = (if decide (Gen.evalDepth l < Gen.evalDepth r) = true then Gen.genTwo (Gen.gen nt r).bool (Gen.gen nt l).bool [.a2 o] .stkd
            else Gen.genTwo (Gen.gen nt l).bool (Gen.gen nt r).bool [.a2 o'] .stkd) →
        op ≠ .semi → op ≠ .and → op ≠ .or → (∀ m, okE nt V m (.bin op l r) = (okE nt V .val l && okE nt V .val r)) →
        (∀ P, fitE nt.cnt P (.bin op l r) = (if Gen.evalDepth l < Gen.evalDepth r then
          fitE nt.cnt P r && fitE nt.cnt (descr nt.cnt r :: P) l && cmpOk nt.cnt op r l
          else fitE nt.cnt P l && fitE nt.cnt (descr nt.cnt l :: P) r && cmpOk nt.cnt op l r)) →
        descr nt.cnt (.bin op l r) = .free → (∀ g, flagE (.bin op l r) = some (sgh g (.a2 o)) ∧ flagE (.bin op l r) = some (sgh g (.a2 o'))) →
        cmpTop (.bin op l r) = true → isCmp (.a2 o) = true → isCmp (.a2 o') = true →
        (decide (o = .EQ) || decide (o = .NE)) = (decide (op = .equ) || decide (op = .neq)) →
        (decide (o' = .EQ) || decide (o' = .NE)) = (decide (op = .equ) || decide (op = .neq)) → GoodV nt V (.bin op l r) := by
      intro b o o' h1 h2 hs ha ho hok hfit hd hf hc hi hi' heq heq'
      refine .binary hs ha ho (fun h P hfP n => ?_) (by rw [hok, hok]; exact id)
      have h : okE nt V .val l = true ∧ okE nt V .val r = true := by
        rcases h with h | h <;> rw [hok, Bool.and_eq_true] at h <;> exact h
      rw [h1, h2]
      rw [hfit] at hfP
      by_cases hsw : Gen.evalDepth l < Gen.evalDepth r
      · rw [if_pos hsw, Bool.and_eq_true, Bool.and_eq_true] at hfP
        rw [if_pos (decide_eq_true hsw)]
        refine two_view (ihr.ve h.2 hfP.1.1 n) (ihl.ve h.1 hfP.1.2 _) hd (fun g => (hf g).1) (by rw [hc, hi]) (fun hl => lit_code hl _)
          (fun _ => ?_)
        rw [heq]
        simpa only [cmpOk, Bool.and_eq_true, Bool.or_eq_true (decide (_ ≠ _)), decide_eq_true_eq] using hfP.2
      · rw [if_neg hsw, Bool.and_eq_true, Bool.and_eq_true] at hfP
        rw [if_neg (by simpa using hsw)]
        refine two_view (ihl.ve h.1 hfP.1.1 n) (ihr.ve h.2 hfP.1.2 _) hd (fun g => (hf g).2) (by rw [hc, hi']) (fun hl => lit_code hl _)
          (fun _ => ?_)
        rw [heq']
        simpa only [cmpOk, Bool.and_eq_true, Bool.or_eq_true (decide (_ ≠ _)), decide_eq_true_eq] using hfP.2
    have index : ∀ (p : Place), p = .stkw ∨ p = .stkb →
        Gen.genBin nt op l r (Gen.gen nt l) (Gen.gen nt r) = Gen.genTwo (Gen.gen nt l).bool (Gen.gen nt r).bool [] p →
        op ≠ .semi → op ≠ .and → op ≠ .or →
        (∀ m, okE nt V m (.bin op l r) = (decide (m ≠ .void) && okE nt V .val l && okE nt V .val r)) →
        (∀ P, fitE nt.cnt P (.bin op l r) = (fitE nt.cnt P l && fitE nt.cnt (descr nt.cnt l :: P) r)) →
        descr nt.cnt (.bin op l r) = (descr nt.cnt l).deref → flagE (.bin op l r) = (flagE l).map (fun _ => .no) →
        cmpTop (.bin op l r) = false → GoodV nt V (.bin op l r) := by
      intro p hp h1 hs ha ho hok hfit hd hf hc
      refine .binary hs ha ho (fun h P hfP n => ?_) (by rw [hok, hok]; simp)
      have h : okE nt V .val l = true ∧ okE nt V .val r = true := by
        rcases h with h | h <;> rw [hok, Bool.and_eq_true, Bool.and_eq_true] at h <;> exact ⟨h.1.2, h.2⟩
      rw [hfit, Bool.and_eq_true] at hfP
      rw [h1]
      exact idx_view hp (ihl.ve h.1 hfP.1 n) (ihr.ve h.2 hfP.2 _) hd hf hc
    cases op
    case add => exact arith .ADD rfl rfl nofun nofun nofun (fun _ => rfl) (fun _ => rfl) rfl (fun _ => rfl) rfl rfl
    case sub => exact arith .SUB rfl rfl nofun nofun nofun (fun _ => rfl) (fun _ => rfl) rfl (fun _ => rfl) rfl rfl
    case shl => exact arith .SHL rfl rfl nofun nofun nofun (fun _ => rfl) (fun _ => rfl) rfl (fun _ => rfl) rfl rfl
    case shr => exact arith .SHR rfl rfl nofun nofun nofun (fun _ => rfl) (fun _ => rfl) rfl (fun _ => rfl) rfl rfl
    case band => exact arith .BAND rfl rfl nofun nofun nofun (fun _ => rfl) (fun _ => rfl) rfl (fun _ => rfl) rfl rfl
    case bxor => exact arith .BXOR rfl rfl nofun nofun nofun (fun _ => rfl) (fun _ => rfl) rfl (fun _ => rfl) rfl rfl
    case bor => exact arith .BOR rfl rfl nofun nofun nofun (fun _ => rfl) (fun _ => rfl) rfl (fun _ => rfl) rfl rfl
    case mul => exact arith .MUL rfl rfl nofun nofun nofun (fun _ => rfl) (fun _ => rfl) rfl (fun _ => rfl) rfl rfl
    case div => exact arith .DIV rfl rfl nofun nofun nofun (fun _ => rfl) (fun _ => rfl) rfl (fun _ => rfl) rfl rfl
    case mod => exact arith .MOD rfl rfl nofun nofun nofun (fun _ => rfl) (fun _ => rfl) rfl (fun _ => rfl) rfl rfl
    case gt => exact comp .LT .GT rfl rfl nofun nofun nofun (fun _ => rfl) (fun _ => rfl) rfl (fun _ => ⟨rfl, rfl⟩) rfl rfl rfl rfl rfl
    case ge => exact comp .LE .GE rfl rfl nofun nofun nofun (fun _ => rfl) (fun _ => rfl) rfl (fun _ => ⟨rfl, rfl⟩) rfl rfl rfl rfl rfl
    case lt => exact comp .GT .LT rfl rfl nofun nofun nofun (fun _ => rfl) (fun _ => rfl) rfl (fun _ => ⟨rfl, rfl⟩) rfl rfl rfl rfl rfl
    case le => exact comp .GE .LE rfl rfl nofun nofun nofun (fun _ => rfl) (fun _ => rfl) rfl (fun _ => ⟨rfl, rfl⟩) rfl rfl rfl rfl rfl
    case equ => exact comp .EQ .EQ rfl rfl nofun nofun nofun (fun _ => rfl) (fun _ => rfl) rfl (fun _ => ⟨rfl, rfl⟩) rfl rfl rfl rfl rfl
    case neq => exact comp .NE .NE rfl rfl nofun nofun nofun (fun _ => rfl) (fun _ => rfl) rfl (fun _ => ⟨rfl, rfl⟩) rfl rfl rfl rfl rfl
    case idxr => exact index .stkw (.inl rfl) rfl nofun nofun nofun (fun _ => rfl) (fun _ => rfl) rfl rfl rfl
    case idxi => exact index .stkw (.inl rfl) rfl nofun nofun nofun (fun _ => rfl) (fun _ => rfl) rfl rfl rfl
    case idxc => exact index .stkb (.inr rfl) rfl nofun nofun nofun (fun _ => rfl) (fun _ => rfl) rfl rfl rfl
    case idxb => exact index .stkb (.inr rfl) rfl nofun nofun nofun (fun _ => rfl) (fun _ => rfl) rfl rfl rfl
    case dot =>
      refine .binary nofun nofun nofun (fun h P hf n => ?_) (by simp [okE])
      have h : okE nt V .val l = true ∧ fieldOk r = true := by
        rcases h with h | h <;> simp only [okE, Bool.and_eq_true] at h <;> exact ⟨h.1.2, h.2⟩
      obtain ⟨ix, rfl, -⟩ := fieldOk_iff h.2
      have := idx_view (y := .cnst (nt.cnt ix)) (d := [.ldC (nt.cnt ix)]) (e := .bin .dot l (.cnst ix)) (.inl rfl) (ihl.ve h.1 (P := P) hf n)
        (VB.load (b := fun n => ([], .cnst (nt.cnt ix), n)) (n := 0) (var_view rfl rfl) nofun) rfl rfl rfl
      rw [List.append_nil] at this
      exact this
    case comm =>
      have key : ∀ {e' : Expr} {P : List D} {n : Nat} {c : List Instr} {p : Place}, okE nt V .void l = true → fitE nt.cnt P l = true →
          VB nt.cnt r P c p → VB nt.cnt (.bin .comm l r) P (((Gen.gen nt l).bool n).1 ++ Gen.popP ((Gen.gen nt l).bool n).2.1 ++ c) p := by
        intro e' P n c p ho hf hc a ha hb
        obtain ⟨a1, e1, q⟩ := ihl.vq ho hf n a ha hb
        obtain ⟨a2, e2, h2⟩ := hc a1 q.stk (q.below hb)
        refine ⟨a2, ?_, h2.mono q.pt rfl rfl rfl⟩
        rw [views_append, e1]
        exact e2
      refine ⟨fun h P hf n => ?_, fun h P hf n => ?_, fun h P hf n => ?_, fun _ _ h => absurd rfl h⟩ <;>
        simp only [fitE, Bool.and_eq_true] at hf <;> simp only [okE, reduceCtorEq, if_false, if_true, Bool.and_eq_true] at h
      · exact key (e' := r) h.1 hf.1 (ihr.val h.2 P hf.2 _)
      · exact key (e' := r) h.1 hf.1 (ihr.void h.2 P hf.2 _)
      · refine VE.pop (VB.load (e := .bin .comm l r) (b := (Gen.gen nt (.bin .comm l r)).bool) (n := n) ?_ ?_) (.inr (.inl rfl))
        · exact key (e' := r) h.1 hf.1 (ihr.val h.2 P hf.2 _)
        · exact place_val (V := V) (e := .bin .comm l r) (by simp [okE, h.1, h.2]) n
    case semi =>
      refine ⟨fun h => by simp [okE] at h, fun h => by simp [okE] at h, fun h P hf n => ?_, fun h => by simp [okE] at h⟩
      simp only [okE, decide_true, Bool.true_and, Bool.and_eq_true] at h
      simp only [fitE, Bool.and_eq_true] at hf
      exact (VE.pop (ihr.ve h.2 hf.2 n) (.inr (.inl rfl))).append (ihl.args h.1 P hf.1 _)
    case and =>
      refine ⟨fun h => by simp [okE] at h, fun h => by simp [okE] at h, fun h => by simp [okE] at h, fun h hf _ left A B n h2 => ?_⟩
      simp only [okE, decide_true, Bool.true_and, Bool.and_eq_true] at h
      simp only [fitE, Bool.and_eq_true] at hf
      exact log_vq ihl ihr h.1 h.2 hf.1.1.1 hf.1.1.2 hf.1.2 hf.2 left A B n h2
    case or =>
      refine ⟨fun h => by simp [okE] at h, fun h => by simp [okE] at h, fun h => by simp [okE] at h, fun h hf _ left A B n h2 => ?_⟩
      simp only [okE, decide_true, Bool.true_and, Bool.and_eq_true] at h
      simp only [fitE, Bool.and_eq_true] at hf
      exact log_vq ihl ihr h.1 h.2 hf.1.1.1 hf.1.1.2 hf.1.2 hf.2 left A B n h2

/-! ### Statements -/

theorem genX_vq {e : Expr} (ho : okE nt V .void e = true) (hf : fitE nt.cnt [] e = true) (n : Nat) : VQ nt.cnt [] (Gen.genX nt e n).1 :=
  (gen_view e).vq ho hf n

theorem genCnd_vq {e : Expr} (ho : okE nt V .cond e = true) (hf : fitE nt.cnt [] e = true) (ht : testOk e = true) (tf : Bool) (J : Gen.Lab) (n : Nat) :
    VQ nt.cnt [] (Gen.genCnd nt e tf J n).1 := by
  unfold Gen.genCnd
  cases hl : Gen.logOp e with
  | none => exact ((gen_view e).ve (okE_of_cond ho hl) hf n).test hl ht tf J _
  | some op =>
    dsimp only
    split
    · exact ((gen_view e).cond ho hf (by simp [hl]) _ _ _ _ (by omega)).append (vq_printLab _)
    · exact ((gen_view e).cond ho hf (by simp [hl]) _ _ _ _ (by omega)).append (vq_printLab _)

theorem genWhlEnd_vq (re : Option Expr) (h : ∀ e, re = some e → okE nt V .void e = true ∧ fitE nt.cnt [] e = true) (jb : Bool)
    (k : Option Nat) (loop n : Nat) : VQ nt.cnt [] (Gen.genWhlEnd nt re jb k loop n).1 := by
  cases re with
  | none => unfold Gen.genWhlEnd; dsimp only; split; exact .nil _; exact vq_jmp _
  | some e =>
    unfold Gen.genWhlEnd
    dsimp only
    split
    · exact ((vq_printLab _).append (genX_vq (h e rfl).1 (h e rfl).2 _)).append (vq_jmp _)
    · exact .nil _

theorem genS_vq (S : Stmt) : okS nt V S = true → fitS nt.cnt S = true → ∀ p t, VQ nt.cnt [] (Gen.genS nt p S t).1 := by
  induction S with
  | empty => intro _ _ p t; exact .nil _
  | exp e => intro h hf p t; exact genX_vq h hf _
  | ifs c a ih =>
    intro h hf p t
    simp only [okS, Bool.and_eq_true] at h
    simp only [fitS, Bool.and_eq_true] at hf
    exact (genCnd_vq h.1 hf.1.1 hf.1.2 _ _ _).append ((ih h.2 hf.2 _ _).append (vq_printLab _))
  | els c a b iha ihb =>
    intro h hf p t
    simp only [okS, Bool.and_eq_true] at h
    simp only [fitS, Bool.and_eq_true] at hf
    rw [Gen.genS]
    dsimp only
    split
    · exact (genCnd_vq h.1.1 hf.1.1.1 hf.1.1.2 _ _ _).append ((iha h.1.2 hf.1.2 _ _).append
        ((vq_printLab _).append (ihb h.2 hf.2 _ _)))
    · exact (genCnd_vq h.1.1 hf.1.1.1 hf.1.1.2 _ _ _).append ((iha h.1.2 hf.1.2 _ _).append
        ((vq_jmp _).append ((vq_printLab _).append ((ihb h.2 hf.2 _ _).append (vq_lab _)))))
  | whl c a re ih =>
    intro h hf p t
    simp only [okS, Bool.and_eq_true] at h
    simp only [fitS, Bool.and_eq_true] at hf
    rw [Gen.genS]
    dsimp only
    refine (vq_lab _).append (.append ?_ ((ih h.1.2 hf.1.2 _ _).append (.append ?_ (vq_printLab _))))
    · cases c with
      | none => exact .nil _
      | some c =>
        have := hf.1.1
        simp only [Option.all_some, Bool.and_eq_true] at this
        exact genCnd_vq h.1.1 this.1 this.2 _ _ _
    · refine genWhlEnd_vq (V := V) re (fun e he => ?_) _ _ _ _
      subst he
      exact ⟨h.2, hf.2⟩
  | dos a c ih =>
    intro h hf p t
    simp only [okS, Bool.and_eq_true] at h
    simp only [fitS, Bool.and_eq_true] at hf
    rw [Gen.genS]
    dsimp only
    exact (vq_lab _).append ((ih h.1 hf.1 _ _).append ((vq_printLab _).append
      ((genCnd_vq h.2 hf.2.1 hf.2.2 _ _ _).append (vq_printLab _))))
  | brk =>
    intro _ _ p t
    rw [Gen.genS]
    cases t.brk <;> exact vq_jmp _
  | cnt =>
    intro _ _ p t
    rw [Gen.genS]
    cases t.cnt <;> exact vq_jmp _
  | ret e =>
    intro h hf p t
    have hv : VQ nt.cnt [] (Gen.genRetV nt e t.n).1 := by
      cases e with
      | none => exact .nil _
      | some e => exact VE.pop ((gen_view e).ve h hf _) (.inr (.inr rfl))
    rw [Gen.genS]
    unfold Gen.genRet
    dsimp only
    split
    · cases t.ret <;> exact hv.append (vq_jmp _)
    · exact hv
  | seq k a b iha ihb =>
    intro h hf p t
    simp only [okS, Bool.and_eq_true] at h
    simp only [fitS, Bool.and_eq_true] at hf
    exact (iha h.1 hf.1 _ _).append (ihb h.2 hf.2 _ _)

end

end Cmm.Tac
