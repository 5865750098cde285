import Verif.Tac.Full
import Verif.Props.C46
import Mathlib.Tactic.Tauto

/-
The code of src/vmCode.c keeps the stack discipline that src/vm2tac.c needs (`Disc`, `shapesF`), for programs in which
&& and || are used as conditions only and no element of an array is read without use. For Verif/Props/C61.lean.
-/
namespace Cmm.Tac
open Cmm.Tree (Kind Bin Un Expr Stmt World)
open Cmm.Gen (Instr A1 A2 NT Place BRes G Mode Wf WfS)

/-! ### Syntactic conditions on the trees -/

section
variable (nt : NT) (V : Kind → Int → Bool)

/-- Field number of the right operand of SyDOT. -/
def fieldOk : Expr → Bool
  | .cnst idx => decide (0 ≤ idx) && decide (idx < 500)
  | _ => false

/-- The trees that the parser builds from a program without type errors (`Wf`), with && and || in conditions only, and
no value read from memory that is not used. `V` says which variables, strings and names there are. -/
def okE : Mode → Expr → Bool
  | _, .cnst _ => true
  | _, .leaf k n => decide (k ≠ .size) && V k n
  | m, .func0 f => V .addr f && (!nt.void f || decide (m = .void))
  | m, .func f a => (V .addr f && (!nt.void f || decide (m = .void))) && okE .args a
  | _, .un _ e => okE .val e
  | m, .bin op l r =>
    match op with
    | .semi => decide (m = .args) && okE .args l && okE .val r
    | .comm => okE .void l && okE (if m = .void then .void else .val) r
    | .dot => decide (m ≠ .void) && okE .val l && fieldOk r
    | .and | .or => decide (m = .cond) && okE .cond l && okE .cond r
    | .idxr | .idxi | .idxc | .idxb => decide (m ≠ .void) && okE .val l && okE .val r
    | _ => okE .val l && okE .val r
  | _, .assV k n r => (decide (k = .loc) || decide (k = .prm) || decide (k = .glb)) && V k n && okE .val r
  | _, .assM op a i r =>
    (match op with
     | .idxr | .idxi | .idxc | .idxb => okE .val i
     | .dot => fieldOk i
     | _ => false) && okE .val a && okE .val r

/-- Statements of such expressions. -/
def okS : Stmt → Bool
  | .empty | .brk | .cnt => true
  | .exp e => okE nt V .void e
  | .ifs c a => okE nt V .cond c && okS a
  | .els c a b => okE nt V .cond c && okS a && okS b
  | .whl c a re => c.all (okE nt V .cond) && okS a && re.all (okE nt V .void)
  | .dos a c => okS a && okE nt V .cond c
  | .ret e => e.all (okE nt V .val)
  | .seq _ a b => okS a && okS b

end

/-- Number of stack entries that are enough to compute an expression. -/
def need : Expr → Nat
  | .cnst _ | .leaf _ _ | .func0 _ => 1
  | .func _ a => max 1 (need a)
  | .un _ e => need e
  | .bin .semi l r => max (need r) (1 + need l)
  | .bin .comm l r | .bin .and l r | .bin .or l r => max (need l) (need r)
  | .bin _ l r => 1 + max (need l) (need r)
  | .assV _ _ r => need r
  | .assM _ a i r => max (need r) (2 + max (need a) (need i))

def needS : Stmt → Nat
  | .empty | .brk | .cnt => 0
  | .exp e => need e
  | .ifs c a => max (need c) (needS a)
  | .els c a b => max (need c) (max (needS a) (needS b))
  | .whl c a re => max (c.elim 0 need) (max (needS a) (re.elim 0 need))
  | .dos a c => max (needS a) (need c)
  | .ret e => e.elim 0 need
  | .seq _ a b => max (needS a) (needS b)

theorem need_pos (e : Expr) : 1 ≤ need e := by
  induction e with
  | bin op l r ihl ihr => cases op <;> simp only [need] <;> omega
  | _ => simp only [need] <;> omega

/-! ### The conditions of the code generator -/

section
variable {nt : NT} {V : Kind → Int → Bool} {σ : Type}

theorem fieldOk_iff {e : Expr} (h : fieldOk e = true) : ∃ idx, e = .cnst idx ∧ 0 ≤ idx ∧ idx < 500 := by
  cases e <;> simp_all [fieldOk]

theorem okE_wf (w : World σ) (e : Expr) : ∀ m, okE nt V m e = true → Wf w nt m e := by
  induction e with
  | cnst v => intros; trivial
  | leaf k n => intro m h; simp_all [okE, Wf]
  | func0 f => intro m h; simp_all [okE, Wf]; intro hv; simpa [hv] using h.2
  | func f a ih =>
    intro m h
    simp only [okE, Bool.and_eq_true, Bool.or_eq_true, Bool.not_eq_true', decide_eq_true_eq] at h
    refine ⟨fun hv => ?_, ih _ h.2⟩
    rcases h.1.2 with h | h
    · rw [hv] at h; cases h
    · exact h
  | un op e ih => intro m h; exact ih _ h
  | bin op l r ihl ihr =>
    intro m h
    cases op
    case dot =>
      simp only [okE, Bool.and_eq_true, decide_eq_true_eq] at h
      exact ⟨ihl _ h.1.2, fieldOk_iff h.2⟩
    case semi =>
      simp only [okE, Bool.and_eq_true, decide_eq_true_eq] at h
      exact ⟨h.1.1, ihl _ h.1.2, ihr _ h.2⟩
    case and =>
      simp only [okE, Bool.and_eq_true, decide_eq_true_eq] at h
      refine ⟨ihl _ h.1.2, ?_⟩
      rw [if_pos h.1.1]
      exact ihr _ h.2
    case or =>
      simp only [okE, Bool.and_eq_true, decide_eq_true_eq] at h
      refine ⟨ihl _ h.1.2, ?_⟩
      rw [if_pos h.1.1]
      exact ihr _ h.2
    all_goals
      simp only [okE, Bool.and_eq_true, decide_eq_true_eq] at h
      first
      | exact ⟨ihl _ h.1, ihr _ h.2⟩
      | exact ⟨ihl _ h.1.2, ihr _ h.2⟩
  | assV k n r ih =>
    intro m h
    simp only [okE, Bool.and_eq_true, Bool.or_eq_true, decide_eq_true_eq] at h
    exact ⟨by tauto, ih _ h.2⟩
  | assM op a i r iha ihi ihr =>
    intro m h
    cases op <;> simp only [okE, Bool.and_eq_true, Bool.false_and, Bool.false_eq_true] at h
    case dot =>
      obtain ⟨idx, rfl, h1⟩ := fieldOk_iff h.1.1
      exact ⟨.inr (.inr (.inr (.inr ⟨rfl, idx, rfl, h1⟩))), iha _ h.1.2, trivial, ihr _ h.2⟩
    all_goals exact ⟨by simp, iha _ h.1.2, ihi _ h.1.1, ihr _ h.2⟩

theorem okS_wf (w : World σ) (S : Stmt) : okS nt V S = true → WfS w nt S := by
  induction S with
  | empty => intro; trivial
  | brk => intro; trivial
  | cnt => intro; trivial
  | exp e => exact okE_wf w e _
  | ifs c a ih =>
    intro h
    simp only [okS, Bool.and_eq_true] at h
    exact ⟨okE_wf w c _ h.1, ih h.2⟩
  | els c a b iha ihb =>
    intro h
    simp only [okS, Bool.and_eq_true] at h
    exact ⟨okE_wf w c _ h.1.1, iha h.1.2, ihb h.2⟩
  | whl c a re ih =>
    intro h
    simp only [okS, Bool.and_eq_true] at h
    refine ⟨fun e he => ?_, ih h.1.2, fun e he => ?_⟩
    · subst he; exact okE_wf w e _ h.1.1
    · subst he; exact okE_wf w e _ h.2
  | dos a c ih =>
    intro h
    simp only [okS, Bool.and_eq_true] at h
    exact ⟨ih h.1, okE_wf w c _ h.2⟩
  | ret e => intro h x hx; subst hx; exact okE_wf w x _ h
  | seq k a b iha ihb =>
    intro h
    simp only [okS, Bool.and_eq_true] at h
    exact ⟨iha h.1, ihb h.2⟩

end

/-! ### Walking through the code -/

/-- The instruction uses a variable, a string or a name that exists, and a function called for its value returns one. -/
def useOk (nt : NT) (V : Kind → Int → Bool) : Instr → Bool
  | .ldG n | .stG n => V .glb n
  | .ldL n | .stL n => V .loc n
  | .ldP n | .stP n => V .prm n
  | .ldLab n => V .str n
  | .ldNam n => V .addr n
  | .callF _ f => V .addr f && !nt.void f
  | .callP _ f => V .addr f
  | _ => true

/-- The shape of the stack and the freshness of its top after the code, if the code keeps the discipline and the stack
never has more than `N` entries. -/
def trail (Q : Instr → Bool) (N : Nat) : List Instr → List Bool → Bool → Option (List Bool × Bool)
  | [], l, b => some (l, b)
  | i :: is, l, b =>
    if (uses (.i i) = true → b = true) ∧ Q i = true then
      match shapeF i l with
      | some l' => if l'.length ≤ N then trail Q N is l' (fresh (.i i) b) else none
      | none => none
    else none

section
variable {Q : Instr → Bool} {N : Nat}

theorem trail_append {c c' : List Instr} : ∀ {l b l' b'}, trail Q N c l b = some (l', b') →
    trail Q N (c ++ c') l b = trail Q N c' l' b' := by
  induction c with
  | nil => intro l b l' b' h; cases h; rfl
  | cons i c ih =>
    intro l b l' b' h
    rw [List.cons_append]
    simp only [trail] at h ⊢
    split
    · rename_i hc
      rw [if_pos hc] at h
      split
      · rename_i l1 hl
        rw [hl] at h
        simp only at h ⊢
        split
        · rename_i hn
          rw [if_pos hn] at h
          exact ih h
        · rename_i hn; rw [if_neg hn] at h; cases h
      · rename_i hl; rw [hl] at h; cases h
    · rename_i hc; rw [if_neg hc] at h; cases h

theorem trail_sound {c : List Instr} : ∀ {l b l' b'}, trail Q N c l b = some (l', b') →
    shapesF c l = some l' ∧ Disc b (c.map .i) ∧ (∀ i ∈ c, Q i = true) ∧
      (l.length ≤ N → ∀ n l1, shapesF (c.take n) l = some l1 → l1.length ≤ N) := by
  induction c with
  | nil =>
    intro l b l' b' h
    cases h
    refine ⟨rfl, trivial, by simp, fun hl n l1 h => ?_⟩
    simp only [List.take_nil, shapesF, Option.some.injEq] at h
    rw [← h]; exact hl
  | cons i c ih =>
    intro l b l' b' h
    simp only [trail] at h
    split at h
    · rename_i hc
      split at h
      · rename_i l1 hl
        split at h
        · rename_i hn
          obtain ⟨h1, h2, h3, h4⟩ := ih h
          refine ⟨?_, ⟨hc.1, h2⟩, ?_, ?_⟩
          · rw [shapesF, hl]; exact h1
          · intro j hj
            rcases List.mem_cons.1 hj with rfl | hj
            · exact hc.2
            · exact h3 j hj
          · intro hlen n l2 hs
            cases n with
            | zero => simp only [List.take_zero, shapesF, Option.some.injEq] at hs; rw [← hs]; exact hlen
            | succ n =>
              rw [List.take_succ_cons, shapesF, hl] at hs
              exact h4 hn n l2 hs
        · cases h
      · cases h
    · cases h

/-- One instruction. -/
theorem trail1 {i : Instr} {l l' : List Bool} {b : Bool} (hu : uses (.i i) = true → b = true) (hq : Q i = true)
    (hs : shapeF i l = some l') (hl : l'.length ≤ N) : trail Q N [i] l b = some (l', fresh (.i i) b) := by
  simp only [trail, hs]
  rw [if_pos ⟨hu, hq⟩, if_pos hl]

/-- Entries for a place. -/
def extOf : Place → List Bool
  | .stkd => [true]
  | .stkw | .stkb => [true, true]
  | _ => []

def stacked (p : Place) : Bool := decide (p = .stkd) || decide (p = .stkw) || decide (p = .stkb)

/-- The code of an operand leaves the entries of its place. -/
def WB (Q : Instr → Bool) (N k : Nat) (c : List Instr) (p : Place) : Prop :=
  ∀ (l : List Bool) (b : Bool), l.length + k ≤ N →
    ∃ b', trail Q N c l b = some (extOf p ++ l, b') ∧ (stacked p = true → b' = true)

/-- The code of an expression pushes one value. -/
def WE (Q : Instr → Bool) (N k : Nat) (c : List Instr) : Prop :=
  ∀ (l : List Bool) (b : Bool), l.length + k ≤ N → trail Q N c l b = some (true :: l, true)

/-- The code of arguments pushes `j` arguments. -/
def WA (Q : Instr → Bool) (N k : Nat) (c : List Instr) (j : Nat) : Prop :=
  ∀ (l : List Bool) (b : Bool), l.length + k ≤ N → ∃ b', trail Q N c l b = some (List.replicate j false ++ l, b')

/-- The code of a statement or condition begins and ends with an empty stack. -/
def WZ (Q : Instr → Bool) (N : Nat) (c : List Instr) : Prop := ∀ b, ∃ b', trail Q N c [] b = some ([], b')

theorem WZ.nil : WZ Q N [] := fun b => ⟨b, rfl⟩

theorem WZ.append {a c : List Instr} (h : WZ Q N a) (h' : WZ Q N c) : WZ Q N (a ++ c) := by
  intro b
  obtain ⟨b1, h1⟩ := h b
  obtain ⟨b2, h2⟩ := h' b1
  exact ⟨b2, by rw [trail_append h1, h2]⟩

theorem WE.one {k : Nat} {c d : List Instr} (h : WE Q N k c) (hk : k ≤ N)
    (hd : ∃ b', trail Q N d [true] true = some ([], b')) : WZ Q N (c ++ d) := by
  intro b
  obtain ⟨b', hd⟩ := hd
  exact ⟨b', by rw [trail_append (h [] b (by simpa using hk)), hd]⟩

end

section
variable {nt : NT} {V : Kind → Int → Bool} {N : Nat}

theorem wz_lab (n : Nat) : WZ (useOk nt V) N [.lab n] := fun b => ⟨_, trail1 (by simp [uses]) rfl rfl (Nat.zero_le _)⟩
theorem wz_jmp (n : Nat) : WZ (useOk nt V) N [.jmp n] := fun b => ⟨_, trail1 (by simp [uses]) rfl rfl (Nat.zero_le _)⟩
theorem wz_printLab (l : Option Nat) : WZ (useOk nt V) N (Gen.printLab l) := by
  cases l with
  | none => exact .nil
  | some k => exact wz_lab k

/-- Variables exist, if the place is one. -/
def placeOk (V : Kind → Int → Bool) : Place → Bool
  | .gvar n => V .glb n
  | .lvar n => V .loc n
  | .prm n => V .prm n
  | .str n => V .str n
  | .labl n => V .addr n
  | .inval => false
  | _ => true

theorem WB.load {k : Nat} {b : Nat → BRes} {n : Nat} (h : WB (useOk nt V) N k (b n).1 (b n).2.1) (hp : placeOk V (b n).2.1 = true) (hk : 1 ≤ k) :
    WE (useOk nt V) N k (Gen.genE b n).1 := by
  intro l b0 hl
  obtain ⟨b', h1, h2⟩ := h l b0 hl
  have hx : (Gen.genE b n).1 = (b n).1 ++ Gen.load (b n).2.1 := rfl
  rw [hx, trail_append h1]
  generalize (b n).2.1 = p at *
  cases p with
  | inval => cases hp
  | stkd => simp only [extOf, Gen.load, trail]; rw [h2 rfl]; rfl
  | stkw =>
    rw [h2 rfl]
    exact trail1 (fun _ => rfl) rfl rfl (by simp; omega)
  | stkb =>
    rw [h2 rfl]
    exact trail1 (fun _ => rfl) rfl rfl (by simp; omega)
  | gvar n => exact trail1 (by simp [uses]) hp rfl (by simp [extOf]; omega)
  | lvar n => exact trail1 (by simp [uses]) hp rfl (by simp [extOf]; omega)
  | prm n => exact trail1 (by simp [uses]) hp rfl (by simp [extOf]; omega)
  | str n => exact trail1 (by simp [uses]) hp rfl (by simp [extOf]; omega)
  | labl n => exact trail1 (by simp [uses]) hp rfl (by simp [extOf]; omega)
  | _ => exact trail1 (by simp [uses]) rfl rfl (by simp [extOf]; omega)

theorem WB.mono {k k' : Nat} {c : List Instr} {p : Place} (h : WB (useOk nt V) N k c p) (hk : k ≤ k') : WB (useOk nt V) N k' c p :=
  fun l b hl => h l b (by omega)

theorem WE.mono {k k' : Nat} {c : List Instr} (h : WE (useOk nt V) N k c) (hk : k ≤ k') : WE (useOk nt V) N k' c :=
  fun l b hl => h l b (by omega)

/-- Two operands. -/
theorem WE.two {k1 k2 : Nat} {c1 c2 : List Instr} (h1 : WE (useOk nt V) N k1 c1) (h2 : WE (useOk nt V) N k2 c2) {l : List Bool} (b : Bool)
    (hl : l.length + (1 + max k1 k2) ≤ N) : trail (useOk nt V) N (c1 ++ c2) l b = some (true :: true :: l, true) := by
  rw [trail_append (h1 l b (by omega)), h2 _ _ (by simp; omega)]

theorem two_wb {bl br : Nat → BRes} {k1 k2 n : Nat} (h1 : WE (useOk nt V) N k1 (Gen.genE bl n).1)
    (h2 : WE (useOk nt V) N k2 (Gen.genE br (Gen.genE bl n).2).1) (o : A2) :
    WB (useOk nt V) N (1 + max k1 k2) (Gen.genTwo bl br [.a2 o] .stkd n).1 .stkd := by
  intro l b hl
  refine ⟨true, ?_, fun _ => rfl⟩
  show trail (useOk nt V) N ((Gen.genE bl n).1 ++ (Gen.genE br (Gen.genE bl n).2).1 ++ [.a2 o]) l b = _
  rw [trail_append (h1.two h2 b hl)]
  exact trail1 (fun _ => rfl) rfl rfl (by simp [extOf]; omega)

theorem idx_wb {bl br : Nat → BRes} {k1 k2 n : Nat} (h1 : WE (useOk nt V) N k1 (Gen.genE bl n).1)
    (h2 : WE (useOk nt V) N k2 (Gen.genE br (Gen.genE bl n).2).1) {p : Place} (hp : p = .stkw ∨ p = .stkb) :
    WB (useOk nt V) N (1 + max k1 k2) (Gen.genTwo bl br [] p n).1 p := by
  intro l b hl
  refine ⟨true, ?_, fun _ => rfl⟩
  show trail (useOk nt V) N ((Gen.genE bl n).1 ++ (Gen.genE br (Gen.genE bl n).2).1 ++ []) l b = _
  rw [List.append_nil, h1.two h2 b hl]
  rcases hp with rfl | rfl <;> rfl

/-- What holds for the code of an expression, used as `m`. -/
structure GoodE (nt : NT) (V : Kind → Int → Bool) (N : Nat) (e : Expr) : Prop where
  val : okE nt V .val e = true → ∀ n, WB (useOk nt V) N (need e) ((Gen.gen nt e).bool n).1 ((Gen.gen nt e).bool n).2.1 ∧
    placeOk V ((Gen.gen nt e).bool n).2.1 = true
  void : okE nt V .void e = true → ∀ n, WB (useOk nt V) N (need e) ((Gen.gen nt e).bool n).1 ((Gen.gen nt e).bool n).2.1 ∧
    ((Gen.gen nt e).bool n).2.1 ≠ .stkw ∧ ((Gen.gen nt e).bool n).2.1 ≠ .stkb
  args : okE nt V .args e = true → ∀ n, WA (useOk nt V) N (need e) ((Gen.gen nt e).args n).1 ((Gen.gen nt e).args n).2.1
  cond : okE nt V .cond e = true → need e ≤ N → Gen.logOp e ≠ none → ∀ left A B n, 2 ≤ left →
    WZ (useOk nt V) N ((Gen.gen nt e).log left A B n).1

theorem GoodE.we {e : Expr} (h : GoodE nt V N e) (ho : okE nt V .val e = true) (n : Nat) :
    WE (useOk nt V) N (need e) (Gen.genE (Gen.gen nt e).bool n).1 :=
  (h.val ho n).1.load (h.val ho n).2 (need_pos e)

theorem argOne_wa {b : Nat → BRes} {k n : Nat} (h : WE (useOk nt V) N k (Gen.genE b n).1) (hk : 1 ≤ k) :
    WA (useOk nt V) N k (Gen.argOne b n).1 (Gen.argOne b n).2.1 := by
  intro l b0 hl
  refine ⟨false, ?_⟩
  show trail (useOk nt V) N ((Gen.genE b n).1 ++ [.arg]) l b0 = some (List.replicate 1 false ++ l, _)
  rw [trail_append (h l b0 hl)]
  exact trail1 (fun _ => rfl) rfl rfl (by simp; omega)

/-- An expression that is neither a list nor && nor ||. -/
theorem GoodE.plain {e : Expr} {b : Nat → BRes} (hg : Gen.gen nt e = .plain b) (hlog : Gen.logOp e = none)
    (hv : okE nt V .val e = true → ∀ n, WB (useOk nt V) N (need e) (b n).1 (b n).2.1 ∧ placeOk V (b n).2.1 = true)
    (hd : okE nt V .void e = true → ∀ n, WB (useOk nt V) N (need e) (b n).1 (b n).2.1 ∧ (b n).2.1 ≠ .stkw ∧ (b n).2.1 ≠ .stkb)
    (ha : okE nt V .args e = true → okE nt V .val e = true) : GoodE nt V N e := by
  refine ⟨?_, ?_, ?_, fun _ _ h => absurd hlog h⟩
  · rw [hg]; exact hv
  · rw [hg]; exact hd
  · rw [hg]
    intro ho n
    have := hv (ha ho) n
    exact argOne_wa (this.1.load this.2 (need_pos e)) (need_pos e)

theorem GoodE.binary {op : Bin} {l r : Expr} (h1 : op ≠ .semi) (h2 : op ≠ .and) (h3 : op ≠ .or)
    (hv : okE nt V .val (.bin op l r) = true → ∀ n, WB (useOk nt V) N (need (.bin op l r))
      (Gen.genBin nt op l r (Gen.gen nt l) (Gen.gen nt r) n).1 (Gen.genBin nt op l r (Gen.gen nt l) (Gen.gen nt r) n).2.1 ∧
      placeOk V (Gen.genBin nt op l r (Gen.gen nt l) (Gen.gen nt r) n).2.1 = true)
    (hd : okE nt V .void (.bin op l r) = true → ∀ n, WB (useOk nt V) N (need (.bin op l r))
      (Gen.genBin nt op l r (Gen.gen nt l) (Gen.gen nt r) n).1 (Gen.genBin nt op l r (Gen.gen nt l) (Gen.gen nt r) n).2.1 ∧
      (Gen.genBin nt op l r (Gen.gen nt l) (Gen.gen nt r) n).2.1 ≠ .stkw ∧
      (Gen.genBin nt op l r (Gen.gen nt l) (Gen.gen nt r) n).2.1 ≠ .stkb)
    (ha : okE nt V .args (.bin op l r) = true → okE nt V .val (.bin op l r) = true) : GoodE nt V N (.bin op l r) := by
  refine ⟨hv, hd, fun ho n => ?_, fun _ _ h => ?_⟩
  · have hx : (Gen.gen nt (.bin op l r)).args = Gen.argOne (Gen.genBin nt op l r (Gen.gen nt l) (Gen.gen nt r)) := by
      cases op <;> first | rfl | exact absurd rfl h1
    rw [hx]
    have := hv (ha ho) n
    exact argOne_wa (this.1.load this.2 (need_pos _)) (need_pos _)
  · exfalso
    cases op <;> first | exact h rfl | exact h2 rfl | exact h3 rfl

theorem call_walk {f : Int} {j k : Nat} {c : List Instr} (hf : V .addr f = true) (hk : 1 ≤ k) (h : WA (useOk nt V) N k c j) :
    WB (useOk nt V) N k (c ++ (Gen.callCode nt f j).1) (Gen.callCode nt f j).2 := by
  intro l b hl
  obtain ⟨b', h1⟩ := h l b hl
  rw [trail_append h1]
  have ht : (List.replicate j false ++ l).take j = List.replicate j false := by simp
  have hdr : (List.replicate j false ++ l).drop j = l := by simp
  unfold Gen.callCode
  by_cases hv : nt.void f = true
  · simp only [hv, if_true]
    refine ⟨false, trail1 (by simp [uses]) hf ?_ (by simp [extOf]; omega), by simp [stacked]⟩
    · simp only [shapeF, shape, ht, hdr, if_true, extOf, List.nil_append]
  · simp only [hv]
    refine ⟨true, trail1 (by simp [uses]) (by simp [useOk, hv, hf]) ?_ (l' := true :: l) (by simp; omega), fun _ => rfl⟩
    · simp only [shapeF, shape, ht, hdr, if_true]

/-- Jump after a term. -/
theorem boolJmp_walk (tf : Bool) (l : Gen.Lab) (n : Nat) : ∃ b', trail (useOk nt V) N (Gen.boolJmp tf l n).1 [true] true = some ([], b') := by
  unfold Gen.boolJmp
  cases l.no <;> cases tf <;> exact ⟨_, trail1 (fun _ => rfl) rfl rfl (Nat.zero_le _)⟩

theorem okE_of_cond {e : Expr} (h : okE nt V .cond e = true) (hl : Gen.logOp e = none) : okE nt V .val e = true := by
  cases e with
  | bin op l r => cases op <;> simp_all [okE, Gen.logOp]
  | _ => simp_all [okE]

/-- && and || as conditions. -/
theorem log_wz {op : Bin} {l r : Expr} (hl : GoodE nt V N l) (hr : GoodE nt V N r) (ol : okE nt V .cond l = true)
    (or' : okE nt V .cond r = true) (hn : max (need l) (need r) ≤ N) (left : Nat) (A B : Gen.Lab) (n : Nat) (h2 : 2 ≤ left) :
    WZ (useOk nt V) N (Gen.genLogExpr op (Gen.logOp l) (Gen.logOp r) (Gen.gen nt l) (Gen.gen nt r) left A B n).1 := by
  have one : ∀ {e : Expr}, GoodE nt V N e → okE nt V .cond e = true → need e ≤ N → Gen.logOp e = none → ∀ n tf A m,
      WZ (useOk nt V) N ((Gen.genE (Gen.gen nt e).bool n).1 ++ (Gen.boolJmp tf A m).1) := by
    intro e he oe ne hlog n tf A m
    exact (he.we (okE_of_cond oe hlog) n).one ne (boolJmp_walk tf A m)
  have hL : WZ (useOk nt V) N (Gen.genLogL op (Gen.logOp l) (Gen.gen nt l) left A n).1 := by
    unfold Gen.genLogL
    cases hlog : Gen.logOp l with
    | none => exact one hl ol (by omega) hlog _ _ _ _
    | some lop =>
      dsimp only
      split
      · exact (hl.cond ol (by omega) (by simp [hlog]) _ _ _ _ (by omega)).append (wz_printLab _)
      · exact (hl.cond ol (by omega) (by simp [hlog]) _ _ _ _ (by omega)).append (wz_printLab _)
  have hR : ∀ A B n, WZ (useOk nt V) N (Gen.genLogR op (Gen.logOp r) (Gen.gen nt r) left A B n).1 := by
    intro A B n
    unfold Gen.genLogR
    cases hlog : Gen.logOp r with
    | none =>
      dsimp only
      rw [if_pos h2]
      split
      · exact one hr or' (by omega) hlog _ _ _ _
      · exact one hr or' (by omega) hlog _ _ _ _
    | some rop =>
      dsimp only
      split
      · exact hr.cond or' (by omega) (by simp [hlog]) _ _ _ _ h2
      · exact hr.cond or' (by omega) (by simp [hlog]) _ _ _ _ h2
  exact hL.append (hR _ _ _)

theorem leaf_wb {k : Kind} {v : Int} {n : Nat} {j : Nat} (hk : k ≠ .size) (hv : V k v = true) :
    WB (useOk nt V) N j (Gen.leafPlace k v ([], .inval, n)).1 (Gen.leafPlace k v ([], .inval, n)).2.1 ∧
      placeOk V (Gen.leafPlace k v ([], .inval, n)).2.1 = true := by
  cases k <;> first
    | exact absurd rfl hk
    | exact ⟨fun l b _ => ⟨b, rfl, by simp [Gen.leafPlace, stacked]⟩, hv⟩
    | exact ⟨fun l b _ => ⟨b, rfl, by simp [Gen.leafPlace, stacked]⟩, rfl⟩

theorem genLog_bool {op : Bin} {l r : Expr} (hop : op = .or ∨ op = .and) {m : Mode} (hm : m ≠ .cond) :
    okE nt V m (.bin op l r) = false := by
  rcases hop with rfl | rfl <;> simp [okE, hm]

theorem gen_good (e : Expr) : GoodE nt V N e := by
  induction e with
  | cnst v =>
    exact .plain rfl rfl (fun _ n => ⟨fun l b _ => ⟨b, rfl, nofun⟩, rfl⟩) (fun _ n => ⟨fun l b _ => ⟨b, rfl, nofun⟩, nofun, nofun⟩) id
  | leaf k v =>
    refine .plain rfl rfl (fun h n => ?_) (fun h n => ?_) id
    · simp only [okE, Bool.and_eq_true, decide_eq_true_eq] at h
      exact leaf_wb h.1 h.2
    · simp only [okE, Bool.and_eq_true, decide_eq_true_eq] at h
      refine ⟨(leaf_wb h.1 h.2).1, ?_⟩
      cases k <;> simp [Gen.leafPlace]
  | func0 f =>
    have key : ∀ m, okE nt V m (.func0 f) = true → ∀ j, 1 ≤ j → WB (useOk nt V) N j (Gen.callCode nt f 0).1 (Gen.callCode nt f 0).2 :=
      fun m ho j hj => by
        simp only [okE, Bool.and_eq_true] at ho
        exact call_walk (c := []) (j := 0) ho.1 hj fun l b _ => ⟨b, rfl⟩
    refine .plain rfl rfl (fun h n => ⟨key _ h _ (Nat.le_refl _), ?_⟩) (fun h n => ⟨key _ h _ (Nat.le_refl _), ?_⟩) ?_
    · simp only [okE, Bool.and_eq_true, Bool.or_eq_true, Bool.not_eq_true', decide_eq_true_eq, reduceCtorEq, or_false] at h
      simp [Gen.callCode, h.2, placeOk]
    · unfold Gen.callCode; split <;> simp
    · simp [okE]
  | func f a ih =>
    have key : V .addr f = true → okE nt V .args a = true → ∀ n, WB (useOk nt V) N (max 1 (need a))
        (((Gen.gen nt a).args n).1 ++ (Gen.callCode nt f ((Gen.gen nt a).args n).2.1).1)
        (Gen.callCode nt f ((Gen.gen nt a).args n).2.1).2 := by
      intro hf ho n
      refine call_walk hf (by omega) fun l b hl => ih.args ho n l b (by omega)
    refine .plain rfl rfl (fun h n => ?_) (fun h n => ?_) ?_
    · simp only [okE, Bool.and_eq_true, Bool.or_eq_true, Bool.not_eq_true', decide_eq_true_eq, reduceCtorEq, or_false] at h
      refine ⟨key h.1.1 h.2 n, ?_⟩
      simp [Gen.callCode, h.1.2, placeOk]
    · simp only [okE, Bool.and_eq_true] at h
      refine ⟨key h.1.1 h.2 n, ?_⟩
      dsimp only
      unfold Gen.callCode; split <;> simp
    · simp [okE]
  | un op e ih =>
    have key : okE nt V .val e = true → ∀ n, WB (useOk nt V) N (need e) ((Gen.genE (Gen.gen nt e).bool n).1 ++ [Gen.unInstr op]) .stkd := by
      intro ho n l b hl
      refine ⟨true, ?_, fun _ => rfl⟩
      have := need_pos e
      rw [trail_append (ih.we ho n l b hl)]
      cases op <;> exact trail1 (fun _ => rfl) rfl rfl (by simp [extOf]; omega)
    exact .plain rfl rfl (fun h n => ⟨key h n, rfl⟩) (fun h n => ⟨key h n, nofun, nofun⟩) id
  | assV k v r ih =>
    have key : okE nt V .val (.assV k v r) = true → ∀ n, WB (useOk nt V) N (need r)
        (Gen.genAsExpr (fun n => Gen.leafPlace k v ([], .inval, n)) (Gen.gen nt r).bool n).1
        (Gen.genAsExpr (fun n => Gen.leafPlace k v ([], .inval, n)) (Gen.gen nt r).bool n).2.1 := by
      intro h n l b hl
      simp only [okE, Bool.and_eq_true, Bool.or_eq_true, decide_eq_true_eq] at h
      refine ⟨true, ?_, fun _ => rfl⟩
      have := need_pos r
      have hw := ih.we h.2 n l b hl
      rcases h.1.1 with (rfl | rfl) | rfl
      · show trail (useOk nt V) N ((Gen.genE (Gen.gen nt r).bool n).1 ++ [] ++ [.stL v]) l b = _
        rw [List.append_nil, trail_append hw]
        exact trail1 (fun _ => rfl) h.1.2 rfl (by simp [extOf, Gen.genAsExpr]; omega)
      · show trail (useOk nt V) N ((Gen.genE (Gen.gen nt r).bool n).1 ++ [] ++ [.stP v]) l b = _
        rw [List.append_nil, trail_append hw]
        exact trail1 (fun _ => rfl) h.1.2 rfl (by simp [extOf, Gen.genAsExpr]; omega)
      · show trail (useOk nt V) N ((Gen.genE (Gen.gen nt r).bool n).1 ++ [] ++ [.stG v]) l b = _
        rw [List.append_nil, trail_append hw]
        exact trail1 (fun _ => rfl) h.1.2 rfl (by simp [extOf, Gen.genAsExpr]; omega)
    exact .plain rfl rfl (fun h n => ⟨key h n, rfl⟩) (fun h n => ⟨key h n, nofun, nofun⟩) id
  | assM op a i r iha ihi ihr =>
    have key : okE nt V .val (.assM op a i r) = true → ∀ n, WB (useOk nt V) N (need (.assM op a i r))
        (Gen.genAsExpr (Gen.genBin nt op a i (Gen.gen nt a) (Gen.gen nt i)) (Gen.gen nt r).bool n).1
        (Gen.genAsExpr (Gen.genBin nt op a i (Gen.gen nt a) (Gen.gen nt i)) (Gen.gen nt r).bool n).2.1 := by
      intro h n l b hl
      simp only [need] at hl
      refine ⟨true, ?_, fun _ => rfl⟩
      have n1 := need_pos r
      have n2 := need_pos a
      have n3 := need_pos i
      simp only [okE, Bool.and_eq_true] at h
      have hw := ihr.we h.2 n l b (by omega)
      have ha := iha.we h.1.2 (Gen.genE (Gen.gen nt r).bool n).2 (true :: l) true (by simp; omega)
      have idx : okE nt V .val i = true → trail (useOk nt V) N
          ((Gen.genE (Gen.gen nt r).bool n).1 ++ ((Gen.genE (Gen.gen nt a).bool (Gen.genE (Gen.gen nt r).bool n).2).1 ++
            (Gen.genE (Gen.gen nt i).bool (Gen.genE (Gen.gen nt a).bool (Gen.genE (Gen.gen nt r).bool n).2).2).1 ++ [])) l b =
          some (true :: true :: true :: l, true) := by
        intro hi
        rw [trail_append hw, List.append_nil, trail_append ha]
        exact ihi.we hi _ _ _ (by simp; omega)
      cases op <;> simp only [Bool.false_eq_true, false_and] at h
      case dot =>
        obtain ⟨ix, rfl, -⟩ := fieldOk_iff h.1.1
        show trail (useOk nt V) N ((Gen.genE (Gen.gen nt r).bool n).1 ++
          ((Gen.genE (Gen.gen nt a).bool (Gen.genE (Gen.gen nt r).bool n).2).1 ++ [.ldC (nt.cnt ix)]) ++ [.stW]) l b = _
        rw [List.append_assoc, trail_append hw, List.append_assoc, trail_append ha,
          trail_append (trail1 (l' := true :: true :: true :: l) (by simp [uses]) rfl rfl (by simp; omega))]
        exact trail1 (fun _ => rfl) rfl rfl (by simp [extOf, Gen.genAsExpr]; omega)
      case idxr =>
        exact (trail_append (idx h.1.1)).trans (trail1 (i := .stW) (fun _ => rfl) rfl rfl (by simp [extOf, Gen.genAsExpr]; omega))
      case idxi =>
        exact (trail_append (idx h.1.1)).trans (trail1 (i := .stW) (fun _ => rfl) rfl rfl (by simp [extOf, Gen.genAsExpr]; omega))
      case idxc =>
        exact (trail_append (idx h.1.1)).trans (trail1 (i := .stB) (fun _ => rfl) rfl rfl (by simp [extOf, Gen.genAsExpr]; omega))
      case idxb =>
        exact (trail_append (idx h.1.1)).trans (trail1 (i := .stB) (fun _ => rfl) rfl rfl (by simp [extOf, Gen.genAsExpr]; omega))
    exact .plain rfl rfl (fun h n => ⟨key h n, rfl⟩) (fun h n => ⟨key h n, nofun, nofun⟩) id
  | bin op l r ihl ihr =>
    have n1 := need_pos l
    have n2 := need_pos r
    have two : okE nt V .val l = true → okE nt V .val r = true → ∀ (c : Bool) (o o' : A2) n,
        WB (useOk nt V) N (1 + max (need l) (need r))
          ((if c = true then Gen.genTwo (Gen.gen nt r).bool (Gen.gen nt l).bool [.a2 o] .stkd
            else Gen.genTwo (Gen.gen nt l).bool (Gen.gen nt r).bool [.a2 o'] .stkd) n).1
          ((if c = true then Gen.genTwo (Gen.gen nt r).bool (Gen.gen nt l).bool [.a2 o] .stkd
            else Gen.genTwo (Gen.gen nt l).bool (Gen.gen nt r).bool [.a2 o'] .stkd) n).2.1 ∧
        ((if c = true then Gen.genTwo (Gen.gen nt r).bool (Gen.gen nt l).bool [.a2 o] .stkd
            else Gen.genTwo (Gen.gen nt l).bool (Gen.gen nt r).bool [.a2 o'] .stkd) n).2.1 = .stkd := by
      intro hl hr c o o' n
      cases c with
      | false => exact ⟨two_wb (ihl.we hl n) (ihr.we hr _) o', rfl⟩
      | true => exact ⟨(two_wb (ihr.we hr n) (ihl.we hl _) o).mono (by omega), rfl⟩
    have arith : ∀ {b : Nat → BRes} (c : Bool) (o o' : A2), Gen.genBin nt op l r (Gen.gen nt l) (Gen.gen nt r) = b →
        b = (if c = true then Gen.genTwo (Gen.gen nt r).bool (Gen.gen nt l).bool [.a2 o] .stkd
            else Gen.genTwo (Gen.gen nt l).bool (Gen.gen nt r).bool [.a2 o'] .stkd) →
        op ≠ .semi → op ≠ .and → op ≠ .or → (∀ m, okE nt V m (.bin op l r) = (okE nt V .val l && okE nt V .val r)) →
        need (.bin op l r) = 1 + max (need l) (need r) → GoodE nt V N (.bin op l r) := by
      intro b c o o' h1 h2 hs ha ho hok hn
      refine .binary hs ha ho (fun h n => ?_) (fun h n => ?_) (by rw [hok, hok]; exact id)
      · rw [hok, Bool.and_eq_true] at h
        rw [h1, h2, hn]
        obtain ⟨h3, h4⟩ := two h.1 h.2 c o o' n
        exact ⟨h3, by rw [h4]; rfl⟩
      · rw [hok, Bool.and_eq_true] at h
        rw [h1, h2, hn]
        obtain ⟨h3, h4⟩ := two h.1 h.2 c o o' n
        exact ⟨h3, by rw [h4]; simp, by rw [h4]; simp⟩
    have index : ∀ (p : Place), p = .stkw ∨ p = .stkb →
        Gen.genBin nt op l r (Gen.gen nt l) (Gen.gen nt r) = Gen.genTwo (Gen.gen nt l).bool (Gen.gen nt r).bool [] p →
        op ≠ .semi → op ≠ .and → op ≠ .or →
        (∀ m, okE nt V m (.bin op l r) = (decide (m ≠ .void) && okE nt V .val l && okE nt V .val r)) →
        need (.bin op l r) = 1 + max (need l) (need r) → GoodE nt V N (.bin op l r) := by
      intro p hp h1 hs ha ho hok hn
      refine .binary hs ha ho (fun h n => ?_) (fun h n => ?_) (by rw [hok, hok]; simp)
      · rw [hok] at h
        simp only [ne_eq, reduceCtorEq, not_false_eq_true, decide_true, Bool.true_and, Bool.and_eq_true] at h
        rw [h1, hn]
        refine ⟨idx_wb (ihl.we h.1 n) (ihr.we h.2 _) hp, ?_⟩
        rcases hp with rfl | rfl <;> rfl
      · rw [hok] at h; simp at h
    cases op
    case add => exact arith _ .ADD .ADD rfl rfl nofun nofun nofun (fun _ => rfl) rfl
    case sub => exact arith false .SUB .SUB rfl rfl nofun nofun nofun (fun _ => rfl) rfl
    case shl => exact arith false .SHL .SHL rfl rfl nofun nofun nofun (fun _ => rfl) rfl
    case shr => exact arith false .SHR .SHR rfl rfl nofun nofun nofun (fun _ => rfl) rfl
    case band => exact arith _ .BAND .BAND rfl rfl nofun nofun nofun (fun _ => rfl) rfl
    case bxor => exact arith _ .BXOR .BXOR rfl rfl nofun nofun nofun (fun _ => rfl) rfl
    case bor => exact arith _ .BOR .BOR rfl rfl nofun nofun nofun (fun _ => rfl) rfl
    case mul => exact arith _ .MUL .MUL rfl rfl nofun nofun nofun (fun _ => rfl) rfl
    case div => exact arith false .DIV .DIV rfl rfl nofun nofun nofun (fun _ => rfl) rfl
    case mod => exact arith false .MOD .MOD rfl rfl nofun nofun nofun (fun _ => rfl) rfl
    case gt => exact arith _ .LT .GT rfl rfl nofun nofun nofun (fun _ => rfl) rfl
    case ge => exact arith _ .LE .GE rfl rfl nofun nofun nofun (fun _ => rfl) rfl
    case lt => exact arith _ .GT .LT rfl rfl nofun nofun nofun (fun _ => rfl) rfl
    case le => exact arith _ .GE .LE rfl rfl nofun nofun nofun (fun _ => rfl) rfl
    case equ => exact arith _ .EQ .EQ rfl rfl nofun nofun nofun (fun _ => rfl) rfl
    case neq => exact arith _ .NE .NE rfl rfl nofun nofun nofun (fun _ => rfl) rfl
    case idxr => exact index .stkw (.inl rfl) rfl nofun nofun nofun (fun _ => rfl) rfl
    case idxi => exact index .stkw (.inl rfl) rfl nofun nofun nofun (fun _ => rfl) rfl
    case idxc => exact index .stkb (.inr rfl) rfl nofun nofun nofun (fun _ => rfl) rfl
    case idxb => exact index .stkb (.inr rfl) rfl nofun nofun nofun (fun _ => rfl) rfl
    case dot =>
      refine .binary nofun nofun nofun (fun h n => ?_) (fun h n => ?_) (by simp [okE])
      · simp only [okE, ne_eq, reduceCtorEq, not_false_eq_true, decide_true, Bool.true_and, Bool.and_eq_true] at h
        obtain ⟨ix, rfl, -⟩ := fieldOk_iff h.2
        refine ⟨fun lst b hl => ⟨true, ?_, fun _ => rfl⟩, rfl⟩
        simp only [need] at hl
        show trail (useOk nt V) N ((Gen.genE (Gen.gen nt l).bool n).1 ++ [.ldC (nt.cnt ix)]) lst b = some (true :: true :: lst, _)
        rw [trail_append (ihl.we h.1 n lst b (by omega))]
        exact trail1 (by simp [uses]) rfl rfl (by simp; omega)
      · simp [okE] at h
    case comm =>
      have key : okE nt V .void l = true → ∀ n, ∀ c p, WB (useOk nt V) N (need r) c p →
          WB (useOk nt V) N (max (need l) (need r)) (((Gen.gen nt l).bool n).1 ++ Gen.popP ((Gen.gen nt l).bool n).2.1 ++ c) p := by
        intro ho n c p hc lst b hl
        obtain ⟨h1, h2, h3⟩ := ihl.void ho n
        obtain ⟨b1, h4, h5⟩ := h1 lst b (by omega)
        rw [List.append_assoc, trail_append h4]
        generalize ((Gen.gen nt l).bool n).2.1 = q at *
        cases q with
        | stkw => exact absurd rfl h2
        | stkb => exact absurd rfl h3
        | stkd =>
          rw [h5 rfl]
          have : trail (useOk nt V) N (Gen.popP .stkd) (extOf .stkd ++ lst) true = some (lst, false) :=
            trail1 (fun _ => rfl) rfl rfl (by omega)
          rw [trail_append this]
          exact hc lst _ (by omega)
        | _ => exact hc lst _ (by omega)
      refine .binary nofun nofun nofun (fun h n => ?_) (fun h n => ?_) (by simp [okE])
      · simp only [okE, reduceCtorEq, if_false, Bool.and_eq_true] at h
        obtain ⟨h1, h2⟩ := ihr.val h.2 ((Gen.gen nt l).bool n).2.2
        exact ⟨key h.1 n _ _ h1, h2⟩
      · simp only [okE, if_true, Bool.and_eq_true] at h
        obtain ⟨h1, h2⟩ := ihr.void h.2 ((Gen.gen nt l).bool n).2.2
        exact ⟨key h.1 n _ _ h1, h2⟩
    case semi =>
      refine ⟨fun h => by simp [okE] at h, fun h => by simp [okE] at h, fun h n => ?_, fun h => by simp [okE] at h⟩
      simp only [okE, decide_true, Bool.true_and, Bool.and_eq_true] at h
      intro lst b hl
      simp only [need] at hl
      show ∃ b', trail (useOk nt V) N ((Gen.genE (Gen.gen nt r).bool n).1 ++ [.arg] ++
        ((Gen.gen nt l).args (Gen.genE (Gen.gen nt r).bool n).2).1) lst b =
          some (List.replicate (((Gen.gen nt l).args (Gen.genE (Gen.gen nt r).bool n).2).2.1 + 1) false ++ lst, b')
      obtain ⟨b', h2⟩ := ihl.args h.1 (Gen.genE (Gen.gen nt r).bool n).2 (false :: lst) false (by simp; omega)
      refine ⟨b', ?_⟩
      rw [List.append_assoc, trail_append (ihr.we h.2 n lst b (by omega)),
        trail_append (trail1 (l' := false :: lst) (fun _ => rfl) rfl rfl (by simp; omega))]
      rw [List.replicate_succ', List.append_assoc]
      exact h2
    case and =>
      refine ⟨fun h => by simp [okE] at h, fun h => by simp [okE] at h, fun h => by simp [okE] at h, fun h hn _ left A B n h2 => ?_⟩
      simp only [okE, decide_true, Bool.true_and, Bool.and_eq_true] at h
      exact log_wz ihl ihr h.1 h.2 hn left A B n h2
    case or =>
      refine ⟨fun h => by simp [okE] at h, fun h => by simp [okE] at h, fun h => by simp [okE] at h, fun h hn _ left A B n h2 => ?_⟩
      simp only [okE, decide_true, Bool.true_and, Bool.and_eq_true] at h
      exact log_wz ihl ihr h.1 h.2 hn left A B n h2

/-! ### Statements -/

theorem genX_wz {e : Expr} (ho : okE nt V .void e = true) (hn : need e ≤ N) (n : Nat) : WZ (useOk nt V) N (Gen.genX nt e n).1 := by
  intro b
  obtain ⟨h1, h2, h3⟩ := (gen_good (N := N) e).void ho n
  obtain ⟨b1, h4, h5⟩ := h1 [] b (by simpa using hn)
  unfold Gen.genX
  dsimp only
  rw [trail_append h4]
  generalize ((Gen.gen nt e).bool n).2.1 = q at *
  cases q with
  | stkw => exact absurd rfl h2
  | stkb => exact absurd rfl h3
  | stkd => rw [h5 rfl]; exact ⟨_, trail1 (fun _ => rfl) rfl rfl (Nat.zero_le _)⟩
  | _ => exact ⟨_, rfl⟩

theorem genCnd_wz {e : Expr} (ho : okE nt V .cond e = true) (hn : need e ≤ N) (tf : Bool) (J : Gen.Lab) (n : Nat) :
    WZ (useOk nt V) N (Gen.genCnd nt e tf J n).1 := by
  unfold Gen.genCnd
  cases hl : Gen.logOp e with
  | none => exact ((gen_good e).we (okE_of_cond ho hl) n).one hn (boolJmp_walk tf J _)
  | some op =>
    dsimp only
    split
    · exact ((gen_good e).cond ho hn (by simp [hl]) _ _ _ _ (by omega)).append (wz_printLab _)
    · exact ((gen_good e).cond ho hn (by simp [hl]) _ _ _ _ (by omega)).append (wz_printLab _)

theorem genWhlEnd_wz (re : Option Expr) (h : ∀ e, re = some e → okE nt V .void e = true ∧ need e ≤ N) (jb : Bool)
    (k : Option Nat) (loop n : Nat) : WZ (useOk nt V) N (Gen.genWhlEnd nt re jb k loop n).1 := by
  cases re with
  | none => unfold Gen.genWhlEnd; dsimp only; split; exact .nil; exact wz_jmp _
  | some e =>
    unfold Gen.genWhlEnd
    dsimp only
    split
    · exact ((wz_printLab _).append (genX_wz (h e rfl).1 (h e rfl).2 _)).append (wz_jmp _)
    · exact .nil

theorem genS_wz (S : Stmt) : okS nt V S = true → needS S ≤ N → ∀ p t, WZ (useOk nt V) N (Gen.genS nt p S t).1 := by
  induction S with
  | empty => intro _ _ p t; exact .nil
  | exp e => intro h hn p t; exact genX_wz h hn _
  | ifs c a ih =>
    intro h hn p t
    simp only [okS, Bool.and_eq_true] at h
    simp only [needS] at hn
    exact (genCnd_wz h.1 (by omega) _ _ _).append ((ih h.2 (by omega) _ _).append (wz_printLab _))
  | els c a b iha ihb =>
    intro h hn p t
    simp only [okS, Bool.and_eq_true] at h
    simp only [needS] at hn
    rw [Gen.genS]
    dsimp only
    split
    · exact (genCnd_wz h.1.1 (by omega) _ _ _).append ((iha h.1.2 (by omega) _ _).append
        ((wz_printLab _).append (ihb h.2 (by omega) _ _)))
    · exact (genCnd_wz h.1.1 (by omega) _ _ _).append ((iha h.1.2 (by omega) _ _).append
        ((wz_jmp _).append ((wz_printLab _).append ((ihb h.2 (by omega) _ _).append (wz_lab _)))))
  | whl c a re ih =>
    intro h hn p t
    simp only [okS, Bool.and_eq_true] at h
    simp only [needS] at hn
    rw [Gen.genS]
    dsimp only
    refine (wz_lab _).append (.append ?_ ((ih h.1.2 (by omega) _ _).append (.append ?_ (wz_printLab _))))
    · cases c with
      | none => exact .nil
      | some c => exact genCnd_wz h.1.1 (by simp at hn; omega) _ _ _
    · refine genWhlEnd_wz re (fun e he => ?_) _ _ _ _
      subst he
      simp only [Option.elim_some] at hn
      exact ⟨h.2, by omega⟩
  | dos a c ih =>
    intro h hn p t
    simp only [okS, Bool.and_eq_true] at h
    simp only [needS] at hn
    rw [Gen.genS]
    dsimp only
    exact (wz_lab _).append ((ih h.1 (by omega) _ _).append ((wz_printLab _).append
      ((genCnd_wz h.2 (by omega) _ _ _).append (wz_printLab _))))
  | brk =>
    intro _ _ p t
    rw [Gen.genS]
    cases t.brk <;> exact wz_jmp _
  | cnt =>
    intro _ _ p t
    rw [Gen.genS]
    cases t.cnt <;> exact wz_jmp _
  | ret e =>
    intro h hn p t
    have hv : WZ (useOk nt V) N (Gen.genRetV nt e t.n).1 := by
      cases e with
      | none => exact .nil
      | some e =>
        exact ((gen_good e).we h _).one hn ⟨_, trail1 (fun _ => rfl) rfl rfl (Nat.zero_le _)⟩
    rw [Gen.genS]
    unfold Gen.genRet
    dsimp only
    split
    · cases t.ret <;> exact hv.append (wz_jmp _)
    · exact hv
  | seq k a b iha ihb =>
    intro h hn p t
    simp only [okS, Bool.and_eq_true] at h
    simp only [needS] at hn
    exact (iha h.1 (by omega) _ _).append (ihb h.2 (by omega) _ _)

end

end Cmm.Tac
