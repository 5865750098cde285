import Verif.Gen.StmtOk

/- Labels of generated code: each is defined at most once, and jumps have targets. -/
namespace Cmm.Gen
open Cmm.Tree

variable {nt : NT}

/-- How often label `x` is defined. -/
def dl (x : Nat) (c : Code) : Nat := c.count (.lab x)

/-- The code has a jump to `x`. -/
def Jumps (c : Code) (x : Nat) : Prop := Instr.jmp x ∈ c ∨ Instr.jt x ∈ c ∨ Instr.jf x ∈ c

/-- 1 if the label was allocated between `n` and `n'`. -/
def ind (n n' x : Nat) : Nat := if n < x ∧ x ≤ n' then 1 else 0

/-- 1 if the label variable, not allocated before, is now `x`. -/
def nw (l l' : Option Nat) (x : Nat) : Nat := if l = none ∧ l' = some x then 1 else 0

/-- Code generated while the counter goes from `n` to `n'`. `F x` counts labels `x` that are
allocated but not defined in the code; jumps go to defined labels or to labels in `O`. -/
structure LI (n : Nat) (c : Code) (n' : Nat) (F : Nat → Nat) (O : Nat → Prop) : Prop where
  le : n ≤ n'
  cnt : ∀ x, dl x c + F x ≤ ind n n' x
  ref : ∀ x, Jumps c x → 0 < dl x c ∨ O x

def F0 : Nat → Nat := fun _ => 0
def O0 : Nat → Prop := fun _ => False

theorem dl_append (x : Nat) (a b : Code) : dl x (a ++ b) = dl x a + dl x b := List.count_append

theorem jumps_append {a b : Code} {x : Nat} (h : Jumps (a ++ b) x) : Jumps a x ∨ Jumps b x := by
  simp only [Jumps, List.mem_append] at h ⊢
  tauto

theorem ind_add {a b c : Nat} (h1 : a ≤ b) (h2 : b ≤ c) (x : Nat) :
    ind a b x + ind b c x = ind a c x := by
  unfold ind
  split <;> split <;> split <;> omega

theorem LI.append {n m k : Nat} {a b : Code} {F G : Nat → Nat} {O Q : Nat → Prop}
    (h : LI n a m F O) (h' : LI m b k G Q) :
    LI n (a ++ b) k (fun x => F x + G x) (fun x => O x ∨ Q x) := by
  refine ⟨h.le.trans h'.le, fun x => ?_, fun x hx => ?_⟩
  · have := h.cnt x
    have := h'.cnt x
    rw [← ind_add h.le h'.le, dl_append]
    omega
  · rw [dl_append]
    rcases jumps_append hx with h1 | h1
    · rcases h.ref x h1 with h2 | h2
      · left; omega
      · exact .inr (.inl h2)
    · rcases h'.ref x h1 with h2 | h2
      · left; omega
      · exact .inr (.inr h2)

theorem LI.mono {n k : Nat} {c : Code} {F G : Nat → Nat} {O Q : Nat → Prop} (h : LI n c k F O)
    (hF : ∀ x, G x ≤ F x) (hO : ∀ x, O x → Q x) : LI n c k G Q := by
  refine ⟨h.le, fun x => ?_, fun x hx => ?_⟩
  · have := h.cnt x
    have := hF x
    omega
  · rcases h.ref x hx with h1 | h1
    · exact .inl h1
    · exact .inr (hO x h1)

/-- Code without labels and jumps. -/
def Flat (c : Code) : Prop := (∀ x, dl x c = 0) ∧ ∀ x, ¬ Jumps c x

theorem Flat.li {c : Code} (h : Flat c) (n : Nat) : LI n c n F0 O0 :=
  ⟨le_refl _, fun x => by simp [h.1 x, F0], fun x hx => absurd hx (h.2 x)⟩

theorem flat_nil : Flat [] := ⟨fun _ => rfl, fun x h => by simp [Jumps] at h⟩

theorem flat_cons {i : Instr} {c : Code} (h : Flat c) (h1 : ∀ x, i ≠ .lab x)
    (h2 : ∀ x, i ≠ .jmp x ∧ i ≠ .jt x ∧ i ≠ .jf x) : Flat (i :: c) := by
  refine ⟨fun x => ?_, fun x hx => ?_⟩
  · have := h.1 x
    unfold dl at this ⊢
    rw [List.count_cons_of_ne (h1 x)]; exact this
  · simp only [Jumps, List.mem_cons] at hx
    have := h.2 x
    have := h2 x
    simp only [Jumps] at *
    rcases hx with (hx | hx) | (hx | hx) | (hx | hx) <;> first | (exact absurd hx.symm (by tauto)) | tauto

theorem flat_append {a b : Code} (ha : Flat a) (hb : Flat b) : Flat (a ++ b) :=
  ⟨fun x => by rw [dl_append, ha.1, hb.1], fun x h => by
    rcases jumps_append h with h | h
    · exact ha.2 x h
    · exact hb.2 x h⟩

theorem LI.flat {n k : Nat} {a b : Code} {F O} (h : LI n a k F O) (hb : Flat b) :
    LI n (a ++ b) k F O := by
  refine (h.append (hb.li k)).mono (fun x => by simp [F0]) (fun x hx => ?_)
  rcases hx with hx | hx
  · exact hx
  · exact hx.elim

theorem LI.flat' {n k : Nat} {a b : Code} {F O} (h : LI n b k F O) (ha : Flat a) :
    LI n (a ++ b) k F O := by
  refine ((ha.li n).append h).mono (fun x => by simp [F0]) (fun x hx => ?_)
  rcases hx with hx | hx
  · exact hx.elim
  · exact hx

theorem LI.two {n m k : Nat} {a b : Code} (h : LI n a m F0 O0) (h' : LI m b k F0 O0) :
    LI n (a ++ b) k F0 O0 :=
  (h.append h').mono (fun _ => Nat.zero_le _) (fun _ hx => by rcases hx with h | h <;> exact h)

theorem load_flat (p : Place) : Flat (load p) := by
  cases p <;> simp only [load] <;>
    first | exact flat_nil | exact flat_cons flat_nil (by simp) (by simp)

theorem store_flat (p : Place) : Flat (store p) := by
  cases p <;> simp only [store] <;>
    first | exact flat_nil | exact flat_cons flat_nil (by simp) (by simp)

theorem popP_flat (p : Place) : Flat (popP p) := by
  cases p <;> simp only [popP] <;>
    first | exact flat_nil | exact flat_cons flat_nil (by simp) (by simp)
          | exact flat_cons (flat_cons flat_nil (by simp) (by simp)) (by simp) (by simp)

theorem callCode_flat (f : Int) (k : Nat) : Flat (callCode nt f k).1 := by
  unfold callCode
  split <;> exact flat_cons flat_nil (by simp) (by simp)

theorem unInstr_flat (op : Un) : Flat [unInstr op] := by
  cases op <;> exact flat_cons flat_nil (by simp [unInstr]) (by simp [unInstr])

theorem binInstr_flat (op : Bin) : Flat [binInstr op] := by
  cases op <;> exact flat_cons flat_nil (by simp [binInstr]) (by simp [binInstr])

theorem cmpInstr_flat (s : Bool) (op : Bin) : Flat [cmpInstr s op] := by
  cases op <;> cases s <;> exact flat_cons flat_nil (by simp [cmpInstr]) (by simp [cmpInstr])

theorem nw_trans {a b c : Option Nat} (h : OKeep b c) (x : Nat) : nw a c x ≤ nw a b x + nw b c x := by
  unfold nw
  cases b with
  | none => simp only [true_and]; split <;> split <;> simp_all
  | some k =>
    rw [h k rfl]
    simp

theorem nw_self (a : Option Nat) (x : Nat) : nw a a x = 0 := by
  unfold nw
  split
  · rename_i h; rw [h.1] at h; simp at h
  · rfl

/-- Labels of an operand. -/
def BL (b : Nat → BRes) : Prop := ∀ n, LI n (b n).1 (b n).2.2 F0 O0
def AL (a : Nat → Code × Nat × Nat) : Prop := ∀ n, LI n (a n).1 (a n).2.2 F0 O0

/-- Labels of a jumping condition. -/
def LL (log : Nat → Lab → Lab → Nat → Code × Lab × Lab × Nat) : Prop :=
  ∀ left A B n, LI n (log left A B n).1 (log left A B n).2.2.2
    (fun x => nw A.no (log left A B n).2.1.no x + nw B.no (log left A B n).2.2.1.no x)
    (fun x => (log left A B n).2.1.no = some x ∨ (log left A B n).2.2.1.no = some x)

theorem BL.genE {b : Nat → BRes} (h : BL b) (n : Nat) : LI n (genE b n).1 (genE b n).2 F0 O0 :=
  (h n).flat (load_flat _)

theorem genTwo_bl {bl br : Nat → BRes} (hl : BL bl) (hr : BL br) {i : Code} (hi : Flat i)
    (p : Place) : BL (genTwo bl br i p) := fun n =>
  ((hl.genE n).two (hr.genE _)).flat hi

theorem boolJmp_li (tf : Bool) (l : Lab) (n : Nat) :
    LI n (boolJmp tf l n).1 (boolJmp tf l n).2.2 (nw l.no (boolJmp tf l n).2.1.no)
      (fun x => (boolJmp tf l n).2.1.no = some x) := by
  unfold boolJmp
  cases h : l.no with
  | some k =>
    refine ⟨le_refl _, fun x => ?_, fun x hx => ?_⟩
    · cases tf <;> simp [dl, nw]
    · right
      cases tf <;> simp [Jumps] at hx <;> rw [h, hx]
  | none =>
    refine ⟨Nat.le_succ _, fun x => ?_, fun x hx => ?_⟩
    · have : dl x [if tf = true then Instr.jt (n + 1) else Instr.jf (n + 1)] = 0 := by
        cases tf <;> simp [dl]
      simp only [this, nw, ind]
      split <;> split <;> simp_all
      omega
    · right
      cases tf <;> simp [Jumps] at hx <;> simp [hx]

/-- Printing a label that was allocated in the code. -/
theorem LI.print {n k : Nat} {c : Code} {F G : Nat → Nat} {O Q : Nat → Prop} {l : Option Nat}
    (h : LI n c k F O) (hF : ∀ x, G x + nw none l x ≤ F x) (hO : ∀ x, O x → Q x ∨ l = some x) :
    LI n (c ++ printLab l) k G Q := by
  have hd : ∀ x, dl x (printLab l) = nw none l x := by
    intro x
    cases l with
    | none => simp [printLab, dl, nw]
    | some k =>
      simp only [printLab, dl, nw, List.count_cons, List.count_nil, true_and, Option.some.injEq,
        beq_iff_eq, Instr.lab.injEq]
      split <;> simp
  refine ⟨h.le, fun x => ?_, fun x hx => ?_⟩
  · rw [dl_append, hd]
    have := h.cnt x
    have := hF x
    omega
  · rw [dl_append, hd]
    have hx : Jumps c x := by
      rcases jumps_append hx with h | h
      · exact h
      · cases l <;> simp [printLab, Jumps] at h
    rcases h.ref x hx with h1 | h1
    · left; omega
    · rcases hO x h1 with h2 | h2
      · exact .inr h2
      · left; subst h2; simp [nw]

theorem genLogL_li {op : Bin} {lOp : Option Bin} {gl : G} (hb : BL gl.bool) (hl : LL gl.log)
    (left : Nat) (A : Lab) (n : Nat) :
    LI n (genLogL op lOp gl left A n).1 (genLogL op lOp gl left A n).2.2
      (nw A.no (genLogL op lOp gl left A n).2.1.no)
      (fun x => (genLogL op lOp gl left A n).2.1.no = some x) := by
  unfold genLogL
  cases lOp with
  | some lop =>
    dsimp only
    split
    · exact (hl (left + 1) A ⟨none, left + 1⟩ n).print (fun x => le_refl _) (fun x h => h)
    · exact (hl (left + 1) ⟨none, left + 1⟩ A n).print (fun x => (Nat.add_comm _ _).le)
        (fun x h => h.symm)
  | none =>
    refine ((hb.genE n).append (boolJmp_li _ A _)).mono (fun x => by simp [F0]) (fun x h => ?_)
    rcases h with h | h
    · exact h.elim
    · exact h

theorem LL.genLogR {op : Bin} {rOp : Option Bin} {gr : G} (hb : BL gr.bool) (hr : LL gr.log) :
    LL (genLogR op rOp gr) := by
  intro left A B n
  unfold Gen.genLogR
  cases rOp with
  | some rop =>
    dsimp only
    split
    · exact hr left A B n
    · exact (hr left B A n).mono (fun x => (Nat.add_comm _ _).le) (fun x h => h.symm)
  | none =>
    dsimp only
    split
    · split
      · refine ((hb.genE n).append (boolJmp_li _ B _)).mono (fun x => ?_) (fun x h => ?_)
        · simp [F0, nw_self]
        · rcases h with h | h
          · exact h.elim
          · exact .inr h
      · refine ((hb.genE n).append (boolJmp_li _ A _)).mono (fun x => ?_) (fun x h => ?_)
        · simp [F0, nw_self]
        · rcases h with h | h
          · exact h.elim
          · exact .inl h
    · exact (hb.genE n).mono (fun x => by simp [F0, nw_self]) (fun x h => h.elim)

theorem genLogExpr_ll {op : Bin} {lOp rOp : Option Bin} {gl gr : G} (hbl : BL gl.bool)
    (hll : LL gl.log) (hbr : BL gr.bool) (hlr : LL gr.log) (hk : Keep gr.log) :
    LL (genLogExpr op lOp rOp gl gr) := by
  intro left A B n
  unfold genLogExpr
  have h1 := genLogL_li (op := op) (lOp := lOp) hbl hll left A n
  have h2 := LL.genLogR (op := op) (rOp := rOp) hbr hlr left (genLogL op lOp gl left A n).2.1 B
    (genLogL op lOp gl left A n).2.2
  have h3 := (genLogR_keep (op := op) (rOp := rOp) hk left (genLogL op lOp gl left A n).2.1 B
    (genLogL op lOp gl left A n).2.2).1.2
  refine (h1.append h2).mono (fun x => ?_) (fun x h => ?_)
  · have := nw_trans (a := A.no) h3 x
    exact (Nat.add_le_add_right this _).trans (Nat.add_assoc _ _ _).le
  · rcases h with h | h | h
    · exact .inl (h3 x h)
    · exact .inl h
    · exact .inr h

theorem boolMacro_dl (v : Int) (l1 l2 : Option Nat) (l3 x : Nat) :
    dl x (boolMacro v l1 l2 l3) = nw none l1 x + nw none l2 x + nw none (some l3) x := by
  cases l1 <;> cases l2 <;>
    simp only [boolMacro, dl, nw, List.count_append, List.count_cons, List.count_nil, true_and,
      Option.some.injEq, beq_iff_eq, Instr.lab.injEq, reduceCtorEq, if_false, and_false] <;>
    repeat' split
  all_goals first | omega | simp_all

theorem genLOp_bl {op : Bin} {log} (h : LL log) : BL (genLOpExpr op log) := by
  intro n
  unfold genLOpExpr
  have h1 := h 1 ⟨none, 1⟩ ⟨none, 0⟩ (n + 1)
  dsimp only at h1 ⊢
  generalize log 1 ⟨none, 1⟩ ⟨none, 0⟩ (n + 1) = r at h1 ⊢
  obtain ⟨c, A, B, m⟩ := r
  dsimp only at h1 ⊢
  refine ⟨by have := h1.le; omega, fun x => ?_, fun x hx => ?_⟩
  · have h2 := h1.cnt x
    have h3 := ind_add (Nat.le_succ n) h1.le x
    have h4 : nw none (some (n + 1)) x = ind n (n + 1) x := by
      simp only [nw, ind, true_and, Option.some.injEq]
      split <;> split <;> omega
    rw [dl_append, boolMacro_dl]
    simp only [F0, Nat.succ_eq_add_one] at *
    omega
  · left
    rw [dl_append, boolMacro_dl]
    rcases jumps_append hx with h2 | h2
    · rcases h1.ref x h2 with h3 | h3 | h3
      · omega
      · rw [h3]; simp [nw]
      · rw [h3]; simp [nw]
    · have : x = n + 1 := by
        revert h2
        cases A.no <;> cases B.no <;> simp [boolMacro, Jumps]
      subst this
      simp [nw]

theorem leafPlace_bl (k : Kind) (v : Int) : BL fun n => leafPlace k v ([], .inval, n) := by
  intro n
  cases k <;> simp only [leafPlace] <;>
    first | exact flat_nil.li n | exact (flat_cons flat_nil (by simp) (by simp)).li n

theorem argOne_al {b : Nat → BRes} (h : BL b) : AL (argOne b) := fun n =>
  (h.genE n).flat (flat_cons flat_nil (by simp) (by simp))

theorem bug_ll : LL fun _ A B n => ([.bug], A, B, n) := fun _ A B n =>
  ((flat_cons flat_nil (by simp) (by simp)).li n).mono (fun x => by simp [F0, nw_self])
    (fun x h => h.elim)

theorem genBin_bl {op : Bin} {l r : Expr} {gl gr : G} (hbl : BL gl.bool)
    (hll : LL gl.log) (hbr : BL gr.bool) (hlr : LL gr.log) (hk : Keep gr.log) :
    BL (genBin nt op l r gl gr) := by
  have two : ∀ o s, BL (gen2OpExpr o s gl.bool gr.bool) := by
    intro o s
    unfold gen2OpExpr
    split
    · exact genTwo_bl hbr hbl (binInstr_flat _) _
    · exact genTwo_bl hbl hbr (binInstr_flat _) _
  have cmp : ∀ o s, BL (genCmpExpr o s gl.bool gr.bool) := by
    intro o s
    unfold genCmpExpr
    split
    · exact genTwo_bl hbr hbl (cmpInstr_flat _ _) _
    · exact genTwo_bl hbl hbr (cmpInstr_flat _ _) _
  cases op <;> simp only [genBin]
  case comm => exact fun n => ((hbl n).flat (popP_flat _)).two (hbr _)
  case dot =>
    intro n
    unfold genDotExpr
    cases r <;> exact (hbl.genE n).flat (flat_cons flat_nil (by simp) (by simp))
  case or => exact genLOp_bl (genLogExpr_ll hbl hll hbr hlr hk)
  case and => exact genLOp_bl (genLogExpr_ll hbl hll hbr hlr hk)
  case semi => exact fun n => (flat_cons flat_nil (by simp) (by simp)).li n
  all_goals first | exact two _ _ | exact cmp _ _ | exact genTwo_bl hbl hbr flat_nil _

/-- Labels in the code of an expression. -/
theorem gen_labels (nt : NT) (e : Expr) :
    BL (gen nt e).bool ∧ AL (gen nt e).args ∧ LL (gen nt e).log := by
  have plain : ∀ {b : Nat → BRes}, BL b →
      BL (G.plain b).bool ∧ AL (G.plain b).args ∧ LL (G.plain b).log :=
    fun h => ⟨h, argOne_al h, bug_ll⟩
  induction e with
  | cnst v => exact plain fun n => flat_nil.li n
  | leaf k v => exact plain (leafPlace_bl k v)
  | func0 f => exact plain fun n => (callCode_flat f 0).li n
  | func f a ih => exact plain fun n => (ih.2.1 n).flat (callCode_flat f _)
  | un op e ih => exact plain fun n => (ih.1.genE n).flat (unInstr_flat op)
  | assV k v r ih =>
    exact plain fun n => ((ih.1.genE n).two (leafPlace_bl k v _)).flat (store_flat _)
  | assM op a i r iha ihi ihr =>
    exact plain fun n => ((ihr.1.genE n).two
      (genBin_bl iha.1 iha.2.2 ihi.1 ihi.2.2 (gen_keep nt i) _)).flat (store_flat _)
  | bin op l r ihl ihr =>
    have hb : BL (genBin nt op l r (gen nt l) (gen nt r)) :=
      genBin_bl ihl.1 ihl.2.2 ihr.1 ihr.2.2 (gen_keep nt r)
    refine ⟨hb, ?_, ?_⟩
    · cases op <;> simp only [gen]
      case semi =>
        exact fun n => ((ihr.1.genE n).flat (flat_cons flat_nil (by simp) (by simp))).two (ihl.2.1 _)
      all_goals exact argOne_al hb
    · cases op <;> simp only [gen]
      case or => exact genLogExpr_ll ihl.1 ihl.2.2 ihr.1 ihr.2.2 (gen_keep nt r)
      case and => exact genLogExpr_ll ihl.1 ihl.2.2 ihr.1 ihr.2.2 (gen_keep nt r)
      all_goals exact bug_ll

theorem genCnd_li (nt : NT) (e : Expr) (tf : Bool) (J : Lab) (n : Nat) :
    LI n (genCnd nt e tf J n).1 (genCnd nt e tf J n).2.2 (nw J.no (genCnd nt e tf J n).2.1.no)
      (fun x => (genCnd nt e tf J n).2.1.no = some x) := by
  obtain ⟨hb, -, hl⟩ := gen_labels nt e
  unfold genCnd
  cases logOp e with
  | none =>
    refine ((hb.genE n).append (boolJmp_li tf J _)).mono (fun x => by simp [F0]) (fun x h => ?_)
    rcases h with h | h
    · exact h.elim
    · exact h
  | some op =>
    dsimp only
    split
    · exact (hl 2 J ⟨none, 2⟩ n).print (fun x => le_refl _) (fun x h => h)
    · exact (hl 2 ⟨none, 2⟩ J n).print (fun x => (Nat.add_comm _ _).le) (fun x h => h.symm)

theorem genX_li (nt : NT) (e : Expr) (n : Nat) : LI n (genX nt e n).1 (genX nt e n).2 F0 O0 :=
  ((gen_labels nt e).1 n).flat (popP_flat _)

theorem genRetV_li (nt : NT) (e : Option Expr) (n : Nat) :
    LI n (genRetV nt e n).1 (genRetV nt e n).2 F0 O0 := by
  cases e with
  | none => exact flat_nil.li n
  | some e => exact ((gen_labels nt e).1.genE n).flat (flat_cons flat_nil (by simp) (by simp))

theorem genWhlCnd_li (nt : NT) (c : Option Expr) (n : Nat) :
    LI n (genWhlCnd nt c n).1 (genWhlCnd nt c n).2.2 (nw none (genWhlCnd nt c n).2.1)
      (fun x => (genWhlCnd nt c n).2.1 = some x) := by
  cases c with
  | none => exact (flat_nil.li n).mono (fun x => by simp [genWhlCnd, nw, F0]) (fun x h => h.elim)
  | some c => exact genCnd_li nt c false ⟨none, 0⟩ n

theorem jmp_li (k n : Nat) : LI n [.jmp k] n F0 (fun x => x = k) :=
  ⟨le_refl _, fun x => by simp [dl, F0], fun x h => by simp [Jumps] at h; exact .inr h⟩

theorem jmp_new_li (n : Nat) : LI n [.jmp (n + 1)] (n + 1) (nw none (some (n + 1)))
    (fun x => x = n + 1) := by
  refine ⟨Nat.le_succ _, fun x => ?_, fun x h => by simp [Jumps] at h; exact .inr h⟩
  have : dl x [Instr.jmp (n + 1)] = 0 := by simp [dl]
  rw [this]
  unfold nw ind
  split <;> split <;> simp_all
  omega

theorem lab_li (n : Nat) : LI n [.lab (n + 1)] (n + 1) F0 O0 := by
  refine ⟨Nat.le_succ _, fun x => ?_, fun x h => by simp [Jumps] at h⟩
  simp only [dl, ind, F0, List.count_cons, List.count_nil, beq_iff_eq, Instr.lab.injEq]
  split <;> split <;> omega

/-- Labels of a statement. -/
def SF (a b : St) (x : Nat) : Nat := nw a.brk b.brk x + nw a.cnt b.cnt x + nw a.ret b.ret x
def SO (b : St) (x : Nat) : Prop := b.brk = some x ∨ b.cnt = some x ∨ b.ret = some x

theorem SF_trans {a b c : St} (h : SKeep b c) (x : Nat) : SF a c x ≤ SF a b x + SF b c x := by
  have h1 := nw_trans (a := a.brk) h.brk x
  have h2 := nw_trans (a := a.cnt) h.cnt x
  have h3 := nw_trans (a := a.ret) h.ret x
  unfold SF
  omega

theorem SO_keep {b c : St} (h : SKeep b c) {x : Nat} : SO b x → SO c x := by
  rintro (h1 | h1 | h1)
  · exact .inl (h.brk x h1)
  · exact .inr (.inl (h.cnt x h1))
  · exact .inr (.inr (h.ret x h1))

/-- Labels in the code of a statement. -/
theorem genS_li (nt : NT) (S : Stmt) : ∀ (p : Pos) (t : St),
    LI t.n (genS nt p S t).1 (genS nt p S t).2.n (SF t (genS nt p S t).2) (SO (genS nt p S t).2) := by
  induction S with
  | empty =>
    exact fun p t => (flat_nil.li t.n).mono (fun x => by simp [SF, nw_self, F0, genS])
      (fun x h => h.elim)
  | exp e =>
    exact fun p t => (genX_li nt e t.n).mono (fun x => by simp [SF, nw_self, F0, genS])
      (fun x h => h.elim)
  | ifs c a ih =>
    intro p t
    simp only [genS]
    have h1 := genCnd_li nt c false ⟨none, 0⟩ t.n
    have h2 := ih p.right { t with n := (genCnd nt c false ⟨none, 0⟩ t.n).2.2 }
    rw [← List.append_assoc]
    refine (h1.append h2).print (fun x => ?_) (fun x h => h.symm)
    exact (Nat.add_comm _ _).le
  | els c a b iha ihb =>
    intro p t
    simp only [genS]
    have h1 := genCnd_li nt c false ⟨none, 0⟩ t.n
    have h2 := iha .inner { t with n := (genCnd nt c false ⟨none, 0⟩ t.n).2.2 }
    generalize hr : genS nt .inner a { t with n := (genCnd nt c false ⟨none, 0⟩ t.n).2.2 } = r at h2 ⊢
    by_cases hj : jmpBlock a = true
    · simp only [hj, if_true]
      have h3 := ihb p.right r.2
      have hk := genS_keep (nt := nt) b p.right r.2
      rw [← List.append_assoc, ← List.append_assoc]
      have h12 : LI t.n ((genCnd nt c false ⟨none, 0⟩ t.n).1 ++ r.1 ++
          printLab (genCnd nt c false ⟨none, 0⟩ t.n).2.1.no) r.2.n (SF t r.2) (SO r.2) :=
        (h1.append h2).print (fun x => (Nat.add_comm _ _).le) (fun x h => h.symm)
      refine (h12.append h3).mono (fun x => SF_trans hk x) (fun x h => ?_)
      rcases h with h | h
      · exact SO_keep hk h
      · exact h
    · simp only [hj, Bool.false_eq_true, if_false]
      have h3 := ihb p.right { r.2 with n := r.2.n + 1 }
      have hk := genS_keep (nt := nt) b p.right { r.2 with n := r.2.n + 1 }
      generalize hq : genS nt p.right b { r.2 with n := r.2.n + 1 } = q at h3 hk ⊢
      have h12 := (h1.append h2).append (jmp_new_li r.2.n)
      have h123 : LI t.n ((genCnd nt c false ⟨none, 0⟩ t.n).1 ++ r.1 ++ [.jmp (r.2.n + 1)] ++
          printLab (genCnd nt c false ⟨none, 0⟩ t.n).2.1.no) (r.2.n + 1)
          (fun x => SF t r.2 x + nw none (some (r.2.n + 1)) x)
          (fun x => SO r.2 x ∨ x = r.2.n + 1) := by
        refine h12.print (fun x => ?_) (fun x h => ?_)
        · have : SF t r.2 x = SF { t with n := (genCnd nt c false ⟨none, 0⟩ t.n).2.2 } r.2 x := rfl
          rw [this]
          show _ ≤ nw none (genCnd nt c false ⟨none, 0⟩ t.n).2.1.no x + _ + _
          omega
        · rcases h with (h | h) | h
          · exact .inr h
          · exact .inl (.inl h)
          · exact .inl (.inr h)
      have h4 := (h123.append h3).print (l := some (r.2.n + 1)) (G := SF t q.2) (Q := SO q.2)
        (fun x => ?_) (fun x h => ?_)
      · simpa [printLab, List.append_assoc] using h4
      · have := SF_trans (a := t) hk x
        have e1 : SF t { r.2 with n := r.2.n + 1 } x = SF t r.2 x := rfl
        rw [e1] at this
        omega
      · rcases h with (h | h) | h
        · exact .inl (SO_keep hk h)
        · exact .inr (by rw [h])
        · exact .inl h
  | whl c a re ih =>
    intro p t
    simp only [genS]
    have h0 := lab_li t.n
    have h1 := genWhlCnd_li nt c (t.n + 1)
    generalize hc : genWhlCnd nt c (t.n + 1) = cc at h1 ⊢
    obtain ⟨cc, b, n⟩ := cc
    dsimp only at h1 ⊢
    have h2 := ih .inner ⟨n, b, if re.isNone then some (t.n + 1) else none, t.ret⟩
    have hk := genS_keep (nt := nt) a .inner ⟨n, b, if re.isNone then some (t.n + 1) else none, t.ret⟩
    generalize hr : genS nt .inner a ⟨n, b, if re.isNone then some (t.n + 1) else none, t.ret⟩ = r
      at h2 hk ⊢
    obtain ⟨ca, q⟩ := r
    dsimp only at h2 hk ⊢
    have hd : ∀ (c : Code) x, x = t.n + 1 → 0 < dl x (.lab (t.n + 1) :: c) := by
      rintro c x rfl
      simp [dl]
    have h012 := (h0.append h1).append h2
    have hend : ∃ G Q, LI t.n ([.lab (t.n + 1)] ++ cc ++ ca ++
        (genWhlEnd nt re (jmpBlock a) q.cnt (t.n + 1) q.n).1)
        (genWhlEnd nt re (jmpBlock a) q.cnt (t.n + 1) q.n).2 G Q ∧
        (∀ x, nw none q.brk x + nw t.ret q.ret x ≤ G x) ∧
        (∀ x, Q x → q.brk = some x ∨ x = t.n + 1 ∨ q.ret = some x) := by
      have hbrk : ∀ x, nw none q.brk x ≤ nw none b x + nw b q.brk x := nw_trans hk.brk
      cases re with
      | none =>
        have hcnt : q.cnt = some (t.n + 1) := hk.cnt _ rfl
        simp only [genWhlEnd]
        by_cases hj : jmpBlock a = true
        · simp only [hj, if_true, List.append_nil]
          refine ⟨_, _, h012, fun x => ?_, fun x h => ?_⟩
          · have := hbrk x
            simp only [SF, F0]
            omega
          · rcases h with (h | h) | h | h | h
            · exact h.elim
            · exact .inl (hk.brk x h)
            · exact .inl h
            · rw [hcnt] at h; cases h; exact .inr (.inl rfl)
            · exact .inr (.inr h)
        · simp only [hj, Bool.false_eq_true, if_false]
          refine ⟨_, _, h012.append (jmp_li _ _), fun x => ?_, fun x h => ?_⟩
          · have := hbrk x
            simp only [SF, F0]
            omega
          · rcases h with ((h | h) | h | h | h) | h
            · exact h.elim
            · exact .inl (hk.brk x h)
            · exact .inl h
            · rw [hcnt] at h; cases h; exact .inr (.inl rfl)
            · exact .inr (.inr h)
            · exact .inr (.inl h)
      | some e =>
        simp only [genWhlEnd]
        by_cases hj : (!jmpBlock a || q.cnt.isSome) = true
        · rw [if_pos hj]
          have h3 : LI t.n ([.lab (t.n + 1)] ++ cc ++ ca ++ printLab q.cnt) q.n
              (fun x => nw none q.brk x + nw t.ret q.ret x)
              (fun x => q.brk = some x ∨ q.ret = some x) := by
            refine h012.print (fun x => ?_) (fun x h => ?_)
            · have := hbrk x
              have : nw (if (some e).isNone = true then some (t.n + 1) else none) q.cnt x =
                nw none q.cnt x := rfl
              simp only [SF, F0]
              omega
            · rcases h with (h | h) | h | h | h
              · exact h.elim
              · exact .inl (.inl (hk.brk x h))
              · exact .inl (.inl h)
              · exact .inr h
              · exact .inl (.inr h)
          have h4 := (h3.append (genX_li nt e q.n)).append (jmp_li (t.n + 1) _)
          refine ⟨_, _, by simpa [List.append_assoc] using h4, fun x => ?_, fun x h => ?_⟩
          · simp only [F0]; omega
          · rcases h with ((h | h) | h) | h
            · exact .inl h
            · exact .inr (.inr h)
            · exact h.elim
            · exact .inr (.inl h)
        · rw [if_neg hj]
          have hcnt : q.cnt = none := by
            cases h : q.cnt with
            | none => rfl
            | some k => rw [h] at hj; simp at hj
          simp only [List.append_nil]
          refine ⟨_, _, h012, fun x => ?_, fun x h => ?_⟩
          · have := hbrk x
            simp only [SF, F0]
            omega
          · rcases h with (h | h) | h | h | h
            · exact h.elim
            · exact .inl (hk.brk x h)
            · exact .inl h
            · rw [hcnt] at h; cases h
            · exact .inr (.inr h)
    obtain ⟨G, Q, h3, hG, hQ⟩ := hend
    generalize genWhlEnd nt re (jmpBlock a) q.cnt (t.n + 1) q.n = e at h3 ⊢
    have h4 := h3.print (l := q.brk) (G := nw t.ret q.ret)
      (Q := fun x => q.ret = some x ∨ x = t.n + 1) (fun x => by have := hG x; omega)
      (fun x h => by rcases hQ x h with h | h | h <;> tauto)
    have e1 : [Instr.lab (t.n + 1)] ++ cc ++ ca ++ e.1 ++ printLab q.brk =
      .lab (t.n + 1) :: (cc ++ (ca ++ (e.1 ++ printLab q.brk))) := by simp [List.append_assoc]
    rw [e1] at h4
    refine ⟨h4.le, fun x => ?_, fun x h => ?_⟩
    · have := h4.cnt x
      simpa only [SF, nw_self, Nat.zero_add] using this
    · rcases h4.ref x h with h | h | h
      · exact .inl h
      · exact .inr (.inr (.inr h))
      · exact .inl (hd _ x h)
  | dos a c ih =>
    intro p t
    simp only [genS]
    have h0 := lab_li t.n
    have h1 := ih .inner ⟨t.n + 1, none, none, t.ret⟩
    generalize hr : genS nt .inner a ⟨t.n + 1, none, none, t.ret⟩ = r at h1 ⊢
    obtain ⟨ca, q⟩ := r
    dsimp only at h1 ⊢
    have h2 := genCnd_li nt c true ⟨some (t.n + 1), 0⟩ q.n
    have hJ : (genCnd nt c true ⟨some (t.n + 1), 0⟩ q.n).2.1.no = some (t.n + 1) :=
      genCnd_label rfl
    generalize genCnd nt c true ⟨some (t.n + 1), 0⟩ q.n = e at h2 hJ ⊢
    rw [hJ] at h2
    have h01 : LI t.n ([.lab (t.n + 1)] ++ ca ++ printLab q.cnt) q.n
        (fun x => nw none q.brk x + nw t.ret q.ret x)
        (fun x => q.brk = some x ∨ q.ret = some x) := by
      refine (h0.append h1).print (fun x => ?_) (fun x h => ?_)
      · simp only [SF, F0]
        omega
      · rcases h with h | h | h | h
        · exact h.elim
        · exact .inl (.inl h)
        · exact .inr h
        · exact .inl (.inr h)
    have h4 := (h01.append h2).print (l := q.brk) (G := nw t.ret q.ret)
      (Q := fun x => q.ret = some x ∨ x = t.n + 1) (fun x => by omega) (fun x h => by
        rcases h with (h | h) | h
        · exact .inr h
        · exact .inl (.inl h)
        · exact .inl (.inr (by cases h; rfl)))
    have e1 : [Instr.lab (t.n + 1)] ++ ca ++ printLab q.cnt ++ e.1 ++ printLab q.brk =
      .lab (t.n + 1) :: (ca ++ (printLab q.cnt ++ (e.1 ++ printLab q.brk))) := by
      simp [List.append_assoc]
    rw [e1] at h4
    refine ⟨h4.le, fun x => ?_, fun x h => ?_⟩
    · have := h4.cnt x
      simpa only [SF, nw_self, Nat.zero_add] using this
    · rcases h4.ref x h with h | h | rfl
      · exact .inl h
      · exact .inr (.inr (.inr h))
      · left; simp [dl]
  | brk =>
    intro p t
    rw [genS]
    cases h : t.brk with
    | some k =>
      exact (jmp_li k t.n).mono (fun x => by simp [SF, nw_self, F0]) (fun x hx => by
        subst hx; exact .inl h)
    | none =>
      refine (jmp_new_li t.n).mono (fun x => by simp [SF, nw_self, h]) (fun x hx => by
        subst hx; exact .inl rfl)
  | cnt =>
    intro p t
    rw [genS]
    cases h : t.cnt with
    | some k =>
      exact (jmp_li k t.n).mono (fun x => by simp [SF, nw_self, F0]) (fun x hx => by
        subst hx; exact .inr (.inl h))
    | none =>
      refine (jmp_new_li t.n).mono (fun x => by simp [SF, nw_self, h]) (fun x hx => by
        subst hx; exact .inr (.inl rfl))
  | ret e =>
    intro p t
    simp only [genS, genRet]
    have h1 := genRetV_li nt e t.n
    by_cases hp : p = .inner
    · simp only [hp, if_true]
      cases h : t.ret with
      | some k =>
        refine (h1.append (jmp_li k _)).mono (fun x => by simp [SF, nw_self, F0, h]) (fun x hx => ?_)
        rcases hx with hx | hx
        · exact hx.elim
        · subst hx; exact .inr (.inr rfl)
      | none =>
        refine (h1.append (jmp_new_li _)).mono (fun x => by simp [SF, nw_self, F0, h])
          (fun x hx => ?_)
        rcases hx with hx | hx
        · exact hx.elim
        · subst hx; exact .inr (.inr rfl)
    · simp only [hp, if_false]
      exact h1.mono (fun x => by simp [SF, nw_self, F0]) (fun x h => h.elim)
  | seq k a b iha ihb =>
    intro p t
    simp only [genS]
    have h1 := iha .inner t
    have h2 := ihb p.right (genS nt .inner a t).2
    have hk := genS_keep (nt := nt) b p.right (genS nt .inner a t).2
    refine (h1.append h2).mono (fun x => SF_trans hk x) (fun x h => ?_)
    rcases h with h | h
    · exact SO_keep hk h
    · exact h

end Cmm.Gen
