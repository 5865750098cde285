import Verif.Opt.Refine
import Verif.Opt.OptStmt
import Verif.Parse.Ready

/- The conditions of the code generator (`okE`, Verif/Tac/Walk.lean) remain true when the optimizer has changed an
expression, with one exception: an element or a field may be left over as a statement (`a[0] + 0;`), which `tame` excludes. -/
namespace Cmm.Opt
open Cmm.Tree
open Cmm.Gen (NT Mode)
open Cmm.Tac (okE okS fieldOk)
open Cmm.Parse (tame tameS)

section
variable (nt : NT) (V : Kind → Int → Bool)

/-- As `okE`, but elements and fields may be read for nothing. -/
def okR : Mode → Expr → Bool
  | _, .cnst _ => true
  | _, .leaf k n => decide (k ≠ .size) && V k n
  | m, .func0 f => V .addr f && (!nt.void f || decide (m = .void))
  | m, .func f a => (V .addr f && (!nt.void f || decide (m = .void))) && okR .args a
  | _, .un _ e => okR .val e
  | m, .bin op l r =>
    match op with
    | .semi => decide (m = .args) && okR .args l && okR .val r
    | .comm => okR .void l && okR (if m = .void then .void else .val) r
    | .dot => okR .val l && fieldOk r
    | .and | .or => decide (m = .cond) && okR .cond l && okR .cond r
    | _ => okR .val l && okR .val r
  | _, .assV k n r => (decide (k = .loc) || decide (k = .prm) || decide (k = .glb)) && V k n && okR .val r
  | _, .assM op a i r =>
    (match op with
     | .idxr | .idxi | .idxc | .idxb => okR .val i
     | .dot => fieldOk i
     | _ => false) && okR .val a && okR .val r

end

variable {nt : NT} {V : Kind → Int → Bool}

theorem okR_of {e : Expr} : ∀ {m}, okE nt V m e = true → okR nt V m e = true := by
  induction e with
  | cnst v => intro m h; rfl
  | leaf k n => intro m h; exact h
  | func0 f => intro m h; exact h
  | func f a ih => intro m h; simp only [okE, okR, Bool.and_eq_true] at h ⊢; exact ⟨h.1, ih h.2⟩
  | un op e ih => intro m h; exact ih h
  | bin op l r ih1 ih2 =>
    intro m h
    cases op <;> simp only [okE, okR, Bool.and_eq_true] at h ⊢ <;> first
      | exact ⟨ih1 h.1, ih2 h.2⟩
      | exact ⟨⟨h.1.1, ih1 h.1.2⟩, ih2 h.2⟩
      | exact ⟨ih1 h.1.2, h.2⟩
      | exact ⟨ih1 h.1.2, ih2 h.2⟩
  | assV k n r ih => intro m h; simp only [okE, okR, Bool.and_eq_true] at h ⊢; exact ⟨h.1, ih h.2⟩
  | assM op a i r h1 h2 h3 =>
    intro m h
    cases op <;> simp only [okE, okR, Bool.and_eq_true, Bool.false_eq_true, false_and] at h ⊢ <;> first
      | exact ⟨⟨h2 h.1.1, h1 h.1.2⟩, h3 h.2⟩
      | exact ⟨⟨h.1.1, h1 h.1.2⟩, h3 h.2⟩

theorem okE_of {e : Expr} : ∀ {m}, okR nt V m e = true → tame nt m e = true → okE nt V m e = true := by
  induction e with
  | cnst v => intro m h _; rfl
  | leaf k n => intro m h _; exact h
  | func0 f => intro m h _; exact h
  | func f a ih => intro m h t; simp only [okE, okR, Bool.and_eq_true] at h ⊢; exact ⟨h.1, ih h.2 t⟩
  | un op e ih => intro m h t; exact ih h t
  | bin op l r ih1 ih2 =>
    intro m h t
    cases op <;> simp only [okE, okR, tame, Bool.and_eq_true] at h t ⊢ <;> first
      | exact ⟨ih1 h.1 t.1, ih2 h.2 t.2⟩
      | exact ⟨ih1 h.1 t.1.2, ih2 h.2 t.2⟩
      | exact ⟨⟨h.1.1, ih1 h.1.2 t.1.2⟩, ih2 h.2 t.2⟩
      | exact ⟨⟨h.1.1, ih1 h.1.2 t.1⟩, ih2 h.2 t.2⟩
      | exact ⟨⟨t.1, ih1 h.1 t.2⟩, h.2⟩
      | exact ⟨⟨t.1.1, ih1 h.1 t.1.2⟩, ih2 h.2 t.2⟩
  | assV k n r ih => intro m h t; simp only [okE, okR, Bool.and_eq_true] at h ⊢; exact ⟨h.1, ih h.2 t⟩
  | assM op a i r h1 h2 h3 =>
    intro m h t
    cases op <;> simp only [okE, okR, tame, Bool.and_eq_true, Bool.false_eq_true, false_and] at h t ⊢ <;> first
      | exact ⟨⟨h2 h.1.1 t.1.2, h1 h.1.2 t.1.1.2⟩, h3 h.2 t.2⟩
      | exact ⟨⟨h.1.1, h1 h.1.2 t.1.1.2⟩, h3 h.2 t.2⟩

theorem okR_val {e : Expr} : ∀ {m}, okR nt V .val e = true → okR nt V m e = true := by
  induction e with
  | bin op l r ih1 ih2 =>
    intro m h
    cases op <;> simp_all [okR]
  | func0 f => intro m h; simp_all [okR]
  | func f a ih => intro m h; simp_all [okR]
  | _ => intro m h; exact h

variable (nt V) in
/-- The conditions are kept. -/
structure KeepR (e e' : Expr) : Prop where
  ok : ∀ m, okR nt V m e = true → okR nt V m e' = true
  fld : fieldOk e = true → fieldOk e' = true

theorem KeepR.refl (e : Expr) : KeepR nt V e e := ⟨fun _ => id, id⟩

theorem KeepR.trans {a b c : Expr} (h : KeepR nt V a b) (h' : KeepR nt V b c) : KeepR nt V a c :=
  ⟨fun p => h'.ok p ∘ h.ok p, h'.fld ∘ h.fld⟩

theorem KeepR.bin {op : Bin} {l l' r r' : Expr} (hl : KeepR nt V l l') (hr : KeepR nt V r r') :
    KeepR nt V (.bin op l r) (.bin op l' r') := by
  refine ⟨fun m h => ?_, nofun⟩
  cases op <;> simp only [okR, Bool.and_eq_true] at h ⊢ <;> first
    | exact ⟨hl.ok _ h.1, hr.ok _ h.2⟩
    | exact ⟨⟨h.1.1, hl.ok _ h.1.2⟩, hr.ok _ h.2⟩
    | exact ⟨hl.ok _ h.1, hr.fld h.2⟩

theorem KeepR.un {op : Un} {e e' : Expr} (h : KeepR nt V e e') : KeepR nt V (.un op e) (.un op e') :=
  ⟨fun _ h' => h.ok .val h', nofun⟩

theorem KeepR.func {f : Int} {e e' : Expr} (h : KeepR nt V e e') : KeepR nt V (.func f e) (.func f e') :=
  ⟨fun _ h' => by simp only [okR, Bool.and_eq_true] at h' ⊢; exact ⟨h'.1, h.ok .args h'.2⟩, nofun⟩

theorem KeepR.assV {k : Kind} {n : Int} {e e' : Expr} (h : KeepR nt V e e') : KeepR nt V (.assV k n e) (.assV k n e') :=
  ⟨fun _ h' => by simp only [okR, Bool.and_eq_true] at h' ⊢; exact ⟨h'.1, h.ok .val h'.2⟩, nofun⟩

theorem KeepR.assM {op : Bin} {a i e a' i' e' : Expr} (ha : KeepR nt V a a') (hi : KeepR nt V i i') (h : KeepR nt V e e') :
    KeepR nt V (.assM op a i e) (.assM op a' i' e') := by
  refine ⟨fun _ h' => ?_, nofun⟩
  cases op <;> simp only [okR, Bool.and_eq_true, Bool.false_eq_true, false_and] at h' ⊢ <;> first
    | exact ⟨⟨hi.ok _ h'.1.1, ha.ok _ h'.1.2⟩, h.ok _ h'.2⟩
    | exact ⟨⟨hi.fld h'.1.1, ha.ok _ h'.1.2⟩, h.ok _ h'.2⟩

/-! ### moveLeft -/

theorem keepR_pull {op o : Bin} (h : canPull op o = true) (a c d : Expr) :
    KeepR nt V (.bin op a (.bin o c d)) (.bin (pullN op o) (.bin (pullB op o) a c) d) := by
  cases op <;> cases o <;> first
    | (exfalso; revert h; decide)
    | (refine ⟨fun p h => ?_, nofun⟩; simp_all [okR, pullN, pullB])

theorem pull_keepR (e : Expr) : ∀ c, KeepR nt V (plug e c) (pull e c) := by
  induction e with
  | bin o c d ih1 ih2 =>
    rintro (_ | ⟨op, a⟩)
    · exact ((ih1 none).bin (.refl _)).trans (ih2 (some (o, pull c none)))
    · simp only [pull, plug]
      split
      · rename_i h
        exact (keepR_pull h a c d).trans (((ih1 (some (pullB op o, a))).bin (.refl _)).trans (ih2 (some (pullN op o, pull c (some (pullB op o, a))))))
      · exact .bin (.refl _) (((ih1 none).bin (.refl _)).trans (ih2 (some (o, pull c none))))
  | cnst v => rintro (_ | ⟨op, a⟩) <;> exact .refl _
  | leaf k n => rintro (_ | ⟨op, a⟩) <;> exact .refl _
  | func0 f => rintro (_ | ⟨op, a⟩) <;> exact .refl _
  | func f a ih => rintro (_ | ⟨op, b⟩); exacts [(ih none).func, .bin (.refl _) (ih none).func]
  | un u e ih => rintro (_ | ⟨op, b⟩); exacts [(ih none).un, .bin (.refl _) (ih none).un]
  | assV k n r ih => rintro (_ | ⟨op, b⟩); exacts [(ih none).assV, .bin (.refl _) (ih none).assV]
  | assM o a i r h1 h2 h3 =>
    rintro (_ | ⟨op, b⟩)
    exacts [.assM (h1 none) (h2 none) (h3 none), .bin (.refl _) (.assM (h1 none) (h2 none) (h3 none))]

/-! ### moveCnst -/

theorem keepR_swap {op o : Bin} (hm : movable op = true) (h : o = op ∨ (op = .add ∧ o = .sub)) (x a : Expr) (v : Int) :
    KeepR nt V (.bin op (.bin o x a) (.cnst v)) (.bin o (.bin op x (.cnst v)) a) := by
  rcases h with rfl | ⟨rfl, rfl⟩
  · cases o <;> first
      | (exfalso; revert hm; decide)
      | (refine ⟨fun p h => ?_, nofun⟩; simp_all [okR])
  · refine ⟨fun p h => ?_, nofun⟩; simp_all [okR]

theorem keepR_join {op : Bin} (hm : movable op = true) (x a c : Expr) :
    KeepR nt V (.bin op (.bin op x a) c) (.bin op x (.bin (if op = .div then .mul else op) a c)) := by
  cases op <;> first
    | (exfalso; revert hm; decide)
    | (refine ⟨fun p h => ?_, nofun⟩; simp_all [okR])

theorem mc_keepR {op : Bin} (hm : movable op = true) (v : Int) (l : Expr) :
    KeepR nt V (.bin op l (.cnst v)) (mc op l (.cnst v)) := by
  induction l with
  | bin o x a ih1 =>
    simp only [mc]
    split
    · rename_i h
      exact (keepR_swap hm h.1 x a v).trans (ih1.bin (.refl _))
    · split
      · rename_i h
        subst h
        exact keepR_join hm x a _
      · exact .refl _
  | _ => exact .refl _

theorem moveCnst_keepR (e : Expr) : KeepR nt V e (moveCnst e) := by
  have hn : KeepR nt V e (normSub e) := by
    unfold normSub
    split
    · refine ⟨fun p h => ?_, nofun⟩; simp_all [okR]
    · exact .refl _
  refine hn.trans ?_
  unfold moveCnst
  split
  · rename_i op l r h
    rw [h]
    split
    · rename_i h'
      obtain ⟨h1, h2⟩ := Bool.and_eq_true_iff.1 h'
      obtain ⟨v, rfl⟩ := isCnst_iff.1 h2
      exact mc_keepR h1 v l
    · exact .refl _
  · exact .refl _

/-! ### calExp -/

theorem keepR_fix (e : Expr) : KeepR nt V e (fix e) := by
  cases e with
  | cnst v =>
    refine ⟨fun _ _ => rfl, fun h => ?_⟩
    simp only [fieldOk, fix, msk, Bool.and_eq_true, decide_eq_true_eq] at h ⊢
    omega
  | _ => exact .refl _

theorem keepR_un (op : Un) (e : Expr) : KeepR nt V (.un op e) (optUn op e) := by
  unfold optUn
  split
  · cases op <;> exact ⟨fun p h => rfl, nofun⟩
  · exact .refl _

theorem keepR_left {op : Bin} (ho : opens op = true ∨ op = .div) (l r : Expr) : KeepR nt V (.bin op l r) l := by
  refine ⟨fun p h => ?_, nofun⟩
  cases op <;> first
      | (exfalso; revert ho; decide)
      | (simp only [okR, Bool.and_eq_true, decide_eq_true_eq] at h
         first | (exact okR_val h.1) | (obtain ⟨⟨rfl, h⟩, -⟩ := h; exact h))

theorem keepR_right {op : Bin} (ho : opens op = true) (l r : Expr) : KeepR nt V (.bin op l r) r := by
  refine ⟨fun p h => ?_, nofun⟩
  cases op <;> first
      | (exfalso; revert ho; decide)
      | (simp only [okR, Bool.and_eq_true, decide_eq_true_eq] at h
         first | (exact okR_val h.2) | (obtain ⟨⟨rfl, -⟩, h⟩ := h; exact h))

theorem keepR_cnst {op : Bin} {l r : Expr} {v : Int} : KeepR nt V (.bin op l r) (.cnst v) := ⟨fun _ _ => rfl, nofun⟩

theorem keepR_unL {op : Bin} {u : Un} (ho : op = .sub ∨ op = .mul ∨ op = .bxor) {l r : Expr} :
    KeepR nt V (.bin op l r) (.un u l) := by
  refine ⟨fun p h => ?_, nofun⟩
  rcases ho with rfl | rfl | rfl <;> simp_all [okR]

theorem keepR_unR {op : Bin} {u : Un} (ho : op = .sub ∨ op = .mul ∨ op = .bxor) {l r : Expr} :
    KeepR nt V (.bin op l r) (.un u r) := by
  refine ⟨fun p h => ?_, nofun⟩
  rcases ho with rfl | rfl | rfl <;> simp_all [okR]

theorem keepR_bin {op : Bin} {l r e : Expr} (h : optBin op l r = some e) : KeepR nt V (.bin op l r) e := by
  cases op <;> simp only [optBin, Option.some.injEq] at h <;>
    (try unfold optAdd at h) <;> (try unfold optSub at h) <;> (try unfold optShl at h) <;> (try unfold optShr at h) <;>
    (try unfold optBAnd at h) <;> (try unfold optBOr at h) <;> (try unfold optBXor at h) <;> (try unfold optMul at h) <;>
    (try unfold optDiv at h) <;> (try unfold optMod at h) <;> (try unfold optAnd at h) <;> (try unfold optOr at h) <;>
    (try unfold optCmp at h) <;> (repeat' split at h) <;> cases h
  all_goals first
    | exact .refl _
    | exact keepR_cnst
    | exact keepR_left (.inl rfl) _ _
    | exact keepR_left (.inr rfl) _ _
    | exact keepR_right rfl _ _
    | exact keepR_unR (.inl rfl)
    | exact keepR_unR (.inr (.inl rfl))
    | exact keepR_unR (.inr (.inr rfl))
    | exact keepR_unL (.inr (.inl rfl))
    | exact keepR_unL (.inr (.inr rfl))

theorem calExp_keepR {e : Expr} : ∀ {e'}, calExp e = some e' → KeepR nt V e e' := by
  induction e with
  | cnst v => intro e' h; cases h; exact keepR_fix _
  | leaf k n => intro e' h; cases h; exact .refl _
  | func0 f => intro e' h; cases h; exact .refl _
  | func f a ih =>
    intro e' h
    simp only [calExp, Option.map_eq_some_iff] at h
    obtain ⟨a', h1, rfl⟩ := h
    exact (ih h1).func
  | un op e ih =>
    intro e' h
    simp only [calExp, Option.map_eq_some_iff] at h
    obtain ⟨a', h1, rfl⟩ := h
    exact ((ih h1).un.trans (keepR_un op a')).trans (keepR_fix _)
  | bin op l r ih1 ih2 =>
    intro e' h
    simp only [calExp, Option.bind_eq_bind, Option.bind_eq_some_iff, Option.map_eq_some_iff] at h
    obtain ⟨l', h1, r', h2, a', h3, rfl⟩ := h
    exact (((ih1 h1).bin (ih2 h2)).trans (keepR_bin h3)).trans (keepR_fix _)
  | assV k n r ih =>
    intro e' h
    simp only [calExp, Option.map_eq_some_iff] at h
    obtain ⟨a', h1, rfl⟩ := h
    exact (ih h1).assV
  | assM op a i r h1 h2 h3 =>
    intro e' h
    simp only [calExp, Option.bind_eq_bind, Option.bind_eq_some_iff, Option.some.injEq] at h
    obtain ⟨a', g1, i', g2, r', g3, rfl⟩ := h
    exact .assM (h1 g1) (h2 g2) (h3 g3)

theorem arrExp_keepR {e : Expr} : ∀ {e'}, arrExp e = some e' → KeepR nt V e e' := by
  induction e with
  | cnst v => intro e' h; exact calExp_keepR h
  | leaf k n => intro e' h; exact calExp_keepR h
  | func0 f => intro e' h; exact calExp_keepR h
  | func f a ih =>
    intro e' h
    simp only [arrExp, Option.bind_eq_bind, Option.bind_eq_some_iff] at h
    obtain ⟨a', h1, h2⟩ := h
    exact (ih h1).func.trans (calExp_keepR h2)
  | un op e ih =>
    intro e' h
    simp only [arrExp, Option.bind_eq_bind, Option.bind_eq_some_iff] at h
    obtain ⟨a', h1, h2⟩ := h
    exact ((ih h1).un.trans (moveCnst_keepR _)).trans (calExp_keepR h2)
  | bin op l r ih1 ih2 =>
    intro e' h
    simp only [arrExp, Option.bind_eq_bind, Option.bind_eq_some_iff] at h
    obtain ⟨r', h1, l', h2, h3⟩ := h
    exact (((ih1 h2).bin (ih2 h1)).trans (moveCnst_keepR _)).trans (calExp_keepR h3)
  | assV k n r ih =>
    intro e' h
    simp only [arrExp, Option.bind_eq_bind, Option.bind_eq_some_iff] at h
    obtain ⟨a', h1, h2⟩ := h
    exact (ih h1).assV.trans (calExp_keepR h2)
  | assM op a i r h1 h2 h3 =>
    intro e' h
    simp only [arrExp, Option.bind_eq_bind, Option.bind_eq_some_iff] at h
    obtain ⟨r', g1, i', g2, a', g3, g4⟩ := h
    exact (KeepR.assM (h1 g3) (h2 g2) (h3 g1)).trans (calExp_keepR g4)

theorem optExp_okE {m : Mode} {e e' : Expr} (h : optExp e = some e') (ho : okE nt V m e = true) (ht : tame nt m e' = true) :
    okE nt V m e' = true :=
  okE_of (((pull_keepR e none).trans (arrExp_keepR h)).ok m (okR_of ho)) ht

theorem optExpO_okE {m : Mode} {e e' : Option Expr} (h : optExpO e = some e') (ho : e.all (okE nt V m) = true)
    (ht : e'.all (tame nt m) = true) : e'.all (okE nt V m) = true := by
  cases e with
  | none => cases h; rfl
  | some e =>
    simp only [optExpO, Option.map_eq_some_iff] at h
    obtain ⟨e', h1, rfl⟩ := h
    exact optExp_okE h1 ho ht

/-- The optimized statement meets the conditions of the code generator if the statement does. -/
theorem optTree_ok {S : Stmt} : ∀ {S'}, optTree S = some S' → okS nt V S = true → tameS nt S' = true → okS nt V S' = true := by
  induction S with
  | empty => intro S' h _ _; cases h; rfl
  | brk => intro S' h _ _; cases h; rfl
  | cnt => intro S' h _ _; cases h; rfl
  | exp e =>
    intro S' h ho ht
    simp only [optTree, Option.map_eq_some_iff] at h
    obtain ⟨e', h1, rfl⟩ := h
    exact optExp_okE h1 ho ht
  | ret e =>
    intro S' h ho ht
    simp only [optTree, Option.map_eq_some_iff] at h
    obtain ⟨e', h1, rfl⟩ := h
    exact optExpO_okE h1 ho ht
  | seq k a b ih1 ih2 =>
    intro S' h ho ht
    simp only [optTree, Option.bind_eq_bind, Option.bind_eq_some_iff, Option.some.injEq] at h
    obtain ⟨a', ha, b', hb, rfl⟩ := h
    simp only [okS, tameS, Bool.and_eq_true] at ho ht ⊢
    exact ⟨ih1 ha ho.1 ht.1, ih2 hb ho.2 ht.2⟩
  | ifs c a ih =>
    intro S' h ho ht
    simp only [optTree, Option.bind_eq_bind, Option.bind_eq_some_iff] at h
    obtain ⟨c', hc, h⟩ := h
    simp only [okS, Bool.and_eq_true] at ho
    split at h
    · split at h
      · exact ih h ho.2 ht
      · cases h; rfl
    · simp only [Option.map_eq_some_iff] at h
      obtain ⟨a', ha, rfl⟩ := h
      simp only [okS, tameS, Bool.and_eq_true] at ht ⊢
      exact ⟨optExp_okE hc ho.1 ht.1, ih ha ho.2 ht.2⟩
  | els c a b ih1 ih2 =>
    intro S' h ho ht
    simp only [optTree, Option.bind_eq_bind, Option.bind_eq_some_iff] at h
    obtain ⟨c', hc, h⟩ := h
    simp only [okS, Bool.and_eq_true] at ho
    split at h
    · split at h
      · exact ih1 h ho.1.2 ht
      · exact ih2 h ho.2 ht
    · simp only [Option.bind_eq_some_iff, Option.some.injEq] at h
      obtain ⟨b', hb, a', ha, rfl⟩ := h
      simp only [okS, tameS, Bool.and_eq_true] at ht ⊢
      exact ⟨⟨optExp_okE hc ho.1.1 ht.1.1, ih1 ha ho.1.2 ht.1.2⟩, ih2 hb ho.2 ht.2⟩
  | whl c a r ih =>
    intro S' h ho ht
    simp only [optTree, Option.bind_eq_bind, Option.bind_eq_some_iff] at h
    obtain ⟨c', hc, h⟩ := h
    simp only [okS, Bool.and_eq_true] at ho
    split at h
    · split at h
      · simp only [Option.bind_eq_some_iff, Option.some.injEq] at h
        obtain ⟨b', hb, r', hr, rfl⟩ := h
        simp only [okS, tameS, Bool.and_eq_true] at ht ⊢
        exact ⟨⟨rfl, ih hb ho.1.2 ht.1.2⟩, optExpO_okE hr ho.2 ht.2⟩
      · cases h; rfl
    · simp only [Option.bind_eq_some_iff, Option.some.injEq] at h
      obtain ⟨b', hb, r', hr, rfl⟩ := h
      simp only [okS, tameS, Bool.and_eq_true] at ht ⊢
      exact ⟨⟨optExpO_okE hc ho.1.1 ht.1.1, ih hb ho.1.2 ht.1.2⟩, optExpO_okE hr ho.2 ht.2⟩
  | dos a c ih =>
    intro S' h ho ht
    simp only [optTree, Option.bind_eq_bind, Option.bind_eq_some_iff] at h
    obtain ⟨c', hc, b', hb, h⟩ := h
    simp only [okS, Bool.and_eq_true] at ho
    split at h
    · split at h <;> cases h
      · simp only [okS, tameS, Bool.and_eq_true] at ht ⊢
        exact ⟨⟨rfl, ih hb ho.1 ht.1.2⟩, rfl⟩
      · exact ih hb ho.1 ht
    · cases h
      simp only [okS, tameS, Bool.and_eq_true] at ht ⊢
      exact ⟨ih hb ho.1 ht.1, optExp_okE hc ho.2 ht.2⟩

end Cmm.Opt
