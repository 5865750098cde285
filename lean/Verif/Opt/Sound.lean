import Verif.Opt.Good

/- Correctness of the passes of optree.c for good expressions. -/
namespace Cmm.Opt
open Cmm.Tree

variable {σ : Type}

/-- `e'` is as good as `e` and means the same. -/
structure Ref (w : World σ) (st : Prop) (e e' : Expr) : Prop where
  eq : eval w e' = eval w e
  good : Good w st e'
  nd : NoDiv e → NoDiv e'

theorem Ref.refl {w : World σ} {st e} (h : Good w st e) : Ref w st e e := ⟨rfl, h, id⟩

theorem Ref.trans {w : World σ} {st e e' e''} (h : Ref w st e e') (h' : Ref w st e' e'') :
    Ref w st e e'' := ⟨h'.eq.trans h.eq, h'.good, fun x => h'.nd (h.nd x)⟩

theorem good_bin_congr {w : World σ} {st op l r l' r'} (h : Good w st (.bin op l r))
    (hl : Ref w st l l') (hr : Ref w st r r') : Ref w st (.bin op l r) (.bin op l' r') := by
  obtain ⟨h1, h2, h3, h4⟩ := h
  refine ⟨by simp only [eval, hl.eq, hr.eq], ⟨hl.good, hr.good, ?_, fun h => hl.nd (h4 h)⟩, ?_⟩
  · rw [hl.eq, hr.eq]; exact h3
  · rintro ⟨a, b, c⟩; exact ⟨a, hl.nd b, hr.nd c⟩

/-! ### moveLeft -/

/-- The annihilator annihilates from the left. -/
theorem always_left (w : World σ) {op : Bin} {z : Word} (hz : zeroOf op = some z)
    (hop : op ≠ .mod) {X : Den σ} (h : Always X z) (d : Den σ) : Always (binD w op X d) z := by
  have key : ∀ f : Word → Word → σ → Word, (∀ y s, f z y s = z) → Always (strictD f X d) z := by
    intro f hf s vs s' e
    obtain ⟨us, s1, h1, h2⟩ := bind1_eq_some e
    obtain ⟨us2, s2, h3, h4⟩ := bind1_eq_some h2
    have := h _ _ _ h1
    subst this
    simp only [List.headD_cons, hf, Option.some.injEq, Prod.mk.injEq] at h4
    exact h4.1.symm
  cases op <;> simp only [zeroOf, Option.some.injEq, reduceCtorEq] at hz
  · subst hz; exact key _ fun y s => by simp [binVal]
  · subst hz; refine key _ fun y s => ?_
    show (0xffff : Word) ||| y = 0xffff
    rw [show (0xffff : Word) = BitVec.allOnes 16 from rfl, BitVec.allOnes_or]
  · subst hz; exact key _ fun y s => by simp [binVal]
  · exact absurd rfl hop
  · subst hz
    intro s vs s' e
    simp only [binD, orD] at e
    obtain ⟨us, s1, h1, h2⟩ := bind1_eq_some e
    have := h _ _ _ h1
    subst this
    simp at h2
    exact h2.1.symm
  · subst hz
    intro s vs s' e
    simp only [binD, andD] at e
    obtain ⟨us, s1, h1, h2⟩ := bind1_eq_some e
    have := h _ _ _ h1
    subst this
    simp at h2
    exact h2.1.symm

/-- If `X op d` is the meaning of a good expression then `X`, made with the same operator, has
no effect when it is constantly the annihilator. -/
theorem nz_inner (w : World σ) {cnt : σ → Nat} {op : Bin} {z : Word} (hz : zeroOf op = some z)
    (hop : op ≠ .mod) {X d : Den σ} (hX : Mono cnt X) (hd : Mono cnt d)
    (h : Always (binD w op X d) z → Const (binD w op X d) z) (hA : Always X z) : Const X z := by
  refine const_of_always hA (still_left w hX hd ?_ (h (always_left w hz hop hA d)).still)
  rintro rfl; simp [zeroOf] at hz

theorem pullN_same {op o : Bin} (h : canPull op o = true) :
    (pullN op o = op ∧ pullB op o = op ∧ o = op) ∨
    ((op = .add ∨ op = .sub) ∧ (o = .add ∨ o = .sub) ∧ (pullN op o = .add ∨ pullN op o = .sub) ∧
      pullB op o = op) := by
  cases op <;> cases o <;> revert h <;> decide

theorem local_addsub (w : World σ) {st : Prop} {op : Bin} (h : op = .add ∨ op = .sub)
    {a b : Den σ} (ha : Single a) (hb : Single b) : Local w st op a b := by
  rcases h with rfl | rfl <;>
    exact ⟨fun _ => ⟨ha, hb⟩, by simp, by simp [zeroOf], by simp, by simp⟩

theorem pull_good {w : World σ} {cnt : σ → Nat} (T : Traced w cnt) {st : Prop} {op o : Bin}
    {a c d : Expr} (h : canPull op o = true) (hg : Good w st (.bin op a (.bin o c d))) :
    Ref w st (.bin op a (.bin o c d)) (.bin (pullN op o) (.bin (pullB op o) a c) d) := by
  have heq := pull_eq w h (eval w a) (eval w c) (eval w d)
  obtain ⟨ga, ⟨gc, gd, lo, -⟩, lop, -⟩ := hg
  have hne : ∀ {op : Bin}, zeroOf op ≠ none → op ≠ .semi := by rintro op h rfl; simp [zeroOf] at h
  have hsemi : op ≠ .semi ∧ o ≠ .semi ∧ pullB op o ≠ .semi ∧ pullB op o ≠ .div ∧
      pullN op o ≠ .div := by
    cases op <;> cases o <;> revert h <;> decide
  obtain ⟨sa, -⟩ := lop.single hsemi.1
  obtain ⟨sc, sd⟩ := lo.single hsemi.2.1
  refine ⟨by simp only [eval, heq], ⟨⟨ga, gc, ?_, fun h => absurd h hsemi.2.2.2.1⟩, gd, ?_,
    fun h => absurd h hsemi.2.2.2.2⟩, ?_⟩
  · rcases pullN_same h with ⟨h1, h2, rfl⟩ | ⟨h1, h2, h3, h4⟩
    · rw [h2]
      rw [h1, h2] at heq
      refine ⟨fun _ => ⟨sa, sc⟩, fun h => ⟨(lop.bool h).1, (lo.bool h).1⟩, ?_, ?_, ?_⟩
      · intro z hz hA
        have hm : o ≠ .mod := by rintro rfl; revert h; decide
        refine nz_inner w hz hm (mono_bin w (mono_eval T a) (mono_eval T c) o) (mono_eval T d)
          ?_ hA
        rw [← heq]
        exact lop.nz z hz
      · intro _ hd; exfalso; rcases hd with rfl | rfl <;> revert h <;> decide
      · intro _ hd; exfalso; rcases hd with rfl | rfl <;> revert h <;> decide
    · rw [h4]; exact local_addsub w h1 sa sc
  · rcases pullN_same h with ⟨h1, h2, rfl⟩ | ⟨h1, h2, h3, h4⟩
    · rw [h1, h2]
      rw [h1, h2] at heq
      refine ⟨fun _ => ⟨single_bin w hsemi.1 _ _, sd⟩, fun h => ⟨?_, (lo.bool h).2⟩, ?_, ?_, ?_⟩
      · rcases h with rfl | rfl
        · exact isB_and _ _
        · exact isB_or _ _
      · intro z hz
        show Always (binD w o (binD w o _ _) _) z → Const (binD w o (binD w o _ _) _) z
        rw [← heq]
        exact lop.nz z hz
      · intro _ hd; exfalso; rcases hd with rfl | rfl <;> revert h <;> decide
      · intro _ hd; exfalso; rcases hd with rfl | rfl <;> revert h <;> decide
    · exact local_addsub w h3 (single_bin w hsemi.2.2.1 _ _) sd
  · rintro ⟨a1, a2, a3, a4, a5⟩
    exact ⟨hsemi.2.2.2.2, ⟨hsemi.2.2.2.1, a2, a4⟩, a5⟩

/-- What `pull` stands for. -/
def plug (e : Expr) : Option (Bin × Expr) → Expr
  | none => e
  | some (op, a) => .bin op a e

theorem good_plug_ref {w : World σ} {st e e'} {c : Option (Bin × Expr)}
    (h : Good w st (plug e c)) (he : Good w st e → Ref w st e e') :
    Ref w st (plug e c) (plug e' c) := by
  cases c with
  | none => exact he h
  | some p => exact good_bin_congr h (Ref.refl h.1) (he h.2.1)

theorem pull_ref {w : World σ} {cnt : σ → Nat} (T : Traced w cnt) {st : Prop} (e : Expr) :
    ∀ c, Good w st (plug e c) → Ref w st (plug e c) (pull e c) := by
  induction e with
  | cnst v => intro c h; rcases c with _ | ⟨op, a⟩ <;> exact Ref.refl h
  | leaf k n => intro c h; rcases c with _ | ⟨op, a⟩ <;> exact Ref.refl h
  | func0 f => intro c h; rcases c with _ | ⟨op, a⟩ <;> exact Ref.refl h
  | func f e ih =>
    have key : Good w st (.func f e) → Ref w st (.func f e) (.func f (pull e none)) := by
      intro h
      have := ih none h
      exact ⟨by simp only [eval, this.eq, plug], this.good, this.nd⟩
    intro c h
    rcases c with _ | ⟨op, a⟩
    · exact key h
    · exact good_bin_congr h (Ref.refl h.1) (key h.2.1)
  | un o e ih =>
    have key : Good w st (.un o e) → Ref w st (.un o e) (.un o (pull e none)) := by
      intro h
      have := ih none h.1
      exact ⟨by simp only [eval, this.eq, plug], ⟨this.good, by rw [this.eq]; exact h.2⟩, this.nd⟩
    intro c h
    rcases c with _ | ⟨op, a⟩
    · exact key h
    · exact good_bin_congr h (Ref.refl h.1) (key h.2.1)
  | assV k n r ih =>
    have key : Good w st (.assV k n r) → Ref w st (.assV k n r) (.assV k n (pull r none)) := by
      intro h
      have := ih none h
      exact ⟨by simp only [eval, this.eq, plug], this.good, this.nd⟩
    intro c h
    rcases c with _ | ⟨op, a⟩
    · exact key h
    · exact good_bin_congr h (Ref.refl h.1) (key h.2.1)
  | assM o x i r ihx ihi ihr =>
    have key : Good w st (.assM o x i r) →
        Ref w st (.assM o x i r) (.assM o (pull x none) (pull i none) (pull r none)) := by
      intro h
      have h1 := ihx none h.1
      have h2 := ihi none h.2.1
      have h3 := ihr none h.2.2
      exact ⟨by simp only [eval, h1.eq, h2.eq, h3.eq, plug], ⟨h1.good, h2.good, h3.good⟩,
        fun n => ⟨h1.nd n.1, h2.nd n.2.1, h3.nd n.2.2⟩⟩
    intro c h
    rcases c with _ | ⟨op, a⟩
    · exact key h
    · exact good_bin_congr h (Ref.refl h.1) (key h.2.1)
  | bin o c d ihc ihd =>
    have key : Good w st (.bin o c d) →
        Ref w st (.bin o c d) (pull d (some (o, pull c none))) := by
      intro h
      have h1 : Ref w st (.bin o c d) (.bin o (pull c none) d) :=
        good_bin_congr h (ihc none h.1) (Ref.refl h.2.1)
      exact h1.trans (ihd (some (o, pull c none)) h1.good)
    intro k h
    rcases k with _ | ⟨op, a⟩
    · exact key h
    · unfold pull
      split
      · rename_i hp
        have h1 := pull_good T hp h
        refine h1.trans ?_
        have h2 := good_bin_congr h1.good (ihc (some (pullB op o, a)) h1.good.1)
          (Ref.refl h1.good.2.1)
        exact h2.trans (ihd (some (_, _)) h2.good)
      · exact good_bin_congr h (Ref.refl h.1) (key h.2.1)

theorem moveLeft_ref {w : World σ} {cnt : σ → Nat} (T : Traced w cnt) {st : Prop} {e : Expr}
    (h : Good w st e) : Ref w st e (moveLeft e) := pull_ref T e none h

/-! ### moveCnst -/

theorem local_cnst (w : World σ) {st : Prop} {op : Bin} (hop : movable op = true)
    (hd : op ≠ .div) (a c : Int)
    (hb : op = .and ∨ op = .or → IsB (eval w (.cnst a)) ∧ IsB (eval w (.cnst c))) :
    Local w st op (eval w (.cnst a)) (eval w (.cnst c)) := by
  refine ⟨fun _ => ⟨single_const (const_cnst w a), single_const (const_cnst w c)⟩, hb, ?_, ?_, ?_⟩
  · intro z _ hA
    refine const_of_always hA fun s => ?_
    cases op <;> first
      | (exfalso; revert hop; decide)
      | exact ⟨_, rfl⟩
      | skip
    · by_cases h : I a = 0
      · exact ⟨[ofB (I c != 0)], by simp [binD, orD, eval, bind1, h]⟩
      · exact ⟨[1], by simp [binD, orD, eval, bind1]; exact fun h' => absurd h' h⟩
    · by_cases h : I a = 0
      · exact ⟨[0], by simp [binD, andD, eval, bind1, h]⟩
      · exact ⟨[ofB (I c != 0)], by simp [binD, andD, eval, bind1]; exact fun h' => absurd h' h⟩
  · intro _ h; exfalso; rcases h with rfl | rfl
    · exact hd rfl
    · revert hop; decide
  · intro _ h; exfalso; rcases h with rfl | rfl <;> revert hop <;> decide

theorem swap_strict {f g : Word → Word → σ → Word} {c : Word} {cd : Den σ} (hc : Const cd c)
    (h : ∀ x y s s', f (g x y s) c s = g (f x c s') y s) (x a : Den σ) :
    strictD f (strictD g x a) cd = strictD g (strictD f x cd) a := by
  funext s
  unfold strictD
  rcases x s with _ | ⟨vx, s1⟩
  · rfl
  · simp only [bind1]
    rw [hc s1]
    simp only [List.headD_cons]
    rcases a s1 with _ | ⟨va, s2⟩
    · rfl
    · simp only [List.headD_cons]
      rw [hc s2]
      simp only [List.headD_cons]
      rw [h]

theorem isB_const {d : Den σ} {v : Word} (h : Const d v) (hb : IsB d) (s : σ) : v = 0 ∨ v = 1 := by
  have := hb s _ _ (h s)
  simpa using this

/-- The identity behind the loop of moveCnst. -/
theorem swap_eq {w : World σ} {cnt : σ → Nat} {st : Prop} {op lOp : Bin} (hop : movable op = true)
    (hd : op ≠ .div) (hl : lOp = op ∨ (op = .add ∧ lOp = .sub)) {x a cd : Den σ} {c : Word}
    (mx : Mono cnt x) (ma : Mono cnt a) (hc : Const cd c)
    (L1 : Local w st lOp x a) (L : Local w st op (binD w lOp x a) cd) :
    binD w op (binD w lOp x a) cd = binD w lOp (binD w op x cd) a := by
  have mc : Mono cnt cd := by
    intro s vs s' e; rw [hc s] at e; simp at e; exact .inl e.2.symm
  rcases hl with rfl | ⟨rfl, rfl⟩
  · cases lOp <;> first
      | (exfalso; revert hop; decide)
      | exact absurd rfl hd
      | (refine swap_strict hc (fun x y s s' => ?_) x a
         show (_ : Word) = _
         simp [binVal] <;> first
           | ring
           | (rw [BitVec.and_assoc, BitVec.and_comm y, ← BitVec.and_assoc])
           | (rw [BitVec.or_assoc, BitVec.or_comm y, ← BitVec.or_assoc])
           | (rw [BitVec.xor_assoc, BitVec.xor_comm y, ← BitVec.xor_assoc]))
      | skip
    · -- or
      funext s
      obtain ⟨bx, ba⟩ := L1.bool (.inr rfl)
      rcases isB_const hc (L.bool (.inr rfl)).2 s with rfl | rfl
      · show orD (orD x a) cd s = orD (orD x cd) a s
        unfold orD
        rcases hx : x s with _ | ⟨vx, s1⟩
        · rfl
        · simp only [bind1, hc s1]
          rcases bx _ _ _ hx with rfl | rfl
          · rcases ha : a s1 with _ | ⟨va, s2⟩
            · simp [ofB, ha]
            · rcases ba _ _ _ ha with rfl | rfl <;> simp [ofB, hc s2, ha]
          · simp
      · have hA : Always (binD w .or (binD w .or x a) cd) 1 := by
          intro s vs s' e
          simp only [binD, orD] at e
          obtain ⟨us, s1, h1, h2⟩ := bind1_eq_some e
          simp only [hc s1, bind1] at h2
          split at h2 <;> simp [ofB] at h2 <;> exact h2.1.symm
        have hC := L.nz 1 rfl hA
        have hx := still_left w mx ma (by decide)
          (still_left w (mono_bin w mx ma .or) mc (by decide) hC.still)
        rw [hC s]
        obtain ⟨vs, hx⟩ := hx s
        show _ = orD (orD x cd) a s
        unfold orD
        simp only [hx, bind1, hc s]
        rcases bx _ _ _ hx with rfl | rfl <;> simp [ofB]
    · -- and
      funext s
      obtain ⟨bx, ba⟩ := L1.bool (.inl rfl)
      rcases isB_const hc (L.bool (.inl rfl)).2 s with rfl | rfl
      · have hA : Always (binD w .and (binD w .and x a) cd) 0 := by
          intro s vs s' e
          simp only [binD, andD] at e
          obtain ⟨us, s1, h1, h2⟩ := bind1_eq_some e
          simp only [hc s1, bind1] at h2
          split at h2 <;> simp [ofB] at h2 <;> exact h2.1.symm
        have hC := L.nz 0 rfl hA
        have hx := still_left w mx ma (by decide)
          (still_left w (mono_bin w mx ma .and) mc (by decide) hC.still)
        rw [hC s]
        obtain ⟨vs, hx⟩ := hx s
        show _ = andD (andD x cd) a s
        unfold andD
        simp only [hx, bind1, hc s]
        rcases bx _ _ _ hx with rfl | rfl <;> simp [ofB]
      · show andD (andD x a) cd s = andD (andD x cd) a s
        unfold andD
        rcases hx : x s with _ | ⟨vx, s1⟩
        · rfl
        · simp only [bind1, hc s1]
          rcases bx _ _ _ hx with rfl | rfl
          · simp
          · rcases ha : a s1 with _ | ⟨va, s2⟩
            · simp [ofB, ha]
            · rcases ba _ _ _ ha with rfl | rfl <;> simp [ofB, hc s2, ha]
  · refine swap_strict hc (fun x y s s' => ?_) x a
    show x - y + c = x + c - y
    ring

theorem combine_eq (w : World σ) {op : Bin} (hop : movable op = true) (hd : op ≠ .div)
    (x a c : Den σ) : binD w op (binD w op x a) c = binD w op x (binD w op a c) := by
  have h : canPull op op = true := by cases op <;> revert hop hd <;> decide
  have := pull_eq w h x a c
  rcases pullN_same h with ⟨h1, h2, -⟩ | ⟨h1, -⟩
  · rw [h1, h2] at this; exact this.symm
  · rcases h1 with rfl | rfl
    · exact this.symm
    · exfalso; revert hop; decide

theorem isCnst_iff {e : Expr} : isCnst e = true ↔ ∃ v, e = .cnst v := by
  cases e <;> simp [isCnst]

theorem movable_facts {op : Bin} (h : movable op = true) :
    op ≠ .semi ∧ op ≠ .mod ∧ op ≠ .sub ∧ op ≠ .shl ∧ op ≠ .shr := by
  cases op <;> revert h <;> decide

theorem mc_ref {w : World σ} {cnt : σ → Nat} (T : Traced w cnt) {st : Prop} {op : Bin}
    (hop : movable op = true) (c : Int) (l : Expr) :
    Good w st (.bin op l (.cnst c)) → Ref w st (.bin op l (.cnst c)) (mc op l (.cnst c)) := by
  obtain ⟨nsemi, nmod, nsub, nshl, nshr⟩ := movable_facts hop
  induction l with
  | cnst v => exact Ref.refl
  | leaf k n => exact Ref.refl
  | func0 f => exact Ref.refl
  | func f e ih => exact Ref.refl
  | un o e ih => exact Ref.refl
  | assV k n r ih => exact Ref.refl
  | assM o x i r ihx ihi ihr => exact Ref.refl
  | bin lOp x a ihx iha =>
    intro h
    unfold mc
    by_cases hd : op = .div
    · subst hd
      have : lOp ≠ .div := (h.2.2.2 rfl).1
      simp only [this, reduceCtorEq, false_and, or_false, if_false]
      exact Ref.refl h
    split
    · rename_i hc
      obtain ⟨hl, hc⟩ := hc
      have h' := h
      obtain ⟨⟨gx, ga, L1, D1⟩, gc, L, -⟩ := h
      have hlne : lOp ≠ .semi ∧ lOp ≠ .div ∧ lOp ≠ .mod ∧ lOp ≠ .shl ∧ lOp ≠ .shr := by
        rcases hl with rfl | ⟨rfl, rfl⟩
        · exact ⟨nsemi, hd, nmod, nshl, nshr⟩
        · decide
      have heq := swap_eq hop hd hl (mono_eval T x) (mono_eval T a) (const_cnst w c) L1 L
      have hinner : Good w st (.bin op x (.cnst c)) := by
        refine ⟨gx, gc, ⟨fun _ => ⟨(L1.single hlne.1).1, (L.single nsemi).2⟩, ?_, ?_, ?_, ?_⟩,
          fun h => absurd h hd⟩
        · intro hb
          have : lOp = op := by
            rcases hl with h | ⟨rfl, -⟩
            · exact h
            · simp at hb
          subst this
          exact ⟨(L1.bool hb).1, (L.bool hb).2⟩
        · intro z hz hA
          have : lOp = op := by
            rcases hl with h | ⟨rfl, -⟩
            · exact h
            · simp [zeroOf] at hz
          subst this
          refine nz_inner w hz nmod (mono_bin w (mono_eval T x) (mono_eval T (.cnst c)) lOp)
            (mono_eval T a) ?_ hA
          rw [← heq]
          exact L.nz z hz
        · rintro _ (rfl | rfl)
          · exact absurd rfl hd
          · exact absurd rfl nmod
        · rintro _ (rfl | rfl)
          · exact absurd rfl nshl
          · exact absurd rfl nshr
      have h1 : Ref w st (.bin op (.bin lOp x a) (.cnst c)) (.bin lOp (.bin op x (.cnst c)) a) := by
        refine ⟨by simp only [eval] at heq ⊢; exact heq.symm, ⟨hinner, ga, ⟨?_, ?_, ?_, ?_, ?_⟩,
          fun h => absurd h hlne.2.1⟩, ?_⟩
        · intro _; exact ⟨single_bin w nsemi _ _, (L1.single hlne.1).2⟩
        · intro hb
          have : lOp = op := by
            rcases hl with h | ⟨rfl, rfl⟩
            · exact h
            · simp at hb
          subst this
          refine ⟨?_, (L1.bool hb).2⟩
          rcases hb with rfl | rfl
          · exact isB_and _ _
          · exact isB_or _ _
        · intro z hz
          have : lOp = op := by
            rcases hl with h | ⟨rfl, rfl⟩
            · exact h
            · simp [zeroOf] at hz
          subst this
          have e : binD w lOp (eval w (.bin lOp x (.cnst c))) (eval w a) =
            binD w lOp (eval w (.bin lOp x a)) (eval w (.cnst c)) := heq.symm
          rw [e]
          exact L.nz z hz
        · rintro _ (h | h)
          · exact absurd h hlne.2.1
          · exact absurd h hlne.2.2.1
        · rintro _ (h | h)
          · exact absurd h hlne.2.2.2.1
          · exact absurd h hlne.2.2.2.2
        · rintro ⟨_, ⟨_, b, c⟩, d⟩
          exact ⟨hlne.2.1, ⟨hd, b, d⟩, c⟩
      exact h1.trans (good_bin_congr h1.good (ihx hinner) (Ref.refl ga))
    · rename_i hn
      split
      · rename_i hl
        subst hl
        have hca : isCnst a = true := by
          cases h : isCnst a
          · exact absurd ⟨.inl rfl, h⟩ hn
          · rfl
        obtain ⟨va, rfl⟩ := isCnst_iff.1 hca
        obtain ⟨⟨gx, ga, L1, -⟩, gc, L, -⟩ := h
        have heq := combine_eq w hop hd (eval w x) (eval w (.cnst va)) (eval w (.cnst c))
        refine ⟨by simp only [eval] at heq ⊢; exact heq.symm, ⟨gx, ⟨ga, gc, ?_,
          fun h => absurd h hd⟩, ⟨?_, ?_, ?_, ?_, ?_⟩, fun h => absurd h hd⟩, ?_⟩
        · exact local_cnst w hop hd va c fun hb => ⟨(L1.bool hb).2, (L.bool hb).2⟩
        · intro _; exact ⟨(L1.single nsemi).1, single_bin w nsemi _ _⟩
        · intro hb
          refine ⟨(L1.bool hb).1, ?_⟩
          rcases hb with rfl | rfl
          · exact isB_and (eval w (.cnst va)) (eval w (.cnst c))
          · exact isB_or (eval w (.cnst va)) (eval w (.cnst c))
        · intro z hz
          have e : binD w lOp (eval w x) (eval w (.bin lOp (.cnst va) (.cnst c))) =
            binD w lOp (eval w (.bin lOp x (.cnst va))) (eval w (.cnst c)) := heq.symm
          rw [e]
          exact L.nz z hz
        · rintro _ (h | h)
          · exact absurd h hd
          · exact absurd h nmod
        · rintro _ (h | h)
          · exact absurd h nshl
          · exact absurd h nshr
        · rintro ⟨_, ⟨_, b, c⟩, d⟩
          exact ⟨hd, b, hd, trivial, trivial⟩
      · exact Ref.refl h

theorem normSub_ref {w : World σ} {st : Prop} {e : Expr} (h : Good w st e) :
    Ref w st e (normSub e) := by
  unfold normSub
  split
  · rename_i l v
    obtain ⟨gl, -, L, -⟩ := h
    refine ⟨?_, ⟨gl, trivial, local_addsub w (.inl rfl) (L.single (by decide)).1
      (single_const (const_cnst w _)), by simp⟩, ?_⟩
    · funext s
      simp only [eval, binD, strictD]
      rcases eval w l s with _ | ⟨vs, s1⟩
      · rfl
      · simp only [bind1, binVal, List.headD_cons]
        rw [show BitVec.ofInt 16 (-sInt v) = -I v from I_neg v, BitVec.sub_eq_add_neg]
    · rintro ⟨_, a, b⟩; exact ⟨by decide, a, b⟩
  · exact Ref.refl h

theorem moveCnst_ref {w : World σ} {cnt : σ → Nat} (T : Traced w cnt) {st : Prop} {e : Expr}
    (h : Good w st e) : Ref w st e (moveCnst e) := by
  have h1 := normSub_ref h
  refine h1.trans ?_
  unfold moveCnst
  have h2 := h1.good
  split
  · rename_i op l r heq
    rw [heq] at h2 ⊢
    split
    · rename_i hc
      simp only [Bool.and_eq_true] at hc
      obtain ⟨v, rfl⟩ := isCnst_iff.1 hc.2
      exact mc_ref T hc.1 v l h2
    · exact Ref.refl h2
  · exact Ref.refl h2

/-! ### calExp -/

theorem isCnstN_iff {e : Expr} {n : Int} : isCnstN e n = true ↔ e = .cnst (msk n) := by
  cases e <;> simp [isCnstN]

theorem strict_const_left {f : Word → Word → σ → Word} {g : Word → Word} {a : Den σ} {v : Word}
    (ha : Const a v) (h : ∀ y s, f v y s = g y) (b : Den σ) : strictD f a b = unD g b := by
  funext s
  unfold strictD unD
  simp only [ha s, bind1, List.headD_cons, h]

theorem strict_const_right {f : Word → Word → σ → Word} {g : Word → Word} {b : Den σ} {v : Word}
    (hb : Const b v) (h : ∀ x s, f x v s = g x) (a : Den σ) : strictD f a b = unD g a := by
  funext s
  unfold strictD unD
  rcases a s with _ | ⟨va, s1⟩
  · rfl
  · simp only [bind1, hb s1, List.headD_cons, h]

theorem unD_id {g : Word → Word} {d : Den σ} (hd : Single d) (h : ∀ v, g v = v) :
    unD g d = d := by
  funext s
  unfold unD
  rcases e : d s with _ | ⟨vs, s1⟩
  · rfl
  · obtain ⟨v, rfl⟩ := hd _ _ _ e
    simp [bind1, h]

theorem strict_copy_right {f : Word → Word → σ → Word} {a b : Den σ} {v : Word} (ha : Const a v)
    (hb : Single b) (h : ∀ y s, f v y s = y) : strictD f a b = b :=
  (strict_const_left (g := id) ha h b).trans (unD_id hb fun _ => rfl)

theorem strict_copy_left {f : Word → Word → σ → Word} {a b : Den σ} {v : Word} (hb : Const b v)
    (ha : Single a) (h : ∀ x s, f x v s = x) : strictD f a b = a :=
  (strict_const_right (g := id) hb h a).trans (unD_id ha fun _ => rfl)

theorem strict_consts {f : Word → Word → σ → Word} {a b : Den σ} {u v r : Word} (ha : Const a u)
    (hb : Const b v) (h : ∀ s, f u v s = r) : Const (strictD f a b) r := by
  intro s
  simp only [strictD, ha s, bind1, hb s, List.headD_cons, h]

theorem always_right {f : Word → Word → σ → Word} {a b : Den σ} {v z : Word} (hb : Const b v)
    (h : ∀ x s, f x v s = z) : Always (strictD f a b) z := by
  intro s vs s' e
  obtain ⟨us, s1, h1, h2⟩ := bind1_eq_some e
  obtain ⟨us2, s2, h3, h4⟩ := bind1_eq_some h2
  rw [hb s1] at h3
  simp only [Option.some.injEq, Prod.mk.injEq] at h3
  rw [← h3.1] at h4
  simp only [List.headD_cons, h, Option.some.injEq, Prod.mk.injEq] at h4
  exact h4.1.symm

theorem always_left' {f : Word → Word → σ → Word} {a b : Den σ} {v z : Word} (ha : Const a v)
    (h : ∀ y s, f v y s = z) : Always (strictD f a b) z := by
  intro s vs s' e
  obtain ⟨us, s1, h1, h2⟩ := bind1_eq_some e
  obtain ⟨us2, s2, h3, h4⟩ := bind1_eq_some h2
  rw [ha s] at h1
  simp only [Option.some.injEq, Prod.mk.injEq] at h1
  rw [← h1.1] at h4
  simp only [List.headD_cons, h, Option.some.injEq, Prod.mk.injEq] at h4
  exact h4.1.symm

theorem I0 : I 0 = 0 := rfl
theorem I1 : I 1 = 1 := rfl
theorem Iff : I 65535 = 0xffff := rfl

theorem rng_fix {e : Expr} (h : ∀ v, e ≠ .cnst v → Rng e) : Rng (fix e) := by
  unfold fix
  split
  · unfold msk; constructor <;> omega
  · rename_i hn; exact h 0 (hn 0)

theorem rng_fix_cnst (v : Int) : Rng (fix (.cnst v)) := by
  unfold fix msk; constructor <;> omega

theorem fix_rng {e : Expr} (h : Rng e) : fix e = e := by
  unfold fix
  split
  · simp only [Rng] at h; unfold msk; congr 1; omega
  · rfl

theorem ref_cnst {w : World σ} {st : Prop} {e : Expr} {v : Int} (h : Const (eval w e) (I v)) :
    Ref w st e (fix (.cnst v)) := by
  refine ⟨?_, trivial, fun _ => trivial⟩
  funext s
  rw [h s]
  simp only [fix, eval]
  rw [show BitVec.ofInt 16 (msk v) = I v from ofInt_msk v]

theorem cB_eq (b : Bool) : ∃ v, cB b = .cnst v ∧ I v = ofB b := by
  cases b
  · exact ⟨0, rfl, rfl⟩
  · exact ⟨1, rfl, rfl⟩

theorem ref_cB {w : World σ} {st : Prop} {e : Expr} {b : Bool} (h : Const (eval w e) (ofB b)) :
    Ref w st e (fix (cB b)) := by
  obtain ⟨v, hv, hb⟩ := cB_eq b
  rw [hv]; rw [← hb] at h
  exact ref_cnst h

theorem rng_cB (b : Bool) : Rng (fix (cB b)) := by
  obtain ⟨v, hv, -⟩ := cB_eq b
  rw [hv]; exact rng_fix_cnst v

/-- Outcome of a pass on `e`: an equivalent tree with 16-bit constants, or an error, which can
not happen under the strict conditions. -/
def Okay (w : World σ) (st : Prop) (e : Expr) : Option Expr → Prop
  | some e' => Ref w st e e' ∧ Rng e'
  | none => ¬ st

theorem I_inj_01 {v : Int} (hv : 0 ≤ v ∧ v < 65536) (h : I v = 0 ∨ I v = 1) : v = 0 ∨ v = 1 := by
  rcases h with h | h
  · exact .inl (I_inj hv (by omega) h)
  · exact .inr (I_inj hv (by omega) h)

theorem optUn_ok {w : World σ} {st : Prop} {op : Un} {e : Expr} (hg : Good w st (.un op e))
    (hr : Rng e) : Okay w st (.un op e) (some (fix (optUn op e))) := by
  unfold optUn
  split
  · rename_i v
    have hv : 0 ≤ v ∧ v < 65536 := hr
    have hc : Const (eval w (.un op (.cnst v))) (unVal op (I v)) := fun s => rfl
    cases op <;> simp only [Okay]
    · exact ⟨ref_cnst (by rw [I_neg]; exact hc), rng_fix_cnst _⟩
    · refine ⟨ref_cB ?_, rng_cB _⟩
      intro s
      have e : unVal .not (I v) = ofB (!getB v) := by
        have := I_inj_01 hv (by simpa using hg.2 rfl s _ _ (const_cnst w v s))
        rcases this with rfl | rfl <;> rfl
      rw [← e]; exact hc s
    · exact ⟨ref_cnst (by rw [I_bnot]; exact hc), rng_fix_cnst _⟩
    · exact ⟨ref_cnst (by rw [I_chr hv.1]; exact hc), rng_fix_cnst _⟩
    · exact ⟨ref_cB (by rw [← I_bit hv.1]; exact hc), rng_cB _⟩
  · rename_i hn
    have : fix (.un op e) = .un op e := rfl
    rw [this]
    exact ⟨Ref.refl hg, hr⟩

section steps
variable {w : World σ} {st : Prop} {l r : Expr}

theorem okay_self {op : Bin} (hg : Good w st (.bin op l r)) (hl : Rng l) (hr : Rng r) :
    Okay w st (.bin op l r) (some (fix (.bin op l r))) := ⟨Ref.refl hg, hl, hr⟩

theorem okay_left {op : Bin} (hg : Good w st (.bin op l r)) (hl : Rng l)
    (h : binD w op (eval w l) (eval w r) = eval w l) : Okay w st (.bin op l r) (some (fix l)) := by
  rw [fix_rng hl]
  exact ⟨⟨h.symm, hg.1, fun n => n.2.1⟩, hl⟩

theorem okay_right {op : Bin} (hg : Good w st (.bin op l r)) (hr : Rng r)
    (h : binD w op (eval w l) (eval w r) = eval w r) : Okay w st (.bin op l r) (some (fix r)) := by
  rw [fix_rng hr]
  exact ⟨⟨h.symm, hg.2.1, fun n => n.2.2⟩, hr⟩

theorem okay_un_left {op : Bin} {u : Un} (hu : u ≠ .not) (hg : Good w st (.bin op l r))
    (hl : Rng l) (h : binD w op (eval w l) (eval w r) = unD (unVal u) (eval w l)) :
    Okay w st (.bin op l r) (some (fix (.un u l))) :=
  ⟨⟨h.symm, ⟨hg.1, fun h => absurd h hu⟩, fun n => n.2.1⟩, hl⟩

theorem okay_un_right {op : Bin} {u : Un} (hu : u ≠ .not) (hg : Good w st (.bin op l r))
    (hr : Rng r) (h : binD w op (eval w l) (eval w r) = unD (unVal u) (eval w r)) :
    Okay w st (.bin op l r) (some (fix (.un u r))) :=
  ⟨⟨h.symm, ⟨hg.2.1, fun h => absurd h hu⟩, fun n => n.2.2⟩, hr⟩

theorem okay_cnst {op : Bin} {v : Int} (h : Const (binD w op (eval w l) (eval w r)) (I v)) :
    Okay w st (.bin op l r) (some (fix (.cnst v))) :=
  ⟨ref_cnst h, rng_fix_cnst v⟩

theorem okay_cB {op : Bin} {b : Bool} (h : Const (binD w op (eval w l) (eval w r)) (ofB b)) :
    Okay w st (.bin op l r) (some (fix (cB b))) :=
  ⟨ref_cB h, rng_cB b⟩

theorem cn {e : Expr} {n : Int} (h : isCnstN e n = true) : Const (eval w e) (I n) := by
  rw [isCnstN_iff] at h
  subst h
  rw [← ofInt_msk]
  exact const_cnst w _

theorem optAdd_ok (hg : Good w st (.bin .add l r)) (hl : Rng l) (hr : Rng r) :
    Okay w st (.bin .add l r) (some (fix (optAdd l r))) := by
  obtain ⟨sl, sr⟩ := hg.2.2.1.single (by decide)
  unfold optAdd
  split
  · exact okay_cnst (strict_consts (const_cnst w _) (const_cnst w _) fun _ => (I_add _ _).symm)
  · split
    · rename_i h; exact okay_right hg hr (strict_copy_right (cn h) sr fun y _ => by simp [binVal])
    · split
      · rename_i h; exact okay_left hg hl (strict_copy_left (cn h) sl fun y _ => by simp [binVal])
      · exact okay_self hg hl hr

theorem optSub_ok (hg : Good w st (.bin .sub l r)) (hl : Rng l) (hr : Rng r) :
    Okay w st (.bin .sub l r) (some (fix (optSub l r))) := by
  obtain ⟨sl, sr⟩ := hg.2.2.1.single (by decide)
  unfold optSub
  split
  · exact okay_cnst (strict_consts (const_cnst w _) (const_cnst w _) fun _ => (I_sub _ _).symm)
  · split
    · rename_i h
      exact okay_un_right (by decide) hg hr
        (strict_const_left (cn h) (fun y _ => by simp [binVal, unVal]) _)
    · split
      · rename_i h; exact okay_left hg hl (strict_copy_left (cn h) sl fun y _ => by simp [binVal])
      · exact okay_self hg hl hr

theorem optShl_ok (hg : Good w st (.bin .shl l r)) (hl : Rng l) (hr : Rng r) :
    Okay w st (.bin .shl l r) ((optShl l r).map fix) := by
  obtain ⟨sl, sr⟩ := hg.2.2.1.single (by decide)
  unfold optShl
  split
  · rename_i n
    have hn : 0 ≤ n ∧ n < 65536 := hr
    split
    · rename_i h
      intro hs
      exact hg.2.2.1.shift hs (.inl rfl) (I n) (by rw [toNat_I hn.1 hn.2]; omega) (const_cnst w n)
    · split
      · rename_i h; exact okay_left hg hl (strict_copy_left (cn h) sl fun y _ => by simp [binVal])
      · split
        · rename_i a
          exact okay_cnst (strict_consts (const_cnst w _) (const_cnst w _)
            fun _ => (I_shl a n (by omega) (by omega)).symm)
        · exact okay_self hg hl hr
  · exact okay_self hg hl hr

theorem optShr_ok (hg : Good w st (.bin .shr l r)) (hl : Rng l) (hr : Rng r) :
    Okay w st (.bin .shr l r) ((optShr l r).map fix) := by
  obtain ⟨sl, sr⟩ := hg.2.2.1.single (by decide)
  unfold optShr
  split
  · rename_i n
    have hn : 0 ≤ n ∧ n < 65536 := hr
    split
    · rename_i h
      intro hs
      exact hg.2.2.1.shift hs (.inr rfl) (I n) (by rw [toNat_I hn.1 hn.2]; omega) (const_cnst w n)
    · split
      · rename_i h; exact okay_left hg hl (strict_copy_left (cn h) sl fun y _ => by simp [binVal])
      · split
        · rename_i a
          exact okay_cnst (strict_consts (const_cnst w _) (const_cnst w _)
            fun _ => (I_shr a n hl (by omega) (by omega)).symm)
        · exact okay_self hg hl hr
  · exact okay_self hg hl hr

theorem optBAnd_ok (hg : Good w st (.bin .band l r)) (hl : Rng l) (hr : Rng r) :
    Okay w st (.bin .band l r) (some (fix (optBAnd l r))) := by
  obtain ⟨sl, sr⟩ := hg.2.2.1.single (by decide)
  unfold optBAnd
  split
  · exact okay_cnst (strict_consts (const_cnst w _) (const_cnst w _)
      fun _ => (I_and hl.1 hr.1).symm)
  · split
    · rename_i h
      refine okay_cnst (hg.2.2.1.nz 0 rfl ?_)
      rcases Bool.or_eq_true_iff.1 h with h | h
      · exact always_left' (cn h) fun y _ => by simp [binVal]
      · exact always_right (cn h) fun y _ => by simp [binVal]
    · split
      · rename_i h
        exact okay_right hg hr (strict_copy_right (cn h) sr fun y _ => BitVec.allOnes_and)
      · split
        · rename_i h
          exact okay_left hg hl (strict_copy_left (cn h) sl fun y _ => BitVec.and_allOnes)
        · exact okay_self hg hl hr

theorem optBOr_ok (hg : Good w st (.bin .bor l r)) (hl : Rng l) (hr : Rng r) :
    Okay w st (.bin .bor l r) (some (fix (optBOr l r))) := by
  obtain ⟨sl, sr⟩ := hg.2.2.1.single (by decide)
  unfold optBOr
  split
  · exact okay_cnst (strict_consts (const_cnst w _) (const_cnst w _)
      fun _ => (I_or hl.1 hr.1).symm)
  · split
    · rename_i h
      refine okay_cnst (hg.2.2.1.nz 0xffff rfl ?_)
      rcases Bool.or_eq_true_iff.1 h with h | h
      · exact always_left' (cn h) fun y _ => BitVec.allOnes_or
      · exact always_right (cn h) fun y _ => BitVec.or_allOnes
    · split
      · rename_i h
        exact okay_right hg hr (strict_copy_right (cn h) sr fun y _ => by simp [binVal])
      · split
        · rename_i h
          exact okay_left hg hl (strict_copy_left (cn h) sl fun y _ => by simp [binVal])
        · exact okay_self hg hl hr

theorem optBXor_ok (hg : Good w st (.bin .bxor l r)) (hl : Rng l) (hr : Rng r) :
    Okay w st (.bin .bxor l r) (some (fix (optBXor l r))) := by
  obtain ⟨sl, sr⟩ := hg.2.2.1.single (by decide)
  unfold optBXor
  split
  · exact okay_cnst (strict_consts (const_cnst w _) (const_cnst w _)
      fun _ => (I_xor hl.1 hr.1).symm)
  · split
    · rename_i h
      exact okay_un_right (by decide) hg hr
        (strict_const_left (cn h) (fun y _ => BitVec.allOnes_xor) _)
    · split
      · rename_i h
        exact okay_right hg hr (strict_copy_right (cn h) sr fun y _ => by simp [binVal])
      · split
        · rename_i h
          exact okay_un_left (by decide) hg hl
            (strict_const_right (cn h) (fun y _ => BitVec.xor_allOnes) _)
        · split
          · rename_i h
            exact okay_left hg hl (strict_copy_left (cn h) sl fun y _ => by simp [binVal])
          · exact okay_self hg hl hr

theorem optMul_ok (hg : Good w st (.bin .mul l r)) (hl : Rng l) (hr : Rng r) :
    Okay w st (.bin .mul l r) (some (fix (optMul l r))) := by
  obtain ⟨sl, sr⟩ := hg.2.2.1.single (by decide)
  have n1 : I 65535 = -1 := rfl
  unfold optMul
  split
  · exact okay_cnst (strict_consts (const_cnst w _) (const_cnst w _) fun _ => (I_mul _ _).symm)
  · split
    · rename_i h
      refine okay_cnst (hg.2.2.1.nz 0 rfl ?_)
      rcases Bool.or_eq_true_iff.1 h with h | h
      · exact always_left' (cn h) fun y _ => by simp [binVal]
      · exact always_right (cn h) fun y _ => by simp [binVal]
    · split
      · rename_i h
        exact okay_right hg hr (strict_copy_right (cn h) sr fun y _ => by simp [binVal])
      · split
        · rename_i h
          exact okay_left hg hl (strict_copy_left (cn h) sl fun y _ => by simp [binVal])
        · split
          · rename_i h
            exact okay_un_right (by decide) hg hr
              (strict_const_left (cn h) (fun y _ => by rw [n1]; show -1 * y = -y; ring) _)
          · split
            · rename_i h
              exact okay_un_left (by decide) hg hl
                (strict_const_right (cn h) (fun y _ => by rw [n1]; show y * -1 = -y; ring) _)
            · exact okay_self hg hl hr

theorem optDiv_ok (hg : Good w st (.bin .div l r)) (hl : Rng l) (hr : Rng r) :
    Okay w st (.bin .div l r) ((optDiv l r).map fix) := by
  obtain ⟨sl, sr⟩ := hg.2.2.1.single (by decide)
  unfold optDiv
  split
  · rename_i h
    intro hs
    exact hg.2.2.1.divz hs (.inl rfl) (cn h)
  · rename_i hz
    split
    · rename_i a b
      refine okay_cnst (strict_consts (const_cnst w _) (const_cnst w _) fun _ => ?_)
      have : I b ≠ 0 := fun h => hz (by
        have := I_inj hr (b := 0) (by omega) h
        subst this; rfl)
      simp only [binVal, if_neg this]
      exact (I_div a b hl hr).symm
    · split
      · rename_i h
        exact okay_left hg hl (strict_copy_left (cn h) sl fun y _ => by
          simp only [binVal, I1, if_neg (show ¬ (1 : Word) = 0 by decide)]; exact sdiv_one y)
      · exact okay_self hg hl hr

theorem optMod_ok (hg : Good w st (.bin .mod l r)) (hl : Rng l) (hr : Rng r) :
    Okay w st (.bin .mod l r) ((optMod l r).map fix) := by
  obtain ⟨sl, sr⟩ := hg.2.2.1.single (by decide)
  unfold optMod
  split
  · rename_i h
    intro hs
    exact hg.2.2.1.divz hs (.inr rfl) (cn h)
  · rename_i hz
    split
    · rename_i a b
      refine okay_cnst (strict_consts (const_cnst w _) (const_cnst w _) fun _ => ?_)
      have : I b ≠ 0 := fun h => hz (by
        have := I_inj hr (b := 0) (by omega) h
        subst this; rfl)
      simp only [binVal, if_neg this]
      exact (I_mod a b hl hr).symm
    · split
      · rename_i h
        refine okay_cnst (hg.2.2.1.nz 0 rfl (always_right (cn h) fun y _ => ?_))
        simp only [binVal, I1, if_neg (show ¬ (1 : Word) = 0 by decide)]; exact srem_one y
      · exact okay_self hg hl hr

theorem optCmp_ok {op : Bin} (ho : op = .gt ∨ op = .ge ∨ op = .lt ∨ op = .le ∨ op = .equ ∨
    op = .neq) (hg : Good w st (.bin op l r)) (hl : Rng l) (hr : Rng r) :
    Okay w st (.bin op l r) (some (fix (optCmp op l r))) := by
  unfold optCmp
  split
  · rename_i a b
    have key : ∀ (f : Word → Word → σ → Word) (c : Bool), (∀ s, f (I a) (I b) s = ofB c) →
        Const (strictD f (eval w (.cnst a)) (eval w (.cnst b))) (ofB c) := fun f c h =>
      strict_consts (const_cnst w _) (const_cnst w _) h
    have ia := toInt_I hl.1 hl.2
    have ib := toInt_I hr.1 hr.2
    rcases ho with rfl | rfl | rfl | rfl | rfl | rfl
    · exact okay_cB (key _ _ fun s => by simp only [binVal, BitVec.slt, ia, ib, gt_iff_lt])
    · exact okay_cB (key _ _ fun s => by simp only [binVal, BitVec.sle, ia, ib, ge_iff_le])
    · exact okay_cB (key _ _ fun s => by simp only [binVal, BitVec.slt, ia, ib])
    · exact okay_cB (key _ _ fun s => by simp only [binVal, BitVec.sle, ia, ib])
    · refine okay_cB (key _ _ fun s => ?_)
      simp only [binVal]
      by_cases h : a = b
      · simp [h]
      · have : I a ≠ I b := fun h' => h (I_inj hl hr h')
        simp [h, beq_eq_false_iff_ne.2 this]
    · refine okay_cB (key _ _ fun s => ?_)
      simp only [binVal]
      by_cases h : a = b
      · simp [h]
      · have : I a ≠ I b := fun h' => h (I_inj hl hr h')
        simp [h, bne_iff_ne.2 this]
  · exact okay_self hg hl hr

theorem ofB_ne_of_b {v : Word} (h : v = 0 ∨ v = 1) : ofB (v != 0) = v := by
  rcases h with rfl | rfl <;> rfl

theorem optOr_ok (hg : Good w st (.bin .or l r)) (hl : Rng l) (hr : Rng r) :
    Okay w st (.bin .or l r) (some (fix (optOr l r))) := by
  obtain ⟨bl, br⟩ := hg.2.2.1.bool (.inr rfl)
  unfold optOr
  split
  · rename_i h
    refine okay_cB (hg.2.2.1.nz 1 rfl ?_)
    intro s vs s' e
    simp only [binD, orD] at e
    obtain ⟨us, s1, h1, h2⟩ := bind1_eq_some e
    rcases Bool.or_eq_true_iff.1 h with h | h
    · rw [cn (w := w) h s] at h1
      simp only [Option.some.injEq, Prod.mk.injEq] at h1
      rw [← h1.1] at h2
      simp [I1] at h2
      exact h2.1.symm
    · rw [cn (w := w) h s1] at h2
      simp only [bind1, I1] at h2
      split at h2 <;> simp [ofB] at h2 <;> exact h2.1.symm
  · split
    · rename_i h
      refine okay_right hg hr (funext fun s => ?_)
      simp only [binD, orD, cn (w := w) h s, bind1, I0, List.headD_cons, if_true]
      rcases e : eval w r s with _ | ⟨vs, s1⟩
      · rfl
      · rcases br _ _ _ e with rfl | rfl <;> rfl
    · split
      · rename_i h
        refine okay_left hg hl (funext fun s => ?_)
        simp only [binD, orD]
        rcases e : eval w l s with _ | ⟨vs, s1⟩
        · rfl
        · simp only [bind1, cn (w := w) h s1, I0]
          rcases bl _ _ _ e with rfl | rfl <;> rfl
      · exact okay_self hg hl hr

theorem optAnd_ok (hg : Good w st (.bin .and l r)) (hl : Rng l) (hr : Rng r) :
    Okay w st (.bin .and l r) (some (fix (optAnd l r))) := by
  obtain ⟨bl, br⟩ := hg.2.2.1.bool (.inl rfl)
  unfold optAnd
  split
  · rename_i h
    refine okay_cB (hg.2.2.1.nz 0 rfl ?_)
    intro s vs s' e
    simp only [binD, andD] at e
    obtain ⟨us, s1, h1, h2⟩ := bind1_eq_some e
    rcases Bool.or_eq_true_iff.1 h with h | h
    · rw [cn (w := w) h s] at h1
      simp only [Option.some.injEq, Prod.mk.injEq] at h1
      rw [← h1.1] at h2
      simp [I0] at h2
      exact h2.1.symm
    · rw [cn (w := w) h s1] at h2
      simp only [bind1, I0] at h2
      split at h2 <;> simp [ofB] at h2 <;> exact h2.1.symm
  · split
    · rename_i h
      refine okay_right hg hr (funext fun s => ?_)
      simp only [binD, andD, cn (w := w) h s, bind1, I1, List.headD_cons,
        if_neg (show ¬ (1 : Word) = 0 by decide)]
      rcases e : eval w r s with _ | ⟨vs, s1⟩
      · rfl
      · rcases br _ _ _ e with rfl | rfl <;> rfl
    · split
      · rename_i h
        refine okay_left hg hl (funext fun s => ?_)
        simp only [binD, andD]
        rcases e : eval w l s with _ | ⟨vs, s1⟩
        · rfl
        · simp only [bind1, cn (w := w) h s1, I1]
          rcases bl _ _ _ e with rfl | rfl <;> rfl
      · exact okay_self hg hl hr

theorem optBin_ok {op : Bin} (hg : Good w st (.bin op l r)) (hl : Rng l) (hr : Rng r) :
    Okay w st (.bin op l r) ((optBin op l r).map fix) := by
  cases op
  · exact optAdd_ok hg hl hr
  · exact optSub_ok hg hl hr
  · exact optShl_ok hg hl hr
  · exact optShr_ok hg hl hr
  · exact optBAnd_ok hg hl hr
  · exact optBXor_ok hg hl hr
  · exact optBOr_ok hg hl hr
  · exact optMul_ok hg hl hr
  · exact optDiv_ok hg hl hr
  · exact optMod_ok hg hl hr
  · exact okay_self hg hl hr
  · exact okay_self hg hl hr
  · exact okay_self hg hl hr
  · exact okay_self hg hl hr
  · exact okay_self hg hl hr
  · exact optCmp_ok (by decide) hg hl hr
  · exact optCmp_ok (by decide) hg hl hr
  · exact optCmp_ok (by decide) hg hl hr
  · exact optCmp_ok (by decide) hg hl hr
  · exact optCmp_ok (by decide) hg hl hr
  · exact optCmp_ok (by decide) hg hl hr
  · exact okay_self hg hl hr
  · exact optOr_ok hg hl hr
  · exact optAnd_ok hg hl hr
  · exact okay_self hg hl hr

end steps

theorem okay_ref {w : World σ} {st : Prop} {e e' : Expr} (h : Ref w st e e') {o : Option Expr}
    (ho : Okay w st e' o) : Okay w st e o := by
  cases o with
  | none => exact ho
  | some e'' => exact ⟨h.trans ho.1, ho.2⟩

theorem ref_un {w : World σ} {st : Prop} {op : Un} {e e' : Expr} (h : Good w st (.un op e))
    (h1 : Ref w st e e') : Ref w st (.un op e) (.un op e') :=
  ⟨by simp only [eval, h1.eq], ⟨h1.good, by rw [h1.eq]; exact h.2⟩, h1.nd⟩

theorem calExp_ok {w : World σ} {st : Prop} (e : Expr) (hg : Good w st e) :
    Okay w st e (calExp e) := by
  induction e with
  | cnst v => exact ⟨ref_cnst (const_cnst w v), rng_fix_cnst v⟩
  | leaf k n => exact ⟨Ref.refl hg, trivial⟩
  | func0 f => exact ⟨Ref.refl hg, trivial⟩
  | func f a ih =>
    have := ih hg
    unfold calExp
    rcases h : calExp a with _ | a'
    · rw [h] at this; exact this
    · rw [h] at this
      exact ⟨⟨by simp only [eval, this.1.eq], this.1.good, this.1.nd⟩, this.2⟩
  | un op e ih =>
    have := ih hg.1
    unfold calExp
    rcases h : calExp e with _ | e'
    · rw [h] at this; exact this
    · rw [h] at this
      have h1 := ref_un hg this.1
      exact okay_ref h1 (optUn_ok h1.good this.2)
  | bin op l r ihl ihr =>
    have hl := ihl hg.1
    have hr := ihr hg.2.1
    unfold calExp
    rcases h : calExp l with _ | l'
    · rw [h] at hl; exact hl
    · rw [h] at hl
      rcases h : calExp r with _ | r'
      · rw [h] at hr; exact hr
      · rw [h] at hr
        have h1 := good_bin_congr hg hl.1 hr.1
        exact okay_ref h1 (optBin_ok h1.good hl.2 hr.2)
  | assV k n r ih =>
    have := ih hg
    unfold calExp
    rcases h : calExp r with _ | a'
    · rw [h] at this; exact this
    · rw [h] at this
      exact ⟨⟨by simp only [eval, this.1.eq], this.1.good, this.1.nd⟩, this.2⟩
  | assM op a i r iha ihi ihr =>
    have ha := iha hg.1
    have hi := ihi hg.2.1
    have hr := ihr hg.2.2
    unfold calExp
    rcases h : calExp a with _ | a'
    · rw [h] at ha; exact ha
    · rw [h] at ha
      rcases h : calExp i with _ | i'
      · rw [h] at hi; exact hi
      · rw [h] at hi
        rcases h : calExp r with _ | r'
        · rw [h] at hr; exact hr
        · rw [h] at hr
          exact ⟨⟨by simp only [eval, ha.1.eq, hi.1.eq, hr.1.eq],
            ⟨ha.1.good, hi.1.good, hr.1.good⟩,
            fun n => ⟨ha.1.nd n.1, hi.1.nd n.2.1, hr.1.nd n.2.2⟩⟩, ha.2, hi.2, hr.2⟩

theorem arrExp_ok {w : World σ} {cnt : σ → Nat} (T : Traced w cnt) {st : Prop} (e : Expr)
    (hg : Good w st e) : Okay w st e (arrExp e) := by
  induction e with
  | cnst v => exact calExp_ok _ hg
  | leaf k n => exact calExp_ok _ hg
  | func0 f => exact calExp_ok _ hg
  | func f a ih =>
    have := ih hg
    unfold arrExp
    rcases h : arrExp a with _ | a'
    · rw [h] at this; exact this
    · rw [h] at this
      have h1 : Ref w st (.func f a) (.func f a') :=
        ⟨by simp only [eval, this.1.eq], this.1.good, this.1.nd⟩
      exact okay_ref h1 (calExp_ok _ h1.good)
  | un op e ih =>
    have := ih hg.1
    unfold arrExp
    rcases h : arrExp e with _ | e'
    · rw [h] at this; exact this
    · rw [h] at this
      have h1 := ref_un hg this.1
      have h2 := h1.trans (moveCnst_ref T h1.good)
      exact okay_ref h2 (calExp_ok _ h2.good)
  | bin op l r ihl ihr =>
    have hl := ihl hg.1
    have hr := ihr hg.2.1
    unfold arrExp
    rcases h : arrExp r with _ | r'
    · rw [h] at hr; exact hr
    · rw [h] at hr
      rcases h : arrExp l with _ | l'
      · rw [h] at hl; exact hl
      · rw [h] at hl
        have h1 := good_bin_congr hg hl.1 hr.1
        have h2 := h1.trans (moveCnst_ref T h1.good)
        exact okay_ref h2 (calExp_ok _ h2.good)
  | assV k n r ih =>
    have := ih hg
    unfold arrExp
    rcases h : arrExp r with _ | a'
    · rw [h] at this; exact this
    · rw [h] at this
      have h1 : Ref w st (.assV k n r) (.assV k n a') :=
        ⟨by simp only [eval, this.1.eq], this.1.good, this.1.nd⟩
      exact okay_ref h1 (calExp_ok _ h1.good)
  | assM op a i r iha ihi ihr =>
    have ha := iha hg.1
    have hi := ihi hg.2.1
    have hr := ihr hg.2.2
    unfold arrExp
    rcases h : arrExp r with _ | r'
    · rw [h] at hr; exact hr
    · rw [h] at hr
      rcases h : arrExp i with _ | i'
      · rw [h] at hi; exact hi
      · rw [h] at hi
        rcases h : arrExp a with _ | a'
        · rw [h] at ha; exact ha
        · rw [h] at ha
          have h1 : Ref w st (.assM op a i r) (.assM op a' i' r') :=
            ⟨by simp only [eval, ha.1.eq, hi.1.eq, hr.1.eq],
            ⟨ha.1.good, hi.1.good, hr.1.good⟩,
            fun n => ⟨ha.1.nd n.1, hi.1.nd n.2.1, hr.1.nd n.2.2⟩⟩
          exact okay_ref h1 (calExp_ok _ h1.good)

theorem optExp_ok {w : World σ} {cnt : σ → Nat} (T : Traced w cnt) {st : Prop} (e : Expr)
    (hg : Good w st e) : Okay w st e (optExp e) := by
  have h := moveLeft_ref T hg
  exact okay_ref h (arrExp_ok T _ h.good)

end Cmm.Opt
