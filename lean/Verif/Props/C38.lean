import Verif.Parse.Eval
import Verif.Opt.OptStmt

/-! C38: break and continue occur only inside loops, functions with a value end in return. -/
namespace Cmm.Parse
open Cmm.Tree

/-- Every break and continue of the statement is inside a loop; `l`: the statement itself is. -/
def JumpOk : Bool → Stmt → Prop
  | l, .brk => l = true
  | l, .cnt => l = true
  | l, .ifs _ a => JumpOk l a
  | l, .els _ a b => JumpOk l a ∧ JumpOk l b
  | _, .whl _ a _ => JumpOk true a
  | _, .dos a _ => JumpOk true a
  | l, .seq _ a b => JumpOk l a ∧ JumpOk l b
  | _, _ => True

/-- Every return of the statement has a value (`v`) or none has (`¬ v`). -/
def RetOk (v : Bool) : Stmt → Prop
  | .ret e => e.isSome = v
  | .ifs _ a => RetOk v a
  | .els _ a b => RetOk v a ∧ RetOk v b
  | .whl _ a _ => RetOk v a
  | .dos a _ => RetOk v a
  | .seq _ a b => RetOk v a ∧ RetOk v b
  | _ => True

/-- The tree of a declaration of local variables: nothing but initialisations. -/
inductive DeclTree : Stmt → Prop
  | none : DeclTree .empty
  | init (n : Int) (e : Expr) : DeclTree (.seq false .empty (.exp (.assV .loc n e)))
  | list {a b} : DeclTree a → DeclTree b → DeclTree (.seq false a b)

/-- The last statement is a return with a value; only declarations may follow. -/
inductive EndsInRet : Stmt → Prop
  | ret (e : Expr) : EndsInRet (.ret (some e))
  | last (k : Bool) (a : Stmt) (e : Expr) : EndsInRet (.seq k a (.ret (some e)))
  | decl {k a d} : EndsInRet a → DeclTree d → EndsInRet (.seq k a d)

/-- The function has a value: its type is neither void nor interrupt. -/
def Ent.valued (e : Ent) : Prop := e.type ≠ TyINTR ∧ ¬ (e.type = TyVOID ∧ e.dim = 0)

theorem hasVal_iff (e : Ent) : hasVal e.type e.dim = true ↔ e.valued := by
  simp only [hasVal, Ent.valued, Bool.and_eq_true, bne_iff_ne, Bool.or_eq_true, not_and_or]

theorem DTree.decl {T : Tab} {d : Stmt} (h : DTree T d) : DeclTree d := by
  cases h with
  | none => exact .none
  | init => exact .init _ _

theorem DeclTree.jump {d : Stmt} (h : DeclTree d) (l : Bool) : JumpOk l d := by
  induction h with
  | none => trivial
  | init => exact ⟨trivial, trivial⟩
  | list _ _ ih1 ih2 => exact ⟨ih1, ih2⟩

theorem DeclTree.ret {d : Stmt} (h : DeclTree d) (v : Bool) : RetOk v d := by
  induction h with
  | none => trivial
  | init => exact ⟨trivial, trivial⟩
  | list _ _ ih1 ih2 => exact ⟨ih1, ih2⟩

theorem lvarLoop_decl {o : Opts} {ty : Int} {d0 : Stmt} {s : PS} {r : Stmt × PS}
    (h : lvarLoop o ty d0 s = some r) : DeclTree d0 → DeclTree r.1 := by
  revert h
  refine lvarLoop.partial_correctness o ty (fun d0 s r => DeclTree d0 → DeclTree r.1) ?_ d0 s r
  intro loop ih d0 s r h hd
  split at h
  · simp only [Option.bind_eq_bind, Option.bind_eq_some_iff] at h
    obtain ⟨⟨d, s1⟩, h1, h⟩ := h
    exact ih _ _ _ h (.list hd (getLVar_some h1).2.decl)
  · cases h
    exact hd

theorem Dcls.lastStat {ty : Int} {s s' : PS} (h : Dcls ty s s') : s'.lastStat = s.lastStat := by
  induction h with
  | nil => rfl
  | snoc _ f d ih => rw [d.lastStat, f.lastStat, ih]

theorem getLVars_decl {o : Opts} {s s' : PS} {d : Stmt} (h : getLVars o s = some (d, s')) :
    DeclTree d ∧ s'.lastStat = s.lastStat := by
  constructor
  · simp only [getLVars, Option.bind_eq_bind, Option.bind_eq_some_iff] at h
    obtain ⟨⟨ty, s1⟩, h1, ⟨d1, s2⟩, h2, ⟨d2, s3⟩, h3, h⟩ := h
    cases h
    exact lvarLoop_decl h3 (getLVar_some h2).2.decl
  · obtain ⟨d, ty, s1, s2, h1, f, -, rfl⟩ := (getLVars_some h).run
    exact f.lastStat.trans h1.lastStat

/-- What holds of the trees the statement parser makes. -/
structure Shape (v : Bool) (l : Bool) (r : Option Stmt) : Prop where
  jump : JumpOk l (orEmpty r)
  ret : RetOk v (orEmpty r)

theorem Shape.cat {v l : Bool} {a b : Option Stmt} (h : Shape v l a) (g : Shape v l b) :
    Shape v l (catS a b) := by
  cases a with
  | none => exact g
  | some a =>
    cases b with
    | none => exact h
    | some b => exact ⟨⟨h.jump, g.jump⟩, ⟨h.ret, g.ret⟩⟩

theorem Shape.blk {v l : Bool} {a : Option Stmt} (h : Shape v l a) : Shape v l (toBlk a) := by
  unfold toBlk
  split
  · exact ⟨h.jump, h.ret⟩
  · exact h

theorem Simple.shape {o : Opts} {ty : Int} {dim : Nat} {s s' : PS} {r : Option Stmt}
    (h : Simple o ty dim s r s') : Shape (hasVal ty dim) (s.depth != 0) r := by
  cases h with
  | ret _ h =>
    obtain ⟨-, e, rfl, he⟩ := getReturn_fr h
    exact ⟨trivial, he⟩
  | brk _ hd _ => exact ⟨bne_iff_ne.2 hd, trivial⟩
  | cnt _ hd _ => exact ⟨bne_iff_ne.2 hd, trivial⟩
  | semi => exact ⟨trivial, trivial⟩
  | exp => exact ⟨trivial, trivial⟩

theorem getIni_shape {o : Opts} {s s' : PS} {i : Option Stmt} (h : getIni o s = some (i, s'))
    (v l : Bool) : Shape v l i := by
  simp only [getIni, Option.bind_eq_bind, Option.bind_eq_some_iff] at h
  obtain ⟨⟨i, s1⟩, h1, s2, h2, h⟩ := h
  cases h
  unfold getIni0 at h1
  split at h1
  · cases h1; exact ⟨trivial, trivial⟩
  · split at h1
    · rw [Option.map_eq_some_iff] at h1
      obtain ⟨⟨d, s3⟩, h3, h1⟩ := h1
      cases h1
      have := (getLVars_decl h3).1
      exact ⟨this.jump l, this.ret v⟩
    · rw [Option.map_eq_some_iff] at h1
      obtain ⟨⟨w, s3⟩, h3, h1⟩ := h1
      cases h1
      exact ⟨trivial, trivial⟩

theorem Run.shape {o : Opts} {ty : Int} {dim : Nat} {k : Option (Option Stmt)} {s s' : PS}
    {r : Option Stmt} (h : Run o ty dim k s r s') :
    (∀ l, k = some l → Shape (hasVal ty dim) (s.depth != 0) l) →
    Shape (hasVal ty dim) (s.depth != 0) r := by
  induction h with
  | simple h => exact fun _ => h.shape
  | ifs _ h1 _ ih =>
    intro _
    have := ih (fun l hl => by cases hl)
    rw [(getCond_fr h1).depth] at this
    exact ⟨this.jump, this.ret⟩
  | els _ h1 h2 _ _ ih1 ih2 =>
    intro _
    have g1 := ih1 (fun l hl => by cases hl)
    have g2 := ih2 (fun l hl => by cases hl)
    have e1 := (getCond_fr h1).depth
    have e2 : _ = _ := h2.eff.1.depth
    have e3 := e2.trans e1
    rw [e1] at g1
    rw [show ∀ s : PS, s.next.depth = s.depth from fun _ => rfl, e3] at g2
    exact ⟨⟨g1.jump, g2.jump⟩, ⟨g1.ret, g2.ret⟩⟩
  | whl _ h1 _ ih =>
    intro _
    have := ih (fun l hl => by cases hl)
    exact ⟨this.jump, this.ret⟩
  | dos _ _ _ _ _ ih =>
    intro _
    have := ih (fun l hl => by cases hl)
    exact ⟨this.jump, this.ret⟩
  | «for» _ _ h2 _ _ _ ih =>
    intro _
    have g1 := getIni_shape h2 (hasVal ty dim)
    have g2 := ih (fun l hl => by cases hl)
    exact ⟨⟨(g1 _).jump, g2.jump⟩, ⟨(g1 false).ret, g2.ret⟩⟩
  | blk _ _ ih =>
    intro _
    exact (ih (fun l hl => by cases hl; exact ⟨trivial, trivial⟩)).blk
  | done => exact fun h => h _ rfl
  | @decl l s d s1 s2 r s' h1 h2 _ ih =>
    intro hl
    have e : s2.depth = s.depth := (chkTok_fr h2).depth.trans (getLVars_some h1).eff.depth
    rw [e] at ih
    refine ih fun l' h' => ?_
    cases h'
    have := (getLVars_decl h1).1
    exact (hl _ rfl).cat ⟨this.jump _, this.ret _⟩
  | @stat l s d s1 r s' h1 _ ih1 ih2 =>
    intro hl
    rw [h1.eff.1.depth] at ih2
    refine ih2 fun l' h' => ?_
    cases h'
    exact (hl _ rfl).cat (ih1 fun l hl => by cases hl)

/-- As `EndsInRet`, for lists of statements. -/
def EndsO : Option Stmt → Prop
  | some s => EndsInRet s
  | none => False

theorem Run.ends {o : Opts} {ty : Int} {dim : Nat} {k : Option (Option Stmt)} {s s' : PS}
    {r : Option Stmt} (h : Run o ty dim k s r s') (hv : hasVal ty dim = true) :
    (k = none → s.toks.head? = some Lx.RETURN → ∃ e, r = some (.ret (some e))) ∧
    (∀ l, k = some l → (s.lastStat = some Lx.RETURN → EndsO l) →
      s'.lastStat = some Lx.RETURN → EndsO r) := by
  have nr : ∀ {t : Tok} {s : PS}, s.toks.head? = some t → t ≠ Lx.RETURN →
      ¬ s.toks.head? = some Lx.RETURN := by
    intro t s h1 h2 h3
    rw [h1] at h3
    exact h2 (Option.some.inj h3)
  induction h with
  | simple h =>
    refine ⟨fun _ hr => ?_, fun l hl => by cases hl⟩
    cases h with
    | ret _ h =>
      obtain ⟨-, e, rfl, he⟩ := getReturn_fr h
      rw [hv] at he
      obtain ⟨e, rfl⟩ := Option.isSome_iff_exists.1 he
      exact ⟨e, rfl⟩
    | brk h => exact absurd hr (nr h (by decide))
    | cnt h => exact absurd hr (nr h (by decide))
    | semi h => exact absurd hr (nr h (by decide))
    | exp h => exact absurd hr h
  | ifs h => exact ⟨fun _ hr => absurd hr (nr h (by decide)), fun l hl => by cases hl⟩
  | els h => exact ⟨fun _ hr => absurd hr (nr h (by decide)), fun l hl => by cases hl⟩
  | whl h => exact ⟨fun _ hr => absurd hr (nr h (by decide)), fun l hl => by cases hl⟩
  | dos h => exact ⟨fun _ hr => absurd hr (nr h (by decide)), fun l hl => by cases hl⟩
  | «for» h => exact ⟨fun _ hr => absurd hr (nr h (by decide)), fun l hl => by cases hl⟩
  | blk h => exact ⟨fun _ hr => absurd hr (nr h (by decide)), fun l hl => by cases hl⟩
  | done =>
    refine ⟨fun hk => (by cases hk), fun l hl hp hr => ?_⟩
    cases hl
    exact hp hr
  | @decl l s d s1 s2 r s' h1 h2 _ ih =>
    refine ⟨fun hk => (by cases hk), fun l hl hp => ?_⟩
    cases hl
    refine ih.2 _ rfl fun hr => ?_
    rw [(chkTok_fr h2).lastStat, (getLVars_decl h1).2] at hr
    have hp := hp hr
    cases l with
    | none => exact hp.elim
    | some l => exact .decl hp (getLVars_decl h1).1
  | @stat l s d s1 r s' h1 _ ih1 ih2 =>
    refine ⟨fun hk => (by cases hk), fun l hl hp => ?_⟩
    cases hl
    refine ih2.2 _ rfl fun hr => ?_
    have e : s1.lastStat = s.toks.head? := by cases h1 <;> rfl
    rw [e] at hr
    obtain ⟨e, rfl⟩ := ih1.1 rfl hr
    cases l with
    | none => exact .ret e
    | some l => exact .last _ _ e

theorem EndsO.blk {a : Option Stmt} (h : EndsO a) : EndsInRet (orEmpty (toBlk a)) := by
  cases a with
  | none => exact h.elim
  | some a =>
    change EndsInRet a at h
    cases h with
    | ret e => exact .ret e
    | last k a e =>
      cases k
      · exact .last _ _ _
      · exact .last _ _ _
    | @decl k _ _ h1 h2 =>
      cases k
      · exact .decl h1 h2
      · exact .decl h1 h2

/-- What the theorem says about a function handed to the code generator. -/
def FuncOk : Out → Prop
  | .func f _ src _ tab _ => ∃ e, tab[f]? = some e ∧ JumpOk false src ∧
      (e.valued → EndsInRet src ∧ RetOk true src) ∧ (¬ e.valued → RetOk false src)
  | _ => True

theorem funcOk_inv (o : Opts) : TopInv o fun _ d out => d = 0 ∧ ∀ x ∈ out, FuncOk x where
  start := ⟨rfl, by simp⟩
  struct h _ _ _ _ := h
  typedef h _ _ _ := h
  var := by
    intro t d out e t' out' h _ _ _ _ hv
    refine ⟨h.1, ?_⟩
    rcases hv with ⟨-, hv⟩ | ⟨_, _, -, -, -, -, hv⟩ | ⟨-, hv⟩ <;> subst hv
    · exact h.2
    · exact List.forall_mem_cons.2 ⟨trivial, h.2⟩
    · exact List.forall_mem_cons.2 ⟨trivial, h.2⟩
  func := by
    intro t s s' e ty h _ _ _ hty hdim hr
    obtain ⟨x, old, -, -, hc⟩ := hr.run
    rcases hc with ⟨f, -⟩ | ⟨s2, s3, b, body, h1, h2, -, -, -, h6, h7, -, h9, h10, -, h12, h13, -⟩
    · exact ⟨f.depth.trans h.1, by rw [show s'.out = s.out from f.out]; exact h.2⟩
    · have hb := getBlock_back h9
      refine ⟨(h13.trans (hb.depth.trans h2)).trans h.1, ?_⟩
      rw [h12, hb.out, h7]
      refine List.forall_mem_cons.2 ⟨?_, h.2⟩
      obtain ⟨y, hy, -⟩ := hb.void
      obtain ⟨l, s1, g1, g2⟩ := (run_all o ty s.curDim).2.2.1 _ _ h9
      have hsh := g1.shape (fun l hl => by cases hl; exact ⟨trivial, trivial⟩)
      rw [h2, h.1] at hsh
      have hb' : b = toBlk l := congrArg Prod.fst g2
      have hs3 : s3.lastStat = s1.lastStat := by
        have := congrArg Prod.snd g2
        dsimp only at this
        rw [this]
        rfl
      have hsh := hsh.blk
      rw [← hb'] at hsh
      have hval := hasVal_iff { e with cnt := x.length, scope := ScFUNC }
      rw [show hasVal ty s.curDim =
        hasVal ({ e with cnt := x.length, scope := ScFUNC } : Ent).type
          ({ e with cnt := x.length, scope := ScFUNC } : Ent).dim by rw [← hty, ← hdim]] at *
      refine ⟨{ e with cnt := x.length, scope := ScFUNC }, ?_, hsh.jump, ?_, ?_⟩
      · rw [hy, h1, List.append_assoc, ← markOld_len old t]
        simp
      · intro hv
        have hv' := hval.2 hv
        refine ⟨?_, ?_⟩
        · rw [hb']
          refine EndsO.blk ((g1.ends ?_).2 _ rfl ?_ ?_)
          · rw [← hty, ← hdim]; exact hv'
          · intro hr
            rw [h6] at hr
            cases hr
          · rw [← hs3]
            exact h10 hv'
        · have := hsh.ret
          rw [hv'] at this
          exact this
      · intro hv
        have := hsh.ret
        rw [Bool.eq_false_iff.2 fun h => hv (hval.1 h)] at this
        exact this

/-- C38 In every function of an accepted program break and continue occur only inside loops of that
function. If its type is neither void nor interrupt its last statement is a return, and every
return has a value; otherwise no return has one. (`src` is the tree of the body; `tab[f]` is
the entry of the function.) -/
theorem C38 (o : Opts) (toks : List Tok) (s : PS) (h : getSrc o (start toks) = some s)
    (f cnt : Nat) (src body : Stmt) (tab : Tab) (pts : List Tab)
    (hf : .func f cnt src body tab pts ∈ s.out) :
    ∃ e, tab[f]? = some e ∧ JumpOk false src ∧ (e.valued → EndsInRet src ∧ RetOk true src) ∧
      (¬ e.valued → RetOk false src) :=
  ((funcOk_inv o).final h).2 _ hf

/-- A statement whose jumps are inside loops does not end in a jump. -/
theorem JumpOk.exec {σ : Type} {ev : Expr → Den σ} {a : Stmt} {s s' : σ} {r : Outcome}
    (h : Exec ev a s r s') : ∀ l, JumpOk l a → l = false → r ≠ .brk ∧ r ≠ .cnt := by
  induction h with
  | brk => intro l h hl; cases h.symm.trans hl
  | cnt => intro l h hl; cases h.symm.trans hl
  | empty => intros; constructor <;> (intro h; cases h)
  | exp => intros; constructor <;> (intro h; cases h)
  | ifT _ _ ih => exact fun l h => ih l h
  | ifF => intros; constructor <;> (intro h; cases h)
  | elsT _ _ ih => exact fun l h => ih l h.1
  | elsF _ _ ih => exact fun l h => ih l h.2
  | whlF => intros; constructor <;> (intro h; cases h)
  | whlB => intros; constructor <;> (intro h; cases h)
  | whlR => intros; constructor <;> (intro h; cases h)
  | whlL _ _ _ _ _ _ ih => exact fun l h => ih l h
  | doB => intros; constructor <;> (intro h; cases h)
  | doR => intros; constructor <;> (intro h; cases h)
  | doF => intros; constructor <;> (intro h; cases h)
  | doL _ _ _ _ _ ih => exact fun l h => ih l h
  | ret0 => intros; constructor <;> (intro h; cases h)
  | ret => intros; constructor <;> (intro h; cases h)
  | seqN _ _ _ ih => exact fun l h => ih l h.2
  | seqX _ _ ih => exact fun l h => ih l h.1

theorem RetOk.exec {σ : Type} {ev : Expr → Den σ} {a : Stmt} {s s' : σ} {r : Outcome} {b : Bool}
    (h : Exec ev a s r s') : RetOk b a → ∀ v, r = .ret v → v.isSome = b := by
  induction h with
  | ret0 => intro h v hv; cases hv; exact h
  | ret => intro h v hv; cases hv; exact h
  | ifT _ _ ih => exact fun h => ih h
  | elsT _ _ ih => exact fun h => ih h.1
  | elsF _ _ ih => exact fun h => ih h.2
  | whlR _ _ ih => intro h v hv; cases hv; exact ih h _ rfl
  | whlL _ _ _ _ _ _ ih => exact fun h => ih h
  | doR _ ih => intro h v hv; cases hv; exact ih h _ rfl
  | doL _ _ _ _ _ ih => exact fun h => ih h
  | seqN _ _ _ ih => exact fun h => ih h.2
  | seqX _ _ ih => exact fun h => ih h.1
  | _ => intro _ v hv; cases hv

theorem EndsInRet.exec {σ : Type} {ev : Expr → Den σ} {a : Stmt} (h : EndsInRet a) :
    ∀ {s s' : σ}, ¬ Exec ev a s .normal s' := by
  induction h with
  | ret e => intro s s' h; cases h
  | last k a e =>
    intro s s' h
    cases h with
    | seqN _ h => cases h
    | seqX _ h => exact h rfl
  | decl _ _ ih =>
    intro s s' h
    cases h with
    | seqN h _ => exact ih h
    | seqX _ h => exact h rfl

/-- C38 for executions: when the body of a function terminates, it does so by a return with a
value if the function has one; otherwise it ends normally or by a return without a value. It never
falls off the end of a function with a value, and never ends in a break or continue. -/
theorem C38_exec (o : Opts) (toks : List Tok) (s : PS) (h : getSrc o (start toks) = some s)
    (f cnt : Nat) (src body : Stmt) (tab : Tab) (pts : List Tab)
    (hf : .func f cnt src body tab pts ∈ s.out) {σ : Type} (ev : Expr → Den σ) (m m' : σ) (r : Outcome)
    (hx : Exec ev src m r m') :
    ∃ e, tab[f]? = some e ∧ (e.valued → ∃ v, r = .ret (some v)) ∧
      (¬ e.valued → r = .normal ∨ r = .ret none) := by
  obtain ⟨e, he, h1, h2, h3⟩ := C38 o toks s h f cnt src body tab pts hf
  have hj := JumpOk.exec hx false h1 rfl
  refine ⟨e, he, fun hv => ?_, fun hv => ?_⟩
  · cases r with
    | normal => exact ((h2 hv).1.exec hx).elim
    | brk => exact (hj.1 rfl).elim
    | cnt => exact (hj.2 rfl).elim
    | ret v =>
      obtain ⟨v, rfl⟩ := Option.isSome_iff_exists.1 (RetOk.exec hx (h2 hv).2 v rfl)
      exact ⟨v, rfl⟩
  · cases r with
    | normal => exact .inl rfl
    | brk => exact (hj.1 rfl).elim
    | cnt => exact (hj.2 rfl).elim
    | ret v =>
      have := RetOk.exec hx (h3 hv) v rfl
      cases v with
      | none => exact .inr rfl
      | some v => cases this

/-- `int f(int n) { while (true) { if (false) break; } return n; }
    void g() { do break; while (false); }` -/
def prog38 : List Tok :=
  [Lx.INT, .name "f", Lx.lpar, Lx.INT, .name "n", Lx.rpar, Lx.lbrc,
   Lx.WHILE, Lx.lpar, .log 1, Lx.rpar, Lx.lbrc,
   Lx.IF, Lx.lpar, .log 0, Lx.rpar, Lx.BREAK, Lx.semi, Lx.rbrc,
   Lx.RETURN, .name "n", Lx.semi, Lx.rbrc,
   Lx.VOID, .name "g", Lx.lpar, Lx.rpar, Lx.lbrc, Lx.DO, Lx.BREAK, Lx.semi,
   Lx.WHILE, Lx.lpar, .log 0, Lx.rpar, Lx.semi, Lx.rbrc]

/-- The functions of the program (the optimised trees are not the trees C38 speaks of). -/
example : ∃ s, getSrc ⟨true, false⟩ (start prog38) = some s ∧
    s.out.filterMap Out.fn =
      [(2, 0, .dos .brk (.cnst 0), .brk),
       (0, 0, .seq true (.whl (some (.cnst 1)) (.ifs (.cnst 0) .brk) none)
          (.ret (some (.leaf .prm 1))),
        .seq true (.whl none (.exp (.cnst 0)) none) (.ret (some (.leaf .prm 1))))] :=
  run_ok 60 _ (by decide +kernel)

/-- The loops whose condition the optimizer finds to be false have no break or continue of their own. -/
def DoOk : Stmt → Prop
  | .dos b c => DoOk b ∧ ((∃ v, Opt.optExp c = some (.cnst v) ∧ Opt.getB v = false) → JumpOk false b)
  | .ifs _ a => DoOk a
  | .els _ a b => DoOk a ∧ DoOk b
  | .whl _ a _ => DoOk a
  | .seq _ a b => DoOk a ∧ DoOk b
  | _ => True

theorem JumpOk.mono : ∀ {a : Stmt} {l : Bool}, JumpOk false a → JumpOk l a
  | .brk, _, h => by cases h
  | .cnt, _, h => by cases h
  | .ifs _ a, l, h => by
    have : JumpOk false a := h
    exact (JumpOk.mono this : JumpOk l a)
  | .els _ _ _, _, h => ⟨JumpOk.mono h.1, JumpOk.mono h.2⟩
  | .whl _ _ _, _, h => h
  | .dos _ _, _, h => h
  | .seq _ _ _, _, h => ⟨JumpOk.mono h.1, JumpOk.mono h.2⟩
  | .empty, _, _ => trivial
  | .exp _, _, _ => trivial
  | .ret _, _, _ => trivial

theorem optTree_jump : ∀ (a : Stmt) {a' : Stmt} {l : Bool}, Opt.optTree a = some a' → DoOk a →
    JumpOk l a → JumpOk l a' := by
  intro a
  induction a with
  | empty => intro a' l h _ _; cases h; trivial
  | exp e =>
    intro a' l h _ _
    simp only [Opt.optTree, Option.map_eq_some_iff] at h
    obtain ⟨e', -, rfl⟩ := h
    trivial
  | ifs c b ih =>
    intro a' l h hd hj
    simp only [Opt.optTree, Option.bind_eq_bind, Option.bind_eq_some_iff] at h
    obtain ⟨c', -, h⟩ := h
    split at h
    · split at h
      · exact ih h hd hj
      · cases h; trivial
    · rw [Option.map_eq_some_iff] at h
      obtain ⟨b', h1, rfl⟩ := h
      have hj' : JumpOk l b := hj
      have : JumpOk l b' := ih h1 hd hj'
      exact this
  | els c a b ih1 ih2 =>
    intro a' l h hd hj
    simp only [Opt.optTree, Option.bind_eq_bind, Option.bind_eq_some_iff] at h
    obtain ⟨c', -, h⟩ := h
    split at h
    · split at h
      · exact ih1 h hd.1 hj.1
      · exact ih2 h hd.2 hj.2
    · simp only [Option.bind_eq_some_iff] at h
      obtain ⟨b', h1, a', h2, h⟩ := h
      cases h
      exact ⟨ih1 h2 hd.1 hj.1, ih2 h1 hd.2 hj.2⟩
  | whl c b r ih =>
    intro a' l h hd hj
    simp only [Opt.optTree, Option.bind_eq_bind, Option.bind_eq_some_iff] at h
    obtain ⟨c', -, h⟩ := h
    split at h
    · split at h
      · simp only [Option.bind_eq_some_iff] at h
        obtain ⟨b', h1, r', h2, h⟩ := h
        cases h
        exact ih (l := true) h1 hd hj
      · cases h; trivial
    · simp only [Option.bind_eq_some_iff] at h
      obtain ⟨b', h1, r', h2, h⟩ := h
      cases h
      exact ih (l := true) h1 hd hj
  | dos b c ih =>
    intro a' l h hd hj
    simp only [Opt.optTree, Option.bind_eq_bind, Option.bind_eq_some_iff] at h
    obtain ⟨c', hc, b', h1, h⟩ := h
    split at h
    · split at h
      · cases h
        exact ih (l := true) h1 hd.1 hj
      · rename_i v hv
        cases h
        exact ih h1 hd.1 (hd.2 ⟨v, hc, by simpa using hv⟩).mono
    · cases h
      exact ih (l := true) h1 hd.1 hj
  | brk => intro a' l h _ hj; cases h; exact hj
  | cnt => intro a' l h _ hj; cases h; exact hj
  | ret e =>
    intro a' l h _ _
    simp only [Opt.optTree, Option.map_eq_some_iff] at h
    obtain ⟨e', -, rfl⟩ := h
    trivial
  | seq k a b ih1 ih2 =>
    intro a' l h hd hj
    simp only [Opt.optTree, Option.bind_eq_bind, Option.bind_eq_some_iff] at h
    obtain ⟨a', h1, b', h2, h⟩ := h
    cases h
    exact ⟨ih1 h1 hd.1 hj.1, ih2 h2 hd.2 hj.2⟩

/-- What is handed to the code generator: without optimisation it is the tree of C38. -/
theorem C38_body (o : Opts) (toks : List Tok) (s : PS) (h : getSrc o (start toks) = some s)
    (f cnt : Nat) (src body : Stmt) (tab : Tab) (pts : List Tab)
    (hf : .func f cnt src body tab pts ∈ s.out) :
    if o.opt then Opt.optTree src = some body else body = src := by
  have key : TopInv o fun _ _ out => ∀ x ∈ out, ∀ f cnt src body tab pts,
      x = .func f cnt src body tab pts → optS o src = some body := by
    refine ⟨by simp, fun h _ _ _ _ => h, fun h _ _ _ => h, ?_, ?_⟩
    · intro t s s' e ty h _ _ _ _ _ hr
      obtain ⟨x, old, -, -, hc⟩ := hr.run
      rcases hc with ⟨f, -⟩ | ⟨s2, s3, b, body, -, -, -, -, -, -, h7, -, h9, -, h11, h12, -⟩
      · rw [show s'.out = s.out from f.out]; exact h
      · rw [h12, (getBlock_back h9).out, h7]
        refine List.forall_mem_cons.2 ⟨?_, h⟩
        intro _ _ _ _ _ _ hx
        cases hx
        exact h11
    · intro t d out e t' out' h _ _ _ _ hv
      rcases hv with ⟨-, hv⟩ | ⟨_, _, -, -, -, -, hv⟩ | ⟨-, hv⟩ <;> subst hv
      · exact h
      · exact List.forall_mem_cons.2 ⟨fun _ _ _ _ _ _ hx => by (cases hx), h⟩
      · exact List.forall_mem_cons.2 ⟨fun _ _ _ _ _ _ hx => by (cases hx), h⟩
  have := key.final h _ hf _ _ _ _ _ _ rfl
  unfold optS at this
  split at this
  · rename_i ho
    rw [if_pos ho]; exact this
  · rename_i ho
    rw [if_neg ho]; exact (Option.some.inj this).symm

/-- C38 for the optimised tree, provided do loops with a condition that is constantly false
contain no break or continue of their own. Without this condition it is false, see below. -/
theorem C38_optimized_partial (o : Opts) (toks : List Tok) (s : PS)
    (h : getSrc o (start toks) = some s)
    (f cnt : Nat) (src body : Stmt) (tab : Tab) (pts : List Tab)
    (hf : .func f cnt src body tab pts ∈ s.out) (hd : DoOk src) : JumpOk false body := by
  obtain ⟨e, -, hj, -⟩ := C38 o toks s h f cnt src body tab pts hf
  have hb := C38_body o toks s h f cnt src body tab pts hf
  split at hb
  · exact optTree_jump src hb hd hj
  · rw [hb]; exact hj

/-- The first function of prog38 meets the condition. -/
example : DoOk (.seq true (.whl (some (.cnst 1)) (.ifs (.cnst 0) .brk) none)
    (.ret (some (.leaf .prm 1)))) := ⟨trivial, trivial⟩

/-- The optimizer removes the loop of `do break; while (false);` but not the break: of
`void g() { do break; while (false); }` the code generator is given a break outside any loop. -/
theorem C38_optimized_false : ∃ toks s f cnt src body tab pts,
    getSrc ⟨true, false⟩ (start toks) = some s ∧ .func f cnt src body tab pts ∈ s.out ∧
      ¬ JumpOk false body := by
  obtain ⟨s, h1, h2⟩ : ∃ s, getSrc ⟨true, false⟩ (start prog38) = some s ∧
      (s.out.filterMap Out.fn).head? = some (2, 0, .dos .brk (.cnst 0), .brk) :=
    run_ok 60 _ (by decide +kernel)
  have h3 := List.mem_of_mem_head? h2
  rw [List.mem_filterMap] at h3
  obtain ⟨x, hx, hx'⟩ := h3
  cases x with
  | func f n src body tab pts =>
    cases hx'
    exact ⟨prog38, s, _, _, _, _, _, _, h1, hx, by rintro ⟨⟩⟩
  | data => cases hx'
  | bss => cases hx'

end Cmm.Parse
