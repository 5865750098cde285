import Verif.Parse.StatSyn

/-
C72: statements mean what is written: the parser accepts exactly the statements of the grammar `Syn`, with the tree, the names and the
slots of the grammar; the grammar is unambiguous, an `else` belongs to the nearest `if`.
-/
namespace Cmm.Parse
open Cmm.Tree

variable {F : Int × Nat} {o : Opts} {s s' : PS} {p p' : Spot} {a : Option Stmt} {l : Bool}

/-- C72: getStat accepts exactly the statements of the grammar, if no `else` follows. -/
theorem C72 {ts r : List Tok} (hs : s.toks = ts ++ r) (hr : r.head? ≠ some Lx.ELSE) :
    (∃ q, Syn F (.stat q) (decide (s.depth ≠ 0)) s.spot ts a p') ↔ ∃ s', getStat o F.1 F.2 s = some (a, s') ∧ s'.toks = r ∧ s'.spot = p' := by
  constructor
  · rintro ⟨q, h⟩
    obtain ⟨s', h1, h2⟩ := h.read o s r rfl rfl hs (fun _ => hr)
    exact ⟨s', h1, h2.toks, h2.spot⟩
  · rintro ⟨s', h, rfl, rfl⟩
    obtain ⟨q, us, h1, h2, -⟩ := (syn_of o F.1 F.2).1 _ _ h
    obtain rfl : ts = us := List.append_cancel_right (hs.symm.trans h2.toks)
    exact ⟨q, h1⟩

/-- C72 whatever follows: what is accepted is a statement of the grammar, and if it ends with an `if` without `else`, no `else` follows.
Nothing is handed to the code generator. -/
theorem C72_accepted (h : getStat o F.1 F.2 s = some (a, s')) : ∃ q ts, s.toks = ts ++ s'.toks ∧
    Syn F (.stat q) (decide (s.depth ≠ 0)) s.spot ts a s'.spot ∧ (q = true → s'.toks.head? ≠ some Lx.ELSE) ∧ s'.depth = s.depth ∧ s'.out = s.out := by
  obtain ⟨q, ts, h1, h2, h3⟩ := (syn_of o F.1 F.2).1 _ _ h
  exact ⟨q, ts, h2.toks, h1, h3, h2.depth, h2.out⟩

/-- C72 for a closed statement, whatever follows: what stands behind it does not matter. -/
theorem C72_closed {ts : List Tok} (h : Syn F (.stat false) (decide (s.depth ≠ 0)) s.spot ts a p') {r : List Tok} (hs : s.toks = ts ++ r) :
    ∃ s', getStat o F.1 F.2 s = some (a, s') ∧ s'.toks = r ∧ s'.spot = p' := by
  obtain ⟨s', h1, h2⟩ := h.read o s r rfl rfl hs nofun
  exact ⟨s', h1, h2.toks, h2.spot⟩

/-- C72 for blocks, behind the `{`: the declarations and statements up to the `}` that belongs to it. -/
theorem C72_block {ts r : List Tok} (hs : s.toks = ts ++ Lx.rbrc :: r) :
    (∃ b p1, Syn F (.items none) (decide (s.depth ≠ 0)) s.spot ts b p1 ∧ a = blockOf b ∧ p' = s.spot.leave p1) ↔
      ∃ s', getBlock o F.1 F.2 s = some (a, s') ∧ s'.toks = r ∧ s'.spot = p' := by
  constructor
  · rintro ⟨b, p1, h, rfl, rfl⟩
    obtain ⟨s', h1, h2⟩ := h.read o s r rfl rfl hs
    refine ⟨s'.close s.tab.length s.curCnt, ?_, h2.toks, by rw [← h2.spot]; rfl⟩
    simp only [getBlock, h1, Option.bind_eq_bind, Option.bind_some, toBlk_eq]
  · rintro ⟨s', h, rfl, rfl⟩
    obtain ⟨b, s1, us, h1, h2, h3, h4⟩ := (syn_of o F.1 F.2).2.2.1 _ _ h
    have := hs.symm.trans h2.toks
    rw [List.append_assoc] at this
    obtain rfl : ts = us := List.append_cancel_right this
    exact ⟨b, s1.spot, h1, h3, h4⟩

/-- A parser at `p`. -/
def Spot.ps (p : Spot) (l : Bool) (ts : List Tok) : PS :=
  { toks := ts, tab := p.tab, lab := p.lab, curCnt := p.cnt, maxCnt := p.most, depth := if l then 1 else 0, lastStat := p.last, curDim := p.dim }

theorem loop_ps {ts : List Tok} : l = decide ((p.ps l ts).depth ≠ 0) := by cases l <;> rfl

/-- An open statement followed by `else ;` is a statement. -/
theorem open_else {k : NT} {ts : List Tok} (h : Syn F k l p ts a p') : k = .stat true →
    ∃ q a' p1, Syn F (.stat q) l p (ts ++ [Lx.ELSE, Lx.semi]) a' p1 := by
  induction h with
  | @ifs l q p cs c p1 ts a p2 hc h ih =>
    intro _
    cases q with
    | false => exact ⟨_, _, _, by simpa using Syn.els hc h .null⟩
    | true =>
      obtain ⟨q, a', p3, h'⟩ := ih rfl
      exact ⟨_, _, _, by simpa using Syn.ifs hc h'⟩
  | els hc h _ _ ih =>
    intro hq
    obtain ⟨q, a', p3, h'⟩ := ih hq
    exact ⟨_, _, _, by simpa using Syn.els hc h h'⟩
  | whl hc _ ih =>
    intro hq
    obtain ⟨q, a', p3, h'⟩ := ih hq
    exact ⟨_, _, _, by simpa using Syn.whl hc h'⟩
  | «for» h1 h2 h3 _ ih =>
    intro hq
    obtain ⟨q, a', p3, h'⟩ := ih hq
    exact ⟨_, _, _, by simpa using Syn.for h1 h2 h3 h'⟩
  | _ => nofun

/-- The grammar is unambiguous: the tokens determine the tree, the names and whether the statement is open. -/
theorem C72_unambiguous {ts : List Tok} {q1 q2 : Bool} {a1 a2 : Option Stmt} {p1 p2 : Spot} (h1 : Syn F (.stat q1) l p ts a1 p1)
    (h2 : Syn F (.stat q2) l p ts a2 p2) : a1 = a2 ∧ p1 = p2 ∧ q1 = q2 := by
  have get : ∀ {q : Bool} {a : Option Stmt} {p' : Spot} {ts r : List Tok}, Syn F (.stat q) l p ts a p' → (q = true → r.head? ≠ some Lx.ELSE) →
      ∃ s', getStat ⟨true, true⟩ F.1 F.2 (p.ps l (ts ++ r)) = some (a, s') ∧ s'.toks = r ∧ s'.spot = p' := by
    intro q a p' ts r h hr
    obtain ⟨s', h1, h2⟩ := h.read ⟨true, true⟩ (p.ps l (ts ++ r)) r rfl loop_ps rfl hr
    exact ⟨s', h1, h2.toks, h2.spot⟩
  obtain ⟨s1, e1, -, k1⟩ := get (r := []) h1 nofun
  obtain ⟨s2, e2, -, k2⟩ := get (r := []) h2 nofun
  rw [e1] at e2
  cases e2
  have no : ∀ {a1 a2 : Option Stmt} {p1 p2 : Spot}, Syn F (.stat true) l p ts a1 p1 → Syn F (.stat false) l p ts a2 p2 → False := by
    intro a1 a2 p1 p2 h1 h2
    obtain ⟨q, a', p3, h3⟩ := open_else h1 rfl
    obtain ⟨s1, e1, t1, -⟩ := get (r := [Lx.ELSE, Lx.semi]) h2 nofun
    obtain ⟨s2, e2, t2, -⟩ := get (r := []) h3 nofun
    rw [List.append_nil, e1] at e2
    cases e2
    rw [t1] at t2
    cases t2
  refine ⟨rfl, k1.symm.trans k2, ?_⟩
  cases q1 <;> cases q2
  · rfl
  · exact (no h2 h1).elim
  · exact (no h1 h2).elim
  · rfl

/-- C72 for `else`: it belongs to the nearest `if`. -/
theorem C72_else {c d : List Tok} {e1 e2 : Expr} {p1 p2 p3 p4 : Spot} {q2 q : Bool} {t u : List Tok} {b1 b2 : Option Stmt} (hc : Cond p c e1 p1)
    (hd : Cond p1 d e2 p2) (ht : Syn F (.stat false) l p2 t b1 p3) (hu : Syn F (.stat q2) l p3 u b2 p4)
    (h : Syn F (.stat q) l p (Lx.IF :: (c ++ Lx.IF :: (d ++ (t ++ Lx.ELSE :: u)))) a p') :
    a = some (.ifs e1 (.els e2 (stOf b1) (stOf b2))) :=
  (C72_unambiguous h (.ifs hc (.els hd ht hu))).1

/-! ### Examples -/

theorem expAt_log {p : Spot} {v : Int} : ExpAt p 13 (.log v) (TyBOOL, 0) (.cnst v) :=
  ⟨.up (.up (.up (.up (.up (.up (.up (.up (.up (.up (.up (.up (.up .log)))))))))))), .log⟩

/-- `if (true) if (false) ; else break;` in a loop. -/
example : Syn F (.stat true) true p [Lx.IF, Lx.lpar, .log 1, Lx.rpar, Lx.IF, Lx.lpar, .log 0, Lx.rpar, Lx.semi, Lx.ELSE, Lx.BREAK, Lx.semi]
    (some (.ifs (.cnst 1) (.els (.cnst 0) .empty .brk))) { p with last := some Lx.IF } :=
  .ifs (.mk expAt_log) (ts := [Lx.IF, Lx.lpar, .log 0, Lx.rpar, Lx.semi, Lx.ELSE, Lx.BREAK, Lx.semi])
    (.els (.mk expAt_log) (ts := [Lx.semi]) .null .brk)

/-- `for (int i = 1; ; ) { }` -/
example : Syn F (.stat false) false ⟨[], 0, 0, 0, none, 0⟩
    [Lx.FOR, Lx.lpar, Lx.INT, .name "i", Lx.eq, .int 1, Lx.semi, Lx.semi, Lx.rpar, Lx.lbrc, Lx.rbrc]
    (some (.seq true (.seq false .empty (.exp (.assV .loc 0 (.cnst 1)))) (.whl none .empty none)))
    ⟨[⟨"i", ScVOID, TyINT, 0, 1, false⟩], 0, 0, 1, some Lx.FOR, 0⟩ :=
  .for (t1 := [Lx.INT, .name "i", Lx.eq, .int 1]) (t2 := []) (t3 := [])
    (.decl (.mk (ts := [.name "i", Lx.eq, .int 1]) (dim := 0) .int (by decide) (by decide)
      (.one (.init (y := .int 1) ⟨by decide, by simp⟩ ⟨.up (.up (.up (.up (.up (.up (.up (.up (.up (.up (.up (.up .int))))))))))), .int⟩ .same))))
    .none .none (.block (ts := []) .done)

/-- The parser reads the first of them, whatever follows other than `else`. -/
example (r : List Tok) (hr : r.head? ≠ some Lx.ELSE) (hs : s.toks = [Lx.IF, Lx.lpar, .log 1, Lx.rpar, Lx.IF, Lx.lpar, .log 0, Lx.rpar, Lx.semi,
    Lx.ELSE, Lx.BREAK, Lx.semi] ++ r) (hd : s.depth = 1) :
    ∃ s', getStat o F.1 F.2 s = some (some (.ifs (.cnst 1) (.els (.cnst 0) .empty .brk)), s') ∧ s'.toks = r ∧
      s'.spot = { s.spot with last := some Lx.IF } :=
  (C72 hs hr).1 ⟨true, by
    rw [hd]
    exact .ifs (.mk expAt_log) (ts := [Lx.IF, Lx.lpar, .log 0, Lx.rpar, Lx.semi, Lx.ELSE, Lx.BREAK, Lx.semi])
      (.els (.mk expAt_log) (ts := [Lx.semi]) .null .brk)⟩

end Cmm.Parse
