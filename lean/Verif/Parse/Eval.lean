import Lean.Elab.Tactic.Basic
import Verif.Parse.Top

/-
The parser with a bound on the depth of recursion, for evaluating it on concrete programs. Each
function `fN fu` is the function `f` of Parse/Expr.lean or Parse/Stat.lean with a counter that ends
the recursion with `none`; what `fN` returns, `f` returns (`f_le`). Only examples and
counterexamples use these functions, so they are not part of what has to be trusted.
-/
namespace Cmm.Parse
open Cmm.Tree

/-- Where `x` has a result, `y` has the same. -/
structure Le {α : Type} (x y : Option α) : Prop where
  le : ∀ r, x = some r → y = some r

theorem Le.bot {α : Type} {y : Option α} : Le none y := ⟨fun _ h => by cases h⟩
theorem Le.refl {α : Type} (x : Option α) : Le x x := ⟨fun _ h => h⟩
theorem Le.bind {α β : Type} {x y : Option α} {f g : α → Option β} (h : Le x y)
    (hf : ∀ a, Le (f a) (g a)) : Le (x.bind f) (y.bind g) := by
  constructor
  intro r hr
  rw [Option.bind_eq_some_iff] at hr ⊢
  obtain ⟨a, h1, h2⟩ := hr
  exact ⟨a, h.le _ h1, (hf a).le _ h2⟩
theorem Le.bind' {α β : Type} {x y : Option α} {f g : α → Option β} (h : Le x y)
    (hf : ∀ a, Le (f a) (g a)) : Le (x >>= f) (y >>= g) := Le.bind h hf
theorem Le.map {α β : Type} {x y : Option α} {f : α → β} (h : Le x y) :
    Le (x.map f) (y.map f) := by
  constructor
  intro r hr
  rw [Option.map_eq_some_iff] at hr ⊢
  obtain ⟨a, h1, h2⟩ := hr
  exact ⟨a, h.le _ h1, h2⟩

open Lean Meta Elab Tactic in
/-- Use one matcher wherever the goal mentions two of the same type, so that `split` treats the two
    sides of the goal together. -/
elab "one_matcher" : tactic => do
  let g ← getMainGoal
  let mut t ← instantiateMVars (← g.getType)
  let env ← getEnv
  let cs := t.getUsedConstants.filter fun c => Lean.Meta.Match.Extension.getMatcherInfo? env c |>.isSome
  for c in cs do
    for d in cs do
      if c.lt d then
        let ci ← getConstInfo c
        let di ← getConstInfo d
        let ls := ci.levelParams.map fun _ => Level.zero
        if ci.levelParams.length == di.levelParams.length &&
            ci.instantiateTypeLevelParams ls == di.instantiateTypeLevelParams ls then
          t := t.replace fun e => match e with
            | .const n us => if n == d then some (.const c us) else none
            | _ => none
  replaceMainGoal [← g.replaceTargetDefEq t]

syntax "mono_le" "[" term,* "]" : tactic
macro_rules
  | `(tactic| mono_le [$hs,*]) => do
    let alts ← hs.getElems.mapM fun h => `(tactic| (with_reducible apply $h))
    `(tactic| one_matcher; repeat' (first
      | (with_reducible exact Le.refl _)
      $[| $alts:tactic]*
      | (with_reducible apply Le.bind')
      | (with_reducible apply Le.bind)
      | (with_reducible apply Le.map)
      | intro _
      | dsimp only
      | split))

mutual

def levN (fu : Nat) (k : Nat) (s : PS) : Option (W × PS) :=
  match fu with
  | 0 => none
  | fu + 1 =>
    match k with
    | 0 => do
      let (w, s) ← factorN fu s
      postLoopN fu w s
    | 1 =>
      match s.toks with
      | t :: _ =>
        match uniOp t with
        | some o => do
          let (w, s) ← levN fu 1 s.next
          let w ← uniW o w
          some (w, s)
        | none => levN fu 0 s
      | [] => none
    | 12 => do
      let (w, s) ← levN fu 11 s
      match s.toks with
      | Lx.eq :: _ =>
        let (w2, s) ← levN fu 12 s.next
        let w ← assW w w2
        some (w, s)
      | _ => some (w, s)
    | 13 => do
      let (w, s) ← levN fu 12 s
      commaLoopN fu w s
    | k + 1 => do
      let (w, s) ← levN fu k s
      binLoopN fu (k + 1) w s
termination_by structural fu

def binLoopN (fu : Nat) (k : Nat) (w : W) (s : PS) : Option (W × PS) :=
  match fu with
  | 0 => none
  | fu + 1 =>
    match s.toks with
    | t :: _ =>
      match binOp k t with
      | some op => do
        let (w2, s) ← levN fu (k - 1) s.next
        let w ← binW k op w w2
        binLoopN fu k w s
      | none => some (w, s)
    | [] => some (w, s)
termination_by structural fu

def commaLoopN (fu : Nat) (w : W) (s : PS) : Option (W × PS) :=
  match fu with
  | 0 => none
  | fu + 1 =>
    match s.toks with
    | Lx.comma :: _ => do
      let (w2, s) ← levN fu 12 s.next
      commaLoopN fu { w2 with tree := .bin .comm w.tree w2.tree, lhs := false } s
    | _ => some (w, s)
termination_by structural fu

def postLoopN (fu : Nat) (w : W) (s : PS) : Option (W × PS) :=
  match fu with
  | 0 => none
  | fu + 1 =>
    match s.toks with
    | Lx.lbrk :: _ =>
      if w.dim = 0 then none
      else do
        let (w2, s) ← levN fu 12 s.next
        let s ← chkTok Lx.rbrk s
        let w ← idxW w w2
        postLoopN fu w s
    | Lx.dot :: .name f :: r => do
      let w ← dotW s.tab w f
      postLoopN fu w { s with toks := r }
    | Lx.dot :: _ => none
    | _ => some (w, s)
termination_by structural fu

def argsLoopN (fu : Nat) (last : Nat) (idx : Nat) (list : Option Expr) (s : PS) :
    Option (Nat × Expr × PS) :=
  match fu with
  | 0 => none
  | fu + 1 => do
    let (w, s) ← levN fu 12 s
    let idx ← argOk s.tab w idx last
    match s.toks with
    | Lx.comma :: _ => argsLoopN fu last idx (some (cat list w.tree)) s.next
    | _ => some (idx, cat list w.tree, s)
termination_by structural fu

def callN (fu : Nat) (n : Nat) (e : Ent) (s : PS) : Option (W × PS) :=
  match fu with
  | 0 => none
  | fu + 1 => do
    let s ← chkTok Lx.lpar s
    if e.type = TyINTR then none
    else
      let last := n + e.cnt
      match s.toks with
      | Lx.rpar :: _ =>
        if argsEnd s.tab (n + 1) last then some (⟨e.type, e.dim, false, callTree n none⟩, s.next)
        else none
      | _ =>
        let (idx, a, s) ← argsLoopN fu last (n + 1) none s
        let s ← chkTok Lx.rpar s
        if argsEnd s.tab idx last then some (⟨e.type, e.dim, false, callTree n (some a)⟩, s) else none
termination_by structural fu

def factorN (fu : Nat) (s : PS) : Option (W × PS) :=
  match fu with
  | 0 => none
  | fu + 1 =>
    match s.toks with
    | Lx.lpar :: _ => do
      let (w, s) ← levN fu 13 s.next
      let s ← chkTok Lx.rpar s
      some (w, s)
    | .name x :: _ => do
      let n ← srcName s.tab x
      let e ← s.tab[n]?
      if e.scope = ScPROT ∨ e.scope = ScFUNC then callN fu n e s.next
      else
        let w ← varW n e
        some (w, s.next)
    | Lx.ORD :: _ => do
      let s ← chkTok Lx.lpar s.next
      let (w, s) ← levN fu 13 s
      let s ← chkTok Lx.rpar s
      let w ← ordW w
      some (w, s)
    | Lx.CHR :: _ => do
      let s ← chkTok Lx.lpar s.next
      let (w, s) ← levN fu 13 s
      let s ← chkTok Lx.rpar s
      let w ← convW .chr TyCHAR w
      some (w, s)
    | Lx.BOL :: _ => do
      let s ← chkTok Lx.lpar s.next
      let (w, s) ← levN fu 13 s
      let s ← chkTok Lx.rpar s
      let w ← convW .bool TyBOOL w
      some (w, s)
    | _ => atomW s
termination_by structural fu

end

theorem lev_all_le (fu : Nat) :
    (∀ (k : Nat) (s : PS), Le (levN fu k s) (lev k s)) ∧
    (∀ (k : Nat) (w : W) (s : PS), Le (binLoopN fu k w s) (binLoop k w s)) ∧
    (∀ (w : W) (s : PS), Le (commaLoopN fu w s) (commaLoop w s)) ∧
    (∀ (w : W) (s : PS), Le (postLoopN fu w s) (postLoop w s)) ∧
    (∀ (last : Nat) (idx : Nat) (list : Option Expr) (s : PS), Le (argsLoopN fu last idx list s) (argsLoop last idx list s)) ∧
    (∀ (n : Nat) (e : Ent) (s : PS), Le (callN fu n e s) (call n e s)) ∧
    (∀ (s : PS), Le (factorN fu s) (factor s)) := by
  induction fu with
  | zero =>
    exact ⟨by intros; exact .bot, by intros; exact .bot, by intros; exact .bot, by intros; exact .bot, by intros; exact .bot, by intros; exact .bot, by intros; exact .bot⟩
  | succ fu ih =>
    obtain ⟨ih0, ih1, ih2, ih3, ih4, ih5, ih6⟩ := ih
    refine ⟨?_, ?_, ?_, ?_, ?_, ?_, ?_⟩
    · intros
      rw [lev.eq_def, levN.eq_def]
      dsimp only
      mono_le [ih0, ih1, ih2, ih3, ih6]
    · intros
      rw [binLoop.eq_def, binLoopN.eq_def]
      dsimp only
      mono_le [ih0, ih1]
    · intros
      rw [commaLoop.eq_def, commaLoopN.eq_def]
      dsimp only
      mono_le [ih0, ih2]
    · intros
      rw [postLoop.eq_def, postLoopN.eq_def]
      dsimp only
      mono_le [ih0, ih3]
    · intros
      rw [argsLoop.eq_def, argsLoopN.eq_def]
      dsimp only
      mono_le [ih0, ih4]
    · intros
      rw [call.eq_def, callN.eq_def]
      dsimp only
      mono_le [ih4]
    · intros
      rw [factor.eq_def, factorN.eq_def]
      dsimp only
      mono_le [ih0, ih5]

theorem lev_le (fu : Nat) : ∀ (k : Nat) (s : PS), Le (levN fu k s) (lev k s) :=
  (lev_all_le fu).1

theorem binLoop_le (fu : Nat) : ∀ (k : Nat) (w : W) (s : PS), Le (binLoopN fu k w s) (binLoop k w s) :=
  (lev_all_le fu).2.1

theorem commaLoop_le (fu : Nat) : ∀ (w : W) (s : PS), Le (commaLoopN fu w s) (commaLoop w s) :=
  (lev_all_le fu).2.2.1

theorem postLoop_le (fu : Nat) : ∀ (w : W) (s : PS), Le (postLoopN fu w s) (postLoop w s) :=
  (lev_all_le fu).2.2.2.1

theorem argsLoop_le (fu : Nat) : ∀ (last : Nat) (idx : Nat) (list : Option Expr) (s : PS), Le (argsLoopN fu last idx list s) (argsLoop last idx list s) :=
  (lev_all_le fu).2.2.2.2.1

theorem call_le (fu : Nat) : ∀ (n : Nat) (e : Ent) (s : PS), Le (callN fu n e s) (call n e s) :=
  (lev_all_le fu).2.2.2.2.2.1

theorem factor_le (fu : Nat) : ∀ (s : PS), Le (factorN fu s) (factor s) :=
  (lev_all_le fu).2.2.2.2.2.2

def getLVarN (fu : Nat) (o : Opts) (type : Int) (s : PS) : Option (Stmt × PS) := do
  let n := s.tab.length
  let s ← getName o ScLVAR type false { s with curCnt := s.curCnt + 1 }
  let s := s.mark
  match s.toks with
  | Lx.eq :: _ => do
    let (w, s) ← levN fu 12 s.next
    let w ← chkCmpat w type s.curDim
    some (.seq false .empty (.exp (.assV .loc n w.tree)), s)
  | _ => some (.empty, s)

theorem getLVar_le (fu : Nat) : ∀ (o : Opts) (type : Int) (s : PS), Le (getLVarN fu o type s) (getLVar o type s) := by
  intros
  unfold getLVar getLVarN
  mono_le [lev_le fu]

def lvarLoopN (fu : Nat) (o : Opts) (type : Int) (sta : Stmt) (s : PS) : Option (Stmt × PS) :=
  match fu with
  | 0 => none
  | fu + 1 =>
    match s.toks with
    | Lx.comma :: _ => do
      let (d, s) ← getLVarN fu o type s.next
      lvarLoopN fu o type (.seq false sta d) s
    | _ => some (sta, s)
termination_by structural fu

theorem lvarLoop_le (fu : Nat) :
    ∀ (o : Opts) (type : Int) (sta : Stmt) (s : PS), Le (lvarLoopN fu o type sta s) (lvarLoop o type sta s) := by
  induction fu with
  | zero =>
    intros; exact .bot
  | succ fu ih =>
    intros
    rw [lvarLoop.eq_def, lvarLoopN.eq_def]
    dsimp only
    mono_le [ih, getLVar_le fu]

def getLVarsN (fu : Nat) (o : Opts) (s : PS) : Option (Stmt × PS) := do
  let (type, s) ← getTy s
  let (d, s) ← getLVarN fu o type s
  let (d, s) ← lvarLoopN fu o type d s
  some (d, { s with maxCnt := max s.maxCnt s.curCnt })

theorem getLVars_le (fu : Nat) : ∀ (o : Opts) (s : PS), Le (getLVarsN fu o s) (getLVars o s) := by
  intros
  unfold getLVars getLVarsN
  mono_le [lvarLoop_le fu, getLVar_le fu]

def getCondN (fu : Nat) (s : PS) : Option (Expr × PS) := do
  let s ← chkTok Lx.lpar s
  let (w, s) ← levN fu 13 s
  let w ← chkType w TyBOOL
  let s ← chkTok Lx.rpar s
  some (w.tree, s)

theorem getCond_le (fu : Nat) : ∀ (s : PS), Le (getCondN fu s) (getCond s) := by
  intros
  unfold getCond getCondN
  mono_le [lev_le fu]

def getIni0N (fu : Nat) (o : Opts) (s : PS) : Option (Option Stmt × PS) :=
  match s.toks with
  | Lx.semi :: _ => some (none, s)
  | _ =>
    if isType s then (getLVarsN fu o s).map fun (d, s) => (some d, s)
    else (levN fu 13 s).map fun (w, s) => (some (.exp w.tree), s)

theorem getIni0_le (fu : Nat) : ∀ (o : Opts) (s : PS), Le (getIni0N fu o s) (getIni0 o s) := by
  intros
  unfold getIni0 getIni0N
  mono_le [lev_le fu, getLVars_le fu]

def getIniN (fu : Nat) (o : Opts) (s : PS) : Option (Option Stmt × PS) := do
  let (i, s) ← getIni0N fu o s
  let s ← chkTok Lx.semi s
  some (i, s)

theorem getIni_le (fu : Nat) : ∀ (o : Opts) (s : PS), Le (getIniN fu o s) (getIni o s) := by
  intros
  unfold getIni getIniN
  mono_le [getIni0_le fu]

def getForCond0N (fu : Nat) (s : PS) : Option (Option Expr × PS) :=
  match s.toks with
  | Lx.semi :: _ => some (none, s)
  | _ => do
    let (w, s) ← levN fu 13 s
    let w ← chkType w TyBOOL
    some (some w.tree, s)

theorem getForCond0_le (fu : Nat) : ∀ (s : PS), Le (getForCond0N fu s) (getForCond0 s) := by
  intros
  unfold getForCond0 getForCond0N
  mono_le [lev_le fu]

def getForCondN (fu : Nat) (s : PS) : Option (Option Expr × PS) := do
  let (c, s) ← getForCond0N fu s
  let s ← chkTok Lx.semi s
  some (c, s)

theorem getForCond_le (fu : Nat) : ∀ (s : PS), Le (getForCondN fu s) (getForCond s) := by
  intros
  unfold getForCond getForCondN
  mono_le [getForCond0_le fu]

def getRini0N (fu : Nat) (s : PS) : Option (Option Expr × PS) :=
  match s.toks with
  | Lx.rpar :: _ => some (none, s)
  | _ => (levN fu 13 s).map fun (w, s) => (some w.tree, s)

theorem getRini0_le (fu : Nat) : ∀ (s : PS), Le (getRini0N fu s) (getRini0 s) := by
  intros
  unfold getRini0 getRini0N
  mono_le [lev_le fu]

def getRiniN (fu : Nat) (s : PS) : Option (Option Expr × PS) := do
  let (c, s) ← getRini0N fu s
  let s ← chkTok Lx.rpar s
  some (c, s)

theorem getRini_le (fu : Nat) : ∀ (s : PS), Le (getRiniN fu s) (getRini s) := by
  intros
  unfold getRini getRiniN
  mono_le [getRini0_le fu]

def getRetValN (fu : Nat) (ty : Int) (dim : Nat) (s : PS) : Option (Option Expr × PS) :=
  if hasVal ty dim then do
    let (w, s) ← levN fu 13 s
    let w ← chkCmpat w ty dim
    some (some w.tree, s)
  else some (none, s)

theorem getRetVal_le (fu : Nat) : ∀ (ty : Int) (dim : Nat) (s : PS), Le (getRetValN fu ty dim s) (getRetVal ty dim s) := by
  intros
  unfold getRetVal getRetValN
  mono_le [lev_le fu]

def getReturnN (fu : Nat) (ty : Int) (dim : Nat) (s : PS) : Option (Stmt × PS) := do
  let (e, s) ← getRetValN fu ty dim s
  let s ← chkTok Lx.semi s
  some (.ret e, s)

theorem getReturn_le (fu : Nat) : ∀ (ty : Int) (dim : Nat) (s : PS), Le (getReturnN fu ty dim s) (getReturn ty dim s) := by
  intros
  unfold getReturn getReturnN
  mono_le [getRetVal_le fu]

mutual

def getStatN (fu : Nat) (o : Opts) (ty : Int) (dim : Nat) (s : PS) : Option (Option Stmt × PS) :=
  match fu with
  | 0 => none
  | fu + 1 => do
    let (r, t) ← getStat1N fu o ty dim s.mark
    some (r, { t with lastStat := s.toks.head? })
termination_by structural fu

def getStat1N (fu : Nat) (o : Opts) (ty : Int) (dim : Nat) (s : PS) : Option (Option Stmt × PS) :=
  match fu with
  | 0 => none
  | fu + 1 =>
    match s.toks with
    | Lx.IF :: _ => do
      let (c, s) ← getCondN fu s.next
      let (a, s) ← getStatN fu o ty dim s
      match s.toks with
      | Lx.ELSE :: _ => do
        let (b, s) ← getStatN fu o ty dim s.next
        some (some (Stmt.els c (orEmpty a) (orEmpty b)), s)
      | _ => some (some (Stmt.ifs c (orEmpty a)), s)
    | Lx.WHILE :: _ => do
      let (c, s) ← getCondN fu s.next
      let (a, s) ← getStatN fu o ty dim { s with depth := s.depth + 1 }
      some (some (Stmt.whl (some c) (orEmpty a) none), { s with depth := s.depth - 1 })
    | Lx.DO :: _ => do
      let (a, s) ← getStatN fu o ty dim { s.next with depth := s.depth + 1 }
      let s ← chkTok Lx.WHILE { s with depth := s.depth - 1 }
      let (c, s) ← getCondN fu s
      let s ← chkTok Lx.semi s
      some (some (Stmt.dos (orEmpty a) c), s)
    | Lx.FOR :: _ => do
      let idx := s.tab.length
      let cnt := s.curCnt
      let s ← chkTok Lx.lpar s.next
      let (ini, s) ← getIniN fu o s
      let (cnd, s) ← getForCondN fu s
      let (rini, s) ← getRiniN fu s
      let (a, s) ← getStatN fu o ty dim { s with depth := s.depth + 1 }
      let s := { s with depth := s.depth - 1 }
      some (some (Stmt.seq true (orEmpty ini) (Stmt.whl cnd (orEmpty a) rini)), s.close idx cnt)
    | Lx.RETURN :: _ => (getReturnN fu ty dim s.next).map fun (r, s) => (some r, s)
    | Lx.BREAK :: _ =>
      if s.depth = 0 then none else (chkTok Lx.semi s.next).map fun s => (some Stmt.brk, s)
    | Lx.CONTINUE :: _ =>
      if s.depth = 0 then none else (chkTok Lx.semi s.next).map fun s => (some Stmt.cnt, s)
    | Lx.lbrc :: _ => getBlockN fu o ty dim s.next
    | Lx.semi :: _ => some (none, s.next)
    | _ => do
      let (w, s) ← levN fu 13 s
      let s ← chkTok Lx.semi s
      some (some (Stmt.exp w.tree), s)
termination_by structural fu

def itemsN (fu : Nat) (o : Opts) (ty : Int) (dim : Nat) (l : Option Stmt) (s : PS) :
    Option (Option Stmt × PS) :=
  match fu with
  | 0 => none
  | fu + 1 =>
    match s.toks with
    | [] => none
    | Lx.rbrc :: _ => some (l, s.next)
    | _ =>
      if isType s then do
        let (d, s) ← getLVarsN fu o s
        let s ← chkTok Lx.semi s
        itemsN fu o ty dim (catS l (some d)) s
      else do
        let (d, s) ← getStatN fu o ty dim s
        itemsN fu o ty dim (catS l d) s
termination_by structural fu

def getBlockN (fu : Nat) (o : Opts) (ty : Int) (dim : Nat) (s : PS) : Option (Option Stmt × PS) :=
  match fu with
  | 0 => none
  | fu + 1 => do
    let (l, t) ← itemsN fu o ty dim none s
    some (toBlk l, t.close s.tab.length s.curCnt)
termination_by structural fu

end

theorem getStat_all_le (fu : Nat) :
    (∀ (o : Opts) (ty : Int) (dim : Nat) (s : PS), Le (getStatN fu o ty dim s) (getStat o ty dim s)) ∧
    (∀ (o : Opts) (ty : Int) (dim : Nat) (s : PS), Le (getStat1N fu o ty dim s) (getStat1 o ty dim s)) ∧
    (∀ (o : Opts) (ty : Int) (dim : Nat) (l : Option Stmt) (s : PS), Le (itemsN fu o ty dim l s) (items o ty dim l s)) ∧
    (∀ (o : Opts) (ty : Int) (dim : Nat) (s : PS), Le (getBlockN fu o ty dim s) (getBlock o ty dim s)) := by
  induction fu with
  | zero =>
    exact ⟨by intros; exact .bot, by intros; exact .bot, by intros; exact .bot, by intros; exact .bot⟩
  | succ fu ih =>
    obtain ⟨ih0, ih1, ih2, ih3⟩ := ih
    refine ⟨?_, ?_, ?_, ?_⟩
    · intros
      rw [getStat.eq_def, getStatN.eq_def]
      dsimp only
      mono_le [ih1]
    · intros
      rw [getStat1.eq_def, getStat1N.eq_def]
      dsimp only
      mono_le [lev_le fu, ih0, ih3, getCond_le fu, getIni_le fu, getForCond_le fu, getRini_le fu, getReturn_le fu]
    · intros
      rw [items.eq_def, itemsN.eq_def]
      dsimp only
      mono_le [ih0, ih2, getLVars_le fu]
    · intros
      rw [getBlock.eq_def, getBlockN.eq_def]
      dsimp only
      mono_le [ih2]

theorem getStat_le (fu : Nat) : ∀ (o : Opts) (ty : Int) (dim : Nat) (s : PS), Le (getStatN fu o ty dim s) (getStat o ty dim s) :=
  (getStat_all_le fu).1

theorem getStat1_le (fu : Nat) : ∀ (o : Opts) (ty : Int) (dim : Nat) (s : PS), Le (getStat1N fu o ty dim s) (getStat1 o ty dim s) :=
  (getStat_all_le fu).2.1

theorem items_le (fu : Nat) : ∀ (o : Opts) (ty : Int) (dim : Nat) (l : Option Stmt) (s : PS), Le (itemsN fu o ty dim l s) (items o ty dim l s) :=
  (getStat_all_le fu).2.2.1

theorem getBlock_le (fu : Nat) : ∀ (o : Opts) (ty : Int) (dim : Nat) (s : PS), Le (getBlockN fu o ty dim s) (getBlock o ty dim s) :=
  (getStat_all_le fu).2.2.2

def prmLoopN (fu : Nat) (o : Opts) (old : Option Nat) (s : PS) : Option (Bool × PS) :=
  match fu with
  | 0 => none
  | fu + 1 =>
    if isType s then do
      let (ty, s) ← getTy s
      let _ ← chkOld old ty s
      let s ← getName o ScPRM ty false s
      match s.toks with
      | Lx.comma :: _ => prmLoopN fu o old { s.next with curCnt := s.curCnt + 1 }
      | _ => some (false, s)
    else some (true, s)
termination_by structural fu

theorem prmLoop_le (fu : Nat) :
    ∀ (o : Opts) (old : Option Nat) (s : PS), Le (prmLoopN fu o old s) (prmLoop o old s) := by
  induction fu with
  | zero =>
    intros; exact .bot
  | succ fu ih =>
    intros
    rw [prmLoop.eq_def, prmLoopN.eq_def]
    dsimp only
    mono_le [ih]

def getParamsN (fu : Nat) (o : Opts) (old : Option Nat) (s : PS) : Option PS := do
  let (c, s) ← prmLoopN fu o old { s with curCnt := 0 }
  let s ← getDots old c s
  chkTok Lx.rpar s

theorem getParams_le (fu : Nat) : ∀ (o : Opts) (old : Option Nat) (s : PS), Le (getParamsN fu o old s) (getParams o old s) := by
  intros
  unfold getParams getParamsN
  mono_le [prmLoop_le fu]

def getBodyN (fu : Nat) (o : Opts) (f : Nat) (ty : Int) (dim : Nat) (old : Option Nat) (s : PS) :
    Option PS := do
  let t ← setOld old s.tab
  let s := { s with tab := setScope t f ScFUNC, maxCnt := 0, curCnt := 0, pts := [] }
  let (b, s) ← getBlockN fu o ty dim s
  if hasVal ty dim ∧ s.lastStat ≠ some Lx.RETURN then none
  else do
    let c ← optS o (orEmpty b)
    let (_, n) := Gen.genFunc (ntOf s.tab) f (ty == TyINTR) o.krn s.maxCnt c s.lab
    some { s with lab := n, out := .func f s.maxCnt (orEmpty b) c s.tab s.pts :: s.out, pts := [] }

theorem getBody_le (fu : Nat) : ∀ (o : Opts) (f : Nat) (ty : Int) (dim : Nat) (old : Option Nat) (s : PS), Le (getBodyN fu o f ty dim old s) (getBody o f ty dim old s) := by
  intros
  unfold getBody getBodyN
  mono_le [getBlock_le fu]

def getBodyOrSemiN (fu : Nat) (o : Opts) (f : Nat) (ty : Int) (dim : Nat) (old : Option Nat) (s : PS) :
    Option PS :=
  match s.toks with
  | Lx.lbrc :: _ => getBodyN fu o f ty dim old s.next
  | _ => chkTok Lx.semi s

theorem getBodyOrSemi_le (fu : Nat) : ∀ (o : Opts) (f : Nat) (ty : Int) (dim : Nat) (old : Option Nat) (s : PS), Le (getBodyOrSemiN fu o f ty dim old s) (getBodyOrSemi o f ty dim old s) := by
  intros
  unfold getBodyOrSemi getBodyOrSemiN
  mono_le [getBody_le fu]

def getFuncN (fu : Nat) (o : Opts) (ty : Int) (pub : Bool) (s : PS) : Option PS := do
  let f := s.tab.length - 1
  let dim := s.curDim
  let old := srcGlob s.tab f
  if fnFits s.tab old ty dim pub = false then none
  else if ty = TyINTR ∧ dim ≠ 0 then none
  else do
    let prm := s.tab.length
    let s ← getParamsN fu o old { s.next with lastStat := none }
    let c := s.tab.length - prm
    if ty = TyINTR ∧ c ≠ 0 then none
    else do
      let s := { s with tab := setCnt s.tab f c }
      if cntFits s.tab old c = false then none
      else do
        let loc := s.tab.length
        let s ← getBodyOrSemiN fu o f ty dim old s
        some { s with tab := endFunc old f prm loc s.tab }

theorem getFunc_le (fu : Nat) : ∀ (o : Opts) (ty : Int) (pub : Bool) (s : PS), Le (getFuncN fu o ty pub s) (getFunc o ty pub s) := by
  intros
  unfold getFunc getFuncN
  mono_le [getParams_le fu, getBodyOrSemi_le fu]

def fldLoopN (fu : Nat) (o : Opts) (ty : Int) (s : PS) : Option PS :=
  match fu with
  | 0 => none
  | fu + 1 =>
    match s.toks with
    | Lx.comma :: _ => do
      let s ← getName o ScFLD ty false s.next
      fldLoopN fu o ty { s with curCnt := s.curCnt + 1 }
    | _ => some s
termination_by structural fu

theorem fldLoop_le (fu : Nat) :
    ∀ (o : Opts) (ty : Int) (s : PS), Le (fldLoopN fu o ty s) (fldLoop o ty s) := by
  induction fu with
  | zero =>
    intros; exact .bot
  | succ fu ih =>
    intros
    rw [fldLoop.eq_def, fldLoopN.eq_def]
    dsimp only
    mono_le [ih]

def getFieldLineN (fu : Nat) (o : Opts) (s : PS) : Option PS := do
  let (ty, s) ← getTy s
  let s ← getName o ScFLD ty false s
  let s ← fldLoopN fu o ty { s with curCnt := s.curCnt + 1 }
  chkTok Lx.semi s

theorem getFieldLine_le (fu : Nat) : ∀ (o : Opts) (s : PS), Le (getFieldLineN fu o s) (getFieldLine o s) := by
  intros
  unfold getFieldLine getFieldLineN
  mono_le [fldLoop_le fu]

def fldLinesN (fu : Nat) (o : Opts) (s : PS) : Option PS :=
  match fu with
  | 0 => none
  | fu + 1 => do
    let s ← getFieldLineN fu o s
    match s.toks with
    | Lx.rbrc :: _ => some s.next
    | _ => fldLinesN fu o s
termination_by structural fu

theorem fldLines_le (fu : Nat) :
    ∀ (o : Opts) (s : PS), Le (fldLinesN fu o s) (fldLines o s) := by
  induction fu with
  | zero =>
    intros; exact .bot
  | succ fu ih =>
    intros
    rw [fldLines.eq_def, fldLinesN.eq_def]
    dsimp only
    mono_le [ih, getFieldLine_le fu]

def getStructN (fu : Nat) (o : Opts) (s : PS) : Option PS := do
  let s ← chkTok Lx.lbrc s
  let i := s.tab.length
  let s ← fldLinesN fu o { s with curCnt := 0 }
  let s ← chkTok Lx.semi s
  let t := setVoid s.tab i
  some { s with tab := setCnt t (i - 1) (t.length - i) }

theorem getStruct_le (fu : Nat) : ∀ (o : Opts) (s : PS), Le (getStructN fu o s) (getStruct o s) := by
  intros
  unfold getStruct getStructN
  mono_le [fldLines_le fu]

def getCnstN (fu : Nat) (ty : Int) (s : PS) : Option (Gen.DT × PS) := do
  let (w, s) ← levN fu 12 s
  let w ← chkCmpat w ty 0
  let e ← Opt.optExp w.tree
  let d ← cnstTree e
  some (d, s)

theorem getCnst_le (fu : Nat) : ∀ (ty : Int) (s : PS), Le (getCnstN fu ty s) (getCnst ty s) := by
  intros
  unfold getCnst getCnstN
  mono_le [lev_le fu]

def getArray0N (fu : Nat) (dim : Nat) (s : PS) : Option (Gen.DT × PS) :=
  match dim with
  | 0 => none
  | dim + 1 => do
    let (d, s) ← getCnstN fu TyINT s
    if lVal d ≤ 0 then none
    else match s.toks with
      | Lx.comma :: _ => do
        let (l, s) ← getArray0N fu dim s.next
        some (.semi l d, s)
      | _ => some (d, s)

theorem getArray0_le (fu : Nat) : ∀ (dim : Nat) (s : PS), Le (getArray0N fu dim s) (getArray0 dim s) := by
  intro dim
  induction dim with
  | zero => intros; exact .bot
  | succ dim ih =>
    intros
    rw [getArray0, getArray0N]
    mono_le [getCnst_le fu, ih]

def getArrayN (fu : Nat) (ty : Int) (dim : Nat) (s : PS) : Option (Gen.DT × PS) := do
  let s ← chkTok Lx.lpar s
  let (d, s) ← getArray0N fu dim s
  let s ← chkTok Lx.rpar s
  some (.arry d (bytes ty dim), s)

theorem getArray_le (fu : Nat) : ∀ (ty : Int) (dim : Nat) (s : PS), Le (getArrayN fu ty dim s) (getArray ty dim s) := by
  intros
  unfold getArray getArrayN
  mono_le [getArray0_le fu]

def getFldInitN (fu : Nat) (e : Ent) (s : PS) : Option (Gen.DT × PS) :=
  if e.type ≤ 0 then (chkTok Lx.NUL s).map fun s => (.cnst 0, s)
  else if e.dim > 0 then
    match s.toks with
    | .str _ :: _ =>
      if e.dim ≠ 1 ∨ e.type ≠ TyCHAR then none
      else some (.str (s.lab + 1), { s.next with lab := s.lab + 1 })
    | Lx.NUL :: _ => some (.cnst 0, s.next)
    | _ => none
  else if e.type = TyINT ∨ e.type = TyBOOL ∨ e.type = TyCHAR then getCnstN fu e.type s
  else none

theorem getFldInit_le (fu : Nat) : ∀ (e : Ent) (s : PS), Le (getFldInitN fu e s) (getFldInit e s) := by
  intros
  unfold getFldInit getFldInitN
  mono_le [getCnst_le fu]

def getStructInit0N (fu : Nat) (i : Nat) (l : Option Gen.DT) (s : PS) : Option (Gen.DT × PS) :=
  match fu with
  | 0 => none
  | fu + 1 => do
    let e ← s.tab[i]?
    if e.scope ≠ ScVOID then none
    else do
      let (d, s) ← getFldInitN fu e s
      match s.toks with
      | Lx.comma :: _ => getStructInit0N fu (i + 1) (some (catD l d)) s.next
      | _ =>
        match s.tab[i + 1]? with
        | some e => if e.scope = ScVOID then none else some (catD l d, s)
        | none => some (catD l d, s)
termination_by structural fu

theorem getStructInit0_le (fu : Nat) :
    ∀ (i : Nat) (l : Option Gen.DT) (s : PS), Le (getStructInit0N fu i l s) (getStructInit0 i l s) := by
  induction fu with
  | zero =>
    intros; exact .bot
  | succ fu ih =>
    intros
    rw [getStructInit0.eq_def, getStructInit0N.eq_def]
    dsimp only
    mono_le [ih, getFldInit_le fu]

def getStructInitN (fu : Nat) (ty : Int) (s : PS) : Option (Gen.DT × PS) :=
  match s.toks with
  | Lx.NUL :: _ => some (.cnst 0, s.next)
  | Lx.lbrc :: _ => do
    let (d, s) ← getStructInit0N fu ((-ty).toNat + 1) none s.next
    let s ← chkTok Lx.rbrc s
    some (.list d 9999, s)
  | _ => none

theorem getStructInit_le (fu : Nat) : ∀ (ty : Int) (s : PS), Le (getStructInitN fu ty s) (getStructInit ty s) := by
  intros
  unfold getStructInit getStructInitN
  mono_le [getStructInit0_le fu]

def getElmN (fu : Nat) (ty : Int) (s : PS) : Option (Gen.DT × PS) :=
  if ty ≤ 0 then getStructInitN fu ty s
  else if ty = TyINT ∨ ty = TyCHAR ∨ ty = TyBOOL then getCnstN fu ty s
  else none

theorem getElm_le (fu : Nat) : ∀ (ty : Int) (s : PS), Le (getElmN fu ty s) (getElm ty s) := by
  intros
  unfold getElm getElmN
  mono_le [getCnst_le fu, getStructInit_le fu]

mutual

def initElmN (fu : Nat) (ty : Int) (dim : Nat) (s : PS) : Option (Gen.DT × PS) :=
  match fu with
  | 0 => none
  | fu + 1 =>
    if dim ≤ 1 then getElmN fu ty s else getGArrayInitN fu ty (dim - 1) s
termination_by structural fu

def initLoopN (fu : Nat) (ty : Int) (dim : Nat) (l : Option Gen.DT) (s : PS) : Option (Gen.DT × PS) :=
  match fu with
  | 0 => none
  | fu + 1 => do
    let (d, s) ← initElmN fu ty dim s
    match s.toks with
    | Lx.comma :: _ => initLoopN fu ty dim (some (catD l d)) s.next
    | _ => some (catD l d, s)
termination_by structural fu

def getGArrayInitN (fu : Nat) (ty : Int) (dim : Nat) (s : PS) : Option (Gen.DT × PS) :=
  match fu with
  | 0 => none
  | fu + 1 =>
    match s.toks with
    | Lx.lbrc :: _ => do
      let (d, s) ← initLoopN fu ty dim none s.next
      let s ← chkTok Lx.rbrc s
      some (.list d (bytes ty dim), s)
    | .str _ :: _ =>
      if ty ≠ TyCHAR ∨ dim ≠ 1 then none
      else some (.str (s.lab + 1), { s.next with lab := s.lab + 1 })
    | Lx.ARRAY :: _ => getArrayN fu ty dim s.next
    | Lx.NUL :: _ => some (.cnst 0, s.next)
    | _ => none
termination_by structural fu

end

theorem initElm_all_le (fu : Nat) :
    (∀ (ty : Int) (dim : Nat) (s : PS), Le (initElmN fu ty dim s) (initElm ty dim s)) ∧
    (∀ (ty : Int) (dim : Nat) (l : Option Gen.DT) (s : PS), Le (initLoopN fu ty dim l s) (initLoop ty dim l s)) ∧
    (∀ (ty : Int) (dim : Nat) (s : PS), Le (getGArrayInitN fu ty dim s) (getGArrayInit ty dim s)) := by
  induction fu with
  | zero =>
    exact ⟨by intros; exact .bot, by intros; exact .bot, by intros; exact .bot⟩
  | succ fu ih =>
    obtain ⟨ih0, ih1, ih2⟩ := ih
    refine ⟨?_, ?_, ?_⟩
    · intros
      rw [initElm.eq_def, initElmN.eq_def]
      dsimp only
      mono_le [ih2, getElm_le fu]
    · intros
      rw [initLoop.eq_def, initLoopN.eq_def]
      dsimp only
      mono_le [ih0, ih1]
    · intros
      rw [getGArrayInit.eq_def, getGArrayInitN.eq_def]
      dsimp only
      mono_le [ih1, getArray_le fu]

theorem initElm_le (fu : Nat) : ∀ (ty : Int) (dim : Nat) (s : PS), Le (initElmN fu ty dim s) (initElm ty dim s) :=
  (initElm_all_le fu).1

theorem initLoop_le (fu : Nat) : ∀ (ty : Int) (dim : Nat) (l : Option Gen.DT) (s : PS), Le (initLoopN fu ty dim l s) (initLoop ty dim l s) :=
  (initElm_all_le fu).2.1

theorem getGArrayInit_le (fu : Nat) : ∀ (ty : Int) (dim : Nat) (s : PS), Le (getGArrayInitN fu ty dim s) (getGArrayInit ty dim s) :=
  (initElm_all_le fu).2.2

def getInitN (fu : Nat) (ty : Int) (dim : Nat) (s : PS) : Option (Gen.DT × PS) :=
  if dim > 0 then getGArrayInitN fu ty dim s
  else if ty = TyINT ∨ ty = TyCHAR ∨ ty = TyBOOL then getCnstN fu ty s
  else if ty ≤ 0 then getStructInitN fu ty s
  else none

theorem getInit_le (fu : Nat) : ∀ (ty : Int) (dim : Nat) (s : PS), Le (getInitN fu ty dim s) (getInit ty dim s) := by
  intros
  unfold getInit getInitN
  mono_le [getGArrayInit_le fu, getCnst_le fu, getStructInit_le fu]

def getGVarN (fu : Nat) (ty : Int) (pub : Bool) (s : PS) : Option PS := do
  let v := s.tab.length - 1
  let old := srcGlob s.tab v
  match s.toks with
  | Lx.eq :: _ => do
    let s := { s.next with tab := setScope s.tab v ScGVAR }
    let (d, s) ← getInitN fu ty s.curDim s
    if Gen.Dir.bug ∈ (Gen.genData v s.curDim d s.lab).1 then none
    else do
      let s := { s with lab := (Gen.genData v s.curDim d s.lab).2, out := .data v d s.tab s.lab :: s.out }
      match old with
      | some i => do
        let e ← s.tab[i]?
        if e.scope ≠ ScCOMM then none
        else do
          let t := undefName (setScope s.tab i ScGVAR) v
          if varFits t i ty s.curDim pub then some { s with tab := t } else none
      | none => some s
  | _ =>
    match old with
    | some i => do
      let e ← s.tab[i]?
      if e.scope = ScCOMM ∨ e.scope = ScGVAR then
        let t := undefName s.tab v
        if varFits t i ty s.curDim pub then some { s with tab := t } else none
      else none
    | none => some { s with out := .bss v s.tab :: s.out }

theorem getGVar_le (fu : Nat) : ∀ (ty : Int) (pub : Bool) (s : PS), Le (getGVarN fu ty pub s) (getGVar ty pub s) := by
  intros
  unfold getGVar getGVarN
  mono_le [getInit_le fu]

def getGVarsN (fu : Nat) (o : Opts) (ty : Int) (pub : Bool) (s : PS) : Option PS :=
  match fu with
  | 0 => none
  | fu + 1 => do
    let s ← getGVarN fu ty pub s
    match s.toks with
    | Lx.comma :: _ => do
      let s ← getName o ScCOMM ty pub s.next
      getGVarsN fu o ty pub s
    | _ => chkTok Lx.semi s
termination_by structural fu

theorem getGVars_le (fu : Nat) :
    ∀ (o : Opts) (ty : Int) (pub : Bool) (s : PS), Le (getGVarsN fu o ty pub s) (getGVars o ty pub s) := by
  induction fu with
  | zero =>
    intros; exact .bot
  | succ fu ih =>
    intros
    rw [getGVars.eq_def, getGVarsN.eq_def]
    dsimp only
    mono_le [ih, getGVar_le fu]

def getDeclN (fu : Nat) (o : Opts) (pub : Bool) (s : PS) : Option PS := do
  let (ty, s) ← getTy s
  let s ← getName o ScPROT ty pub s
  match s.toks with
  | Lx.lpar :: _ => getFuncN fu o ty pub s
  | _ =>
    if ty = TyVOID ∧ s.curDim = 0 then none
    else if ty = TyINTR then none
    else getGVarsN fu o ty pub { s with tab := setScope s.tab (s.tab.length - 1) ScCOMM }

theorem getDecl_le (fu : Nat) : ∀ (o : Opts) (pub : Bool) (s : PS), Le (getDeclN fu o pub s) (getDecl o pub s) := by
  intros
  unfold getDecl getDeclN
  mono_le [getGVars_le fu, getFunc_le fu]

def getProgN (fu : Nat) (o : Opts) (s : PS) : Option PS :=
  let pub := s.toks.head? == some Lx.PUBLIC
  let s := if pub then s.next else s
  match s.toks with
  | Lx.STRUCT :: _ =>
    if pub then none
    else do
      let s ← getName o ScSTRC TySTRUC false s.next
      getStructN fu o s
  | Lx.TYPEDEF :: _ =>
    if pub then none
    else do
      let s ← getName o ScSTRC TyREF false s.next
      chkTok Lx.semi s
  | _ => getDeclN fu o pub s

theorem getProg_le (fu : Nat) : ∀ (o : Opts) (s : PS), Le (getProgN fu o s) (getProg o s) := by
  intros
  unfold getProg getProgN
  mono_le [getStruct_le fu, getDecl_le fu]

def getSrcN (fu : Nat) (o : Opts) (s : PS) : Option PS :=
  match fu with
  | 0 => none
  | fu + 1 =>
    match s.toks with
    | [] => some s
    | _ => do
      let s ← getProgN fu o s
      getSrcN fu o s
termination_by structural fu

theorem getSrc_le (fu : Nat) :
    ∀ (o : Opts) (s : PS), Le (getSrcN fu o s) (getSrc o s) := by
  induction fu with
  | zero =>
    intros; exact .bot
  | succ fu ih =>
    intros
    rw [getSrc.eq_def, getSrcN.eq_def]
    dsimp only
    mono_le [ih, getProg_le fu]

/-- A function as it is handed to the code generator: index, frame size, trees. -/
def Out.fn : Out → Option (Nat × Nat × Stmt × Stmt)
  | .func f n src body _ _ => some (f, n, src, body)
  | _ => none

/-- What the bounded parser computes of a program is so. -/
theorem run_ok {α : Type} {o : Opts} {toks : List Tok} (fu : Nat) (g : PS → α) {v : α}
    (h : (getSrcN fu o (start toks)).map g = some v) :
    ∃ s, getSrc o (start toks) = some s ∧ g s = v := by
  rw [Option.map_eq_some_iff] at h
  obtain ⟨s, h1, h2⟩ := h
  exact ⟨s, (getSrc_le fu o _).le _ h1, h2⟩

end Cmm.Parse
