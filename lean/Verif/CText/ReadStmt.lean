import Verif.CText.Stmt

/-
The C statements and functions that trees stand for, and the proof that the printed tokens are these.
-/
namespace Cmm.CText

def CS.ofList : List CS → CS
  | [] => .nil
  | a :: as => .cons a (CS.ofList as)

def trO : Option Exp → CE
  | none => .nil
  | some e => tr e

/-- The C statements of a tree. An expression statement that is a constant is empty, an if without else
stands in a block, loops are for statements. -/
def trS : Stm → List CS
  | .null => [.empty]
  | .exp (.cnst _) => [.empty]
  | .exp e => [.ex (tr e)]
  | .ifs c s => [.block (.cons (.ifs (tr c) ((trS s).headD .empty)) .nil)]
  | .els c s t => [.els (tr c) ((trS s).headD .empty) ((trS t).headD .empty)]
  | .whl c re s => [.fors .nil (trO c) (trO re) ((trS s).headD .empty)]
  | .dos s c => [.dos ((trS s).headD .empty) (tr c)]
  | .brk => [.brk]
  | .cnt => [.cnt]
  | .ret e => [.ret (trO e)]
  | .var t dim x => [.decl [t.word] (stars t dim false) x]
  | .blk s t => [.block (CS.ofList (trS s ++ trS t))]
  | .semi s t => trS s ++ trS t

/-- Neither a list of statements nor a declaration. -/
def Single : Stm → Bool
  | .semi _ _ => false
  | .var _ _ _ => false
  | _ => true

def GOkO (ty : Text → Bool) : Option Exp → Prop
  | none => True
  | some e => GOk ty e

/-- The bodies of if, while and do are single statements. -/
def GS (ty : Text → Bool) : Stm → Prop
  | .null => True
  | .exp e => GOk ty e
  | .ifs c s => GOk ty c ∧ GS ty s ∧ Single s = true
  | .els c s t => GOk ty c ∧ (GS ty s ∧ Single s = true) ∧ (GS ty t ∧ Single t = true)
  | .whl c re s => GOkO ty c ∧ GOkO ty re ∧ GS ty s ∧ Single s = true
  | .dos s c => (GS ty s ∧ Single s = true) ∧ GOk ty c
  | .brk => True
  | .cnt => True
  | .ret e => GOkO ty e
  | .var t _ x => ty t.word = true ∧ Ident ty x
  | .blk s t => GS ty s ∧ GS ty t
  | .semi s t => GS ty s ∧ GS ty t

theorem S.open' {ty : Text → Bool} {ts : List Tok} {s : CS} (h : S ty (.st true) ts s) : S ty (.st false) ts s := by
  generalize hk : K.st true = k at h
  induction h with
  | empty => exact .empty
  | ex h => exact .ex h
  | block h => exact .block h
  | ifs => cases hk
  | els h1 h2 _ _ ih => exact .els h1 h2 (ih hk)
  | fors h1 h2 h3 _ ih => exact .fors h1 h2 h3 (ih hk)
  | whl h1 _ ih => exact .whl h1 (ih hk)
  | dos h1 h2 => exact .dos h1 h2
  | brk => exact .brk
  | cnt => exact .cnt
  | ret h => exact .ret h
  | nil | cons | decl => cases hk

theorem S.append {ty : Text → Bool} {ts us : List Tok} {as bs : List CS} (h : S ty .its ts (CS.ofList as))
    (h' : S ty .its us (CS.ofList bs)) : S ty .its (ts ++ us) (CS.ofList (as ++ bs)) := by
  induction as generalizing ts with
  | nil => cases h; exact h'
  | cons a as ih =>
    simp only [CS.ofList] at h
    cases h with
    | cons h1 h2 => rw [List.append_assoc]; exact .cons h1 (ih h2)
    | decl h1 h2 h3 => rw [List.append_assoc]; exact .decl h1 h2 (ih h3)

theorem S.one {ty : Text → Bool} {ts : List Tok} {s : CS} (h : S ty (.st true) ts s) :
    S ty .its ts (CS.ofList [s]) := by
  have := S.cons h.open' .nil
  rwa [List.append_nil] at this

theorem read_expO (ty : Text → Bool) (hi : ty t!"int" = true) (e : Option Exp) (h : GOkO ty e) :
    O ty (toksO e) (trO e) := by
  cases e with
  | none => exact .inl ⟨rfl, rfl⟩
  | some e => exact .inr ((read_exp ty hi e h).1.lower 0 (by omega) (by omega))

theorem read_stm (ty : Text → Bool) (hi : ty t!"int" = true) (s : Stm) (h : GS ty s) :
    S ty .its (stoks s) (CS.ofList (trS s)) ∧
    (Single s = true → S ty (.st true) (stoks s) ((trS s).headD .empty)) := by
  have fin : ∀ {ts : List Tok} {c : CS} {p : Prop}, S ty (.st true) ts c →
      S ty .its ts (CS.ofList [c]) ∧ (p → S ty (.st true) ts c) := fun h => ⟨h.one, fun _ => h⟩
  have ex : ∀ e, GOk ty e → D ty 0 (toks e) (tr e) :=
    fun e h => (read_exp ty hi e h).1.lower 0 (by omega) (by omega)
  induction s with
  | null => exact fin .empty
  | exp e =>
    by_cases hc : ∃ v, e = .cnst v
    · obtain ⟨v, rfl⟩ := hc
      exact fin .empty
    · have e1 : stoks (.exp e) = toks e ++ [.pun .semi] := by
        cases e <;> first | rfl | exact absurd ⟨_, rfl⟩ hc
      have e2 : trS (.exp e) = [.ex (tr e)] := by
        cases e <;> first | rfl | exact absurd ⟨_, rfl⟩ hc
      rw [e1, e2]
      exact fin (.ex (ex e h))
  | ifs c s ih =>
    have h1 := S.ifs (ex c h.1) ((ih h.2.1).2 h.2.2).open'
    have h2 := S.cons h1 .nil
    have h3 : S ty (.st true) _ _ := S.block h2
    simp only [List.append_nil, List.cons_append, List.append_assoc] at h3
    exact fin h3
  | els c s t ih ih' => exact fin (.els (ex c h.1) ((ih h.2.1.1).2 h.2.1.2) ((ih' h.2.2.1).2 h.2.2.2))
  | whl c re s ih =>
    exact fin (.fors (as := []) (.inl ⟨rfl, rfl⟩) (read_expO ty hi c h.1) (read_expO ty hi re h.2.1)
      ((ih h.2.2.1).2 h.2.2.2))
  | dos s c ih => exact fin (.dos ((ih h.1.1).2 h.1.2).open' (ex c h.2))
  | brk => exact fin .brk
  | cnt => exact fin .cnt
  | ret e => exact fin (.ret (read_expO ty hi e h))
  | var t dim x =>
    refine ⟨?_, fun hs => by cases hs⟩
    exact .decl (t := [t.word]) ⟨by simp, by simpa using h.1⟩ h.2 .nil
  | blk s t ih ih' => exact fin (.block ((ih h.1).1.append (ih' h.2).1))
  | semi s t ih ih' => exact ⟨(ih h.1).1.append (ih' h.2).1, fun hs => by cases hs⟩

/-! Functions. -/

/-- A parameter of C: type, stars and name; none is `...`. -/
abbrev CPar := Option (List Text × Nat × Text)

inductive ParT (ty : Text → Bool) : List Tok → CPar → Prop
  | p {t n x} : TyName ty t → Ident ty x → ParT ty (tyToks t n ++ [.word x]) (some (t, n, x))
  | dots : ParT ty [.pun .dots] none

inductive ParsT (ty : Text → Bool) : List Tok → List CPar → Prop
  | nil : ParsT ty [] []
  | one {ts p} : ParT ty ts p → ParsT ty ts [p]
  | cons {ts us p q ps} : ParT ty ts p → ParsT ty us (q :: ps) →
      ParsT ty (ts ++ .pun .comma :: us) (p :: q :: ps)

/-- The head of a function definition or prototype of C. -/
structure CHead where
  static : Bool
  ty : List Text
  stars : Nat
  name : Text
  pars : List CPar

/-- C11 6.7.6: `...` stands at the end of the parameters and not at the beginning. -/
def DotsLast (ps : List CPar) : Prop := ∀ i, ps[i]? = some none → 0 < i ∧ i + 1 = ps.length

/-- `static` is not a type. -/
inductive HeadT (ty : Text → Bool) : List Tok → CHead → Prop
  | mk {st t n x ts ps} : TyName ty t → Ident ty x → ParsT ty ts ps → DotsLast ps →
      HeadT ty ((if st then [.word t!"static"] else []) ++ (tyToks t n ++ .word x :: .pun .lpar ::
        (ts ++ [.pun .rpar]))) ⟨st, t, n, x, ps⟩

theorem ParT.inj {ty : Text → Bool} {ts ts' r r' : List Tok} {p p' : CPar} {a a' : P} (h : ParT ty ts p)
    (h' : ParT ty ts' p') (e : ts ++ .pun a :: r = ts' ++ .pun a' :: r') : p = p' ∧ a = a' ∧ r = r' := by
  cases h with
  | @p t n x h1 h2 =>
    cases h' with
    | p g1 g2 =>
      rw [List.append_assoc, List.append_assoc] at e
      obtain ⟨rfl, rfl, rfl, e2⟩ := declToks_inj h1.2 h2.2 g1.2 g2.2 e
      have e' : Tok.pun a :: r = .pun a' :: r' := e2
      simp only [List.cons.injEq, Tok.pun.injEq] at e'
      exact ⟨rfl, e'.1, e'.2⟩
    | dots =>
      cases t with
      | nil => exact absurd rfl h1.1
      | cons => cases e
  | dots =>
    cases h' with
    | @p t n x g1 g2 =>
      cases t with
      | nil => exact absurd rfl g1.1
      | cons => cases e
    | dots => cases e; exact ⟨rfl, rfl, rfl⟩

theorem ParT.ne {ty : Text → Bool} {ts r r' : List Tok} {p : CPar} {a : P} (h : ParT ty ts p)
    (e : ts ++ r = .pun a :: r') : a = .dots := by
  cases h with
  | @p t n x h1 =>
    cases t with
    | nil => exact absurd rfl h1.1
    | cons => cases e
  | dots => cases e; rfl

theorem ParsT.inj {ty : Text → Bool} {ts ts' r r' : List Tok} {p p' : List CPar} (h : ParsT ty ts p)
    (h' : ParsT ty ts' p') (e : ts ++ .pun .rpar :: r = ts' ++ .pun .rpar :: r') : p = p' ∧ r = r' := by
  induction h generalizing ts' p' with
  | nil =>
    cases h' with
    | nil => cases e; exact ⟨rfl, rfl⟩
    | one g => cases g.ne e.symm
    | cons g => rw [List.append_assoc] at e; cases g.ne e.symm
  | one h1 =>
    cases h' with
    | nil => cases h1.ne e
    | one g => obtain ⟨rfl, _, rfl⟩ := h1.inj g e; exact ⟨rfl, rfl⟩
    | cons g =>
      rw [List.append_assoc] at e
      cases (h1.inj g e).2.1
  | cons h1 _ ih =>
    cases h' with
    | nil => rw [List.append_assoc] at e; cases h1.ne e
    | one g =>
      rw [List.append_assoc] at e
      cases (h1.inj g e).2.1
    | cons g g' =>
      rw [List.append_assoc, List.append_assoc] at e
      obtain ⟨rfl, _, e⟩ := h1.inj g e
      obtain ⟨e1, rfl⟩ := ih g' e
      exact ⟨by rw [e1], rfl⟩

theorem HeadT.inj {ty : Text → Bool} (hs : ty t!"static" = false) {ts ts' r r' : List Tok} {p p' : CHead}
    (h : HeadT ty ts p) (h' : HeadT ty ts' p') (e : ts ++ r = ts' ++ r') : p = p' ∧ r = r' := by
  cases h with
  | @mk st t n x us ps h1 h2 h3 _ =>
    cases h' with
    | @mk st' t' n' x' us' ps' g1 g2 g3 _ =>
      have key : st = st' := by
        cases t with
        | nil => exact absurd rfl h1.1
        | cons a t =>
        cases t' with
        | nil => exact absurd rfl g1.1
        | cons a' t' =>
          have ha := h1.2 a (by simp)
          have ha' := g1.2 a' (by simp)
          cases st <;> cases st' <;> try rfl
          · simp only [tyToks, Bool.false_eq_true, if_false, if_true, List.map_cons, List.cons_append,
              List.nil_append, List.cons.injEq, Tok.word.injEq] at e
            rw [e.1, hs] at ha; cases ha
          · simp only [tyToks, Bool.false_eq_true, if_false, if_true, List.map_cons, List.cons_append,
              List.nil_append, List.cons.injEq, Tok.word.injEq] at e
            rw [← e.1, hs] at ha'; cases ha'
      subst key
      simp -failIfUnchanged only [List.append_assoc, List.append_cancel_left_eq, List.cons_append, List.nil_append] at e
      obtain ⟨rfl, rfl, rfl, e2⟩ := declToks_inj h1.2 h2.2 g1.2 g2.2 e
      simp only [List.cons.injEq, true_and] at e2
      obtain ⟨rfl, rfl⟩ := h3.inj g3 e2
      exact ⟨rfl, rfl⟩

/-- A function definition of C. -/
inductive FunT (ty : Text → Bool) : List Tok → CHead × CS → Prop
  | mk {ts us h b} : HeadT ty ts h → S ty .its us b → FunT ty (ts ++ .pun .lcur :: (us ++ [.pun .rcur])) (h, b)

theorem FunT.unique {ty : Text → Bool} (hz : ty t!"sizeof" = false) (hk : ∀ x ∈ skw, ty x = false)
    (hs : ty t!"static" = false) {ts : List Tok} {f f' : CHead × CS} (h : FunT ty ts f) (h' : FunT ty ts f') :
    f = f' := by
  cases h with
  | @mk as us h b h1 h2 =>
    generalize hx : as ++ .pun .lcur :: (us ++ [.pun .rcur]) = y at h'
    cases h' with
    | mk g1 g2 =>
      obtain ⟨rfl, e⟩ := h1.inj hs g1 hx
      simp only [List.cons.injEq, true_and, List.append_cancel_right_eq] at e
      subst e
      rw [S.unique hz hk h2 g2]

def trPar : Par → CPar
  | .p t dim x => some ([t.word], stars t dim false, x)
  | .dots => none

def trHead (f : Fn) : CHead := ⟨!f.pub, [f.ty.word], stars f.ty f.dim false, f.name, f.pars.map trPar⟩

/-- The C function a function stands for. -/
def trF (f : Fn) : CHead × CS := (trHead f, CS.ofList (trS (unblk f.body)))

def partoks : Par → List Tok
  | .p t dim x => ttoks t dim false ++ [.word x]
  | .dots => [.pun .dots]

def parstoks : List Par → List Tok
  | [] => []
  | [p] => partoks p
  | p :: q :: ps => partoks p ++ .pun .comma :: parstoks (q :: ps)

def dcltoks (f : Fn) : List Tok :=
  (if f.pub then [] else [.word t!"static"]) ++ (ttoks f.ty f.dim false ++ .word f.name :: .pun .lpar ::
    (parstoks f.pars ++ [.pun .rpar]))

def fntoks (f : Fn) : List Tok := dcltoks f ++ .pun .lcur :: (stoks (unblk f.body) ++ [.pun .rcur])

/-- The text of a parameter is lexed as intended. -/
def ParLexOk : Par → Prop
  | .p t _ x => t.Ok ∧ IsWord x
  | .dots => True

structure FnLexOk (f : Fn) : Prop where
  ty : f.ty.Ok
  name : IsWord f.name
  pars : ∀ p ∈ f.pars, ParLexOk p
  body : SLexOk f.body

def ParOk (ty : Text → Bool) : Par → Prop
  | .p t _ x => ty t.word = true ∧ Ident ty x
  | .dots => True

structure FnOk (ty : Text → Bool) (f : Fn) : Prop where
  type : ty f.ty.word = true
  name : Ident ty f.name
  pars : ∀ p ∈ f.pars, ParOk ty p
  dots : ∀ i, f.pars[i]? = some .dots → 0 < i ∧ i + 1 = f.pars.length
  body : GS ty f.body

theorem read_pars {ty : Text → Bool} {ps : List Par} (h : ∀ p ∈ ps, ParOk ty p) :
    ParsT ty (parstoks ps) (ps.map trPar) := by
  have one : ∀ {p}, ParOk ty p → ParT ty (partoks p) (trPar p) := by
    intro p h
    cases p with
    | p t dim x => exact .p (t := [t.word]) ⟨by simp, by simpa using h.1⟩ h.2
    | dots => exact .dots
  induction ps with
  | nil => exact .nil
  | cons p ps ih =>
    have hp := one (h p (by simp))
    have ih := ih fun q hq => h q (by simp [hq])
    cases ps with
    | nil => exact .one hp
    | cons q ps => exact .cons hp ih

theorem read_head {ty : Text → Bool} {f : Fn} (h : FnOk ty f) : HeadT ty (dcltoks f) (trHead f) := by
  have := HeadT.mk (st := !f.pub) (t := [f.ty.word]) (n := stars f.ty f.dim false)
    ⟨by simp, by simpa using h.type⟩ h.name (read_pars h.pars)
    (fun i hi => by
      rw [List.getElem?_map, Option.map_eq_some_iff] at hi
      obtain ⟨p, hp, hq⟩ := hi
      cases p with
      | p => cases hq
      | dots => rw [List.length_map]; exact h.dots i hp)
  unfold dcltoks
  cases hp : f.pub <;> rw [hp] at this <;> simpa [hp, trHead, ttoks, tyToks] using this

theorem GS.unblk {ty : Text → Bool} {s : Stm} (h : GS ty s) : GS ty (unblk s) := by
  cases s <;> exact h

theorem read_fn {ty : Text → Bool} (hi : ty t!"int" = true) {f : Fn} (h : FnOk ty f) :
    FunT ty (fntoks f) (trF f) :=
  .mk (read_head h) (read_stm ty hi _ h.body.unblk).1

/-! The text has these tokens. -/

theorem SLexOk.unblk {s : Stm} (h : SLexOk s) : SLexOk (unblk s) := by
  cases s <;> exact h

theorem lex_par {p : Par} (h : ParLexOk p) {r : Text} {ts : List Tok} (hs : Sep r) (hl : Lex r ts) :
    Lex (ppar p ++ r) (partoks p ++ ts) := by
  cases p with
  | p t dim x =>
    simp only [ppar, partoks, List.append_assoc]
    exact .ptype h.1 (word_ne_eq h.2 _) (.name h.2 hs hl)
  | dots => exact Lex.punct (p := .dots) (by decide) (by decide) (by decide) (fun c hc hm => by cases hm) hl

theorem lex_pars {ps : List Par} (h : ∀ p ∈ ps, ParLexOk p) {r : Text} {ts : List Tok} (hl : Lex r ts) :
    Lex (ppars ps ++ ')' :: r) (parstoks ps ++ .pun .rpar :: ts) := by
  induction ps with
  | nil => exact .rpar hl
  | cons p ps ih =>
    have hp := h p (by simp)
    have ih := ih fun q hq => h q (by simp [hq])
    cases ps with
    | nil => exact lex_par hp (Sep.cons (by decide)) (.rpar hl)
    | cons q ps =>
      simp only [ppars, parstoks, List.append_assoc]
      exact lex_par hp (Sep.cons (by decide)) (.comma ih)

theorem lex_dcl {f : Fn} (h : FnLexOk f) {r : Text} {ts : List Tok} (hl : Lex r ts) :
    Lex (pdcl f ++ r) (dcltoks f ++ ts) := by
  have h1 : Lex (ptype f.ty f.dim false ++ (f.name ++ (t!"(" ++ (ppars f.pars ++ ')' :: r))))
      (ttoks f.ty f.dim false ++ .word f.name :: .pun .lpar :: (parstoks f.pars ++ .pun .rpar :: ts)) :=
    .ptype h.ty (word_ne_eq h.name _) (.name h.name (Sep.cons (by decide)) (.lpar (lex_pars h.pars hl)))
  unfold pdcl dcltoks
  cases f.pub
  · have := Lex.kw (s := t!"static") (by decide) (Sep.cons (by decide)) (.ws (c := ' ') (by decide) h1)
    simpa using this
  · simpa using h1

theorem lex_fn {f : Fn} (h : FnLexOk f) : Lex (pfn f) (fntoks f) := by
  have := lex_dcl h (Lex.lcur (.nl (lex_stm _ h.body.unblk (.rcur (.nl .nil)))))
  simpa [pfn, fntoks] using this

end Cmm.CText
