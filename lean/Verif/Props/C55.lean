import Verif.CText.ReadStmt

/-
C55: The C text printed for an expression, read back with C's grammar, is the same expression;
statements are separated so that no keyword merges with the following token.

The specification is C: `Lex` are the tokens of a text (longest match), `D`, `S` and `FunT` the grammars
of expressions, statements and function definitions, `tr`, `trS` and `trF` the C program a tree stands
for. `ty` says which words are names of types.

False of the code (C55_do_false): the body of a do statement follows the word do without a space. Also
false: a minus sign before a negative constant (C55_minus_false, C55_neg_false), names that are
keywords of C (C55_name_false), a body that is a list of two empty statements (C55_empty_false) or a
declaration (C55_decl_false). C55_expr_partial, C55_stm_partial and C55_fn_partial exclude these.
-/
namespace Cmm.CText

/-- The words that are types: int, char and void are, the words of statements, sizeof and static are not. -/
structure Types (ty : Text → Bool) : Prop where
  int : ty t!"int" = true
  sizeof : ty t!"sizeof" = false
  static : ty t!"static" = false
  stm : ∀ x ∈ skw, ty x = false

/-- The text of an expression is a C expression, in one way only, and it is the expression printed. -/
theorem C55_expr_partial (ty : Text → Bool) (hty : Types ty) (e : Exp) (h : LexOk e) (hg : GOk ty e) :
    (∃ ts, Lex (pexp e) ts ∧ D ty 0 ts (tr e)) ∧
    ∀ ts c, Lex (pexp e) ts → D ty 0 ts c → c = tr e := by
  have h1 : Lex (pexp e) (toks e) := by
    have := lex_exp e h (r := []) (fun c hc => by cases hc) .nil
    simpa using this
  have h2 := (read_exp ty hty.int e hg).1.lower 0 (by omega) (by omega)
  refine ⟨⟨_, h1, h2⟩, fun ts c h3 h4 => ?_⟩
  rw [h3.unique h1] at h4
  exact D.unique hty.sizeof h4 h2

/-- The text of a statement is a sequence of C statements, in one way only, and these are the statements
printed. -/
theorem C55_stm_partial (ty : Text → Bool) (hty : Types ty) (s : Stm) (h : SLexOk s) (hg : GS ty s) :
    (∃ ts, Lex (pstm s) ts ∧ S ty .its ts (CS.ofList (trS s))) ∧
    ∀ ts c, Lex (pstm s) ts → S ty .its ts c → c = CS.ofList (trS s) := by
  have h1 : Lex (pstm s) (stoks s) := by
    have := lex_stm s h (r := []) .nil
    simpa using this
  have h2 := (read_stm ty hty.int s hg).1
  refine ⟨⟨_, h1, h2⟩, fun ts c h3 h4 => ?_⟩
  rw [h3.unique h1] at h4
  exact S.unique hty.sizeof hty.stm h4 h2

/-- The text of a function is a C function definition, in one way only, and it is the function
printed. -/
theorem C55_fn_partial (ty : Text → Bool) (hty : Types ty) (f : Fn) (h : FnLexOk f) (hg : FnOk ty f) :
    (∃ ts, Lex (pfn f) ts ∧ FunT ty ts (trF f)) ∧
    ∀ ts c, Lex (pfn f) ts → FunT ty ts c → c = trF f := by
  refine ⟨⟨_, lex_fn h, read_fn hty.int hg⟩, fun ts c h3 h4 => ?_⟩
  rw [h3.unique (lex_fn h)] at h4
  exact FunT.unique hty.sizeof hty.stm hty.static h4 (read_fn hty.int hg)

/-- The text of a prototype. -/
theorem C55_proto_partial (ty : Text → Bool) (hty : Types ty) (f : Fn) (h : FnLexOk f) (hg : FnOk ty f) :
    (∃ ts, Lex (pproto f) (ts ++ [.pun .semi]) ∧ HeadT ty ts (trHead f)) ∧
    ∀ ts c, Lex (pproto f) (ts ++ [.pun .semi]) → HeadT ty ts c → c = trHead f := by
  have h1 : Lex (pproto f) (dcltoks f ++ [.pun .semi]) := lex_dcl h (.semi (.nl .nil))
  refine ⟨⟨_, h1, read_head hg⟩, fun ts c h3 h4 => ?_⟩
  exact (h4.inj hty.static (read_head hg) (h3.unique h1)).1

/-- Different trees are printed differently, unless they are the same C expression. -/
theorem C55_inj_partial (ty : Text → Bool) (hty : Types ty) (e e' : Exp) (h : LexOk e) (hg : GOk ty e)
    (h' : LexOk e') (hg' : GOk ty e') (he : pexp e = pexp e') : tr e = tr e' := by
  obtain ⟨ts, h1, h2⟩ := (C55_expr_partial ty hty e h hg).1
  rw [he] at h1
  exact (C55_expr_partial ty hty e' h' hg').2 ts _ h1 h2

/-! What is false. -/

private theorem split_at {A B r s : List Tok} {a : Tok} (hA : a ∉ A) (hB : a ∉ B) (e : A ++ a :: r = B ++ a :: s) : r = s := by
  induction A generalizing B with
  | nil =>
    cases B with
    | nil => simpa using e
    | cons b B => simp at e hB; exact absurd e.1 hB.1
  | cons x A ih =>
    cases B with
    | nil => simp at e hA; exact absurd e.1.symm hA.1
    | cons b B =>
      simp only [List.cons_append, List.cons.injEq] at e
      exact ih (fun h => hA (by simp [h])) (fun h => hB (by simp [h])) e.2

private theorem no_lpar {t : List Text} {n : Nat} {st : Bool} {x : Text} :
    Tok.pun .lpar ∉ (if st then [Tok.word t!"static"] else []) ++ (tyToks t n ++ [.word x]) := by
  cases st <;> simp [tyToks]

/-- `int f(...)`: a function of which `...` is the only parameter is printed so, and that is no head of a function of C
(whatever the type names): C11 wants a parameter in front. -/
theorem C55_dots_false (ty : Text → Bool) (f : Fn) (h : FnLexOk f) (hp : f.pars = [.dots]) :
    (∃ ts, Lex (pproto f) (ts ++ [.pun .semi])) ∧ ∀ ts c, Lex (pproto f) (ts ++ [.pun .semi]) → ¬ HeadT ty ts c := by
  have h1 : Lex (pproto f) (dcltoks f ++ [.pun .semi]) := lex_dcl h (.semi (.nl .nil))
  refine ⟨⟨_, h1⟩, fun ts c h3 h4 => ?_⟩
  have e := List.append_cancel_right (h3.unique h1)
  cases h4 with
  | @mk st t n x us ps g1 g2 g3 g4 =>
    have e' : ((if st then [Tok.word t!"static"] else []) ++ (tyToks t n ++ [.word x])) ++ .pun .lpar :: (us ++ [.pun .rpar]) =
        ((if !f.pub then [Tok.word t!"static"] else []) ++ (tyToks [f.ty.word] (stars f.ty f.dim false) ++ [.word f.name])) ++
          .pun .lpar :: ([.pun .dots] ++ [.pun .rpar]) := by
      rw [dcltoks, hp] at e
      cases hq : f.pub <;> rw [hq] at e <;> simpa [parstoks, partoks, ttoks] using e
    have := List.append_cancel_right (split_at no_lpar no_lpar e')
    subst this
    generalize hx : [Tok.pun P.dots] = y at g3
    cases g3 with
    | nil => cases hx
    | one g =>
      cases g with
      | p => rename_i t n x _ _; cases t <;> cases n <;> simp [tyToks, List.replicate] at hx
      | dots => exact absurd (g4 0 rfl).1 (by decide)
    | cons g _ =>
      cases g with
      | p => rename_i t n x _ _; cases t <;> cases n <;> simp [tyToks, List.replicate] at hx
      | dots => simp at hx

/-- If the text of the body begins with a letter, a digit or an underscore, the do statement does not
begin with the word do. -/
theorem C55_do_false (s : Stm) (c : Exp) (h : wordy s = true) (ts : List Tok) :
    ¬ Lex (pstm (.dos s c)) (.word t!"do" :: ts) := by
  intro hl
  have hx : ∃ x xs, pstm s = x :: xs ∧ isIdChar x = true := by
    unfold wordy at h
    cases hp : pstm s with
    | nil => rw [hp] at h; cases h
    | cons x xs => rw [hp] at h; exact ⟨x, xs, rfl, by simpa using h⟩
  obtain ⟨x, xs, hx, hid⟩ := hx
  simp only [pstm, hx, List.cons_append, List.nil_append] at hl
  generalize ht : 'd' :: 'o' :: x :: _ = t at hl
  generalize hw : Tok.word t!"do" :: ts = ws at hl
  cases hl with
  | nil => cases ht
  | ws h1 => cases ht; revert h1; decide
  | word _ h2 _ =>
    cases hw
    cases ht
    have := h2 x rfl
    rw [hid] at this
    cases this
  | num => cases hw
  | pun => cases hw

/-- `do f(); while (c);` is printed as `dof();` and `while(c);`. -/
theorem C55_do_reads (ty : Text → Bool) (hty : Types ty) (hc : Ident ty t!"c") (hf : Ident ty t!"dof") :
    pstm (.dos (.exp (.func t!"f" .nil)) (.var t!"c")) = t!"dof();\nwhile(c);\n" ∧
    (∃ ts, Lex t!"dof();\nwhile(c);\n" ts ∧
      S ty .its ts (.cons (.ex (.call (.id t!"dof") .nil)) (.cons (.whl (.id t!"c") .empty) .nil))) ∧
    ∀ ts s, Lex t!"dof();\nwhile(c);\n" ts → S ty .its ts s →
      s = .cons (.ex (.call (.id t!"dof") .nil)) (.cons (.whl (.id t!"c") .empty) .nil) := by
  have h1 : Lex t!"dof();\nwhile(c);\n" [.word t!"dof", .pun .lpar, .pun .rpar, .pun .semi, .word t!"while",
      .pun .lpar, .word t!"c", .pun .rpar, .pun .semi] :=
    Lex.name (s := t!"dof") (by simp [IsWord]; decide) (Sep.cons (by decide)) (.lpar (.rpar (.semi (.nl
      (Lex.kw (s := t!"while") (by decide) (Sep.cons (by decide)) (.lpar (Lex.name (s := t!"c")
        (by simp [IsWord]; decide) (Sep.cons (by decide)) (.rpar (.semi (.nl .nil))))))))))
  have h2 : S ty .its [.word t!"dof", .pun .lpar, .pun .rpar, .pun .semi, .word t!"while",
      .pun .lpar, .word t!"c", .pun .rpar, .pun .semi]
      (.cons (.ex (.call (.id t!"dof") .nil)) (.cons (.whl (.id t!"c") .empty) .nil)) :=
    .cons (ts := [.word t!"dof", .pun .lpar, .pun .rpar, .pun .semi])
      (.ex (ts := [.word t!"dof", .pun .lpar, .pun .rpar])
        ((D.call0 ((D.id hf).lower 15 (by omega) (by omega))).lower 0 (by omega) (by omega)))
      (.cons (ts := [.word t!"while", .pun .lpar, .word t!"c", .pun .rpar, .pun .semi])
        (.whl (cs := [.word t!"c"]) ((D.id hc).lower 0 (by omega) (by omega)) .empty) .nil)
  refine ⟨by decide, ⟨_, h1, h2⟩, fun ts s h3 h4 => ?_⟩
  rw [h3.unique h1] at h4
  exact S.unique hty.sizeof hty.stm h4 h2

/-- The reader descends to the parenthesis. -/
theorem R.par {ty : Text → Bool} {m : Mode} {ts r : List Tok} {e : CE} (h : R ty m ts e r) :
    ∀ l us, m = .p l → ts = .pun .lpar :: us → CText.castLike ty ts = false →
      ∃ e' r', R ty (.p 0) us e' (.pun .rpar :: r') := by
  induction h with
  | left _ _ _ ih _ => exact fun _ us _ h1 h2 => ih _ us rfl h1 h2
  | asg0 _ _ ih => exact fun _ us _ h1 h2 => ih _ us rfl h1 h2
  | asg _ _ _ ih _ => exact fun _ us _ h1 h2 => ih _ us rfl h1 h2
  | cond0 _ _ ih => exact fun _ us _ h1 h2 => ih _ us rfl h1 h2
  | cond _ _ _ ih _ _ => exact fun _ us _ h1 h2 => ih _ us rfl h1 h2
  | cast h => intro _ _ _ _ h2; rw [castLike_ty h] at h2; cases h2
  | cast0 _ _ ih => exact fun _ us _ h1 h2 => ih _ us rfl h1 h2
  | un h => intro _ _ _ h1; cases h1; cases h
  | inc h => intro _ _ _ h1; cases h1; cases h
  | szE | szT => intro _ _ _ h1; cases h1
  | un0 _ _ ih => exact fun _ us _ h1 h2 => ih _ us rfl h1 h2
  | post _ _ ih _ => exact fun _ us _ h1 h2 => ih _ us rfl h1 h2
  | num | id => intro _ _ _ h1; cases h1
  | paren h => intro _ _ _ h1 _; cases h1; exact ⟨_, _, h⟩
  | arg1 _ _ ih => exact fun _ us _ h1 h2 => ih _ us rfl h1 h2
  | arg _ _ ih _ => exact fun _ us _ h1 h2 => ih _ us rfl h1 h2
  | _ => intro _ _ h; cases h

theorem dec_sep (n : Nat) (r : Text) : ∀ c, (dec n ++ r).head? = some c → c.isDigit = true := by
  intro c hc
  obtain ⟨h1, h2⟩ := dec_digits n
  cases hd : dec n with
  | nil => exact absurd hd h1
  | cons d ds =>
    rw [hd] at hc
    cases hc
    exact h2 _ (by rw [hd]; simp)

/-- `a - v` with a negative constant v is printed as `(a--5)`, which is no C expression. -/
theorem C55_minus_false (ty : Text → Bool) (hty : Types ty) (a : Text) (ha : IsWord a) (hi : Ident ty a) (v : Int)
    (hv : v < 0) : ¬ ∃ ts c, Lex (pexp (.bin .sub (.var a) (.cnst v))) ts ∧ D ty 0 ts c := by
  rintro ⟨ts, c, h1, h2⟩
  have h3 : Lex (pexp (.bin .sub (.var a) (.cnst v)))
      [.pun .lpar, .word a, .pun .dec, .num (dec v.natAbs), .pun .rpar] := by
    have : pexp (.bin .sub (.var a) (.cnst v)) = '(' :: (a ++ (P.dec.txt ++ (dec v.natAbs ++ [')']))) := by
      simp [pexp, decI, hv, Bi.txt, P.txt]
    rw [this]
    exact .lpar (.name ha (Sep.cons (by decide)) (.solo (by decide) (by decide) rfl
      (.dec (Sep.cons (by decide)) (.rpar .nil))))
  rw [h1.unique h3] at h2
  have h4 := (h2.read hty.sizeof).2.1 (by omega) [] (fun t k h => by cases h)
  obtain ⟨e', r', h5⟩ := h4.par _ _ rfl rfl hi.2
  have h6 : D ty 0 [.word a, .pun .dec] (.post .dec (.id a)) :=
    (D.post (ts := [.word a]) rfl ((D.id hi).lower 15 (by omega) (by omega))).lower 0 (by omega) (by omega)
  have h7 := h6.rd hty.sizeof (t := .num (dec v.natAbs)) rfl [.pun .rpar]
  cases (h7.unique h5).2

/-- `-v` with a negative constant v is printed as `(--5)`, and C reads a decrement. -/
theorem C55_neg_false (ty : Text → Bool) (hty : Types ty) (v : Int) (hv : v < 0) :
    (∃ ts, Lex (pexp (.un .neg (.cnst v))) ts ∧ D ty 0 ts (.un .dec (.num v.natAbs))) ∧
    (∀ ts c, Lex (pexp (.un .neg (.cnst v))) ts → D ty 0 ts c → c = .un .dec (.num v.natAbs)) ∧
    tr (.un .neg (.cnst v)) ≠ .un .dec (.num v.natAbs) := by
  have h3 : Lex (pexp (.un .neg (.cnst v))) [.pun .lpar, .pun .dec, .num (dec v.natAbs), .pun .rpar] := by
    have : pexp (.un .neg (.cnst v)) = '(' :: (P.dec.txt ++ (dec v.natAbs ++ [')'])) := by
      simp [pexp, decI, hv, Un.txt, P.txt]
    rw [this]
    exact .lpar (.solo (by decide) (by decide) rfl (.dec (Sep.cons (by decide)) (.rpar .nil)))
  have h2 : D ty 0 [.pun .lpar, .pun .dec, .num (dec v.natAbs), .pun .rpar] (.un .dec (.num v.natAbs)) :=
    (D.paren (ts := [.pun .dec, .num (dec v.natAbs)]) ((D.inc rfl ((D.num (numVal_dec _)).lower 14 (by omega)
      (by omega))).lower 0 (by omega) (by omega))).lower 0 (by omega) (by omega)
  refine ⟨⟨_, h3, h2⟩, fun ts c h4 h5 => ?_, by simp [tr, Un.p]⟩
  rw [h4.unique h3] at h5
  exact D.unique hty.sizeof h5 h2

/-- A variable may have a name that is a keyword of C only; its text is no C expression. -/
theorem C55_name_false (ty : Text → Bool) (x : Text) (hx : x ∈ keywords) (hs : x ≠ t!"sizeof") :
    ¬ ∃ ts c, Lex (pexp (.var x)) ts ∧ D ty 0 ts c := by
  rintro ⟨ts, c, h1, h2⟩
  have h3 : Lex x [.word x] := by
    have := Lex.name (kw_word hx) (r := []) (fun c hc => by cases hc) .nil
    simpa using this
  rw [h1.unique h3] at h2
  rcases h2.firstWord x [] rfl with h | h
  · exact h hx
  · exact hs h

theorem RS.itemW {ty : Text → Bool} {x : Text} {ts us is r} (hx : ty x = false) (h : RS ty false ts is r)
    (ht : ts = .word x :: us) :
    ∃ s vs is', RS ty true (.word x :: us) s vs ∧ RS ty false vs is' r ∧ x ≠ t!"else" := by
  cases h with
  | nil h => subst ht; rcases h with h | h <;> cases h
  | cons g1 g2 g3 =>
    cases ht
    refine ⟨_, _, _, g2, g3, ?_⟩
    rintro rfl
    simp [stStart] at g1
  | @decl t n y us is r g1 =>
    cases t with
    | nil => exact absurd rfl g1.1
    | cons b t =>
      cases ht
      have := g1.2 x (by simp)
      rw [hx] at this
      cases this

theorem RS.itemP {ty : Text → Bool} {p : P} {ts us is r} (h : RS ty false ts is r) (ht : ts = .pun p :: us) :
    p = .rcur ∨ ∃ s vs is', RS ty true (.pun p :: us) s vs ∧ RS ty false vs is' r := by
  cases h with
  | nil h =>
    subst ht
    rcases h with h | h <;> cases h
    exact .inl rfl
  | cons g1 g2 g3 =>
    cases ht
    exact .inr ⟨_, _, _, g2, g3⟩
  | @decl t n y us is r g1 =>
    cases t with
    | nil => exact absurd rfl g1.1
    | cons b t => cases ht

/-- `if (c) {if (true) ;} else f();` leaves a list of two empty statements before else; the text is
`if(c);;else f();`, which is no C statement. -/
theorem C55_empty_false (ty : Text → Bool) (hty : Types ty) (hc : Ident ty t!"c") :
    ¬ ∃ ts k, Lex (pstm (.els (.var t!"c") (.semi .null .null) (.exp (.func t!"f" .nil)))) ts ∧ S ty .its ts k := by
  rintro ⟨ts, k, h1, h2⟩
  have h3 : Lex (pstm (.els (.var t!"c") (.semi .null .null) (.exp (.func t!"f" .nil))))
      (stoks (.els (.var t!"c") (.semi .null .null) (.exp (.func t!"f" .nil)))) := by
    have := lex_stm (.els (.var t!"c") (.semi .null .null) (.exp (.func t!"f" .nil)))
      (by simp [SLexOk, LexOk, LexOkA, IsWord]; decide) (r := []) .nil
    simpa using this
  rw [h1.unique h3] at h2
  have h4 : RS ty false _ k [] := h2.read hty.sizeof hty.stm [] (.inl rfl)
  have hr : R ty (.p 0) ([.word t!"c"] ++ .pun .rpar :: [.pun .semi, .pun .semi, .word t!"else", .word t!"f",
      .pun .lpar, .pun .rpar, .pun .semi]) (.id t!"c") _ :=
    D.rd hty.sizeof ((D.id hc).lower 0 (by omega) (by omega)) rfl _
  have h5 : RS ty true (stoks (.els (.var t!"c") (.semi .null .null) (.exp (.func t!"f" .nil))))
      (.ifs (.id t!"c") .empty) [.pun .semi, .word t!"else", .word t!"f", .pun .lpar, .pun .rpar, .pun .semi] :=
    .ifs hr .empty (by intro h; cases h)
  obtain ⟨s, vs, is', h6, h7, _⟩ := RS.itemW (hty.stm _ (by decide)) h4 rfl
  have h8 := (RS.unique hty.stm h6 h5).2
  subst h8
  rcases RS.itemP h7 rfl with h | ⟨_, _, _, g2, g3⟩
  · cases h
  · cases g2 with
    | empty =>
      obtain ⟨_, _, _, _, _, h⟩ := RS.itemW (hty.stm _ (by decide)) g3 rfl
      exact h rfl
    | ex g => cases g

/-- `if (c) {int x;}` is printed as `{if(c)int x;}`, which is no C statement. -/
theorem C55_decl_false (ty : Text → Bool) (hty : Types ty) (hc : Ident ty t!"c") :
    ¬ ∃ ts k, Lex (pstm (.ifs (.var t!"c") (.var .int 0 t!"x"))) ts ∧ S ty .its ts k := by
  rintro ⟨ts, k, h1, h2⟩
  have h3 : Lex (pstm (.ifs (.var t!"c") (.var .int 0 t!"x"))) (stoks (.ifs (.var t!"c") (.var .int 0 t!"x"))) := by
    have := lex_stm (.ifs (.var t!"c") (.var .int 0 t!"x"))
      (by simp [SLexOk, LexOk, IsWord, Ty.Ok]; decide) (r := []) .nil
    simpa using this
  rw [h1.unique h3] at h2
  have h4 : RS ty false _ k [] := h2.read hty.sizeof hty.stm [] (.inl rfl)
  have hr : R ty (.p 0) ([.word t!"c"] ++ .pun .rpar :: [.word t!"int", .word t!"x", .pun .semi, .pun .rcur])
      (.id t!"c") _ := D.rd hty.sizeof ((D.id hc).lower 0 (by omega) (by omega)) rfl _
  have noty : ∀ {m s r us}, RS ty m (.word t!"int" :: us) s r → m = true → False := by
    intro m s r us h hm
    subst hm
    generalize hx : Tok.word t!"int" :: us = y at h
    cases h with
    | ex g => cases hx; simp [exprStart, hty.int] at g
    | _ => cases hx
  have inner : ∀ {s r}, RS ty true (.word t!"if" :: .pun .lpar :: ([.word t!"c"] ++ .pun .rpar ::
      [.word t!"int", .word t!"x", .pun .semi, .pun .rcur])) s r → False := by
    intro s r h
    cases h with
    | ex g => simp [exprStart, skw] at g
    | ifs g1 g2 =>
      have := (g1.unique hr).2
      simp only [List.cons.injEq, true_and] at this
      subst this
      exact noty g2 rfl
    | els g1 g2 =>
      have := (g1.unique hr).2
      simp only [List.cons.injEq, true_and] at this
      subst this
      exact noty g2 rfl
  rcases RS.itemP h4 rfl with h | ⟨_, _, _, g2, _⟩
  · cases h
  · cases g2 with
    | ex g => cases g
    | block g =>
      obtain ⟨_, _, _, h6, _, _⟩ := RS.itemW (hty.stm _ (by decide)) g rfl
      exact inner h6

/-! Examples. -/

/-- The types of the examples. -/
def ty0 (x : Text) : Bool := [t!"int", t!"char", t!"void", t!"T"].contains x

theorem ty0_ok : Types ty0 := ⟨by decide, by decide, by decide, by decide⟩

/-- a[(i+1)]->x = f(-3, chr(b)) -/
def ex0 : Exp :=
  .bin .ass (.dot (.idx (.var t!"a") (.bin .add (.var t!"i") (.cnst 1))) t!"x")
    (.func t!"f" (.semi (.one (.cnst (-3))) (.one (.chr (.var t!"b")))))

example : pexp ex0 = t!"(a[(i+1)]->x=f(-3,(0xff&b)))" := by decide +kernel

example : LexOk ex0 ∧ GOk ty0 ex0 := by
  constructor
  · simp [ex0, LexOk, LexOkA, IsWord]; decide
  · simp [ex0, GOk, GOkA, Ident, Exp.post]; decide

/-- T[] g(int n, ...) { int i; for (;i<n;) {if (h(i)) return null;} do {p();} while (q); return z; } -/
def fn0 : Fn where
  pub := false
  ty := .named t!"T"
  dim := 1
  name := t!"g"
  pars := [.p .int 0 t!"n", .dots]
  body := .blk (.semi (.var .int 0 t!"i") (.semi
      (.whl (some (.bin .lt (.var t!"i") (.var t!"n"))) none (.ifs (.func t!"h" (.one (.var t!"i"))) (.ret (some (.cnst 0)))))
      (.dos (.blk (.exp (.func t!"p" .nil)) .null) (.var t!"q"))))
    (.ret (some (.var t!"z")))

example : pfn fn0 = t!"static T **g(int n,...){\nint i;\nfor(;(i<n);)\n{if(h(i))return 0;\n}do{\np();\n;\n}\nwhile(q);\nreturn z;\n}\n" := by
  decide +kernel

/-- `void f(...){}`. -/
example : FnLexOk ⟨true, .void, 0, t!"f", [.dots], .null⟩ := by
  refine ⟨?_, ?_, ?_, ?_⟩
  · simp [Ty.Ok, IsWord]
  · simp [IsWord]; decide
  · simp [ParLexOk]
  · simp [SLexOk]

example : FnLexOk fn0 ∧ FnOk ty0 fn0 := by
  refine ⟨⟨?_, ?_, ?_, ?_⟩, ⟨?_, ?_, ?_, ?_, ?_⟩⟩
  · simp [fn0, Ty.Ok, IsWord]; decide
  · simp [fn0, IsWord]; decide
  · simp [fn0, ParLexOk, Ty.Ok, IsWord]; decide
  · simp [fn0, SLexOk, LexOk, LexOkA, LexOkO, Ty.Ok, IsWord]; decide
  · decide
  · simp [fn0, Ident]; decide
  · simp [fn0, ParOk, Ident, Ty.word]; decide
  · intro i hi
    match i, hi with
    | 1, _ => decide
    | n + 2, hi => simp [fn0] at hi
  · simp [fn0, GS, GOk, GOkA, GOkO, Ident, Ty.word, Single]; decide

/-- The bodies of C55_do_false: calls, assignments, if, while and do statements without braces. -/
example : wordy (.exp (.func t!"f" .nil)) = true ∧ wordy (.els (.var t!"c") .brk .cnt) = true ∧ wordy .brk = true := by
  decide

/-- Without braces, `do -1; ` or `do (a=1);` is still read well: assignments are printed in parentheses. -/
example : wordy (.exp (.bin .ass (.var t!"a") (.cnst 1))) = false := by decide

example : Ident ty0 t!"c" ∧ Ident ty0 t!"dof" ∧ IsWord t!"a" ∧ Ident ty0 t!"a" := by
  simp [Ident, IsWord]; decide

/-- long is no keyword of C--. -/
example : t!"long" ∈ keywords := by decide

end Cmm.CText
