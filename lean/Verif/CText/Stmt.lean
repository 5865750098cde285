import Verif.CText.Read

/-
Statements of C (ISO C 6.8): expression statements, blocks, if, for, while, do, break, continue,
return, and declarations of one name without initial value. As in C, an else belongs to the nearest if
without one: the first statement of an if with else is not an if without else, nor does it end in one.
-/
namespace Cmm.CText

/-- Statements; nil and cons are the lists of a block, an absent expression is CE.nil. -/
inductive CS
  | empty
  | ex (e : CE)
  | block (is : CS)
  | ifs (c : CE) (s : CS)
  | els (c : CE) (s t : CS)
  | fors (a b c : CE) (s : CS)
  | whl (c : CE) (s : CS)
  | dos (s : CS) (c : CE)
  | brk
  | cnt
  | ret (e : CE)
  | decl (t : List Text) (n : Nat) (x : Text)
  | nil
  | cons (s is : CS)
deriving DecidableEq

/-- An optional expression. -/
def O (ty : Text → Bool) (ts : List Tok) (e : CE) : Prop := (ts = [] ∧ e = .nil) ∨ D ty 0 ts e

/-- `st false` is a statement, `st true` a statement that may stand before else, `its` the inside of a
block. -/
inductive K | st (closed : Bool) | its

inductive S (ty : Text → Bool) : K → List Tok → CS → Prop
  | empty {k} : S ty (.st k) [.pun .semi] .empty
  | ex {k ts e} : D ty 0 ts e → S ty (.st k) (ts ++ [.pun .semi]) (.ex e)
  | block {k ts is} : S ty .its ts is → S ty (.st k) (.pun .lcur :: (ts ++ [.pun .rcur])) (.block is)
  | ifs {cs us c s} : D ty 0 cs c → S ty (.st false) us s →
      S ty (.st false) (.word t!"if" :: .pun .lpar :: (cs ++ .pun .rpar :: us)) (.ifs c s)
  | els {k cs us vs c s t} : D ty 0 cs c → S ty (.st true) us s → S ty (.st k) vs t →
      S ty (.st k) (.word t!"if" :: .pun .lpar :: (cs ++ .pun .rpar :: (us ++ .word t!"else" :: vs))) (.els c s t)
  | fors {k as bs cs us a b c s} : O ty as a → O ty bs b → O ty cs c → S ty (.st k) us s →
      S ty (.st k) (.word t!"for" :: .pun .lpar :: (as ++ .pun .semi :: (bs ++ .pun .semi ::
        (cs ++ .pun .rpar :: us)))) (.fors a b c s)
  | whl {k cs us c s} : D ty 0 cs c → S ty (.st k) us s →
      S ty (.st k) (.word t!"while" :: .pun .lpar :: (cs ++ .pun .rpar :: us)) (.whl c s)
  | dos {k cs us c s} : S ty (.st false) us s → D ty 0 cs c →
      S ty (.st k) (.word t!"do" :: (us ++ .word t!"while" :: .pun .lpar :: (cs ++ [.pun .rpar, .pun .semi]))) (.dos s c)
  | brk {k} : S ty (.st k) [.word t!"break", .pun .semi] .brk
  | cnt {k} : S ty (.st k) [.word t!"continue", .pun .semi] .cnt
  | ret {k ts e} : O ty ts e → S ty (.st k) (.word t!"return" :: (ts ++ [.pun .semi])) (.ret e)
  | nil : S ty .its [] .nil
  | cons {ts us s is} : S ty (.st false) ts s → S ty .its us is → S ty .its (ts ++ us) (.cons s is)
  | decl {t n x us is} : TyName ty t → Ident ty x → S ty .its us is →
      S ty .its (tyToks t n ++ .word x :: .pun .semi :: us) (.cons (.decl t n x) is)

/-! A reader, used to prove that the grammar is unambiguous. -/

/-- The words that begin a statement, and else. -/
def skw : List Text :=
  [t!"break", t!"continue", t!"do", t!"else", t!"for", t!"if", t!"return", t!"while"]

/-- The token begins an expression. -/
def exprStart (ty : Text → Bool) : Tok → Bool
  | .num _ => true
  | .word x => !ty x && !skw.contains x
  | .pun p => p == .lpar || isUn p || isInc p

/-- The token begins a statement. -/
def stStart (ty : Text → Bool) : Tok → Bool
  | .num _ => true
  | .word x => !ty x && x != t!"else"
  | .pun p => p == .lpar || isUn p || isInc p || p == .semi || p == .lcur

def RO (ty : Text → Bool) (ts : List Tok) (e : CE) (r : List Tok) : Prop :=
  ((ts.head? = some (.pun .semi) ∨ ts.head? = some (.pun .rpar)) ∧ e = .nil ∧ r = ts) ∨
  (∃ t ts', ts = t :: ts' ∧ exprStart ty t = true) ∧ R ty (.p 0) ts e r

inductive RS (ty : Text → Bool) : Bool → List Tok → CS → List Tok → Prop
  | empty {r} : RS ty true (.pun .semi :: r) .empty r
  | ex {t ts e r} : exprStart ty t = true → R ty (.p 0) (t :: ts) e (.pun .semi :: r) → RS ty true (t :: ts) (.ex e) r
  | block {ts is r} : RS ty false ts is (.pun .rcur :: r) → RS ty true (.pun .lcur :: ts) (.block is) r
  | ifs {ts us c s r} : R ty (.p 0) ts c (.pun .rpar :: us) → RS ty true us s r →
      r.head? ≠ some (.word t!"else") → RS ty true (.word t!"if" :: .pun .lpar :: ts) (.ifs c s) r
  | els {ts us vs c s t r} : R ty (.p 0) ts c (.pun .rpar :: us) → RS ty true us s (.word t!"else" :: vs) →
      RS ty true vs t r → RS ty true (.word t!"if" :: .pun .lpar :: ts) (.els c s t) r
  | fors {as bs cs us a b c s r} : RO ty as a (.pun .semi :: bs) → RO ty bs b (.pun .semi :: cs) →
      RO ty cs c (.pun .rpar :: us) → RS ty true us s r →
      RS ty true (.word t!"for" :: .pun .lpar :: as) (.fors a b c s) r
  | whl {ts us c s r} : R ty (.p 0) ts c (.pun .rpar :: us) → RS ty true us s r →
      RS ty true (.word t!"while" :: .pun .lpar :: ts) (.whl c s) r
  | dos {ts us c s r} : RS ty true ts s (.word t!"while" :: .pun .lpar :: us) →
      R ty (.p 0) us c (.pun .rpar :: .pun .semi :: r) → RS ty true (.word t!"do" :: ts) (.dos s c) r
  | brk {r} : RS ty true (.word t!"break" :: .pun .semi :: r) .brk r
  | cnt {r} : RS ty true (.word t!"continue" :: .pun .semi :: r) .cnt r
  | ret {ts e r} : RO ty ts e (.pun .semi :: r) → RS ty true (.word t!"return" :: ts) (.ret e) r
  | nil {r} : r.head? = none ∨ r.head? = some (.pun .rcur) → RS ty false r .nil r
  | cons {t ts s us is r} : stStart ty t = true → RS ty true (t :: ts) s us → RS ty false us is r →
      RS ty false (t :: ts) (.cons s is) r
  | decl {t n x us is r} : TyName ty t → Ident ty x → RS ty false us is r →
      RS ty false (tyToks t n ++ .word x :: .pun .semi :: us) (.cons (.decl t n x) is) r

theorem declToks_inj {ty : Text → Bool} {t t' : List Text} {n n' : Nat} {x x' : Text} {us us' : List Tok}
    (h1 : ∀ y ∈ t, ty y = true) (h2 : ty x = false) (h1' : ∀ y ∈ t', ty y = true) (h2' : ty x' = false)
    (h : tyToks t n ++ .word x :: us = tyToks t' n' ++ .word x' :: us') :
    t = t' ∧ n = n' ∧ x = x' ∧ us = us' := by
  induction t generalizing t' with
  | nil =>
    cases t' with
    | nil =>
      simp only [tyToks, List.map_nil, List.nil_append] at h
      induction n generalizing n' with
      | zero =>
        cases n' with
        | zero => cases h; exact ⟨rfl, rfl, rfl, rfl⟩
        | succ n' => cases h
      | succ n ih =>
        cases n' with
        | zero => cases h
        | succ n' =>
          simp only [List.replicate_succ, List.cons_append, List.cons.injEq, true_and] at h
          obtain ⟨_, a, b, c⟩ := ih h
          exact ⟨rfl, by omega, b, c⟩
    | cons y t' =>
      have hy := h1' y (by simp)
      cases n with
      | zero =>
        simp only [tyToks, List.map_nil, List.nil_append, List.replicate_zero, List.map_cons, List.cons_append,
          List.cons.injEq, Tok.word.injEq] at h
        rw [← h.1, h2] at hy; cases hy
      | succ n => simp [tyToks, List.replicate_succ] at h
  | cons y t ih =>
    have hy := h1 y (by simp)
    cases t' with
    | nil =>
      cases n' with
      | zero =>
        simp only [tyToks, List.map_nil, List.nil_append, List.replicate_zero, List.map_cons, List.cons_append,
          List.cons.injEq, Tok.word.injEq] at h
        rw [h.1, h2'] at hy; cases hy
      | succ n => simp [tyToks, List.replicate_succ] at h
    | cons y' t' =>
      simp only [tyToks, List.map_cons, List.cons_append, List.cons.injEq, Tok.word.injEq] at h
      obtain ⟨a, b, c, d⟩ := ih (t' := t') (fun z hz => h1 z (by simp [hz])) (fun z hz => h1' z (by simp [hz]))
        (by simpa [tyToks] using h.2)
      exact ⟨by rw [h.1, a], b, c, d⟩

theorem RO.unique {ty : Text → Bool} {ts r r' : List Tok} {e e' : CE} (h : RO ty ts e r) (h' : RO ty ts e' r') :
    e = e' ∧ r = r' := by
  have ns : ∀ {ts : List Tok}, (ts.head? = some (.pun .semi) ∨ ts.head? = some (.pun .rpar)) →
      (∃ t ts', ts = t :: ts' ∧ exprStart ty t = true) → False := by
    rintro _ h ⟨t, ts', rfl, h2⟩
    rcases h with h | h <;> cases h <;> cases h2
  rcases h with ⟨h1, h2, h3⟩ | ⟨h1, h2⟩ <;> rcases h' with ⟨g1, g2, g3⟩ | ⟨g1, g2⟩
  · exact ⟨by rw [h2, g2], by rw [h3, g3]⟩
  · exact (ns h1 g1).elim
  · exact (ns g1 h1).elim
  · exact h2.unique g2

theorem RS.unique {ty : Text → Bool} (hk : ∀ x ∈ skw, ty x = false) {m : Bool} {ts r r' : List Tok} {s s' : CS}
    (h : RS ty m ts s r) (h' : RS ty m ts s' r') : s = s' ∧ r = r' := by
  induction h generalizing s' r' with
  | empty =>
    cases h' with
    | empty => exact ⟨rfl, rfl⟩
    | ex g => cases g
  | ex h1 h2 =>
    cases h' with
    | ex g1 g2 =>
      obtain ⟨rfl, e⟩ := h2.unique g2
      cases e
      exact ⟨rfl, rfl⟩
    | empty => cases h1
    | block => cases h1
    | _ => simp [exprStart, skw] at h1
  | block h1 ih =>
    cases h' with
    | ex g => cases g
    | block g =>
      obtain ⟨rfl, e⟩ := ih g
      cases e
      exact ⟨rfl, rfl⟩
  | ifs h1 h2 h3 ih =>
    cases h' with
    | ex g => simp [exprStart, skw] at g
    | ifs g1 g2 g3 =>
      obtain ⟨rfl, e⟩ := h1.unique g1
      cases e
      obtain ⟨rfl, e⟩ := ih g2
      exact ⟨rfl, e⟩
    | els g1 g2 g3 =>
      obtain ⟨rfl, e⟩ := h1.unique g1
      cases e
      obtain ⟨rfl, e⟩ := ih g2
      rw [e] at h3
      exact absurd rfl h3
  | els h1 h2 h3 ih ih' =>
    cases h' with
    | ex g => simp [exprStart, skw] at g
    | ifs g1 g2 g3 =>
      obtain ⟨rfl, e⟩ := h1.unique g1
      cases e
      obtain ⟨rfl, e⟩ := ih g2
      rw [← e] at g3
      exact absurd rfl g3
    | els g1 g2 g3 =>
      obtain ⟨rfl, e⟩ := h1.unique g1
      cases e
      obtain ⟨rfl, e⟩ := ih g2
      cases e
      obtain ⟨rfl, e⟩ := ih' g3
      exact ⟨rfl, e⟩
  | fors h1 h2 h3 h4 ih =>
    cases h' with
    | ex g => simp [exprStart, skw] at g
    | fors g1 g2 g3 g4 =>
      obtain ⟨rfl, e⟩ := h1.unique g1
      cases e
      obtain ⟨rfl, e⟩ := h2.unique g2
      cases e
      obtain ⟨rfl, e⟩ := h3.unique g3
      cases e
      obtain ⟨rfl, e⟩ := ih g4
      exact ⟨rfl, e⟩
  | whl h1 h2 ih =>
    cases h' with
    | ex g => simp [exprStart, skw] at g
    | whl g1 g2 =>
      obtain ⟨rfl, e⟩ := h1.unique g1
      cases e
      obtain ⟨rfl, e⟩ := ih g2
      exact ⟨rfl, e⟩
  | dos h1 h2 ih =>
    cases h' with
    | ex g => simp [exprStart, skw] at g
    | dos g1 g2 =>
      obtain ⟨rfl, e⟩ := ih g1
      cases e
      obtain ⟨rfl, e⟩ := h2.unique g2
      cases e
      exact ⟨rfl, rfl⟩
  | brk =>
    cases h' with
    | ex g => simp [exprStart, skw] at g
    | brk => exact ⟨rfl, rfl⟩
  | cnt =>
    cases h' with
    | ex g => simp [exprStart, skw] at g
    | cnt => exact ⟨rfl, rfl⟩
  | ret h1 =>
    cases h' with
    | ex g => simp [exprStart, skw] at g
    | ret g1 =>
      obtain ⟨rfl, e⟩ := h1.unique g1
      cases e
      exact ⟨rfl, rfl⟩
  | @nil r h1 =>
    generalize hx : r = x at h'
    cases h' with
    | nil => exact ⟨rfl, rfl⟩
    | cons g =>
      subst hx
      rcases h1 with h1 | h1 <;> cases h1
      cases g
    | @decl t =>
      subst hx
      rename_i g _ _
      cases t with
      | nil => exact absurd rfl g.1
      | cons => rcases h1 with h1 | h1 <;> cases h1
  | @cons t ts s us is r h1 h2 h3 ih ih' =>
    generalize hx : t :: ts = x at h'
    cases h' with
    | nil g =>
      subst hx
      rcases g with g | g <;> cases g
      cases h1
    | cons _ g2 g3 =>
      cases hx
      obtain ⟨rfl, e⟩ := ih g2
      subst e
      obtain ⟨rfl, e⟩ := ih' g3
      exact ⟨rfl, e⟩
    | @decl t' n x us is r g =>
      cases t' with
      | nil => exact absurd rfl g.1
      | cons y t' =>
        cases hx
        simp [stStart, g.2 y (by simp)] at h1
  | @decl t n x us is r h1 h2 h3 ih =>
    generalize hx : tyToks t n ++ .word x :: .pun .semi :: us = y at h'
    have ht : ∃ a t', t = a :: t' ∧ ty a = true := by
      cases t with
      | nil => exact absurd rfl h1.1
      | cons a t' => exact ⟨a, t', rfl, h1.2 a (by simp)⟩
    cases h' with
    | nil g =>
      obtain ⟨a, t', rfl, _⟩ := ht
      subst hx
      rcases g with g | g <;> cases g
    | cons g _ _ =>
      obtain ⟨a, t', rfl, hta⟩ := ht
      cases hx
      simp [stStart, hta] at g
    | decl g1 g2 g3 =>
      obtain ⟨rfl, rfl, rfl, e⟩ := declToks_inj h1.2 h2.2 g1.2 g2.2 hx
      cases e
      obtain ⟨rfl, e⟩ := ih g3
      exact ⟨rfl, e⟩

/-! Every statement is read. -/

theorem D.firstWord {ty : Text → Bool} {l : Nat} {ts : List Tok} {e : CE} (h : D ty l ts e) :
    ∀ x r, ts = .word x :: r → x ∉ keywords ∨ x = t!"sizeof" := by
  have ap : ∀ {ts us : List Tok} {e : CE} {l : Nat} {x : Text} {r : List Tok}, D ty l ts e →
      (∀ x r, ts = .word x :: r → x ∉ keywords ∨ x = t!"sizeof") → ts ++ us = .word x :: r →
      (ts = [] → False) → x ∉ keywords ∨ x = t!"sizeof" := by
    intro ts us e l x r _ ih h hn
    cases ts with
    | nil => exact (hn rfl).elim
    | cons t ts =>
      simp only [List.cons_append, List.cons.injEq] at h
      exact ih x ts (by rw [h.1])
  have ne : ∀ {ts : List Tok} {e : CE} {l : Nat}, D ty l ts e → ts = [] → False := by
    intro ts e l h
    induction h with
    | up _ _ ih => exact ih
    | arg1 _ ih => exact ih
    | bin | asg | cond | idx | call0 | call | mem | post | arg => intro h; simp at h
    | _ => intro h; cases h
  induction h with
  | up _ _ ih => exact ih
  | arg1 _ ih => exact ih
  | bin _ h1 _ ih _ => exact fun x r h => ap h1 ih h (ne h1)
  | asg _ h1 _ ih _ => exact fun x r h => ap h1 ih h (ne h1)
  | cond h1 _ _ ih _ _ => exact fun x r h => ap h1 ih h (ne h1)
  | idx h1 _ ih _ => exact fun x r h => ap h1 ih h (ne h1)
  | call0 h1 ih => exact fun x r h => ap h1 ih h (ne h1)
  | call h1 _ ih _ => exact fun x r h => ap h1 ih h (ne h1)
  | mem _ h1 _ ih => exact fun x r h => ap h1 ih h (ne h1)
  | post _ h1 ih => exact fun x r h => ap h1 ih h (ne h1)
  | arg h1 _ ih _ => exact fun x r h => ap h1 ih h (ne h1)
  | szE | szT => intro x r h; cases h; exact .inr rfl
  | id h => intro x r h'; cases h'; exact .inl h.1
  | _ => intro x r h; cases h

theorem D.start {ty : Text → Bool} (hz : ty t!"sizeof" = false) {l : Nat} {ts : List Tok} {e : CE} (h : D ty l ts e) :
    ∃ t r, ts = t :: r ∧ exprStart ty t = true := by
  obtain ⟨t, r, rfl, h1⟩ := h.first hz
  refine ⟨t, r, rfl, ?_⟩
  cases t with
  | num => rfl
  | pun p => exact h1
  | word x =>
    have h2 : x ∉ skw := by
      intro hm
      rcases h.firstWord x r rfl with h3 | h3
      · refine h3 ?_
        simp only [skw, List.mem_cons, List.not_mem_nil, or_false] at hm
        rcases hm with rfl | rfl | rfl | rfl | rfl | rfl | rfl | rfl <;> decide
      · subst h3; revert hm; decide
    simp only [firstOk] at h1
    simp [exprStart, h1, h2]

theorem D.rd {ty : Text → Bool} (hz : ty t!"sizeof" = false) {ts : List Tok} {e : CE} (h : D ty 0 ts e)
    {t : Tok} (ht : contLev t = none) (r : List Tok) : R ty (.p 0) (ts ++ t :: r) e (t :: r) :=
  (h.read hz).2.1 (by omega) _ (Stop.cons (by rw [ht]; intro k hk; cases hk))

theorem O.rd {ty : Text → Bool} (hz : ty t!"sizeof" = false) {ts : List Tok} {e : CE} (h : O ty ts e)
    {t : Tok} (ht : t = .pun .semi ∨ t = .pun .rpar) (r : List Tok) : RO ty (ts ++ t :: r) e (t :: r) := by
  rcases h with ⟨rfl, rfl⟩ | h
  · exact .inl ⟨by rcases ht with rfl | rfl <;> simp, rfl, rfl⟩
  · refine .inr ⟨?_, h.rd hz (by rcases ht with rfl | rfl <;> rfl) r⟩
    obtain ⟨t', r', rfl, h'⟩ := h.start hz
    exact ⟨t', _, rfl, h'⟩

theorem exprStart_st {ty : Text → Bool} {t : Tok} (h : exprStart ty t = true) : stStart ty t = true := by
  cases t with
  | num => rfl
  | pun p => simp only [exprStart, stStart] at h ⊢; simp [h]
  | word x =>
    simp only [exprStart, Bool.and_eq_true] at h
    simp only [stStart, Bool.and_eq_true, h.1, true_and]
    have h2 := h.2
    simp only [skw, Bool.not_eq_true', List.contains_eq_mem, decide_eq_false_iff_not, List.mem_cons, not_or] at h2
    simpa using h2.2.2.2.1

theorem S.start {ty : Text → Bool} (hz : ty t!"sizeof" = false) (hk : ∀ x ∈ skw, ty x = false) {k : Bool}
    {ts : List Tok} {s : CS} (h : S ty (.st k) ts s) : ∃ t r, ts = t :: r ∧ stStart ty t = true := by
  have kw : ∀ {x}, x ∈ skw → x ≠ t!"else" → stStart ty (.word x) = true := by
    intro x h1 h2
    simp [stStart, hk x h1, h2]
  cases h with
  | ex h1 =>
    obtain ⟨t, r, rfl, h2⟩ := h1.start hz
    exact ⟨t, _, rfl, exprStart_st h2⟩
  | empty | block => exact ⟨_, _, rfl, rfl⟩
  | _ => exact ⟨_, _, rfl, kw (by decide) (by decide)⟩

theorem S.noElse {ty : Text → Bool} (hz : ty t!"sizeof" = false) (hk : ∀ x ∈ skw, ty x = false)
    {ts : List Tok} {s : CS} (h : S ty .its ts s) {rest : List Tok}
    (hr : rest.head? = none ∨ rest.head? = some (.pun .rcur)) : (ts ++ rest).head? ≠ some (.word t!"else") := by
  cases h with
  | nil => rcases hr with hr | hr <;> rw [List.nil_append, hr] <;> intro h <;> cases h
  | cons h1 h2 =>
    obtain ⟨t, r, rfl, h3⟩ := h1.start hz hk
    intro h
    cases h
    simp [stStart] at h3
  | @decl t n x us is h1 =>
    cases t with
    | nil => exact absurd rfl h1.1
    | cons a t =>
      intro h
      cases h
      have := h1.2 _ (List.mem_cons_self ..)
      rw [hk _ (by decide)] at this
      cases this

theorem S.read {ty : Text → Bool} (hz : ty t!"sizeof" = false) (hk : ∀ x ∈ skw, ty x = false) {k : K}
    {ts : List Tok} {s : CS} (h : S ty k ts s) (rest : List Tok) :
    match k with
    | .st c => (c = false → rest.head? ≠ some (.word t!"else")) → RS ty true (ts ++ rest) s rest
    | .its => rest.head? = none ∨ rest.head? = some (.pun .rcur) → RS ty false (ts ++ rest) s rest := by
  induction h generalizing rest with
  | empty => exact fun _ => .empty
  | ex h1 =>
    intro _
    have h2 := h1.rd hz (t := .pun .semi) rfl rest
    obtain ⟨t, r, rfl, h3⟩ := h1.start hz
    rw [List.append_assoc]
    exact .ex h3 h2
  | block h1 ih =>
    intro _
    rw [List.cons_append, List.append_assoc]
    exact .block (ih _ (.inr rfl))
  | ifs h1 h2 ih =>
    intro hr
    simp only [List.cons_append, List.append_assoc]
    exact .ifs (h1.rd hz rfl _) (ih rest fun _ => hr rfl) (hr rfl)
  | els h1 h2 h3 ih ih' =>
    intro hr
    simp only [List.cons_append, List.append_assoc]
    exact .els (h1.rd hz rfl _) (ih _ fun h => by cases h) (ih' rest hr)
  | fors h1 h2 h3 h4 ih =>
    intro hr
    simp only [List.cons_append, List.append_assoc]
    exact .fors (h1.rd hz (.inl rfl) _) (h2.rd hz (.inl rfl) _) (h3.rd hz (.inr rfl) _) (ih rest hr)
  | whl h1 h2 ih =>
    intro hr
    simp only [List.cons_append, List.append_assoc]
    exact .whl (h1.rd hz rfl _) (ih rest hr)
  | dos h1 h2 ih =>
    intro hr
    simp only [List.cons_append, List.append_assoc]
    exact .dos (ih _ fun _ => by intro h; cases h) (h2.rd hz rfl _)
  | brk => exact fun _ => .brk
  | cnt => exact fun _ => .cnt
  | ret h1 =>
    intro _
    simp only [List.cons_append, List.append_assoc]
    exact .ret (h1.rd hz (.inl rfl) _)
  | nil => exact fun hr => .nil hr
  | cons h1 h2 ih ih' =>
    intro hr
    rw [List.append_assoc]
    have h3 := ih (_ ++ rest) (fun _ => h2.noElse hz hk hr)
    obtain ⟨t, r, rfl, h4⟩ := h1.start hz hk
    exact .cons h4 h3 (ih' rest hr)
  | decl h1 h2 h3 ih =>
    intro hr
    rw [List.append_assoc]
    exact .decl h1 h2 (ih rest hr)

/-- The grammar of statements is unambiguous. -/
theorem S.unique {ty : Text → Bool} (hz : ty t!"sizeof" = false) (hk : ∀ x ∈ skw, ty x = false) {ts : List Tok}
    {s s' : CS} (h : S ty .its ts s) (h' : S ty .its ts s') : s = s' :=
  (RS.unique hk (h.read hz hk [] (.inl rfl)) (h'.read hz hk [] (.inl rfl))).1

end Cmm.CText
