import Verif.CText.Lex

/-
Specification: the expressions of C (ISO C 6.5), and the proof that a list of tokens is at most one
expression. The names of types (the keywords and the typedef names in scope) are a parameter `ty`.
Left out: string literals, character constants, compound literals, _Generic, _Alignof, types other
than type names followed by stars.
-/
namespace Cmm.CText

/-- The keywords of C (6.4.1, C99). -/
def keywords : List Text :=
  [t!"auto", t!"break", t!"case", t!"char", t!"const", t!"continue", t!"default", t!"do",
   t!"double", t!"else", t!"enum", t!"extern", t!"float", t!"for", t!"goto", t!"if", t!"inline",
   t!"int", t!"long", t!"register", t!"restrict", t!"return", t!"short", t!"signed", t!"sizeof",
   t!"static", t!"struct", t!"switch", t!"typedef", t!"union", t!"unsigned", t!"void",
   t!"volatile", t!"while"]

/-- C expressions. `nil` and `cons` are the arguments of a call. -/
inductive CE
  | num (v : Nat)
  | id (x : Text)
  | un (p : P) (e : CE)
  | post (p : P) (e : CE)
  | bin (p : P) (a b : CE)
  | cond (c a b : CE)
  | idx (a b : CE)
  | call (f as : CE)
  | nil
  | cons (a as : CE)
  | mem (p : P) (e : CE) (x : Text)
  | cast (t : List Text) (n : Nat) (e : CE)
  | szT (t : List Text) (n : Nat)
  | szE (e : CE)
deriving DecidableEq, Repr

/-- The value of a digit. -/
def digVal (c : Char) : Nat :=
  if c.isDigit then c.toNat - 48 else if c.isLower then c.toNat - 87 else c.toNat - 55

/-- A numeral of base b. -/
def readNum (b : Nat) : Nat → Text → Option Nat
  | a, [] => some a
  | a, c :: cs => if c.isAlphanum = true ∧ digVal c < b then readNum b (a * b + digVal c) cs else none

/-- Integer constants without suffix (6.4.4.1). -/
def numVal : Text → Option Nat
  | '0' :: 'x' :: c :: cs => readNum 16 0 (c :: cs)
  | '0' :: cs => readNum 8 0 cs
  | cs => readNum 10 0 cs

/-- Binary operators and their levels. -/
def binLev : P → Option Nat
  | .comma => some 0
  | .barbar => some 3
  | .andand => some 4
  | .bar => some 5
  | .hat => some 6
  | .amp => some 7
  | .eq | .ne => some 8
  | .lt | .gt | .le | .ge => some 9
  | .shl | .shr => some 10
  | .plus | .minus => some 11
  | .star | .slash | .pct => some 12
  | _ => none

def isAsg : P → Bool
  | .ass | .mulA | .divA | .modA | .addA | .subA | .shlA | .shrA | .andA | .xorA | .orA => true
  | _ => false

def isUn : P → Bool
  | .amp | .star | .plus | .minus | .tilde | .bang => true
  | _ => false

def isInc (p : P) : Bool := p == .inc || p == .dec
def isMem (p : P) : Bool := p == .dot || p == .arrow

/-- The tokens of a type name. -/
def tyToks (t : List Text) (n : Nat) : List Tok := t.map .word ++ List.replicate n (.pun .star)

/-- Type names: at least one word. -/
def TyName (ty : Text → Bool) (t : List Text) : Prop := t ≠ [] ∧ ∀ x ∈ t, ty x = true

/-- Names of objects and functions. -/
def Ident (ty : Text → Bool) (x : Text) : Prop := x ∉ keywords ∧ ty x = false

/-- The grammar of expressions. Levels: 0 comma, 1 assignment, 2 conditional, 3-12 binary operators,
13 cast, 14 unary, 15 postfix, 16 primary; 17 is an argument list. -/
inductive D (ty : Text → Bool) : Nat → List Tok → CE → Prop
  | up {l ts e} : l < 16 → D ty (l + 1) ts e → D ty l ts e
  | bin {l o ts us a b} : binLev o = some l → D ty l ts a → D ty (l + 1) us b →
      D ty l (ts ++ .pun o :: us) (.bin o a b)
  | asg {o ts us a b} : isAsg o = true → D ty 14 ts a → D ty 1 us b →
      D ty 1 (ts ++ .pun o :: us) (.bin o a b)
  | cond {cs ts us c a b} : D ty 3 cs c → D ty 0 ts a → D ty 2 us b →
      D ty 2 (cs ++ .pun .quest :: (ts ++ .pun .colon :: us)) (.cond c a b)
  | cast {t n ts e} : TyName ty t → D ty 13 ts e →
      D ty 13 (.pun .lpar :: (tyToks t n ++ .pun .rpar :: ts)) (.cast t n e)
  | un {o ts e} : isUn o = true → D ty 13 ts e → D ty 14 (.pun o :: ts) (.un o e)
  | inc {o ts e} : isInc o = true → D ty 14 ts e → D ty 14 (.pun o :: ts) (.un o e)
  | szE {ts e} : D ty 14 ts e → D ty 14 (.word t!"sizeof" :: ts) (.szE e)
  | szT {t n} : TyName ty t →
      D ty 14 (.word t!"sizeof" :: .pun .lpar :: (tyToks t n ++ [.pun .rpar])) (.szT t n)
  | idx {ts us a b} : D ty 15 ts a → D ty 0 us b →
      D ty 15 (ts ++ .pun .lbr :: (us ++ [.pun .rbr])) (.idx a b)
  | call0 {ts f} : D ty 15 ts f → D ty 15 (ts ++ [.pun .lpar, .pun .rpar]) (.call f .nil)
  | call {ts us f as} : D ty 15 ts f → D ty 17 us as →
      D ty 15 (ts ++ .pun .lpar :: (us ++ [.pun .rpar])) (.call f as)
  | mem {o ts e x} : isMem o = true → D ty 15 ts e → x ∉ keywords →
      D ty 15 (ts ++ [.pun o, .word x]) (.mem o e x)
  | post {o ts e} : isInc o = true → D ty 15 ts e → D ty 15 (ts ++ [.pun o]) (.post o e)
  | num {s v} : numVal s = some v → D ty 16 [.num s] (.num v)
  | id {x} : Ident ty x → D ty 16 [.word x] (.id x)
  | paren {ts e} : D ty 0 ts e → D ty 16 (.pun .lpar :: (ts ++ [.pun .rpar])) e
  | arg1 {ts a} : D ty 1 ts a → D ty 17 ts (.cons a .nil)
  | arg {ts us a as} : D ty 1 ts a → D ty 17 us as → D ty 17 (ts ++ .pun .comma :: us) (.cons a as)

/-! A reader, used to prove that the grammar is unambiguous. -/

/-- The level at which a token continues the expression before it. -/
def contLev : Tok → Option Nat
  | .pun p =>
    match binLev p with
    | some l => some l
    | none =>
      if isAsg p then some 1 else if p = .quest then some 2
      else if p = .lbr ∨ p = .lpar ∨ isMem p = true ∨ isInc p = true then some 15 else none
  | _ => none

/-- The rest does not continue an expression of level l or higher. -/
def Stop (l : Nat) (r : List Tok) : Prop := ∀ t k, r.head? = some t → contLev t = some k → k < l

/-- The text begins with a parenthesis and a type. -/
def castLike (ty : Text → Bool) : List Tok → Bool
  | .pun .lpar :: .word x :: _ => ty x
  | _ => false

/-- The first token begins a unary expression that is not a postfix expression. -/
def unLike : List Tok → Bool
  | .pun p :: _ => isUn p || isInc p
  | .word x :: _ => x == t!"sizeof"
  | _ => false

/-- Levels of left associative binary operators. -/
def LL (l : Nat) : Prop := l = 0 ∨ (3 ≤ l ∧ l ≤ 12)

inductive Mode
  | p (l : Nat)
  | lp (l : Nat) (a : CE)

/-- The reader: recursive descent with one loop for each left associative level. -/
inductive R (ty : Text → Bool) : Mode → List Tok → CE → List Tok → Prop
  | left {l ts a r e r'} : LL l → R ty (.p (l + 1)) ts a r → R ty (.lp l a) r e r' → R ty (.p l) ts e r'
  | lbin {l o ts a b r e r'} : LL l → binLev o = some l → R ty (.p (l + 1)) ts b r →
      R ty (.lp l (.bin o a b)) r e r' → R ty (.lp l a) (.pun o :: ts) e r'
  | lstop {l a r} : (∀ t, r.head? = some t → contLev t ≠ some l) → R ty (.lp l a) r a r
  | asg0 {ts a r} : R ty (.p 2) ts a r → (∀ o, r.head? = some (.pun o) → isAsg o = false) → R ty (.p 1) ts a r
  | asg {o ts a r b r'} : R ty (.p 2) ts a (.pun o :: r) → isAsg o = true → R ty (.p 1) r b r' →
      R ty (.p 1) ts (.bin o a b) r'
  | cond0 {ts a r} : R ty (.p 3) ts a r → r.head? ≠ some (.pun .quest) → R ty (.p 2) ts a r
  | cond {ts c r a r1 b r2} : R ty (.p 3) ts c (.pun .quest :: r) → R ty (.p 0) r a (.pun .colon :: r1) →
      R ty (.p 2) r1 b r2 → R ty (.p 2) ts (.cond c a b) r2
  | cast {t n ts e r} : TyName ty t → R ty (.p 13) ts e r →
      R ty (.p 13) (.pun .lpar :: (tyToks t n ++ .pun .rpar :: ts)) (.cast t n e) r
  | cast0 {ts e r} : castLike ty ts = false → R ty (.p 14) ts e r → R ty (.p 13) ts e r
  | un {o ts e r} : isUn o = true → R ty (.p 13) ts e r → R ty (.p 14) (.pun o :: ts) (.un o e) r
  | inc {o ts e r} : isInc o = true → R ty (.p 14) ts e r → R ty (.p 14) (.pun o :: ts) (.un o e) r
  | szE {ts e r} : castLike ty ts = false → R ty (.p 14) ts e r →
      R ty (.p 14) (.word t!"sizeof" :: ts) (.szE e) r
  | szT {t n r} : TyName ty t →
      R ty (.p 14) (.word t!"sizeof" :: .pun .lpar :: (tyToks t n ++ .pun .rpar :: r)) (.szT t n) r
  | un0 {ts e r} : unLike ts = false → R ty (.p 15) ts e r → R ty (.p 14) ts e r
  | post {ts a r e r'} : R ty (.p 16) ts a r → R ty (.lp 15 a) r e r' → R ty (.p 15) ts e r'
  | lidx {ts a b r e r'} : R ty (.p 0) ts b (.pun .rbr :: r) → R ty (.lp 15 (.idx a b)) r e r' →
      R ty (.lp 15 a) (.pun .lbr :: ts) e r'
  | lcall0 {f r e r'} : R ty (.lp 15 (.call f .nil)) r e r' →
      R ty (.lp 15 f) (.pun .lpar :: .pun .rpar :: r) e r'
  | lcall {f as ts r e r'} : ts.head? ≠ some (.pun .rpar) → R ty (.p 17) ts as (.pun .rpar :: r) →
      R ty (.lp 15 (.call f as)) r e r' → R ty (.lp 15 f) (.pun .lpar :: ts) e r'
  | lmem {o a x r e r'} : isMem o = true → R ty (.lp 15 (.mem o a x)) r e r' →
      R ty (.lp 15 a) (.pun o :: .word x :: r) e r'
  | lpost {o a r e r'} : isInc o = true → R ty (.lp 15 (.post o a)) r e r' →
      R ty (.lp 15 a) (.pun o :: r) e r'
  | num {s v r} : numVal s = some v → R ty (.p 16) (.num s :: r) (.num v) r
  | id {x r} : Ident ty x → R ty (.p 16) (.word x :: r) (.id x) r
  | paren {ts e r} : R ty (.p 0) ts e (.pun .rpar :: r) → R ty (.p 16) (.pun .lpar :: ts) e r
  | arg1 {ts a r} : R ty (.p 1) ts a r → r.head? ≠ some (.pun .comma) → R ty (.p 17) ts (.cons a .nil) r
  | arg {ts a r as r'} : R ty (.p 1) ts a (.pun .comma :: r) → R ty (.p 17) r as r' →
      R ty (.p 17) ts (.cons a as) r'

theorem LL.not1 : ¬ LL 1 := by simp [LL]
theorem LL.not2 : ¬ LL 2 := by simp [LL]
theorem LL.hi {l : Nat} (h : LL l) : l ≤ 12 := by unfold LL at h; omega

theorem contLev_bin {o : P} {l : Nat} (h : binLev o = some l) : contLev (.pun o) = some l := by
  simp [contLev, h]

theorem binLev_le {o : P} {l : Nat} (h : binLev o = some l) : LL l := by
  cases o <;> simp [binLev] at h <;> subst h <;> simp [LL]

theorem contLev_le {t : Tok} {k : Nat} (h : contLev t = some k) : k ≤ 15 := by
  cases t with
  | word => cases h
  | num => cases h
  | pun p => cases p <;> simp [contLev, binLev, isAsg, isMem, isInc] at h <;> omega

theorem contLev_asg {o : P} (h : isAsg o = true) : contLev (.pun o) = some 1 := by
  cases o <;> simp [isAsg] at h <;> rfl

theorem contLev_post {o : P} (h : isMem o = true ∨ isInc o = true) : contLev (.pun o) = some 15 := by
  cases o <;> simp [isMem, isInc] at h <;> rfl

theorem un_inc {o : P} (h : isUn o = true) (g : isInc o = true) : False := by
  cases o <;> simp [isUn, isInc] at h g

theorem mem_inc {o : P} (h : isMem o = true) (g : isInc o = true) : False := by
  cases o <;> simp [isMem, isInc] at h g

theorem tyToks_inj {t t' : List Text} {n n' : Nat} {ts ts' : List Tok}
    (h : tyToks t n ++ .pun .rpar :: ts = tyToks t' n' ++ .pun .rpar :: ts') : t = t' ∧ n = n' ∧ ts = ts' := by
  induction t generalizing t' with
  | nil =>
    cases t' with
    | nil =>
      simp only [tyToks, List.map_nil, List.nil_append] at h
      refine ⟨rfl, ?_⟩
      induction n generalizing n' with
      | zero =>
        cases n' with
        | zero => simpa using h
        | succ n' => simp [List.replicate_succ] at h
      | succ n ih =>
        cases n' with
        | zero => simp [List.replicate_succ] at h
        | succ n' =>
          simp only [List.replicate_succ, List.cons_append, List.cons.injEq, true_and] at h
          obtain ⟨rfl, rfl⟩ := ih h
          exact ⟨rfl, rfl⟩
    | cons x t' => cases n <;> simp [tyToks, List.replicate_succ] at h
  | cons x t ih =>
    cases t' with
    | nil => cases n' <;> simp [tyToks, List.replicate_succ] at h
    | cons y t' =>
      simp only [tyToks, List.map_cons, List.cons_append, List.cons.injEq, Tok.word.injEq] at h
      obtain ⟨rfl, h⟩ := h
      obtain ⟨rfl, h2⟩ := ih (t' := t') h
      exact ⟨rfl, h2⟩

theorem castLike_ty {ty : Text → Bool} {t : List Text} {n : Nat} {r : List Tok} (h : TyName ty t) :
    castLike ty (.pun .lpar :: (tyToks t n ++ r)) = true := by
  obtain ⟨h1, h2⟩ := h
  cases t with
  | nil => exact absurd rfl h1
  | cons x t => simpa [tyToks, castLike] using h2 x (by simp)

/-- The reader gives one result. -/
theorem R.unique {ty : Text → Bool} {m : Mode} {ts r r' : List Tok} {e e' : CE} (h : R ty m ts e r)
    (h' : R ty m ts e' r') : e = e' ∧ r = r' := by
  induction h generalizing e' r' with
  | left hl h1 h2 ih1 ih2 =>
    cases h' with
    | left _ g1 g2 =>
      obtain ⟨rfl, rfl⟩ := ih1 g1
      exact ih2 g2
    | _ => exact absurd hl (by simp [LL])
  | lbin hl hb h1 h2 ih1 ih2 =>
    cases h' with
    | lbin _ _ g1 g2 =>
      obtain ⟨rfl, rfl⟩ := ih1 g1
      exact ih2 g2
    | lstop g => exact absurd (contLev_bin hb) (g _ rfl)
    | _ => exact absurd hl.hi (by omega)
  | lstop h =>
    cases h' with
    | lbin _ hb => exact absurd (contLev_bin hb) (h _ rfl)
    | lstop => exact ⟨rfl, rfl⟩
    | lidx => exact absurd rfl (h _ rfl)
    | lcall0 => exact absurd rfl (h _ rfl)
    | lcall => exact absurd rfl (h _ rfl)
    | lmem g => exact absurd (contLev_post (.inl g)) (h _ rfl)
    | lpost g => exact absurd (contLev_post (.inr g)) (h _ rfl)
  | asg0 h1 h2 ih =>
    cases h' with
    | left g => exact absurd g LL.not1
    | asg0 g1 => exact ih g1
    | asg g1 g2 =>
      obtain ⟨rfl, rfl⟩ := ih g1
      rw [h2 _ rfl] at g2
      cases g2
  | asg h1 h2 h3 ih1 ih2 =>
    cases h' with
    | left g => exact absurd g LL.not1
    | asg0 g1 g2 =>
      obtain ⟨rfl, rfl⟩ := ih1 g1
      rw [g2 _ rfl] at h2
      cases h2
    | asg g1 g2 g3 =>
      obtain ⟨rfl, h⟩ := ih1 g1
      cases h
      obtain ⟨rfl, rfl⟩ := ih2 g3
      exact ⟨rfl, rfl⟩
  | cond0 h1 h2 ih =>
    cases h' with
    | left g => exact absurd g LL.not2
    | cond0 g1 => exact ih g1
    | cond g1 =>
      obtain ⟨rfl, rfl⟩ := ih g1
      exact absurd rfl h2
  | cond h1 h2 h3 ih1 ih2 ih3 =>
    cases h' with
    | left g => exact absurd g LL.not2
    | cond0 g1 g2 =>
      obtain ⟨rfl, rfl⟩ := ih1 g1
      exact absurd rfl g2
    | cond g1 g2 g3 =>
      obtain ⟨rfl, h⟩ := ih1 g1
      cases h
      obtain ⟨rfl, h⟩ := ih2 g2
      cases h
      obtain ⟨rfl, rfl⟩ := ih3 g3
      exact ⟨rfl, rfl⟩
  | @cast t n ts e r h1 h2 ih =>
    generalize hx : (Tok.pun .lpar :: (tyToks t n ++ .pun .rpar :: ts)) = x at h'
    cases h' with
    | left g => exact absurd g.hi (by omega)
    | cast g1 g2 =>
      obtain ⟨rfl, rfl, rfl⟩ := tyToks_inj (List.cons.inj hx).2
      obtain ⟨rfl, rfl⟩ := ih g2
      exact ⟨rfl, rfl⟩
    | cast0 g => rw [← hx, castLike_ty h1] at g; cases g
  | @cast0 ts e r h1 h2 ih =>
    cases h' with
    | left g => exact absurd g.hi (by omega)
    | cast g => rw [castLike_ty g] at h1; cases h1
    | cast0 _ g => exact ih g
  | un h1 h2 ih =>
    cases h' with
    | left g => exact absurd g.hi (by omega)
    | un _ g =>
      obtain ⟨rfl, rfl⟩ := ih g
      exact ⟨rfl, rfl⟩
    | inc g => exact (un_inc h1 g).elim
    | un0 g => simp [unLike, h1] at g
  | inc h1 h2 ih =>
    cases h' with
    | left g => exact absurd g.hi (by omega)
    | inc _ g =>
      obtain ⟨rfl, rfl⟩ := ih g
      exact ⟨rfl, rfl⟩
    | un g => exact (un_inc g h1).elim
    | un0 g => simp [unLike, h1] at g
  | szE h1 h2 ih =>
    cases h' with
    | left g => exact absurd g.hi (by omega)
    | szE _ g =>
      obtain ⟨rfl, rfl⟩ := ih g
      exact ⟨rfl, rfl⟩
    | szT g => rw [castLike_ty g] at h1; cases h1
    | un0 g => simp [unLike] at g
  | @szT t n r h1 =>
    generalize hx : (Tok.word t!"sizeof" :: .pun .lpar :: (tyToks t n ++ .pun .rpar :: r)) = x at h'
    cases h' with
    | left g => exact absurd g.hi (by omega)
    | un => cases hx
    | inc => cases hx
    | szE g _ => rw [← (List.cons.inj hx).2, castLike_ty h1] at g; cases g
    | szT g =>
      obtain ⟨rfl, rfl, rfl⟩ := tyToks_inj (List.cons.inj (List.cons.inj hx).2).2
      exact ⟨rfl, rfl⟩
    | un0 g => rw [← hx] at g; simp [unLike] at g
  | un0 h1 h2 ih =>
    cases h' with
    | left g => exact absurd g.hi (by omega)
    | un g => simp [unLike, g] at h1
    | inc g => simp [unLike, g] at h1
    | szE g => simp [unLike] at h1
    | szT g => simp [unLike] at h1
    | un0 _ g => exact ih g
  | post h1 h2 ih1 ih2 =>
    cases h' with
    | left g => exact absurd g.hi (by omega)
    | post g1 g2 =>
      obtain ⟨rfl, rfl⟩ := ih1 g1
      exact ih2 g2
  | lidx h1 h2 ih1 ih2 =>
    cases h' with
    | lbin g => exact absurd g.hi (by omega)
    | lstop g => exact absurd rfl (g _ rfl)
    | lidx g1 g2 =>
      obtain ⟨rfl, h⟩ := ih1 g1
      cases h
      exact ih2 g2
    | lmem g => cases g
    | lpost g => cases g
  | lcall0 h ih =>
    cases h' with
    | lbin g => exact absurd g.hi (by omega)
    | lstop g => exact absurd rfl (g _ rfl)
    | lcall0 g => exact ih g
    | lcall g => exact absurd rfl g
    | lpost g => cases g
  | lcall h0 h1 h2 ih1 ih2 =>
    cases h' with
    | lbin g => exact absurd g.hi (by omega)
    | lstop g => exact absurd rfl (g _ rfl)
    | lcall0 g => exact absurd rfl h0
    | lcall _ g1 g2 =>
      obtain ⟨rfl, h⟩ := ih1 g1
      cases h
      exact ih2 g2
    | lmem g => cases g
    | lpost g => cases g
  | lmem h1 h2 ih =>
    cases h' with
    | lbin g => exact absurd g.hi (by omega)
    | lstop g => exact absurd (contLev_post (.inl h1)) (g _ rfl)
    | lidx => cases h1
    | lcall => cases h1
    | lmem _ g => exact ih g
    | lpost g => exact (mem_inc h1 g).elim
  | lpost h1 h2 ih =>
    cases h' with
    | lbin g => exact absurd g.hi (by omega)
    | lstop g => exact absurd (contLev_post (.inr h1)) (g _ rfl)
    | lidx => cases h1
    | lcall0 => cases h1
    | lcall => cases h1
    | lmem g => exact (mem_inc g h1).elim
    | lpost _ g => exact ih g
  | num h =>
    cases h' with
    | left g => exact absurd g.hi (by omega)
    | num g => rw [h] at g; cases g; exact ⟨rfl, rfl⟩
  | id h =>
    cases h' with
    | left g => exact absurd g.hi (by omega)
    | id g => exact ⟨rfl, rfl⟩
  | paren h ih =>
    cases h' with
    | left g => exact absurd g.hi (by omega)
    | paren g =>
      obtain ⟨rfl, h⟩ := ih g
      cases h
      exact ⟨rfl, rfl⟩
  | arg1 h1 h2 ih =>
    cases h' with
    | left g => exact absurd g.hi (by omega)
    | arg1 g1 =>
      obtain ⟨rfl, rfl⟩ := ih g1
      exact ⟨rfl, rfl⟩
    | arg g1 =>
      obtain ⟨rfl, rfl⟩ := ih g1
      exact absurd rfl h2
  | arg h1 h2 ih1 ih2 =>
    cases h' with
    | left g => exact absurd g.hi (by omega)
    | arg1 g1 g2 =>
      obtain ⟨rfl, rfl⟩ := ih1 g1
      exact absurd rfl g2
    | arg g1 g2 =>
      obtain ⟨rfl, h⟩ := ih1 g1
      cases h
      obtain ⟨rfl, rfl⟩ := ih2 g2
      exact ⟨rfl, rfl⟩

/-- The first token of an expression. -/
def firstOk (ty : Text → Bool) : Tok → Bool
  | .num _ => true
  | .word x => !ty x
  | .pun p => p == .lpar || isUn p || isInc p

theorem D.first {ty : Text → Bool} (hz : ty t!"sizeof" = false) {l : Nat} {ts : List Tok} {e : CE}
    (h : D ty l ts e) : ∃ t r, ts = t :: r ∧ firstOk ty t = true := by
  induction h with
  | up _ _ ih => exact ih
  | un h => exact ⟨_, _, rfl, by simp [firstOk, h]⟩
  | inc h => exact ⟨_, _, rfl, by simp [firstOk, h]⟩
  | szE | szT => exact ⟨_, _, rfl, by simp only [firstOk, hz]; rfl⟩
  | cast | paren => exact ⟨_, _, rfl, by simp [firstOk]⟩
  | num => exact ⟨_, _, rfl, by simp [firstOk]⟩
  | id h => exact ⟨_, _, rfl, by simp [firstOk, h.2]⟩
  | arg1 _ ih => exact ih
  | bin _ _ _ ih | asg _ _ _ ih | cond _ _ _ ih | idx _ _ ih | call0 _ ih | call _ _ ih | mem _ _ _ ih
  | post _ _ ih | arg _ _ ih =>
    obtain ⟨t, r, rfl, h⟩ := ih
    exact ⟨t, _, rfl, h⟩

/-- A postfix expression does not begin with a unary operator. -/
theorem D.unLike {ty : Text → Bool} {l : Nat} {ts : List Tok} {e : CE} (h : D ty l ts e) (hl : 15 ≤ l)
    (hu : l ≤ 16) (r : List Tok) : CText.unLike (ts ++ r) = false := by
  induction h generalizing r with
  | up _ _ ih => exact ih (by omega) (by omega) r
  | bin h => have := (binLev_le h).hi; omega
  | asg | cond | cast | un | inc | szE | szT => omega
  | idx _ _ ih | call0 _ ih | call _ _ ih | mem _ _ _ ih | post _ _ ih =>
    rw [List.append_assoc]
    exact ih hl hu _
  | num | paren => rfl
  | id h =>
    simp only [CText.unLike, List.cons_append, List.nil_append, beq_eq_false_iff_ne]
    rintro rfl
    exact h.1 (by decide)
  | arg1 | arg => omega

theorem D.castLike {ty : Text → Bool} (hz : ty t!"sizeof" = false) {l : Nat} {ts : List Tok} {e : CE}
    (h : D ty l ts e) (hl : 14 ≤ l) (hu : l ≤ 16) (r : List Tok) : CText.castLike ty (ts ++ r) = false := by
  induction h generalizing r with
  | up _ _ ih => exact ih (by omega) (by omega) r
  | bin h => have := (binLev_le h).hi; omega
  | asg | cond | cast => omega
  | @un o _ _ h | @inc o _ _ h => cases o <;> first | rfl | cases h
  | szE | szT | num | id => rfl
  | idx _ _ ih | call0 _ ih | call _ _ ih | mem _ _ _ ih | post _ _ ih =>
    rw [List.append_assoc]
    exact ih hl hu _
  | paren h =>
    obtain ⟨t, r, rfl, hf⟩ := h.first hz
    cases t with
    | word x => simpa [CText.castLike, firstOk] using hf
    | num | pun => rfl
  | arg1 | arg => omega

theorem Stop.mono {l k : Nat} {r : List Tok} (h : Stop l r) (hk : l ≤ k) : Stop k r :=
  fun t j h1 h2 => Nat.lt_of_lt_of_le (h t j h1 h2) hk

theorem Stop.ne {l : Nat} {r : List Tok} (h : Stop l r) : ∀ t, r.head? = some t → contLev t ≠ some l :=
  fun t h1 h2 => absurd (h t l h1 h2) (by omega)

theorem Stop.cons {l : Nat} {t : Tok} {r : List Tok} (h : ∀ k, contLev t = some k → k < l) : Stop l (t :: r) := by
  intro t' k h1 h2
  cases h1
  exact h k h2

theorem contLev_ne {t : Tok} {k : Nat} (h : contLev t = some k) : k ≠ 13 := by
  cases t with
  | word => cases h
  | num => cases h
  | pun p => cases p <;> simp [contLev, binLev, isAsg, isMem, isInc] at h <;> omega

theorem Stop.down {r : List Tok} (h : Stop 14 r) : Stop 13 r := fun t k h1 h2 => by
  have := h t k h1 h2
  have := contLev_ne h2
  omega

theorem Stop.all (r : List Tok) : Stop 16 r := fun t k _ h => by have := contLev_le h; omega

/-- Every expression of the grammar is found by the reader. -/
theorem D.read {ty : Text → Bool} (hz : ty t!"sizeof" = false) {l : Nat} {ts : List Tok} {e : CE}
    (h : D ty l ts e) :
    (LL l ∨ l = 15 → ∀ rest e' r', Stop (l + 1) rest → R ty (.lp l e) rest e' r' →
      R ty (.p l) (ts ++ rest) e' r') ∧
    (l ≠ 17 → ∀ rest, Stop l rest → R ty (.p l) (ts ++ rest) e rest) ∧
    (l = 17 → ∀ rest, Stop 0 rest → R ty (.p 17) (ts ++ rest) e rest) := by
  -- levels with a loop
  have loop : ∀ {l : Nat} {ts : List Tok} {e : CE}, (LL l ∨ l = 15) →
      (∀ rest e' r', Stop (l + 1) rest → R ty (.lp l e) rest e' r' → R ty (.p l) (ts ++ rest) e' r') →
      (LL l ∨ l = 15 → ∀ rest e' r', Stop (l + 1) rest → R ty (.lp l e) rest e' r' →
        R ty (.p l) (ts ++ rest) e' r') ∧
      (l ≠ 17 → ∀ rest, Stop l rest → R ty (.p l) (ts ++ rest) e rest) ∧
      (l = 17 → ∀ rest, Stop 0 rest → R ty (.p 17) (ts ++ rest) e rest) := by
    intro l ts e hl hk
    refine ⟨fun _ => hk, fun _ rest hs => hk rest _ _ (hs.mono (by omega)) (.lstop hs.ne), fun h => ?_⟩
    rcases hl with hl | hl
    · exact absurd hl.hi (by omega)
    · omega
  -- the others
  have once : ∀ {l : Nat} {ts : List Tok} {e : CE}, ¬ LL l → l ≠ 15 → l ≠ 17 →
      (∀ rest, Stop l rest → R ty (.p l) (ts ++ rest) e rest) →
      (LL l ∨ l = 15 → ∀ rest e' r', Stop (l + 1) rest → R ty (.lp l e) rest e' r' →
        R ty (.p l) (ts ++ rest) e' r') ∧
      (l ≠ 17 → ∀ rest, Stop l rest → R ty (.p l) (ts ++ rest) e rest) ∧
      (l = 17 → ∀ rest, Stop 0 rest → R ty (.p 17) (ts ++ rest) e rest) := by
    intro l ts e h1 h2 h3 hk
    exact ⟨fun h => (h.elim (fun h => absurd h h1) fun h => absurd h h2), fun _ => hk, fun h => absurd h h3⟩
  induction h with
  | @up l ts e hl h ih =>
    obtain ⟨_, ih, _⟩ := ih
    have ih := ih (by omega)
    by_cases h0 : LL l
    · exact loop (.inl h0) fun rest e' r' hs hr => .left h0 (ih rest hs) hr
    · have h1 : l = 1 ∨ l = 2 ∨ l = 13 ∨ l = 14 ∨ l = 15 := by
        unfold LL at h0; omega
      rcases h1 with rfl | rfl | rfl | rfl | rfl
      · refine once h0 (by decide) (by decide) fun rest hs => .asg0 (ih rest (hs.mono (by omega))) fun o ho => ?_
        cases hq : isAsg o with
        | false => rfl
        | true => exact absurd (contLev_asg hq) (hs.ne _ ho)
      · exact once h0 (by decide) (by decide) fun rest hs => .cond0 (ih rest (hs.mono (by omega)))
          fun ho => hs.ne _ ho rfl
      · exact once h0 (by decide) (by decide) fun rest hs =>
          .cast0 (h.castLike hz (by omega) (by omega) rest) (ih rest (hs.mono (by omega)))
      · exact once h0 (by decide) (by decide) fun rest hs =>
          .un0 (h.unLike (by omega) (by omega) rest) (ih rest (hs.mono (by omega)))
      · exact loop (.inr rfl) fun rest e' r' hs hr => .post (ih rest (Stop.all _)) hr
  | @bin l o ts us a b hb _ _ ih1 ih2 =>
    have hl := binLev_le hb
    have h12 := hl.hi
    refine loop (.inl hl) fun rest e' r' hs hr => ?_
    rw [List.append_assoc]
    refine ih1.1 (.inl hl) _ e' r' (Stop.cons fun k hk => ?_) ?_
    · rw [contLev_bin hb] at hk; cases hk; omega
    · exact .lbin hl hb (ih2.2.1 (by omega) rest hs) hr
  | @asg o ts us a b ho h1 _ ih1 ih2 =>
    refine once LL.not1 (by decide) (by decide) fun rest hs => ?_
    rw [List.append_assoc]
    have hst : Stop 2 (.pun o :: us ++ rest) := Stop.cons fun k hk => by
      rw [contLev_asg ho] at hk; cases hk; omega
    refine .asg (?_ : R ty (.p 2) (ts ++ (.pun o :: us ++ rest)) a (.pun o :: (us ++ rest))) ho
      (ih2.2.1 (by omega) rest hs)
    have up : ∀ k, k ≤ 11 → R ty (.p (14 - k)) (ts ++ (.pun o :: us ++ rest)) a (.pun o :: us ++ rest) := by
      intro k
      induction k with
      | zero => exact fun _ => ih1.2.1 (by decide) _ (hst.mono (by omega))
      | succ k ih =>
        intro hk
        have h3 := ih (by omega)
        rcases Nat.eq_zero_or_pos k with rfl | hp
        · exact .cast0 (h1.castLike hz (by omega) (by omega) _) h3
        · refine .left (l := 14 - (k + 1)) (by unfold LL; omega) ?_ (.lstop (Stop.ne (hst.mono (by omega))))
          rw [show 14 - (k + 1) + 1 = 14 - k from by omega]
          exact h3
    exact .cond0 (up 11 (by omega)) (by
      rintro h
      cases h
      cases ho)
  | @cond cs ts us c a b _ _ _ ih1 ih2 ih3 =>
    refine once LL.not2 (by decide) (by decide) fun rest hs => ?_
    rw [List.append_assoc]
    refine .cond (ih1.2.1 (by decide) _ (Stop.cons fun k hk => ?_)) (r1 := us ++ rest) ?_
      (ih3.2.1 (by decide) rest hs)
    · cases hk; omega
    · show R ty (.p 0) ((ts ++ Tok.pun P.colon :: us) ++ rest) a (.pun .colon :: (us ++ rest))
      rw [List.append_assoc]
      exact ih2.2.1 (by decide) _ (Stop.cons fun k hk => by cases hk)
  | @cast t n ts e ht _ ih =>
    refine once (by simp [LL]) (by decide) (by decide) fun rest hs => ?_
    have := R.cast (n := n) ht (ih.2.1 (by decide) rest hs)
    simpa using this
  | un h _ ih =>
    exact once (by simp [LL]) (by decide) (by decide) fun rest hs =>
      .un h (ih.2.1 (by decide) rest (hs.down))
  | inc h _ ih =>
    exact once (by simp [LL]) (by decide) (by decide) fun rest hs => .inc h (ih.2.1 (by decide) rest hs)
  | szE h ih =>
    exact once (by simp [LL]) (by decide) (by decide) fun rest hs =>
      .szE (h.castLike hz (by omega) (by omega) rest) (ih.2.1 (by decide) rest hs)
  | @szT t n ht =>
    refine once (by simp [LL]) (by decide) (by decide) fun rest hs => ?_
    have := R.szT (n := n) (r := rest) ht
    simpa using this
  | @idx ts us a b _ _ ih1 ih2 =>
    refine loop (.inr rfl) fun rest e' r' hs hr => ?_
    rw [List.append_assoc]
    refine ih1.1 (.inr rfl) _ e' r' (Stop.all _) (.lidx (b := b) (r := rest) ?_ hr)
    show R ty (.p 0) ((us ++ [.pun .rbr]) ++ rest) b _
    rw [List.append_assoc]
    exact ih2.2.1 (by decide) _ (Stop.cons fun k hk => by cases hk)
  | call0 _ ih =>
    refine loop (.inr rfl) fun rest e' r' hs hr => ?_
    rw [List.append_assoc]
    exact ih.1 (.inr rfl) _ e' r' (Stop.all _) (.lcall0 hr)
  | @call ts us f as _ h2 ih1 ih2 =>
    refine loop (.inr rfl) fun rest e' r' hs hr => ?_
    rw [List.append_assoc]
    refine ih1.1 (.inr rfl) _ e' r' (Stop.all _) (.lcall (as := as) (r := rest) ?_ ?_ hr)
    · obtain ⟨t, r, rfl, h⟩ := h2.first hz
      intro hh
      cases hh
      cases h
    · show R ty (.p 17) ((us ++ [.pun .rpar]) ++ rest) as _
      rw [List.append_assoc]
      exact ih2.2.2 rfl _ (Stop.cons fun k hk => by cases hk)
  | mem h _ _ ih =>
    refine loop (.inr rfl) fun rest e' r' hs hr => ?_
    rw [List.append_assoc]
    exact ih.1 (.inr rfl) _ e' r' (Stop.all _) (.lmem h hr)
  | post h _ ih =>
    refine loop (.inr rfl) fun rest e' r' hs hr => ?_
    rw [List.append_assoc]
    exact ih.1 (.inr rfl) _ e' r' (Stop.all _) (.lpost h hr)
  | num h => exact once (by simp [LL]) (by decide) (by decide) fun rest _ => .num h
  | id h => exact once (by simp [LL]) (by decide) (by decide) fun rest _ => .id h
  | @paren ts e _ ih =>
    refine once (by simp [LL]) (by decide) (by decide) fun rest _ => .paren ?_
    show R ty (.p 0) ((ts ++ [.pun .rpar]) ++ rest) e _
    rw [List.append_assoc]
    exact ih.2.1 (by decide) _ (Stop.cons fun k hk => by cases hk)
  | arg1 _ ih =>
    refine ⟨fun h => (h.elim (fun h => absurd h.hi (by omega)) fun h => (by omega)), fun h => absurd rfl h,
      fun _ rest hs => .arg1 (ih.2.1 (by decide) rest (hs.mono (by omega))) fun h => hs.ne _ h rfl⟩
  | @arg ts us a as _ _ ih1 ih2 =>
    refine ⟨fun h => (h.elim (fun h => absurd h.hi (by omega)) fun h => (by omega)), fun h => absurd rfl h,
      fun _ rest hs => ?_⟩
    rw [List.append_assoc]
    exact .arg (ih1.2.1 (by decide) _ (Stop.cons fun k hk => by cases hk; omega)) (ih2.2.2 rfl rest hs)

/-- The expressions of C are unambiguous: a list of tokens is at most one expression. -/
theorem D.unique {ty : Text → Bool} (hz : ty t!"sizeof" = false) {ts : List Tok} {e e' : CE}
    (h : D ty 0 ts e) (h' : D ty 0 ts e') : e = e' := by
  have s : Stop 0 [] := fun t k h => by cases h
  exact ((h.read hz).2.1 (by decide) [] s).unique ((h'.read hz).2.1 (by decide) [] s) |>.1

end Cmm.CText
