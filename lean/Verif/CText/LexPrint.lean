import Mathlib.Tactic.ByContra
import Verif.CText.Print

/-
The tokens the translator means to print, and the proof that the printed text has these tokens.
-/
namespace Cmm.CText

/-- The word of a type. -/
def Ty.word : Ty → Text
  | .void => t!"void"
  | .int => t!"int"
  | .bool => t!"char"
  | .char => t!"char"
  | .named x => x

def Un.p : Un → P
  | .neg => .minus
  | .not => .bang
  | .bnot => .tilde

def Bi.p : Bi → P
  | .add => .plus
  | .sub => .minus
  | .shl => .shl
  | .shr => .shr
  | .band => .amp
  | .bxor => .hat
  | .bor => .bar
  | .mul => .star
  | .div => .slash
  | .mod => .pct
  | .gt => .gt
  | .ge => .ge
  | .lt => .lt
  | .le => .le
  | .equ => .eq
  | .neq => .ne
  | .ass => .ass
  | .comm => .comma
  | .or => .barbar
  | .and => .andand

/-- The tokens of a type. -/
def ttoks (t : Ty) (dim : Nat) (inst : Bool) : List Tok := tyToks [t.word] (stars t dim inst)

mutual
/-- The tokens of an expression. -/
def toks : Exp → List Tok
  | .cnst v => if v < 0 then [.pun .minus, .num (dec v.natAbs)] else [.num (dec v.natAbs)]
  | .str n => [.word (strLab n)]
  | .var x => [.word x]
  | .addr x => [.pun .lpar, .pun .lpar, .word t!"int", .pun .rpar, .pun .amp, .word x, .pun .rpar]
  | .func f as => .word f :: .pun .lpar :: (atoks as ++ [.pun .rpar])
  | .idx a i => toks a ++ .pun .lbr :: (toks i ++ [.pun .rbr])
  | .dot a x => toks a ++ [.pun .arrow, .word x]
  | .chr e => .pun .lpar :: .num t!"0xff" :: .pun .amp :: (toks e ++ [.pun .rpar])
  | .bool e => .pun .lpar :: .num t!"0x01" :: .pun .amp :: (toks e ++ [.pun .rpar])
  | .size t dim => .word t!"sizeof" :: .pun .lpar :: (ttoks t dim true ++ [.pun .rpar])
  | .un o e => .pun .lpar :: .pun o.p :: (toks e ++ [.pun .rpar])
  | .bin o l r => .pun .lpar :: (toks l ++ .pun o.p :: (toks r ++ [.pun .rpar]))
/-- The tokens of the arguments. -/
def atoks : Args → List Tok
  | .nil => []
  | .one e => toks e
  | .semi a b => atoks a ++ .pun .comma :: atoks b
end

def toksO : Option Exp → List Tok
  | none => []
  | some e => toks e

/-- The tokens of a statement. -/
def stoks : Stm → List Tok
  | .null => [.pun .semi]
  | .exp (.cnst _) => [.pun .semi]
  | .exp e => toks e ++ [.pun .semi]
  | .ifs c s => .pun .lcur :: .word t!"if" :: .pun .lpar :: (toks c ++ .pun .rpar :: (stoks s ++ [.pun .rcur]))
  | .els c s t => .word t!"if" :: .pun .lpar ::
      (toks c ++ .pun .rpar :: (stoks s ++ .word t!"else" :: stoks t))
  | .whl c re s => .word t!"for" :: .pun .lpar :: .pun .semi ::
      (toksO c ++ .pun .semi :: (toksO re ++ .pun .rpar :: stoks s))
  | .dos s c => .word t!"do" :: (stoks s ++ .word t!"while" :: .pun .lpar ::
      (toks c ++ [.pun .rpar, .pun .semi]))
  | .brk => [.word t!"break", .pun .semi]
  | .cnt => [.word t!"continue", .pun .semi]
  | .ret e => .word t!"return" :: (toksO e ++ [.pun .semi])
  | .var t dim x => ttoks t dim false ++ [.word x, .pun .semi]
  | .blk s t => .pun .lcur :: (stoks s ++ stoks t ++ [.pun .rcur])
  | .semi s t => stoks s ++ stoks t

/-- The text begins with the sign of a negative constant. -/
def Exp.isNeg : Exp → Bool
  | .cnst v => v < 0
  | .idx a _ => a.isNeg
  | .dot a _ => a.isNeg
  | _ => false

def Ty.Ok : Ty → Prop
  | .named x => IsWord x
  | _ => True

mutual
/-- Names are identifiers, and no minus sign stands before a negative constant. -/
def LexOk : Exp → Prop
  | .cnst _ => True
  | .str _ => True
  | .var x => IsWord x
  | .addr x => IsWord x
  | .func f as => IsWord f ∧ LexOkA as
  | .idx a i => LexOk a ∧ LexOk i
  | .dot a x => LexOk a ∧ IsWord x
  | .chr e => LexOk e
  | .bool e => LexOk e
  | .size t _ => t.Ok
  | .un o e => LexOk e ∧ (o = .neg → e.isNeg = false)
  | .bin o l r => LexOk l ∧ LexOk r ∧ (o = .sub → r.isNeg = false)
def LexOkA : Args → Prop
  | .nil => True
  | .one e => LexOk e
  | .semi a b => LexOkA a ∧ LexOkA b
end

def LexOkO : Option Exp → Prop
  | none => True
  | some e => LexOk e

/-- The text of the statement begins with a letter, a digit or an underscore. -/
def wordy (s : Stm) : Bool := (pstm s).head?.any isIdChar

/-- The same for statements; the body of a do statement does not begin with a word. -/
def SLexOk : Stm → Prop
  | .null => True
  | .exp e => LexOk e
  | .ifs c s => LexOk c ∧ SLexOk s
  | .els c s t => LexOk c ∧ SLexOk s ∧ SLexOk t
  | .whl c re s => LexOkO c ∧ LexOkO re ∧ SLexOk s
  | .dos s c => SLexOk s ∧ LexOk c ∧ wordy s = false
  | .brk => True
  | .cnt => True
  | .ret e => LexOkO e
  | .var t _ x => t.Ok ∧ IsWord x
  | .blk s t => SLexOk s ∧ SLexOk t
  | .semi s t => SLexOk s ∧ SLexOk t

/-! Punctuators. -/

/-- The characters that continue a punctuator. -/
def ext : P → List Char
  | .minus => ['>', '-', '=']
  | .plus => ['+', '=']
  | .amp => ['&', '=']
  | .star => ['=']
  | .slash => ['=', '/', '*']
  | .pct => ['=']
  | .lt => ['<', '=']
  | .gt => ['>', '=']
  | .bang => ['=']
  | .ass => ['=']
  | .hat => ['=']
  | .bar => ['|', '=']
  | .shl => ['=']
  | .shr => ['=']
  | .dot => ['.']
  | .hash => ['#']
  | _ => []

theorem ext_ok (p q : P) (c : Char) (cs : Text) (h : q.txt = p.txt ++ c :: cs) : c ∈ ext p := by
  cases p <;> cases q <;> simp [P.txt] at h <;> simp [ext, ← h]

theorem pun_max {p q : P} {r : Text} (h : ∀ c, r.head? = some c → c ∉ ext p)
    (hq : q.txt.isPrefixOf (p.txt ++ r) = true) : q.txt.length ≤ p.txt.length := by
  rw [List.isPrefixOf_iff_prefix] at hq
  by_contra hlt
  have hp : p.txt <+: q.txt := List.prefix_of_prefix_length_le (List.prefix_append _ _) hq (by omega)
  obtain ⟨u, hu⟩ := hp
  cases u with
  | nil => rw [List.append_nil] at hu; rw [hu] at hlt; omega
  | cons c cs =>
    refine h c ?_ (ext_ok p q c cs hu.symm)
    rw [← hu] at hq
    obtain ⟨v, hv⟩ := hq
    rw [List.append_assoc, List.append_cancel_left_eq] at hv
    rw [← hv]
    rfl

theorem Lex.punct {p : P} {r : Text} {ts : List Tok} (h1 : p ≠ .line) (h2 : p ≠ .comment) (h3 : p ≠ .dot)
    (h : ∀ c, r.head? = some c → c ∉ ext p) (hr : Lex r ts) : Lex (p.txt ++ r) (.pun p :: ts) :=
  .pun h1 h2 (fun _ hq => pun_max h hq) (fun h => absurd h h3) hr

/-- Punctuators that nothing continues. -/
theorem Lex.solo {p : P} {r : Text} {ts : List Tok} (h1 : p ≠ .line) (h2 : p ≠ .comment)
    (h : ext p = []) (hr : Lex r ts) : Lex (p.txt ++ r) (.pun p :: ts) :=
  .punct h1 h2 (by rintro rfl; cases h) (by simp [h]) hr

/-- A word followed by something that is not part of a word. -/
theorem Lex.word' {s r : Text} {ts : List Tok} (h : IsWord s) (hr : r.head?.any isIdChar = false) (hl : Lex r ts) :
    Lex (s ++ r) (.word s :: ts) :=
  .word h (fun c hc => by rw [hc] at hr; simpa using hr) hl

/-! Decimal numerals. -/

theorem digit_of {n : Nat} (h : n < 10) : (Char.ofNat (48 + n)).isDigit = true ∧ (Char.ofNat (48 + n)).toNat = 48 + n := by
  have : n = 0 ∨ n = 1 ∨ n = 2 ∨ n = 3 ∨ n = 4 ∨ n = 5 ∨ n = 6 ∨ n = 7 ∨ n = 8 ∨ n = 9 := by omega
  rcases this with rfl | rfl | rfl | rfl | rfl | rfl | rfl | rfl | rfl | rfl <;> decide

theorem dec_digits (n : Nat) : dec n ≠ [] ∧ ∀ c ∈ dec n, c.isDigit = true := by
  induction n using Nat.strongRecOn with
  | ind n ih =>
    rw [dec]
    split
    · rename_i h
      simp [(digit_of h).1]
    · refine ⟨by simp, fun c hc => ?_⟩
      rcases List.mem_append.mp hc with hc | hc
      · exact (ih (n / 10) (by omega)).2 c hc
      · simp only [List.mem_singleton] at hc
        subst hc
        exact (digit_of (by omega)).1

theorem digits_num {s : Text} (h : s ≠ []) (hd : ∀ c ∈ s, c.isDigit = true) : IsNum s ∧ signed s = false := by
  constructor
  · cases s with
    | nil => exact absurd rfl h
    | cons c cs => exact ⟨hd c (by simp), fun x hx => .inl (digit_id (hd x (by simp [hx])))⟩
  · obtain ⟨c, hc⟩ : ∃ c, s.getLast? = some c := by
      cases h' : s.getLast? with
      | none => exact absurd (List.getLast?_eq_none_iff.mp h') h
      | some c => exact ⟨c, rfl⟩
    have := hd c (List.mem_of_getLast? hc)
    simp only [signed, hc, List.mem_cons, Option.some.injEq, List.not_mem_nil, or_false, decide_eq_false_iff_not]
    rintro (rfl | rfl | rfl | rfl) <;> exact absurd this (by decide)

theorem strLab_word (n : Nat) : IsWord (strLab n) := by
  refine ⟨by decide, fun x hx => ?_⟩
  have hx : x ∈ t!"cmm_" ++ dec n ++ t!"S" := hx
  simp only [List.mem_append] at hx
  rcases hx with (h | h) | h
  · clear hx; revert x; decide
  · exact digit_id ((dec_digits n).2 x h)
  · clear hx; revert x; decide

/-- What may follow a word or a number. -/
def Sep (r : Text) : Prop := ∀ c, r.head? = some c → isIdChar c = false ∧ c ≠ '.'

theorem Sep.cons {c : Char} {r : Text} (h : isIdChar c = false ∧ c ≠ '.') : Sep (c :: r) := by
  intro c' hc
  cases hc
  exact h

theorem Lex.name {s r : Text} {ts : List Tok} (h : IsWord s) (hs : Sep r) (hl : Lex r ts) :
    Lex (s ++ r) (.word s :: ts) := .word h (fun c hc => (hs c hc).1) hl

theorem Lex.dec {n : Nat} {r : Text} {ts : List Tok} (hs : Sep r) (hl : Lex r ts) :
    Lex (dec n ++ r) (.num (CText.dec n) :: ts) := by
  obtain ⟨h1, h2⟩ := dec_digits n
  obtain ⟨h3, h4⟩ := digits_num h1 h2
  exact .num h3 hs (fun h => by rw [h4] at h; cases h) hl

/-- Keywords. -/
theorem kw_word {x : Text} (h : x ∈ keywords) : IsWord x := by
  revert h x
  have : ∀ x ∈ keywords, (x.head?.any isIdStart && x.all isIdChar) = true := by decide
  intro x h
  have := this x h
  cases x with
  | nil => simp at this
  | cons c cs => simpa [IsWord, alpha_alnum] using (by simp at this; exact ⟨this.1, this.2.2⟩)

theorem Ty.word_ok {t : Ty} (h : t.Ok) : IsWord t.word := by
  cases t with
  | named x => exact h
  | _ => exact kw_word (by decide)

theorem typeName_eq (t : Ty) : typeName t = t.word ++ [' '] := by cases t <;> rfl

theorem Lex.stars {n : Nat} {r : Text} {ts : List Tok} (hr : r.head? ≠ some '=') (hl : Lex r ts) :
    Lex (List.replicate n '*' ++ r) (List.replicate n (.pun .star) ++ ts) := by
  induction n with
  | zero => exact hl
  | succ n ih =>
    refine Lex.punct (p := .star) (r := List.replicate n '*' ++ r) (by decide) (by decide) (by decide) (fun c hc => ?_) ih
    rintro hm
    simp only [ext, List.mem_singleton] at hm
    subst hm
    cases n with
    | zero => exact hr hc
    | succ n => simp [List.replicate_succ] at hc

theorem Lex.ptype {t : Ty} {dim : Nat} {inst : Bool} {r : Text} {ts : List Tok} (h : t.Ok)
    (hr : r.head? ≠ some '=') (hl : Lex r ts) : Lex (ptype t dim inst ++ r) (ttoks t dim inst ++ ts) := by
  rw [CText.ptype, typeName_eq, List.append_assoc, List.append_assoc]
  exact .name (Ty.word_ok h) (Sep.cons (by decide)) (.ws (by decide) (.stars hr hl))

/-! The first character of an expression. -/

theorem IsWord.first {x : Text} (h : IsWord x) : ∃ c cs, x = c :: cs ∧ isIdChar c = true := by
  cases x with
  | nil => cases h
  | cons c cs => exact ⟨c, cs, rfl, alpha_alnum h.1⟩

/-- The first character of an expression: a letter, a digit, an underscore, a parenthesis, or the sign
of a negative constant. -/
theorem pexp_first (e : Exp) (h : LexOk e) :
    ∃ c cs, pexp e = c :: cs ∧ (isIdChar c = true ∨ c = '(' ∨ (c = '-' ∧ e.isNeg = true)) := by
  cases e with
  | cnst v =>
    rw [pexp, decI]
    split
    · rename_i hv
      exact ⟨_, _, rfl, .inr (.inr ⟨rfl, by simpa [Exp.isNeg] using hv⟩)⟩
    · obtain ⟨h1, h2⟩ := dec_digits v.natAbs
      cases hd : dec v.natAbs with
      | nil => exact absurd hd h1
      | cons c cs => exact ⟨c, cs, rfl, .inl (digit_id (h2 c (by simp [hd])))⟩
  | str n => exact ⟨_, _, rfl, .inl (by decide)⟩
  | var x =>
    obtain ⟨c, cs, h1, h2⟩ := IsWord.first (x := x) h
    exact ⟨c, cs, h1, .inl h2⟩
  | addr => exact ⟨_, _, rfl, .inr (.inl rfl)⟩
  | func f as =>
    obtain ⟨c, cs, rfl, h2⟩ := IsWord.first (x := f) h.1
    exact ⟨c, _, rfl, .inl h2⟩
  | idx a i =>
    obtain ⟨c, cs, h1, h2⟩ := pexp_first a h.1
    exact ⟨c, _, by simp only [pexp, h1]; rfl, h2⟩
  | dot a x =>
    obtain ⟨c, cs, h1, h2⟩ := pexp_first a h.1
    exact ⟨c, _, by simp only [pexp, h1]; rfl, h2⟩
  | chr => exact ⟨_, _, rfl, .inr (.inl rfl)⟩
  | bool => exact ⟨_, _, rfl, .inr (.inl rfl)⟩
  | size => exact ⟨_, _, rfl, .inl (by decide)⟩
  | un => exact ⟨_, _, rfl, .inr (.inl rfl)⟩
  | bin => exact ⟨_, _, rfl, .inr (.inl rfl)⟩

theorem ext_follow (p : P) : ∀ c ∈ ext p, isIdChar c = false ∧ c ≠ '(' := by
  cases p <;> decide

/-- An operator before an expression. -/
theorem Lex.op {p : P} {e : Exp} {r : Text} {ts : List Tok} (h1 : p ≠ .line) (h2 : p ≠ .comment) (h3 : p ≠ .dot)
    (he : LexOk e) (hn : p = .minus → e.isNeg = false) (hl : Lex (pexp e ++ r) ts) :
    Lex (p.txt ++ (pexp e ++ r)) (.pun p :: ts) := by
  refine .punct h1 h2 h3 (fun c hc hm => ?_) hl
  obtain ⟨c', cs, hx, hk⟩ := pexp_first e he
  rw [hx] at hc
  cases hc
  obtain ⟨k1, k2⟩ := ext_follow p c hm
  rcases hk with hk | hk | ⟨rfl, hk⟩
  · rw [hk] at k1; cases k1
  · exact k2 hk
  · have : p = .minus := by revert hm; cases p <;> decide
    rw [hn this] at hk
    cases hk

theorem Lex.lpar {r : Text} {ts : List Tok} (h : Lex r ts) : Lex ('(' :: r) (.pun .lpar :: ts) :=
  Lex.solo (p := .lpar) (by decide) (by decide) rfl h
theorem Lex.rpar {r : Text} {ts : List Tok} (h : Lex r ts) : Lex (')' :: r) (.pun .rpar :: ts) :=
  Lex.solo (p := .rpar) (by decide) (by decide) rfl h
theorem Lex.lbr {r : Text} {ts : List Tok} (h : Lex r ts) : Lex ('[' :: r) (.pun .lbr :: ts) :=
  Lex.solo (p := .lbr) (by decide) (by decide) rfl h
theorem Lex.rbr {r : Text} {ts : List Tok} (h : Lex r ts) : Lex (']' :: r) (.pun .rbr :: ts) :=
  Lex.solo (p := .rbr) (by decide) (by decide) rfl h
theorem Lex.lcur {r : Text} {ts : List Tok} (h : Lex r ts) : Lex ('{' :: r) (.pun .lcur :: ts) :=
  Lex.solo (p := .lcur) (by decide) (by decide) rfl h
theorem Lex.rcur {r : Text} {ts : List Tok} (h : Lex r ts) : Lex ('}' :: r) (.pun .rcur :: ts) :=
  Lex.solo (p := .rcur) (by decide) (by decide) rfl h
theorem Lex.semi {r : Text} {ts : List Tok} (h : Lex r ts) : Lex (';' :: r) (.pun .semi :: ts) :=
  Lex.solo (p := .semi) (by decide) (by decide) rfl h
theorem Lex.comma {r : Text} {ts : List Tok} (h : Lex r ts) : Lex (',' :: r) (.pun .comma :: ts) :=
  Lex.solo (p := .comma) (by decide) (by decide) rfl h
theorem Lex.nl {r : Text} {ts : List Tok} (h : Lex r ts) : Lex ('\n' :: r) ts := .ws (by decide) h

theorem Un.txt_eq (o : Un) : o.txt = o.p.txt := by cases o <;> rfl
theorem Bi.txt_eq (o : Bi) : o.txt = o.p.txt := by cases o <;> rfl
theorem Bi.sep (o : Bi) (r : Text) : Sep (o.p.txt ++ r) := by cases o <;> exact Sep.cons (by decide)

theorem Lex.kw {s r : Text} {ts : List Tok} (h : s ∈ keywords) (hs : Sep r) (hl : Lex r ts) :
    Lex (s ++ r) (.word s :: ts) := .name (kw_word h) hs hl

theorem amp_name {x r : Text} (h : IsWord x) : ∀ c, (x ++ r).head? = some c → c ∉ ext .amp := by
  intro c hc hm
  obtain ⟨c', cs, rfl, h2⟩ := h.first
  cases hc
  rw [(ext_follow _ _ hm).1] at h2
  cases h2

mutual
/-- The tokens of the text of an expression. -/
theorem lex_exp (e : Exp) (h : LexOk e) {r : Text} {ts : List Tok} (hs : Sep r) (hl : Lex r ts) :
    Lex (pexp e ++ r) (toks e ++ ts) := by
  cases e with
  | cnst v =>
    simp only [pexp, decI, toks]
    split
    · refine Lex.punct (p := .minus) (by decide) (by decide) (by decide) (fun c hc hm => ?_) (.dec hs hl)
      obtain ⟨h1, h2⟩ := dec_digits v.natAbs
      cases hd : dec v.natAbs with
      | nil => exact absurd hd h1
      | cons x xs =>
        rw [hd] at hc
        cases hc
        have := digit_id (h2 c (by simp [hd]))
        rw [(ext_follow _ _ hm).1] at this
        cases this
    · exact .dec hs hl
  | str n => exact .name (strLab_word n) hs hl
  | var x => exact .name h hs hl
  | addr x =>
    simp only [pexp, toks, List.append_assoc, List.cons_append, List.nil_append]
    refine .lpar (.lpar (Lex.kw (s := t!"int") (by decide) (Sep.cons (by decide)) (.rpar ?_)))
    exact Lex.punct (p := .amp) (by decide) (by decide) (by decide) (amp_name h)
      (.name h (Sep.cons (by decide)) (.rpar hl))
  | func f as =>
    simp only [pexp, toks, List.append_assoc, List.cons_append, List.nil_append]
    exact .name h.1 (Sep.cons (by decide)) (.lpar (lex_args as h.2 (Sep.cons (by decide)) (.rpar hl)))
  | idx a i =>
    simp only [pexp, toks, List.append_assoc, List.cons_append, List.nil_append]
    exact lex_exp a h.1 (Sep.cons (by decide)) (.lbr (lex_exp i h.2 (Sep.cons (by decide)) (.rbr hl)))
  | dot a x =>
    simp only [pexp, toks, List.append_assoc, List.cons_append, List.nil_append]
    exact lex_exp a h.1 (Sep.cons (by decide)) (Lex.punct (p := .arrow) (by decide) (by decide) (by decide)
      (by simp [ext]) (.name h.2 hs hl))
  | chr e =>
    simp only [pexp, toks, List.append_assoc, List.cons_append, List.nil_append]
    refine .lpar (Lex.num (s := t!"0xff") ⟨by decide, by decide⟩ (Sep.cons (by decide)) (fun h => absurd h (by decide)) ?_)
    exact Lex.op (p := .amp) (by decide) (by decide) (by decide) h (fun h => by cases h)
      (lex_exp e h (Sep.cons (by decide)) (.rpar hl))
  | bool e =>
    simp only [pexp, toks, List.append_assoc, List.cons_append, List.nil_append]
    refine .lpar (Lex.num (s := t!"0x01") ⟨by decide, by decide⟩ (Sep.cons (by decide)) (fun h => absurd h (by decide)) ?_)
    exact Lex.op (p := .amp) (by decide) (by decide) (by decide) h (fun h => by cases h)
      (lex_exp e h (Sep.cons (by decide)) (.rpar hl))
  | size t dim =>
    simp only [pexp, toks, List.append_assoc, List.cons_append, List.nil_append]
    exact Lex.kw (s := t!"sizeof") (by decide) (Sep.cons (by decide)) (.lpar (.ptype h (by rintro ⟨⟩) (.rpar hl)))
  | un o e =>
    simp only [pexp, toks, List.append_assoc, List.cons_append, List.nil_append, Un.txt_eq]
    refine .lpar (Lex.op ?_ ?_ ?_ h.1 ?_ (lex_exp e h.1 (Sep.cons (by decide)) (.rpar hl)))
    · cases o <;> decide
    · cases o <;> decide
    · cases o <;> decide
    · intro ho
      exact h.2 (by revert ho; cases o <;> decide)
  | bin o l r' =>
    simp only [pexp, toks, List.append_assoc, List.cons_append, List.nil_append, Bi.txt_eq]
    refine .lpar (lex_exp l h.1 (o.sep _) (Lex.op ?_ ?_ ?_ h.2.1 ?_
      (lex_exp r' h.2.1 (Sep.cons (by decide)) (.rpar hl))))
    · cases o <;> decide
    · cases o <;> decide
    · cases o <;> decide
    · intro ho
      exact h.2.2 (by revert ho; cases o <;> decide)
theorem lex_args (a : Args) (h : LexOkA a) {r : Text} {ts : List Tok} (hs : Sep r) (hl : Lex r ts) :
    Lex (pargs a ++ r) (atoks a ++ ts) := by
  cases a with
  | nil => exact hl
  | one e => exact lex_exp e h hs hl
  | semi a b =>
    simp only [pargs, atoks, List.append_assoc, List.cons_append, List.nil_append]
    exact lex_args a h.1 (Sep.cons (by decide)) (.comma (lex_args b h.2 hs hl))
end

theorem lex_expO (e : Option Exp) (h : LexOkO e) {r : Text} {ts : List Tok} (hs : Sep r) (hl : Lex r ts) :
    Lex (pexpO e ++ r) (toksO e ++ ts) := by
  cases e with
  | none => exact hl
  | some e => exact lex_exp e h hs hl

theorem wordy_sep {s : Stm} {r : Text} (h : wordy s = false) (hd : (pstm s).head? ≠ some '.')
    (hn : pstm s ≠ []) : Sep (pstm s ++ r) := by
  intro c hc
  cases hx : pstm s with
  | nil => exact absurd hx hn
  | cons x xs =>
    rw [hx] at hc
    cases hc
    rw [wordy, hx] at h
    exact ⟨by simpa using h, by rintro rfl; rw [hx] at hd; exact hd rfl⟩

theorem pexp_head {e : Exp} (h : LexOk e) (r : Text) : (pexp e ++ r).head? ≠ some '.' := by
  obtain ⟨c, cs, hx, hk⟩ := pexp_first e h
  rw [hx]
  rintro ⟨⟩
  rcases hk with hk | hk | ⟨hk, _⟩ <;> exact absurd hk (by decide)

theorem word_head {x : Text} (h : IsWord x) (r : Text) : (x ++ r).head? ≠ some '.' := by
  obtain ⟨c, cs, rfl, hk⟩ := h.first
  rintro ⟨⟩
  exact absurd hk (by decide)

theorem word_ne_eq {x : Text} (h : IsWord x) (r : Text) : (x ++ r).head? ≠ some '=' := by
  obtain ⟨c, cs, rfl, hk⟩ := h.first
  rintro ⟨⟩
  exact absurd hk (by decide)

/-- The text of a statement is not empty and does not begin with a point. -/
theorem pstm_head (s : Stm) (h : SLexOk s) : ∃ c cs, pstm s = c :: cs ∧ c ≠ '.' := by
  have ne : ∀ (x : Text), x ≠ [] → x.head? ≠ some '.' → ∃ c cs, x = c :: cs ∧ c ≠ '.' := by
    intro x h1 h2
    cases x with
    | nil => exact absurd rfl h1
    | cons c cs => exact ⟨c, cs, rfl, by rintro rfl; exact h2 rfl⟩
  induction s with
  | exp e =>
    by_cases hc : ∃ v, e = .cnst v
    · obtain ⟨v, rfl⟩ := hc
      exact ⟨_, _, rfl, by decide⟩
    · have : pstm (.exp e) = pexp e ++ t!";\n" := by
        cases e <;> first | rfl | exact absurd ⟨_, rfl⟩ hc
      rw [this]
      exact ne _ (by simp) (pexp_head h _)
  | var t dim x =>
    refine ne _ ?_ ?_
    · simp [pstm]
    · simp only [pstm, ptype, typeName_eq, List.append_assoc]
      exact word_head (Ty.word_ok h.1) _
  | semi s t ih1 =>
    obtain ⟨c, cs, h1, h2⟩ := ih1 h.1
    exact ⟨c, _, by rw [pstm, h1]; rfl, h2⟩
  | _ => exact ⟨_, _, rfl, by decide⟩

/-- The tokens of the text of a statement. -/
theorem lex_stm (s : Stm) (h : SLexOk s) {r : Text} {ts : List Tok} (hl : Lex r ts) :
    Lex (pstm s ++ r) (stoks s ++ ts) := by
  induction s generalizing r ts with
  | null => exact .semi (.nl hl)
  | exp e =>
    by_cases hc : ∃ v, e = .cnst v
    · obtain ⟨v, rfl⟩ := hc
      exact .semi (.nl hl)
    · have h1 : pstm (.exp e) = pexp e ++ t!";\n" := by
        cases e <;> first | rfl | exact absurd ⟨_, rfl⟩ hc
      have h2 : stoks (.exp e) = toks e ++ [.pun .semi] := by
        cases e <;> first | rfl | exact absurd ⟨_, rfl⟩ hc
      rw [h1, h2]
      simp only [List.append_assoc, List.cons_append, List.nil_append]
      exact lex_exp e h (Sep.cons (by decide)) (.semi (.nl hl))
  | ifs c s ih =>
    simp only [pstm, stoks, List.append_assoc, List.cons_append, List.nil_append]
    exact .lcur (Lex.kw (s := t!"if") (by decide) (Sep.cons (by decide)) (.lpar
      (lex_exp c h.1 (Sep.cons (by decide)) (.rpar (ih h.2 (.rcur hl))))))
  | els c s t ih1 ih2 =>
    simp only [pstm, stoks, List.append_assoc, List.cons_append, List.nil_append]
    exact Lex.kw (s := t!"if") (by decide) (Sep.cons (by decide)) (.lpar
      (lex_exp c h.1 (Sep.cons (by decide)) (.rpar (ih1 h.2.1 (Lex.kw (s := t!"else") (by decide)
        (Sep.cons (by decide)) (.ws (by decide) (ih2 h.2.2 hl)))))))
  | whl c re s ih =>
    simp only [pstm, stoks, List.append_assoc, List.cons_append, List.nil_append]
    exact Lex.kw (s := t!"for") (by decide) (Sep.cons (by decide)) (.lpar (.semi
      (lex_expO c h.1 (Sep.cons (by decide)) (.semi (lex_expO re h.2.1 (Sep.cons (by decide))
        (.rpar (.nl (ih h.2.2 hl))))))))
  | dos s c ih =>
    obtain ⟨x, xs, hx, hd⟩ := pstm_head s h.1
    simp only [pstm, stoks, List.append_assoc, List.cons_append, List.nil_append]
    exact Lex.kw (s := t!"do") (by decide)
      (wordy_sep h.2.2 (by rw [hx]; rintro ⟨⟩; exact hd rfl) (by rw [hx]; simp)) (ih h.1 (Lex.kw (s := t!"while") (by decide)
        (Sep.cons (by decide)) (.lpar (lex_exp c h.2.1 (Sep.cons (by decide)) (.rpar (.semi (.nl hl)))))))
  | brk => exact Lex.kw (s := t!"break") (by decide) (Sep.cons (by decide)) (.semi (.nl hl))
  | cnt => exact Lex.kw (s := t!"continue") (by decide) (Sep.cons (by decide)) (.semi (.nl hl))
  | ret e =>
    simp only [pstm, stoks, List.append_assoc, List.cons_append, List.nil_append]
    exact Lex.kw (s := t!"return") (by decide) (Sep.cons (by decide)) (.ws (by decide)
      (lex_expO e h (Sep.cons (by decide)) (.semi (.nl hl))))
  | var t dim x =>
    simp only [pstm, stoks, List.append_assoc, List.cons_append, List.nil_append]
    exact .ptype h.1 (word_ne_eq h.2 _) (.name h.2 (Sep.cons (by decide)) (.semi (.nl hl)))
  | blk s t ih1 ih2 =>
    simp only [pstm, stoks, List.append_assoc, List.cons_append, List.nil_append]
    exact .lcur (.nl (ih1 h.1 (ih2 h.2 (.rcur (.nl hl)))))
  | semi s t ih1 ih2 =>
    simp only [pstm, stoks, List.append_assoc]
    exact ih1 h.1 (ih2 h.2 hl)

end Cmm.CText
