import Verif.Lib.CPrint
import Verif.Props.C84

/-
C86: the printf of translated programs prints the pieces of its format one after the other.

A format is given by its pieces: characters, and conversions with a side, digits and an argument. `spell` is how a piece is written in the
format, `takes` the arguments it takes and `prints` the text it stands for (in terms of `Nat.toDigits` and a field, see C84).
-/
namespace Cmm.CLib

/-- A conversion and its argument. -/
inductive Conv
  | oct (n : Nat)
  | dec (x : Int)
  | hex (n : Nat)
  | chr (c : Char)
  | str (s : List Char)
  | percent
  | long (h l : BitVec 32)

/-- A piece of a format: a character, or a conversion with `-` or not and the digits of a width (none, or beginning with 0 or not). -/
inductive Piece
  | lit (c : Char)
  | conv (left : Bool) (ds : List Char) (k : Conv)

def Conv.letters : Conv → List Char
  | .oct _ => ['o']
  | .dec _ => ['d']
  | .hex _ => ['x']
  | .chr _ => ['c']
  | .str _ => ['s']
  | .percent => ['%']
  | .long _ _ => ['l', 'd']

def Conv.arg : Conv → List Arg
  | .oct n => [.int n]
  | .dec x => [.int x]
  | .hex n => [.int n]
  | .chr c => [.int c.toNat]
  | .str s => [.str s]
  | .percent => []
  | .long h l => [.long h l]

/-- The text of a conversion in a field of `w` characters filled with `p`. Characters and strings are filled with blanks, `%` is not filled. -/
def Conv.text (w : Nat) (left : Bool) (p : Char) : Conv → List Char
  | .oct n => cfield w left p (Nat.toDigits 8 n)
  | .dec x => cfield w left p ((if x < 0 then ['-'] else []) ++ Nat.toDigits 10 x.natAbs)
  | .hex n => cfield w left p (Nat.toDigits 16 n)
  | .chr c => cfield w left ' ' [c]
  | .str s => cfield w left ' ' s
  | .percent => ['%']
  | .long h l => cfield w left p (Nat.toDigits 10 (h.toNat * 4294967296 + l.toNat))

/-- What C84 asks of numbers; characters have 8 bits; longs are on the right. -/
def Conv.Fits (left : Bool) : Conv → Prop
  | .oct n => n < 2147483648
  | .dec x => -2147483648 < x ∧ x < 2147483648
  | .hex n => n < 2147483648
  | .chr c => c.toNat < 256
  | .str _ => True
  | .percent => True
  | .long _ _ => left = false

def Piece.spell : Piece → List Char
  | .lit c => [c]
  | .conv left ds k => '%' :: ((if left then ['-'] else []) ++ ds ++ k.letters)

def Piece.takes : Piece → List Arg
  | .lit _ => []
  | .conv _ _ k => k.arg

def Piece.prints : Piece → List Char
  | .lit c => [c]
  | .conv left ds k => k.text (Nat.ofDigitChars 10 ds 0) left (if ds.head? = some '0' then '0' else ' ')

/-- A width is an int. -/
def Piece.Ok : Piece → Prop
  | .lit c => c ≠ '%'
  | .conv left ds k => (∀ c ∈ ds, c.isDigit) ∧ Nat.ofDigitChars 10 ds 0 < 2147483648 ∧ k.Fits left

theorem le_ofDigitChars (ds : List Char) : ∀ w, w ≤ Nat.ofDigitChars 10 ds w := by
  induction ds with
  | nil => intro w; simp [Nat.ofDigitChars_nil]
  | cons c ds ih =>
    intro w
    rw [Nat.ofDigitChars_cons]
    exact Nat.le_trans (by omega) (ih _)

theorem scanW_spec (ds f : List Char) (hd : ∀ c ∈ ds, c.isDigit) (hf : (cur f).isDigit = false) :
    ∀ w, Nat.ofDigitChars 10 ds w < 2147483648 → scanW w (ds ++ f) = some (Nat.ofDigitChars 10 ds w, f) := by
  induction ds with
  | nil =>
    intro w _
    cases f with
    | nil => simp [scanW, Nat.ofDigitChars_nil]
    | cons c f => simp [cur] at hf; simp [scanW, hf, Nat.ofDigitChars_nil]
  | cons c ds ih =>
    intro w h
    rw [Nat.ofDigitChars_cons] at h
    have e : 10 * w + (c.toNat - '0'.toNat) = w * 10 + (c.toNat - 48) := by
      rw [show '0'.toNat = 48 from rfl]; omega
    rw [e] at h
    have := le_ofDigitChars ds (w * 10 + (c.toNat - 48))
    rw [List.cons_append, scanW, if_pos (hd c (by simp)), if_pos (by omega), ih (fun c hc => hd c (by simp [hc])) _ h,
      Nat.ofDigitChars_cons, e]

theorem putS_spec (s : List Char) (w : Int) (lf : Bool) : putS s w lf = cfield w lf ' ' s := by
  unfold putS cfield putN
  cases lf <;> simp

theorem putCW_spec (c : Char) (w : Int) (lf : Bool) : putCW c w lf = cfield w lf ' ' [c] := by
  unfold putCW cfield putN
  cases lf <;> simp

/-- The beginning of a conversion up to its letters. -/
theorem directive_head (left : Bool) (ds f : List Char) (a : List Arg) (hd : ∀ c ∈ ds, c.isDigit)
    (hw : Nat.ofDigitChars 10 ds 0 < 2147483648) (hf : (cur f).isDigit = false) (hm : left = true ∨ ds ≠ [] ∨ cur f ≠ '-') :
    directive ((if left then ['-'] else []) ++ ds ++ f) a =
      (let p := if ds.head? = some '0' then '0' else ' '
       if cur f = 'l' then conv32 f.tail (Nat.ofDigitChars 10 ds 0 : Nat) left p a
       else conv16 f (Nat.ofDigitChars 10 ds 0 : Nat) left p a) := by
  have hp : (if cur (ds ++ f) = '0' then '0' else ' ') = (if ds.head? = some '0' then '0' else ' ') := by
    cases ds with
    | nil =>
      rw [List.nil_append, if_neg (by intro e; rw [e] at hf; exact absurd hf (by decide))]; rfl
    | cons c ds => simp [cur]
  have hs := scanW_spec ds f hd hf 0 hw
  unfold directive
  cases left with
  | true => simp [cur] at hp ⊢; simp [hp, hs, cur]
  | false =>
    have hne : ¬ cur (ds ++ f) = '-' := by
      cases ds with
      | nil => simpa using hm
      | cons c ds =>
        intro e
        have : c = '-' := by simpa [cur] using e
        have := hd c (by simp)
        simp_all
    simp only [Bool.false_eq_true, if_false, List.nil_append, hne, decide_false, hp, hs]

theorem directive_spec (left : Bool) (ds : List Char) (k : Conv) (f : List Char) (a : List Arg)
    (h : (Piece.conv left ds k).Ok) :
    directive ((if left then ['-'] else []) ++ ds ++ k.letters ++ f) (k.arg ++ a) = .go (Piece.conv left ds k).prints f a := by
  obtain ⟨hd, hw, hk⟩ := h
  rw [List.append_assoc, directive_head left ds (k.letters ++ f) _ hd hw (by cases k <;> rfl)
    (by right; right; cases k <;> (simp [Conv.letters, cur]))]
  cases k with
  | oct n =>
    simp only [Conv.letters, Conv.arg, Piece.prints, Conv.text, conv16, cur, List.cons_append, List.nil_append, List.headD_cons, List.tail_cons]
    rw [← C84_unsigned_partial (b := 8) (by omega) (by omega) n hk]
    rfl
  | hex n =>
    simp only [Conv.letters, Conv.arg, Piece.prints, Conv.text, conv16, cur, List.cons_append, List.nil_append, List.headD_cons, List.tail_cons]
    rw [← C84_unsigned_partial (b := 16) (by omega) (by omega) n hk]
    rfl
  | dec x =>
    simp only [Conv.letters, Conv.arg, Piece.prints, Conv.text, conv16, cur, List.cons_append, List.nil_append, List.headD_cons, List.tail_cons]
    rw [C84_signed x hk.1 hk.2]
    rfl
  | chr c =>
    simp only [Conv.letters, Conv.arg, Piece.prints, Conv.text, conv16, cur, List.cons_append, List.nil_append, List.headD_cons, List.tail_cons]
    have hc : c.toNat < 256 := hk
    have e : Char.ofNat (toU c.toNat % 256) = c := by
      rw [show toU c.toNat % 256 = c.toNat by unfold toU; omega, Char.ofNat_toNat]
    rw [e, putCW_spec]
    rfl
  | str t =>
    simp only [Conv.letters, Conv.arg, Piece.prints, Conv.text, conv16, cur, List.cons_append, List.nil_append, List.headD_cons, List.tail_cons]
    rw [putS_spec]
    rfl
  | percent => rfl
  | long u v =>
    have hl : left = false := hk
    subst hl
    simp only [Conv.letters, Conv.arg, Piece.prints, Conv.text, conv32, cur, List.cons_append, List.nil_append, List.headD_cons, List.tail_cons]
    rw [C84_long_partial]
    rfl

theorem pre_pre (s t : List Char) (o : Out) : (o.pre t).pre s = o.pre (s ++ t) := by cases o <;> simp [Out.pre]

theorem printLoop_pieces (ps : List Piece) (f : List Char) (a : List Arg) (h : ∀ p ∈ ps, p.Ok) (n : Nat) :
    printLoop (n + ps.length) (ps.flatMap Piece.spell ++ f) (ps.flatMap Piece.takes ++ a) =
      (printLoop n f a).pre (ps.flatMap Piece.prints) := by
  induction ps with
  | nil => simp; cases printLoop n f a <;> rfl
  | cons p ps ih =>
    have ih := ih (fun q hq => h q (by simp [hq]))
    have hp := h p (by simp)
    rw [List.length_cons, show n + (ps.length + 1) = n + ps.length + 1 by omega]
    simp only [List.flatMap_cons, List.append_assoc]
    rw [← pre_pre, ← ih]
    cases p with
    | lit c => simp only [Piece.spell, Piece.takes, Piece.prints, List.cons_append, List.nil_append, printLoop]; rw [if_neg hp]
    | conv left ds k =>
      have hd := directive_spec left ds k (ps.flatMap Piece.spell ++ f) (ps.flatMap Piece.takes ++ a) hp
      simp only [Piece.spell, Piece.takes, List.cons_append, printLoop, if_true]
      rw [hd]

theorem spell_length (ps : List Piece) : ps.length ≤ (ps.flatMap Piece.spell).length := by
  induction ps with
  | nil => simp
  | cons p ps ih =>
    rw [List.flatMap_cons, List.length_append, List.length_cons]
    have : 1 ≤ p.spell.length := by cases p <;> simp [Piece.spell]
    omega

theorem print_pieces (ps : List Piece) (f : List Char) (a : List Arg) (h : ∀ p ∈ ps, p.Ok) :
    ∃ n, f.length < n ∧ print (ps.flatMap Piece.spell ++ f) (ps.flatMap Piece.takes ++ a) =
      (printLoop n f a).pre (ps.flatMap Piece.prints) := by
  have := spell_length ps
  refine ⟨(ps.flatMap Piece.spell).length + f.length + 1 - ps.length, by omega, ?_⟩
  rw [← printLoop_pieces ps f a h, print, List.length_append]
  congr 1
  omega

/-- C86: the texts of the pieces are printed one after the other; each conversion takes its own argument and further ones are not touched.
Longs on the left are left out (see C84_long_false), as are numbers C84 leaves out. -/
theorem C86_partial (ps : List Piece) (h : ∀ p ∈ ps, p.Ok) (a : List Arg) :
    print (ps.flatMap Piece.spell) (ps.flatMap Piece.takes ++ a) = .done (ps.flatMap Piece.prints) := by
  obtain ⟨n, h1, h2⟩ := print_pieces ps [] a h
  rw [List.append_nil] at h2
  rw [h2]
  obtain ⟨n, rfl⟩ : ∃ k, n = k + 1 := ⟨n - 1, by simp at h1; omega⟩
  simp [printLoop, Out.pre]

/-- C86: at a conversion that is none (also if the format ends there) all before it has been printed and the program ends: nothing behind
the end of the format is read. -/
theorem C86_bad (ps : List Piece) (h : ∀ p ∈ ps, p.Ok) (left : Bool) (ds f : List Char) (a : List Arg) (hd : ∀ c ∈ ds, c.isDigit)
    (hw : Nat.ofDigitChars 10 ds 0 < 2147483648)
    (hf : ∀ c, f.head? = some c → c.isDigit = false ∧ c ∉ ['o', 'd', 'x', 'c', 's', '%', 'l'] ∧ (c = '-' → left = true ∨ ds ≠ [])) :
    print (ps.flatMap Piece.spell ++ ('%' :: ((if left then ['-'] else []) ++ ds ++ f))) (ps.flatMap Piece.takes ++ a) =
      .stop (ps.flatMap Piece.prints) := by
  obtain ⟨n, h1, h2⟩ := print_pieces ps ('%' :: ((if left then ['-'] else []) ++ ds ++ f)) a h
  obtain ⟨n, rfl⟩ : ∃ k, n = k + 1 := ⟨n - 1, by simp at h1; omega⟩
  have key : (cur f).isDigit = false ∧ cur f ∉ ['o', 'd', 'x', 'c', 's', '%', 'l'] ∧ (left = true ∨ ds ≠ [] ∨ cur f ≠ '-') := by
    cases f with
    | nil => exact ⟨by decide, by decide, .inr (.inr (by decide))⟩
    | cons c f =>
      obtain ⟨k1, k2, k3⟩ := hf c rfl
      refine ⟨k1, k2, ?_⟩
      by_cases e : c = '-'
      · rcases k3 e with k | k
        · exact .inl k
        · exact .inr (.inl k)
      · exact .inr (.inr e)
  obtain ⟨k1, k2, k3⟩ := key
  have hdir := directive_head left ds f a hd hw k1 k3
  simp only [List.mem_cons, List.not_mem_nil, or_false, not_or] at k2
  rw [h2, printLoop, if_pos rfl, hdir]
  simp [conv16, k2, Out.pre]

/-- C86: the same for a long conversion other than `%ld`, which takes its argument first. -/
theorem C86_bad_long (ps : List Piece) (h : ∀ p ∈ ps, p.Ok) (left : Bool) (ds f : List Char) (u v : BitVec 32) (a : List Arg)
    (hd : ∀ c ∈ ds, c.isDigit) (hw : Nat.ofDigitChars 10 ds 0 < 2147483648) (hf : f.head? ≠ some 'd') :
    print (ps.flatMap Piece.spell ++ ('%' :: ((if left then ['-'] else []) ++ ds ++ 'l' :: f))) (ps.flatMap Piece.takes ++ .long u v :: a) =
      .stop (ps.flatMap Piece.prints) := by
  obtain ⟨n, h1, h2⟩ := print_pieces ps ('%' :: ((if left then ['-'] else []) ++ ds ++ 'l' :: f)) (.long u v :: a) h
  obtain ⟨n, rfl⟩ : ∃ k, n = k + 1 := ⟨n - 1, by simp at h1; omega⟩
  have hdir := directive_head left ds ('l' :: f) (.long u v :: a) hd hw (show Char.isDigit 'l' = false by decide) (.inr (.inr (by simp [cur])))
  have hc : ¬ cur f = 'd' := by
    cases f with
    | nil => decide
    | cons c f => simpa [cur] using hf
  have hl : cur ('l' :: f) = 'l' := rfl
  simp only [hl, if_true, conv32] at hdir
  rw [if_neg (show ¬ cur ('l' :: f).tail = 'd' from hc)] at hdir
  rw [h2, printLoop, if_pos rfl, hdir]
  simp [Out.pre]

/-- A piece as far as its spelling goes. -/
def Piece.Wf : Piece → Prop
  | .lit c => c ≠ '%'
  | .conv _ ds _ => ∀ c ∈ ds, c.isDigit

/-- A format is spelled by pieces, up to its end or to a conversion that is none. -/
def Covered (f : List Char) : Prop := ∃ (ps : List Piece) (r : List Char), f = ps.flatMap Piece.spell ++ r ∧ (∀ p ∈ ps, p.Wf) ∧
    (r = [] ∨ ∃ left ds g, (∀ c ∈ ds, c.isDigit = true) ∧ r = '%' :: ((if left then ['-'] else []) ++ ds ++ g) ∧
      ((∀ c, g.head? = some c → c.isDigit = false ∧ c ∉ ['o', 'd', 'x', 'c', 's', '%', 'l'] ∧ (c = '-' → left = true ∨ ds ≠ [])) ∨
       ∃ g', g = 'l' :: g' ∧ g'.head? ≠ some 'd'))

/-- C86_partial, C86_bad and C86_bad_long cover all formats. -/
theorem C86_formats (f : List Char) : Covered f := by
  generalize hn : f.length = n
  induction n using Nat.strongRecOn generalizing f with
  | ind n ih =>
    have go : ∀ (p : Piece) (g : List Char), p.Wf → f = p.spell ++ g → g.length < n → Covered f := by
      intro p g hp hf hg
      obtain ⟨ps, r, e1, e2, e3⟩ := ih g.length hg g rfl
      refine ⟨p :: ps, r, by rw [hf, List.flatMap_cons, List.append_assoc, ← e1], fun q hq => ?_, e3⟩
      rcases List.mem_cons.1 hq with rfl | hq
      · exact hp
      · exact e2 q hq
    rcases f with _ | ⟨c, f⟩
    · exact ⟨[], [], rfl, by simp, .inl rfl⟩
    by_cases hc : c ≠ '%'
    · exact go (.lit c) f hc rfl (by simp at hn; omega)
    have hc : c = '%' := Classical.not_not.1 hc
    subst hc
    obtain ⟨left, ds, g, e, hd, hg, hm⟩ : ∃ (left : Bool) (ds g : List Char), f = (if left then ['-'] else []) ++ ds ++ g ∧
        (∀ c ∈ ds, c.isDigit = true) ∧ (∀ c, g.head? = some c → c.isDigit = false) ∧
        (g.head? = some '-' → left = true ∨ ds ≠ []) := by
      have tw : ∀ k : List Char, (∀ c ∈ k.takeWhile Char.isDigit, c.isDigit = true) := by
        intro k c hc
        exact (List.all_eq_true.1 (List.all_takeWhile (p := Char.isDigit) (l := k))) c hc
      have dw : ∀ k : List Char, ∀ c, (k.dropWhile Char.isDigit).head? = some c → c.isDigit = false := by
        intro k c hc
        have := List.head?_dropWhile_not Char.isDigit k
        rw [hc] at this
        simpa using this
      by_cases hl : f.head? = some '-'
      · cases f with
        | nil => simp at hl
        | cons c f =>
          simp at hl; subst hl
          exact ⟨true, f.takeWhile Char.isDigit, f.dropWhile Char.isDigit, by simp, tw f, dw f, fun _ => .inl rfl⟩
      · refine ⟨false, f.takeWhile Char.isDigit, f.dropWhile Char.isDigit, by simp, tw f, dw f, fun h => .inr fun e => hl ?_⟩
        have := List.takeWhile_append_dropWhile (p := Char.isDigit) (l := f)
        rw [e, List.nil_append] at this
        rw [← this]; exact h
    have conv : ∀ (k : Conv) (g' : List Char), g = k.letters ++ g' → Covered ('%' :: f) := fun k g' hk =>
      go (.conv left ds k) g' hd (by rw [e, hk]; simp [Piece.spell]) (by
        rw [← hn, e, hk]; simp; omega)
    rcases g with _ | ⟨x, g⟩
    · exact ⟨[], _, rfl, by simp, .inr ⟨left, ds, [], hd, by rw [e], .inl (by simp)⟩⟩
    by_cases h1 : x = 'o'
    · exact conv (.oct 0) g (by rw [h1]; rfl)
    by_cases h2 : x = 'd'
    · exact conv (.dec 0) g (by rw [h2]; rfl)
    by_cases h3 : x = 'x'
    · exact conv (.hex 0) g (by rw [h3]; rfl)
    by_cases h4 : x = 'c'
    · exact conv (.chr 'a') g (by rw [h4]; rfl)
    by_cases h5 : x = 's'
    · exact conv (.str []) g (by rw [h5]; rfl)
    by_cases h6 : x = '%'
    · exact conv .percent g (by rw [h6]; rfl)
    by_cases h7 : x = 'l'
    · by_cases h8 : g.head? = some 'd'
      · cases g with
        | nil => simp at h8
        | cons y g => simp at h8; exact conv (.long 0 0) g (by rw [h7, h8]; rfl)
      · exact ⟨[], _, rfl, by simp, .inr ⟨left, ds, x :: g, hd, by rw [e], .inr ⟨g, by rw [h7], h8⟩⟩⟩
    refine ⟨[], _, rfl, by simp, .inr ⟨left, ds, x :: g, hd, by rw [e], .inl fun c hc => ?_⟩⟩
    have : x = c := by simpa using hc
    subst this
    exact ⟨hg _ rfl, by simp [h1, h2, h3, h4, h5, h6, h7], fun he => hm (by rw [he]; rfl)⟩

/-- The full claim is false: `%-ld` of 100000005 prints `15` and seven blanks. -/
theorem C86_left_false : print ['%', '-', 'l', 'd'] [.long 0 100000005] = .done ('1' :: '5' :: List.replicate 7 ' ') ∧
    Piece.prints (.conv true [] (.long 0 100000005)) = ['1', '0', '0', '0', '0', '0', '0', '0', '5'] := by
  have e : putLong 0 100000005 0 true ' ' = '1' :: '5' :: List.replicate 7 ' ' := by decide +kernel
  refine ⟨?_, by decide +kernel⟩
  show (match conv32 ['d'] ((0 : Nat) : Int) true ' ' [.long 0 100000005] with
      | .go s f a => (printLoop 4 f a).pre s
      | .stop => Out.stop []
      | .undef => .undef) = _
  unfold conv32
  simp only [cur, List.headD_cons, if_true, List.tail_cons]
  rw [show ((0 : Nat) : Int) = 0 from rfl, e]
  rfl

example : print ['a', '%', 'l', 'x'] [.long 0 1] = .stop ['a'] :=
  C86_bad_long [.lit 'a'] (by intro p hp; simp at hp; subst hp; show 'a' ≠ '%'; decide) false [] ['x'] 0 1 [] (by simp) (by decide) (by simp)

/-! `a%05d%-3s%%%ld` of -12, "b" and the long 2^32 + 1. -/

def demoPieces : List Piece :=
  [.lit 'a', .conv false ['0', '5'] (.dec (-12)), .conv true ['3'] (.str ['b']), .conv false [] .percent, .conv false [] (.long 1 1)]

theorem demoPieces_ok : ∀ p ∈ demoPieces, p.Ok := by
  intro p hp
  simp only [demoPieces, List.mem_cons, List.not_mem_nil, or_false] at hp
  rcases hp with rfl | rfl | rfl | rfl | rfl
  · show 'a' ≠ '%'; decide
  · exact ⟨by decide, by decide, by decide, by decide⟩
  · exact ⟨by decide, by decide, trivial⟩
  · exact ⟨by decide, by decide, trivial⟩
  · exact ⟨by decide, by decide, rfl⟩

example : print "a%05d%-3s%%%ld".toList [.int (-12), .str ['b'], .long 1 1] = .done "a00-12b  %4294967297".toList := by
  have h := C86_partial demoPieces demoPieces_ok []
  have e : demoPieces.flatMap Piece.prints = "a00-12b  %4294967297".toList := by decide +kernel
  rw [e] at h
  exact h

example : print "a%05d%-3s%%%ld%7".toList [.int (-12), .str ['b'], .long 1 1] = .stop "a00-12b  %4294967297".toList := by
  have h := C86_bad demoPieces demoPieces_ok false ['7'] [] [] (by decide) (by decide) (fun c hc => by simp at hc)
  have e : demoPieces.flatMap Piece.prints = "a00-12b  %4294967297".toList := by decide +kernel
  rw [e] at h
  exact h

end Cmm.CLib
