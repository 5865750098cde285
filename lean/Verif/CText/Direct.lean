import Verif.CText.UnitText

/-
The directives `# line "file"` in the C translator (genDirect, inhibitOut and psGetSrc with _C), for Verif/Props/C79.lean.
-/
namespace Cmm.CText

/-! ### Functions on strings -/

/-- strncmp of strstr: `n` is the beginning of `s`. -/
def begins : Text → Text → Bool
  | _, [] => true
  | [], _ :: _ => false
  | c :: s, d :: n => c == d && begins s n

/-- strstr of the C library, `!= null` (cCode.c:655). -/
def strstr : Text → Text → Bool
  | [], n => begins [] n
  | c :: s, n => begins (c :: s) n || strstr s n

/-- util.c:109-111 The loop of strEndsWith: the last `i` characters have been compared, `k` are left. -/
def endLoop (str suffix : Text) (i : Nat) : Nat → Bool
  | 0 => true
  | k + 1 =>
    if str[str.length - (i + 1)]? != suffix[suffix.length - (i + 1)]? then false else endLoop str suffix (i + 1) k

/-- util.c:105-113 strEndsWith. -/
def strEndsWith (str suffix : Text) : Bool :=
  if str.length < suffix.length then false else endLoop str suffix 0 suffix.length

/-- strrchr(s, c)+1 of the C library (cCode.c:659): the text behind the last `c`; `none` where strrchr returns null. -/
def strrchr1 : Text → Char → Option Text
  | [], _ => none
  | d :: s, c =>
    match strrchr1 s c with
    | some r => some r
    | none => if d = c then some s else none

/-! ### The directives -/

/-- cCode.c:652 -/
def CMMINC : Text := t!"/cmmInclude/"

/-- cCode.c:654-668 genDirect: what is printed and the new inhibitOut (48). `none` is the use of a null pointer. -/
def genDirect (ln : Nat) (fname : Text) : Option (Text × Bool) :=
  if strstr fname CMMINC && strEndsWith fname t!".hmm" then
    if ln = 1 then
      match strrchr1 (fname.take (fname.length - 2)) '/' with
      | none => none
      | some b => some (t!"#include <" ++ b ++ t!">\n", true)
    else some ([], true)
  else some ([], false)

/-- What psGetSrc sees (parser.c:1269-1278): directives, and declarations that getProg reads. Inside of a declaration `tok` skips the directives
(parser.c:151-157), `ds` are these. Simplifications: a declaration is the one thing it prints (`Ext`; a declaration of several variables is
several of them), line numbers do not overflow. -/
inductive Item
  | dir (ln : Nat) (fname : Text)
  | prog (e : Ext) (ds : List (Nat × Text))

/-- parser.c:1267-1279 psGetSrc of the translator, with inhibitOut as `inh`. genStruc, genProto, genBss and genFunc print nothing if inhibitOut
(cCode.c:390, 397, 597, 635). -/
def psGetSrc (inh : Bool) : List Item → Option (Text × Bool)
  | [] => some ([], inh)
  | .dir ln f :: is =>
    match genDirect ln f with
    | none => none
    | some (t, inh) => (psGetSrc inh is).map fun r => (t ++ r.1, r.2)
  | .prog e _ :: is => (psGetSrc inh is).map fun r => ((if inh then [] else pext e) ++ r.1, r.2)

/-! ### Specification -/

/-- The contents of a file: declarations, and other files between them. `k + 1` is the line of an `#include`. The preprocessor may give
the number `k + 2` of a line anywhere behind line 1, also in declarations (`ks`). -/
inductive Parts
  | nil
  | decl (e : Ext) (ks : List Nat) (r : Parts)
  | mark (k : Nat) (r : Parts)
  | incl (k : Nat) (f : Text) (body r : Parts)

/-- What the preprocessor writes for the contents of the file `f`: a file begins with its line 1, behind it the line after the `#include` follows. -/
def cpp (f : Text) : Parts → List Item
  | .nil => []
  | .decl e ks r => .prog e (ks.map fun k => (k + 2, f)) :: cpp f r
  | .mark k r => .dir (k + 2) f :: cpp f r
  | .incl k g b r => .dir 1 g :: cpp g b ++ .dir (k + 2) f :: cpp f r

/-- Headers of the system: somewhere below a directory `cmmInclude`, with names that end with `.hmm`. -/
def SysHeader (f : Text) : Prop := (∃ a b, f = a ++ t!"/cmmInclude/" ++ b) ∧ ∃ a, f = a ++ t!".hmm"

/-- `f` is `x.hmm` in some directory. -/
def Base (f x : Text) : Prop := (∃ d, f = d ++ t!"/" ++ x ++ t!".hmm") ∧ '/' ∉ x

/-- The beginning of a file in C: the name of a header of the system, nothing of others. -/
inductive Opening : Text → Text → Prop
  | sys {f x} : SysHeader f → Base f x → Opening f (t!"#include <" ++ x ++ t!".h>\n")
  | own {f} : ¬ SysHeader f → Opening f []

/-- The contents of a file in C: the declarations of headers of the system are left out, all others are there, in their order. -/
inductive Contents : Text → Parts → Text → Prop
  | nil {f} : Contents f .nil []
  | sys {f e ks r t} : SysHeader f → Contents f r t → Contents f (.decl e ks r) t
  | own {f e ks r t} : ¬ SysHeader f → Contents f r t → Contents f (.decl e ks r) (pext e ++ t)
  | mark {f k r t} : Contents f r t → Contents f (.mark k r) t
  | incl {f k g b r o s t} : Opening g o → Contents g b s → Contents f r t → Contents f (.incl k g b r) (o ++ s ++ t)

/-! ### The functions on strings are right -/

theorem begins_iff {s n : Text} : begins s n = true ↔ ∃ b, s = n ++ b := by
  induction n generalizing s with
  | nil => cases s <;> simp [begins]
  | cons d n ih =>
    cases s with
    | nil => simp [begins]
    | cons c s =>
      simp only [begins, Bool.and_eq_true, beq_iff_eq, ih, List.cons_append, List.cons.injEq]
      constructor
      · rintro ⟨h, b, e⟩; exact ⟨b, h, e⟩
      · rintro ⟨b, h, e⟩; exact ⟨h, b, e⟩

theorem strstr_iff {s n : Text} : strstr s n = true ↔ ∃ a b, s = a ++ n ++ b := by
  induction s with
  | nil =>
    rw [strstr, begins_iff]
    constructor
    · rintro ⟨b, e⟩; exact ⟨[], b, e⟩
    · rintro ⟨a, b, e⟩
      have e := e.symm
      simp only [List.append_eq_nil_iff] at e
      exact ⟨[], by simp [e.1.2]⟩
  | cons c s ih =>
    rw [strstr, Bool.or_eq_true, begins_iff, ih]
    constructor
    · rintro (⟨b, e⟩ | ⟨a, b, e⟩)
      · exact ⟨[], b, e⟩
      · exact ⟨c :: a, b, by simp [e]⟩
    · rintro ⟨a, b, e⟩
      cases a with
      | nil => exact .inl ⟨b, e⟩
      | cons d a => exact .inr ⟨a, b, by simp only [List.cons_append, List.cons.injEq] at e; exact e.2⟩

theorem endLoop_iff {s n : Text} (h : n.length ≤ s.length) : ∀ k i, i + k = n.length →
    (endLoop s n i k = true ↔ ∀ j, i ≤ j → j < n.length → s[s.length - (j + 1)]? = n[n.length - (j + 1)]?) := by
  intro k
  induction k with
  | zero => intro i hi; simp only [endLoop, true_iff]; intro j h1 h2; omega
  | succ k ih =>
    intro i hi
    rw [endLoop]
    split
    · next hn =>
      simp only [bne_iff_ne, ne_eq] at hn
      constructor
      · nofun
      · intro hj; exact absurd (hj i (Nat.le_refl i) (by omega)) hn
    · next hn =>
      simp only [bne_iff_ne, ne_eq, not_not] at hn
      rw [ih (i + 1) (by omega)]
      constructor
      · intro hj j h1 h2
        by_cases hij : i = j
        · subst hij; exact hn
        · exact hj j (by omega) h2
      · intro hj j h1 h2; exact hj j (by omega) h2

theorem strEndsWith_iff {s n : Text} : strEndsWith s n = true ↔ ∃ a, s = a ++ n := by
  unfold strEndsWith
  split
  · next h =>
    constructor
    · nofun
    · rintro ⟨a, e⟩; subst e; simp at h
  · next h =>
    have h : n.length ≤ s.length := by omega
    rw [endLoop_iff h n.length 0 (by omega)]
    constructor
    · intro hj
      refine ⟨s.take (s.length - n.length), ?_⟩
      have : s.drop (s.length - n.length) = n := by
        apply List.ext_getElem?
        intro i
        rw [List.getElem?_drop]
        by_cases hi : i < n.length
        · have := hj (n.length - (i + 1)) (by omega) (by omega)
          have e1 : s.length - (n.length - (i + 1) + 1) = s.length - n.length + i := by omega
          have e2 : n.length - (n.length - (i + 1) + 1) = i := by omega
          rw [e1, e2] at this
          exact this
        · rw [List.getElem?_eq_none (by omega), List.getElem?_eq_none (by omega)]
      conv => lhs; rw [← List.take_append_drop (s.length - n.length) s, this]
    · rintro ⟨a, e⟩ j - hj
      subst e
      rw [List.getElem?_append_right (by simp; omega)]
      congr 1
      simp only [List.length_append]
      omega

theorem strrchr1_none {s : Text} {c : Char} (h : c ∉ s) : strrchr1 s c = none := by
  induction s with
  | nil => rfl
  | cons d s ih =>
    simp only [List.mem_cons, not_or] at h
    rw [strrchr1, ih h.2]
    simp [Ne.symm h.1]

theorem strrchr1_some {s b : Text} {c : Char} (h : c ∉ b) : strrchr1 (s ++ c :: b) c = some b := by
  induction s with
  | nil => simp [strrchr1, strrchr1_none h]
  | cons d s ih => simp [strrchr1, ih]

/-- The last `c`. -/
theorem last_split {s : Text} {c : Char} (h : c ∈ s) : ∃ a b, s = a ++ c :: b ∧ c ∉ b := by
  induction s with
  | nil => simp at h
  | cons d s ih =>
    by_cases hs : c ∈ s
    · obtain ⟨a, b, e, hb⟩ := ih hs
      exact ⟨d :: a, b, by simp [e], hb⟩
    · rcases List.mem_cons.mp h with rfl | h
      · exact ⟨[], s, rfl, hs⟩
      · exact absurd h hs

theorem SysHeader.base {f : Text} (h : SysHeader f) : ∃ x, Base f x := by
  obtain ⟨⟨a, b, e⟩, c, e'⟩ := h
  have hm : '/' ∈ c := by
    have : '/' ∈ f := by rw [e]; simp
    rw [e'] at this
    rcases List.mem_append.mp this with h | h
    · exact h
    · simp at h
  obtain ⟨d, x, ec, hx⟩ := last_split hm
  exact ⟨x, ⟨d, by rw [e', ec]; simp⟩, hx⟩

theorem sys_iff {f : Text} : (strstr f CMMINC && strEndsWith f t!".hmm") = true ↔ SysHeader f := by
  rw [Bool.and_eq_true, strstr_iff, strEndsWith_iff]; rfl

instance (f : Text) : Decidable (SysHeader f) := decidable_of_iff _ sys_iff

theorem genDirect_open {f o : Text} (h : Opening f o) : genDirect 1 f = some (o, decide (SysHeader f)) := by
  unfold genDirect
  cases h with
  | @sys x hs hb =>
    rw [if_pos (sys_iff.mpr hs), if_pos rfl]
    obtain ⟨⟨d, e⟩, hx⟩ := hb
    have e1 : f.take (f.length - 2) = d ++ '/' :: (x ++ t!".h") := by
      have : f = (d ++ '/' :: (x ++ t!".h")) ++ t!"mm" := by rw [e]; simp
      rw [this]
      exact List.take_left' (by simp only [List.length_append, List.length_cons, List.length_nil]; omega)
    rw [e1, strrchr1_some (by simp [hx])]
    simp [hs]
  | own hs => rw [if_neg (fun h => hs (sys_iff.mp h))]; simp [hs]

theorem genDirect_line {f : Text} (k : Nat) : genDirect (k + 2) f = some ([], decide (SysHeader f)) := by
  unfold genDirect
  by_cases hs : SysHeader f
  · rw [if_pos (sys_iff.mpr hs), if_neg (by omega)]; simp [hs]
  · rw [if_neg (fun h => hs (sys_iff.mp h))]; simp [hs]

theorem psGetSrc_append {i j : List Item} : ∀ {inh}, psGetSrc inh (i ++ j) =
    (psGetSrc inh i).bind fun r => (psGetSrc r.2 j).map fun q => (r.1 ++ q.1, q.2) := by
  induction i with
  | nil => intro inh; simp [psGetSrc]
  | cons x i ih =>
    intro inh
    cases x with
    | dir ln f =>
      simp only [List.cons_append, psGetSrc]
      cases genDirect ln f with
      | none => rfl
      | some r =>
        simp only [ih]
        cases psGetSrc r.2 i with
        | none => rfl
        | some q => cases h : psGetSrc q.2 j <;> simp [h]
    | prog e ds =>
      simp only [List.cons_append, psGetSrc, ih]
      cases psGetSrc inh i with
      | none => rfl
      | some q => cases h : psGetSrc q.2 j <;> simp [h]

end Cmm.CText
