import Verif.Lex.Run

/-
C31 String and character literals keep their bytes.

A string literal is a sequence of parts (`Item`, `BodyOk` in Verif/Lex/Spec.lean, after the table of the manual,
doc/chap3.tex:134-147): characters, `\x` with hexadecimal digits, `\` with one to three octal digits,
and `\` with another character. `Denotes t bs`: the text `t` between quotes denotes the bytes `bs`
by these rules. The text which the lexer stores denotes the same bytes; it has no `\x`, and its
octal escapes have three digits, so that it means the same for every reader of three-digit octal
escapes. `\` with a letter other than n, r, t, x keeps its meaning of the manual only if the
reader of the output has the same rule: a C compiler (cmmc with the C translator) reads `\a` as 7.
-/
namespace Cmm.Lex

/-- The text between the quotes denotes these bytes. -/
def Denotes (t bs : List Nat) : Prop := ∃ is, t = textOf is ∧ BodyOk [34] is ∧ bs = is.map Item.byte

theorem numVal_oct3 {v : Nat} (h : v ≤ 255) : numVal 8 (oct3 v) = v := by
  simp only [oct3, numVal_cons, numVal_nil, digitVal, List.length_cons, List.length_nil]
  rw [if_pos (by omega), if_pos (by omega), if_pos (by omega)]
  omega

theorem oct3_digit (v : Nat) : ∀ d ∈ oct3 v, OctDigit d := by
  intro d hd
  simp only [oct3, List.mem_cons, List.not_mem_nil, or_false] at hd
  simp only [OctDigit]
  omega

theorem norm_ok {i : Item} {r : List Nat} (h : i.Ok r) (r' : List Nat) :
    i.norm.Ok r' ∧ i.norm.byte = i.byte := by
  cases i with
  | plain c => exact ⟨h, rfl⟩
  | esc c => exact ⟨h, rfl⟩
  | hex ds =>
    have := numVal_oct3 h.2.2.1
    exact ⟨⟨by simp [oct3], by simp [oct3], oct3_digit _, by rw [this]; exact h.2.2.1, .inl rfl⟩, this⟩
  | oct ds =>
    have := numVal_oct3 h.2.2.2.1
    exact ⟨⟨by simp [oct3], by simp [oct3], oct3_digit _, by rw [this]; exact h.2.2.2.1, .inl rfl⟩, this⟩

/-- The stored text is well-formed before any text. -/
theorem stored_ok {is : List Item} {r : List Nat} (h : BodyOk r is) (r' : List Nat) :
    BodyOk r' (is.map Item.norm) ∧ (is.map Item.norm).map Item.byte = is.map Item.byte := by
  induction is with
  | nil => exact ⟨trivial, rfl⟩
  | cons i is ih =>
    obtain ⟨h1, h2⟩ := ih h.2
    obtain ⟨h3, h4⟩ := norm_ok h.1 (textOf (is.map Item.norm) ++ r')
    exact ⟨⟨h3, h1⟩, by simp only [List.map_cons, h4, h2]⟩

/-- Only three-digit octal escapes are left. -/
def Normal : Item → Prop
  | .hex _ => False
  | .oct ds => ds.length = 3
  | _ => True

theorem item_text_inj {i j : Item} {r : List Nat} (hi : i.Ok r) (hj : j.Ok r) (h : i.text = j.text) : i = j := by
  cases i with
  | plain c =>
    cases j with
    | plain d => simp [Item.text] at h; rw [h]
    | hex d => simp [Item.text] at h
    | oct d => simp [Item.text] at h; exact absurd h.1 hi.2.2.2
    | esc d => simp [Item.text] at h
  | hex c =>
    cases j with
    | plain d => simp [Item.text] at h
    | hex d => simp [Item.text] at h; rw [h]
    | oct d =>
      simp [Item.text] at h
      have := (hj.2.2.1 120 (by rw [← h]; simp)).2
      omega
    | esc d => simp [Item.text] at h; exact absurd h.1.symm hj.1
  | oct c =>
    cases j with
    | plain d => simp [Item.text] at h; exact absurd h.1.symm hj.2.2.2
    | hex d =>
      simp [Item.text] at h
      have := (hi.2.2.1 120 (by rw [h]; simp)).2
      omega
    | oct d => simp [Item.text] at h; rw [h]
    | esc d =>
      simp [Item.text] at h
      exact absurd (hi.2.2.1 d (by rw [h]; simp)) hj.2
  | esc c =>
    cases j with
    | plain d => simp [Item.text] at h
    | hex d => simp [Item.text] at h; exact absurd h.1 hi.1
    | oct d =>
      simp [Item.text] at h
      exact absurd (hj.2.2.1 c (by rw [← h]; simp)) hi.2
    | esc d => simp [Item.text] at h; rw [h]

theorem item_text_ne {i : Item} {r : List Nat} (h : i.Ok r) : ∃ c l, i.text = c :: l ∧ c ≠ 34 := by
  cases i with
  | plain c => exact ⟨c, [], rfl, h.2.2.1⟩
  | hex c => exact ⟨92, _, rfl, by decide⟩
  | oct c => exact ⟨92, _, rfl, by decide⟩
  | esc c => exact ⟨92, _, rfl, by decide⟩

/-- The parts of a text are determined by it. -/
theorem parts_unique {is js : List Item} {r r' : List Nat} (hi : BodyOk (34 :: r) is) (hj : BodyOk (34 :: r') js)
    (h : textOf is ++ 34 :: r = textOf js ++ 34 :: r') : is = js ∧ r = r' := by
  induction is generalizing js with
  | nil =>
    cases js with
    | nil => exact ⟨rfl, by simpa [textOf] using h⟩
    | cons j js =>
      obtain ⟨c, l, e, hc⟩ := item_text_ne hj.1
      rw [textOf_cons, e] at h
      have h : 34 :: r = c :: _ := h
      exact absurd (List.cons.inj h).1.symm hc
  | cons i is ih =>
    cases js with
    | nil =>
      obtain ⟨c, l, e, hc⟩ := item_text_ne hi.1
      rw [textOf_cons, e] at h
      have h : c :: _ = 34 :: r' := h
      exact absurd (List.cons.inj h).1 hc
    | cons j js =>
      have room : ∀ k : Item, Room ([] : List Nat).length k := by
        intro k
        cases k <;> simp [Room]
      obtain ⟨c, l, e1, _, h1⟩ := strItem_run [] i _ hi.1 (room i)
      obtain ⟨c', l', e2, _, h2⟩ := strItem_run [] j _ hj.1 (room j)
      rw [textOf_cons, textOf_cons, List.append_assoc, List.append_assoc] at h
      rw [h, e2] at e1
      obtain ⟨rfl, rfl⟩ := List.cons.inj e1
      rw [h1] at h2
      have hr := (Prod.mk.inj (Except.ok.inj h2)).2
      rw [hr] at h
      have ht := List.append_cancel_right h
      have hok := hi.1
      rw [hr] at hok
      have := item_text_inj hok hj.1 ht
      subst this
      obtain ⟨h3, h4⟩ := ih hi.2 hj.2 hr
      exact ⟨by rw [h3], h4⟩

/-- A text denotes at most one byte sequence. -/
theorem denotes_unique {t bs bs' : List Nat} (h : Denotes t bs) (h' : Denotes t bs') : bs = bs' := by
  obtain ⟨is, e1, h1, rfl⟩ := h
  obtain ⟨js, e2, h2, rfl⟩ := h'
  have := (parts_unique (r := []) (r' := []) h1 h2 (by rw [← e1, ← e2])).1
  rw [this]

/-- Strings: the literal is read to its closing quote; the recorded length is the number of bytes and one; the stored
text denotes the same bytes, also if further characters follow it, and has no escapes but `\c` and
three-digit octal ones. -/
theorem C31_string (s : LS) (is : List Item) (r : List Nat) (hi : s.inp = 34 :: (textOf is ++ 34 :: r))
    (hok : BodyOk [34] is) (hfit : Fits 0 is) :
    ∃ t, lxGetTok s = .ok (203, ⟨r, (is.map Item.byte).length + 1, t⟩) ∧ Denotes t (is.map Item.byte) ∧
      ∃ js, t = textOf js ∧ (∀ r', BodyOk r' js) ∧ (∀ j ∈ js, Normal j) ∧ js.map Item.byte = is.map Item.byte := by
  have h := lxGetTok_run s (g := []) (p := 34 :: (textOf is ++ [34])) (r := r) (by rw [hi]; simp) .nil
    (.str hok hfit) (sep_quote (.inl rfl)) (by simp)
  have hst := fun r' => (stored_ok hok r').1
  have hby := (stored_ok hok []).2
  refine ⟨stored is, ?_, ⟨is.map Item.norm, rfl, hst _, hby.symm⟩, is.map Item.norm, rfl, hst, ?_, hby⟩
  · rw [h]
    simp [result, Tk.out]
  · intro j hj
    obtain ⟨i, _, rfl⟩ := List.mem_map.1 hj
    cases i <;> simp [Item.norm, Normal, oct3]

/-- Conversely, every string token which is accepted is such a literal. -/
theorem C31_accepted (s : LS) (q : List Nat) (c : Int) (s' : LS) (hi : s.inp = 34 :: q)
    (h : lxGetTok s = .ok (c, s')) :
    ∃ is, s.inp = 34 :: (textOf is ++ 34 :: s'.inp) ∧ BodyOk [34] is ∧ Fits 0 is ∧ c = 203 := by
  have hst : Stop (34 :: q) := .inr ⟨by simp [Blank], by simp⟩
  rw [lxGetTok, hi, first_eq (by simp), skipSpace_stop hst] at h
  have h : getTok1 s (34 :: q) = .ok (c, s') := h
  rw [getTok1, if_neg (by simp), if_neg (by decide), if_neg (by decide), if_pos rfl] at h
  simp only [bind_ok] at h
  obtain ⟨⟨n, b, r⟩, h1, h2⟩ := h
  cases h2
  obtain ⟨is, e1, e2, e3, _, _⟩ := strLoop_split h1
  exact ⟨is, by rw [hi, e1], BodyOk.head (r := 34 :: r) (r' := [34]) rfl e2, e3, rfl⟩

/-- Characters: the value is the byte denoted. `ChrBody` (Verif/Lex/Spec.lean) is the same table. -/
theorem C31_char (s : LS) (b : List Nat) (v : Nat) (r : List Nat) (hi : s.inp = 39 :: (b ++ 39 :: r))
    (hb : ChrBody b v) : lxGetTok s = .ok (204, ⟨r, v, s.str⟩) := by
  have h := lxGetTok_run s (g := []) (p := 39 :: (b ++ [39])) (r := r) (by rw [hi]; simp) .nil
    (.chr hb) (sep_quote (.inr rfl)) (by simp)
  rw [h]
  rfl

/-! `"\x419\7a\q"` denotes A, 9, 7, a, q if the hexadecimal escape ends before the 9; written
`"\x41" ` it is followed by `g` here: `\x41g\7a\n`. -/

example : lxGetTok ⟨bytes "\"\\x41g\\7a\\n\";", 0, []⟩ = .ok (203, ⟨bytes ";", 6, bytes "\\101g\\007a\\n"⟩) := by
  decide +kernel

example : ∃ t, lxGetTok ⟨bytes "\"\\x41g\\7a\\n\";", 0, []⟩ = .ok (203, ⟨bytes ";", 6, t⟩) ∧
    Denotes t [65, 103, 7, 97, 10] := by
  obtain ⟨t, h1, h2, _⟩ := C31_string ⟨bytes "\"\\x41g\\7a\\n\";", 0, []⟩
    [.hex [52, 49], .plain 103, .oct [55], .plain 97, .esc 110] (bytes ";") (by decide +kernel)
    ⟨⟨by simp, by decide, by decide +kernel, by simp [textOf, Item.text, HexDigit, Digit]⟩, ⟨by decide, by decide, by decide, by decide⟩,
      ⟨by simp, by simp, by decide, by decide +kernel, .inr (by simp [textOf, Item.text, OctDigit])⟩,
      ⟨by decide, by decide, by decide, by decide⟩, ⟨by decide, by decide⟩, trivial⟩
    ⟨by decide, by decide, by show _ ≤ _; decide⟩
  have e : [Item.hex [52, 49], .plain 103, .oct [55], .plain 97, .esc 110].map Item.byte = [65, 103, 7, 97, 10] := by
    decide +kernel
  rw [e] at h1 h2
  exact ⟨t, h1, h2⟩

example : lxGetTok ⟨bytes "'\\x41'", 0, []⟩ = .ok (204, ⟨[], 65, []⟩) :=
  C31_char _ (bytes "\\x41") 65 [] (by decide +kernel)
    (by
      have := ChrBody.hex (x := 120) (ds := [52, 49]) (.inl rfl)
        ⟨by simp, by decide, by decide +kernel, by simp [HexDigit, Digit]⟩
      have e1 : bytes "\\x41" = [92, 120, 52, 49] := by decide +kernel
      have e2 : numVal 16 [52, 49] = 65 := by decide +kernel
      rw [e2] at this
      rw [e1]
      exact this)

end Cmm.Lex
