import Verif.Lex.Scan

/-! Every lexeme is read as its token, and every token read is a lexeme. -/
namespace Cmm.Lex

/-! Strings -/

/-- There is room for a part at position `p`. -/
def Room (p : Nat) : Item → Prop
  | .plain _ => p ≤ 128
  | .esc _ => p + 1 ≤ 128
  | .hex _ => p + 4 < 128
  | .oct _ => p + 4 < 128

theorem fits_le {p : Nat} {is : List Item} (h : Fits p is) : p ≤ 128 := by
  induction is generalizing p with
  | nil => exact h
  | cons i is ih =>
    cases i with
    | plain c => have := ih (show Fits (p + 1) is from h); omega
    | esc c => have := ih (show Fits (p + 2) is from h); omega
    | hex c => have h : p + 4 < 128 ∧ _ := h; omega
    | oct c => have h : p + 4 < 128 ∧ _ := h; omega

theorem fits_cons {p : Nat} {i : Item} {is : List Item} :
    Fits p (i :: is) ↔ Room p i ∧ Fits (p + i.norm.text.length) is := by
  cases i with
  | plain c =>
    show Fits (p + 1) is ↔ p ≤ 128 ∧ Fits (p + 1) is
    exact ⟨fun h => ⟨by have := fits_le h; omega, h⟩, fun h => h.2⟩
  | esc c =>
    show Fits (p + 2) is ↔ p + 1 ≤ 128 ∧ Fits (p + 2) is
    exact ⟨fun h => ⟨by have := fits_le h; omega, h⟩, fun h => h.2⟩
  | hex c => exact Iff.rfl
  | oct c => exact Iff.rfl

theorem room_le {p : Nat} {i : Item} (h : Room p i) : p ≤ 128 := by
  cases i with
  | plain c => exact h
  | esc c => have h : p + 1 ≤ 128 := h; omega
  | hex c => have h : p + 4 < 128 := h; omega
  | oct c => have h : p + 4 < 128 := h; omega

theorem iscntrl_iff {c : Nat} : iscntrl c = true ↔ c < 32 ∨ c = 127 := by simp [iscntrl]

theorem strItem_run (buf : List Nat) (i : Item) (r : List Nat) (hi : i.Ok r) (hroom : Room buf.length i) :
    ∃ c l, i.text ++ r = c :: l ∧ c ≠ 34 ∧ strItem buf c l = .ok (buf ++ i.norm.text, r) := by
  cases i with
  | plain c =>
    obtain ⟨h1, h2, h3, h4⟩ := hi
    refine ⟨c, r, rfl, h3, ?_⟩
    have hc : ¬ iscntrl c = true := by rw [iscntrl_iff]; omega
    rw [strItem, if_neg hc, if_pos h4, put, if_pos (show buf.length ≤ 128 from hroom)]
    rfl
  | hex ds =>
    obtain ⟨h1, h2, h3, h4⟩ := hi
    refine ⟨92, 120 :: (ds ++ r), rfl, by decide, ?_⟩
    rw [strItem, if_neg (by decide), if_neg (by decide), strEsc, if_pos rfl,
      getHexStr_run ds r h1 h2 h4 h3]
    show (do let b ← putOctStr (numVal 16 ds) buf; Except.ok (b, r)) = _
    rw [putOctStr, if_neg (by have h : buf.length + 4 < 128 := hroom; show ¬ _ ≥ 128; omega)]
    rfl
  | oct ds =>
    obtain ⟨h1, h2, h3, h4, h5⟩ := hi
    cases ds with
    | nil => exact absurd rfl h1
    | cons d ds =>
      refine ⟨92, d :: (ds ++ r), rfl, by decide, ?_⟩
      have hd := h3 d (by simp)
      have hd' : d ≠ 120 := by have := hd.2; omega
      rw [strItem, if_neg (by decide), if_neg (by decide), strEsc, if_neg hd', if_pos (isOdigit_iff.2 hd),
        octStr_run 0 0 d ds r hd (fun c hc => h3 c (by simp [hc])) (by simp at h2; omega)
          (by rcases h5 with h5 | h5
              · exact .inl (by simp at h5; omega)
              · exact .inr h5) (by simpa using h4)]
      rw [Nat.zero_mul, Nat.zero_add]
      show (do let b ← putOctStr (numVal 8 (d :: ds)) buf; Except.ok (b, r)) = _
      rw [putOctStr, if_neg (by have h : buf.length + 4 < 128 := hroom; show ¬ _ ≥ 128; omega)]
      rfl
  | esc c =>
    obtain ⟨h1, h2⟩ := hi
    have hr : buf.length + 1 ≤ 128 := hroom
    refine ⟨92, c :: r, rfl, by decide, ?_⟩
    rw [strItem, if_neg (by decide), if_neg (by decide), strEsc, if_neg h1,
      if_neg (fun h => h2 (isOdigit_iff.1 h)), put, if_pos (show buf.length ≤ 128 by omega)]
    show (do let b ← put (buf ++ [92]) c; Except.ok (b, r)) = _
    have hp : put (buf ++ [92]) c = .ok (buf ++ [92, c]) := by
      have : (buf ++ [92]).length ≤ StrMAX := by simpa [StrMAX] using hr
      simp only [put, if_pos this, List.append_assoc, List.cons_append, List.nil_append]
    rw [hp]
    rfl

theorem strItem_split {buf : List Nat} {c : Nat} {l b r : List Nat} (h34 : c ≠ 34)
    (h : strItem buf c l = .ok (b, r)) :
    ∃ i : Item, c :: l = i.text ++ r ∧ i.Ok r ∧ Room buf.length i ∧ b = buf ++ i.norm.text := by
  unfold strItem at h
  split at h
  · cases h
  · rename_i hc
    rw [iscntrl_iff] at hc
    split at h
    · rename_i h92
      simp only [bind_ok] at h
      obtain ⟨b', h1, h2⟩ := h
      cases h2
      unfold put at h1
      split at h1
      · rename_i hl
        cases h1
        exact ⟨.plain c, rfl, ⟨by omega, by omega, h34, h92⟩, hl, rfl⟩
      · cases h1
    · rename_i h92
      simp only [ne_eq, Decidable.not_not] at h92
      subst h92
      cases l with
      | nil =>
        simp only [strEsc, bind_ok] at h
        obtain ⟨_, _, _, _, h⟩ := h
        cases h
      | cons d l =>
        simp only [strEsc] at h
        split at h
        · rename_i hd
          subst hd
          simp only [bind_ok] at h
          obtain ⟨⟨x, r'⟩, h1, b', h2, h3⟩ := h
          cases h3
          obtain ⟨ds, e1, e2, e3, e4, e5, e6⟩ := getHexStr_split h1
          unfold putOctStr at h2
          split at h2
          · cases h2
          · rename_i hl
            cases h2
            refine ⟨.hex ds, by rw [e1]; rfl, ⟨e2, e3, by omega, e4⟩, ?_, by rw [e5]; rfl⟩
            show buf.length + 4 < 128
            simp only [StrMAX] at hl
            omega
        · rename_i hd
          split at h
          · rename_i ho
            simp only [bind_ok] at h
            obtain ⟨⟨x, r'⟩, h1, b', h2, h3⟩ := h
            cases h3
            have ho := isOdigit_iff.1 ho
            obtain ⟨ds, e1, e2, e3, e4, e5, e6⟩ := octStr_split ho (by omega) h1
            rw [Nat.zero_mul, Nat.zero_add] at e5
            unfold putOctStr at h2
            split at h2
            · cases h2
            · rename_i hl
              cases h2
              refine ⟨.oct (d :: ds), by rw [e1]; rfl, ⟨by simp, by simp; omega, ?_, by omega, ?_⟩, ?_,
                by rw [e5]; rfl⟩
              · intro c hc
                rcases List.mem_cons.1 hc with rfl | hc
                · exact ho
                · exact e2 c hc
              · rcases e4 with e4 | e4
                · exact .inl (by simp; omega)
                · exact .inr e4
              · show buf.length + 4 < 128
                simp only [StrMAX] at hl
                omega
          · rename_i ho
            simp only [bind_ok] at h
            obtain ⟨b', h1, b'', h2, h3⟩ := h
            cases h3
            unfold put at h1 h2
            split at h1
            · cases h1
              split at h2
              · rename_i hl
                cases h2
                refine ⟨.esc d, rfl, ⟨hd, fun h => ho (isOdigit_iff.2 h)⟩, ?_, by simp [Item.norm, Item.text]⟩
                simpa [Room, StrMAX] using hl
              · cases h2
            · cases h1

theorem Item.Ok.head {i : Item} {r r' : List Nat} (e : r.head? = r'.head?) (h : i.Ok r) : i.Ok r' := by
  cases i with
  | plain c => exact h
  | esc c => exact h
  | hex ds => exact ⟨h.1, h.2.1, h.2.2.1, by rw [← e]; exact h.2.2.2⟩
  | oct ds => exact ⟨h.1, h.2.1, h.2.2.1, h.2.2.2.1, by rw [← e]; exact h.2.2.2.2⟩

theorem BodyOk.head {is : List Item} {r r' : List Nat} (e : r.head? = r'.head?) (h : BodyOk r is) :
    BodyOk r' is := by
  induction is with
  | nil => trivial
  | cons i is ih =>
    refine ⟨h.1.head ?_, ih h.2⟩
    rw [List.head?_append, List.head?_append, e]

theorem textOf_cons (i : Item) (is : List Item) : textOf (i :: is) = i.text ++ textOf is := rfl
theorem stored_cons (i : Item) (is : List Item) : stored (i :: is) = i.norm.text ++ stored is := rfl

theorem strLoop_run (buf : List Nat) (cnt : Nat) (is : List Item) (r : List Nat)
    (hb : BodyOk (34 :: r) is) (hf : Fits buf.length is) :
    strLoop buf cnt (textOf is ++ 34 :: r) = .ok (cnt + is.length, buf ++ stored is, r) := by
  induction is generalizing buf cnt with
  | nil =>
    show strLoop buf cnt (34 :: r) = _
    rw [strLoop, if_pos rfl, finish, if_pos (show buf.length ≤ 128 from hf)]
    simp [stored, textOf]
  | cons i is ih =>
    obtain ⟨h1, h2⟩ := fits_cons.1 hf
    obtain ⟨c, l, e, hc, hs⟩ := strItem_run buf i (textOf is ++ 34 :: r) hb.1 h1
    rw [textOf_cons, List.append_assoc, e, strLoop, if_neg hc, if_pos (room_le h1)]
    have := ih (buf ++ i.norm.text) (cnt + 1) hb.2 (by rw [List.length_append]; exact h2)
    split
    · rename_i b' r' h
      rw [hs] at h
      cases h
      rw [this, stored_cons]
      simp only [List.length_cons, List.append_assoc]
      congr 2
      omega
    · rename_i e' h
      rw [hs] at h
      cases h

theorem strLoop_split {buf : List Nat} {cnt : Nat} {l : List Nat} {n : Nat} {b r : List Nat}
    (h : strLoop buf cnt l = .ok (n, b, r)) :
    ∃ is, l = textOf is ++ 34 :: r ∧ BodyOk (34 :: r) is ∧ Fits buf.length is ∧
      n = cnt + is.length ∧ b = buf ++ stored is := by
  induction hn : l.length using Nat.strong_induction_on generalizing l buf cnt with
  | _ k ih =>
    subst hn
    cases l with
    | nil => rw [strLoop] at h; cases h
    | cons c l =>
      rw [strLoop] at h
      split at h
      · rename_i hc
        subst hc
        split at h
        · rename_i b' hf
          cases h
          unfold finish at hf
          split at hf
          · rename_i hl
            cases hf
            exact ⟨[], rfl, trivial, hl, rfl, by simp [stored, textOf]⟩
          · cases hf
        · cases h
      · rename_i hc
        split at h
        · split at h
          · rename_i buf' r' hs
            have hlen := strItem_len hs
            obtain ⟨i, e1, e2, e3, e4⟩ := strItem_split hc hs
            obtain ⟨is, g1, g2, g3, g4, g5⟩ := ih r'.length (by simp; omega) h rfl
            refine ⟨i :: is, ?_, ⟨?_, g2⟩, ?_, ?_, ?_⟩
            · rw [e1, g1, textOf_cons, List.append_assoc]
            · rw [← g1]; exact e2
            · refine fits_cons.2 ⟨e3, ?_⟩
              rw [e4, List.length_append] at g3
              exact g3
            · rw [g4]; simp; omega
            · rw [g5, e4, stored_cons, List.append_assoc]
          · cases h
        · cases h

/-! Characters -/

theorem isprint_iff {c : Nat} : isprint c = true ↔ 32 ≤ c ∧ c ≤ 126 := by simp [isprint]

theorem chrVal_run {b : List Nat} {v : Nat} (r : List Nat) (h : ChrBody b v) :
    chrVal (b ++ 39 :: r) = .ok (v, 39 :: r) := by
  cases h with
  | plain h =>
    show chrVal (v :: 39 :: r) = _
    unfold chrVal
    split
    · rename_i e
      exact absurd (List.cons.inj e).1 h
    · rename_i e
      cases e
      rfl
    · rename_i e
      cases e
  | @hex x ds hx hi =>
    obtain ⟨h1, h2, h3, h4⟩ := hi
    show getEsc (x :: (ds ++ 39 :: r)) = _
    rw [getEsc, if_neg (by omega), if_neg (by omega), if_neg (by omega), if_pos hx]
    exact getHexStr_run ds (39 :: r) h1 h2 (fun c hc => h4 c (by simpa using hc)) h3
  | @oct ds hi =>
    obtain ⟨h1, h2, h3, h4, h5⟩ := hi
    cases ds with
    | nil => exact absurd rfl h1
    | cons d ds =>
      have hd := h3 d (by simp)
      have hd1 := hd.1
      have hd2 := hd.2
      show getEsc (d :: (ds ++ 39 :: r)) = _
      rw [getEsc, if_neg (by omega), if_neg (by omega), if_neg (by omega), if_neg (by omega),
        if_pos (isOdigit_iff.2 hd),
        octStr_run 0 0 d ds (39 :: r) hd (fun c hc => h3 c (by simp [hc])) (by simp at h2; omega)
          (.inr (by simp [OctDigit])) (by simpa using h4)]
      rw [Nat.zero_mul, Nat.zero_add]
  | @esc c h1 h2 h3 h4 h5 =>
    show getEsc (c :: 39 :: r) = _
    rw [getEsc, if_neg (c := c = 120 ∨ c = 88) (by omega), if_neg (fun h => h5 (isOdigit_iff.1 h)),
      if_pos (isprint_iff.2 ⟨h1, h2⟩)]
    simp only [Item.byte]
    split_ifs <;> first | rfl | omega

theorem chrVal_split {l : List Nat} {v : Nat} {r : List Nat} (h : chrVal l = .ok (v, 39 :: r)) :
    ∃ b, l = b ++ 39 :: r ∧ ChrBody b v := by
  unfold chrVal at h
  split at h
  · rename_i l
    cases l with
    | nil => simp [getEsc] at h
    | cons c l =>
      rw [getEsc] at h
      split at h
      · rename_i hc
        cases h
        subst hc
        exact ⟨[92, 110], rfl, .esc (c := 110) (by omega) (by omega) (by omega) (by omega) (by decide)⟩
      · split at h
        · rename_i hc
          cases h
          subst hc
          exact ⟨[92, 116], rfl, .esc (c := 116) (by omega) (by omega) (by omega) (by omega) (by decide)⟩
        · split at h
          · rename_i hc
            cases h
            subst hc
            exact ⟨[92, 114], rfl, .esc (c := 114) (by omega) (by omega) (by omega) (by omega) (by decide)⟩
          · split at h
            · rename_i hx
              obtain ⟨ds, e1, e2, e3, e4, e5, e6⟩ := getHexStr_split h
              subst e5
              exact ⟨92 :: c :: ds, by rw [e1]; rfl, .hex hx ⟨e2, e3, e6, fun c hc => e4 c (by simpa using hc)⟩⟩
            · split at h
              · rename_i ho
                have ho := isOdigit_iff.1 ho
                obtain ⟨ds, e1, e2, e3, e4, e5, e6⟩ := octStr_split ho (by omega) h
                rw [Nat.zero_mul, Nat.zero_add] at e5
                subst e5
                refine ⟨92 :: c :: ds, by rw [e1]; rfl, .oct ⟨by simp, by simp; omega, ?_, e6, ?_⟩⟩
                · intro d hd
                  rcases List.mem_cons.1 hd with rfl | hd
                  · exact ho
                  · exact e2 d hd
                · exact .inr (by simp [OctDigit])
              · split at h
                · rename_i g1 g2 g3 g4 g5 g6
                  obtain ⟨rfl, rfl⟩ : c = v ∧ l = 39 :: r := by simpa using h
                  have g6 := isprint_iff.1 g6
                  refine ⟨[92, c], rfl, ?_⟩
                  have e : (Item.esc c).byte = c := by
                    simp [Item.byte, g1, g2, g3]
                  have := ChrBody.esc (c := c) g6.1 g6.2 (fun e => g4 (.inl e)) (fun e => g4 (.inr e))
                    (fun e => g5 (isOdigit_iff.2 e))
                  rwa [e] at this
                · cases h
  · rename_i c l hx
    cases h
    refine ⟨[v], rfl, .plain ?_⟩
    rintro rfl
    exact hx rfl
  · cases h

end Cmm.Lex
