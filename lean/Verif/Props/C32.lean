import Verif.Lex.Run

/-
C32 The lexer never writes outside its token buffer: false.

`Over k` describes exactly the texts for which a token beginning there writes behind the end of the
buffer of 129 bytes: a word of exactly 129 characters, a string literal whose stored text has exactly
129 characters, or has 128 characters before a backslash (which is not a numeric escape), and a
directive with a file name of 129 characters or more. `C32_false` gives witnesses, `C32_overflow`
shows that each such text overflows, and `C32_partial` that no other text does.
-/
namespace Cmm.Lex

/-- A word of 129 characters. -/
def LongWord (k : List Nat) : Prop :=
  ∃ c w r, k = c :: w ++ r ∧ w.length = 128 ∧ Letter c ∧ (∀ d ∈ w, WordChar d) ∧
    ∀ d, r.head? = some d → ¬ WordChar d

/-- Each part of a string literal has room at its position. -/
def Rooms (p : Nat) : List Item → Prop
  | [] => True
  | i :: is => Room p i ∧ Rooms (p + i.norm.text.length) is

/-- A string literal which reaches the end of the buffer. -/
def LongString (k : List Nat) : Prop :=
  ∃ is q, k = 34 :: (textOf is ++ q) ∧ BodyOk q is ∧ Rooms 0 is ∧
    (((stored is).length = 129 ∧ q.head? = some 34) ∨
     ((stored is).length = 128 ∧ ∃ z, q = 92 :: z ∧ ∀ c, z.head? = some c → c ≠ 120 ∧ ¬ OctDigit c))

/-- A directive with a long file name. -/
def LongFile (k : List Nat) : Prop :=
  ∃ a ds b w r, k = 10 :: 35 :: (a ++ ds ++ b ++ 34 :: (w ++ r)) ∧ (∀ c ∈ a, Blank c ∧ c ≠ 10) ∧
    (∀ c ∈ b, Blank c ∧ c ≠ 10) ∧ ds ≠ [] ∧ (∀ c ∈ ds, Digit c) ∧ 34 ∉ w ∧ 10 ∉ w ∧ w.length = 129

def Over (k : List Nat) : Prop := LongWord k ∨ LongString k ∨ LongFile k

/-! Which functions can overflow -/

theorem bind_oob {α β : Type} {x : Res α} {f : α → Res β} :
    (x >>= f) = .error .oob ↔ x = .error .oob ∨ ∃ a, x = .ok a ∧ f a = .error .oob := by
  cases x with
  | error e => simp [bind, Except.bind]
  | ok a => simp [bind, Except.bind]

theorem comLoop_oob (l : List Nat) : comLoop l ≠ .error .oob := by
  induction l with
  | nil => simp [comLoop]
  | cons c l ih =>
    cases l with
    | nil => simp [comLoop]
    | cons d l =>
      unfold comLoop
      split
      · simp
      · exact ih

theorem skipSpace_oob (l : List Nat) : skipSpace l ≠ .error .oob := by
  induction hn : l.length using Nat.strong_induction_on generalizing l with
  | _ n ih =>
    subst hn
    have hlen := skipSpc_len l
    rw [skipSpace_eq]
    generalize skipSpc l = k at hlen
    unfold skipStep
    split
    · rename_i q
      cases hc : comLoop q with
      | error e =>
        intro h
        simp only at h
        cases h
        exact comLoop_oob q hc
      | ok q' =>
        have hl := comLoop_len hc
        exact ih q'.length (by simp at hlen; omega) q' rfl
    · rename_i q
      have hl := skipToEol_len q
      exact ih _ (by simp at hlen; omega) _ rfl
    · rename_i q
      split
      · exact ih q.length (by simp at hlen; omega) q rfl
      · simp
    · simp

theorem hexStr_oob (v : Nat) (l : List Nat) : hexStr v l ≠ .error .oob := by
  induction l generalizing v with
  | nil => simp [hexStr]
  | cons c l ih =>
    unfold hexStr
    split
    · split
      · simp
      · exact ih _
    · simp

theorem getHexStr_oob (l : List Nat) : getHexStr l ≠ .error .oob := by
  unfold getHexStr
  split
  · split
    · exact hexStr_oob _ _
    · simp
  · simp

theorem octStr_oob (i v c : Nat) (l : List Nat) : octStr i v c l ≠ .error .oob := by
  induction l generalizing i v c with
  | nil =>
    unfold octStr
    split <;> simp
  | cons d l ih =>
    unfold octStr
    split
    · simp
    · split
      · simp
      · split
        · simp
        · exact ih _ _ _

theorem putOctStr_oob (v : Nat) (b : List Nat) : putOctStr v b ≠ .error .oob := by
  unfold putOctStr
  split <;> simp

theorem getEsc_oob (l : List Nat) : getEsc l ≠ .error .oob := by
  cases l with
  | nil => simp [getEsc]
  | cons c l =>
    rw [getEsc]
    split_ifs
    · simp
    · simp
    · simp
    · exact getHexStr_oob l
    · exact octStr_oob _ _ _ _
    · simp
    · simp

theorem put_oob {b : List Nat} {c : Nat} : put b c = .error .oob ↔ 128 < b.length := by
  unfold put
  split
  · simp_all [StrMAX]
  · simp_all [StrMAX]

theorem strItem_oob {buf : List Nat} {c : Nat} {l : List Nat} (hb : buf.length ≤ 128) :
    strItem buf c l = .error .oob ↔ c = 92 ∧ buf.length = 128 ∧ ∀ d, l.head? = some d → d ≠ 120 ∧ ¬ OctDigit d := by
  have hput : put buf 92 = .ok (buf ++ [92]) := if_pos hb
  unfold strItem
  split
  · rename_i hc
    rw [iscntrl_iff] at hc
    refine ⟨fun h => by simp at h, fun h => ?_⟩
    omega
  · split
    · rename_i h92
      refine ⟨fun h => ?_, fun h => absurd h.1 h92⟩
      rw [put, if_pos hb] at h
      cases h
    · rename_i h92
      simp only [ne_eq, Decidable.not_not] at h92
      cases l with
      | nil =>
        simp only [strEsc, hput]
        show (do let _ ← put (buf ++ [92]) 255; Except.error Fault.err : Res (List Nat × List Nat)) = .error .oob ↔ _
        rw [bind_oob]
        simp only [put_oob, List.length_append, List.length_cons, List.length_nil, List.head?_nil]
        refine ⟨fun h => ?_, fun h => .inl (by omega)⟩
        rcases h with h | ⟨_, _, h⟩
        · exact ⟨h92, by omega, by simp⟩
        · cases h
      | cons d l =>
        rw [strEsc]
        simp only [List.head?_cons, Option.some.injEq, forall_eq']
        split
        · rename_i hd
          refine ⟨fun h => ?_, fun h => absurd hd h.2.2.1⟩
          rcases bind_oob.1 h with h | ⟨⟨v, l'⟩, _, h⟩
          · exact absurd h (getHexStr_oob l)
          · rcases bind_oob.1 h with h | ⟨_, _, h⟩
            · exact absurd h (putOctStr_oob _ _)
            · cases h
        · rename_i hd
          split
          · rename_i ho
            refine ⟨fun h => ?_, fun h => absurd (isOdigit_iff.1 ho) h.2.2.2⟩
            rcases bind_oob.1 h with h | ⟨⟨v, l'⟩, _, h⟩
            · exact absurd h (octStr_oob _ _ _ _)
            · rcases bind_oob.1 h with h | ⟨_, _, h⟩
              · exact absurd h (putOctStr_oob _ _)
              · cases h
          · rename_i ho
            rw [hput]
            show (do let b ← put (buf ++ [92]) d; Except.ok (b, l) : Res (List Nat × List Nat)) = .error .oob ↔ _
            rw [bind_oob]
            simp only [put_oob, List.length_append, List.length_cons, List.length_nil]
            refine ⟨fun h => ?_, fun h => .inl (by omega)⟩
            rcases h with h | ⟨_, _, h⟩
            · exact ⟨h92, by omega, hd, fun h => ho (isOdigit_iff.2 h)⟩
            · cases h

theorem strLoop_parts (buf : List Nat) (cnt : Nat) (is : List Item) (q : List Nat) (hb : BodyOk q is)
    (hr : Rooms buf.length is) :
    strLoop buf cnt (textOf is ++ q) = strLoop (buf ++ stored is) (cnt + is.length) q := by
  induction is generalizing buf cnt with
  | nil => simp [textOf, stored]
  | cons i is ih =>
    obtain ⟨c, l, e, hc, hs⟩ := strItem_run buf i (textOf is ++ q) hb.1 hr.1
    rw [textOf_cons, List.append_assoc, e, strLoop, if_neg hc, if_pos (room_le hr.1)]
    have := ih (buf ++ i.norm.text) (cnt + 1) hb.2 (by rw [List.length_append]; exact hr.2)
    split
    · rename_i b' r' h
      rw [hs] at h
      cases h
      rw [this, stored_cons]
      simp only [List.length_cons, List.append_assoc]
      congr 1
      omega
    · rename_i e' h
      rw [hs] at h
      cases h

theorem room_lt {p : Nat} {i : Item} (h : Room p i) : p + i.norm.text.length ≤ 129 := by
  cases i with
  | plain c => have h : p ≤ 128 := h; show p + 1 ≤ 129; omega
  | esc c => have h : p + 1 ≤ 128 := h; show p + 2 ≤ 129; omega
  | hex c => have h : p + 4 < 128 := h; show p + 4 ≤ 129; omega
  | oct c => have h : p + 4 < 128 := h; show p + 4 ≤ 129; omega

theorem strLoop_oob {buf : List Nat} {cnt : Nat} {l : List Nat} (hl : buf.length ≤ 129)
    (h : strLoop buf cnt l = .error .oob) :
    ∃ is q, l = textOf is ++ q ∧ BodyOk q is ∧ Rooms buf.length is ∧
      ((buf.length + (stored is).length = 129 ∧ q.head? = some 34) ∨
       (buf.length + (stored is).length = 128 ∧ ∃ z, q = 92 :: z ∧
         ∀ c, z.head? = some c → c ≠ 120 ∧ ¬ OctDigit c)) := by
  induction hn : l.length using Nat.strong_induction_on generalizing l buf cnt with
  | _ k ih =>
    subst hn
    cases l with
    | nil => rw [strLoop] at h; cases h
    | cons c l =>
      rw [strLoop] at h
      split at h
      · rename_i hc
        subst hc
        split at h
        · cases h
        · rename_i e hf
          cases h
          unfold finish at hf
          split at hf
          · cases hf
          · rename_i hgt
            simp only [StrMAX] at hgt
            exact ⟨[], 34 :: l, rfl, trivial, trivial, .inl ⟨by simp [stored, textOf]; omega, rfl⟩⟩
      · rename_i hc
        split at h
        · rename_i hle
          split at h
          · rename_i buf' r' hs
            have hlen := strItem_len hs
            obtain ⟨i, e1, e2, e3, e4⟩ := strItem_split hc hs
            have hl' : buf'.length ≤ 129 := by
              rw [e4, List.length_append]
              exact room_lt e3
            obtain ⟨is, q, g1, g2, g3, g4⟩ := ih r'.length (by simp; omega) hl' h rfl
            refine ⟨i :: is, q, by rw [e1, g1, textOf_cons, List.append_assoc], ⟨?_, g2⟩, ⟨e3, ?_⟩, ?_⟩
            · rw [← g1]; exact e2
            · rw [e4, List.length_append] at g3
              exact g3
            · rw [e4, List.length_append] at g4
              rw [stored_cons, List.length_append]
              rcases g4 with ⟨g4, g5⟩ | ⟨g4, g5⟩
              · exact .inl ⟨by omega, g5⟩
              · exact .inr ⟨by omega, g5⟩
          · rename_i e hs
            cases h
            obtain ⟨rfl, h1, h2⟩ := (strItem_oob hle).1 hs
            exact ⟨[], 92 :: l, rfl, trivial, trivial, .inr ⟨by simp [stored, textOf]; omega, l, rfl, h2⟩⟩
        · cases h

theorem fnLoop_long {buf w r : List Nat} (h34 : 34 ∉ w) (h10 : 10 ∉ w) (hl : buf.length + w.length = 129) :
    fnLoop buf (w ++ r) = (buf ++ w, r) := by
  induction w generalizing buf with
  | nil =>
    simp only [List.length_nil, Nat.add_zero] at hl
    cases r with
    | nil => simp [fnLoop]
    | cons c r =>
      rw [List.nil_append, fnLoop, if_neg (by show ¬ _ ≤ 128; omega), List.append_nil]
  | cons d w ih =>
    simp only [List.length_cons] at hl
    simp only [List.mem_cons, not_or] at h34 h10
    rw [List.cons_append, fnLoop, if_pos (by show _ ≤ 128; omega), if_neg (by omega),
      ih h34.2 h10.2 (by simp; omega)]
    simp

theorem fnLoop_over {buf l b r : List Nat} (hb : buf.length ≤ 129) (h : fnLoop buf l = (b, r))
    (hl : 128 < b.length) :
    ∃ w, l = w ++ r ∧ b = buf ++ w ∧ 34 ∉ w ∧ 10 ∉ w ∧ b.length = 129 := by
  induction l generalizing buf with
  | nil =>
    cases h
    exact ⟨[], rfl, by simp, by simp, by simp, by omega⟩
  | cons c l ih =>
    unfold fnLoop at h
    split at h
    · rename_i hle
      simp only [StrMAX] at hle
      split at h
      · cases h
        omega
      · rename_i hc
        obtain ⟨w, h1, h2, h3, h4, h5⟩ := ih (by simp; omega) h
        refine ⟨c :: w, by rw [h1]; rfl, by rw [h2]; simp, ?_, ?_, h5⟩
        · simp only [List.mem_cons, not_or]
          exact ⟨by omega, h3⟩
        · simp only [List.mem_cons, not_or]
          exact ⟨by omega, h4⟩
    · cases h
      exact ⟨[], rfl, by simp, by simp, by simp, by omega⟩

theorem getSharp_oob {l : List Nat} (h : getSharp l = .error .oob) : LongFile (10 :: 35 :: l) := by
  obtain ⟨a, e1, ha, _⟩ := skipSpc_split l
  unfold getSharp at h
  generalize skipSpc l = k at h e1
  simp only at h
  split at h
  · cases h
  · rename_i d k'
    split at h
    · cases h
    · rename_i hd
      have hd : Digit d := isdigit_iff.1 (by simpa using hd)
      obtain ⟨ds, q, e2, hds, hq⟩ := split_run Digit (d :: k')
      have hne : ds ≠ [] := by
        rintro rfl
        rw [List.nil_append] at e2
        exact hq d (by rw [← e2]; rfl) hd
      rw [e2, getDec_zero ds q hds hq] at h
      obtain ⟨b, e3, hb, _⟩ := skipSpc_split q
      generalize skipSpc q = q' at h e3
      simp only at h
      split at h
      · rename_i q2
        generalize hf : fnLoop [] q2 = f at h
        obtain ⟨w', q3⟩ := f
        rcases bind_oob.1 h with h | ⟨_, _, h⟩
        · unfold finish at h
          split at h
          · cases h
          · rename_i hl
            simp only [StrMAX] at hl
            obtain ⟨w3, e4, e5, h34, h10, h129⟩ := fnLoop_over (by simp) hf (by omega)
            rw [List.nil_append] at e5
            subst e5
            exact ⟨a, ds, b, w', q3, by rw [e1, e2, e3, e4]; simp, ha, hb, hne, hds, h34, h10, h129⟩
        · split at h <;> cases h
      · cases h

/-- What overflows. -/
theorem getTok1_oob {s : LS} {l : List Nat} (h : getTok1 s l = .error .oob) : Over l := by
  cases l with
  | nil => cases h
  | cons c q =>
    rw [getTok1] at h
    split at h
    · rename_i hc
      obtain ⟨rfl, hc⟩ := hc
      cases q with
      | nil => simp at hc
      | cons d q =>
        simp at hc
        subst hc
        rcases bind_oob.1 h with h | ⟨_, _, h⟩
        · exact .inr (.inr (getSharp_oob h))
        · cases h
    · split at h
      · rcases bind_oob.1 h with h | ⟨_, _, h⟩
        · exfalso
          unfold getDigit at h
          split at h
          · split at h
            · unfold getHex at h
              split at h
              · split at h <;> cases h
              · cases h
            · cases h
          · cases h
          · cases h
        · cases h
      · split at h
        · rename_i hL
          have hL := letter_iff.1 hL
          obtain ⟨ds, r', e1, hds, hr⟩ := split_run WordChar (c :: q)
          cases ds with
          | nil =>
            rw [List.nil_append] at e1
            exact absurd (.inl hL) (hr c (by rw [← e1]; rfl))
          | cons d w =>
            have hcd : c = d := by simp at e1; exact e1.1
            subst hcd
            rcases bind_oob.1 h with h | ⟨⟨t, b, l⟩, _, h⟩
            · rw [e1, getWord_run _ _ hds hr] at h
              split at h
              · cases h
              · split at h
                · rename_i h129
                  left
                  exact ⟨c, w, r', e1, by simpa using h129, hL, fun d hd => hds d (by simp [hd]), hr⟩
                · cases h
            · simp only at h
              split at h
              · cases h
              · split at h <;> cases h
        · split at h
          · rename_i h34
            subst h34
            rcases bind_oob.1 h with h | ⟨_, _, h⟩
            · obtain ⟨is, q', e1, e2, e3, e4⟩ := strLoop_oob (by simp) h
              refine .inr (.inl ⟨is, q', by rw [e1], e2, e3, ?_⟩)
              simpa using e4
            · cases h
          · split at h
            · rcases bind_oob.1 h with h | ⟨_, _, h⟩
              · exfalso
                unfold getChar at h
                rcases bind_oob.1 h with h | ⟨⟨v, l⟩, _, h⟩
                · unfold chrVal at h
                  split at h
                  · exact getEsc_oob _ h
                  · cases h
                  · cases h
                · simp only at h
                  split at h <;> cases h
              · cases h
            · cases h

/-- Every text `k` with `Over k` at the beginning of a token overflows the buffer. -/
theorem C32_overflow (s : LS) (g k : List Nat) (hi : s.inp = g ++ k) (hg : Gap g) (hk : Over k) :
    lxGetTok s = .error .oob := by
  have hst : Stop k ∧ k.head? ≠ some 35 ∧ k.head? ≠ some 0 := by
    rcases hk with ⟨c, w, r, rfl, _, hc, _⟩ | ⟨is, q, rfl, _⟩ | ⟨a, ds, b, w, r, rfl, _⟩
    · obtain ⟨h1, h2, h3, h4⟩ := letter_ne hc
      refine ⟨.inr ⟨?_, ?_⟩, ?_, ?_⟩
      · simp only [List.cons_append, List.head?_cons, Option.some.injEq, forall_eq']
        exact h3
      · intro q
        simp [h4]
      · simp [Letter] at hc ⊢
        omega
      · simp [Letter] at hc ⊢
        omega
    · exact ⟨.inr ⟨by simp [Blank], by simp⟩, by simp, by simp⟩
    · exact ⟨.inl ⟨_, rfl⟩, by simp, by simp⟩
  obtain ⟨hst, h35, h0⟩ := hst
  have hz : (g ++ k).head? ≠ some 0 := by
    rcases gap_head hg with rfl | ⟨c, q, rfl, hc⟩
    · exact h0
    · simp only [List.cons_append, List.head?_cons, ne_eq, Option.some.injEq]
      rintro rfl
      simp [Blank] at hc
  rw [lxGetTok, hi, first_eq hz, skipSpace_gap hg _ (.inl h35), skipSpace_stop hst]
  show getTok1 s k = _
  rcases hk with ⟨c, w, r, rfl, hl, hc, hw, hr⟩ | ⟨is, q, rfl, hb, hrm, hq⟩ |
    ⟨a, ds, b, w, r, rfl, ha, hb, hne, hds, h34, h10, hl⟩
  · obtain ⟨h1, h2, _⟩ := letter_ne hc
    have h3 := getWord_run (c :: w) r (by
      intro d hd
      rcases List.mem_cons.1 hd with rfl | hd
      · exact .inl hc
      · exact hw d hd) hr
    rw [if_neg (by simp; omega), if_pos (by simp; omega), List.cons_append] at h3
    rw [List.cons_append, getTok1, if_neg (fun h => h1 h.1), if_neg (fun h => h2 (isdigit_iff.1 h)),
      if_pos (letter_iff.2 hc), h3]
    rfl
  · rw [getTok1, if_neg (by simp), if_neg (by decide), if_neg (by decide), if_pos rfl, getStr,
      strLoop_parts [] 1 is q hb hrm, List.nil_append]
    have key : strLoop (stored is) (1 + is.length) q = .error .oob := by
      rcases hq with ⟨h1, h2⟩ | ⟨h1, z, rfl, h2⟩
      · cases q with
        | nil => cases h2
        | cons c q =>
          simp at h2
          subst h2
          rw [strLoop, if_pos rfl, finish, if_neg (by rw [h1]; decide)]
      · have h3 : strItem (stored is) 92 z = .error .oob := (strItem_oob (by omega)).2 ⟨rfl, h1, h2⟩
        rw [strLoop, if_neg (by decide), if_pos (by rw [h1])]
        split
        · rename_i h
          rw [h3] at h
          cases h
        · rename_i h
          rw [h3] at h
          cases h
          rfl
    rw [key]
    rfl
  · rw [getTok1, if_pos ⟨rfl, rfl⟩]
    have key : getSharp (a ++ ds ++ b ++ 34 :: (w ++ r)) = .error .oob := by
      have e1 : skipSpc (a ++ ds ++ b ++ 34 :: (w ++ r)) = ds ++ (b ++ 34 :: (w ++ r)) := by
        have : a ++ ds ++ b ++ 34 :: (w ++ r) = a ++ (ds ++ (b ++ 34 :: (w ++ r))) := by simp
        rw [this, skipSpc_run _ _ ha]
        cases ds with
        | nil => exact absurd rfl hne
        | cons d ds =>
          rw [List.cons_append, skipSpc_not]
          left
          have := hds d (by simp)
          simp [Digit, Blank] at this ⊢
          omega
      have hnd : ∀ c, (b ++ 34 :: (w ++ r)).head? = some c → ¬ Digit c := by
        intro c hc
        cases b with
        | nil =>
          simp at hc
          subst hc
          decide
        | cons e b =>
          simp at hc
          subst hc
          have := (hb e (by simp)).1
          simp [Digit, Blank] at this ⊢
          omega
      have e2 : skipSpc (b ++ 34 :: (w ++ r)) = 34 :: (w ++ r) := by
        rw [skipSpc_run _ _ hb, skipSpc_not (.inl (by decide))]
      have e3 : fnLoop [] (w ++ r) = (w, r) := fnLoop_long h34 h10 (by simpa using hl)
      unfold getSharp
      simp only [e1]
      cases hd : ds with
      | nil => exact absurd hd hne
      | cons d ds' =>
        have hdd : isdigit d = true := isdigit_iff.2 (hds d (by rw [hd]; simp))
        simp only [List.cons_append, hdd]
        have e5 := getDec_zero ds _ hds hnd
        rw [hd, List.cons_append] at e5
        rw [e5]
        simp only [e2, e3, finish, if_neg (show ¬ w.length ≤ StrMAX by rw [hl]; decide)]
        rfl
    show (do let (v, b, l) ← getSharp (a ++ ds ++ b ++ 34 :: (w ++ r)); Except.ok ((205 : Int), (⟨l, v, b⟩ : LS)) :
      Res (Int × LS)) = _
    rw [key]
    rfl

/-- The input after a call is an end of the input before it. -/
theorem lxGetTok_suffix {s : LS} {c : Int} {s' : LS} (h : lxGetTok s = .ok (c, s')) :
    s'.inp <:+ s.inp := by
  unfold lxGetTok at h
  simp only [bind_ok] at h
  obtain ⟨l, h1, h2⟩ := h
  obtain ⟨hs, g, e, _⟩ := skipSpace_split h1
  have hf : first s.inp <:+ s.inp := by
    unfold first
    split
    · exact List.tail_suffix _
    · exact List.suffix_refl _
  have hl : l <:+ s.inp := List.IsSuffix.trans ⟨g, e.symm⟩ hf
  by_cases h0 : l.head? = some 0
  · cases l with
    | nil => simp at h0
    | cons d q =>
      simp at h0
      subst h0
      cases h2
      exact List.IsSuffix.trans (List.suffix_cons 0 q) hl
  · rcases getTok1_split h2 hs h0 with ⟨_, e2⟩ | ⟨p, t, r, e2, hp, _, e3⟩
    · cases e2
      exact List.nil_suffix
    · cases e3
      exact List.IsSuffix.trans ⟨p, e2.symm⟩ hl

/-- If no part of the text is one of these, the buffer does not overflow. -/
theorem C32_partial (s : LS) (h : ∀ k, k <:+ s.inp → ¬ Over k) : lexAll s ≠ .error .oob := by
  induction hn : s.inp.length using Nat.strong_induction_on generalizing s with
  | _ n ih =>
    subst hn
    rw [lexAll]
    split
    · rename_i e h'
      intro he
      cases he
      unfold lxGetTok at h'
      rcases bind_oob.1 h' with h' | ⟨l, h1, h2⟩
      · exact skipSpace_oob _ h'
      · obtain ⟨_, g, e, _⟩ := skipSpace_split h1
        have hf : first s.inp <:+ s.inp := by
          unfold first
          split
          · exact List.tail_suffix _
          · exact List.suffix_refl _
        exact h l (List.IsSuffix.trans ⟨g, e.symm⟩ hf) (getTok1_oob h2)
    · rename_i c s' h'
      split
      · simp
      · rename_i hc
        have hlen := (lxGetTok_len h').resolve_left hc
        have hsuf := lxGetTok_suffix h'
        have := ih _ hlen s' (fun k hk => h k (hk.trans hsuf)) rfl
        split
        · rename_i e he
          intro hx
          cases hx
          exact this he
        · simp

/-- Three texts which overflow the buffer. -/
theorem C32_false :
    lexAll (start (List.replicate 129 97)) = .error .oob ∧
    lexAll (start (34 :: (List.replicate 129 97 ++ [34]))) = .error .oob ∧
    lexAll (start (bytes "# 1 \"" ++ (List.replicate 129 97 ++ [34]))) = .error .oob := by
  have key : ∀ src, Over src → src.head? ≠ some 35 → lexAll (start src) = .error .oob := by
    intro src h h35
    have : lxGetTok (start src) = lxGetTok ⟨[10] ++ src, 0, []⟩ := rfl
    have h1 := C32_overflow ⟨[10] ++ src, 0, []⟩ [10] src rfl (.blank (by decide) .nil) h
    rw [← this] at h1
    rw [lexAll]
    split
    · rename_i h'
      rw [h1] at h'
      cases h'
      rfl
    · rename_i h'
      rw [h1] at h'
      cases h'
  refine ⟨?_, ?_, ?_⟩
  · apply key
    · exact .inl ⟨97, List.replicate 128 97, [], by decide +kernel, by simp, by decide,
        by intro d hd; rw [List.eq_of_mem_replicate hd]; decide, by simp⟩
    · decide +kernel
  · apply key
    · have plain : ∀ (n : Nat) (q : List Nat), textOf (List.replicate n (.plain 97)) = List.replicate n 97 ∧
          stored (List.replicate n (.plain 97)) = List.replicate n 97 ∧
          BodyOk q (List.replicate n (.plain 97)) := by
        intro n q
        induction n with
        | zero => exact ⟨rfl, rfl, trivial⟩
        | succ n ih =>
          refine ⟨?_, ?_, ?_⟩
          · rw [List.replicate_succ, textOf_cons, ih.1]
            rfl
          · rw [List.replicate_succ, stored_cons, ih.2.1]
            rfl
          · rw [List.replicate_succ]
            exact ⟨⟨by decide, by decide, by decide, by decide⟩, ih.2.2⟩
      have rooms : ∀ (n p : Nat), p + n ≤ 129 → Rooms p (List.replicate n (.plain 97)) := by
        intro n
        induction n with
        | zero => intros; trivial
        | succ n ih =>
          intro p hp
          rw [List.replicate_succ]
          exact ⟨by show p ≤ 128; omega, ih (p + 1) (by omega)⟩
      obtain ⟨h1, h2, h3⟩ := plain 129 [34]
      exact .inr (.inl ⟨List.replicate 129 (.plain 97), [34], by rw [h1], h3, rooms 129 0 (by omega),
        .inl ⟨by rw [h2]; simp, rfl⟩⟩)
    · decide +kernel
  · have h1 := C32_overflow ⟨10 :: (bytes "# 1 \"" ++ (List.replicate 129 97 ++ [34])), 0, []⟩ []
      (10 :: (bytes "# 1 \"" ++ (List.replicate 129 97 ++ [34]))) rfl .nil (.inr (.inr ⟨[32], [49], [32],
        List.replicate 129 97, [34], by decide +kernel, by decide, by decide, by simp, by decide,
        by simp, by simp, by simp⟩))
    have e : lxGetTok (start (bytes "# 1 \"" ++ (List.replicate 129 97 ++ [34]))) = .error .oob := h1
    rw [lexAll]
    split
    · rename_i h'
      rw [e] at h'
      cases h'
      rfl
    · rename_i h'
      rw [e] at h'
      cases h'

/-- The hypothesis of `C32_partial` holds for short texts: each of the long tokens needs 128 bytes. -/
theorem over_length {k : List Nat} (h : Over k) : 65 ≤ k.length := by
  rcases h with ⟨c, w, r, rfl, hl, _⟩ | ⟨is, q, rfl, _, _, hq⟩ | ⟨a, ds, b, w, r, rfl, _, _, _, _, _, _, hl⟩
  · simp
    omega
  · have key : ∀ is : List Item, ∀ q, BodyOk q is → (stored is).length ≤ 2 * (textOf is).length := by
      intro is q
      induction is with
      | nil => intro _; simp [stored, textOf]
      | cons i is ih =>
        intro h
        have h1 := ih h.2
        have h2 := h.1
        rw [stored_cons, textOf_cons, List.length_append, List.length_append]
        cases i with
        | plain c => simp [Item.norm, Item.text]; omega
        | esc c => simp [Item.norm, Item.text]; omega
        | hex ds =>
          have := List.length_pos_of_ne_nil h2.1
          simp [Item.norm, Item.text, oct3]
          omega
        | oct ds =>
          have := List.length_pos_of_ne_nil h2.1
          simp [Item.norm, Item.text, oct3]
          omega
    have := key is q (by assumption)
    simp
    omega
  · simp
    omega

/-- An instance: no text of less than 65 bytes overflows the buffer. -/
example (src : List Nat) (h : src.length < 64) : lexAll ⟨10 :: src, 0, []⟩ ≠ .error .oob := by
  apply C32_partial
  intro k hk ho
  have := hk.length_le
  have := over_length ho
  simp at *
  omega

end Cmm.Lex
