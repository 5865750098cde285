import Mathlib.Tactic.Ring
import Mathlib.Tactic.Linarith
import Verif.Lex.Gap

/-! Digits, words and the parts of string literals: what the scanning loops take away. -/
namespace Cmm.Lex

theorem split_run (P : Nat → Prop) (l : List Nat) : ∃ ds r, l = ds ++ r ∧ (∀ d ∈ ds, P d) ∧
    ∀ c, r.head? = some c → ¬ P c := by
  classical
  induction l with
  | nil => exact ⟨[], [], rfl, by simp, by simp⟩
  | cons c l ih =>
    by_cases h : P c
    · obtain ⟨ds, r, h1, h2, h3⟩ := ih
      refine ⟨c :: ds, r, by rw [h1]; rfl, ?_, h3⟩
      intro d hd
      rcases List.mem_cons.1 hd with rfl | hd
      · exact h
      · exact h2 d hd
    · refine ⟨[], c :: l, rfl, by simp, ?_⟩
      simp only [List.head?_cons, Option.some.injEq]
      rintro _ rfl
      exact h

/-! Numbers -/

theorem numVal_nil (b : Nat) : numVal b [] = 0 := rfl

theorem numVal_cons (b d : Nat) (ds : List Nat) :
    numVal b (d :: ds) = digitVal d * b ^ ds.length + numVal b ds := by
  simp only [numVal, List.reverse_cons, List.map_append, List.map_cons, List.map_nil,
    Nat.ofDigits_append, Nat.ofDigits_singleton, List.length_map, List.length_reverse]
  ring

theorem wrap_wrap (x : Int) : wrap (wrap x) = wrap x := by
  unfold wrap
  exact Int.bmod_bmod

theorem wrap_step (v a b : Int) : wrap (wrap v * b + a) = wrap (v * b + a) := by
  unfold wrap
  rw [← Int.bmod_add_bmod, Int.bmod_mul_bmod, Int.bmod_add_bmod]

theorem wrap_fits {x : Nat} (h : x < 2 ^ 31) : wrap x = x := by
  unfold wrap
  rw [Int.bmod_def]
  split <;> omega

theorem digitVal_dec {c : Nat} (h : Digit c) : (digitVal c : Int) = c - 48 := by
  obtain ⟨h1, h2⟩ := h
  rw [digitVal, if_pos h2]
  omega

theorem digitVal_oct {c : Nat} (h : OctDigit c) : (digitVal c : Int) = c - 48 :=
  digitVal_dec ⟨h.1, by have := h.2; omega⟩

theorem hex_digitVal {c : Nat} (h : HexDigit c) : hex c = digitVal c := by
  unfold hex digitVal toupper isdigit
  rcases h with ⟨h1, h2⟩ | h | h
  · simp [h1, h2]
  · have h1 : ¬ c ≤ 57 := by omega
    have h2 : ¬ (97 ≤ c ∧ c ≤ 122) := by omega
    have h3 : c ≤ 70 := by omega
    simp [h1, h2, h3]
    omega
  · have h1 : ¬ c ≤ 57 := by omega
    have h2 : 97 ≤ c ∧ c ≤ 122 := by omega
    have h3 : ¬ c ≤ 70 := by omega
    simp [h1, h2, h3]
    omega

theorem acc_step (v : Int) (b d : Nat) (ds : List Nat) :
    (v * b + digitVal d) * b ^ ds.length + numVal b ds
      = v * b ^ (d :: ds).length + numVal b (d :: ds) := by
  rw [numVal_cons]
  push_cast
  simp only [List.length_cons, pow_succ]
  ring

theorem getDec_run (v : Int) (ds r : List Nat) (hd : ∀ c ∈ ds, Digit c)
    (hr : ∀ c, r.head? = some c → ¬ Digit c) :
    getDec (wrap v) (ds ++ r) = (wrap (v * 10 ^ ds.length + numVal 10 ds), r) := by
  induction ds generalizing v with
  | nil =>
    rw [List.nil_append, numVal_nil]
    simp only [List.length_nil, pow_zero, mul_one, Nat.cast_zero, add_zero]
    cases r with
    | nil => rfl
    | cons c r => rw [getDec, if_neg (fun h => hr c rfl (isdigit_iff.1 h))]
  | cons d ds ih =>
    have h1 := hd d (by simp)
    have := acc_step v 10 d ds
    have h2 := ih (v * 10 + digitVal d) (fun c hc => hd c (by simp [hc]))
    rw [List.cons_append, getDec, if_pos (isdigit_iff.2 h1), add_sub_assoc, ← digitVal_dec h1, wrap_step, h2]
    exact congrArg (fun x => (wrap x, r)) this

theorem getOct_run (v : Int) (ds r : List Nat) (hd : ∀ c ∈ ds, OctDigit c)
    (hr : ∀ c, r.head? = some c → ¬ OctDigit c) :
    getOct (wrap v) (ds ++ r) = (wrap (v * 8 ^ ds.length + numVal 8 ds), r) := by
  induction ds generalizing v with
  | nil =>
    rw [List.nil_append, numVal_nil]
    simp only [List.length_nil, pow_zero, mul_one, Nat.cast_zero, add_zero]
    cases r with
    | nil => rfl
    | cons c r => rw [getOct, if_neg (fun h => hr c rfl (isOdigit_iff.1 h))]
  | cons d ds ih =>
    have h1 := hd d (by simp)
    have := acc_step v 8 d ds
    have h2 := ih (v * 8 + digitVal d) (fun c hc => hd c (by simp [hc]))
    rw [List.cons_append, getOct, if_pos (isOdigit_iff.2 h1), add_sub_assoc, ← digitVal_oct h1, wrap_step, h2]
    exact congrArg (fun x => (wrap x, r)) this

theorem hexLoop_run (v : Int) (ds r : List Nat) (hd : ∀ c ∈ ds, HexDigit c)
    (hr : ∀ c, r.head? = some c → ¬ HexDigit c) :
    hexLoop (wrap v) (ds ++ r) = (wrap (v * 16 ^ ds.length + numVal 16 ds), r) := by
  induction ds generalizing v with
  | nil =>
    rw [List.nil_append, numVal_nil]
    simp only [List.length_nil, pow_zero, mul_one, Nat.cast_zero, add_zero]
    cases r with
    | nil => rfl
    | cons c r => rw [hexLoop, if_neg (fun h => hr c rfl (isxdigit_iff.1 h))]
  | cons d ds ih =>
    have h1 := hd d (by simp)
    have := acc_step v 16 d ds
    have h2 := ih (v * 16 + digitVal d) (fun c hc => hd c (by simp [hc]))
    rw [List.cons_append, hexLoop, if_pos (isxdigit_iff.2 h1), hex_digitVal h1, wrap_step, h2]
    exact congrArg (fun x => (wrap x, r)) this

theorem getDec_zero (ds r : List Nat) (hd : ∀ c ∈ ds, Digit c) (hr : ∀ c, r.head? = some c → ¬ Digit c) :
    getDec 0 (ds ++ r) = (wrap (numVal 10 ds), r) := by
  have := getDec_run 0 ds r hd hr
  simpa [show wrap 0 = 0 from rfl] using this

theorem getOct_zero (ds r : List Nat) (hd : ∀ c ∈ ds, OctDigit c)
    (hr : ∀ c, r.head? = some c → ¬ OctDigit c) : getOct 0 (ds ++ r) = (wrap (numVal 8 ds), r) := by
  have := getOct_run 0 ds r hd hr
  simpa [show wrap 0 = 0 from rfl] using this

theorem hexLoop_zero (ds r : List Nat) (hd : ∀ c ∈ ds, HexDigit c)
    (hr : ∀ c, r.head? = some c → ¬ HexDigit c) : hexLoop 0 (ds ++ r) = (wrap (numVal 16 ds), r) := by
  have := hexLoop_run 0 ds r hd hr
  simpa [show wrap 0 = 0 from rfl] using this

theorem getHex_ok (ds r : List Nat) (hne : ds ≠ []) (hd : ∀ c ∈ ds, HexDigit c)
    (hr : ∀ c, r.head? = some c → ¬ HexDigit c) : getHex (ds ++ r) = .ok (wrap (numVal 16 ds), r) := by
  rw [← hexLoop_zero ds r hd hr]
  cases ds with
  | nil => exact absurd rfl hne
  | cons d ds =>
    simp only [List.cons_append, getHex]
    rw [if_pos (isxdigit_iff.2 (hd d (by simp)))]

/-! Words -/

theorem wordLoop_run (buf ds r : List Nat) (hd : ∀ c ∈ ds, WordChar c)
    (hr : ∀ c, r.head? = some c → ¬ WordChar c) (hl : buf.length + ds.length ≤ 129) :
    wordLoop buf (ds ++ r) = (buf ++ ds, r) := by
  induction ds generalizing buf with
  | nil =>
    cases r with
    | nil => simp [wordLoop]
    | cons c r =>
      rw [List.nil_append, wordLoop, if_neg (fun h => hr c rfl (isDelim_iff.1 h.1)), List.append_nil]
  | cons d ds ih =>
    simp only [List.length_cons] at hl
    rw [List.cons_append, wordLoop, if_pos ⟨isDelim_iff.2 (hd d (by simp)), by show _ ≤ 128; omega⟩,
      ih _ (fun c hc => hd c (by simp [hc])) (by simp; omega)]
    simp

theorem wordLoop_long (buf ds r : List Nat) (hd : ∀ c ∈ ds, WordChar c)
    (hl : buf.length + ds.length > 129) (hb : buf.length ≤ 129) :
    ∃ b c l, wordLoop buf (ds ++ r) = (b, c :: l) ∧ WordChar c := by
  induction ds generalizing buf with
  | nil => simp at hl; omega
  | cons d ds ih =>
    simp only [List.length_cons] at hl
    by_cases h : buf.length ≤ 128
    · rw [List.cons_append, wordLoop, if_pos ⟨isDelim_iff.2 (hd d (by simp)), h⟩]
      exact ih _ (fun c hc => hd c (by simp [hc])) (by simp; omega) (by simp; omega)
    · rw [List.cons_append, wordLoop, if_neg (fun hh => h hh.2)]
      exact ⟨buf, d, ds ++ r, rfl, hd d (by simp)⟩

theorem all_delim {r : List Nat} (hr : ∀ c, r.head? = some c → ¬ WordChar c) :
    r.head?.all isDelim = true := by
  cases r with
  | nil => rfl
  | cons c r =>
    have := hr c rfl
    rw [← isDelim_iff] at this
    simpa using this

/-- getWord, completely. -/
theorem getWord_run (ds r : List Nat) (hd : ∀ c ∈ ds, WordChar c)
    (hr : ∀ c, r.head? = some c → ¬ WordChar c) :
    getWord (ds ++ r) = if ds.length ≤ 128 then .ok (srchWord ds rsvWord, ds, r)
      else if ds.length = 129 then .error .oob else .error .err := by
  unfold getWord
  by_cases h : ds.length ≤ 129
  · rw [wordLoop_run [] ds r hd hr (by simpa using h)]
    simp only [List.nil_append]
    rw [if_pos (all_delim hr)]
    unfold finish
    by_cases h2 : ds.length ≤ 128
    · rw [if_pos h2, if_pos h2]
      rfl
    · rw [if_neg h2, if_neg h2, if_pos (by omega)]
      rfl
  · obtain ⟨b, c, l, h1, h2⟩ := wordLoop_long [] ds r hd (by simp; omega) (by simp)
    rw [h1]
    rw [if_neg (by omega : ¬ ds.length ≤ 128), if_neg (by omega)]
    simp only [List.head?_cons, Option.all_some, isDelim_iff.2 h2]
    rfl

/-! The file names of directives -/

theorem fnLoop_run (buf w r : List Nat) (h1 : 34 ∉ w) (h2 : 10 ∉ w)
    (hr : ∀ c, r.head? = some c → c = 34 ∨ c = 10) (hl : buf.length + w.length ≤ 129) :
    fnLoop buf (w ++ r) = (buf ++ w, r) := by
  induction w generalizing buf with
  | nil =>
    cases r with
    | nil => simp [fnLoop]
    | cons c r =>
      rw [List.nil_append, fnLoop]
      split
      · rw [if_pos (hr c rfl), List.append_nil]
      · rw [List.append_nil]
  | cons d w ih =>
    simp only [List.length_cons] at hl
    simp only [List.mem_cons, not_or] at h1 h2
    rw [List.cons_append, fnLoop, if_pos (by show _ ≤ 128; omega), if_neg (by omega),
      ih _ h1.2 h2.2 (by simp; omega)]
    simp

/-! Escapes -/

theorem hexStr_run (v : Nat) (ds r : List Nat) (hd : ∀ c ∈ ds, HexDigit c)
    (hr : ∀ c, r.head? = some c → ¬ HexDigit c) (hv : v * 16 ^ ds.length + numVal 16 ds ≤ 255) :
    hexStr v (ds ++ r) = .ok (v * 16 ^ ds.length + numVal 16 ds, r) := by
  induction ds generalizing v with
  | nil =>
    rw [List.nil_append, numVal_nil]
    simp only [List.length_nil, pow_zero, mul_one, add_zero]
    cases r with
    | nil => rfl
    | cons c r => rw [hexStr, if_neg (fun h => hr c rfl (isxdigit_iff.1 h))]
  | cons d ds ih =>
    have h1 := hd d (by simp)
    have e : v * 16 ^ (d :: ds).length + numVal 16 (d :: ds)
        = (v * 16 + digitVal d) * 16 ^ ds.length + numVal 16 ds := by
      rw [numVal_cons]
      simp only [List.length_cons, pow_succ]
      ring
    rw [e] at hv ⊢
    have h2 : v * 16 + digitVal d ≤ (v * 16 + digitVal d) * 16 ^ ds.length :=
      Nat.le_mul_of_pos_right _ (by positivity)
    rw [List.cons_append, hexStr, if_pos (isxdigit_iff.2 h1), hex_digitVal h1, if_neg (by omega)]
    exact ih _ (fun c hc => hd c (by simp [hc])) hv

theorem hexStr_split {v : Nat} {l : List Nat} {x : Nat} {r : List Nat} (hv : v ≤ 255)
    (h : hexStr v l = .ok (x, r)) :
    ∃ ds, l = ds ++ r ∧ (∀ c ∈ ds, HexDigit c) ∧ (∀ c, r.head? = some c → ¬ HexDigit c) ∧
      x = v * 16 ^ ds.length + numVal 16 ds ∧ x ≤ 255 := by
  induction l generalizing v with
  | nil =>
    cases h
    exact ⟨[], rfl, by simp, by simp, by simp [numVal_nil], hv⟩
  | cons c l ih =>
    unfold hexStr at h
    split at h
    · rename_i hc
      split at h
      · cases h
      · rename_i hv
        obtain ⟨ds, h1, h2, h3, h4, h5⟩ := ih (by omega) h
        have hc' := isxdigit_iff.1 hc
        refine ⟨c :: ds, by rw [h1]; rfl, ?_, h3, ?_, h5⟩
        · intro d hd
          rcases List.mem_cons.1 hd with rfl | hd
          · exact hc'
          · exact h2 d hd
        · rw [h4, hex_digitVal hc', numVal_cons]
          simp only [List.length_cons, pow_succ]
          ring
    · rename_i hc
      cases h
      refine ⟨[], rfl, by simp, ?_, by simp [numVal_nil], hv⟩
      simp only [List.head?_cons, Option.some.injEq]
      rintro _ rfl h
      exact hc (isxdigit_iff.2 h)

theorem getHexStr_run (ds r : List Nat) (hne : ds ≠ []) (hd : ∀ c ∈ ds, HexDigit c)
    (hr : ∀ c, r.head? = some c → ¬ HexDigit c) (hv : numVal 16 ds ≤ 255) :
    getHexStr (ds ++ r) = .ok (numVal 16 ds, r) := by
  have := hexStr_run 0 ds r hd hr (by simpa using hv)
  rw [Nat.zero_mul, Nat.zero_add] at this
  rw [← this]
  cases ds with
  | nil => exact absurd rfl hne
  | cons d ds =>
    simp only [List.cons_append, getHexStr]
    rw [if_pos (isxdigit_iff.2 (hd d (by simp)))]

theorem getHexStr_split {l : List Nat} {x : Nat} {r : List Nat} (h : getHexStr l = .ok (x, r)) :
    ∃ ds, l = ds ++ r ∧ ds ≠ [] ∧ (∀ c ∈ ds, HexDigit c) ∧ (∀ c, r.head? = some c → ¬ HexDigit c) ∧
      x = numVal 16 ds ∧ x ≤ 255 := by
  unfold getHexStr at h
  split at h
  · rename_i c l
    split at h
    · rename_i hc
      obtain ⟨ds, h1, h2, h3, h4, h5⟩ := hexStr_split (by omega) h
      refine ⟨ds, h1, ?_, h2, h3, by simpa using h4, h5⟩
      rintro rfl
      rw [List.nil_append] at h1
      exact h3 c (by rw [← h1]; rfl) (isxdigit_iff.1 hc)
    · cases h
  · cases h

theorem octStr_run (i v c : Nat) (ds r : List Nat) (hc : OctDigit c) (hd : ∀ c ∈ ds, OctDigit c)
    (hi : i + 1 + ds.length ≤ 3)
    (hr : i + 1 + ds.length = 3 ∨ ∀ c, r.head? = some c → ¬ OctDigit c)
    (hv : v * 8 ^ (c :: ds).length + numVal 8 (c :: ds) ≤ 255) :
    octStr i v c (ds ++ r) = .ok (v * 8 ^ (c :: ds).length + numVal 8 (c :: ds), r) := by
  have e : v * 8 ^ (c :: ds).length + numVal 8 (c :: ds)
      = (v * 8 + c - 48) * 8 ^ ds.length + numVal 8 ds := by
    have h1 : digitVal c = c - 48 := by
      rw [digitVal, if_pos (by have := hc.2; omega)]
    have h2 : v * 8 + c - 48 = v * 8 + digitVal c := by
      have := hc.1
      omega
    rw [numVal_cons, h2]
    simp only [List.length_cons, pow_succ]
    ring
  rw [e] at hv ⊢
  clear e
  have h2 : v * 8 + c - 48 ≤ (v * 8 + c - 48) * 8 ^ ds.length :=
      Nat.le_mul_of_pos_right _ (by positivity)
  induction ds generalizing i v c with
  | nil =>
    rw [List.nil_append, numVal_nil]
    simp only [List.length_nil, pow_zero, mul_one, add_zero]
    rw [numVal_nil] at hv
    simp only [List.length_nil, pow_zero, mul_one, add_zero] at hv
    cases r with
    | nil => rw [octStr, if_neg (by omega)]
    | cons d r =>
      rw [octStr, if_neg (by omega)]
      rcases hr with hr | hr
      · have : i + 1 ≥ 3 := by simp at hr; omega
        simp only [if_pos this]
        split <;> rfl
      · have := hr d rfl
        rw [← isOdigit_iff] at this
        rw [if_pos (by simpa using this)]
  | cons d ds ih =>
    have h1 := hd d (by simp)
    have h3 : isOdigit d = true := isOdigit_iff.2 h1
    simp only [List.length_cons] at hi hr
    rw [List.cons_append, octStr, if_neg (by omega), if_neg (by simp [h3]), if_neg (by omega)]
    have h4 : digitVal d = d - 48 := by
      rw [digitVal, if_pos (by have := h1.2; omega)]
    have h5 := h1.1
    have e2 : ((v * 8 + c - 48) * 8 + d - 48) * 8 ^ ds.length + numVal 8 ds
        = (v * 8 + c - 48) * 8 ^ (d :: ds).length + numVal 8 (d :: ds) := by
      have : (v * 8 + c - 48) * 8 + d - 48 = (v * 8 + c - 48) * 8 + digitVal d := by omega
      rw [numVal_cons, this]
      simp only [List.length_cons, pow_succ]
      ring
    rw [← e2] at hv ⊢
    refine ih (i + 1) (v * 8 + c - 48) d h1 (fun c hc => hd c (by simp [hc])) (by omega) ?_ hv
      (Nat.le_mul_of_pos_right _ (by positivity))
    · rcases hr with hr | hr
      · exact .inl (by omega)
      · exact .inr hr

theorem octStr_split {i v c : Nat} {l : List Nat} {x : Nat} {r : List Nat} (hc : OctDigit c)
    (hi : i < 3) (h : octStr i v c l = .ok (x, r)) :
    ∃ ds, l = ds ++ r ∧ (∀ c ∈ ds, OctDigit c) ∧ i + 1 + ds.length ≤ 3 ∧
      (i + 1 + ds.length = 3 ∨ ∀ c, r.head? = some c → ¬ OctDigit c) ∧
      x = v * 8 ^ (c :: ds).length + numVal 8 (c :: ds) ∧ x ≤ 255 := by
  have e : ∀ v c ds, OctDigit c → v * 8 ^ (c :: ds).length + numVal 8 (c :: ds)
      = (v * 8 + c - 48) * 8 ^ ds.length + numVal 8 ds := by
    intro v c ds hc
    have h1 : digitVal c = c - 48 := by
      rw [digitVal, if_pos (by have := hc.2; omega)]
    have h2 : v * 8 + c - 48 = v * 8 + digitVal c := by
      have := hc.1
      omega
    rw [numVal_cons, h2]
    simp only [List.length_cons, pow_succ]
    ring
  have e0 : ∀ v c, OctDigit c → v * 8 ^ [c].length + numVal 8 [c] = v * 8 + c - 48 := by
    intro v c hc
    rw [e v c [] hc, numVal_nil]
    simp
  induction l generalizing i v c with
  | nil =>
    unfold octStr at h
    split at h
    · cases h
    · cases h
      exact ⟨[], rfl, by simp, by simp; omega, .inr (by simp), (e0 v c hc).symm, by omega⟩
  | cons d l ih =>
    unfold octStr at h
    split at h
    · cases h
    · split at h
      · rename_i hd
        cases h
        refine ⟨[], rfl, by simp, by simp; omega, .inr ?_, (e0 v c hc).symm, by omega⟩
        simp only [List.head?_cons, Option.some.injEq]
        rintro _ rfl h
        rw [isOdigit_iff.2 h] at hd
        cases hd
      · rename_i hd
        split at h
        · cases h
          exact ⟨[], rfl, by simp, by simp; omega, .inl (by simp; omega), (e0 v c hc).symm, by omega⟩
        · have hd' : OctDigit d := isOdigit_iff.1 (by simpa using hd)
          obtain ⟨ds, h1, h2, h3, h4, h5, h6⟩ := ih hd' (by omega) h
          refine ⟨d :: ds, by rw [h1]; rfl, ?_, by simp; omega, ?_, ?_, h6⟩
          · intro c hc
            rcases List.mem_cons.1 hc with rfl | hc
            · exact hd'
            · exact h2 c hc
          · rcases h4 with h4 | h4
            · exact .inl (by simp; omega)
            · exact .inr h4
          · rw [h5, ← e v c (d :: ds) hc]

end Cmm.Lex
