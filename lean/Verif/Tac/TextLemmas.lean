import Verif.Tac.Text
import Mathlib.Tactic.IntervalCases

/-
Proofs about the text of lines: what src/vm2tac.c prints is read back.
-/
namespace Cmm.Tac
open Cmm.CText (Text dec decI dec_digits readNum_dec)

/-! ### Characters -/

/-- Neither tabulator nor newline nor comma. -/
def Clean (x : Text) : Prop := ∀ c ∈ x, c ≠ '\t' ∧ c ≠ '\n' ∧ c ≠ ','

theorem clean_nil : Clean [] := nofun

theorem clean_cons {c : Char} {x : Text} (h : c ≠ '\t' ∧ c ≠ '\n' ∧ c ≠ ',') (hx : Clean x) : Clean (c :: x) := by
  intro d hd
  rcases List.mem_cons.1 hd with rfl | hd
  · exact h
  · exact hx d hd

theorem clean_append {x y : Text} (hx : Clean x) (hy : Clean y) : Clean (x ++ y) := by
  intro d hd
  rcases List.mem_append.1 hd with hd | hd
  · exact hx d hd
  · exact hy d hd

theorem clean_digit {c : Char} (h : c.isDigit = true) : c ≠ '\t' ∧ c ≠ '\n' ∧ c ≠ ',' := by
  refine ⟨?_, ?_, ?_⟩ <;> rintro rfl <;> revert h <;> decide

theorem clean_dec (n : Nat) : Clean (dec n) := fun c hc => clean_digit ((dec_digits n).2 c hc)

theorem clean_decI (n : Int) : Clean (decI n) := by
  unfold decI
  split
  · exact clean_cons (by decide) (clean_dec _)
  · exact clean_dec _

theorem split_none {c : Char} {x : Text} (h : c ∉ x) : split c x = [x] := by
  induction x with
  | nil => rfl
  | cons d x ih =>
    rw [List.mem_cons, not_or] at h
    rw [split, if_neg (fun e => h.1 e.symm), ih h.2]

theorem split_cons {c : Char} {x y : Text} (h : c ∉ x) : split c (x ++ c :: y) = x :: split c y := by
  induction x with
  | nil => simp [split]
  | cons d x ih =>
    rw [List.mem_cons, not_or] at h
    rw [List.cons_append, split, if_neg (fun e => h.1 e.symm), ih h.2]

theorem Clean.tab {x : Text} (h : Clean x) : '\t' ∉ x := fun hc => (h _ hc).1 rfl
theorem Clean.nl {x : Text} (h : Clean x) : '\n' ∉ x := fun hc => (h _ hc).2.1 rfl
theorem Clean.comma {x : Text} (h : Clean x) : ',' ∉ x := fun hc => (h _ hc).2.2 rfl

/-! ### Numbers and registers -/

theorem rdNat_dec (n : Nat) : rdNat (dec n) = some n := by simp [rdNat, readNum_dec]

theorem dec_head (n : Nat) : ∃ c x, dec n = c :: x ∧ c.isDigit = true ∧ ∀ d ∈ x, d.isDigit = true := by
  obtain ⟨h1, h2⟩ := dec_digits n
  cases h : dec n with
  | nil => exact absurd h h1
  | cons c x =>
    rw [h] at h2
    exact ⟨c, x, rfl, h2 c (by simp), fun d hd => h2 d (by simp [hd])⟩

theorem rdInt_dec (n : Nat) : rdInt (dec n) = some (n : Int) := by
  have hn := rdNat_dec n
  obtain ⟨c, x, h1, h2, h3⟩ := dec_head n
  rw [h1] at hn ⊢
  unfold rdInt
  split
  · rename_i h; cases h; exact absurd h2 (by decide)
  · rename_i h; cases h; exact absurd (h3 'x' (by simp)) (by decide)
  · rw [hn]; rfl

theorem rdInt_decI (n : Int) : rdInt (decI n) = some n := by
  unfold decI
  split
  · rename_i h
    show (rdNat (dec n.natAbs)).map (fun k : Nat => -(k : Int)) = some n
    rw [rdNat_dec, Option.map_some, show -(n.natAbs : Int) = n by omega]
  · rename_i h
    rw [rdInt_dec, show (n.natAbs : Int) = n by omega]

theorem regTxt_eq {i : Int} {x : Text} (h : regTxt i = some x) : 0 ≤ i ∧ i ≤ 11 ∧ x = 'G' :: dec i.toNat := by
  unfold regTxt at h
  split at h
  · cases h
  · rename_i hi
    have hl : i.toNat < 12 := by
      obtain ⟨hl, -⟩ := List.getElem?_eq_some_iff.1 h
      simpa [regs] using hl
    refine ⟨by omega, by omega, ?_⟩
    generalize i.toNat = n at *
    interval_cases n <;> simp [regs] at h <;> rw [← h] <;> simp [dec]

theorem rdG_reg {i : Int} {x : Text} (h : regTxt i = some x) : rdG x = some i := by
  obtain ⟨h1, h2, rfl⟩ := regTxt_eq h
  rw [rdG, rdNat_dec]
  simp only [Option.bind_some]
  rw [if_pos (by omega)]
  congr 1
  omega

theorem clean_reg {i : Int} {x : Text} (h : regTxt i = some x) : Clean x := by
  obtain ⟨h1, h2, rfl⟩ := regTxt_eq h
  exact clean_cons (by decide) (clean_dec _)

theorem rdReg_text {r : Reg} {x : Text} (h : r.text = some x) : rdReg x = some r ∧ Clean x := by
  cases r with
  | g i =>
    have h : regTxt i = some x := h
    refine ⟨?_, clean_reg h⟩
    obtain ⟨-, -, e⟩ := regTxt_eq h
    unfold rdReg
    rw [if_neg (by rw [e]; simp), if_neg (by rw [e]; simp), rdG_reg h]
    rfl
  | fp => cases h; exact ⟨rfl, by unfold Clean; decide⟩
  | sp => cases h; exact ⟨rfl, by unfold Clean; decide⟩

/-! ### Names and labels -/

/-- Letters, digits and `_`. -/
def Letters (x : Text) : Prop := ∀ c ∈ x, c.isAlphanum = true ∨ c = '_'

/-- A private name that does not look like a label of the compiler. -/
def Plainly (s : Sym) : Prop := s.1 = false → ∀ n, s.2 ≠ 'L' :: dec n ∧ s.2 ≠ 'T' :: dec n

theorem Letters.clean {x : Text} (h : Letters x) : Clean x := by
  intro c hc
  rcases h c hc with h | rfl
  · refine ⟨?_, ?_, ?_⟩ <;> rintro rfl <;> revert h <;> decide
  · decide

theorem rdNat_some {x : Text} {n : Nat} (h : rdNat x = some n) : x = dec n := by
  unfold rdNat at h
  cases hr : CText.readNum 10 0 x with
  | none => rw [hr] at h; cases h
  | some m =>
    rw [hr] at h
    simp only [Option.bind_some] at h
    split at h
    · rename_i he; cases h; exact he.symm
    · cases h

theorem rdSym_sym {s : Sym} (h : Plainly s) : rdSym (symTxt s) = some (.sym s) := by
  obtain ⟨b, x⟩ := s
  cases b with
  | true => rfl
  | false =>
    have h := h rfl
    dsimp only at h
    unfold symTxt
    simp only [Bool.false_eq_true, if_false]
    unfold rdSym
    split
    · rename_i e; cases e
    · rename_i e; cases e
      split
      · rename_i e; exact absurd (congrArg _ (rdNat_some e)) (h _).1
      · rfl
    · rename_i e; cases e
      split
      · rename_i e; exact absurd (congrArg _ (rdNat_some e)) (h _).2
      · rfl
    · rename_i e; cases e; rfl
    · rename_i e; exact absurd rfl (e _)

theorem rdSym_lbl (l : Lbl) : rdSym l.text = some (.lbl l) := by
  cases l with
  | L n =>
    show rdSym ('.' :: 'L' :: dec n) = _
    simp only [rdSym]
    rw [rdNat_dec]
  | T n =>
    show rdSym ('.' :: 'T' :: dec n) = _
    simp only [rdSym]
    rw [rdNat_dec]

theorem clean_lbl (l : Lbl) : Clean l.text := by
  cases l <;> exact clean_append (by unfold Clean; decide) (clean_dec _)

theorem clean_sym {s : Sym} (h : Letters s.2) : Clean (symTxt s) := by
  unfold symTxt
  exact clean_cons (by split <;> decide) h.clean

theorem rdLbl_text (l : Lbl) : rdLbl l.text = some l := by simp [rdLbl, rdSym_lbl]

/-! ### Lines that can be read -/

/-- Names are printed as symbols that an assembler can tell from labels; `id` are their numbers. -/
def NameOk (N : Int → Option Sym) (id : Sym → Int) (i : Int) : Prop :=
  ∃ s, N i = some s ∧ id s = i ∧ Letters s.2 ∧ Plainly s

/-- An index of `regs`. -/
def IsReg (i : Int) : Prop := 0 ≤ i ∧ i ≤ 11

def Reg.Ok : Reg → Prop
  | .g i => IsReg i
  | _ => True

/-- Conditions on an operand. -/
def Src.Ok (P : Int → Prop) : Src → Prop
  | .glb i | .nam i => P i
  | .lab n => 0 ≤ n
  | .reg r => r.Ok
  | .ind r | .byt r => IsReg r
  | _ => True

/-- Conditions on a line; `C` are the functions that can be called. -/
def Line.Ok (P C : Int → Prop) : Line → Prop
  | .op _ r s => r.Ok ∧ s.Ok P
  | .st r d => IsReg r ∧ d.Ok P
  | .push r | .pop r => r.Ok
  | .jcc j _ => j < 6
  | .call i => P i ∧ C i
  | .nam i => P i
  | _ => True

theorem Src.Ok.mono {P P' : Int → Prop} (hp : ∀ i, P i → P' i) {s : Src} (h : s.Ok P) : s.Ok P' := by
  cases s <;> first | exact h | exact hp _ h

theorem Line.Ok.mono {P P' C : Int → Prop} (hp : ∀ i, P i → P' i) {l : Line} (h : l.Ok P C) : l.Ok P' C := by
  cases l with
  | op o r s => exact ⟨h.1, h.2.mono hp⟩
  | st r d => exact ⟨h.1, h.2.mono hp⟩
  | call i => exact ⟨hp _ h.1, h.2⟩
  | nam i => exact hp _ h
  | _ => exact h

variable {N : Int → Option Sym} {id : Sym → Int}

theorem rdSym_digit {c : Char} {x : Text} (h : c ≠ '_') (h' : c ≠ '.') : rdSym (c :: x) = none := by
  unfold rdSym
  split
  · rename_i e; cases e; exact absurd rfl h
  · rename_i e; cases e; exact absurd rfl h'
  · rename_i e; cases e; exact absurd rfl h'
  · rename_i e; cases e; exact absurd rfl h'
  · rfl

theorem rdSym_decI (n : Int) : rdSym (decI n) = none := by
  unfold decI
  split
  · exact rdSym_digit (by decide) (by decide)
  · obtain ⟨c, x, h1, h2, -⟩ := dec_head n.natAbs
    rw [h1]
    refine rdSym_digit ?_ ?_ <;> rintro rfl <;> revert h2 <;> decide

theorem rdReg_sym (s : Sym) : rdReg (symTxt s) = none := by
  obtain ⟨b, x⟩ := s
  cases b <;> simp [symTxt, rdReg, rdG]

/-- One operand without comma. -/
theorem rdSrc_one {x : Text} (h1 : ∀ y, x ≠ '#' :: y) (h2 : ∀ y, x ≠ '@' :: y) :
    rdSrc id [x] = match rdReg x, rdSym x with
      | some r, _ => some (.reg r)
      | none, some (.sym s) => some (.glb (id s))
      | none, _ => none := by
  unfold rdSrc
  split
  · rename_i e; cases e; exact absurd rfl (h1 _)
  · rename_i e; cases e; exact absurd rfl (h2 _)
  · rename_i e; cases e; rfl
  · rename_i e; cases e
  · rename_i e _; exact absurd rfl (e _)

/-- An operand with a comma. -/
theorem rdSrc_two (n r : Text) : rdSrc id [n, r] =
    if r = t!"FP" then (rdInt n).map .fp else if n = t!"0" then (rdG r).map .ind else none := by
  simp only [rdSrc]

theorem reg_first {r : Reg} {x : Text} (h : r.text = some x) : ∃ c y, x = c :: y ∧ c ≠ '#' ∧ c ≠ '@' := by
  cases r with
  | g i =>
    obtain ⟨-, -, e⟩ := regTxt_eq (show regTxt i = some x from h)
    exact ⟨_, _, e, by decide, by decide⟩
  | fp => cases h; exact ⟨_, _, rfl, by decide, by decide⟩
  | sp => cases h; exact ⟨_, _, rfl, by decide, by decide⟩

/-- Operands are read back. -/
theorem rdSrc_text {s : Src} {x : Text} (hs : s.Ok (NameOk N id)) (h : s.text N = some x) :
    rdSrc id (split ',' x) = some s ∧ '\t' ∉ x ∧ '\n' ∉ x := by
  have one : ∀ {y : Text}, Clean y → split ',' y = [y] ∧ '\t' ∉ y ∧ '\n' ∉ y :=
    fun h => ⟨split_none h.comma, h.tab, h.nl⟩
  cases s with
  | imm n =>
    cases h
    obtain ⟨e, h1, h2⟩ := one (clean_cons (c := '#') (by decide) (clean_decI n))
    refine ⟨?_, h1, h2⟩
    rw [e, rdSrc, rdSym_decI, rdInt_decI]; rfl
  | glb i =>
    obtain ⟨s, k1, k2, k3, k4⟩ := hs
    simp only [Src.text, namTxt, k1, Option.map_some, Option.some.injEq] at h
    subst h
    obtain ⟨e, h1, h2⟩ := one (clean_sym k3)
    refine ⟨?_, h1, h2⟩
    rw [e, rdSrc_one (by intro y; unfold symTxt; split <;> simp) (by intro y; unfold symTxt; split <;> simp), rdReg_sym,
      rdSym_sym k4]
    simp [k2]
  | fp n =>
    cases h
    have hc := clean_decI n
    have e : split ',' (decI n ++ t!",FP") = [decI n, t!"FP"] := split_cons hc.comma
    refine ⟨?_, ?_, ?_⟩
    · rw [e, rdSrc_two, if_pos rfl, rdInt_decI]
      rfl
    · rw [List.mem_append, not_or]; exact ⟨hc.tab, by decide⟩
    · rw [List.mem_append, not_or]; exact ⟨hc.nl, by decide⟩
  | reg r =>
    obtain ⟨k1, k2⟩ := rdReg_text (show r.text = some x from h)
    obtain ⟨e, h1, h2⟩ := one k2
    refine ⟨?_, h1, h2⟩
    obtain ⟨c, y, rfl, k3, k4⟩ := reg_first (show r.text = some x from h)
    rw [e, rdSrc_one (by rintro y ⟨⟩; exact k3 rfl) (by rintro y ⟨⟩; exact k4 rfl), k1]
  | lab n =>
    cases h
    have hn : 0 ≤ n := hs
    have e : t!"#.L" ++ decI n = '#' :: (Lbl.L n.toNat).text := by
      unfold decI
      rw [if_neg (by omega), Lbl.text, show n.natAbs = n.toNat by omega]
      rfl
    rw [e]
    obtain ⟨e, h1, h2⟩ := one (clean_cons (c := '#') (by decide) (clean_lbl (.L n.toNat)))
    refine ⟨?_, h1, h2⟩
    rw [e, rdSrc, rdSym_lbl]
    simp only [Option.some.injEq, Src.lab.injEq]
    omega
  | nam i =>
    obtain ⟨s, k1, k2, k3, k4⟩ := hs
    simp only [Src.text, namTxt, k1, Option.map_some, Option.some.injEq] at h
    subst h
    obtain ⟨e, h1, h2⟩ := one (clean_cons (c := '#') (by decide) (clean_sym k3))
    refine ⟨?_, h1, h2⟩
    rw [e, rdSrc, rdSym_sym k4]
    simp [k2]
  | ind r =>
    simp only [Src.text, Option.map_eq_some_iff] at h
    obtain ⟨y, hy, rfl⟩ := h
    have hc := clean_reg hy
    have e : split ',' (t!"0," ++ y) = [t!"0", y] := by
      rw [show t!"0," ++ y = t!"0" ++ ',' :: y from rfl, split_cons (by decide), split_none hc.comma]
    refine ⟨?_, ?_, ?_⟩
    · rw [e, rdSrc_two, if_neg (by rw [(regTxt_eq hy).2.2]; simp), if_pos rfl, rdG_reg hy]
      rfl
    · rw [List.mem_append, not_or]; exact ⟨by decide, hc.tab⟩
    · rw [List.mem_append, not_or]; exact ⟨by decide, hc.nl⟩
  | byt r =>
    simp only [Src.text, Option.map_eq_some_iff] at h
    obtain ⟨y, hy, rfl⟩ := h
    obtain ⟨e, h1, h2⟩ := one (clean_cons (c := '@') (by decide) (clean_reg hy))
    refine ⟨?_, h1, h2⟩
    rw [e, rdSrc, rdG_reg hy]
    rfl

/-! ### Lines -/

/-- Lines with an instruction. -/
def Line.isIns : Line → Bool
  | .lab _ | .nam _ => false
  | _ => true

/-- The instruction field of a line: mnemonic and operands. -/
def rdBody (id : Sym → Int) (z : Text) : Option Line :=
  match split '\t' z with
  | [m] => rdIns id m []
  | [m, ops] => rdIns id m (split ',' ops)
  | _ => none

theorem rdBody_two {m ops : Text} (hm : '\t' ∉ m) (ho : '\t' ∉ ops) :
    rdBody id (m ++ '\t' :: ops) = rdIns id m (split ',' ops) := by
  simp [rdBody, split_cons hm, split_none ho]

theorem rdOp_text (o : TOp) : rdOp o.text = some o ∧ o.text ≠ t!"ST" ∧ '\t' ∉ o.text ∧ '\n' ∉ o.text := by
  cases o <;> decide

theorem rdIns_op {m x : Text} {ops : List Text} {y : Text} (h : m ≠ t!"ST") :
    rdIns id m (x :: y :: ops) = (rdOp m).bind fun o => (rdReg x).bind fun r => (rdSrc id (y :: ops)).map (.op o r) := by
  simp only [rdIns]
  rw [if_neg h]

theorem rdIns_st {x : Text} {ops : List Text} {y : Text} :
    rdIns id t!"ST" (x :: y :: ops) = (rdG x).bind fun r => (rdSrc id (y :: ops)).map (.st r) := by
  simp only [rdIns, if_true]

theorem split_ne (c : Char) (x : Text) : ∃ y ys, split c x = y :: ys := by
  cases x with
  | nil => exact ⟨_, _, rfl⟩
  | cons d x =>
    unfold split
    split
    · exact ⟨_, _, rfl⟩
    · split <;> exact ⟨_, _, rfl⟩

/-- The text of an instruction is read back. -/
theorem rdBody_text {C : Int → Prop} (hC : ∀ i, C i → N i ≠ some chkSym) {l : Line} {x : Text}
    (hi : l.isIns = true) (hl : l.Ok (NameOk N id) C) (h : l.text N = some x) :
    ∃ z, x = '\t' :: z ++ t!"\n" ∧ '\n' ∉ z ∧ rdBody id z = some l := by
  have opnd : ∀ {m x y : Text}, '\t' ∉ m → '\n' ∉ m → Clean x → '\t' ∉ y ∧ '\n' ∉ y →
      '\n' ∉ m ++ '\t' :: (x ++ ',' :: y) ∧
      rdBody id (m ++ '\t' :: (x ++ ',' :: y)) = rdIns id m (x :: split ',' y) := by
    intro m x y h1 h2 h3 h4
    have := h3.nl
    have := h3.tab
    refine ⟨by simp [*], ?_⟩
    rw [rdBody_two h1 (by simp [*]), split_cons h3.comma]
  have sing : ∀ {m x : Text}, '\t' ∉ m → '\n' ∉ m → Clean x →
      '\n' ∉ m ++ '\t' :: x ∧ rdBody id (m ++ '\t' :: x) = rdIns id m [x] := by
    intro m x h1 h2 h3
    have := h3.nl
    refine ⟨by simp [*], ?_⟩
    rw [rdBody_two h1 h3.tab, split_none h3.comma]
  cases l with
  | lab | nam => cases hi
  | op o r s =>
    simp only [Line.text, Option.bind_eq_some_iff, Option.map_eq_some_iff] at h
    obtain ⟨a, ha, b, hb, rfl⟩ := h
    obtain ⟨k1, k2, k3, k4⟩ := rdOp_text o
    obtain ⟨r1, r2⟩ := rdReg_text ha
    obtain ⟨s1, s2⟩ := rdSrc_text hl.2 hb
    obtain ⟨e1, e2⟩ := opnd k3 k4 r2 s2
    refine ⟨_, by simp, e1, ?_⟩
    rw [e2]
    obtain ⟨y, ys, e⟩ := split_ne ',' b
    rw [e, rdIns_op k2, k1, r1, ← e, s1]
    rfl
  | st r d =>
    simp only [Line.text, Option.bind_eq_some_iff, Option.map_eq_some_iff] at h
    obtain ⟨a, ha, b, hb, rfl⟩ := h
    obtain ⟨s1, s2⟩ := rdSrc_text hl.2 hb
    obtain ⟨e1, e2⟩ := opnd (m := t!"ST") (by decide) (by decide) (clean_reg ha) s2
    refine ⟨_, by simp, e1, ?_⟩
    rw [e2]
    obtain ⟨y, ys, e⟩ := split_ne ',' b
    rw [e, rdIns_st, rdG_reg ha, ← e, s1]
    rfl
  | push r =>
    simp only [Line.text, Option.map_eq_some_iff] at h
    obtain ⟨a, ha, rfl⟩ := h
    obtain ⟨r1, r2⟩ := rdReg_text ha
    obtain ⟨e1, e2⟩ := sing (m := t!"PUSH") (by decide) (by decide) r2
    refine ⟨_, by simp, e1, ?_⟩
    rw [e2]
    simp [rdIns, r1]
  | pop r =>
    simp only [Line.text, Option.map_eq_some_iff] at h
    obtain ⟨a, ha, rfl⟩ := h
    obtain ⟨r1, r2⟩ := rdReg_text ha
    obtain ⟨e1, e2⟩ := sing (m := t!"POP") (by decide) (by decide) r2
    refine ⟨_, by simp, e1, ?_⟩
    rw [e2]
    simp [rdIns, r1]
  | jmp l =>
    simp only [Line.text, Option.some.injEq] at h
    subst h
    obtain ⟨e1, e2⟩ := sing (m := t!"JMP") (by decide) (by decide) (clean_lbl l)
    refine ⟨_, by simp, e1, ?_⟩
    rw [e2]
    simp [rdIns, rdLbl_text]
  | jcc j l =>
    simp only [Line.text, Option.map_eq_some_iff] at h
    obtain ⟨a, ha, rfl⟩ := h
    have hj : j < 6 := by
      obtain ⟨hl, -⟩ := List.getElem?_eq_some_iff.1 ha
      simpa [jccs] using hl
    have key : '\t' ∉ a ∧ '\n' ∉ a ∧ rdIns id a [l.text] = some (.jcc j l) := by
      interval_cases j <;> simp [jccs] at ha <;> subst ha <;>
        refine ⟨by decide, by decide, ?_⟩ <;>
        simp [rdIns, rdJcc, rdLbl_text, JLT, JLE, JEQ, JGE, JGT, JNZ]
    obtain ⟨e1, e2⟩ := sing key.1 key.2.1 (clean_lbl l)
    refine ⟨_, by simp, e1, ?_⟩
    rw [e2, key.2.2]
  | call i =>
    obtain ⟨⟨s, k1, k2, k3, k4⟩, hc⟩ := hl
    simp only [Line.text, namTxt, k1, Option.map_some, Option.some.injEq] at h
    subst h
    obtain ⟨e1, e2⟩ := sing (m := t!"CALL") (by decide) (by decide) (clean_sym k3)
    refine ⟨_, by simp, e1, ?_⟩
    have : s ≠ chkSym := fun e => hC i hc (by rw [k1, e])
    rw [e2]
    simp [rdIns, rdSym_sym k4, this, k2]
  | stkChk => cases h; exact ⟨t!"CALL\t__stkChk", rfl, by decide, rfl⟩
  | ret => cases h; exact ⟨t!"RET", rfl, by decide, rfl⟩
  | reti => cases h; exact ⟨t!"RETI", rfl, by decide, rfl⟩

/-- The same with the constant of vmChr. -/
theorem rdBody_shown {C : Int → Prop} (hC : ∀ i, C i → N i ≠ some chkSym) {l : Line} {x : Text}
    (hi : l.isIns = true) (hl : l.Ok (NameOk N id) C) (h : Shown N l x) :
    ∃ z, x = '\t' :: z ++ t!"\n" ∧ '\n' ∉ z ∧ rdBody id z = some l := by
  rcases h with h | ⟨r, rfl, h⟩
  · exact rdBody_text hC hi hl h
  · simp only [chrText, Option.map_eq_some_iff] at h
    obtain ⟨y, hy, rfl⟩ := h
    have hc := clean_reg hy
    refine ⟨t!"AND" ++ '\t' :: (y ++ ',' :: t!"#0x00ff"), by simp, ?_, ?_⟩
    · have := hc.nl
      simp [*]
    · have := hc.tab
      rw [rdBody_two (by decide) (by simp [*]), split_cons hc.comma, split_none (by decide), rdIns_op (by decide),
        show rdOp t!"AND" = some .AND by decide, (rdReg_text (r := .g r) hy).1]
      rfl

/-- There is a text for such lines. -/
theorem regTxt_some {i : Int} (h : IsReg i) : ∃ x, regTxt i = some x := by
  obtain ⟨h1, h2⟩ := h
  unfold regTxt
  rw [if_neg (by omega)]
  exact ⟨_, List.getElem?_eq_getElem (by show i.toNat < 12; omega)⟩

theorem Reg.Ok.text {r : Reg} (h : r.Ok) : ∃ x, r.text = some x := by
  cases r with
  | g i => exact regTxt_some h
  | fp => exact ⟨_, rfl⟩
  | sp => exact ⟨_, rfl⟩

theorem Src.Ok.text {s : Src} (h : s.Ok (NameOk N id)) : ∃ x, s.text N = some x := by
  cases s with
  | imm | fp | lab => exact ⟨_, rfl⟩
  | glb i | nam i =>
    obtain ⟨s, k, -⟩ := h
    simp only [Src.text, namTxt, k, Option.map_some]; exact ⟨_, rfl⟩
  | reg r => exact Reg.Ok.text h
  | ind r | byt r =>
    obtain ⟨x, hx⟩ := regTxt_some h
    simp only [Src.text, hx, Option.map_some]; exact ⟨_, rfl⟩

theorem Line.Ok.text {C : Int → Prop} {l : Line} (h : l.Ok (NameOk N id) C) : ∃ x, l.text N = some x := by
  cases l with
  | op o r s =>
    obtain ⟨x, hx⟩ := h.1.text
    obtain ⟨y, hy⟩ := h.2.text
    simp only [Line.text, hx, hy, Option.map_some, Option.bind_some]; exact ⟨_, rfl⟩
  | st r s =>
    obtain ⟨x, hx⟩ := regTxt_some h.1
    obtain ⟨y, hy⟩ := h.2.text
    simp only [Line.text, hx, hy, Option.map_some, Option.bind_some]; exact ⟨_, rfl⟩
  | push r | pop r =>
    obtain ⟨x, hx⟩ := Reg.Ok.text h
    simp only [Line.text, hx, Option.map_some]; exact ⟨_, rfl⟩
  | jcc j l =>
    have hj : j < jccs.length := h
    simp only [Line.text, List.getElem?_eq_getElem hj, Option.map_some]; exact ⟨_, rfl⟩
  | call i =>
    obtain ⟨⟨s, k, -⟩, -⟩ := h
    simp only [Line.text, namTxt, k, Option.map_some]; exact ⟨_, rfl⟩
  | nam i =>
    obtain ⟨s, k, -⟩ := h
    simp only [Line.text, namTxt, k, Option.map_some]; exact ⟨_, rfl⟩
  | _ => exact ⟨_, rfl⟩

theorem printed_some {C : Int → Prop} {ls : List Line} (h : ∀ l ∈ ls, l.Ok (NameOk N id) C) : ∃ x, Printed N ls x := by
  induction ls with
  | nil => exact ⟨_, .nil⟩
  | cons l ls ih =>
    obtain ⟨x, hx⟩ := (h l (by simp)).text
    obtain ⟨y, hy⟩ := ih fun k hk => h k (by simp [hk])
    exact ⟨_, .cons (.inl hx) hy⟩

/-- A name is followed by an instruction (on the same line). -/
def tied : List Line → Bool
  | [] => true
  | .nam _ :: ls => (match ls with | l :: _ => l.isIns | [] => false) && tied ls
  | _ :: ls => tied ls

theorem rdLine_body {s z : Text} {l : Line} (hs : '\t' ∉ s) (h : rdBody id z = some l) :
    rdLine id (s ++ '\t' :: z) = (rdField id s).map fun a => a ++ [l] := by
  unfold rdBody at h
  unfold rdLine
  rw [split_cons hs]
  split at h
  · rename_i m e
    rw [e]
    simp only [h, Option.map_some]
    cases rdField id s <;> rfl
  · rename_i m ops e
    rw [e]
    simp only [h, Option.map_some]
    cases rdField id s <;> rfl
  · cases h

theorem rdField_sym {s : Sym} (h : Plainly s) : rdField id (symTxt s) = some [.nam (id s)] := by
  unfold rdField
  rw [if_neg (by unfold symTxt; simp), rdSym_sym h]
  rfl

theorem rdField_lbl (l : Lbl) : rdField id l.text = some [.lab l] := by
  unfold rdField
  rw [if_neg (by cases l <;> simp [Lbl.text]), rdSym_lbl]
  rfl

/-- A text made of whole lines. -/
theorem assemble_line {s z xs : Text} {ls : List Line} {l : Line} {a : List Line} (hs : Clean s) (hz : '\n' ∉ z)
    (hb : rdBody id z = some l) (hf : rdField id s = some a) (h : assemble id xs = some ls) :
    assemble id (s ++ ('\t' :: z ++ t!"\n" ++ xs)) = some (a ++ l :: ls) := by
  have e : s ++ ('\t' :: z ++ t!"\n" ++ xs) = (s ++ '\t' :: z) ++ '\n' :: xs := by simp
  have := hs.nl
  unfold assemble at h ⊢
  rw [e, split_cons (by simp [*]), rdLines, rdLine_body hs.tab hb, hf]
  simp [h]

theorem assemble_lab {x xs : Text} {ls a : List Line} (hs : Clean x) (hf : rdField id x = some a)
    (h : assemble id xs = some ls) : assemble id (x ++ t!"\n" ++ xs) = some (a ++ ls) := by
  have e : x ++ t!"\n" ++ xs = x ++ '\n' :: xs := by simp
  unfold assemble at h ⊢
  rw [e, split_cons hs.nl, rdLines, rdLine, split_none hs.tab]
  simp [h, hf]

/-- What is printed for a list of lines is read back. -/
theorem assemble_printed {C : Int → Prop} (hC : ∀ i, C i → N i ≠ some chkSym) : ∀ {ls : List Line} {x : Text}, Printed N ls x →
    tied ls = true → (∀ l ∈ ls, l.Ok (NameOk N id) C) → assemble id x = some ls
  | _, _, .nil, _, _ => by simp [assemble, split, rdLines, rdLine, rdField]
  | l :: ls, _, .cons (x := x) (xs := xs) hx hxs, ht, ho => by
    have hl := ho l (by simp)
    by_cases hi : l.isIns = true
    · have ih := assemble_printed hC hxs (by
        cases l <;> first | exact ht | cases hi) fun k hk => ho k (by simp [hk])
      obtain ⟨z, rfl, hz, hb⟩ := rdBody_shown hC hi hl hx
      exact assemble_line (s := []) clean_nil hz hb rfl ih
    · cases l with
      | lab l =>
        have ih := assemble_printed hC hxs ht fun k hk => ho k (by simp [hk])
        rcases hx with hx | ⟨r, e, -⟩
        · cases hx
          exact assemble_lab (clean_lbl l) (rdField_lbl l) ih
        · cases e
      | nam i =>
        obtain ⟨s, k1, k2, k3, k4⟩ := hl
        rcases hx with hx | ⟨r, e, -⟩
        · simp only [Line.text, namTxt, k1, Option.map_some, Option.some.injEq] at hx
          subst hx
          cases hxs with
          | nil => cases ht
          | @cons l' ls' y ys hy hys =>
            simp only [tied, Bool.and_eq_true] at ht
            have hl' := ho l' (by simp)
            have ih := assemble_printed hC hys (by
              have h2 := ht.2
              have h1 := ht.1
              cases l' <;> first | exact h2 | cases h1) fun k hk => ho k (by simp [hk])
            obtain ⟨z, rfl, hz, hb⟩ := rdBody_shown hC ht.1 hl' hy
            have := assemble_line (clean_sym k3) hz hb (rdField_sym (id := id) k4) ih
            rw [k2] at this
            exact this
        · cases e
      | _ => exact absurd rfl hi

end Cmm.Tac
