import Verif.Tac.VmText
import Verif.Tac.TextLemmas
import Verif.Tac.LineOk

/-
The text of vm2vm.c is read back.
-/
namespace Cmm.Tac
open Cmm.CText (Text dec decI)
open Cmm.Gen (Instr A1 A2 Data Cfg Step Steps)

variable {N : Int → Option Sym} {id : Sym → Int} {cnt : Int → Int}

/-- Instructions with the numbers of local variables and parameters instead of their indices in the name table. -/
def slot (cnt : Int → Int) : Instr → Instr
  | .ldL n => .ldL (cnt n)
  | .ldP n => .ldP (cnt n)
  | .stL n => .stL (cnt n)
  | .stP n => .stP (cnt n)
  | i => i

/-- The instruction can be printed. -/
def vmFit (P : Int → Prop) : Instr → Prop
  | .ldG n | .ldNam n | .stG n | .nam n => P n
  | .callF _ f | .callP _ f => P f
  | .ldLab n => 0 ≤ n
  | .bug => False
  | _ => True

theorem vmLabel_nat (n : Nat) : vmLabel n = Lbl.text (.L n) := by
  simp [vmLabel, Lbl.text, decI]

theorem clean_name {s : Sym} (h : Letters s.2) : Clean (symTxt s) := clean_sym h

theorem rdL_lab (n : Nat) : rdL (vmLabel n) = some n := by
  rw [vmLabel_nat, rdL, rdSym_lbl]; rfl

theorem rdN_sym {s : Sym} (h : Plainly s) : rdN id (symTxt s) = some (id s) := by
  rw [rdN, rdSym_sym h]; rfl

theorem clean_vmLabel (n : Nat) : Clean (vmLabel n) := by rw [vmLabel_nat]; exact clean_lbl _

theorem line0 {m : Text} (hm : '\t' ∉ m) : rdVmLine id ('\t' :: m) = (rdVm0.lookup m).map fun i => [i] := by
  simp [rdVmLine, split_none hm]

theorem line1 {m x : Text} (hm : '\t' ∉ m) (hx : Clean x) : rdVmLine id ('\t' :: (m ++ '\t' :: x)) = (rdVm1 id m x).map fun i => [i] := by
  simp [rdVmLine, split_cons hm, split_none hx.tab, split_none hx.comma]

theorem line2 {m x y : Text} (hm : '\t' ∉ m) (hx : Clean x) (hy : Clean y) :
    rdVmLine id ('\t' :: (m ++ '\t' :: (x ++ t!"," ++ y))) = (rdVm2 id m x y).map fun i => [i] := by
  have e : x ++ t!"," ++ y = x ++ ',' :: y := by simp
  have h1 := hx.tab
  have h2 := hy.tab
  rw [e]
  simp only [rdVmLine, split_cons hm]
  rw [split_none (by simp [h1, h2])]
  simp only
  rw [split_cons hx.comma, split_none hy.comma]

/-- The text `x` is a line that is read as `i`. -/
def Reads (id : Sym → Int) (x : Text) (i : Instr) : Prop := ∃ y, x = y ++ t!"\n" ∧ '\n' ∉ y ∧ rdVmLine id y = some [i]

theorem reads0 {m x : Text} {i : Instr} (h : vm0 m = some x) (hm : '\t' ∉ m) (hn : '\n' ∉ m) (hr : rdVm0.lookup m = some i) :
    Reads id x i := by
  cases h
  exact ⟨'\t' :: m, rfl, by simp [hn], by rw [line0 hm, hr]; rfl⟩

theorem reads1 {m x z : Text} {i : Instr} (h : vm1 m z = some x) (hm : '\t' ∉ m) (hn : '\n' ∉ m) (hz : Clean z)
    (hr : rdVm1 id m z = some i) : Reads id x i := by
  cases h
  have := hz.nl
  exact ⟨'\t' :: (m ++ '\t' :: z), rfl, by simp [hn, this], by rw [line1 hm hz, hr]; rfl⟩

theorem reads2 {m x z : Text} {n : Nat} {i : Instr} (h : vm1 m (decI n ++ t!"," ++ z) = some x) (hm : '\t' ∉ m) (hn : '\n' ∉ m)
    (hz : Clean z) (hr : rdVm2 id m (decI n) z = some i) : Reads id x i := by
  cases h
  have h1 := hz.nl
  have h2 := (clean_decI n).nl
  exact ⟨'\t' :: (m ++ '\t' :: (decI n ++ t!"," ++ z)), rfl, by simp [hn, h1, h2], by rw [line2 hm (clean_decI n) hz, hr]; rfl⟩

theorem rdVmLine_sym {s : Sym} (h : Plainly s) : rdVmLine id (symTxt s) = some [.nam (id s)] := by
  have e := rdSym_sym h
  obtain ⟨b, y⟩ := s
  cases b <;> simp only [symTxt, if_true, if_false, Bool.false_eq_true] at e ⊢ <;> simp [rdVmLine, e]

theorem rdVmLine_lab (n : Nat) : rdVmLine id (vmLabel n) = some [.lab n] := by
  have e := rdSym_lbl (.L n)
  rw [vmLabel_nat]
  simp only [Lbl.text, List.cons_append, List.nil_append] at e ⊢
  simp [rdVmLine, e]

theorem decI_nat (n : Nat) : decI (n : Int) = dec n := by simp [decI]

/-- Every instruction is read back. -/
theorem reads_text {i : Instr} (hi : vmFit (NameOk N id) i) : ∃ x, vmText N cnt i = some x ∧ Reads id x (slot cnt i) := by
  have nm : ∀ {n : Int}, NameOk N id n → ∃ s, namTxt N n = some (symTxt s) ∧ id s = n ∧ Clean (symTxt s) ∧ Plainly s := by
    rintro n ⟨s, h1, h2, h3, h4⟩
    exact ⟨s, by simp [namTxt, h1], h2, clean_sym h3, h4⟩
  cases i with
  | nam f =>
    obtain ⟨s, h1, rfl, h3, h4⟩ := nm hi
    exact ⟨_, by simp only [vmText, h1]; rfl, symTxt s, rfl, h3.nl, rdVmLine_sym h4⟩
  | lab n => exact ⟨_, rfl, vmLabel n, rfl, (clean_vmLabel n).nl, rdVmLine_lab n⟩
  | ldG n | stG n =>
    obtain ⟨s, h1, rfl, h3, h4⟩ := nm hi
    refine ⟨_, by simp only [vmText, h1]; rfl, reads1 rfl (by decide) (by decide) h3 ?_⟩
    simp [rdVm1, rdN_sym h4, slot]
  | ldNam n =>
    obtain ⟨s, h1, rfl, h3, h4⟩ := nm hi
    refine ⟨_, by simp only [vmText, h1]; rfl, reads1 rfl (by decide) (by decide) h3 ?_⟩
    simp [rdVm1, rdC, rdSym_sym h4, slot]
  | callF n f | callP n f =>
    obtain ⟨s, h1, rfl, h3, h4⟩ := nm hi
    refine ⟨_, by simp only [vmText, h1]; rfl, reads2 rfl (by decide) (by decide) h3 ?_⟩
    simp [rdVm2, rdN_sym h4, slot, decI_nat, rdNat_dec]
  | ldLab n =>
    obtain ⟨k, rfl⟩ := Int.eq_ofNat_of_zero_le hi
    refine ⟨_, rfl, reads1 rfl (by decide) (by decide) (clean_vmLabel k) ?_⟩
    rw [vmLabel_nat]
    simp [rdVm1, rdC, rdSym_lbl, slot]
  | ldC v =>
    refine ⟨_, rfl, reads1 rfl (by decide) (by decide) (clean_decI v) ?_⟩
    simp [rdVm1, rdC, rdSym_decI, rdInt_decI, slot]
  | jmp n | jt n | jf n =>
    refine ⟨_, rfl, reads1 rfl (by decide) (by decide) (clean_vmLabel n) ?_⟩
    simp [rdVm1, rdL_lab, slot]
  | ldL n | ldP n | stL n | stP n =>
    refine ⟨_, rfl, reads1 rfl (by decide) (by decide) (clean_decI _) ?_⟩
    simp [rdVm1, rdInt_decI, slot]
  | entry n | entryK n | entryI n =>
    refine ⟨_, rfl, reads1 rfl (by decide) (by decide) (clean_decI _) ?_⟩
    simp [rdVm1, rdInt_decI, slot]
  | a1 o => cases o <;> exact ⟨_, rfl, reads0 rfl (by decide) (by decide) rfl⟩
  | a2 o => cases o <;> exact ⟨_, rfl, reads0 rfl (by decide) (by decide) rfl⟩
  | bug => exact hi.elim
  | _ => exact ⟨_, rfl, reads0 rfl (by decide) (by decide) rfl⟩

theorem readVm_line {y xs : Text} {a is : List Instr} (hn : '\n' ∉ y) (hy : rdVmLine id y = some a) (h : readVm id xs = some is) :
    readVm id (y ++ '\n' :: xs) = some (a ++ is) := by
  unfold readVm at h ⊢
  rw [split_cons hn, rdVmLines, hy]
  simp [h]

/-- What is printed for a list of instructions, followed by a text that can be read. -/
theorem readVm_printed {is : List Instr} {x y : Text} {js : List Instr} (h : VmPrinted N cnt is x) (hi : ∀ i ∈ is, vmFit (NameOk N id) i)
    (hy : readVm id y = some js) : readVm id (x ++ y) = some (is.map (slot cnt) ++ js) := by
  induction h with
  | nil => exact hy
  | @cons i is x xs h1 _ ih =>
    obtain ⟨x', h2, z, rfl, h3, h4⟩ := reads_text (cnt := cnt) (hi i (by simp))
    rw [h1] at h2
    cases h2
    have := readVm_line h3 h4 (ih fun j hj => hi j (by simp [hj]))
    simpa using this
  | @comment is c xs hc _ ih =>
    have := readVm_line (y := ';' :: c) (id := id) (by simp [hc]) rfl (ih hi)
    simpa using this

/-- All instructions of a program, as a reader of the text sees them. -/
def vmCode (fns : List Fn) : List Instr := fns.flatMap fun fn => fn.code.map (slot fn.cnt)

theorem readVm_prog {fns : List Fn} {x : Text} (h : VmProg N fns x) (hi : ∀ fn ∈ fns, ∀ i ∈ fn.code, vmFit (NameOk N id) i) :
    readVm id x = some (vmCode fns) := by
  induction h with
  | nil => rfl
  | @cons fn fns x xs h1 _ ih =>
    rw [readVm_printed h1 (hi fn (by simp)) (ih fun fn hm => hi fn (by simp [hm]))]
    rfl

theorem printed_ex {is : List Instr} (hi : ∀ i ∈ is, vmFit (NameOk N id) i) : ∃ x, VmPrinted N cnt is x := by
  induction is with
  | nil => exact ⟨_, .nil⟩
  | cons i is ih =>
    obtain ⟨xs, h⟩ := ih fun j hj => hi j (by simp [hj])
    obtain ⟨x, h1, -⟩ := reads_text (cnt := cnt) (hi i (by simp))
    exact ⟨_, .cons h1 h⟩

theorem prog_ex {fns : List Fn} (hi : ∀ fn ∈ fns, ∀ i ∈ fn.code, vmFit (NameOk N id) i) : ∃ x, VmProg N fns x := by
  induction fns with
  | nil => exact ⟨_, .nil⟩
  | cons fn fns ih =>
    obtain ⟨xs, h⟩ := ih fun fn hm => hi fn (by simp [hm])
    obtain ⟨x, h1⟩ := printed_ex (cnt := fn.cnt) (hi fn (by simp))
    exact ⟨_, .cons h1 h⟩

end Cmm.Tac
