import Verif.Tac.TextLemmas
import Verif.Gen.Data

/-
The text that src/vm2vm.c and src/vm2tac.c print for data directives, and a reader of such text.

Simplifications:
* Names as in Verif/Tac/Text.lean. Where C would read outside of a table, there is no text.
* Data stand outside of functions, where `inFunc` of vm2tac.c is false.
* The characters of a string constant are those of the source (lexer.c keeps escape sequences as they are written).
-/
namespace Cmm.Tac
open Cmm.CText (Text dec decI)
open Cmm.Gen (Dir)

/-- vm2vm.c:60-71 (labels and names), 385-419. `bug` is error(), which prints nothing (vmCode.c:703, 719, 758). -/
def dirVm (N : Int → Option Sym) : Dir → Option Text
  | .lab n => some (t!".L" ++ dec n ++ t!"\n")
  | .nam i => (namTxt N i).map fun x => x ++ t!"\n"
  | .dw v => some (t!"\tDW\t" ++ decI v ++ t!"\n")
  | .dwLab l => some (t!"\tDW\t.L" ++ decI l ++ t!"\n")
  | .dwNam i => (namTxt N i).map fun x => t!"\tDW\t" ++ x ++ t!"\n"
  | .db v => some (t!"\tDB\t" ++ decI v ++ t!"\n")
  | .bs n => some (t!"\tBS\t" ++ decI n ++ t!"\n")
  | .ws n => some (t!"\tWS\t" ++ decI n ++ t!"\n")
  | .str s => some (t!"\tSTRING\t\"" ++ s.toList ++ t!"\"\n")
  | .bug => none

/-- vm2tac.c:302-310 (labels and names), 882-915. vmDwName does not use its argument: it prints the name whose index is
stkAux[stkPtr] (vm2tac.c:149, 884); there is none if the virtual stack is empty. -/
def dirTac (N : Int → Option Sym) (t : T) : Dir → Option Text
  | .lab n => some (t!".L" ++ dec n)
  | .nam i => namTxt N i
  | .dwNam _ => (top t).bind fun e => (namTxt N e.aux).map fun x => t!"\tDW\t" ++ x ++ t!"\n"
  | d => dirVm N d

/-- What is printed for a list of directives. -/
def printAll (p : Dir → Option Text) : List Dir → Option Text
  | [] => some []
  | d :: ds => (p d).bind fun x => (printAll p ds).map fun xs => x ++ xs

/-! ### Specification: reading data directives

A line has a label field, a directive and one operand, separated by tabulators; the operand is the rest of the line. -/

/-- The text up to the first `c`, and the text behind it. -/
def cut (c : Char) : Text → Text × Option Text
  | [] => ([], none)
  | x :: xs => if x = c then ([], some xs) else (x :: (cut c xs).1, (cut c xs).2)

section
variable (id : Sym → Int)

/-- The operand of DW: label (which may have a negative number), name or number. -/
def rdCell (x : Text) : Option Dir :=
  match rdSym x with
  | some (.lbl (.L n)) => some (.dwLab n)
  | some (.lbl (.T _)) => none
  | some (.sym (false, 'L' :: '-' :: y)) => (rdNat y).map fun n : Nat => .dwLab (-(n : Int))
  | some (.sym s) => some (.dwNam (id s))
  | none => (rdInt x).map .dw

/-- A string between quotation marks. -/
def rdStr : Text → Option Dir
  | '"' :: x => if x.getLast? = some '"' then some (.str (String.ofList x.dropLast)) else none
  | _ => none

/-- A directive and its operand. -/
def rdDir (m x : Text) : Option Dir :=
  if m = t!"DW" then rdCell id x
  else if m = t!"DB" then (rdInt x).map .db
  else if m = t!"BS" then (rdInt x).map .bs
  else if m = t!"WS" then (rdInt x).map .ws
  else if m = t!"STRING" then rdStr x
  else none

/-- The label field. -/
def rdHead (x : Text) : Option (List Dir) :=
  if x = [] then some []
  else (rdSym x).bind fun
    | .lbl (.L n) => some [.lab n]
    | .lbl (.T _) => none
    | .sym s => some [.nam (id s)]

/-- A line. -/
def rdDataLine (x : Text) : Option (List Dir) :=
  match cut '\t' x with
  | (l, none) => rdHead id l
  | (l, some y) => match cut '\t' y with
    | (_, none) => none
    | (m, some z) => (rdHead id l).bind fun a => (rdDir id m z).map fun d => a ++ [d]

/-- A list of lines. -/
def rdDataLines : List Text → Option (List Dir)
  | [] => some []
  | x :: xs => (rdDataLine id x).bind fun a => (rdDataLines xs).map fun b => a ++ b

/-- A text. -/
def readData (x : Text) : Option (List Dir) := rdDataLines id (split '\n' x)

end

/-! ### Lemmas -/

variable {N : Int → Option Sym} {id : Sym → Int}

theorem cut_none {c : Char} {x : Text} (h : c ∉ x) : cut c x = (x, none) := by
  induction x with
  | nil => rfl
  | cons y x ih =>
    simp only [List.mem_cons, not_or] at h
    rw [cut, if_neg (Ne.symm h.1), ih h.2]

theorem cut_some {c : Char} {x y : Text} (h : c ∉ x) : cut c (x ++ c :: y) = (x, some y) := by
  induction x with
  | nil => simp [cut]
  | cons z x ih =>
    simp only [List.mem_cons, not_or] at h
    rw [List.cons_append, cut, if_neg (Ne.symm h.1), ih h.2]

/-- Directives whose text can be read: names can be told from labels, strings have no newline. -/
def DirOk (N : Int → Option Sym) (id : Sym → Int) : Dir → Prop
  | .nam i | .dwNam i => NameOk N id i
  | .str s => '\n' ∉ s.toList
  | .bug => False
  | _ => True

/-- The text of a cell is a tabulator, a directive, a tabulator, an operand and a newline, and is read back. -/
theorem rdDir_text {d : Dir} (hc : d.isCell = true) (ho : DirOk N id d) : ∃ m z, dirVm N d = some ('\t' :: m ++ '\t' :: z ++ t!"\n") ∧
    '\t' ∉ m ∧ '\n' ∉ m ∧ '\n' ∉ z ∧ rdDir id m z = some d := by
  cases d with
  | lab n => cases hc
  | nam i => cases hc
  | bug => cases ho
  | dw v =>
    refine ⟨t!"DW", decI v, rfl, by decide, by decide, (clean_decI v).nl, ?_⟩
    simp only [rdDir, if_true, rdCell, rdSym_decI, rdInt_decI, Option.map_some]
  | dwLab l =>
    refine ⟨t!"DW", t!".L" ++ decI l, ?_, by decide, by decide, ?_, ?_⟩
    · simp [dirVm]
    · have := (clean_decI l).nl
      simp [this]
    · unfold decI
      by_cases hl : l < 0
      · have h1 : rdSym (t!".L" ++ '-' :: dec l.natAbs) = some (.sym (false, 'L' :: '-' :: dec l.natAbs)) :=
          rdSym_sym (s := (false, 'L' :: '-' :: dec l.natAbs)) fun _ n => ⟨fun e => by
            obtain ⟨c, y, h1, h2, -⟩ := dec_head n
            rw [h1] at e
            cases e
            exact absurd h2 (by decide), nofun⟩
        simp only [rdDir, if_true, rdCell, hl, h1, rdNat_dec, Option.map_some]
        congr 2
        omega
      · have h1 := rdSym_lbl (.L l.natAbs)
        rw [Lbl.text] at h1
        simp only [rdDir, if_true, rdCell, hl, if_false, h1]
        congr 2
        omega
  | dwNam i =>
    obtain ⟨s, h1, h2, h3, h4⟩ := ho
    refine ⟨t!"DW", symTxt s, ?_, by decide, by decide, (clean_sym h3).nl, ?_⟩
    · simp [dirVm, namTxt, h1]
    · simp only [rdDir, if_true, rdCell, rdSym_sym h4, h2]
      split
      · next e => cases e
      · next e => cases e
      · next y e =>
        cases e
        rcases h3 '-' (by simp) with h | h <;> exact absurd h (by decide)
      · next e => cases e; rw [h2]
      · next e => cases e
  | db v =>
    refine ⟨t!"DB", decI v, rfl, by decide, by decide, (clean_decI v).nl, ?_⟩
    simp [rdDir, rdInt_decI]
  | bs v =>
    refine ⟨t!"BS", decI v, rfl, by decide, by decide, (clean_decI v).nl, ?_⟩
    simp [rdDir, rdInt_decI]
  | ws v =>
    refine ⟨t!"WS", decI v, rfl, by decide, by decide, (clean_decI v).nl, ?_⟩
    simp [rdDir, rdInt_decI]
  | str s =>
    have ho : '\n' ∉ s.toList := ho
    refine ⟨t!"STRING", '"' :: s.toList ++ t!"\"", ?_, by decide, by decide, by simp [ho], ?_⟩
    · simp [dirVm]
    · simp [rdDir, rdStr]

theorem rdHead_sym {s : Sym} (h : Plainly s) : rdHead id (symTxt s) = some [.nam (id s)] := by
  unfold rdHead
  rw [if_neg (by unfold symTxt; simp), rdSym_sym h]
  rfl

theorem rdHead_lab (n : Nat) : rdHead id (t!".L" ++ dec n) = some [.lab n] := by
  unfold rdHead
  have := rdSym_lbl (.L n)
  rw [Lbl.text] at this
  rw [if_neg (by simp), this]
  rfl

/-- A line with a directive. -/
theorem read_cell {s m z xs : Text} {a ds : List Dir} {d : Dir} (hs : Clean s) (hm : '\t' ∉ m) (hm' : '\n' ∉ m) (hz : '\n' ∉ z)
    (ha : rdHead id s = some a) (hd : rdDir id m z = some d) (h : readData id xs = some ds) :
    readData id (s ++ ('\t' :: m ++ '\t' :: z ++ t!"\n" ++ xs)) = some (a ++ d :: ds) := by
  have e : s ++ ('\t' :: m ++ '\t' :: z ++ t!"\n" ++ xs) = (s ++ '\t' :: (m ++ '\t' :: z)) ++ '\n' :: xs := by simp
  have hn : '\n' ∉ s ++ '\t' :: (m ++ '\t' :: z) := by
    have := hs.nl
    simp [*]
  unfold readData at h ⊢
  rw [e, split_cons hn, rdDataLines, rdDataLine, cut_some hs.tab]
  simp only [cut_some hm, ha, hd, h, Option.bind_some, Option.map_some]
  simp

/-- A line with a label only. -/
theorem read_head {s xs : Text} {a ds : List Dir} (hs : Clean s) (ha : rdHead id s = some a) (h : readData id xs = some ds) :
    readData id (s ++ t!"\n" ++ xs) = some (a ++ ds) := by
  have e : s ++ t!"\n" ++ xs = s ++ '\n' :: xs := by simp
  unfold readData at h ⊢
  rw [e, split_cons hs.nl, rdDataLines, rdDataLine, cut_none hs.tab]
  simp only [ha, h, Option.bind_some, Option.map_some]

theorem read_nil : readData id [] = some [] := rfl

/-- What vm2vm.c prints is read back. -/
theorem read_vm : ∀ {ds : List Dir}, (∀ d ∈ ds, DirOk N id d) → ∃ x, printAll (dirVm N) ds = some x ∧ readData id x = some ds
  | [], _ => ⟨[], rfl, read_nil⟩
  | d :: ds, h => by
    obtain ⟨xs, h1, h2⟩ := read_vm fun k hk => h k (List.mem_cons_of_mem _ hk)
    have hd := h d (by simp)
    by_cases hc : d.isCell = true
    · obtain ⟨m, z, k1, k2, k3, k4, k5⟩ := rdDir_text hc hd
      exact ⟨_, by rw [printAll, k1, h1]; rfl, read_cell (s := []) clean_nil k2 k3 k4 rfl k5 h2⟩
    · cases d with
      | lab n => exact ⟨_, by rw [printAll, h1]; rfl, read_head (clean_lbl (.L n)) (rdHead_lab n) h2⟩
      | nam i =>
        obtain ⟨s, k1, k2, k3, k4⟩ := hd
        refine ⟨_, by rw [printAll, h1, dirVm, namTxt, k1]; rfl, ?_⟩
        rw [read_head (clean_sym k3) (rdHead_sym k4) h2, k2]
        rfl
      | _ => exact absurd rfl hc

/-- The list begins with a cell. -/
def cellFirst : List Dir → Bool
  | d :: _ => d.isCell
  | [] => false

/-- The address of a function. -/
def isAddr : Dir → Bool
  | .dwNam _ => true
  | _ => false

/-- Labels and names are followed by a cell, and there is no address of a function. -/
def paired : List Dir → Bool
  | [] => true
  | d :: ds => !isAddr d && (d.isCell || cellFirst ds) && paired ds

theorem paired_cons {d : Dir} {ds : List Dir} (h : paired (d :: ds) = true) : paired ds = true ∧ (∀ i, d ≠ .dwNam i) ∧
    (d.isCell = true ∨ ∃ k ks, ds = k :: ks ∧ k.isCell = true) := by
  simp only [paired, Bool.and_eq_true, Bool.or_eq_true, Bool.not_eq_true'] at h
  refine ⟨h.2, fun i e => ?_, h.1.2.imp (fun h => h) fun h => ?_⟩
  · rw [e] at h; cases h.1.1
  · cases ds with
    | nil => cases h
    | cons k ks => exact ⟨k, ks, rfl, h⟩

theorem dirTac_cell {t : T} {d : Dir} (hc : d.isCell = true) (hn : ∀ i, d ≠ .dwNam i) : dirTac N t d = dirVm N d := by
  cases d with
  | lab => cases hc
  | nam => cases hc
  | dwNam i => exact absurd rfl (hn i)
  | _ => rfl

/-- What vm2tac.c prints is read back, if there is no address of a function. -/
theorem read_tac {t : T} : ∀ {ds : List Dir}, (∀ d ∈ ds, DirOk N id d) → paired ds = true →
    ∃ x, printAll (dirTac N t) ds = some x ∧ readData id x = some ds
  | [], _, _ => ⟨[], rfl, read_nil⟩
  | d :: ds, h, hp => by
    obtain ⟨p1, p2, p3⟩ := paired_cons hp
    have hd := h d (by simp)
    by_cases hc : d.isCell = true
    · obtain ⟨xs, h1, h2⟩ := read_tac (t := t) (fun k hk => h k (List.mem_cons_of_mem _ hk)) p1
      obtain ⟨m, z, k1, k2, k3, k4, k5⟩ := rdDir_text hc hd
      exact ⟨_, by rw [printAll, dirTac_cell hc p2, k1, h1]; rfl, read_cell (s := []) clean_nil k2 k3 k4 rfl k5 h2⟩
    · obtain ⟨k, ks, rfl, hk⟩ := p3.resolve_left hc
      obtain ⟨q1, q2, -⟩ := paired_cons p1
      obtain ⟨xs, h1, h2⟩ := read_tac (t := t) (fun k hk => h k (List.mem_cons_of_mem _ (List.mem_cons_of_mem _ hk))) q1
      obtain ⟨m, z, k1, k2, k3, k4, k5⟩ := rdDir_text hk (h k (by simp))
      cases d with
      | lab n =>
        exact ⟨_, by rw [printAll, printAll, dirTac_cell hk q2, k1, h1]; rfl,
          read_cell (s := t!".L" ++ dec n) (clean_lbl (.L n)) k2 k3 k4 (rdHead_lab n) k5 h2⟩
      | nam i =>
        obtain ⟨s, e1, e2, e3, e4⟩ := hd
        refine ⟨_, by rw [printAll, printAll, dirTac_cell hk q2, k1, h1, dirTac, namTxt, e1]; rfl, ?_⟩
        rw [read_cell (s := symTxt s) (clean_sym e3) k2 k3 k4 (rdHead_sym e4) k5 h2, e2]
        rfl
      | _ => exact absurd rfl hc

end Cmm.Tac
