import Verif.Tac.DataText
import Verif.Tac.VmTextLemmas

/-
src/vm2ic.c: the back end that prints every call of a function of vm.h as it is; a reader of such text; the text is read back.

Simplifications:
* `cnt` is ntGetCnt (namtbl.c).
* A label that does not exist (-1) is an argument of vmBoolOR and vmBoolAND only.
-/
namespace Cmm.Tac
open Cmm.CText (Text dec decI)
open Cmm.Gen (Instr A1 A2 Dir)

/-- A call of a function of vm.h: one that generates code or one that generates data. -/
inductive Call
  | vm (v : Vm)
  | dir (d : Dir)
deriving DecidableEq

/-! ### vm2ic.c -/

/-- `%s()\n` -/
def ic0 (f : Text) : Option Text := some (f ++ t!"()\n")

/-- `%s(%d)\n` -/
def ic1 (f : Text) (x : Int) : Option Text := some (f ++ t!"(" ++ decI x ++ t!")\n")

/-- `%s(%d, %d)\n` -/
def ic2 (f : Text) (x y : Int) : Option Text := some (f ++ t!"(" ++ decI x ++ t!", " ++ decI y ++ t!")\n")

/-- `%s(%d, %d, %d)\n` -/
def ic3 (f : Text) (x y z : Int) : Option Text :=
  some (f ++ t!"(" ++ decI x ++ t!", " ++ decI y ++ t!", " ++ decI z ++ t!")\n")

/-- vm2ic.c:188-214 vmNeg … vmBool -/
def a1Name : A1 → Text
  | .NEG => t!"vmNeg" | .NOT => t!"vmNot" | .BNOT => t!"vmBNot" | .CHR => t!"vmChr" | .BOOL => t!"vmBool"

/-- vm2ic.c:218-310 vmAdd … vmNe -/
def a2Name : A2 → Text
  | .ADD => t!"vmAdd" | .SUB => t!"vmSub" | .SHL => t!"vmShl" | .SHR => t!"vmShr" | .BAND => t!"vmBAnd" | .BXOR => t!"vmBXor"
  | .BOR => t!"vmBOr" | .MUL => t!"vmMul" | .DIV => t!"vmDiv" | .MOD => t!"vmMod" | .GT => t!"vmGt" | .GE => t!"vmGe"
  | .LT => t!"vmLt" | .LE => t!"vmLe" | .EQ => t!"vmEq" | .NE => t!"vmNe"

/-- vm2ic.c:41-315 vmNam … vmPop. `bug` is error(), which does not return to the back end. -/
def icInstr (cnt : Int → Int) : Instr → Option Text
  | .nam f => ic1 t!"vmNam" f
  | .lab n => ic1 t!"vmLab" n
  | .entry d => ic1 t!"vmEntry" d
  | .entryK d => ic1 t!"vmEntryK" d
  | .ret => ic0 t!"vmRet"
  | .entryI d => ic1 t!"vmEntryI" d
  | .retI => ic0 t!"vmRetI"
  | .mreg => ic0 t!"vmMReg"
  | .arg => ic0 t!"vmArg"
  | .callP n f => ic2 t!"vmCallP" n f
  | .callF n f => ic2 t!"vmCallF" n f
  | .jmp n => ic1 t!"vmJmp" n
  | .jt n => ic1 t!"vmJT" n
  | .jf n => ic1 t!"vmJF" n
  | .ldC v => ic1 t!"vmLdCns" v
  | .ldG n => ic1 t!"vmLdGlb" n
  | .ldL n => ic1 t!"vmLdLoc" (cnt n)
  | .ldP n => ic1 t!"vmLdPrm" (cnt n + 1)
  | .ldLab n => ic1 t!"vmLdLab" n
  | .ldW => ic0 t!"vmLdWrd"
  | .ldB => ic0 t!"vmLdByt"
  | .ldNam n => ic1 t!"vmLdNam" n
  | .stG n => ic1 t!"vmStGlb" n
  | .stL n => ic1 t!"vmStLoc" (cnt n)
  | .stP n => ic1 t!"vmStPrm" (cnt n + 1)
  | .stW => ic0 t!"vmStWrd"
  | .stB => ic0 t!"vmStByt"
  | .a1 o => ic0 (a1Name o)
  | .a2 o => ic0 (a2Name o)
  | .pop => ic0 t!"vmPop"
  | .bug => none

/-- vm2ic.c:322-329 vmBoolOR and vmBoolAND; the label -1 is none. -/
def icVm (cnt : Int → Int) : Vm → Option Text
  | .i i => icInstr cnt i
  | .boolOR a b c => ic3 t!"vmBoolOR" a (b.elim (-1) fun n => n) c
  | .boolAND a b c => ic3 t!"vmBoolAND" a (b.elim (-1) fun n => n) c

/-- vm2ic.c:41-48 (names and labels), 335-367 -/
def icDir : Dir → Option Text
  | .lab n => ic1 t!"vmLab" n
  | .nam i => ic1 t!"vmNam" i
  | .dwNam i => ic1 t!"vmDwName" i
  | .dwLab l => ic1 t!"vmDwLab" l
  | .dw v => ic1 t!"vmDwCns" v
  | .db v => ic1 t!"vmDbCns" v
  | .ws n => ic1 t!"vmWs" n
  | .bs n => ic1 t!"vmBs" n
  | .str s => some (t!"vmStr(\"" ++ s.toList ++ t!"\")\n")
  | .bug => none

/-- What is printed for a call. -/
def icCall (cnt : Int → Int) : Call → Option Text
  | .vm v => icVm cnt v
  | .dir d => icDir d

/-- What is printed for a list of calls. -/
def icText (cnt : Int → Int) : List Call → Option Text
  | [] => some []
  | c :: cs => (icCall cnt c).bind fun x => (icText cnt cs).map fun xs => x ++ xs

/-! ### Specification: reading the text

A line is the name of a function and its arguments in parentheses, separated by a comma and a space: decimal numbers, for vmStr a string
between quotation marks. Numbers of labels are not negative; -1 as second argument of vmBoolOR and vmBoolAND is no label. Local variables
are numbered as printed, parameters are numbered from one in the text and from zero in the calls. -/

/-- The arguments. -/
def rdRest : List Text → Option (List Int)
  | [] => some []
  | (' ' :: x) :: xs => (rdInt x).bind fun n => (rdRest xs).map fun ns => n :: ns
  | _ => none

def rdArgs (x : Text) : Option (List Int) :=
  if x = [] then some [] else rdRest (split ',' (' ' :: x))

/-- A number that is not negative. -/
def nat? (n : Int) : Option Nat := if 0 ≤ n then some n.toNat else none

/-- A label or -1. -/
def lab? (n : Int) : Option (Option Nat) := if n = -1 then some none else (nat? n).map some

/-- Functions without arguments. -/
def rdIc0 : List (Text × Instr) :=
  [(t!"vmRet", .ret), (t!"vmRetI", .retI), (t!"vmMReg", .mreg), (t!"vmArg", .arg), (t!"vmLdWrd", .ldW), (t!"vmLdByt", .ldB),
    (t!"vmStWrd", .stW), (t!"vmStByt", .stB), (t!"vmPop", .pop),
    (t!"vmNeg", .a1 .NEG), (t!"vmNot", .a1 .NOT), (t!"vmBNot", .a1 .BNOT), (t!"vmChr", .a1 .CHR), (t!"vmBool", .a1 .BOOL),
    (t!"vmAdd", .a2 .ADD), (t!"vmSub", .a2 .SUB), (t!"vmShl", .a2 .SHL), (t!"vmShr", .a2 .SHR), (t!"vmBAnd", .a2 .BAND),
    (t!"vmBXor", .a2 .BXOR), (t!"vmBOr", .a2 .BOR), (t!"vmMul", .a2 .MUL), (t!"vmDiv", .a2 .DIV), (t!"vmMod", .a2 .MOD),
    (t!"vmGt", .a2 .GT), (t!"vmGe", .a2 .GE), (t!"vmLt", .a2 .LT), (t!"vmLe", .a2 .LE), (t!"vmEq", .a2 .EQ), (t!"vmNe", .a2 .NE)]

/-- Functions with a number as argument. -/
def rdIc1 : List (Text × (Int → Option Call)) :=
  [(t!"vmNam", fun n => some (.vm (.i (.nam n)))), (t!"vmLab", fun n => (nat? n).map fun n => .vm (.i (.lab n))),
    (t!"vmEntry", fun n => some (.vm (.i (.entry n)))), (t!"vmEntryK", fun n => some (.vm (.i (.entryK n)))),
    (t!"vmEntryI", fun n => some (.vm (.i (.entryI n)))), (t!"vmJmp", fun n => (nat? n).map fun n => .vm (.i (.jmp n))),
    (t!"vmJT", fun n => (nat? n).map fun n => .vm (.i (.jt n))), (t!"vmJF", fun n => (nat? n).map fun n => .vm (.i (.jf n))),
    (t!"vmLdCns", fun n => some (.vm (.i (.ldC n)))), (t!"vmLdGlb", fun n => some (.vm (.i (.ldG n)))),
    (t!"vmLdLoc", fun n => some (.vm (.i (.ldL n)))), (t!"vmLdPrm", fun n => some (.vm (.i (.ldP (n - 1))))),
    (t!"vmLdLab", fun n => some (.vm (.i (.ldLab n)))), (t!"vmLdNam", fun n => some (.vm (.i (.ldNam n)))),
    (t!"vmStGlb", fun n => some (.vm (.i (.stG n)))), (t!"vmStLoc", fun n => some (.vm (.i (.stL n)))),
    (t!"vmStPrm", fun n => some (.vm (.i (.stP (n - 1))))),
    (t!"vmDwName", fun n => some (.dir (.dwNam n))), (t!"vmDwLab", fun n => some (.dir (.dwLab n))),
    (t!"vmDwCns", fun n => some (.dir (.dw n))), (t!"vmDbCns", fun n => some (.dir (.db n))),
    (t!"vmWs", fun n => some (.dir (.ws n))), (t!"vmBs", fun n => some (.dir (.bs n)))]

/-- A function and its arguments. -/
def rdIc (f : Text) : List Int → Option Call
  | [] => (rdIc0.lookup f).map fun i => .vm (.i i)
  | [n] => (rdIc1.lookup f).bind fun g => g n
  | [n, i] =>
    if f = t!"vmCallP" then (nat? n).map fun n => .vm (.i (.callP n i))
    else if f = t!"vmCallF" then (nat? n).map fun n => .vm (.i (.callF n i))
    else none
  | [a, b, c] => (nat? a).bind fun a => (lab? b).bind fun b => (nat? c).bind fun c =>
    if f = t!"vmBoolOR" then some (.vm (.boolOR a b c))
    else if f = t!"vmBoolAND" then some (.vm (.boolAND a b c))
    else none
  | _ => none

/-- A line. -/
def rdIcLine (x : Text) : Option Call :=
  match cut '(' x with
  | (_, none) => none
  | (f, some y) =>
    if y.getLast? = some ')' then
      if f = t!"vmStr" then (rdStr y.dropLast).map .dir else (rdArgs y.dropLast).bind (rdIc f)
    else none

/-- The lines of a text; the last line is ended too. -/
def rdIcLines : List Text → Option (List Call)
  | [] => none
  | [x] => if x = [] then some [] else none
  | x :: xs => (rdIcLine x).bind fun c => (rdIcLines xs).map fun cs => c :: cs

/-- The calls of a text. -/
def readIc (x : Text) : Option (List Call) := rdIcLines (split '\n' x)

/-- The same call as a reader of the text sees it: with numbers of local variables and parameters instead of their indices in the name table. A
name or a label before data is the same call as before code. -/
def Call.seen (cnt : Int → Int) : Call → Call
  | .vm (.i i) => .vm (.i (slot cnt i))
  | .dir (.lab n) => .vm (.i (.lab n))
  | .dir (.nam n) => .vm (.i (.nam n))
  | c => c

/-- The call can be printed and strings are in one line. -/
def Call.Ok : Call → Prop
  | .vm (.i .bug) => False
  | .dir .bug => False
  | .dir (.str s) => '\n' ∉ s.toList
  | _ => True

/-! ### Lemmas -/

variable {cnt : Int → Int}

theorem nat?_nat (n : Nat) : nat? (n : Int) = some n := by simp [nat?]

theorem lab?_opt (b : Option Nat) : lab? (b.elim (-1) fun n => n) = some b := by
  cases b with
  | none => rfl
  | some n => simp [lab?, nat?]

/-- The arguments as printed. -/
def argTxt : List Int → Text
  | [] => []
  | [n] => decI n
  | n :: ns => decI n ++ t!", " ++ argTxt ns

theorem rdRest_args (n : Int) (ns : List Int) : rdRest (split ',' (' ' :: argTxt (n :: ns))) = some (n :: ns) := by
  induction ns generalizing n with
  | nil =>
    have h : ',' ∉ ' ' :: decI n := by simp [(clean_decI n).comma]
    simp [argTxt, split_none h, rdRest, rdInt_decI]
  | cons m ms ih =>
    have h : ',' ∉ ' ' :: decI n := by simp [(clean_decI n).comma]
    have e : ' ' :: argTxt (n :: m :: ms) = (' ' :: decI n) ++ ',' :: (' ' :: argTxt (m :: ms)) := by simp [argTxt]
    rw [e, split_cons h, rdRest, rdInt_decI, ih]
    rfl

theorem decI_ne (n : Int) : decI n ≠ [] := by
  intro h
  have := rdInt_decI n
  rw [h, show rdInt [] = none by decide +kernel] at this
  cases this

theorem rdArgs_args (ns : List Int) : rdArgs (argTxt ns) = some ns := by
  cases ns with
  | nil => rfl
  | cons n ns =>
    have h : argTxt (n :: ns) ≠ [] := by cases ns <;> simp [argTxt, decI_ne]
    rw [rdArgs, if_neg h, rdRest_args]

theorem argTxt_nl (ns : List Int) : '\n' ∉ argTxt ns := by
  induction ns with
  | nil => nofun
  | cons n ns ih => cases ns <;> simp [argTxt, (clean_decI n).nl]; simpa [argTxt] using ih

/-- A line that is a function with numbers as arguments. -/
theorem rdIcLine_call {f : Text} (hf : '(' ∉ f) (hs : f ≠ t!"vmStr") (ns : List Int) :
    rdIcLine (f ++ '(' :: (argTxt ns ++ t!")")) = rdIc f ns := by
  simp [rdIcLine, cut_some hf, hs, rdArgs_args]

/-- The text `x` is a line that is read as `c`. -/
def ReadsIc (x : Text) (c : Call) : Prop := ∃ y, x = y ++ t!"\n" ∧ '\n' ∉ y ∧ rdIcLine y = some c

theorem readsIc {f x : Text} {c : Call} (ns : List Int) (hx : x = f ++ '(' :: (argTxt ns ++ t!")") ++ t!"\n") (hf : '(' ∉ f) (hn : '\n' ∉ f)
    (hs : f ≠ t!"vmStr") (h : rdIc f ns = some c) : ReadsIc x c :=
  ⟨_, hx, by simp [hn, argTxt_nl], by rw [rdIcLine_call hf hs, h]⟩

theorem readsIc0 {f x : Text} {c : Call} (hx : ic0 f = some x) (hf : '(' ∉ f) (hn : '\n' ∉ f) (hs : f ≠ t!"vmStr")
    (h : rdIc f [] = some c) : ReadsIc x c := by
  cases hx
  exact readsIc [] (by simp [argTxt]) hf hn hs h

theorem readsIc1 {f x : Text} {n : Int} {c : Call} (hx : ic1 f n = some x) (hf : '(' ∉ f) (hn : '\n' ∉ f) (hs : f ≠ t!"vmStr")
    (h : rdIc f [n] = some c) : ReadsIc x c := by
  cases hx
  exact readsIc [n] (by simp [argTxt]) hf hn hs h

theorem readsIc2 {f x : Text} {n m : Int} {c : Call} (hx : ic2 f n m = some x) (hf : '(' ∉ f) (hn : '\n' ∉ f) (hs : f ≠ t!"vmStr")
    (h : rdIc f [n, m] = some c) : ReadsIc x c := by
  cases hx
  exact readsIc [n, m] (by simp [argTxt]) hf hn hs h

theorem readsIc3 {f x : Text} {n m k : Int} {c : Call} (hx : ic3 f n m k = some x) (hf : '(' ∉ f) (hn : '\n' ∉ f) (hs : f ≠ t!"vmStr")
    (h : rdIc f [n, m, k] = some c) : ReadsIc x c := by
  cases hx
  exact readsIc [n, m, k] (by simp [argTxt]) hf hn hs h

/-- Every call of an instruction is read back. -/
theorem readsIc_instr {i : Instr} (hi : i ≠ .bug) : ∃ x, icInstr cnt i = some x ∧ ReadsIc x (.vm (.i (slot cnt i))) := by
  cases i with
  | bug => exact (hi rfl).elim
  | a1 o => cases o <;> exact ⟨_, rfl, readsIc0 rfl (by decide) (by decide) (by decide) rfl⟩
  | a2 o => cases o <;> exact ⟨_, rfl, readsIc0 rfl (by decide) (by decide) (by decide) rfl⟩
  | callP n f | callF n f =>
    refine ⟨_, rfl, readsIc2 rfl (by decide) (by decide) (by decide) ?_⟩
    simp [rdIc, nat?_nat, slot]
  | lab n | jmp n | jt n | jf n =>
    refine ⟨_, rfl, readsIc1 rfl (by decide) (by decide) (by decide) ?_⟩
    simp [rdIc, rdIc1, List.lookup, nat?_nat, slot]
  | ldP n | stP n =>
    refine ⟨_, rfl, readsIc1 rfl (by decide) (by decide) (by decide) ?_⟩
    simp [rdIc, rdIc1, List.lookup, slot]
  | ldL n | stL n => exact ⟨_, rfl, readsIc1 rfl (by decide) (by decide) (by decide) rfl⟩
  | nam n | entry n | entryK n | entryI n | ldC n | ldG n | ldLab n | ldNam n | stG n =>
    exact ⟨_, rfl, readsIc1 rfl (by decide) (by decide) (by decide) rfl⟩
  | _ => exact ⟨_, rfl, readsIc0 rfl (by decide) (by decide) (by decide) rfl⟩

/-- Every call is read back. -/
theorem readsIc_call {c : Call} (hc : c.Ok) : ∃ x, icCall cnt c = some x ∧ ReadsIc x (c.seen cnt) := by
  cases c with
  | vm v =>
    cases v with
    | i i => exact readsIc_instr fun h => by subst h; exact hc
    | boolOR a b c | boolAND a b c =>
      refine ⟨_, rfl, readsIc3 rfl (by decide) (by decide) (by decide) ?_⟩
      simp [rdIc, nat?_nat, lab?_opt, Call.seen]
  | dir d =>
    cases d with
    | bug => exact hc.elim
    | lab n =>
      refine ⟨_, rfl, readsIc1 rfl (by decide) (by decide) (by decide) ?_⟩
      simp [rdIc, rdIc1, List.lookup, nat?_nat, Call.seen]
    | str s =>
      refine ⟨_, rfl, t!"vmStr(\"" ++ s.toList ++ t!"\")", by simp, by have : '\n' ∉ s.toList := hc; simpa using this, ?_⟩
      have e : t!"vmStr(\"" ++ s.toList ++ t!"\")" = t!"vmStr" ++ '(' :: (('"' :: s.toList ++ ['"']) ++ [')']) := by simp
      rw [e, rdIcLine, cut_some (by decide)]
      dsimp only
      rw [if_pos (List.getLast?_concat ..), if_pos rfl, List.dropLast_concat]
      simp [rdStr, Call.seen]
    | _ => exact ⟨_, rfl, readsIc1 rfl (by decide) (by decide) (by decide) rfl⟩

theorem readIc_line {y xs : Text} {c : Call} {cs : List Call} (hn : '\n' ∉ y) (hy : rdIcLine y = some c) (h : readIc xs = some cs) :
    readIc (y ++ '\n' :: xs) = some (c :: cs) := by
  unfold readIc at h ⊢
  obtain ⟨z, zs, e⟩ := split_ne '\n' xs
  rw [split_cons hn, e, rdIcLines, hy, ← e, h]
  · rfl
  · simp

/-- What is printed for a list of calls, followed by a text that can be read. -/
theorem readIc_append {cs ds : List Call} {x y : Text} (h : icText cnt cs = some x) (hc : ∀ c ∈ cs, c.Ok) (hy : readIc y = some ds) :
    readIc (x ++ y) = some (cs.map (Call.seen cnt) ++ ds) := by
  induction cs generalizing x with
  | nil => cases h; exact hy
  | cons c cs ih =>
    obtain ⟨x1, h1, z, rfl, h3, h4⟩ := readsIc_call (cnt := cnt) (hc c (by simp))
    rw [icText, h1, Option.bind_some] at h
    obtain ⟨xs, h5, rfl⟩ := Option.map_eq_some_iff.1 h
    have := readIc_line h3 h4 (ih h5 fun d hd => hc d (by simp [hd]))
    simpa using this

theorem icText_some {cs : List Call} (hc : ∀ c ∈ cs, c.Ok) : ∃ x, icText cnt cs = some x := by
  induction cs with
  | nil => exact ⟨_, rfl⟩
  | cons c cs ih =>
    obtain ⟨x, h, -⟩ := readsIc_call (cnt := cnt) (hc c (by simp))
    obtain ⟨xs, h'⟩ := ih fun d hd => hc d (by simp [hd])
    exact ⟨x ++ xs, by rw [icText, h, h']; rfl⟩

end Cmm.Tac
