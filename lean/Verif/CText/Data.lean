import Verif.CText.Print
import Verif.Parse.InitSyn

/-
src/cCode.c: the definitions that the C translator prints for initialised global variables.

Simplifications:
* Without `_RTC`.
* A definition is a record: the number of its label (`_cmm_%dT`), the type printed (the type of the name table and the number of `*`), and what is
  printed behind the label. error() (a bug of the compiler) is "no result".
* rVal of the trees is an integer; the label counters begin at any number.
-/
namespace Cmm.CText
open Cmm.Gen (DT dimTree)
open Cmm.Parse (Tab Ent Kind Says Basic TyVOID TyINT TyCHAR TyBOOL ScVOID)

/-- What is printed for an element of a list: a number, `_cmm_%dT`, `&_cmm_%dT`, `_cmm_%dS`. -/
inductive Cell
  | num (v : Int) | tmp (l : Nat) | adr (l : Nat) | str (l : Int)
deriving DecidableEq

/-- What is printed behind the label: `[n];`, `[]={...};`, `={...};`. -/
inductive Body
  | room (n : Int) | arr (cs : List Cell) | inst (cs : List Cell)
deriving DecidableEq

/-- A definition `static T*..._cmm_%dT...`. -/
structure Obj where
  lab : Nat
  ty : Int
  stars : Nat
  body : Body
deriving DecidableEq

/-- cCode.c:109-117 printType: the number of `*`. -/
def starsOf (ty dim : Int) (inst : Bool) : Nat :=
  ((if ty ≤ 0 then dim + 1 else dim) - (if inst then 1 else 0)).toNat

/-- cCode.c:425-435 printPtrArray, called `n` times (cCode.c:459-462); `cnt` labels from `ln`, at least one. -/
def ptrArrays (ty dim : Int) (cnt : Nat) : Nat → Nat → Nat → List Obj
  | 0, _, _ => []
  | n + 1, ln, t =>
    ⟨t, ty, starsOf ty dim true, .arr ((List.range' ln (1 + (cnt - 1))).map .tmp)⟩ :: ptrArrays ty dim cnt n (ln + cnt) (t + 1)

/-- cCode.c:465-472 `n` areas. -/
def rooms (ty dim : Int) (v : Int) : Nat → Nat → List Obj
  | 0, _ => []
  | n + 1, t => ⟨t, ty, starsOf ty dim true, .room v⟩ :: rooms ty dim v n (t + 1)

/-- cCode.c:447-475 printArray0: definitions, first label, label counter. -/
def printArray0 (ty : Int) : Int → DT → Nat → Nat → Option (List Obj × Nat × Nat)
  | dim, .semi l (.cnst size), cnt, t => do
    let (os, ln, t) ← printArray0 ty (dim - 1) l (cnt * size.toNat) t
    some (os ++ ptrArrays ty dim size.toNat cnt ln t, t, t + cnt)
  | dim, .cnst v, cnt, t => some (rooms ty dim v cnt t, t, t + cnt)
  | _, _, _, _ => none

/-- cCode.c:494-528 printList2. -/
def printList2 (ty dim : Int) : DT → Option (List Cell)
  | .semi l r => do
    let a ← printList2 ty dim l
    let b ← printList2 ty dim r
    some (a ++ b)
  | .list _ r | .arry _ r => some [if ty ≤ 0 ∧ dim ≤ 1 then .adr r.toNat else .tmp r.toNat]
  | .cnst v => some [.num v]
  | .str l => some [.str l]
  | _ => none

/-- cCode.c:532-561 printList1 and printList0 (for SyLIST): definitions, the changed tree, label counter. -/
def printList1 (ty : Int) : Int → DT → Nat → Option (List Obj × DT × Nat)
  | dim, .semi l r, t => do
    let (a, l, t) ← printList1 ty dim l t
    let (b, r, t) ← printList1 ty dim r t
    some (a ++ b, .semi l r, t)
  | dim, .list b _, t => do
    let (a, b, t) ← printList1 ty (dim - 1) b t
    let cs ← printList2 ty dim b
    some (a ++ [⟨t, ty, starsOf ty dim true, if 0 < dim then .arr cs else .inst cs⟩], .list b t, t + 1)
  | dim, .arry d _, t => do
    let (a, ln, t) ← printArray0 ty dim d 1 t
    some (a, .arry d ln, t)
  | _, .cnst v, t => some ([], .cnst v, t)
  | _, .str l, t => some ([], .str l, t)
  | _, _, _ => none

/-- What is printed behind the name of the variable and `=`: an element, or an expression (printExp). -/
inductive Value
  | cell (c : Cell) | exp (t : DT)
deriving DecidableEq

/-- cCode.c:478-491, 564-578, 581-598 printArray, printList and genData: the definitions before the one of the variable, its value, the label
counter. For SyCNST and SySTR printExp (cCode.c:214-226) prints what printList2 does. -/
def genData (ty : Int) (dim : Nat) : DT → Nat → Option (List Obj × Value × Nat)
  | .arry d _, t => do
    let (a, ln, t) ← printArray0 ty dim d 1 t
    some (a, .cell (.tmp ln), t)
  | .list b r, t => do
    let (a, b, t) ← printList1 ty dim (.list b r) t
    match b with
    | .list _ l => some (a, .cell (if dim = 0 then .adr l.toNat else .tmp l.toNat), t)
    | _ => none
  | .cnst v, t => some ([], .cell (.num v), t)
  | .str l, t => some ([], .cell (.str l), t)
  | d, t => some ([], .exp d, t)

/-! ### The text -/

/-- cCode.c:71-84 printTypeName, for the types of variables; `N` gives the names of structures and typedefs. -/
def tyText (N : Nat → Text) (ty : Int) : Text :=
  (if ty = TyVOID then t!"void" else if ty = TyINT then t!"int" else if ty = TyBOOL ∨ ty = TyCHAR then t!"char" else N (-ty).toNat) ++ t!" "

/-- cCode.c:51-53 printTmpLab. -/
def tmpText (n : Nat) : Text := t!"_cmm_" ++ dec n ++ t!"T"

/-- cCode.c:494-524, one element. Labels of strings are numbered from 0. -/
def cellText : Cell → Text
  | .num v => decI v
  | .tmp l => tmpText l
  | .adr l => '&' :: tmpText l
  | .str l => strLab l.toNat

/-- The definition as it is printed. -/
def objText (N : Nat → Text) (o : Obj) : Text :=
  t!"static " ++ tyText N o.ty ++ List.replicate o.stars '*' ++ tmpText o.lab ++
  match o.body with
  | .room n => t!"[" ++ decI n ++ t!"];\n"
  | .arr cs => t!"[]={" ++ ([',']).intercalate (cs.map cellText) ++ t!"};\n"
  | .inst cs => t!"={" ++ ([',']).intercalate (cs.map cellText) ++ t!"};\n"

/-- cCode.c:581-598: the text for a variable; printGlobDcl (cCode.c:120-126). An expression is not printed here. -/
def varText (N : Nat → Text) (pub : Bool) (name : Text) (ty : Int) (dim : Nat) (d : DT) (t : Nat) : Option (Text × Nat) :=
  match genData ty dim d t with
  | some (os, .cell c, t) => some (os.flatMap (objText N) ++ (if pub then [] else t!"static ") ++ tyText N ty ++
      List.replicate (starsOf ty dim false) '*' ++ name ++ t!"=" ++ cellText c ++ t!";\n", t)
  | _ => none

/-! ### Specification: C

A label of an array is a pointer to its first element, `&` of a label of a structure is a pointer to it (C11 6.3.2.1, 6.5.3.2); an initial value of
a pointer is a pointer of the same type or 0 (6.7.9, 6.5.16.1); elements and members are initialised in order (6.7.9); there are no arrays of
void (6.2.5). A reference of C-- to an array is a pointer to its elements, a reference to a structure is a pointer to it. -/

/-- The C type of a variable of C--: the basic type or structure and the number of `*`. -/
def cty (ty : Int) (dim : Nat) : Int × Nat := (ty, if ty ≤ 0 then dim + 1 else dim)

/-- The members of the structure with the entry `i`: the entries behind it that are out of the reach of names. -/
def members (T : Tab) (i : Nat) : List (Int × Nat) := ((T.drop (i + 1)).takeWhile fun e => e.scope == ScVOID).map fun e => cty e.type e.dim

/-- The element can be an initial value of an object of the type, after the definitions `os`. -/
inductive CellOk (os : List Obj) : Int × Nat → Cell → Prop
  | num {ty v} : Basic ty → CellOk os (ty, 0) (.num v)
  | null {ty s} : CellOk os (ty, s + 1) (.num 0)
  | str {l} : CellOk os (TyCHAR, 1) (.str l)
  | arr {o cs} : o ∈ os → o.body = .arr cs → CellOk os (o.ty, o.stars + 1) (.tmp o.lab)
  | room {o n} : o ∈ os → o.body = .room n → CellOk os (o.ty, o.stars + 1) (.tmp o.lab)
  | adr {o cs} : o ∈ os → o.body = .inst cs → CellOk os (o.ty, o.stars + 1) (.adr o.lab)

/-- The definition `o` is correct after the definitions `os`. -/
def ObjOk (T : Tab) (os : List Obj) (o : Obj) : Prop :=
  match o.body with
  | .room n => 0 < n ∧ (o.ty, o.stars) ≠ (TyVOID, 0)
  | .arr cs => cs ≠ [] ∧ (o.ty, o.stars) ≠ (TyVOID, 0) ∧ ∀ c ∈ cs, CellOk os (o.ty, o.stars) c
  | .inst cs => o.ty ≤ 0 ∧ o.stars = 0 ∧ List.Forall₂ (CellOk os) (members T (-o.ty).toNat) cs

/-- All definitions are correct, in their order. -/
def Correct (T : Tab) (os : List Obj) : Prop := ∀ a o b, os = a ++ o :: b → ObjOk T a o

/-- The object with the label `l`. -/
def At (os : List Obj) (l : Nat) (b : Body) : Prop := ∃ o ∈ os, o.lab = l ∧ o.body = b

/-- The arrays with the labels `ls` have the dimensions `ns`. -/
def Arrays (os : List Obj) : List Nat → List Nat → Prop
  | [], _ => False
  | [n], ls => ∀ l ∈ ls, At os l (.room n)
  | n :: ns, ls => ∃ lss : List (List Nat), List.Forall₂ (fun l sub => At os l (.arr (sub.map .tmp)) ∧ sub.length = n) ls lss ∧
      Arrays os ns lss.flatten

/-- The elements `cs` stand for the values of the tree, in order. -/
def Means (os : List Obj) : DT → List Cell → Prop
  | .cnst v, cs => cs = [.num v]
  | .str l, cs => cs = [.str l]
  | .semi l r, cs => ∃ a b, cs = a ++ b ∧ Means os l a ∧ Means os r b
  | .list b _, cs => ∃ l as, (cs = [.tmp l] ∧ At os l (.arr as) ∨ cs = [.adr l] ∧ At os l (.inst as)) ∧ Means os b as
  | .arry d _, cs => ∃ l ns, cs = [.tmp l] ∧ d = dimTree ns ∧ Arrays os ns [l]
  | _, _ => False

/-- The label that an element refers to. -/
def Cell.ref : Cell → List Nat
  | .tmp l | .adr l => [l]
  | _ => []

/-- The labels that an object refers to. -/
def Obj.refs (o : Obj) : List Nat :=
  match o.body with
  | .room _ => []
  | .arr cs | .inst cs => cs.flatMap Cell.ref

/-- Trees of initial values whose constants are numbers: as the grammar `Says` of C70, without the tokens. -/
inductive Init (T : Tab) : Kind → DT → Prop
  | cst {ty v} : Basic ty → Init T (.val ty 0) (.cnst v)
  | nulS {ty} : ty ≤ 0 → Init T (.val ty 0) (.cnst 0)
  | nulA {ty dim} : Init T (.val ty (dim + 1)) (.cnst 0)
  | str {l} : Init T (.val TyCHAR 1) (.str l)
  | arr {ty dim d r} : Init T (.sizes (dim + 1)) d → Init T (.val ty (dim + 1)) (.arry d r)
  | list {ty dim d r} : Init T (.vals ty dim) d → Init T (.val ty (dim + 1)) (.list d r)
  | struct {ty j d r} : ty ≤ 0 → Init T (.fields ((-ty).toNat + 1) j) d → (∀ e, T[j]? = some e → e.scope ≠ ScVOID) →
      Init T (.val ty 0) (.list d r)
  | one {ty dim d} : Init T (.val ty dim) d → Init T (.vals ty dim) d
  | more {ty dim d e} : Init T (.vals ty dim) d → Init T (.val ty dim) e → Init T (.vals ty dim) (.semi d e)
  | first {i e d} : T[i]? = some e → e.scope = ScVOID → Init T (.field e.type e.dim) d → Init T (.fields i (i + 1)) d
  | next {i j e d f} : Init T (.fields i j) d → T[j]? = some e → e.scope = ScVOID → Init T (.field e.type e.dim) f →
      Init T (.fields i (j + 1)) (.semi d f)
  | fldC {ty v} : Basic ty → Init T (.field ty 0) (.cnst v)
  | fldN {ty dim} : ty ≤ 0 ∨ 0 < dim → Init T (.field ty dim) (.cnst 0)
  | fldS {l} : Init T (.field TyCHAR 1) (.str l)
  | size {n v} : 0 < v → Init T (.sizes (n + 1)) (.cnst v)
  | sizes {n v l} : 0 < v → Init T (.sizes n) l → Init T (.sizes (n + 1)) (.semi l (.cnst v))

end Cmm.CText
