/-
Model of the data part of the code generator, src/vmCode.c:684-810.

Simplifications:
* The tree of an initialisation is the value `DT`; the functions that write rVal of a node
  (sySetRVal) return the changed tree. No node is shared, so this is faithful.
* C `int` counters are natural numbers; products of array sizes are assumed to fit.
* error() is the directive `bug`.
-/
namespace Cmm.Gen

/-- Data directives (vm.h, DW DB BS WS, names and labels). -/
inductive Dir
  | lab (n : Nat) | nam (i : Int) | dw (v : Int) | dwLab (l : Int) | dwNam (i : Int)
  | db (v : Int) | bs (n : Int) | ws (n : Int) | str (s : String) | bug
deriving DecidableEq, Repr

/-- The trees the parser builds for initial values (parser.c:1047-1164): SyCNST, SyADDR, SySTR,
SySEMI, SyLIST and SyARRY (with rVal), anything else. -/
inductive DT
  | cnst (v : Int) | addr (n : Int) | str (l : Int) | other
  | semi (l r : DT) | list (b : DT) (r : Int) | arry (d : DT) (r : Int)
deriving DecidableEq, Repr

/-- vmCode.c:688-705 genDW -/
def genDW : DT → Dir
  | .list _ r => .dwLab r
  | .arry _ r => .dwLab r
  | .str l => .dwLab l
  | .addr n => .dwNam n
  | .cnst v => .dw v
  | _ => .bug

/-- vmCode.c:721-729 The `cnt` entries of one table. -/
def tab (ln : Int) : Nat → List Dir
  | 0 => []
  | cnt + 1 => .dwLab ln :: tab (ln + 1) cnt

/-- vmCode.c:721-729 `n` tables of `cnt` entries; `m` is the label counter. -/
def tabs (cnt : Nat) : Nat → Int → Nat → List Dir
  | 0, _, _ => []
  | n + 1, ln, m => .lab (m + 1) :: (tab ln cnt ++ tabs cnt n (ln + cnt) (m + 1))

/-- vmCode.c:731-737 `n` areas. -/
def areas (d : Dir) : Nat → Nat → List Dir
  | 0, _ => []
  | n + 1, m => .lab (m + 1) :: d :: areas d n (m + 1)

/-- The label of the first of `n` objects numbered from `m + 1` (variable lab of genArray0). -/
def firstLab (n m : Nat) : Int := if n = 0 then -1 else (m : Int) + 1

/-- vmCode.c:708-739 genArray0: code, first label, label counter. -/
def genArray0 : DT → Nat → Int → Nat → List Dir × Int × Nat
  | .semi l (.cnst cnt), n, d, m =>
    let (c, ln, m) := genArray0 l (n * cnt.toNat) (d - 1) m
    (c ++ tabs cnt.toNat n ln m, firstLab n m, m + n)
  | .cnst v, n, d, m =>
    (areas (if d = 1 then .bs v else .ws v) n m, firstLab n m, m + n)
  | _, _, _, m => ([.bug], -1, m)

/-- vmCode.c:741-746 genArray: code and the new rVal. -/
def genArray (d : DT) (r : Int) (m : Nat) : List Dir × Int × Nat := genArray0 d 1 r m

/-- vmCode.c:754-762 An element at the depth whose code is generated. -/
def genElm (byt : Bool) (t : DT) : Dir :=
  if byt then (match t with | .cnst v => .db v | _ => .bug) else genDW t

/-- vmCode.c:749-775 genList0: code, the changed tree, label counter. -/
def genList0 : DT → Nat → Bool → Nat → List Dir × DT × Nat
  | .semi l r, dim, byt, m =>
    let (c1, l, m) := genList0 l dim byt m
    let (c2, r, m) := genList0 r dim byt m
    (c1 ++ c2, .semi l r, m)
  | t, 0, byt, m => ([genElm byt t], t, m)
  | .list b r, dim + 1, _, m =>
    if dim = 0 then
      let (c, b, m') := genList0 b dim (r = 1) (m + 1)
      (.lab (m + 1) :: c, .list b (m + 1), m')
    else
      let (c, b, m') := genList0 b dim (r = 1) m
      (c, .list b r, m')
  | .arry d r, dim + 1, _, m =>
    if dim = 0 then
      let (c, r, m') := genArray d r m
      (c, .arry d r, m')
    else ([], .arry d r, m)
  | t, _ + 1, _, m => ([], t, m)

/-- vmCode.c:777-783 genList, the loop from `dim` down to 1. -/
def genListLoop : Nat → DT → Nat → List Dir × DT × Nat
  | 0, t, m => ([], t, m)
  | dim + 1, t, m =>
    let (c1, t, m) := genList0 t (dim + 1) false m
    let (c2, t, m) := genListLoop dim t m
    (c1 ++ c2, t, m)

/-- vmCode.c:777-783 genList -/
def genList (t : DT) (dim : Nat) (m : Nat) : List Dir × DT × Nat := genListLoop (dim + 1) t m

/-- vmCode.c:786-796 genData: code and label counter; `dim` is ntGetDim(idx). -/
def genData (idx : Int) (dim : Nat) (t : DT) (m : Nat) : List Dir × Nat :=
  let (c, t, m) := match t with
    | .list b r => genList (.list b r) dim m
    | .arry d r => let (c, r, m) := genArray d r m; (c, .arry d r, m)
    | t => ([], t, m)
  (c ++ [.nam idx, genDW t], m)

/-- vmCode.c:799-802 genBss -/
def genBss (idx : Int) : List Dir := [.nam idx, .ws 1]

/-- vmCode.c:805-810 genStr: code, label, label counter. -/
def genStr (s : String) (m : Nat) : List Dir × Int × Nat :=
  ([.lab (m + 1), .str s], m + 1, m + 1)

/-- parser.c:1047-1057 getArray0: the tree of array(n1, n2, ...). -/
def dimTree : List Nat → DT
  | [] => .other
  | [n] => .cnst n
  | n :: ns => .semi (dimTree ns) (.cnst n)

/- Reading the generated data. -/

/-- Directives that fill memory. -/
def Dir.isCell : Dir → Bool
  | .lab _ | .nam _ => false
  | _ => true

/-- What is written at label `l`: the directives behind it up to the next label or name. -/
def area : List Dir → Int → Option (List Dir)
  | [], _ => none
  | .lab k :: c, l => if (k : Int) = l then some (c.takeWhile Dir.isCell) else area c l
  | _ :: c, l => area c l

/-- The labels defined. -/
def dataLabs : List Dir → List Nat
  | [] => []
  | .lab k :: c => k :: dataLabs c
  | _ :: c => dataLabs c

end Cmm.Gen
