import Verif.CText.Grammar

/-
Model of the printing functions of src/cCode.c (the translator to C, compiled without _RTC).

Simplifications: a tree is an inductive value; names are stored in the tree instead of indices of
the name table (ntGetName(lVal)); SyLOC, SyPRM and SyGLB all print their name and are one
constructor; the four index operators print alike and are one constructor; types are `Ty`
(printTypeName stops with error() for other values). The text is the list of characters written by
printf.
-/
namespace Cmm.CText

/-- Types (TyVOID, TyINT, TyBOOL, TyCHAR; a structure or a typedef, typ<=0). -/
inductive Ty | void | int | bool | char | named (x : Text)
deriving DecidableEq

/-- Unary operators printed by printOP (cCode.c:131-133). -/
inductive Un | neg | not | bnot
deriving DecidableEq

/-- Binary operators printed by printOP (cCode.c:134-153). -/
inductive Bi
  | add | sub | shl | shr | band | bxor | bor | mul | div | mod | gt | ge | lt | le | equ | neq | ass
  | comm | or | and
deriving DecidableEq

mutual
/-- Expressions. -/
inductive Exp
  | cnst (v : Int)
  | str (n : Nat)
  | var (x : Text)
  | addr (x : Text)
  | func (f : Text) (as : Args)
  | idx (a i : Exp)
  | dot (a : Exp) (x : Text)
  | chr (e : Exp)
  | bool (e : Exp)
  | size (t : Ty) (dim : Nat)
  | un (o : Un) (e : Exp)
  | bin (o : Bi) (l r : Exp)
/-- Arguments: SyNULL, one expression, or SySEMI. -/
inductive Args
  | nil
  | one (e : Exp)
  | semi (a b : Args)
end

/-- Statements. `ret`, `whl`: `none` is SyNULL. -/
inductive Stm
  | null
  | exp (e : Exp)
  | ifs (c : Exp) (s : Stm)
  | els (c : Exp) (s t : Stm)
  | whl (c re : Option Exp) (s : Stm)
  | dos (s : Stm) (c : Exp)
  | brk
  | cnt
  | ret (e : Option Exp)
  | var (t : Ty) (dim : Nat) (x : Text)
  | blk (s t : Stm)
  | semi (s t : Stm)

/-- printf %d of a natural number. -/
def dec (n : Nat) : Text :=
  if n < 10 then [Char.ofNat (48 + n)] else dec (n / 10) ++ [Char.ofNat (48 + n % 10)]

/-- printf %d -/
def decI (v : Int) : Text := if v < 0 then '-' :: dec v.natAbs else dec v.natAbs

/-- cCode.c:56-58 printStrLab -/
def strLab (n : Nat) : Text := t!"_cmm_" ++ dec n ++ t!"S"

/-- cCode.c:71-83 printTypeName -/
def typeName : Ty → Text
  | .void => t!"void "
  | .int => t!"int "
  | .bool => t!"char "
  | .char => t!"char "
  | .named x => x ++ t!" "

def Ty.isRef : Ty → Bool
  | .named _ => true
  | _ => false

/-- The number of stars (cCode.c:110-111); the loop prints none if it is negative. -/
def stars (t : Ty) (dim : Nat) (inst : Bool) : Nat :=
  (dim + if t.isRef then 1 else 0) - if inst then 1 else 0

/-- cCode.c:109-117 printType, sta = false -/
def ptype (t : Ty) (dim : Nat) (inst : Bool) : Text :=
  typeName t ++ List.replicate (stars t dim inst) '*'

/-- cCode.c:130-133 printOP -/
def Un.txt : Un → Text
  | .neg => t!"-"
  | .not => t!"!"
  | .bnot => t!"~"

/-- cCode.c:134-155 printOP -/
def Bi.txt : Bi → Text
  | .add => t!"+"
  | .sub => t!"-"
  | .shl => t!"<<"
  | .shr => t!">>"
  | .band => t!"&"
  | .bxor => t!"^"
  | .bor => t!"|"
  | .mul => t!"*"
  | .div => t!"/"
  | .mod => t!"%"
  | .gt => t!">"
  | .ge => t!">="
  | .lt => t!"<"
  | .le => t!"<="
  | .equ => t!"=="
  | .neq => t!"!="
  | .ass => t!"="
  | .comm => t!","
  | .or => t!"||"
  | .and => t!"&&"

mutual
/-- cCode.c:213-265 printExp, with printArryOp (186-191) and printDotOp (205-209). -/
def pexp : Exp → Text
  | .cnst v => decI v
  | .str n => strLab n
  | .var x => x
  | .addr x => t!"((int)&" ++ x ++ t!")"
  | .func f as => f ++ t!"(" ++ pargs as ++ t!")"
  | .idx a i => pexp a ++ t!"[" ++ pexp i ++ t!"]"
  | .dot a x => pexp a ++ t!"->" ++ x
  | .chr e => t!"(0xff&" ++ pexp e ++ t!")"
  | .bool e => t!"(0x01&" ++ pexp e ++ t!")"
  | .size t dim => t!"sizeof(" ++ ptype t dim true ++ t!")"
  | .un o e => t!"(" ++ o.txt ++ pexp e ++ t!")"
  | .bin o l r => t!"(" ++ pexp l ++ o.txt ++ pexp r ++ t!")"
/-- cCode.c:161-169 printArgs; nothing is printed if there are no arguments (cCode.c:235). -/
def pargs : Args → Text
  | .nil => []
  | .one e => pexp e
  | .semi a b => pargs a ++ t!"," ++ pargs b
end

/-- An optional expression. -/
def pexpO : Option Exp → Text
  | none => []
  | some e => pexp e

/-- cCode.c:351-371 traceTree with printIf, printEls, printWhl, printDo, printBrk, printCnt, printRet,
printVAR, printBLK (268-348). -/
def pstm : Stm → Text
  | .null => t!";\n"
  | .exp (.cnst _) => t!";\n"
  | .exp e => pexp e ++ t!";\n"
  | .ifs c s => t!"{if(" ++ pexp c ++ t!")" ++ pstm s ++ t!"}"
  | .els c s t => t!"if(" ++ pexp c ++ t!")" ++ pstm s ++ t!"else " ++ pstm t
  | .whl c re s => t!"for(;" ++ pexpO c ++ t!";" ++ pexpO re ++ t!")\n" ++ pstm s
  | .dos s c => t!"do" ++ pstm s ++ t!"while(" ++ pexp c ++ t!");\n"
  | .brk => t!"break;\n"
  | .cnt => t!"continue;\n"
  | .ret e => t!"return " ++ pexpO e ++ t!";\n"
  | .var t dim x => ptype t dim false ++ x ++ t!";\n"
  | .blk s t => t!"{\n" ++ pstm s ++ pstm t ++ t!"}\n"
  | .semi s t => pstm s ++ pstm t

/-- A parameter: its type, its dimension and its name, or `...` (cCode.c:378-384). -/
inductive Par | p (t : Ty) (dim : Nat) (x : Text) | dots

def ppar : Par → Text
  | .p t dim x => ptype t dim false ++ x
  | .dots => t!"..."

def ppars : List Par → Text
  | [] => []
  | [p] => ppar p
  | p :: q :: ps => ppar p ++ t!"," ++ ppars (q :: ps)

/-- A function: its name table entry and its tree. -/
structure Fn where
  pub : Bool
  ty : Ty
  dim : Nat
  name : Text
  pars : List Par
  body : Stm

/-- cCode.c:374-386 printFuncDcl with printGlobDcl (121-127). -/
def pdcl (f : Fn) : Text :=
  (if f.pub then [] else t!"static ") ++ ptype f.ty f.dim false ++ f.name ++ t!"(" ++
    ppars f.pars ++ t!")"

/-- genFunc turns a block at the root into a list (cCode.c:401-402). -/
def unblk : Stm → Stm
  | .blk s t => .semi s t
  | s => s

/-- cCode.c:396-405 genFunc (inhibitOut = false) -/
def pfn (f : Fn) : Text := pdcl f ++ t!"{\n" ++ pstm (unblk f.body) ++ t!"}\n"

/-- cCode.c:389-393 genProto (inhibitOut = false) -/
def pproto (f : Fn) : Text := pdcl f ++ t!";\n"

end Cmm.CText
