/-
Model of the name table (src/namtbl.c, src/namtbl.h).

The parallel arrays ntName, ntScope, ntType, ntDim, ntCnt, ntPub are one list of entries;
ntNextIdx is its length. Scopes and types are the integer codes of namtbl.h. `none` is error2().
Entries at and above ntNextIdx do not exist in the model: reading one is an error where the C
program reads whatever is left there.
-/
namespace Cmm.Parse

/-- namtbl.h:56-63 An entry of the table. -/
structure Ent where
  name : String
  scope : Int
  type : Int
  dim : Nat
  cnt : Nat
  pub : Bool
deriving DecidableEq, Repr

abbrev Tab := List Ent

/- namtbl.h:39-47 -/
abbrev ScVOID : Int := -2
abbrev ScSTRC : Int := -1
abbrev ScPROT : Int := 0
abbrev ScFUNC : Int := 1
abbrev ScCOMM : Int := 2
abbrev ScGVAR : Int := 3
abbrev ScLVAR : Int := 4
abbrev ScFLD : Int := 5
abbrev ScPRM : Int := 6

/- namtbl.h:52-60 -/
abbrev TyVOID : Int := 1
abbrev TyINT : Int := 2
abbrev TyCHAR : Int := 3
abbrev TyBOOL : Int := 4
abbrev TySTRUC : Int := 5
abbrev TyINTR : Int := 6
abbrev TyDOTDOTDOT : Int := 7
abbrev TyREF : Int := 8
abbrev TyNON : Int := 9

/-- namtbl.h:63 -/
abbrev NtMAX : Nat := 500

/-- The last index below `n` whose entry satisfies `p` (loops running downwards). -/
def lastIdx (p : Ent → Bool) (t : Tab) : Nat → Option Nat
  | 0 => none
  | n + 1 => match t[n]? with
    | some e => if p e then some n else lastIdx p t n
    | none => lastIdx p t n

/-- The first index in `i, ..., i+k-1` whose entry satisfies `p` (loops running upwards). -/
def firstIdx (p : Ent → Bool) (t : Tab) : Nat → Nat → Option Nat
  | _, 0 => none
  | i, k + 1 => match t[i]? with
    | some e => if p e then some i else firstIdx p t (i + 1) k
    | none => firstIdx p t (i + 1) k

/-- namtbl.c:45-51 ntSrcName -/
def srcName (t : Tab) (s : String) : Option Nat :=
  lastIdx (fun e => decide (e.scope ≥ ScPROT) && e.name == s) t t.length

/-- namtbl.c:54-59 ntSrcStruct -/
def srcStruct (t : Tab) (s : String) : Int :=
  match firstIdx (fun e => e.scope == ScSTRC && e.name == s) t 0 t.length with
  | some i => -(i : Int)
  | none => TyNON

/-- namtbl.c:62-67 ntSrcField: `n` is the (non-positive) type. -/
def srcField (t : Tab) (n : Int) (s : String) : Option Nat :=
  match t[(-n).toNat]? with
  | some e => firstIdx (fun e => e.name == s) t ((-n).toNat + 1) e.cnt
  | none => none

/-- namtbl.c:70-77 ntSrcGlob -/
def srcGlob (t : Tab) (n : Nat) : Option Nat :=
  match t[n]? with
  | some d => firstIdx (fun e => (e.scope == ScPROT || e.scope == ScFUNC || e.scope == ScCOMM ||
      e.scope == ScGVAR) && e.name == d.name) t 0 n
  | none => none

/-- namtbl.c:82-89 The entry `e` collides with a new name. -/
def collides (s : String) (scope : Int) (e : Ent) : Bool :=
  e.scope != ScVOID && e.name == s &&
  (scope == ScSTRC || e.scope == ScSTRC || (decide (scope ≥ ScLVAR) && e.scope == scope) ||
   (e.scope == ScPRM && scope == ScLVAR))

/-- namtbl.c:80-92 ntChkName -/
def chkName (t : Tab) (s : String) (scope : Int) : Option Nat :=
  firstIdx (collides s scope) t 0 t.length

/-- namtbl.c:99-112 ntDefName; the result is the new table, the index is the old length. -/
def defName (t : Tab) (e : Ent) : Option Tab :=
  if t.length ≥ NtMAX then none
  else if (chkName t e.name e.scope).isSome then none
  else some (t ++ [e])

/-- namtbl.c:130-135 ntUndefName -/
def undefName (t : Tab) (i : Nat) : Tab := t.take i

/-- namtbl.c:138-142 ntSetVoid -/
def setVoid (t : Tab) (i : Nat) : Tab :=
  t.take i ++ (t.drop i).map fun e => { e with scope := ScVOID }

/-- namtbl.h:92 ntSetScope -/
def setScope (t : Tab) (i : Nat) (s : Int) : Tab := t.modify i fun e => { e with scope := s }

/-- namtbl.h:95 ntSetCnt -/
def setCnt (t : Tab) (i : Nat) (c : Nat) : Tab := t.modify i fun e => { e with cnt := c }

end Cmm.Parse
