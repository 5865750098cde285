/-
Model of arrays with run-time checks in lib/SrcC/wrapper.h: allocation and the functions that check every access. An int has 32 bits, a
size_t and a pointer 64.
-/
namespace Cmm.CLib

/-- wrapper.h:51-57 The bytes before the elements of an array, and those of an element. -/
structure Kind where
  hdr : Nat
  elem : Nat

/-- wrapper.h:51 `_IA`: arrays of int. -/
def ia : Kind := ⟨4, 4⟩
/-- wrapper.h:54 `_CA`: arrays of char and boolean. -/
def caKind : Kind := ⟨4, 1⟩
/-- wrapper.h:57 `_RA`: arrays of references (4 bytes between `l` and the pointers are not used). -/
def ra : Kind := ⟨8, 8⟩

/-- An array: where it is, the bytes allocated there, and its field `l`. -/
structure Arr where
  base : Nat
  room : Nat
  l : BitVec 32

/-- What an allocation does: gives an array, ends the program, or is undefined. -/
inductive New
  | ok (a : Arr)
  | exit
  | undef

/-- wrapper.h:258-283 iMalloc, cMalloc, bMalloc, rMalloc with wrapper.c:86-93 _mAlloc: the size is a size_t, the parameter of _mAlloc an
int, that of malloc a size_t again. `malloc` gives the address, or none. Storing `l` takes 4 bytes. -/
def newArr (malloc : BitVec 64 → Option Nat) (k : Kind) (n : BitVec 32) : New :=
  let s : BitVec 32 := (BitVec.ofNat 64 k.hdr + BitVec.ofNat 64 k.elem * n.signExtend 64).setWidth 32
  match malloc (s.signExtend 64) with
  | none => .exit
  | some p => if 4 ≤ (s.signExtend 64).toNat then .ok ⟨p, (s.signExtend 64).toNat, n⟩ else .undef

/-- wrapper.h:61-98 _ICA, _CCA, _RCA: the address of an element; `none`: abort. A pointer that is NULL is `none`. -/
def elemAt (k : Kind) (p : Option Arr) (i : BitVec 32) : Option Int :=
  match p with
  | none => none
  | some a => if i.slt 0 || a.l.sle i then none else some (a.base + k.hdr + k.elem * i.toInt)

end Cmm.CLib
