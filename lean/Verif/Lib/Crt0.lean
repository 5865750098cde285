import Verif.Lib.Mem

/-
Model of the routines of lib/SrcTac/crt0.s, one definition per routine, registers as local
values. `carry` is the TaC carry flag: set by an addition whose unsigned sum does not fit,
by a subtraction or comparison that borrows, and by `shll` with the bit shifted out; `ld` and
`st` leave the flags alone (the routines rely on it).
Simplification: control flow inside a routine is written as structured code, the caller's
stack (arguments, saved g3) is the argument list.
-/
namespace Cmm.Crt0

/-- Carry out of `a + b`. -/
def carryAdd (a b : Word) : Bool := decide (65536 ≤ a.toNat + b.toNat)
/-- Borrow of `a - b` (also the carry flag after `cmp a,b`). -/
def carrySub (a b : Word) : Bool := decide (a.toNat < b.toNat)
/-- The bit `shll a,#1` shifts out. -/
def carryShl (a : Word) : Bool := decide (32768 ≤ a.toNat)

/-- crt0.s:85-95 `__uCmp`, `__aCmp`. `jhi` jumps when the unsigned comparison is "higher". -/
def uCmp (a b : Word) : Word :=
  if ¬ carrySub a b ∧ a - b ≠ 0 then 1#16
  else if a - b = 0 then 0#16
  else -1#16

/-- crt0.s:79-82 `__addrAdd`. -/
def addrAdd (a i : Word) : Word := a + i

/-- crt0.s:104-116 `__add32`. -/
def add32 (m : Mem) (dst src : Word) : Word × Mem :=
  let lo := m.lw (dst + 2)
  let slo := m.lw (src + 2)
  let m := m.sw (dst + 2) (lo + slo)
  let hi := m.lw dst
  let hi := if carryAdd lo slo then hi + 1 else hi
  let m := m.sw dst (hi + m.lw src)
  (dst, m)

/-- crt0.s:119-131 `__sub32`. -/
def sub32 (m : Mem) (dst src : Word) : Word × Mem :=
  let lo := m.lw (dst + 2)
  let slo := m.lw (src + 2)
  let m := m.sw (dst + 2) (lo - slo)
  let hi := m.lw dst
  let hi := if carrySub lo slo then hi - 1 else hi
  let m := m.sw dst (hi - m.lw src)
  (dst, m)

/-- crt0.s:140-150, one round `.A1`..`.A4` of the multiplication on (g1,g2). -/
def mulStep (src : Word) (g : Word × Word) : Word × Word :=
  let g0 := if carryShl g.1 then src else 0#16
  let g1 := g.1 <<< 1
  let c := carryShl g.2
  let g2 := g.2 <<< 1
  let g1 := if c then g1 + 1 else g1
  let c := carryAdd g2 g0
  let g2 := g2 + g0
  let g1 := if c then g1 + 1 else g1
  (g1, g2)

/-- Repeat a round `n` times (the counter registers g3 and g0 of the routines). -/
def rounds {α : Type} (f : α → α) : Nat → α → α
  | 0, x => x
  | n+1, x => rounds f n (f x)

/-- crt0.s:134-156 `__mul32`. -/
def mul32 (m : Mem) (dst src : Word) : Word × Mem :=
  let g := rounds (mulStep src) 16 (m.lw (dst + 2), 0#16)
  let m := m.sw dst g.1
  let m := m.sw (dst + 2) g.2
  (dst, m)

/-- crt0.s:166-169 `.D1`: subtract the divisor if possible, on (g1,g2,g3). -/
def divSub (src : Word) (g : Word × Word × Word) : Word × Word × Word :=
  if carrySub g.1 src then g else (g.1 - src, g.2.1, g.2.2 + 1)

/-- crt0.s:172-176: shift dividend and quotient. -/
def divShift (g : Word × Word × Word) : Word × Word × Word :=
  let g1 := g.1 <<< 1
  let c := carryShl g.2.1
  let g2 := g.2.1 <<< 1
  let g1 := if c then g1 + 1 else g1
  (g1, g2, g.2.2 <<< 1)

/-- crt0.s:166-176: the 17 rounds, the shift being done between rounds only. -/
def divLoop (src : Word) (g : Word × Word × Word) : Word × Word × Word :=
  rounds (fun g => divSub src (divShift g)) 16 (divSub src g)

/-- crt0.s:159-182 `__div32`. -/
def div32 (m : Mem) (dst src : Word) : Word × Mem :=
  let g := divLoop src (m.lw dst, m.lw (dst + 2), 0#16)
  let m := m.sw dst g.1
  let m := m.sw (dst + 2) g.2.2
  (dst, m)

/-- crt0.s:185-207 `__mod32`. -/
def mod32 (m : Mem) (dst src : Word) : Word :=
  (divLoop src (m.lw dst, m.lw (dst + 2), 0#16)).1

/-- crt0.s:227-238 `__stkChk`: `none` when it returns, `some e` when it ends the program
with exit code `e`. -/
def stkChk (alcAddr sp : Word) : Option Word :=
  if carrySub (alcAddr + 10) sp then none else some (-25#16)

end Cmm.Crt0
