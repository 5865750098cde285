import Verif.Lib.Mem

/- Model of the non-allocator part of lib/SrcTac/stdlib.cmm and of the error table of
lib/SrcTac/stdio.cmm. -/
namespace Cmm.Stdlib
open Cmm.Ctype

/-- stdlib.cmm:161-164, loop of atoi. -/
def atoiLoop (m : Mem) (s : Word) (v i : Word) : Option Word :=
  if m (s + i) ≠ 0#8 then
    let v := if isDigit (m (s + i)) then v * 10 + ord (m (s + i)) - ord 0x30#8 else v
    atoiLoop m s v (i + 1)
  else some v
partial_fixpoint

/-- stdlib.cmm:159-165 -/
def atoi (m : Mem) (s : Word) : Option Word := atoiLoop m s 0 0

/-- stdlib.cmm:170-177, loop of htoi. -/
def htoiLoop (m : Mem) (s : Word) (v i : Word) : Option Word :=
  if isXdigit (m (s + i)) then
    let c := m (s + i)
    let v := if isDigit c then v * 16 + (ord c - ord 0x30#8)
             else v * 16 + (10 + ord (toUpper c) - ord 0x41#8)
    htoiLoop m s v (i + 1)
  else some v
partial_fixpoint

/-- stdlib.cmm:168-179 -/
def htoi (m : Mem) (s : Word) : Option Word := htoiLoop m s 0 0

/-- stdlib.cmm:189-192: the new value of `lfsr`. -/
def srand (seed : Word) : Word := if seed = 0 then 1 else seed

/-- stdlib.cmm:195-198: new value of `lfsr`, which is also the result. `>>` is the arithmetic
shift. -/
def rand (lfsr : Word) : Word :=
  ((lfsr.sshiftRight 1) &&& 0x7fff#16) ^^^ ((-(lfsr &&& 1#16)) &&& 0xb400#16)

/-- The state after `n` calls of `rand`. -/
def randN : Nat → Word → Word
  | 0, s => s
  | n+1, s => randN n (rand s)

end Cmm.Stdlib
