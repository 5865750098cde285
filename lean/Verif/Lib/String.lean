import Verif.Lib.Mem

/-
Model of lib/SrcCmm/string.cmm. Each C-- loop is a recursive function over the loop
variables and the memory; `none` means the loop never ends (for instance when no NUL
exists), so no bound on the number of iterations is built in. Indices are 16-bit ints,
`s[i]` is the byte at `s + i`. Reading and writing memory cannot fail in the model.
-/
namespace Cmm.Str

/-- string.cmm:35-39, loop of strCpy. -/
def strCpyLoop (d s : Word) (m : Mem) (i : Word) : Option Mem :=
  let v := m (s + i)
  let m' := m.set (d + i) v
  if v ≠ 0#8 then strCpyLoop d s m' (i + 1) else some m'
partial_fixpoint

/-- string.cmm:35-39. Result: the returned reference and the memory. -/
def strCpy (m : Mem) (d s : Word) : Option (Word × Mem) := do
  let m ← strCpyLoop d s m 0
  return (d, m)

/-- string.cmm:44-45, first loop of strNcpy. -/
def strNcpyLoop1 (d s n : Word) (m : Mem) (i : Word) : Option (Mem × Word) :=
  if ilt i (n - 1) && m (s + i) != 0#8 then
    strNcpyLoop1 d s n (m.set (d + i) (m (s + i))) (i + 1)
  else some (m, i)
partial_fixpoint

/-- string.cmm:46-47, second loop of strNcpy. -/
def strNcpyLoop2 (d n : Word) (m : Mem) (i : Word) : Option Mem :=
  if ilt i n then strNcpyLoop2 d n (m.set (d + i) 0#8) (i + 1) else some m
partial_fixpoint

/-- string.cmm:42-49 -/
def strNcpy (m : Mem) (d s n : Word) : Option (Word × Mem) := do
  let (m, i) ← strNcpyLoop1 d s n m 0
  let m ← strNcpyLoop2 d n m i
  return (d, m)

/-- `while (s[i]!='\0') i=i+1;` string.cmm:54-55, 64-65, 93 -/
def scanLoop (m : Mem) (s : Word) (i : Word) : Option Word :=
  if m (s + i) ≠ 0#8 then scanLoop m s (i + 1) else some i
partial_fixpoint

/-- string.cmm:56-57, second loop of strCat (`j` is the length found by the first). -/
def strCatLoop (d s j : Word) (m : Mem) (i : Word) : Option Mem :=
  let v := m (s + (i - j))
  let m' := m.set (d + i) v
  if v ≠ 0#8 then strCatLoop d s j m' (i + 1) else some m'
partial_fixpoint

/-- string.cmm:52-59 -/
def strCat (m : Mem) (d s : Word) : Option (Word × Mem) := do
  let i ← scanLoop m d 0
  let m ← strCatLoop d s i m i
  return (d, m)

/-- string.cmm:66-67, second loop of strNcat. -/
def strNcatLoop (d s n : Word) (m : Mem) (i j : Word) : Option (Mem × Word) :=
  if ilt j (n - 1) && m (s + j) != 0#8 then
    strNcatLoop d s n (m.set (d + i) (m (s + j))) (i + 1) (j + 1)
  else some (m, i)
partial_fixpoint

/-- string.cmm:62-70 -/
def strNcat (m : Mem) (d s n : Word) : Option (Word × Mem) := do
  let i ← scanLoop m d 0
  let (m, i) ← strNcatLoop d s n m i 0
  return (d, m.set (d + i) 0#8)

/-- string.cmm:73-78 -/
def strCmpLoop (m : Mem) (s1 s2 : Word) (i : Word) : Option Word :=
  if m (s1 + i) = m (s2 + i) then
    if m (s1 + i) = 0#8 then some 0
    else strCmpLoop m s1 s2 (i + 1)
  else some (ord (m (s1 + i)) - ord (m (s2 + i)))
partial_fixpoint

/-- string.cmm:73-78 -/
def strCmp (m : Mem) (s1 s2 : Word) : Option Word := strCmpLoop m s1 s2 0

/-- string.cmm:81-87 (the test `i>=n` after the loop is taken when the loop stops
because of `i<n`). -/
def strNcmpLoop (m : Mem) (s1 s2 n : Word) (i : Word) : Option Word :=
  if ilt i n && m (s1 + i) == m (s2 + i) then
    if m (s1 + i) = 0#8 then some 0
    else strNcmpLoop m s1 s2 n (i + 1)
  else if ile n i then some 0
  else some (ord (m (s1 + i)) - ord (m (s2 + i)))
partial_fixpoint

/-- string.cmm:81-87 -/
def strNcmp (m : Mem) (s1 s2 n : Word) : Option Word := strNcmpLoop m s1 s2 n 0

/-- string.cmm:90-94 -/
def strLen (m : Mem) (s : Word) : Option Word := scanLoop m s 0

/-- string.cmm:99-104 -/
def strChrLoop (m : Mem) (s : Word) (c : Byte) (i : Word) : Option Word :=
  if m (s + i) ≠ 0#8 then
    if m (s + i) = c then some i else strChrLoop m s c (i + 1)
  else some (-1)
partial_fixpoint

/-- string.cmm:99-104 -/
def strChr (m : Mem) (s : Word) (c : Byte) : Option Word := strChrLoop m s c 0

/-- string.cmm:107-112 -/
def strRchrLoop (m : Mem) (s : Word) (c : Byte) (i j : Word) : Option Word :=
  if m (s + i) ≠ 0#8 then
    strRchrLoop m s c (i + 1) (if m (s + i) = c then i else j)
  else some j
partial_fixpoint

/-- string.cmm:107-112 -/
def strRchr (m : Mem) (s : Word) (c : Byte) : Option Word := strRchrLoop m s c 0 (-1)

/-- string.cmm:120-122, inner loop of strStr; the result is `j`. -/
def strStrInner (m : Mem) (s1 s2 l i : Word) (j : Word) : Option Word :=
  if ilt j l then
    if m (s1 + (i + j)) ≠ m (s2 + j) then some j
    else strStrInner m s1 s2 l i (j + 1)
  else some j
partial_fixpoint

/-- string.cmm:118-124, outer loop of strStr. -/
def strStrLoop (m : Mem) (s1 s2 l d : Word) (i : Word) : Option Word :=
  if ilt i d then do
    let j ← strStrInner m s1 s2 l i 0
    if j = l then return i
    strStrLoop m s1 s2 l d (i + 1)
  else some (-1)
partial_fixpoint

/-- string.cmm:115-126 -/
def strStr (m : Mem) (s1 s2 : Word) : Option Word := do
  let l ← strLen m s2
  let d := (← strLen m s1) - l
  strStrLoop m s1 s2 l d 0

end Cmm.Str
