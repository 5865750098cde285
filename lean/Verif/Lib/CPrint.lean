import Verif.Lib.CLib

/-
Model of print in lib/SrcC/printf.c: format strings. A format is the list of its characters before the NUL, none of which is NUL; the
arguments are a list, and va_arg of another type, or of none, is undefined.
-/
namespace Cmm.CLib

/-- An argument of printf: an int (or a character), a string (the characters before the NUL), a long (two words). -/
inductive Arg
  | int (x : Int)
  | str (s : List Char)
  | long (h l : BitVec 32)

/-- What printf does: it returns after printing a text, it prints a text and ends the program with exit(1), or it is undefined in C. -/
inductive Out
  | done (s : List Char)
  | stop (s : List Char)
  | undef

/-- A text printed before. -/
def Out.pre (s : List Char) : Out → Out
  | .done t => .done (s ++ t)
  | .stop t => .stop (s ++ t)
  | .undef => .undef

/-- One conversion: the text, what is left of the format and of the arguments. -/
inductive Step
  | go (s : List Char) (f : List Char) (a : List Arg)
  | stop
  | undef

/-- printf.c:58-63 putCW -/
def putCW (c : Char) (w : Int) (lf : Bool) : List Char :=
  let l := w - 1
  (if lf then [] else putN ' ' l) ++ [c] ++ (if lf then putN ' ' l else [])

/-- printf.c:66-72 putS -/
def putS (s : List Char) (w : Int) (lf : Bool) : List Char :=
  let l := w - s.length
  (if lf then [] else putN ' ' l) ++ s ++ (if lf then putN ' ' l else [])

/-- The character at the place of the format, NUL at its end. -/
def cur (f : List Char) : Char := f.headD '\x00'

/-- printf.c:120-142 conv16; `f` begins with the conversion character. The text on stderr is not modelled. -/
def conv16 (f : List Char) (w : Int) (lf : Bool) (p : Char) (a : List Arg) : Step :=
  let c := cur f
  if c = 'o' then match a with
    | .int x :: a => .go (uPutNum x w lf p 8) f.tail a
    | _ => .undef
  else if c = 'd' then match a with
    | .int x :: a => match sPutNum x w lf p 10 with
      | some s => .go s f.tail a
      | none => .undef
    | _ => .undef
  else if c = 'x' then match a with
    | .int x :: a => .go (uPutNum x w lf p 16) f.tail a
    | _ => .undef
  else if c = 'c' then match a with
    | .int x :: a => .go (putCW (Char.ofNat (toU x % 256)) w lf) f.tail a
    | _ => .undef
  else if c = 's' then match a with
    | .str s :: a => .go (putS s w lf) f.tail a
    | _ => .undef
  else if c = '%' then .go ['%'] f.tail a
  else .stop

/-- printf.c:145-172 conv32; the argument is taken first. -/
def conv32 (f : List Char) (w : Int) (lf : Bool) (p : Char) (a : List Arg) : Step :=
  match a with
  | .long h l :: a => if cur f = 'd' then .go (putLong h l w lf p) f.tail a else .stop
  | _ => .undef

/-- printf.c:187-191 The width; it is an int, whose overflow is undefined. -/
def scanW : Nat → List Char → Option (Nat × List Char)
  | w, [] => some (w, [])
  | w, c :: f =>
    if c.isDigit then
      if w * 10 + (c.toNat - 48) ≤ 2147483647 then scanW (w * 10 + (c.toNat - 48)) f else none
    else some (w, c :: f)

/-- printf.c:179-197 A conversion; `f` is the format after the '%'. -/
def directive (f : List Char) (a : List Arg) : Step :=
  let lf := decide (cur f = '-')
  let f := if lf then f.tail else f
  let p := if cur f = '0' then '0' else ' '
  match scanW 0 f with
  | none => .undef
  | some (w, f) => if cur f = 'l' then conv32 f.tail w lf p a else conv16 f w lf p a

/-- printf.c:176-200 The loop of print; the first argument bounds the number of rounds. -/
def printLoop : Nat → List Char → List Arg → Out
  | 0, _, _ => .undef
  | _ + 1, [], _ => .done []
  | n + 1, c :: f, a =>
    if c = '%' then match directive f a with
      | .go s f a => (printLoop n f a).pre s
      | .stop => .stop []
      | .undef => .undef
    else (printLoop n f a).pre [c]

/-- printf.c:174-202 print: every round takes a character. What it returns is `count` of the text. -/
def print (f : List Char) (a : List Arg) : Out := printLoop (f.length + 1) f a

end Cmm.CLib
