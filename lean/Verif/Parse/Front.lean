import Verif.Lex.Run
import Verif.Parse.Stat

/-
Model of the way from the lexer to the parser: getTok (src/parser.c:131-137) and the calls of lxGetVal and lxGetStr
(src/lexer.c:429-431) by the parser. The program reads a token when the parser asks for it; here all tokens are read before the
parser begins, which is the same, since both stop the compiler at an error and the parser does not change the lexer.
-/
namespace Cmm.Parse

/-- The characters of a C string, one for each byte. -/
def text (s : List Nat) : String := String.ofList (s.map Char.ofNat)

/-- parser.c:131-137 getTok skips LxFILE. The codes with a value (lexer.h:83-88): LxLOGICAL 200, LxINTEGER 201 and LxCHARACTER 204
take it from lxGetVal, LxNAME 202 and LxSTRING 203 from lxGetStr (parser.c:188, 210, 352, 432, 477, 503-512, 1084, 1155). -/
def tok : Int × Int × List Nat → Option Tok
  | (c, v, s) =>
    if c = 205 then none
    else if c = 200 then some (.log v)
    else if c = 201 then some (.int v)
    else if c = 202 then some (.name (text s))
    else if c = 203 then some (.str (text s))
    else if c = 204 then some (.chr v)
    else some (.c c.toNat)

/-- The compiler up to the code generator (main.c:102, parser.c:1259-1265 psGetSrc) on the bytes of a source file. -/
def accept (o : Opts) (src : List Nat) : Option PS :=
  match Lex.lexAll (Lex.start src) with
  | .ok ts => getSrc o (start (ts.filterMap tok))
  | .error _ => none

end Cmm.Parse
