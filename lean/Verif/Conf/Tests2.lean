import Verif.Conf.Driver

/-
Tests of the model: the output of the modelled compiler for test programs of the project is, character for character, the output
the project keeps for them. Sources and outputs are copied from the directory Test of the repository (tNNN.cmm, TaC.Opt/tNNN.s and
VM.Opt/tNNN.s); characters of comments that are not ASCII are replaced by `?`, and `#0x00ff` is written `#255`.
-/
namespace Cmm.Conf

/-! ### t100 -/

def t100 : List Nat := Lex.bytes ("/*\n * t100.cmm\n * ????\n */\n\nint a = 5, b = 3, c = 2;\n\npublic void f(int n, char[] s);\n\n" ++
  "public int main() {\n  for (int x=a; x<b; x=x+c)\n    f(x*x, \"abc\");\n  return 0;\n}\n")

def t100_tac : String := ".a\tDW\t5\n.b\tDW\t3\n.c\tDW\t2\n.L1\tSTRING\t\"abc\"\n_main\tPUSH\tFP\n\tLD\tFP,SP\n\tPUSH\tG3\n\tCALL\t__stkChk\n\tLD\tG3,.a\n" ++
  ".L2\n\tCMP\tG3,.b\n\tJGE\t.L3\n\tLD\tG0,#.L1\n\tPUSH\tG0\n\tLD\tG0,G3\n\tMUL\tG0,G3\n\tPUSH\tG0\n\tCALL\t_f\n\tADD\tSP,#4\n" ++
  "\tLD\tG0,G3\n\tADD\tG0,.c\n\tLD\tG3,G0\n\tJMP\t.L2\n.L3\n\tLD\tG0,#0\n\tPOP\tG3\n\tPOP\tFP\n\tRET\n"

def t100_vm : String := ".a\n\tDW\t5\n.b\n\tDW\t3\n.c\n\tDW\t2\n.L1\n\tSTRING\t\"abc\"\n_main\n\tENTRY\t1\n\tLDG\t.a\n\tSTL\t1\n\tPOP\n.L2\n\tLDL\t1\n\tLDG\t.b\n" ++
  "\tLT\n\tJF\t.L3\n\tLDC\t.L1\n\tARG\n\tLDL\t1\n\tLDL\t1\n\tMUL\n\tARG\n\tCALLP\t2,_f\n\tLDL\t1\n\tLDG\t.c\n\tADD\n\tSTL\t1\n\tPOP\n" ++
  "\tJMP\t.L2\n.L3\n\tLDC\t0\n\tMREG\n\tRET\n"

example : asm false ⟨true, false⟩ t100 = some t100_tac.toList ∧ asm true ⟨true, false⟩ t100 = some t100_vm.toList :=
  both 60 (by decide +kernel)

/-! ### t180 -/

def t180 : List Nat := Lex.bytes ("//\n// t180.cmm\n// ???????(?????? ! ?????)\n//\n\nint a;\n\npublic int main() {\n" ++
  "    if (1>2 && !(1>2) && true)\n      a = 1;\n    else\n      a = 2;\n    return 0;\n}\n")

def t180_tac : String := ".a\tWS\t1\n_main\tPUSH\tFP\n\tLD\tFP,SP\n\tCALL\t__stkChk\n\tLD\tG0,#2\n\tST\tG0,.a\n\tLD\tG0,#0\n\tPOP\tFP\n\tRET\n"

def t180_vm : String := ".a\n\tWS\t1\n_main\n\tENTRY\t0\n\tLDC\t2\n\tSTG\t.a\n\tPOP\n\tLDC\t0\n\tMREG\n\tRET\n"

example : asm false ⟨true, false⟩ t180 = some t180_tac.toList ∧ asm true ⟨true, false⟩ t180 = some t180_vm.toList :=
  both 60 (by decide +kernel)

/-! ### t280 -/

def t280 : List Nat := Lex.bytes ("//\n// t280.cmm : ?????????????\n// \n\nvoid f() {\n  int a;\n  int b;\n  int c;\n  int d;\n  int e;\n" ++
  "  int f;    // ??????????\n  int g;\n  int h;\n\n  e = f;\n  g = h;\n}")

def t280_tac : String := ".f\tPUSH\tFP\n\tLD\tFP,SP\n\tPUSH\tG3\n\tPUSH\tG4\n\tPUSH\tG5\n\tPUSH\tG6\n\tPUSH\tG7\n\tPUSH\tG8\n\tPUSH\tG9\n\tPUSH\tG10\n" ++
  "\tCALL\t__stkChk\n\tLD\tG7,G8\n\tLD\tG9,G10\n\tPOP\tG10\n\tPOP\tG9\n\tPOP\tG8\n\tPOP\tG7\n\tPOP\tG6\n\tPOP\tG5\n\tPOP\tG4\n" ++
  "\tPOP\tG3\n\tPOP\tFP\n\tRET\n"

def t280_vm : String := ".f\n\tENTRY\t8\n\tLDL\t6\n\tSTL\t5\n\tPOP\n\tLDL\t8\n\tSTL\t7\n\tPOP\n\tRET\n"

example : asm false ⟨true, false⟩ t280 = some t280_tac.toList ∧ asm true ⟨true, false⟩ t280 = some t280_vm.toList :=
  both 60 (by decide +kernel)

/-! ### t290 -/

def t290 : List Nat := Lex.bytes ("//\n// t290.cmm\n// ??????????? Acc ?????\n//\n\npublic int main() {\n  boolean s = true && false;\n" ++
  "  return 0;\n}\n")

def t290_tac : String := "_main\tPUSH\tFP\n\tLD\tFP,SP\n\tPUSH\tG3\n\tCALL\t__stkChk\n\tLD\tG3,#0\n\tLD\tG0,#0\n\tPOP\tG3\n\tPOP\tFP\n\tRET\n"

def t290_vm : String := "_main\n\tENTRY\t1\n\tLDC\t0\n\tSTL\t1\n\tPOP\n\tLDC\t0\n\tMREG\n\tRET\n"

example : asm false ⟨true, false⟩ t290 = some t290_tac.toList ∧ asm true ⟨true, false⟩ t290 = some t290_vm.toList :=
  both 60 (by decide +kernel)

/-! ### t300 -/

def t300 : List Nat := Lex.bytes ("//\n// t300.cmm\n// ??????????? Acc ?????\n//\n\nboolean b;\n\npublic int main() {\n" ++
  "  boolean s = true && (b = true);\n  return 0;\n}\n")

def t300_tac : String := ".b\tWS\t1\n_main\tPUSH\tFP\n\tLD\tFP,SP\n\tPUSH\tG3\n\tCALL\t__stkChk\n\tLD\tG0,#1\n\tST\tG0,.b\n\tLD\tG3,G0\n\tLD\tG0,#0\n" ++
  "\tPOP\tG3\n\tPOP\tFP\n\tRET\n"

def t300_vm : String := ".b\n\tWS\t1\n_main\n\tENTRY\t1\n\tLDC\t1\n\tSTG\t.b\n\tSTL\t1\n\tPOP\n\tLDC\t0\n\tMREG\n\tRET\n"

example : asm false ⟨true, false⟩ t300 = some t300_tac.toList ∧ asm true ⟨true, false⟩ t300 = some t300_vm.toList :=
  both 60 (by decide +kernel)

/-! ### t320 -/

def t320 : List Nat := Lex.bytes ("//\n// t320.cmm\n// void ????????\n//\n\npublic void p();\n\npublic int main() {\n  int a;\n  p();\n" ++
  "  p(),p(),p();\n  a;\n  a,a,a;\n\n  return 0;\n}\n")

def t320_tac : String := "_main\tPUSH\tFP\n\tLD\tFP,SP\n\tPUSH\tG3\n\tCALL\t__stkChk\n\tCALL\t_p\n\tCALL\t_p\n\tCALL\t_p\n\tCALL\t_p\n\tLD\tG0,#0\n" ++
  "\tPOP\tG3\n\tPOP\tFP\n\tRET\n"

def t320_vm : String := "_main\n\tENTRY\t1\n\tCALLP\t0,_p\n\tCALLP\t0,_p\n\tCALLP\t0,_p\n\tCALLP\t0,_p\n\tLDC\t0\n\tMREG\n\tRET\n"

example : asm false ⟨true, false⟩ t320 = some t320_tac.toList ∧ asm true ⟨true, false⟩ t320 = some t320_vm.toList :=
  both 60 (by decide +kernel)

end Cmm.Conf
