import Verif.Conf.Driver

/-
Tests of the model: the output of the modelled compiler for test programs of the project is, character for character, the output
the project keeps for them. Sources and outputs are copied from the directory Test of the repository (tNNN.cmm, TaC.Opt/tNNN.s and
VM.Opt/tNNN.s); characters of comments that are not ASCII are replaced by `?`, and `#0x00ff` is written `#255`.
-/
namespace Cmm.Conf

/-! ### t350 -/

def t350 : List Nat := Lex.bytes ("//\n// t350.cmm\n// ????????????????\n//\n\nboolean a,b;\npublic boolean f();\n\npublic int main() {\n" ++
  "  boolean c = (a!=b) && (a==b) == f();\n\n  return 0;\n}\n")

def t350_tac : String := ".a\tWS\t1\n.b\tWS\t1\n_main\tPUSH\tFP\n\tLD\tFP,SP\n\tPUSH\tG3\n\tCALL\t__stkChk\n\tLD\tG0,.a\n\tCMP\tG0,.b\n\tJZ\t.L2\n" ++
  "\tCALL\t_f\n\tLD\tG1,.a\n\tCMP\tG1,.b\n\tLD\tG1,#1\n\tJZ\t.T0\n\tLD\tG1,#0\n.T0\n\tCMP\tG0,G1\n\tLD\tG0,#1\n\tJZ\t.L1\n.L2\n" ++
  "\tLD\tG0,#0\n.L1\n\tLD\tG3,G0\n\tLD\tG0,#0\n\tPOP\tG3\n\tPOP\tFP\n\tRET\n"

def t350_vm : String := ".a\n\tWS\t1\n.b\n\tWS\t1\n_main\n\tENTRY\t1\n\tLDG\t.a\n\tLDG\t.b\n\tNE\n\tJF\t.L2\n\tCALLF\t0,_f\n\tLDG\t.a\n\tLDG\t.b\n\tEQ\n\tEQ\n" ++
  "; BOOLAND .L2,.L-1,.L1\n\tJMP\t.L1\n.L2\n\tLDC\t0\n.L1\n; ----\n\tSTL\t1\n\tPOP\n\tLDC\t0\n\tMREG\n\tRET\n"

example : asm false ⟨true, false⟩ t350 = some t350_tac.toList ∧ asm true ⟨true, false⟩ t350 = some t350_vm.toList :=
  both 60 (by decide +kernel)

/-! ### t390 -/

def t390 : List Nat := Lex.bytes ("/*\n * t390.cmm : ????????????(2012.09.18 ??)\n */\n\nchar[][]a;\nint[]   c;\nint     e;\n\n" ++
  "public char    x();\npublic int     y();\n\npublic int main() {\n a[2+1][c[4]+5+c[6]+y()+e]=x();\n" ++
  " return 0;\n}\n")

def t390_tac : String := ".a\tWS\t1\n.c\tWS\t1\n.e\tWS\t1\n_main\tPUSH\tFP\n\tLD\tFP,SP\n\tCALL\t__stkChk\n\tCALL\t_x\n\tLD\tG1,.a\n\tADDS\tG1,#3\n" ++
  "\tPUSH\tG0\n\tLD\tG1,0,G1\n\tPUSH\tG1\n\tCALL\t_y\n\tLD\tG1,.c\n\tADDS\tG1,#4\n\tLD\tG1,0,G1\n\tADD\tG1,#5\n\tLD\tG2,.c\n" ++
  "\tADDS\tG2,#6\n\tADD\tG1,0,G2\n\tADD\tG0,G1\n\tADD\tG0,.e\n\tPOP\tG1\n\tADD\tG1,G0\n\tPOP\tG0\n\tST\tG0,@G1\n\tLD\tG0,#0\n" ++
  "\tPOP\tFP\n\tRET\n"

def t390_vm : String := ".a\n\tWS\t1\n.c\n\tWS\t1\n.e\n\tWS\t1\n_main\n\tENTRY\t0\n\tCALLF\t0,_x\n\tLDG\t.a\n\tLDC\t3\n\tLDW\n\tCALLF\t0,_y\n\tLDG\t.c\n" ++
  "\tLDC\t4\n\tLDW\n\tLDC\t5\n\tADD\n\tLDG\t.c\n\tLDC\t6\n\tLDW\n\tADD\n\tADD\n\tLDG\t.e\n\tADD\n\tSTB\n\tPOP\n\tLDC\t0\n\tMREG\n\tRET\n"

example : asm false ⟨true, false⟩ t390 = some t390_tac.toList ∧ asm true ⟨true, false⟩ t390 = some t390_vm.toList :=
  both 60 (by decide +kernel)

/-! ### t900 -/

def t900 : List Nat := Lex.bytes ("// ????????????\nchar c;\nint  i;\n\nvoid f(char c) { }\n\n// int ?? char ???\n//   ??, ????, return\n" ++
  "char g() {\n  f(chr(i));\n  c = chr(i + 1);\n  return chr(i);\n}\n")

def t900_tac : String := ".c\tWS\t1\n.i\tWS\t1\n.f\tPUSH\tFP\n\tLD\tFP,SP\n\tCALL\t__stkChk\n\tPOP\tFP\n\tRET\n.g\tPUSH\tFP\n\tLD\tFP,SP\n" ++
  "\tCALL\t__stkChk\n\tLD\tG0,.i\n\tAND\tG0,#255\n\tPUSH\tG0\n\tCALL\t.f\n\tADD\tSP,#2\n\tLD\tG0,.i\n\tADD\tG0,#1\n" ++
  "\tAND\tG0,#255\n\tST\tG0,.c\n\tLD\tG0,.i\n\tAND\tG0,#255\n\tPOP\tFP\n\tRET\n"

def t900_vm : String := ".c\n\tWS\t1\n.i\n\tWS\t1\n.f\n\tENTRY\t0\n\tRET\n.g\n\tENTRY\t0\n\tLDG\t.i\n\tCHR\n\tARG\n\tCALLP\t1,.f\n\tLDG\t.i\n\tLDC\t1\n\tADD\n" ++
  "\tCHR\n\tSTG\t.c\n\tPOP\n\tLDG\t.i\n\tCHR\n\tMREG\n\tRET\n"

example : asm false ⟨true, false⟩ t900 = some t900_tac.toList ∧ asm true ⟨true, false⟩ t900 = some t900_vm.toList :=
  both 60 (by decide +kernel)

/-! ### t910 -/

def t910 : List Nat := Lex.bytes ("// ????????????\nchar c;\nint  i;\n\nvoid f(int i) { }\n\n// char ?? int ???\n//   ??, ????, return\n" ++
  "int g() {\n  f(c);\n  i = c;\n  return c;\n}\n")

def t910_tac : String := ".c\tWS\t1\n.i\tWS\t1\n.f\tPUSH\tFP\n\tLD\tFP,SP\n\tCALL\t__stkChk\n\tPOP\tFP\n\tRET\n.g\tPUSH\tFP\n\tLD\tFP,SP\n" ++
  "\tCALL\t__stkChk\n\tLD\tG0,.c\n\tPUSH\tG0\n\tCALL\t.f\n\tADD\tSP,#2\n\tLD\tG0,.c\n\tST\tG0,.i\n\tLD\tG0,.c\n\tPOP\tFP\n\tRET\n"

def t910_vm : String := ".c\n\tWS\t1\n.i\n\tWS\t1\n.f\n\tENTRY\t0\n\tRET\n.g\n\tENTRY\t0\n\tLDG\t.c\n\tARG\n\tCALLP\t1,.f\n\tLDG\t.c\n\tSTG\t.i\n\tPOP\n" ++
  "\tLDG\t.c\n\tMREG\n\tRET\n"

example : asm false ⟨true, false⟩ t910 = some t910_tac.toList ∧ asm true ⟨true, false⟩ t910 = some t910_vm.toList :=
  both 60 (by decide +kernel)

/-! ### t930 -/

def t930 : List Nat := Lex.bytes ("// ????????????\nchar c;\nint  i;\n\nchar g() {\n  c = chr(c + 1);\n  boolean b = 'a' <= c && c <= 'z';\n" ++
  "  return chr(i);\n}\n")

def t930_tac : String := ".c\tWS\t1\n.i\tWS\t1\n.g\tPUSH\tFP\n\tLD\tFP,SP\n\tPUSH\tG3\n\tCALL\t__stkChk\n\tLD\tG0,.c\n\tADD\tG0,#1\n\tAND\tG0,#255\n" ++
  "\tST\tG0,.c\n\tLD\tG0,#97\n\tCMP\tG0,.c\n\tJGT\t.L2\n\tLD\tG0,.c\n\tCMP\tG0,#122\n\tLD\tG0,#1\n\tJLE\t.L1\n.L2\n\tLD\tG0,#0\n" ++
  ".L1\n\tLD\tG3,G0\n\tLD\tG0,.i\n\tAND\tG0,#255\n\tPOP\tG3\n\tPOP\tFP\n\tRET\n"

def t930_vm : String := ".c\n\tWS\t1\n.i\n\tWS\t1\n.g\n\tENTRY\t1\n\tLDG\t.c\n\tLDC\t1\n\tADD\n\tCHR\n\tSTG\t.c\n\tPOP\n\tLDC\t97\n\tLDG\t.c\n\tLE\n\tJF\t.L2\n" ++
  "\tLDG\t.c\n\tLDC\t122\n\tLE\n; BOOLAND .L2,.L-1,.L1\n\tJMP\t.L1\n.L2\n\tLDC\t0\n.L1\n; ----\n\tSTL\t1\n\tPOP\n\tLDG\t.i\n\tCHR\n" ++
  "\tMREG\n\tRET\n"

example : asm false ⟨true, false⟩ t930 = some t930_tac.toList ∧ asm true ⟨true, false⟩ t930 = some t930_vm.toList :=
  both 60 (by decide +kernel)

end Cmm.Conf
