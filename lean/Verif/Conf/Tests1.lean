import Verif.Conf.Driver

/-
Tests of the model: the output of the modelled compiler for test programs of the project is, character for character, the output
the project keeps for them. Sources and outputs are copied from the directory Test of the repository (tNNN.cmm, TaC.Opt/tNNN.s and
VM.Opt/tNNN.s); characters of comments that are not ASCII are replaced by `?`, and `#0x00ff` is written `#255`.
-/
namespace Cmm.Conf

/-! ### t020 -/

def t020 : List Nat := Lex.bytes ("/*\n * t020.cmm\n * ???????\n */\n\npublic int f1();\n\nint a=1;\nint b=2;\nint c=3;\nint[] x = array(5);\n" ++
  "int[][] y = array(5,5);\n\nvoid f2() {\n  b=y[1][a*b+c*f1()];\n}\n")

def t020_tac : String := ".a\tDW\t1\n.b\tDW\t2\n.c\tDW\t3\n.L1\tWS\t5\n.x\tDW\t.L1\n.L2\tWS\t5\n.L3\tWS\t5\n.L4\tWS\t5\n.L5\tWS\t5\n.L6\tWS\t5\n.L7\tDW\t.L2\n" ++
  "\tDW\t.L3\n\tDW\t.L4\n\tDW\t.L5\n\tDW\t.L6\n.y\tDW\t.L7\n.f2\tPUSH\tFP\n\tLD\tFP,SP\n\tCALL\t__stkChk\n\tLD\tG0,.y\n" ++
  "\tADDS\tG0,#1\n\tLD\tG0,0,G0\n\tPUSH\tG0\n\tCALL\t_f1\n\tMUL\tG0,.c\n\tLD\tG1,.a\n\tMUL\tG1,.b\n\tADD\tG0,G1\n\tPOP\tG1\n" ++
  "\tADDS\tG1,G0\n\tLD\tG1,0,G1\n\tST\tG1,.b\n\tPOP\tFP\n\tRET\n"

def t020_vm : String := ".a\n\tDW\t1\n.b\n\tDW\t2\n.c\n\tDW\t3\n.L1\n\tWS\t5\n.x\n\tDW\t.L1\n.L2\n\tWS\t5\n.L3\n\tWS\t5\n.L4\n\tWS\t5\n.L5\n\tWS\t5\n.L6\n\tWS\t5\n" ++
  ".L7\n\tDW\t.L2\n\tDW\t.L3\n\tDW\t.L4\n\tDW\t.L5\n\tDW\t.L6\n.y\n\tDW\t.L7\n.f2\n\tENTRY\t0\n\tLDG\t.y\n\tLDC\t1\n\tLDW\n" ++
  "\tCALLF\t0,_f1\n\tLDG\t.c\n\tMUL\n\tLDG\t.a\n\tLDG\t.b\n\tMUL\n\tADD\n\tLDW\n\tSTG\t.b\n\tPOP\n\tRET\n"

example : asm false ⟨true, false⟩ t020 = some t020_tac.toList ∧ asm true ⟨true, false⟩ t020 = some t020_vm.toList :=
  both 60 (by decide +kernel)

/-! ### t040 -/

def t040 : List Nat := Lex.bytes ("/*\n *  t040..cmm\n *  ???????????\n *  (Acc ? 3 ??????)\n */\n\nint a=1;\nint b=2;\nint[] c;\nint[][] d;\n\n" ++
  "void f3() {\n  b=d[1][a*b+a*b+c[1]+a*b];\n}\n")

def t040_tac : String := ".a\tDW\t1\n.b\tDW\t2\n.c\tWS\t1\n.d\tWS\t1\n.f3\tPUSH\tFP\n\tLD\tFP,SP\n\tCALL\t__stkChk\n\tLD\tG0,.d\n\tADDS\tG0,#1\n" ++
  "\tLD\tG1,.a\n\tMUL\tG1,.b\n\tLD\tG2,.a\n\tMUL\tG2,.b\n\tADD\tG1,G2\n\tLD\tG2,.c\n\tADDS\tG2,#1\n\tADD\tG1,0,G2\n\tLD\tG2,.a\n" ++
  "\tMUL\tG2,.b\n\tADD\tG1,G2\n\tLD\tG0,0,G0\n\tADDS\tG0,G1\n\tLD\tG0,0,G0\n\tST\tG0,.b\n\tPOP\tFP\n\tRET\n"

def t040_vm : String := ".a\n\tDW\t1\n.b\n\tDW\t2\n.c\n\tWS\t1\n.d\n\tWS\t1\n.f3\n\tENTRY\t0\n\tLDG\t.d\n\tLDC\t1\n\tLDW\n\tLDG\t.a\n\tLDG\t.b\n\tMUL\n\tLDG\t.a\n" ++
  "\tLDG\t.b\n\tMUL\n\tADD\n\tLDG\t.c\n\tLDC\t1\n\tLDW\n\tADD\n\tLDG\t.a\n\tLDG\t.b\n\tMUL\n\tADD\n\tLDW\n\tSTG\t.b\n\tPOP\n\tRET\n"

example : asm false ⟨true, false⟩ t040 = some t040_tac.toList ∧ asm true ⟨true, false⟩ t040 = some t040_vm.toList :=
  both 60 (by decide +kernel)

/-! ### t060 -/

def t060 : List Nat := Lex.bytes ("/*\n *  t060.cmm\n *  ??????\n */\n\nint a,b,c,d;\n\nvoid f3() {\n  a = a * ( b + c );\n}\n")

def t060_tac : String := ".a\tWS\t1\n.b\tWS\t1\n.c\tWS\t1\n.d\tWS\t1\n.f3\tPUSH\tFP\n\tLD\tFP,SP\n\tCALL\t__stkChk\n\tLD\tG0,.b\n\tADD\tG0,.c\n" ++
  "\tMUL\tG0,.a\n\tST\tG0,.a\n\tPOP\tFP\n\tRET\n"

def t060_vm : String := ".a\n\tWS\t1\n.b\n\tWS\t1\n.c\n\tWS\t1\n.d\n\tWS\t1\n.f3\n\tENTRY\t0\n\tLDG\t.b\n\tLDG\t.c\n\tADD\n\tLDG\t.a\n\tMUL\n\tSTG\t.a\n\tPOP\n" ++
  "\tRET\n"

example : asm false ⟨true, false⟩ t060 = some t060_tac.toList ∧ asm true ⟨true, false⟩ t060 = some t060_vm.toList :=
  both 60 (by decide +kernel)

/-! ### t070 -/

def t070 : List Nat := Lex.bytes ("/*\n *  t070.cmm\n *  do - while ?\n */\n\npublic int f1(int a);\n\nvoid f2() {\n  int a;\n  do {\n" ++
  "    a = f1(1);\n    if (a>10) break;\n    else continue;\n    while (true) {\n      break;\n    }\n" ++
  "    break;\n  } while (a==0);\n}\n")

def t070_tac : String := ".f2\tPUSH\tFP\n\tLD\tFP,SP\n\tPUSH\tG3\n\tCALL\t__stkChk\n.L1\n\tLD\tG0,#1\n\tPUSH\tG0\n\tCALL\t_f1\n\tADD\tSP,#2\n\tLD\tG3,G0\n" ++
  "\tCMP\tG3,#10\n\tJLE\t.L2\n\tJMP\t.L3\n.L2\n\tJMP\t.L4\n.L5\n\tJMP\t.L6\n.L6\n\tJMP\t.L3\n.L4\n\tCMP\tG3,#0\n\tJZ\t.L1\n.L3\n" ++
  "\tPOP\tG3\n\tPOP\tFP\n\tRET\n"

def t070_vm : String := ".f2\n\tENTRY\t1\n.L1\n\tLDC\t1\n\tARG\n\tCALLF\t1,_f1\n\tSTL\t1\n\tPOP\n\tLDL\t1\n\tLDC\t10\n\tGT\n\tJF\t.L2\n\tJMP\t.L3\n.L2\n" ++
  "\tJMP\t.L4\n.L5\n\tJMP\t.L6\n.L6\n\tJMP\t.L3\n.L4\n\tLDL\t1\n\tLDC\t0\n\tEQ\n\tJT\t.L1\n.L3\n\tRET\n"

example : asm false ⟨true, false⟩ t070 = some t070_tac.toList ∧ asm true ⟨true, false⟩ t070 = some t070_vm.toList :=
  both 60 (by decide +kernel)

end Cmm.Conf
