import Verif.Conf.Ic
import Verif.Conf.Tests1
import Verif.Conf.Tests2
import Verif.Conf.Tests3

/-
Tests of the model with the back end vm2ic.c, as in Tests1.lean; the outputs are the files tNNN.i of the directory IM.Opt.
-/
namespace Cmm.Conf

def t020_ic : String :=
  "vmNam(1)\nvmDwCns(1)\nvmNam(2)\nvmDwCns(2)\nvmNam(3)\nvmDwCns(3)\nvmLab(1)\nvmWs(5)\nvmNam(4)\nvmDwLab(1)\nvmLab(2)\nvmWs(5)\n" ++
  "vmLab(3)\nvmWs(5)\nvmLab(4)\nvmWs(5)\nvmLab(5)\nvmWs(5)\nvmLab(6)\nvmWs(5)\nvmLab(7)\nvmDwLab(2)\nvmDwLab(3)\nvmDwLab(4)\n" ++
  "vmDwLab(5)\nvmDwLab(6)\nvmNam(5)\nvmDwLab(7)\nvmNam(6)\nvmEntry(0)\nvmLdGlb(5)\nvmLdCns(1)\nvmLdWrd()\nvmCallF(0, 0)\n" ++
  "vmLdGlb(3)\nvmMul()\nvmLdGlb(1)\nvmLdGlb(2)\nvmMul()\nvmAdd()\nvmLdWrd()\nvmStGlb(2)\nvmPop()\nvmRet()\n"

example : icAsm ⟨true, false⟩ t020 = some t020_ic.toList := icAsm_of (fu := 60) (by decide +kernel)

def t070_ic : String :=
  "vmNam(2)\nvmEntry(1)\nvmLab(1)\nvmLdCns(1)\nvmArg()\nvmCallF(1, 0)\nvmStLoc(1)\nvmPop()\nvmLdLoc(1)\nvmLdCns(10)\nvmGt()\n" ++
  "vmJF(2)\nvmJmp(3)\nvmLab(2)\nvmJmp(4)\nvmLab(5)\nvmJmp(6)\nvmLab(6)\nvmJmp(3)\nvmLab(4)\nvmLdLoc(1)\nvmLdCns(0)\nvmEq()\n" ++
  "vmJT(1)\nvmLab(3)\nvmRet()\n"

example : icAsm ⟨true, false⟩ t070 = some t070_ic.toList := icAsm_of (fu := 60) (by decide +kernel)

def t100_ic : String :=
  "vmNam(0)\nvmDwCns(5)\nvmNam(1)\nvmDwCns(3)\nvmNam(2)\nvmDwCns(2)\nvmLab(1)\nvmStr(\"abc\")\nvmNam(6)\nvmEntry(1)\nvmLdGlb(0)\n" ++
  "vmStLoc(1)\nvmPop()\nvmLab(2)\nvmLdLoc(1)\nvmLdGlb(1)\nvmLt()\nvmJF(3)\nvmLdLab(1)\nvmArg()\nvmLdLoc(1)\nvmLdLoc(1)\nvmMul()\n" ++
  "vmArg()\nvmCallP(2, 3)\nvmLdLoc(1)\nvmLdGlb(2)\nvmAdd()\nvmStLoc(1)\nvmPop()\nvmJmp(2)\nvmLab(3)\nvmLdCns(0)\nvmMReg()\n" ++
  "vmRet()\n"

example : icAsm ⟨true, false⟩ t100 = some t100_ic.toList := icAsm_of (fu := 60) (by decide +kernel)

def t290_ic : String :=
  "vmNam(0)\nvmEntry(1)\nvmLdCns(0)\nvmStLoc(1)\nvmPop()\nvmLdCns(0)\nvmMReg()\nvmRet()\n"

example : icAsm ⟨true, false⟩ t290 = some t290_ic.toList := icAsm_of (fu := 60) (by decide +kernel)

def t350_ic : String :=
  "vmNam(0)\nvmWs(1)\nvmNam(1)\nvmWs(1)\nvmNam(3)\nvmEntry(1)\nvmLdGlb(0)\nvmLdGlb(1)\nvmNe()\nvmJF(2)\nvmCallF(0, 2)\n" ++
  "vmLdGlb(0)\nvmLdGlb(1)\nvmEq()\nvmEq()\nvmBoolAND(2, -1, 1)\nvmStLoc(1)\nvmPop()\nvmLdCns(0)\nvmMReg()\nvmRet()\n"

example : icAsm ⟨true, false⟩ t350 = some t350_ic.toList := icAsm_of (fu := 60) (by decide +kernel)

def t390_ic : String :=
  "vmNam(0)\nvmWs(1)\nvmNam(1)\nvmWs(1)\nvmNam(2)\nvmWs(1)\nvmNam(5)\nvmEntry(0)\nvmCallF(0, 3)\nvmLdGlb(0)\nvmLdCns(3)\n" ++
  "vmLdWrd()\nvmCallF(0, 4)\nvmLdGlb(1)\nvmLdCns(4)\nvmLdWrd()\nvmLdCns(5)\nvmAdd()\nvmLdGlb(1)\nvmLdCns(6)\nvmLdWrd()\nvmAdd()\n" ++
  "vmAdd()\nvmLdGlb(2)\nvmAdd()\nvmStByt()\nvmPop()\nvmLdCns(0)\nvmMReg()\nvmRet()\n"

example : icAsm ⟨true, false⟩ t390 = some t390_ic.toList := icAsm_of (fu := 60) (by decide +kernel)

def t930_ic : String :=
  "vmNam(0)\nvmWs(1)\nvmNam(1)\nvmWs(1)\nvmNam(2)\nvmEntry(1)\nvmLdGlb(0)\nvmLdCns(1)\nvmAdd()\nvmChr()\nvmStGlb(0)\nvmPop()\n" ++
  "vmLdCns(97)\nvmLdGlb(0)\nvmLe()\nvmJF(2)\nvmLdGlb(0)\nvmLdCns(122)\nvmLe()\nvmBoolAND(2, -1, 1)\nvmStLoc(1)\nvmPop()\n" ++
  "vmLdGlb(1)\nvmChr()\nvmMReg()\nvmRet()\n"

example : icAsm ⟨true, false⟩ t930 = some t930_ic.toList := icAsm_of (fu := 60) (by decide +kernel)

end Cmm.Conf
