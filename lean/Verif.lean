import Verif.CText.CType
import Verif.CText.CTypeFn
import Verif.CText.CTypeProof
import Verif.CText.CTypeRun
import Verif.CText.CTypeStm
import Verif.CText.Data
import Verif.CText.DataCst
import Verif.CText.DataOk
import Verif.CText.Direct
import Verif.CText.Grammar
import Verif.CText.Lex
import Verif.CText.LexPrint
import Verif.CText.Print
import Verif.CText.Read
import Verif.CText.ReadStmt
import Verif.CText.Scope
import Verif.CText.ScopeFn
import Verif.CText.Stmt
import Verif.CText.Strs
import Verif.CText.Tree
import Verif.CText.Unit
import Verif.CText.UnitAdd
import Verif.CText.UnitFile
import Verif.CText.UnitLoc
import Verif.CText.UnitRun
import Verif.CText.UnitStep
import Verif.CText.UnitText
import Verif.CText.UnitTwin
import Verif.CText.Words
import Verif.CText.WordsFile
import Verif.Conf.Driver
import Verif.Conf.Ic
import Verif.Conf.Run
import Verif.Conf.Tests1
import Verif.Conf.Tests2
import Verif.Conf.Tests3
import Verif.Conf.Tests4
import Verif.Gen.Code
import Verif.Gen.Data
import Verif.Gen.DataLemmas
import Verif.Gen.Labels
import Verif.Gen.Log
import Verif.Gen.Main
import Verif.Gen.Order
import Verif.Gen.Run
import Verif.Gen.Sound
import Verif.Gen.Stmt
import Verif.Gen.StmtOk
import Verif.Gen.VM
import Verif.Lex.Gap
import Verif.Lex.Lex
import Verif.Lex.Lexeme
import Verif.Lex.Main
import Verif.Lex.Run
import Verif.Lex.Scan
import Verif.Lex.Spec
import Verif.Lex.Token
import Verif.Lib.AbsPath
import Verif.Lib.CArray
import Verif.Lib.CEnv
import Verif.Lib.CLib
import Verif.Lib.CMain
import Verif.Lib.CPrint
import Verif.Lib.Crt0
import Verif.Lib.Crt0Lemmas
import Verif.Lib.Ctype
import Verif.Lib.EnvHeap
import Verif.Lib.EnvInit
import Verif.Lib.EnvInv
import Verif.Lib.EnvLemmas
import Verif.Lib.Environ
import Verif.Lib.Errno
import Verif.Lib.HeapRoom
import Verif.Lib.Malloc
import Verif.Lib.MallocHist
import Verif.Lib.MallocLemmas
import Verif.Lib.Mem
import Verif.Lib.PathLemmas
import Verif.Lib.PathSpec
import Verif.Lib.Printf
import Verif.Lib.PrintfLemmas
import Verif.Lib.ReadDir
import Verif.Lib.Stdio
import Verif.Lib.StdioHist
import Verif.Lib.StdioLemmas
import Verif.Lib.Stdlib
import Verif.Lib.String
import Verif.Lib.StringLemmas
import Verif.Lib.WrapSys
import Verif.Opt.Arith
import Verif.Opt.Good
import Verif.Opt.Keep
import Verif.Opt.OkKeep
import Verif.Opt.OptStmt
import Verif.Opt.Optree
import Verif.Opt.Refine
import Verif.Opt.RefineS
import Verif.Opt.Sound
import Verif.Opt.Trace
import Verif.Parse.Complete
import Verif.Parse.DataCode
import Verif.Parse.DataTree
import Verif.Parse.Eval
import Verif.Parse.Expr
import Verif.Parse.Facts
import Verif.Parse.Front
import Verif.Parse.Glob
import Verif.Parse.Grammar
import Verif.Parse.InitSyn
import Verif.Parse.Names
import Verif.Parse.OptRen
import Verif.Parse.ProgSyn
import Verif.Parse.Ready
import Verif.Parse.Ready2
import Verif.Parse.Ready3
import Verif.Parse.Ready4
import Verif.Parse.Ren
import Verif.Parse.Run
import Verif.Parse.Scope
import Verif.Parse.Sound
import Verif.Parse.Stat
import Verif.Parse.StatSyn
import Verif.Parse.Tab
import Verif.Parse.Top
import Verif.Props.C01
import Verif.Props.C02
import Verif.Props.C03
import Verif.Props.C04
import Verif.Props.C05
import Verif.Props.C06
import Verif.Props.C07
import Verif.Props.C08
import Verif.Props.C09
import Verif.Props.C10
import Verif.Props.C11
import Verif.Props.C12
import Verif.Props.C13
import Verif.Props.C14
import Verif.Props.C15
import Verif.Props.C16
import Verif.Props.C17
import Verif.Props.C18
import Verif.Props.C19
import Verif.Props.C20
import Verif.Props.C21
import Verif.Props.C22
import Verif.Props.C23
import Verif.Props.C24
import Verif.Props.C25
import Verif.Props.C26
import Verif.Props.C27
import Verif.Props.C28
import Verif.Props.C29
import Verif.Props.C30
import Verif.Props.C31
import Verif.Props.C32
import Verif.Props.C33
import Verif.Props.C34
import Verif.Props.C35
import Verif.Props.C36
import Verif.Props.C37
import Verif.Props.C38
import Verif.Props.C39
import Verif.Props.C40
import Verif.Props.C41
import Verif.Props.C42
import Verif.Props.C43
import Verif.Props.C44
import Verif.Props.C45
import Verif.Props.C46
import Verif.Props.C47
import Verif.Props.C48
import Verif.Props.C49
import Verif.Props.C50
import Verif.Props.C51
import Verif.Props.C52
import Verif.Props.C53
import Verif.Props.C54
import Verif.Props.C55
import Verif.Props.C56
import Verif.Props.C57
import Verif.Props.C58
import Verif.Props.C59
import Verif.Props.C60
import Verif.Props.C61
import Verif.Props.C62
import Verif.Props.C63
import Verif.Props.C64
import Verif.Props.C65
import Verif.Props.C66
import Verif.Props.C67
import Verif.Props.C68
import Verif.Props.C69
import Verif.Props.C70
import Verif.Props.C71
import Verif.Props.C72
import Verif.Props.C73
import Verif.Props.C74
import Verif.Props.C75
import Verif.Props.C76
import Verif.Props.C77
import Verif.Props.C78
import Verif.Props.C79
import Verif.Props.C80
import Verif.Props.C81
import Verif.Props.C82
import Verif.Props.C83
import Verif.Props.C84
import Verif.Props.C85
import Verif.Props.C86
import Verif.Props.C87
import Verif.Props.C88
import Verif.Props.C89
import Verif.Tac.Acc
import Verif.Tac.Addr
import Verif.Tac.DataText
import Verif.Tac.Flow
import Verif.Tac.Forms
import Verif.Tac.Forms2
import Verif.Tac.Full
import Verif.Tac.Full2
import Verif.Tac.Full3
import Verif.Tac.Full4
import Verif.Tac.Full5
import Verif.Tac.IcText
import Verif.Tac.Labs
import Verif.Tac.LineOk
import Verif.Tac.Live
import Verif.Tac.Live2
import Verif.Tac.Machine
import Verif.Tac.Model
import Verif.Tac.Rel
import Verif.Tac.Rel2
import Verif.Tac.Src
import Verif.Tac.Static
import Verif.Tac.Step
import Verif.Tac.Step2
import Verif.Tac.Step3
import Verif.Tac.Step4
import Verif.Tac.Text
import Verif.Tac.TextLemmas
import Verif.Tac.View
import Verif.Tac.View2
import Verif.Tac.VmSim
import Verif.Tac.VmText
import Verif.Tac.VmTextLemmas
import Verif.Tac.Walk
import Verif.Tree.Expr
import Verif.Tree.Stmt
