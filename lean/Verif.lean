import Verif.Lemmas.AcosFun
import Verif.Lemmas.AcosLoop
import Verif.Lemmas.AcosNum
import Verif.Lemmas.AddSub
import Verif.Lemmas.Adjust
import Verif.Lemmas.AsinFun
import Verif.Lemmas.AsinOne
import Verif.Lemmas.AsinReal
import Verif.Lemmas.AsinStep
import Verif.Lemmas.AtanApx
import Verif.Lemmas.AtanArg
import Verif.Lemmas.AtanCost
import Verif.Lemmas.AtanEndless
import Verif.Lemmas.AtanFun
import Verif.Lemmas.AtanLin
import Verif.Lemmas.AtanRect
import Verif.Lemmas.AtanRed
import Verif.Lemmas.AtanSer
import Verif.Lemmas.AtanSer2
import Verif.Lemmas.AtanStep
import Verif.Lemmas.AtanSum
import Verif.Lemmas.Atanh
import Verif.Lemmas.AtanhFun
import Verif.Lemmas.CbrtRem
import Verif.Lemmas.Cmp
import Verif.Lemmas.Comm
import Verif.Lemmas.ConstE
import Verif.Lemmas.ConstLn
import Verif.Lemmas.ConstLn10
import Verif.Lemmas.ConstLn2
import Verif.Lemmas.ConstLoop
import Verif.Lemmas.ConstNum
import Verif.Lemmas.ConstVal
import Verif.Lemmas.Conv
import Verif.Lemmas.CosCost
import Verif.Lemmas.CosFun
import Verif.Lemmas.CosRestore
import Verif.Lemmas.CosSer
import Verif.Lemmas.CosSeries
import Verif.Lemmas.Cosh
import Verif.Lemmas.DecAll
import Verif.Lemmas.DecApx
import Verif.Lemmas.DecBig
import Verif.Lemmas.DecConv
import Verif.Lemmas.DecFmt
import Verif.Lemmas.DecFrom
import Verif.Lemmas.DecInt
import Verif.Lemmas.DecLoop
import Verif.Lemmas.DecNone
import Verif.Lemmas.DecRound
import Verif.Lemmas.DecScale
import Verif.Lemmas.DecText
import Verif.Lemmas.DecWide
import Verif.Lemmas.Deliver
import Verif.Lemmas.Div
import Verif.Lemmas.DivBasic
import Verif.Lemmas.ExpApx
import Verif.Lemmas.ExpArg
import Verif.Lemmas.ExpCost
import Verif.Lemmas.ExpF
import Verif.Lemmas.ExpGen
import Verif.Lemmas.ExpHorner
import Verif.Lemmas.ExpLoop
import Verif.Lemmas.ExpOver
import Verif.Lemmas.ExpPos
import Verif.Lemmas.ExpReal
import Verif.Lemmas.ExpRect
import Verif.Lemmas.ExpSeries
import Verif.Lemmas.ExpSinh
import Verif.Lemmas.ExpSmall
import Verif.Lemmas.ExpTry
import Verif.Lemmas.ExprEndless
import Verif.Lemmas.ExprErr
import Verif.Lemmas.ExprEval
import Verif.Lemmas.ExprLoop
import Verif.Lemmas.ExprSum
import Verif.Lemmas.ExprTotal
import Verif.Lemmas.Ext
import Verif.Lemmas.ExtDiv
import Verif.Lemmas.FftBound
import Verif.Lemmas.FftCompose
import Verif.Lemmas.FftDecomp
import Verif.Lemmas.FftList
import Verif.Lemmas.FftMod
import Verif.Lemmas.FftMul
import Verif.Lemmas.FftRev
import Verif.Lemmas.FftRing
import Verif.Lemmas.FftWord
import Verif.Lemmas.FftWrong
import Verif.Lemmas.Finish
import Verif.Lemmas.Format
import Verif.Lemmas.FullPrec
import Verif.Lemmas.FunLoop
import Verif.Lemmas.HypArith
import Verif.Lemmas.HypOver
import Verif.Lemmas.Int
import Verif.Lemmas.IntPart
import Verif.Lemmas.InvFun
import Verif.Lemmas.InvLn
import Verif.Lemmas.InvReal
import Verif.Lemmas.InvRoot
import Verif.Lemmas.InvStep
import Verif.Lemmas.Log10Fun
import Verif.Lemmas.Log10Step
import Verif.Lemmas.LogApx
import Verif.Lemmas.LogArg
import Verif.Lemmas.LogBaseFun
import Verif.Lemmas.LogBaseOne
import Verif.Lemmas.LogBaseStep
import Verif.Lemmas.LogCost
import Verif.Lemmas.LogFun
import Verif.Lemmas.LogLn
import Verif.Lemmas.LogLog2
import Verif.Lemmas.LogReal
import Verif.Lemmas.LogRect
import Verif.Lemmas.LogSeries
import Verif.Lemmas.LogSplit
import Verif.Lemmas.LogStep
import Verif.Lemmas.Mono
import Verif.Lemmas.Mul
import Verif.Lemmas.MulBasic
import Verif.Lemmas.Num
import Verif.Lemmas.NumAdd
import Verif.Lemmas.NumDiv
import Verif.Lemmas.NumRoot
import Verif.Lemmas.Odd
import Verif.Lemmas.Op
import Verif.Lemmas.PiLoop
import Verif.Lemmas.PiMachin
import Verif.Lemmas.PiMerge
import Verif.Lemmas.PiSeries
import Verif.Lemmas.PiSum
import Verif.Lemmas.PiVal
import Verif.Lemmas.PowDom
import Verif.Lemmas.PowExact
import Verif.Lemmas.PowFun
import Verif.Lemmas.PowLoop
import Verif.Lemmas.PowStep
import Verif.Lemmas.PowStuck
import Verif.Lemmas.PowTen
import Verif.Lemmas.Powi
import Verif.Lemmas.Radix
import Verif.Lemmas.RadixCom
import Verif.Lemmas.RadixDel
import Verif.Lemmas.RadixFrom
import Verif.Lemmas.RadixTrip
import Verif.Lemmas.Rem
import Verif.Lemmas.Repr
import Verif.Lemmas.Root
import Verif.Lemmas.RootBounds
import Verif.Lemmas.Round
import Verif.Lemmas.RoundN
import Verif.Lemmas.RoundSpec
import Verif.Lemmas.Samples
import Verif.Lemmas.SetPrec
import Verif.Lemmas.SinFun
import Verif.Lemmas.SinNum
import Verif.Lemmas.Sinh
import Verif.Lemmas.SqrtRem
import Verif.Lemmas.Sticky
import Verif.Lemmas.TanApx
import Verif.Lemmas.TanCost
import Verif.Lemmas.TanFun
import Verif.Lemmas.TanRestore
import Verif.Lemmas.TanSer
import Verif.Lemmas.TanSeries
import Verif.Lemmas.Tanh
import Verif.Lemmas.TanhLarge
import Verif.Lemmas.TenPow
import Verif.Lemmas.Text
import Verif.Lemmas.Toom3
import Verif.Lemmas.TrigApx
import Verif.Lemmas.TrigCost
import Verif.Lemmas.TrigGen
import Verif.Lemmas.TrigProx
import Verif.Lemmas.TrigReal
import Verif.Lemmas.TrigRect
import Verif.Lemmas.TrigRed
import Verif.Lemmas.TrigRem
import Verif.Lemmas.TrigSer
import Verif.Lemmas.TrigSin
import Verif.Lemmas.TrigSinSer
import Verif.Lemmas.TrigStep
import Verif.Lemmas.TruncLoop
import Verif.Lemmas.TryPrec
import Verif.Lemmas.TryPrec2
import Verif.Lemmas.TryReject
import Verif.Lemmas.Val
import Verif.Lemmas.Words
import Verif.Model.AddSub
import Verif.Model.Asin
import Verif.Model.Atan
import Verif.Model.Consts
import Verif.Model.Convert
import Verif.Model.Ctx
import Verif.Model.Dec
import Verif.Model.Defs
import Verif.Model.Div
import Verif.Model.Exp
import Verif.Model.Expr
import Verif.Model.Ext
import Verif.Model.ExtDiv
import Verif.Model.Fft
import Verif.Model.Hyper
import Verif.Model.Int
import Verif.Model.InvHyper
import Verif.Model.Log
import Verif.Model.LogBase
import Verif.Model.Mul
import Verif.Model.Num
import Verif.Model.Pi
import Verif.Model.Pow
import Verif.Model.PowGen
import Verif.Model.Radix
import Verif.Model.Random
import Verif.Model.Root
import Verif.Model.Round
import Verif.Model.Tan
import Verif.Model.Text
import Verif.Model.Trig
import Verif.Model.Util
import Verif.Props.C01
import Verif.Props.C02
import Verif.Props.C03
import Verif.Props.C04
import Verif.Props.C05
import Verif.Props.C06
import Verif.Props.C07
import Verif.Props.C08
import Verif.Props.C09
import Verif.Props.C10
import Verif.Props.C11
import Verif.Props.C12
import Verif.Props.C13
import Verif.Props.C14
import Verif.Props.C15
import Verif.Props.C16
import Verif.Props.C17
import Verif.Props.C18
import Verif.Props.C19
import Verif.Props.C20
import Verif.Props.C21
import Verif.Props.C22
import Verif.Props.C23
import Verif.Props.C24
import Verif.Props.C25
import Verif.Props.C26
import Verif.Props.C27
import Verif.Props.C28
import Verif.Props.C29
import Verif.Props.C30
import Verif.Props.C31
import Verif.Props.C32
import Verif.Props.C33
import Verif.Props.C34
import Verif.Props.C35
import Verif.Props.C36
import Verif.Props.C37
import Verif.Props.C38
import Verif.Props.C39
import Verif.Props.C40
import Verif.Props.C41
import Verif.Props.C42
import Verif.Props.C43
import Verif.Props.C44
import Verif.Props.C45
import Verif.Props.C46
import Verif.Props.C47
import Verif.Props.C48
import Verif.Props.C49
import Verif.Props.C50
import Verif.Props.C51
import Verif.Props.C52
import Verif.Props.C53
import Verif.Props.C54
import Verif.Props.C55
import Verif.Props.C56
import Verif.Props.C57
import Verif.Props.C58
import Verif.Props.C59
import Verif.Props.C60
import Verif.Props.C61
import Verif.Props.C62
import Verif.Props.C63
import Verif.Props.C64
import Verif.Props.C65
import Verif.Props.C66
import Verif.Props.C67
import Verif.Props.C68
import Verif.Props.C69
import Verif.Props.C70
import Verif.Props.C71
import Verif.Props.C72
import Verif.Props.C73
import Verif.Props.C74
import Verif.Props.C75
import Verif.Props.C76
import Verif.Props.C77
import Verif.Props.C78
import Verif.Props.C79
import Verif.Props.C80
import Verif.Props.C81
import Verif.Props.C82
import Verif.Props.C83
import Verif.Spec
import Verif.SpecConst
import Verif.SpecDec
import Verif.SpecExpr
import Verif.SpecExt
import Verif.SpecFun
import Verif.SpecInt
import Verif.SpecNum
import Verif.SpecOp
import Verif.SpecPi
import Verif.SpecRadix
import Verif.SpecText
