import Verif.Spec.Chart
import Verif.Spec.Clifford
import Verif.Spec.Coef
import Verif.Spec.Conn
import Verif.Spec.Correlation
import Verif.Spec.Denote
import Verif.Spec.Deriv
import Verif.Spec.DerivTex
import Verif.Spec.Dop
import Verif.Spec.DopOperands
import Verif.Spec.DopText
import Verif.Spec.Elementary
import Verif.Spec.ExpSeries
import Verif.Spec.FmtList
import Verif.Spec.FnForms
import Verif.Spec.Frame
import Verif.Spec.GPrint
import Verif.Spec.GaEval
import Verif.Spec.Grad
import Verif.Spec.LinearEq
import Verif.Spec.Lt
import Verif.Spec.LtFrame
import Verif.Spec.Mlt
import Verif.Spec.MltComps
import Verif.Spec.MltMv
import Verif.Spec.MltText
import Verif.Spec.Mv
import Verif.Spec.MvDeriv
import Verif.Spec.MvLatex
import Verif.Spec.OpCalc
import Verif.Spec.Outer
import Verif.Spec.Parser
import Verif.Spec.Print
import Verif.Spec.Program
import Verif.Spec.ReadBack
import Verif.Spec.Root
import Verif.Spec.Script
import Verif.Spec.Settings
import Verif.Spec.Submanifold
import Verif.Spec.SymbolTex
import Verif.Spec.Symbols
import Verif.Spec.Tex
import Verif.Spec.TexFormula
import Verif.Spec.TexLex
import Verif.Spec.Witness
import Verif.Model.Blade
import Verif.Model.BladeText
import Verif.Model.Cache
import Verif.Model.Capture
import Verif.Model.Coef
import Verif.Model.Connection
import Verif.Model.Construct
import Verif.Model.Correlation
import Verif.Model.Deprecated
import Verif.Model.Deriv
import Verif.Model.Dict
import Verif.Model.Dop
import Verif.Model.DopConstruct
import Verif.Model.DopExpand
import Verif.Model.DopOperands
import Verif.Model.DopSimplify
import Verif.Model.DopText
import Verif.Model.Expr
import Verif.Model.FmtList
import Verif.Model.FnForms
import Verif.Model.Functions
import Verif.Model.GPrint
import Verif.Model.Ga
import Verif.Model.GaEval
import Verif.Model.GaNames
import Verif.Model.Grad
import Verif.Model.Heap
import Verif.Model.Index
import Verif.Model.Inverse
import Verif.Model.Lt
import Verif.Model.MetricInv
import Verif.Model.Mlt
import Verif.Model.MltComps
import Verif.Model.MltMv
import Verif.Model.MltText
import Verif.Model.Modes
import Verif.Model.Mv
import Verif.Model.MvDeriv
import Verif.Model.MvLatex
import Verif.Model.Names
import Verif.Model.Norm
import Verif.Model.Operands
import Verif.Model.Param
import Verif.Model.Parser
import Verif.Model.PowTex
import Verif.Model.Preset
import Verif.Model.Print
import Verif.Model.PrintGS
import Verif.Model.PrintRref
import Verif.Model.Pseudo
import Verif.Model.RSymbols
import Verif.Model.Session
import Verif.Model.Settings
import Verif.Model.Signature
import Verif.Model.Sm
import Verif.Model.SymEq
import Verif.Model.SymMatrix
import Verif.Model.SymbolTex
import Verif.Model.Table
import Verif.Model.Tex
import Verif.Proofs.Blade
import Verif.Proofs.Cache
import Verif.Proofs.Calc
import Verif.Proofs.Cderiv
import Verif.Proofs.Chart
import Verif.Proofs.Clifford
import Verif.Proofs.Coef
import Verif.Proofs.Conn
import Verif.Proofs.Contract
import Verif.Proofs.Curl
import Verif.Proofs.Deriv
import Verif.Proofs.Det
import Verif.Proofs.Dict
import Verif.Proofs.Div
import Verif.Proofs.Dop
import Verif.Proofs.DopExpand
import Verif.Proofs.DopOperands
import Verif.Proofs.DopScalar
import Verif.Proofs.DopText
import Verif.Proofs.DotOrtho
import Verif.Proofs.Examples
import Verif.Proofs.Exp
import Verif.Proofs.ExpSeries
import Verif.Proofs.Expr
import Verif.Proofs.Faddeev
import Verif.Proofs.Filtration
import Verif.Proofs.Flags
import Verif.Proofs.FnForms
import Verif.Proofs.Frame
import Verif.Proofs.GPrint
import Verif.Proofs.GaEval
import Verif.Proofs.Gamma
import Verif.Proofs.GpOrtho
import Verif.Proofs.Grad
import Verif.Proofs.GradeBound
import Verif.Proofs.GradeMul
import Verif.Proofs.Grades
import Verif.Proofs.Hitzer
import Verif.Proofs.Index
import Verif.Proofs.Inner
import Verif.Proofs.InnerLaws
import Verif.Proofs.Invert
import Verif.Proofs.Isometry
import Verif.Proofs.KeepGrades
import Verif.Proofs.Lt
import Verif.Proofs.LtFrame
import Verif.Proofs.MinusRead
import Verif.Proofs.Mlt
import Verif.Proofs.MltComps
import Verif.Proofs.MltMv
import Verif.Proofs.MltText
import Verif.Proofs.MvDeriv
import Verif.Proofs.MvLatex
import Verif.Proofs.MvSpec
import Verif.Proofs.NonOrtho
import Verif.Proofs.Norm
import Verif.Proofs.OrthoBasis
import Verif.Proofs.Outer
import Verif.Proofs.Parser
import Verif.Proofs.ParserAdd
import Verif.Proofs.ParserExpr
import Verif.Proofs.ParserLine
import Verif.Proofs.ParserMinus
import Verif.Proofs.ParserRead
import Verif.Proofs.ParserStage
import Verif.Proofs.ParserTree
import Verif.Proofs.PowTex
import Verif.Proofs.Print
import Verif.Proofs.Products
import Verif.Proofs.Project
import Verif.Proofs.Pseudo
import Verif.Proofs.RSymbols
import Verif.Proofs.RatFun
import Verif.Proofs.ReadBack
import Verif.Proofs.Recip
import Verif.Proofs.Reduce
import Verif.Proofs.Reflect
import Verif.Proofs.Script
import Verif.Proofs.Sdop
import Verif.Proofs.SdopEq
import Verif.Proofs.Session
import Verif.Proofs.Settings
import Verif.Proofs.Shirokov
import Verif.Proofs.Signature
import Verif.Proofs.Simple
import Verif.Proofs.SpecLaws
import Verif.Proofs.Submanifold
import Verif.Proofs.Subs
import Verif.Proofs.Subspace
import Verif.Proofs.SubspaceCon
import Verif.Proofs.SymMatrix
import Verif.Proofs.SymbolTex
import Verif.Proofs.Terms
import Verif.Proofs.Tex
import Verif.Proofs.TexFormula
import Verif.Proofs.TexLex
import Verif.Proofs.Versor
import Verif.Proofs.Warp
import Verif.Props.C01
import Verif.Props.C02
import Verif.Props.C04
import Verif.Props.C05
import Verif.Props.C06
import Verif.Props.C07
import Verif.Props.C08
import Verif.Props.C10
import Verif.Props.C100
import Verif.Props.C101
import Verif.Props.C102
import Verif.Props.C103
import Verif.Props.C104
import Verif.Props.C104Dd
import Verif.Props.C105
import Verif.Props.C106
import Verif.Props.C107
import Verif.Props.C107Group
import Verif.Props.C108
import Verif.Props.C108Gram
import Verif.Props.C109
import Verif.Props.C110
import Verif.Props.C110Con
import Verif.Props.C111
import Verif.Props.C112
import Verif.Props.C112Ex
import Verif.Props.C112Fun
import Verif.Props.C113
import Verif.Props.C114
import Verif.Props.C115
import Verif.Props.C116
import Verif.Props.C117
import Verif.Props.C118
import Verif.Props.C119
import Verif.Props.C120
import Verif.Props.C121
import Verif.Props.C122
import Verif.Props.C122Bivector
import Verif.Props.C122Dual
import Verif.Props.C13
import Verif.Props.C14
import Verif.Props.C15
import Verif.Props.C18
import Verif.Props.C18Norm
import Verif.Props.C18Table
import Verif.Props.C19
import Verif.Props.C20Center
import Verif.Props.C21
import Verif.Props.C21Inverse
import Verif.Props.C22Metric
import Verif.Props.C23
import Verif.Props.C24
import Verif.Props.C25
import Verif.Props.C27Bivector
import Verif.Props.C28
import Verif.Props.C28Outer
import Verif.Props.C30
import Verif.Props.C30Outer
import Verif.Props.C31
import Verif.Props.C32
import Verif.Props.C33
import Verif.Props.C36
import Verif.Props.C37Mv
import Verif.Props.C38
import Verif.Props.C39
import Verif.Props.C40
import Verif.Props.C42
import Verif.Props.C42Scalar
import Verif.Props.C43
import Verif.Props.C45
import Verif.Props.C45Chain
import Verif.Props.C48
import Verif.Props.C49
import Verif.Props.C49Minus
import Verif.Props.C49Precedence
import Verif.Props.C50
import Verif.Props.C51
import Verif.Props.C52
import Verif.Props.C53
import Verif.Props.C53Identities
import Verif.Props.C54Frame
import Verif.Props.C55
import Verif.Props.C56
import Verif.Props.C58
import Verif.Props.C60
import Verif.Props.C60Direct
import Verif.Props.C60Product
import Verif.Props.C63
import Verif.Props.C64
import Verif.Props.C64Cderiv
import Verif.Props.C64Skew
import Verif.Props.C65
import Verif.Props.C67
import Verif.Props.C68
import Verif.Props.C69
import Verif.Props.C70
import Verif.Props.C71
import Verif.Props.C72
import Verif.Props.C73
import Verif.Props.C74
import Verif.Props.C75
import Verif.Props.C76
import Verif.Props.C77
import Verif.Props.C78
import Verif.Props.C79
import Verif.Props.C80
import Verif.Props.C81
import Verif.Props.C82
import Verif.Props.C83
import Verif.Props.C84
import Verif.Props.C85
import Verif.Props.C86
import Verif.Props.C87
import Verif.Props.C88
import Verif.Props.C89
import Verif.Props.C90
import Verif.Props.C91
import Verif.Props.C92
import Verif.Props.C93
import Verif.Props.C94
import Verif.Props.C95
import Verif.Props.C96
import Verif.Props.C97
import Verif.Props.C98
import Verif.Props.C99
