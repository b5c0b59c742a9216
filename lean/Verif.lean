import Verif.Ac.Arith
import Verif.Ac.Cvt
import Verif.Ac.Lemmas
import Verif.Ac.Loop
import Verif.Ac.Quant
import Verif.Ac.Types
import Verif.Model.Activations
import Verif.Model.AddTree
import Verif.Model.Arcsin
import Verif.Model.Array
import Verif.Model.Atan
import Verif.Model.Atan2
import Verif.Model.Bits
import Verif.Model.Chol
import Verif.Model.CholExact
import Verif.Model.CholFloat
import Verif.Model.CholFns
import Verif.Model.CholInv
import Verif.Model.CholInvFns
import Verif.Model.Complex
import Verif.Model.Cordic
import Verif.Model.DetComplex
import Verif.Model.Determinant
import Verif.Model.Div
import Verif.Model.DivFixed
import Verif.Model.DivV2
import Verif.Model.FlfxMul
import Verif.Model.Float
import Verif.Model.FloatAtan
import Verif.Model.FloatComplex
import Verif.Model.FloatHcordic
import Verif.Model.FloatTrig
import Verif.Model.Hcordic
import Verif.Model.InPlace
import Verif.Model.Matmul
import Verif.Model.Matrix
import Verif.Model.MatrixComplex
import Verif.Model.Normalize
import Verif.Model.Pwl
import Verif.Model.PwlFixed
import Verif.Model.PwlHa
import Verif.Model.Qrd
import Verif.Model.QrdFixed
import Verif.Model.Random
import Verif.Model.Relu
import Verif.Model.Shift
import Verif.Model.Sincos
import Verif.Model.SincosTable
import Verif.Model.Softmax
import Verif.Model.Sqrt
import Verif.Model.SqrtFixed
import Verif.Model.StdAddTree
import Verif.Model.StdChol
import Verif.Model.StdFloat
import Verif.Model.Tan
import Verif.Proof.AddTree
import Verif.Proof.AddTreeCut
import Verif.Proof.Arccos
import Verif.Proof.Arcsin
import Verif.Proof.ArcsinCore
import Verif.Proof.ArcsinLoop
import Verif.Proof.ArcsinOut
import Verif.Proof.ArcsinReal
import Verif.Proof.ArcsinSmall
import Verif.Proof.ArcsinTable
import Verif.Proof.ArcsinTiny
import Verif.Proof.ArcsinTinyCheck
import Verif.Proof.Atan
import Verif.Proof.Atan2
import Verif.Proof.Atan2Fix
import Verif.Proof.Atan2Real
import Verif.Proof.AtanReal
import Verif.Proof.Bits
import Verif.Proof.Chol
import Verif.Proof.CholAny
import Verif.Proof.CholExact
import Verif.Proof.CholFloat
import Verif.Proof.CholFns
import Verif.Proof.CholInv
import Verif.Proof.CholInvAny
import Verif.Proof.CholInvFns
import Verif.Proof.CholRound
import Verif.Proof.Complex
import Verif.Proof.ComplexDiv
import Verif.Proof.ComplexIsqrt
import Verif.Proof.ComplexIsqrtVha
import Verif.Proof.ComplexSqrt
import Verif.Proof.Cordic
import Verif.Proof.CordicMain
import Verif.Proof.CordicReal
import Verif.Proof.DetComplex
import Verif.Proof.Determinant
import Verif.Proof.Div
import Verif.Proof.DivFixed
import Verif.Proof.DivV2
import Verif.Proof.Elu
import Verif.Proof.ExpBound
import Verif.Proof.FlfxMul
import Verif.Proof.FlfxMul2
import Verif.Proof.FlfxMul3
import Verif.Proof.Float
import Verif.Proof.FloatAct
import Verif.Proof.FloatAtan
import Verif.Proof.FloatComplex
import Verif.Proof.FloatCvt
import Verif.Proof.FloatDiv
import Verif.Proof.FloatHcordic
import Verif.Proof.FloatIsqrt
import Verif.Proof.FloatLog
import Verif.Proof.FloatNum
import Verif.Proof.FloatPow
import Verif.Proof.FloatRec
import Verif.Proof.FloatSqrt
import Verif.Proof.FloatTrig
import Verif.Proof.Gelu
import Verif.Proof.Hcordic
import Verif.Proof.HcordicExact
import Verif.Proof.HcordicExp
import Verif.Proof.HcordicExp2
import Verif.Proof.HcordicExp3
import Verif.Proof.HcordicExp4
import Verif.Proof.HcordicExp5
import Verif.Proof.HcordicExp6
import Verif.Proof.HcordicExp7
import Verif.Proof.HcordicExpSmall
import Verif.Proof.HcordicLog
import Verif.Proof.HcordicLog2
import Verif.Proof.HcordicLog3
import Verif.Proof.HcordicLogCheck
import Verif.Proof.HcordicLogOne
import Verif.Proof.HcordicLogTwo
import Verif.Proof.HcordicOrder
import Verif.Proof.HcordicOrder2
import Verif.Proof.HcordicOrderSmall
import Verif.Proof.HcordicPow
import Verif.Proof.HcordicTable
import Verif.Proof.InPlace
import Verif.Proof.IsqrtPwl
import Verif.Proof.IsqrtVha
import Verif.Proof.LogPwl
import Verif.Proof.LogPwl2
import Verif.Proof.Matmul
import Verif.Proof.Matrix
import Verif.Proof.MatrixComplex
import Verif.Proof.Normalize
import Verif.Proof.PowPwl
import Verif.Proof.PowPwl2
import Verif.Proof.Pwl
import Verif.Proof.PwlFixed
import Verif.Proof.PwlHa
import Verif.Proof.PwlNorm
import Verif.Proof.Qrd
import Verif.Proof.QrdDiag
import Verif.Proof.QrdFixed
import Verif.Proof.QrdRound
import Verif.Proof.Random
import Verif.Proof.Reciprocal
import Verif.Proof.RoundTrip
import Verif.Proof.Sandwich
import Verif.Proof.Scaling
import Verif.Proof.Shift
import Verif.Proof.Sigmoid
import Verif.Proof.SigmoidErr
import Verif.Proof.Sincos
import Verif.Proof.SincosOrder
import Verif.Proof.SincosReal
import Verif.Proof.SincosTable
import Verif.Proof.Softmax
import Verif.Proof.SoftmaxErr
import Verif.Proof.SoftmaxOld
import Verif.Proof.Softplus
import Verif.Proof.Softsign
import Verif.Proof.Sqrt
import Verif.Proof.SqrtFixed
import Verif.Proof.SqrtPwl
import Verif.Proof.StdAddTree
import Verif.Proof.StdAddTree2
import Verif.Proof.StdAddTree3
import Verif.Proof.StdAddTree4
import Verif.Proof.StdAddTree5
import Verif.Proof.StdChol
import Verif.Proof.StdFloat
import Verif.Proof.Tan
import Verif.Proof.TanTable
import Verif.Proof.Tanh
import Verif.Proof.TanhErr
import Verif.Props.AbsLaws
import Verif.Props.AddTree
import Verif.Props.AddTreeCut
import Verif.Props.AddTreeLaws
import Verif.Props.Arccos
import Verif.Props.Arcsin
import Verif.Props.Array
import Verif.Props.Atan
import Verif.Props.Atan2
import Verif.Props.Chol
import Verif.Props.CholAny
import Verif.Props.CholFloat
import Verif.Props.CholInv
import Verif.Props.CholInvLaws
import Verif.Props.CholInvRound
import Verif.Props.CholLaws
import Verif.Props.CholRound
import Verif.Props.ComplexDiv
import Verif.Props.ComplexDivLaws
import Verif.Props.ComplexIsqrt
import Verif.Props.ComplexIsqrtVha
import Verif.Props.ComplexLaws
import Verif.Props.ComplexRec
import Verif.Props.ComplexSqrt
import Verif.Props.Cordic
import Verif.Props.DetComplex
import Verif.Props.Determinant
import Verif.Props.DivFixed
import Verif.Props.DivInt
import Verif.Props.DivLaws
import Verif.Props.Elu
import Verif.Props.Exact
import Verif.Props.FlfxMul
import Verif.Props.FlfxMulLaws
import Verif.Props.FloatAct
import Verif.Props.FloatAtan
import Verif.Props.FloatComplex
import Verif.Props.FloatDiv
import Verif.Props.FloatHcordicExp
import Verif.Props.FloatHcordicLog
import Verif.Props.FloatHcordicPow
import Verif.Props.FloatLog
import Verif.Props.FloatPow
import Verif.Props.FloatRec
import Verif.Props.FloatSqrt
import Verif.Props.FloatTrig
import Verif.Props.Gelu
import Verif.Props.HcordicExp
import Verif.Props.HcordicLog
import Verif.Props.HcordicPow
import Verif.Props.Identities
import Verif.Props.InPlace
import Verif.Props.IntAlgos
import Verif.Props.IntDivLaws
import Verif.Props.IsqrtPwl
import Verif.Props.IsqrtVha
import Verif.Props.LogPwl
import Verif.Props.Matrix
import Verif.Props.MatrixComplex
import Verif.Props.MatrixLaws
import Verif.Props.Normalize
import Verif.Props.NormalizeLaws
import Verif.Props.Order
import Verif.Props.PowGeneral
import Verif.Props.PowPwl
import Verif.Props.Qrd
import Verif.Props.QrdDiag
import Verif.Props.QrdLaws
import Verif.Props.QrdRound
import Verif.Props.Random
import Verif.Props.Reciprocal
import Verif.Props.ReciprocalHa
import Verif.Props.Relu
import Verif.Props.RoundTrip
import Verif.Props.Scaling
import Verif.Props.Shift
import Verif.Props.ShiftLaws
import Verif.Props.Sigmoid
import Verif.Props.Sincos
import Verif.Props.Softmax
import Verif.Props.SoftmaxLaws
import Verif.Props.SoftmaxOld
import Verif.Props.Softplus
import Verif.Props.Softsign
import Verif.Props.SqrtFixed
import Verif.Props.SqrtLaws
import Verif.Props.SqrtPwl
import Verif.Props.StdAddTree
import Verif.Props.StdAddTreeLaws
import Verif.Props.StdAddTreeValue
import Verif.Props.StdChol
import Verif.Props.StdFloat
import Verif.Props.StdFloatFns
import Verif.Props.Tan
import Verif.Props.Tanh
import Verif.Spec.Activations
import Verif.Spec.Bits
import Verif.Spec.CholArith
import Verif.Spec.CholFloat
import Verif.Spec.CholInvArith
import Verif.Spec.Flt
import Verif.Spec.Logistic
import Verif.Spec.QrdArith
import Verif.Spec.StdConv
import Verif.Spec.StdFloat
