import Verif.Props.Add
import Verif.Props.AddCut
import Verif.Props.AddMore
import Verif.Props.AddSharp
import Verif.Props.AddSingleEdge
import Verif.Props.AddSingleEdgeMono
import Verif.Props.AddSingleMono
import Verif.Props.AddVariantsSharp
import Verif.Props.AddWrap
import Verif.Props.Algebra
import Verif.Props.Bench
import Verif.Props.BenchFull
import Verif.Props.CompDot
import Verif.Props.Compensated
import Verif.Props.Convert
import Verif.Props.CtBig
import Verif.Props.CtRng
import Verif.Props.CtRngPeriod
import Verif.Props.CtVec
import Verif.Props.DebugTest
import Verif.Props.Dekker
import Verif.Props.Designs
import Verif.Props.Div
import Verif.Props.Dot
import Verif.Props.DotFormats
import Verif.Props.DotMain
import Verif.Props.DotRef
import Verif.Props.DotRefSmall
import Verif.Props.DotSharp
import Verif.Props.Double
import Verif.Props.Exact
import Verif.Props.ExactOps
import Verif.Props.ExprError
import Verif.Props.ExprSoft
import Verif.Props.Fixval
import Verif.Props.Flopoco
import Verif.Props.Fma
import Verif.Props.FmaEdge
import Verif.Props.FmaRemainder
import Verif.Props.FmaSharp
import Verif.Props.FwHelpers
import Verif.Props.FwUint
import Verif.Props.Heap
import Verif.Props.HeapTest
import Verif.Props.HostDouble
import Verif.Props.Ieee
import Verif.Props.IeeeMore
import Verif.Props.IeeeOps
import Verif.Props.IeeeSharp
import Verif.Props.IntDiv
import Verif.Props.IntegerOps
import Verif.Props.IntervalUse
import Verif.Props.Inv
import Verif.Props.InvExact
import Verif.Props.InvFormats
import Verif.Props.InvTable
import Verif.Props.InvTableExact
import Verif.Props.Kernels
import Verif.Props.KernelsReturned
import Verif.Props.Lerp
import Verif.Props.LimitConsts
import Verif.Props.LoopMono
import Verif.Props.Loops
import Verif.Props.LoopsReturned
import Verif.Props.LutOpt
import Verif.Props.Midpoint
import Verif.Props.Modules
import Verif.Props.MonoMore
import Verif.Props.Monomial
import Verif.Props.MonomialSoft
import Verif.Props.MpfrStep
import Verif.Props.Mul
import Verif.Props.MulNarrow
import Verif.Props.MulOneBit
import Verif.Props.MultiplyBack
import Verif.Props.Narrow
import Verif.Props.NarrowDifference
import Verif.Props.NarrowProduct
import Verif.Props.NarrowQuotient
import Verif.Props.NarrowSameExp
import Verif.Props.NarrowSingle
import Verif.Props.NarrowSum
import Verif.Props.OpInput
import Verif.Props.OpSweep
import Verif.Props.OpTest
import Verif.Props.OpTestVariants
import Verif.Props.Policy
import Verif.Props.PolicyAsserts
import Verif.Props.PolicyInput
import Verif.Props.PolicyTest
import Verif.Props.RandomFp
import Verif.Props.Ref
import Verif.Props.RefAgree
import Verif.Props.RefAgreeExact
import Verif.Props.RefAgreeFma
import Verif.Props.RefAgreeInv
import Verif.Props.RefOrder
import Verif.Props.RefReal
import Verif.Props.RoundInt
import Verif.Props.Scaling
import Verif.Props.SoftAgree
import Verif.Props.SoftFloat
import Verif.Props.SoftHorner
import Verif.Props.SoftLoops
import Verif.Props.SoftPrim
import Verif.Props.SoftSign
import Verif.Props.SoftWords
import Verif.Props.Text
import Verif.Props.Thresholds
import Verif.Props.ThresholdsIeee
import Verif.Props.ThresholdsSingle
import Verif.Props.ToConvert
import Verif.Props.TreeDot
import Verif.Props.TreeSum
import Verif.Props.TwoSum
import Verif.Props.TypeTest
import Verif.Props.UpLoop
import Verif.Props.Vendor
