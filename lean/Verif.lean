import Verif.Props.Perm
import Verif.Props.Rational
import Verif.Props.Mat
import Verif.Props.Rep
import Verif.Props.LinAlg
import Verif.Props.Algebra
import Verif.Props.Decompose
import Verif.Props.Real
import Verif.Props.Reduced
import Verif.Props.SU2
import Verif.Props.SO3
import Verif.Props.SL2C
import Verif.Props.Iter
import Verif.Props.SUN
import Verif.Props.SUNGen
import Verif.Props.SUNIrr
import Verif.Props.SUNLR
import Verif.Props.SUNCG
import Verif.Props.SONAdj
import Verif.Props.BasisInter
import Verif.Props.Jax
import Verif.Props.Finite
import Verif.Props.Roots
import Verif.Props.Dims
import Verif.Props.PermRepr
import Verif.Props.IrrepsArray
import Verif.Props.Kron
import Verif.Props.Parse
import Verif.Props.Reduce
import Verif.Props.TensorBasis
import Verif.Props.TensorFront
import Verif.Props.TensorExp
import Verif.Props.ChangeBasis
import Verif.Props.Recompute
import Verif.Props.SUNGeneric
import Verif.Props.SO13CG
import Verif.Props.SU2RealCG
import Verif.Props.SU2Under
import Verif.Props.Triplet
import Verif.Props.GroupProduct
import Verif.Props.DecomposeIrr
import Verif.Props.Vmap
import Verif.Props.Rounding
import Verif.Props.Structure
import Verif.Props.RoundCheck
import Verif.Props.GroupRep
import Verif.Props.Lorentz
import Verif.Props.Complete
import Verif.Props.Semisimple
import Verif.Props.Regular
import Verif.Props.FiniteExp
import Verif.Props.TensorPower
import Verif.Props.Scalar
import Verif.Props.Irreducible
import Verif.Props.ProductComplete
import Verif.Props.Repr
import Verif.Props.Stub
import Verif.Props.RoundNoise
import Verif.Props.RoundFloat
import Verif.Props.RoundingDecompose
import Verif.Props.RegularCount
import Verif.Props.TensorCount
import Verif.Props.RoundingExtend
import Verif.Props.RoundingSeq
import Verif.Props.RoundingInter
import Verif.Props.RoundingInfer
import Verif.Props.RoundingReduce
import Verif.Props.Dtype
import Verif.Props.Reshape
