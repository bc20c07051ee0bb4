import Verif.Model.Fma
import Verif.Model.Convert

/-! # Client programs over the fused operation (property C110): not code of the library, but what its users write with it -/

namespace Thls.Spec

/-- `a*b - c*d` with two fused operations: `w = c*d`, `e = fma(c, d, -w)`, `f = fma(a, b, -w)`, `f - e`. -/
def differenceOfProducts {E F : ℕ} (a b c d : Fp E F) : Option (Fp E F) := do
  let w ← mulV1 E F c d
  let e ← fma E F c d (negV1 E F w)
  let f ← fma E F a b (negV1 E F w)
  AddDual.addSame f (negV1 E F e)

end Thls.Spec
