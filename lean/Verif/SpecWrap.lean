import Verif.Spec

/-! # Specification: what the dual-path adder returns in every format, right or wrong -/

namespace Thls.Spec

/-- `d` is what the dual-path adder of the format `(E, F)` makes of the real sum `q`: the correctly rounded sum, except that sums below
`2^(-bias-2^(E+1))` are first multiplied by `2^(2^(E+2))`, because their exponent wraps. A vanishing sum is `+0`. -/
def WrappedSum (E F : ℕ) (q : ℚ) (d : Datum) : Prop :=
  if q = 0 then d = .zero false
  else if (2 : ℚ) ^ (-bias E - 2 ^ (E + 1)) ≤ |q| then Rounded E F q d
  else Rounded E F (q * 2 ^ 2 ^ (E + 2)) d

end Thls.Spec
