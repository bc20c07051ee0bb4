import Verif.Spec

/-! # Specification: weak order on data, used by the monotonicity statements -/

namespace Thls.Spec

/-- `a ≤ b` as extended reals; false if either is NaN. -/
def Datum.Le (a b : Datum) : Prop := a.Lt b ∨ a.RealEq b

/-- `d` is the rational `q` (possibly zero) rounded to nearest even in the format `(E, F)`; a zero result for
`q = 0` may carry either sign. -/
def Rounded0 (E F : ℕ) (q : ℚ) (d : Datum) : Prop :=
  if q = 0 then ∃ s, d = .zero s else Rounded E F q d

/-- The real value of a zero or an ordinary number. -/
def Datum.fin : Datum → Option ℚ
  | .zero _ => some 0
  | .num q => some q
  | _ => none

end Thls.Spec
