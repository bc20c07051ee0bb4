import Verif.SpecSoft
import Verif.SpecOrder
import Verif.SpecRef
import Verif.SpecIeee

/-! # What a comparison of values can and cannot tell

This file does not mention any definition of the model. -/

namespace Thls.Spec

/-- The same value: equal as extended reals, so that the two zeros are the same, or both NaN. -/
def SameValue (x y : Datum) : Prop := x.RealEq y ∨ (x = .nan ∧ y = .nan)

/-- The six comparisons of a pair are those of the extended reals. -/
structure ComparesRight (A B : Datum) (eq ne lt le gt ge : Bool) : Prop where
  eq : eq = true ↔ A.RealEq B
  ne : ne = true ↔ ¬ A.RealEq B
  lt : lt = true ↔ A.Lt B
  le : le = true ↔ A.Lt B ∨ A.RealEq B
  gt : gt = true ↔ B.Lt A
  ge : ge = true ↔ B.Lt A ∨ A.RealEq B

/-- `g` has the value of a correct result: `R A B d` says that `d` is correct for the operands `A` and `B`. -/
def ResultRight (R : Datum → Datum → Datum → Prop) (A B g : Datum) : Prop := ∃ d, R A B d ∧ SameValue g d

/-- `d` is what the IEEE format `(E, F)` without denormals makes of the exact result `x`. -/
def IeeeDelivers (E F : ℕ) (x d : Datum) : Prop :=
  match x with
  | .num w => if w = 0 then d = .zero false else IeeeRounded E F w d
  | x => d = x

end Thls.Spec
