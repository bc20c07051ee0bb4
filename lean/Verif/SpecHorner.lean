import Verif.SpecExpr

/-! # Horner's rule with the operations of any of the number types (property C112) -/

namespace Thls.Spec

/-- Evaluation of a polynomial by Horner's rule with a given product and sum: `acc = acc * x + a` for the coefficients `a` after the
leading one, which is the first `acc`. -/
def hornerWith {T : Type} (mul add : T → T → Option T) (x acc : T) (as : List T) : Option T :=
  as.foldlM (fun acc a => do let p ← mul acc x; add p a) acc

end Thls.Spec
