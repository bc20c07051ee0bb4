import Verif.Spec

/-! # Specification of random generation

This file does not mention any definition of the model. -/

namespace Thls.Spec

/-- The number whose base-2^32 digits are the given words, the first word being the most significant. -/
def bigEndian (ws : List ℕ) : ℕ := ws.foldl (fun n w => n * 2 ^ 32 + w) 0

/-- The seven classes of `fp_flopoco_random_test_source`: what the name of each class promises about the generated value. -/
def InClass : ℕ → Datum → Prop
  | 0, d => d = .zero false
  | 1, d => d = .zero true
  | 2, d => ∃ q, 0 < q ∧ d = .num q
  | 3, d => ∃ q, q < 0 ∧ d = .num q
  | 4, d => d = .inf false
  | 5, d => d = .inf true
  | 6, d => d = .nan
  | _, _ => False

end Thls.Spec
