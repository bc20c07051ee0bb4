import Verif.SpecRef
import Verif.SpecPolicy
import Verif.SpecSoft

/-! # What a word-in, word-out floating-point module has to do

This file does not mention any definition of the model. -/

namespace Thls.Spec

/-- The datum of a packed FloPoCo word of `3 + E + F` bits: from the top two flag bits, the sign, `E` exponent and `F` fraction bits. -/
def flopocoWord (E F w : ℕ) : Datum := denote E F (w / 2 ^ (1 + E + F)) (w / 2 ^ (E + F) % 2) (w / 2 ^ F % 2 ^ E) (w % 2 ^ F)

/-- A module `f` on packed words, operands in the formats `(EA, FA)` and `(EB, FB)`, is right: for every pair of words it returns a
word of the result format `(E, F)`, and that word is the exact result `op` of the two data, rounded to nearest even. -/
def ModuleRight (E F EA FA EB FB : ℕ) (op : Datum → Datum → Datum) (f : ℕ → ℕ → Option ℕ) : Prop :=
  ∀ a b, a < 2 ^ (3 + EA + FA) → b < 2 ^ (3 + EB + FB) → ∃ r, f a b = some r ∧ r < 2 ^ (3 + E + F) ∧
    Delivers E F (op (flopocoWord EA FA a) (flopocoWord EB FB b)) (flopocoWord E F r)

/-- The same for a module on IEEE words of `1 + E + F` bits that treats denormals as zeros. -/
def IeeeModuleRight (E F : ℕ) (op : Datum → Datum → Datum) (f : ℕ → ℕ → Option ℕ) : Prop :=
  ∀ a b, a < 2 ^ (1 + E + F) → b < 2 ^ (1 + E + F) → ∃ r, f a b = some r ∧ r < 2 ^ (1 + E + F) ∧
    IeeeDelivers E F (op (ieeeRange E (wordDatum E F a)) (ieeeRange E (wordDatum E F b))) (wordDatum E F r)

end Thls.Spec
