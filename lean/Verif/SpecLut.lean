import Verif.SpecCt
import Mathlib.Data.Finset.Image
import Mathlib.Algebra.BigOperators.Group.Finset.Basic

/-! # Specification of the LUT-optimised generator

The construction in the comment at the head of lut_opt.hpp, on plain lists, without FIFOs. -/

namespace Thls.Spec

/-- The generator that draws the permutations. -/
def lutLcg (s : ℕ) : ℕ := lcgStep 1664525 1013904223 (2 ^ 32) s

/-- The cycle `1, 2, ..., n-1, 0`. -/
def lutCycle (n : ℕ) : List ℕ := (List.range n).map fun i => (1 + i) % n

/-- `t` permutations of the bits, each a shuffle of the one before. -/
def lutSources (n : ℕ) : ℕ → ℕ → List ℕ → List (List ℕ)
  | 0, _, _ => []
  | t + 1, s, l => shuffle id lutLcg n s l :: lutSources n t (lutLcg^[n - 1] s) (shuffle id lutLcg n s l)

/-- The order in which the new bits are put together, most significant first. -/
def lutOutput (n t s : ℕ) : List ℕ := shuffle id lutLcg n (lutLcg^[t * (n - 1)] s) (lutCycle n)

/-- The bits of the state whose parity is bit `i` of the next state: the images of one position under the `t`
permutations. -/
def lutTaps (n t s i : ℕ) : Finset ℕ :=
  ((lutSources n t s (lutCycle n)).map fun l => l.getD ((lutOutput n t s).getD (n - 1 - i) 0) 0).toFinset

end Thls.Spec
