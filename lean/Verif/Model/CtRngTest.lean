import Verif.Model.CtRng

/-! # The self-check of the compile-time generators (ct/ct_rng.hpp) -/

namespace Thls.Ct

/-- `verify_ct_rng_fixed<rng0>`: the reference values of a generator. ct_rng.hpp:48-54. -/
structure Fixed where
  value1 : ℕ
  value2 : ℕ
  value19937 : ℕ
  value2y24 : ℕ

/-- `sample_at<T,distance>::value`. ct_rng.hpp:38-45. -/
def sampleAt (skip : ℕ → ℤ → Option ℕ) (s : ℕ) (distance : ℤ) : Option ℕ := skip s distance

/-- `verify_ct_rng<rng0>::run()`, for a generator whose `skip_by` is `skip`: `some true` if it returns, `some false` if it
reports a failure and exits, `none` if it does not compile. ct_rng.hpp:57-126. -/
def verifyRun (skip : ℕ → ℤ → Option ℕ) (fixed : Fixed) (s0 : ℕ) : Option Bool := do
  let id0 ← skip s0 0
  let s1 ← skip s0 1
  let s2 ← skip s0 2
  let s2' ← skip s1 1
  let p2 ← sampleAt skip s0 2
  let s3 ← skip s0 3
  let s3' ← skip s2 1
  let p3 ← sampleAt skip s0 3
  let s4 ← skip s0 4
  let s4' ← skip s3 1
  let p4 ← sampleAt skip s0 4
  let s5 ← skip s0 5
  let s5' ← skip s4 1
  let p5 ← sampleAt skip s0 5
  let s6 ← skip s0 6
  let s6' ← skip s5 1
  let p6 ← sampleAt skip s0 6
  let far ← skip s0 19937
  let farther ← skip s0 (2 ^ 24)
  let b5 ← skip s6 (-1)
  let b1 ← skip s6 (-5)
  return decide (id0 = s0) && !decide (s1 = s0) && decide (fixed.value1 = s1) &&
    decide (s2 = s2') && decide (s2 = p2) && decide (fixed.value2 = s2) &&
    decide (s3 = s3') && decide (s3 = p3) && decide (s4 = s4') && decide (s4 = p4) &&
    decide (s5 = s5') && decide (s5 = p5) && decide (s6 = s6') && decide (s6 = p6) &&
    decide (fixed.value19937 = far) && decide (fixed.value2y24 = farther) && decide (s5 = b5) && decide (s1 = b1)

/-- `skip_by` of the generator modulo `2^32`. ct_rng_lcg_mod_2y32.hpp:89-100. -/
def quickSkip (s : ℕ) (d : ℤ) : Option ℕ := some (lcgSkip s lcgA lcgC d)

/-- `skip_by` of the generator modulo `2^31 - 1`. ct_rng_lcg_mod_p.hpp:97-107. -/
def minstdSkip (s : ℕ) (d : ℤ) : Option ℕ := pSkip s pA2 pM2 d

/-- `skip_by` of the generator modulo `2^32 - 5`. ct_rng_lcg_mod_p.hpp:97-107. -/
def m5Skip (s : ℕ) (d : ℤ) : Option ℕ := pSkip s pA1 pM1 d

/-- `verify_ct_rng_fixed` of the default generators. ct_rng_lcg_mod_2y32.hpp:103-114, ct_rng_lcg_mod_p.hpp:110-127. -/
def quickFixed : Fixed := ⟨3977611212, 495853755, 513342252, 563458017⟩
@[inherit_doc quickFixed] def minstdFixed : Fixed := ⟨1119407881, 1931508247, 1009599722, 246285303⟩
@[inherit_doc quickFixed] def m5Fixed : Fixed := ⟨4020269147, 2884350374, 3384465501, 906608749⟩

end Thls.Ct
