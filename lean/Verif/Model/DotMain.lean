import Verif.Model.DotRef

/-! # The programs that run the dot product tests (src/fp_ops/test_dot2_pos_rndd.cpp, src/fp_ops/test_dot4_pos_rndd.cpp)

A program calls its test in one format after the other. The operands that the random source of each call draws are arbitrary. The outcome is
`some true` if `main` returns 0, `some false` if a test prints an error and calls `exit(1)`, and `none` if an assertion fails or an exception
is thrown. -/

namespace Thls

/-- The formats in which `main` calls `test_dot2_pos_rndd`, in order. src/fp_ops/test_dot2_pos_rndd.cpp:23-32. -/
def dot2Instances : List (ℕ × ℕ) := [(8, 7), (8, 22), (8, 23), (8, 24), (5, 10), (11, 51), (11, 52), (11, 53), (11, 54), (11, 60)]

/-- `main`. src/fp_ops/test_dot2_pos_rndd.cpp:16-35. -/
def mainDot2 (draws : (E F : ℕ) → List (Fin 4 → Fp E F)) : Option Bool := runAll (fun p => testDot2 (draws p.1 p.2)) dot2Instances

/-- The formats in which `main` calls `test_dot4_pos_rndd`, in order. src/fp_ops/test_dot4_pos_rndd.cpp:21-35. -/
def dot4Instances : List (ℕ × ℕ) :=
  [(1, 3), (2, 3), (3, 3), (4, 3), (3, 4), (4, 4), (5, 4), (6, 4), (4, 5), (5, 5), (6, 5), (4, 16), (5, 16), (6, 16)]

/-- `main`. src/fp_ops/test_dot4_pos_rndd.cpp:16-40. -/
def mainDot4 (draws : (E F : ℕ) → List (Fin 8 → Fp E F)) : Option Bool := runAll (fun p => testDot4 (draws p.1 p.2)) dot4Instances

end Thls
