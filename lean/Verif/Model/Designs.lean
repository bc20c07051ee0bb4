import Verif.Model.Loops

/-! # The benchmark designs that are built, one per source file of src/benchmarks -/

namespace Thls

/-- A configuration: exponent and fraction bits of the accumulator, of the left factors and of the right factors.
dot_product/dot_product_par4_tl_hls*.cpp:3, mat_mul/mat_mul_16x16_hls*.cpp:3. -/
structure Design where
  AE : ℕ
  AF : ℕ
  LE : ℕ
  LF : ℕ
  RE : ℕ
  RF : ℕ
deriving DecidableEq

namespace Design

/-- `hls16`, `hls24`, `hls32`, `hls48`, `hls64`. dot_product/sweep_types.hpp:14-18 (the same in mat_mul/sweep_types.hpp). -/
def hls16 : ℕ × ℕ := (5, 10)
@[inherit_doc hls16] def hls24 : ℕ × ℕ := (7, 16)
@[inherit_doc hls16] def hls32 : ℕ × ℕ := (8, 23)
@[inherit_doc hls16] def hls48 : ℕ × ℕ := (9, 38)
@[inherit_doc hls16] def hls64 : ℕ × ℕ := (11, 52)

/-- The template arguments `<acc, left, right>` of the traits.
dot_product/dot_product_par4_tl_hls*.cpp:3, mat_mul/mat_mul_16x16_hls*.cpp:3. -/
def of (a l r : ℕ × ℕ) : Design := ⟨a.1, a.2, l.1, l.2, r.1, r.2⟩

/-- The designs with `flopoco_round_dot_traits`. dot_product/dot_product_par4_tl_hls*_round.cpp:3 (eleven files). -/
def par4Round : List Design :=
  [of hls16 hls16 hls16, of hls24 hls16 hls16, of hls24 hls24 hls24, of hls32 hls16 hls16, of hls32 hls32 hls16, of hls32 hls32 hls32,
   of hls48 hls24 hls24, of hls48 hls48 hls48, of hls64 hls32 hls32, of hls64 hls64 hls32, of hls64 hls64 hls64]

/-- The designs with `flopoco_full_dot_traits`. dot_product/dot_product_par4_tl_hls*_full.cpp:3 (three files). In all of them the two
factors have the same format. -/
def par4Full : List Design := [of hls24 hls16 hls16, of hls32 hls16 hls16, of hls64 hls32 hls32]

/-- The matrix products with `flopoco_round_dot_traits`. mat_mul/mat_mul_16x16_hls*_round.cpp:3 (five files); the two factors have the same
format in all of them. -/
def matRound : List Design :=
  [of hls16 hls16 hls16, of hls32 hls16 hls16, of hls32 hls32 hls32, of hls64 hls32 hls32, of hls64 hls64 hls64]

/-- The matrix products with `flopoco_full_dot_traits`. mat_mul/mat_mul_16x16_hls*_full.cpp:3 (two files). -/
def matFull : List Design := [of hls32 hls16 hls16, of hls64 hls32 hls32]

end Design

end Thls
