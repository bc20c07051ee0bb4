import Verif.Props.InvTableExact
import Verif.Proofs.LucasNat

/-! # The formats in which the directly tabulated reciprocal is correctly rounded -/

namespace Thls.Inv
open Spec

/-- The result formats that escape the double rounding although the operand and result have more than 51 fraction bits
together. -/
def directExceptions : List (ℕ × ℕ) := [(4, 48), (13, 39), (16, 36), (19, 33), (22, 30), (23, 30), (24, 30)]

/-- Operand fractions for which the table entry is wrong: operand fraction bits, result fraction bits, fraction. -/
def directWitnesses : List (ℕ × ℕ × ℕ) := [
  (2, 50, 1), (3, 49, 5), (3, 50, 3), (4, 49, 10), (4, 50, 6), (5, 47, 5), (5, 48, 1), (5, 49, 20), (5, 50, 12),
  (6, 46, 1), (6, 47, 57), (6, 48, 2), (6, 49, 61), (6, 50, 24), (7, 45, 57), (7, 46, 2), (7, 47, 114), (7, 48, 4),
  (7, 49, 119), (7, 50, 85), (8, 44, 225), (8, 45, 107), (8, 46, 1), (8, 47, 228), (8, 48, 8), (8, 49, 238),
  (8, 50, 9), (9, 43, 33), (9, 44, 171), (9, 45, 214), (9, 46, 59), (9, 47, 456), (9, 48, 231), (9, 49, 476),
  (9, 50, 47), (10, 42, 393), (10, 43, 66), (10, 44, 342), (10, 45, 689), (10, 46, 118), (10, 47, 491),
  (10, 48, 699), (10, 49, 53), (10, 50, 399), (11, 41, 357), (11, 42, 1), (11, 43, 132), (11, 44, 684),
  (11, 45, 1378), (11, 46, 785), (11, 47, 399), (11, 48, 479), (11, 49, 106), (11, 50, 403), (12, 40, 2989),
  (12, 41, 3417), (12, 42, 1057), (12, 43, 1043), (12, 44, 1127), (12, 45, 1435), (12, 46, 1), (12, 47, 798),
  (12, 48, 1485), (12, 49, 1323), (12, 50, 806), (13, 40, 721), (13, 41, 6834), (13, 42, 2114), (13, 43, 2086),
  (13, 44, 307), (13, 45, 2870), (13, 46, 2), (13, 47, 489), (13, 48, 8065), (13, 49, 2646), (13, 50, 1),
  (14, 38, 3781), (14, 39, 6155), (14, 40, 1442), (14, 41, 13668), (14, 42, 4228), (14, 43, 4172), (14, 44, 614),
  (14, 45, 5740), (14, 46, 11521), (14, 47, 5675), (14, 48, 16130), (14, 49, 13657), (14, 50, 9421), (15, 37, 19661),
  (15, 38, 7562), (15, 39, 12310), (15, 40, 2884), (15, 41, 3793), (15, 42, 4403), (15, 43, 28913), (15, 44, 1228),
  (15, 45, 10637), (15, 46, 16003), (15, 47, 11350), (15, 48, 23427), (15, 49, 27314), (15, 50, 18842),
  (16, 37, 17107), (16, 38, 13221), (16, 39, 14077), (16, 40, 5768), (16, 41, 45977), (16, 42, 8806),
  (16, 43, 57826), (16, 44, 2456), (16, 45, 37425), (16, 46, 32006), (16, 47, 24587), (16, 48, 46854),
  (16, 49, 54628), (16, 50, 37684), (17, 35, 115169), (17, 36, 116857), (17, 37, 34214), (17, 38, 43691),
  (17, 39, 28154), (17, 40, 112785), (17, 41, 91954), (17, 42, 17612), (17, 43, 116313), (17, 44, 15241),
  (17, 45, 74850), (17, 46, 64012), (17, 47, 6273), (17, 48, 93708), (17, 49, 60917), (17, 50, 75368), (18, 34, 1),
  (18, 35, 97347), (18, 36, 233714), (18, 37, 135921), (18, 38, 87382), (18, 39, 8875), (18, 40, 48469),
  (18, 41, 183908), (18, 42, 122629), (18, 43, 46739), (18, 44, 12033), (18, 45, 95617), (18, 46, 50565),
  (18, 47, 12546), (18, 48, 92545), (18, 49, 156283), (18, 50, 63987), (19, 34, 2), (19, 35, 194694), (19, 36, 1),
  (19, 37, 271842), (19, 38, 128469), (19, 39, 17750), (19, 40, 433287), (19, 41, 73815), (19, 42, 174763),
  (19, 43, 93478), (19, 44, 24066), (19, 45, 314573), (19, 46, 101130), (19, 47, 25092), (19, 48, 185090),
  (19, 49, 147497), (19, 50, 206159), (20, 32, 182629), (20, 33, 29897), (20, 34, 275745), (20, 35, 524291),
  (20, 36, 2), (20, 37, 111581), (20, 38, 1), (20, 39, 35500), (20, 40, 875289), (20, 41, 260083), (20, 42, 349526),
  (20, 43, 24707), (20, 44, 514969), (20, 45, 629146), (20, 46, 202260), (20, 47, 1043559), (20, 48, 370180),
  (20, 49, 294994), (20, 50, 511113), (21, 31, 1103981), (21, 32, 365258), (21, 33, 59794), (21, 34, 551490),
  (21, 35, 1048582), (21, 36, 4), (21, 37, 223162), (21, 38, 2), (21, 39, 341657), (21, 40, 1), (21, 41, 520166),
  (21, 42, 1838219), (21, 43, 1968065), (21, 44, 1029938), (21, 45, 148847), (21, 46, 699051), (21, 47, 1261773),
  (21, 48, 740360), (21, 49, 589988), (21, 50, 759003), (22, 31, 1893275), (22, 32, 730516), (22, 33, 119588),
  (22, 34, 1102980), (22, 35, 374995), (22, 36, 21877), (22, 37, 2811483), (22, 38, 4), (22, 39, 233019),
  (22, 40, 2), (22, 41, 314497), (22, 42, 1), (22, 43, 3133353), (22, 44, 1835409), (22, 45, 297694),
  (22, 46, 3222057), (22, 47, 2523546), (22, 48, 924925), (22, 49, 1179976), (22, 50, 463517), (23, 29, 722309),
  (23, 31, 3786550), (23, 32, 1563017), (23, 33, 239176), (23, 34, 505929), (23, 35, 6476513), (23, 36, 43754),
  (23, 37, 2439159), (23, 38, 4893361), (23, 39, 466038), (23, 40, 3417505), (23, 41, 2516585), (23, 42, 2),
  (23, 43, 6266706), (23, 44, 1), (23, 45, 4962335), (23, 46, 6444114), (23, 47, 5995425), (23, 48, 1849850),
  (23, 49, 2359952), (23, 50, 762601), (24, 28, 1362529), (24, 29, 5543907), (24, 31, 7573100), (24, 32, 3126034),
  (24, 33, 6032323), (24, 34, 1011858), (24, 35, 12953026), (24, 36, 15706085), (24, 37, 4878318), (24, 38, 9786722),
  (24, 39, 6094337), (24, 40, 3548869), (24, 41, 5205755), (24, 42, 858345), (24, 43, 8388611), (24, 44, 2),
  (24, 45, 316657), (24, 46, 1), (24, 47, 11990850), (24, 48, 735561), (24, 49, 4508313), (24, 50, 1525202),
  (25, 27, 12000153), (25, 28, 15358059), (25, 29, 11087814), (25, 30, 18181845), (25, 31, 2212307),
  (25, 32, 5504187), (25, 33, 15366437), (25, 34, 401417), (25, 35, 14894229), (25, 36, 6291475), (25, 37, 3205691),
  (25, 38, 20141289), (25, 39, 20971533), (25, 40, 7097738), (25, 41, 10411510), (25, 42, 1716690),
  (25, 43, 3527373), (25, 44, 22855211), (25, 45, 4112705), (25, 46, 2), (25, 47, 30460817), (25, 48, 1),
  (25, 49, 8354277), (25, 50, 14715329), (26, 26, 51333057), (26, 27, 24000306), (26, 28, 30716118),
  (26, 29, 32680809), (26, 30, 40258765), (26, 31, 38196579), (26, 32, 11008374), (26, 33, 30732874),
  (26, 34, 30341039), (26, 35, 52428857), (26, 36, 12582950), (26, 37, 16753497), (26, 38, 57036609),
  (26, 39, 41943066), (26, 40, 35396257), (26, 41, 20823020), (26, 42, 26347737), (26, 43, 7054746),
  (26, 44, 32689633), (26, 45, 8225410), (26, 46, 4), (26, 47, 33554435), (26, 48, 2), (26, 49, 16708554),
  (26, 50, 1), (27, 26, 12519745), (27, 27, 48000612), (27, 28, 26247761), (27, 29, 65361618), (27, 30, 80517530),
  (27, 31, 118489329), (27, 32, 54938521), (27, 33, 108025577), (27, 34, 104064639), (27, 35, 104857714),
  (27, 36, 26869435), (27, 37, 33506994), (27, 38, 114073218), (27, 39, 83886132), (27, 40, 70792514),
  (27, 41, 51191297), (27, 42, 35011201), (27, 43, 14109492), (27, 44, 65379266), (27, 45, 50263385),
  (27, 46, 121666991), (27, 47, 47067809), (27, 48, 10591555), (27, 49, 890349), (27, 50, 2), (28, 27, 30933563),
  (28, 28, 268402689), (28, 29, 47480873), (28, 30, 161035060), (28, 31, 236978658), (28, 32, 7695681),
  (28, 33, 216051154), (28, 34, 199008231), (28, 35, 209715428), (28, 36, 12851329), (28, 37, 67013988),
  (28, 38, 228146436), (28, 39, 120236761), (28, 40, 35635345), (28, 41, 102382594), (28, 42, 70022402),
  (28, 43, 28218984), (28, 44, 179671287), (28, 45, 68125675), (28, 46, 24925507), (28, 47, 94135618),
  (28, 48, 920137), (28, 49, 1780698), (28, 50, 230366715), (29, 28, 536805378), (29, 29, 94961746),
  (29, 30, 379937011), (29, 31, 473957316), (29, 32, 15391362), (29, 33, 432102308), (29, 34, 53782019),
  (29, 35, 83856453), (29, 36, 25702658), (29, 37, 198934297), (29, 38, 456292872), (29, 39, 301177881),
  (29, 40, 71270690), (29, 41, 204765188), (29, 42, 140044804), (29, 43, 385534653), (29, 44, 472812481),
  (29, 45, 136251350), (29, 46, 70443351), (29, 47, 42636341), (29, 48, 1840274), (29, 49, 3561396),
  (29, 50, 59169721), (30, 29, 189923492), (30, 30, 306913861), (30, 31, 947914632), (30, 32, 30782724),
  (30, 33, 45670497), (30, 34, 540149325), (30, 35, 167712906), (30, 36, 51405316), (30, 37, 92274827),
  (30, 38, 1630521), (30, 39, 602355762), (30, 40, 142541380), (30, 41, 409530376), (30, 42, 85107061),
  (30, 43, 771069306), (30, 44, 945624962), (30, 45, 1001857899), (30, 46, 81581553), (30, 47, 85272682),
  (30, 48, 3680548), (30, 49, 77705009), (30, 50, 772429957)]

/-- The condition of `directEntry_above`, as a test. -/
def entryAbove (FY FR f : ℕ) : Bool :=
  decide (f < 2 ^ FY) && decide (2 * 2 ^ (FR + 1 + FY) + (2 ^ FY + f) < 2 * directEntry (FR + 1) FY f * (2 ^ FY + f))

theorem entryAbove_iff {FY FR f : ℕ} : entryAbove FY FR f = true ↔ f < 2 ^ FY ∧
    2 * (2 : ℤ) ^ (FR + 1 + FY) < (2 * (directEntry (FR + 1) FY f : ℤ) - 1) * (2 ^ FY + f) := by
  unfold entryAbove
  rw [Bool.and_eq_true, decide_eq_true_eq, decide_eq_true_eq]
  refine and_congr_right fun _ => ?_
  zify
  rw [sub_mul, one_mul]
  exact lt_sub_iff_add_lt.symm

theorem witnesses_above : directWitnesses.all (fun t => entryAbove t.1 t.2.1 t.2.2) = true := by decide +kernel

theorem witnesses_cover : (List.range 31).all (fun FY => (List.range 51).all (fun FR =>
    decide (FY = 0) || decide (FR + 1 < FY) || decide (FY + FR ≤ 51) || decide ((FY, FR) ∈ directExceptions) ||
      directWitnesses.any (fun t => decide (t.1 = FY) && decide (t.2.1 = FR)))) = true := by decide +kernel

/-- In every other format some entry is wrong. -/
theorem exists_above {FY FR : ℕ} (hFY : 1 ≤ FY) (hFY2 : FY ≤ 30) (hF : FY ≤ FR + 1) (h50 : FR ≤ 50)
    (h52 : 52 ≤ FY + FR) (hx : (FY, FR) ∉ directExceptions) : ∃ f, entryAbove FY FR f = true := by
  have h := witnesses_cover
  rw [List.all_eq_true] at h
  have h := h FY (List.mem_range.2 (by omega))
  rw [List.all_eq_true] at h
  have h := h FR (List.mem_range.2 (by omega))
  simp only [Bool.or_eq_true, decide_eq_true_eq, List.any_eq_true, Bool.and_eq_true] at h
  rcases h with (((h | h) | h) | h) | ⟨t, ht, h1, h2⟩
  · omega
  · omega
  · omega
  · exact absurd h hx
  · have hw := (List.all_eq_true.mp witnesses_above) t ht
    rw [h1, h2] at hw
    exact ⟨_, hw⟩

/-- An entry above the midpoint gives a divisor of `2^N + δ` with a small `δ`. -/
theorem above_divisor {FY FR f : ℕ} (h50 : FR ≤ 50) (h52 : 52 ≤ FY + FR) (h : entryAbove FY FR f = true) :
    ∃ δ, 1 ≤ δ ∧ δ < 2 ^ (FY + FR - 51) ∧ ∃ k, k % 2 = 1 ∧ k * (2 ^ FY + f) = 2 ^ (FR + 2 + FY) + δ ∧
      2 ^ FY + f < 2 ^ (FY + 1) ∧ δ * 2 ^ (52 - FR) ≤ 2 ^ FY + f := by
  obtain ⟨hf, h⟩ := entryAbove_iff.mp h
  have h2 := directEntry_above (LR := FR + 1) (by omega) h
  rw [show 53 - (FR + 1) = 52 - FR by omega] at h2
  have hN : 2 * (2 : ℤ) ^ (FR + 1 + FY) = ((2 ^ (FR + 2 + FY) : ℕ) : ℤ) := by push_cast; ring
  rw [hN] at h h2
  have hpos : 1 ≤ directEntry (FR + 1) FY f := by
    rcases Nat.eq_zero_or_pos (directEntry (FR + 1) FY f) with h0 | h0
    · rw [h0] at h
      have h3 : (0 : ℤ) ≤ ((2 ^ (FR + 2 + FY) : ℕ) : ℤ) := by positivity
      have h4 : (0 : ℤ) ≤ 2 ^ FY + f := by positivity
      exfalso
      simp only [Nat.cast_zero, mul_zero, zero_sub, neg_one_mul] at h
      linarith
    · exact h0
  obtain ⟨k, hk⟩ : ∃ k, 2 * directEntry (FR + 1) FY f = k + 1 := ⟨2 * directEntry (FR + 1) FY f - 1, by omega⟩
  have hkZ : 2 * (directEntry (FR + 1) FY f : ℤ) - 1 = k := by omega
  rw [hkZ] at h h2
  have h' : 2 ^ (FR + 2 + FY) < k * (2 ^ FY + f) := by exact_mod_cast h
  obtain ⟨δ, hδ⟩ := Nat.exists_eq_add_of_le h'.le
  have h2' : δ * 2 ^ (52 - FR) ≤ 2 ^ FY + f := by
    have e : (k : ℤ) * (2 ^ FY + f) = ((2 ^ (FR + 2 + FY) : ℕ) : ℤ) + δ := by exact_mod_cast hδ
    rw [e, add_sub_cancel_left] at h2
    exact_mod_cast h2
  have hy2 : 2 ^ FY + f < 2 ^ (FY + 1) := by rw [pow_succ 2]; omega
  refine ⟨δ, by omega, ?_, k, by omega, hδ, hy2, h2'⟩
  by_contra hc
  push Not at hc
  have : 2 ^ (FY + FR - 51) * 2 ^ (52 - FR) ≤ δ * 2 ^ (52 - FR) := Nat.mul_le_mul_right _ hc
  rw [← pow_add, show FY + FR - 51 + (52 - FR) = FY + 1 by omega] at this
  omega

/-- The test on the divisors. -/
def noDivisor (FY FR δ : ℕ) (ps : List ℕ) : Bool :=
  decide (ps.prod = 2 ^ (FR + 2 + FY) + δ) && (divList ps).all (fun d =>
    !(decide (2 ^ FY ≤ d) && decide (d < 2 ^ (FY + 1)) && decide (δ * 2 ^ (52 - FR) ≤ d) &&
      decide ((2 ^ (FR + 2 + FY) + δ) / d % 2 = 1)))

theorem noDivisor_false {FY FR f δ k : ℕ} {ps : List ℕ} (hp : ∀ p ∈ ps, p.Prime) (h : noDivisor FY FR δ ps = true)
    (hk : k % 2 = 1) (h1 : k * (2 ^ FY + f) = 2 ^ (FR + 2 + FY) + δ) (h2 : 2 ^ FY + f < 2 ^ (FY + 1))
    (h3 : δ * 2 ^ (52 - FR) ≤ 2 ^ FY + f) : False := by
  unfold noDivisor at h
  rw [Bool.and_eq_true, decide_eq_true_eq, List.all_eq_true] at h
  obtain ⟨hprod, hall⟩ := h
  have hm := mem_divList ps hp (2 ^ FY + f) ⟨k, by rw [hprod, ← h1, Nat.mul_comm]⟩
  have := hall _ hm
  have hd : (2 ^ (FR + 2 + FY) + δ) / (2 ^ FY + f) = k := by
    rw [← h1]; exact Nat.mul_div_cancel _ (by positivity)
  rw [hd] at this
  simp [hk, h2, h3] at this

theorem primes54 : ∀ p ∈ [5, 13, 37, 109, 246241, 279073], Nat.Prime p := by
  simp only [List.mem_cons, List.not_mem_nil, or_false, forall_eq_or_imp, forall_eq]
  norm_num

theorem primes54_2 : ∀ p ∈ [2, 5, 13, 37, 109, 246241, 279073], Nat.Prime p := by
  simp only [List.mem_cons, List.not_mem_nil, or_false, forall_eq_or_imp, forall_eq]
  norm_num

theorem primes54_4 : ∀ p ∈ [2, 2, 5, 13, 37, 109, 246241, 279073], Nat.Prime p := by
  simp only [List.mem_cons, List.not_mem_nil, or_false, forall_eq_or_imp, forall_eq]
  norm_num

theorem primes55 : ∀ p ∈ [3, 11, 11, 683, 2971, 48912491], Nat.Prime p := by
  simp only [List.mem_cons, List.not_mem_nil, or_false, forall_eq_or_imp, forall_eq]
  norm_num

theorem primes55_2 : ∀ p ∈ [2, 3, 11, 11, 683, 2971, 48912491], Nat.Prime p := by
  simp only [List.mem_cons, List.not_mem_nil, or_false, forall_eq_or_imp, forall_eq]
  norm_num

theorem primes55_3 : ∀ p ∈ [36028797018963971], Nat.Prime p := by
  simp only [List.mem_cons, List.not_mem_nil, or_false, forall_eq]
  exact prime_36028797018963971

theorem primes55_6 : ∀ p ∈ [2, 36028797018963971], Nat.Prime p := by
  simp only [List.mem_cons, List.not_mem_nil, or_false, forall_eq_or_imp, forall_eq]
  exact ⟨Nat.prime_two, prime_36028797018963971⟩

theorem primes56_1 : ∀ p ∈ [257, 5153, 54410972897], Nat.Prime p := by
  simp only [List.mem_cons, List.not_mem_nil, or_false, forall_eq_or_imp, forall_eq]
  exact ⟨by norm_num, by norm_num, prime_54410972897⟩

theorem primes56_3 : ∀ p ∈ [7, 11251, 914935739527], Nat.Prime p := by
  simp only [List.mem_cons, List.not_mem_nil, or_false, forall_eq_or_imp, forall_eq]
  exact ⟨by norm_num, by norm_num, prime_914935739527⟩

theorem primes56_5 : ∀ p ∈ [3, 3, 8006399337547549], Nat.Prime p := by
  simp only [List.mem_cons, List.not_mem_nil, or_false, forall_eq_or_imp, forall_eq]
  exact ⟨by norm_num, by norm_num, prime_8006399337547549⟩

theorem primes56_7 : ∀ p ∈ [67, 28855381, 37271609], Nat.Prime p := by
  simp only [List.mem_cons, List.not_mem_nil, or_false, forall_eq_or_imp, forall_eq]
  norm_num

/-- In the exceptional formats no entry is wrong. -/
theorem not_above {FY FR f : ℕ} (hx : (FY, FR) ∈ directExceptions) : entryAbove FY FR f = false := by
  by_contra hc
  rw [Bool.not_eq_false] at hc
  simp only [directExceptions, List.mem_cons, List.not_mem_nil, or_false, Prod.mk.injEq] at hx
  rcases hx with ⟨rfl, rfl⟩ | ⟨rfl, rfl⟩ | ⟨rfl, rfl⟩ | ⟨rfl, rfl⟩ | ⟨rfl, rfl⟩ | ⟨rfl, rfl⟩ | ⟨rfl, rfl⟩ <;>
    obtain ⟨δ, h1, h2, k, hk, e, hl, hd⟩ := above_divisor (by omega) (by omega) hc
  · obtain rfl : δ = 1 := by norm_num at h2; omega
    exact noDivisor_false primes54 (by decide +kernel) hk e hl hd
  · obtain rfl : δ = 1 := by norm_num at h2; omega
    exact noDivisor_false primes54 (by decide +kernel) hk e hl hd
  · obtain rfl : δ = 1 := by norm_num at h2; omega
    exact noDivisor_false primes54 (by decide +kernel) hk e hl hd
  · obtain rfl : δ = 1 := by norm_num at h2; omega
    exact noDivisor_false primes54 (by decide +kernel) hk e hl hd
  · obtain rfl : δ = 1 := by norm_num at h2; omega
    exact noDivisor_false primes54 (by decide +kernel) hk e hl hd
  · have : δ = 1 ∨ δ = 2 ∨ δ = 3 := by norm_num at h2; omega
    rcases this with rfl | rfl | rfl
    · exact noDivisor_false primes55 (by decide +kernel) hk e hl hd
    · exact noDivisor_false primes54_2 (by decide +kernel) hk e hl hd
    · exact noDivisor_false primes55_3 (by decide +kernel) hk e hl hd
  · have : δ = 1 ∨ δ = 2 ∨ δ = 3 ∨ δ = 4 ∨ δ = 5 ∨ δ = 6 ∨ δ = 7 := by norm_num at h2; omega
    rcases this with rfl | rfl | rfl | rfl | rfl | rfl | rfl
    · exact noDivisor_false primes56_1 (by decide +kernel) hk e hl hd
    · exact noDivisor_false primes55_2 (by decide +kernel) hk e hl hd
    · exact noDivisor_false primes56_3 (by decide +kernel) hk e hl hd
    · exact noDivisor_false primes54_4 (by decide +kernel) hk e hl hd
    · exact noDivisor_false primes56_5 (by decide +kernel) hk e hl hd
    · exact noDivisor_false primes55_6 (by decide +kernel) hk e hl hd
    · exact noDivisor_false primes56_7 (by decide +kernel) hk e hl hd

/-- The smallest normal number with a given fraction. -/
theorem small_operand {E FY f : ℕ} (hE : 2 ≤ E) (hFY : 1 ≤ FY) (hf : f < 2 ^ FY) :
    ∃ (y : Fp E FY) (v : ℚ), y.datum = .num v ∧ |v| ≤ 2 ^ bias E ∧ y.frac = f ∧ y.exp = 0 ∧
      |v| = (1 + (f : ℚ) / 2 ^ FY) * 2 ^ (-bias E) := by
  obtain ⟨hb1, hb2⟩ := bias_bounds hE
  refine ⟨Fp.mk4 E FY 1 0 0 f, _, mk4_num (by omega) hFY (by positivity) hf, ?_, ?_, ?_, ?_⟩
  · have hs : (f : ℚ) / 2 ^ FY < 1 := by
      rw [div_lt_one (by positivity)]; exact_mod_cast hf
    have hs0 : (0 : ℚ) ≤ (f : ℚ) / 2 ^ FY := by positivity
    have hz := two_zpow_pos ((0 : ℕ) - bias E : ℤ)
    rw [abs_of_pos (mul_pos (by linarith) hz)]
    calc (1 + (f : ℚ) / 2 ^ FY) * 2 ^ ((0 : ℕ) - bias E : ℤ) ≤ 2 * 2 ^ ((0 : ℕ) - bias E : ℤ) :=
          mul_le_mul_of_nonneg_right (by linarith) hz.le
      _ = 2 ^ (1 - bias E) := by rw [sub_eq_add_neg 1, zpow_add₀ (by norm_num)]; simp
      _ ≤ 2 ^ bias E := zpow_le_zpow_right₀ (by norm_num) (by omega)
  · exact Fp.mk4_frac (by decide) (by decide) (by positivity) hf hFY
  · exact Fp.mk4_exp (by decide) (by decide) (by positivity) hf (by omega)
  · have hz := two_zpow_pos ((0 : ℕ) - bias E : ℤ)
    rw [abs_of_pos (mul_pos (by positivity) hz)]
    simp

/-- **C30, the formats in which `inv_direct` is correctly rounded.** Up to `2^bias` the reciprocal of every normal number
is correctly rounded exactly when the operand has at most one fraction bit more than the result, and the two have
at most 51 fraction bits together or are one of seven exceptional pairs. -/
theorem C30_direct_format_iff {E FY FR : ℕ} (hE : 2 ≤ E) (hFY : 1 ≤ FY) (hFY2 : FY ≤ 30) (hFR : 1 ≤ FR) (h50 : FR ≤ 50) :
    (∀ (y : Fp E FY) (v : ℚ), y.datum = .num v → |v| ≤ 2 ^ bias E →
      ∃ z : Fp E FR, directFp FR y = some z ∧ Rounded E FR (1 / v) z.datum) ↔
    FY ≤ FR + 1 ∧ (FY + FR ≤ 51 ∨
      (FY, FR) ∈ [(4, 48), (13, 39), (16, 36), (19, 33), (22, 30), (23, 30), (24, 30)]) := by
  change _ ↔ _ ∧ (_ ∨ (FY, FR) ∈ directExceptions)
  obtain ⟨hb1, hb2⟩ := bias_bounds hE
  constructor
  · intro h
    have hF : FY ≤ FR + 1 := by
      by_contra hc
      obtain ⟨y, v, hy, hv, hf, he, hval⟩ := small_operand (f := 1) hE hFY (Nat.one_lt_two_pow (by omega))
      have h4 : 2 ^ 2 ≤ 2 ^ E := Nat.pow_le_pow_right (by norm_num) hE
      obtain ⟨z, q, hz, hq, hlt⟩ := C30_direct_wrong (FR := FR) hE hFR (by omega) hFY2 y v hy hf (by omega)
      obtain ⟨z', hz', hR⟩ := h y v hy hv
      rw [hz] at hz'
      injection hz' with hz'
      subst hz'
      rw [hq] at hR
      have hn := rounded_num_near (n := 2 ^ FR) (g := bias E - FR)
        ⟨by rw [Nat.add_sub_cancel], Nat.pow_lt_pow_right (by norm_num) (by omega)⟩ hR
      have e : ((2 ^ FR : ℕ) : ℚ) * 2 ^ (bias E - FR : ℤ) = 2 ^ bias E := by
        push_cast
        rw [← zpow_natCast, ← zpow_add₀ (by norm_num)]; congr 1; ring
      rw [e] at hn
      have h8 : (2 : ℚ) ^ 3 ≤ 2 ^ FY := pow_le_pow_right₀ (by norm_num) (by omega)
      have hP : (0 : ℚ) < 2 ^ bias E := two_zpow_pos _
      have hs0 : (0 : ℚ) < ((1 : ℕ) : ℚ) / 2 ^ FY := by positivity
      have hs1 : ((1 : ℕ) : ℚ) / 2 ^ FY ≤ 1 / 8 := by
        rw [Nat.cast_one, div_le_div_iff₀ (by positivity) (by norm_num)]; linarith
      have hx : |1 / v| * (1 + ((1 : ℕ) : ℚ) / 2 ^ FY) = 2 ^ bias E := by
        rw [abs_div, abs_one, hval, zpow_neg]
        field_simp
      generalize ((1 : ℕ) : ℚ) / 2 ^ FY = t at *
      have hx0 : 0 ≤ |1 / v| := abs_nonneg _
      generalize |1 / v| = x at *
      have hq0 : 0 ≤ |q| := abs_nonneg _
      generalize |q| = w at *
      have hxt : x * t ≤ x * (1 / 8) := mul_le_mul_of_nonneg_left hs1 hx0
      have hxt0 : 0 ≤ x * t := mul_nonneg hx0 hs0.le
      rw [abs_of_pos (sub_pos.2 (by linarith)), abs_of_nonpos (sub_nonpos.2 (by linarith))] at hn
      linarith
    refine ⟨hF, ?_⟩
    by_contra hc
    push Not at hc
    obtain ⟨f, hf⟩ := exists_above hFY hFY2 hF h50 (by omega) hc.2
    have hfl := (entryAbove_iff.mp hf).1
    obtain ⟨y, v, hy, hv, rfl, -, -⟩ := small_operand hE hFY hfl
    rcases (C30_direct_iff hE hFY hFY2 hFR hF h50 y v hy).mp (h y v hy hv) with h1 | ⟨-, h1⟩
    · have : (2 : ℚ) ^ bias E < 2 ^ (bias E + 1) := zpow_lt_zpow_right₀ (by norm_num) (by omega)
      linarith
    · exact h1 ((justBelow_iff h50 hfl).mpr (entryAbove_iff.mp hf).2)
  · rintro ⟨hF, h⟩ y v hy hv
    rcases h with h | h
    · exact C30_direct_partial hE hFY hFY2 hFR hF (by omega) y v hy (Or.inl hv)
    · refine (C30_direct_iff hE hFY hFY2 hFR hF h50 y v hy).mpr (Or.inr ⟨hv, fun hj => ?_⟩)
      have hfl := y.frac_lt hFY
      have := entryAbove_iff.mpr ⟨hfl, (justBelow_iff h50 hfl).mp hj⟩
      rw [not_above h] at this
      cases this

/-- The reciprocal of `1 + 2^-18` with 34 fraction bits is one unit too large. -/
example : directFp 34 (Fp.mk4 8 18 1 0 127 1) = some (Fp.mk4 8 34 1 0 126 (2 ^ 34 - 2 ^ 17 + 1)) := by decide +kernel

end Thls.Inv
