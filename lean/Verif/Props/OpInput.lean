import Verif.Proofs.OpInput

/-! # C77: the inputs of the operator tests -/

namespace Thls
open Spec

open OpTest

/-- **C77.** `make_input` returns, for every number of inputs asked for and all random draws, exactly when the format has at least three
exponent bits, and two fraction bits if it has three; in the smaller formats a constructor throws. -/
theorem C77_inputs_exist_iff {E F : ℕ} (hE : 1 ≤ E) (hF : 1 ≤ F) (n : ℕ) (draws : ℕ → ℕ × ℕ) :
    (∃ l, makeInput E F n draws = some l) ↔ 3 ≤ E ∧ (E = 3 → 2 ≤ F) := by
  constructor
  · rintro ⟨l, h⟩
    by_contra hc
    rw [makeInput, fixedInput_none hE hF hc] at h
    cases h
  · intro h
    obtain ⟨b, hb⟩ := roomy_of hF h
    obtain ⟨l, h1, h2, -⟩ := fixedInput_some hb
    obtain ⟨r, hr, -⟩ := randomLoop_spec (n := n) draws (fun i => by
      obtain ⟨a, b, h, -⟩ := ratio_spec (E := E) hE hF (draws i)
      exact ⟨a, b, h⟩) n 0 l (by omega)
    exact ⟨r, by rw [makeInput, h1]; exact hr⟩

/-- **C77.** The inputs: `132 + 4F` fixed ones that depend neither on the number asked for nor on the draws, then, if more are asked for,
pairs of a correctly rounded quotient of two uniform numbers and its negative, one more input than asked for if the number is odd. -/
theorem C77_inputs_structure {E F : ℕ} (hE : 1 ≤ E) (hF : 1 ≤ F) (n : ℕ) (draws : ℕ → ℕ × ℕ) (l : List (Fp E F))
    (h : makeInput E F n draws = some l) :
    l.length = 132 + 4 * F + 2 * ((n - (132 + 4 * F) + 1) / 2) ∧
    (∀ n' draws' l', makeInput E F n' draws' = some l' → l.take (132 + 4 * F) = l'.take (132 + 4 * F)) ∧
    ∀ j < (n - (132 + 4 * F) + 1) / 2, ∃ a b, l[132 + 4 * F + 2 * j]? = some a ∧ l[132 + 4 * F + 2 * j + 1]? = some b ∧
      Delivers E F (exactDiv (uniform (F + 1) (draws j).1) (uniform (F + 1) (draws j).2)) a.datum ∧ b.datum = a.datum.neg := by
  obtain ⟨b, hb⟩ := roomy_of hF ((C77_inputs_exist_iff hE hF n draws).mp ⟨l, h⟩)
  obtain ⟨l0, h1, h2, -⟩ := fixedInput_some hb
  have loop : ∀ n draws, _ := fun n draws => randomLoop_spec (E := E) (F := F) (n := n) draws (fun i => by
      obtain ⟨a, b, h, -⟩ := ratio_spec (E := E) hE hF (draws i)
      exact ⟨a, b, h⟩) n 0 l0 (by omega)
  have get : ∀ n draws l, makeInput E F n draws = some l → randomLoop E F n draws n 0 l0 = some l := by
    intro n draws l h
    rw [makeInput, h1] at h
    exact h
  obtain ⟨r, e1, e2, e3, e4⟩ := loop n draws
  rw [get n draws l h] at e1
  injection e1 with e1
  subst e1
  rw [h2] at e2 e3 e4
  refine ⟨e2, ?_, ?_⟩
  · intro n' draws' l' h'
    obtain ⟨r', e1', -, e3', -⟩ := loop n' draws'
    rw [get n' draws' l' h'] at e1'
    injection e1' with e1'
    subst e1'
    rw [h2] at e3'
    rw [e3, e3']
  · intro j hj
    obtain ⟨a, b, g1, g2, g3⟩ := e4 j hj
    obtain ⟨a', b', k1, k2, k3⟩ := ratio_spec (E := E) hE hF (draws j)
    rw [Nat.zero_add, k1] at g3
    injection g3 with g3
    injection g3 with g4 g5
    injection g5 with g5
    subst g4 g5
    exact ⟨a', b', g1, g2, k2, k3⟩

/-- **C77.** The programs that ask for at most `132 + 4F` inputs (all of the operator tests but the long runs do) use no random input at
all: their operands do not depend on the generator. -/
theorem C77_small_runs_not_random {E F n n' : ℕ} (hE : 1 ≤ E) (hF : 1 ≤ F) (hn : n ≤ 132 + 4 * F) (hn' : n' ≤ 132 + 4 * F)
    (draws draws' : ℕ → ℕ × ℕ) : makeInput E F n draws = makeInput E F n' draws' := by
  by_cases h : 3 ≤ E ∧ (E = 3 → 2 ≤ F)
  · obtain ⟨l, hl⟩ := (C77_inputs_exist_iff hE hF n draws).mpr h
    obtain ⟨l', hl'⟩ := (C77_inputs_exist_iff hE hF n' draws').mpr h
    obtain ⟨a1, a2, -⟩ := C77_inputs_structure hE hF n draws l hl
    obtain ⟨b1, -, -⟩ := C77_inputs_structure hE hF n' draws' l' hl'
    have := a2 n' draws' l' hl'
    rw [List.take_of_length_le (by omega), List.take_of_length_le (by omega)] at this
    rw [hl, hl', this]
  · rw [makeInput, makeInput, fixedInput_none hE hF h]; rfl

theorem shuffle {P Q Z I M X W K : Prop} (pw : Z ∨ I ∨ W ↔ Z ∨ I ∨ K) (hq : P ↔ Q) :
    P ∨ (Z ∨ I ∨ M ∨ X) ∨ W ↔ Z ∨ I ∨ Q ∨ M ∨ X ∨ K := by
  rw [hq]
  constructor
  · rintro (h | (h | h | h | h) | h)
    · exact .inr (.inr (.inl h))
    · exact .inl h
    · exact .inr (.inl h)
    · exact .inr (.inr (.inr (.inl h)))
    · exact .inr (.inr (.inr (.inr (.inl h))))
    · rcases pw.mp (.inr (.inr h)) with h | h | h
      · exact .inl h
      · exact .inr (.inl h)
      · exact .inr (.inr (.inr (.inr (.inr h))))
  · rintro (h | h | h | h | h | h)
    · exact .inr (.inl (.inl h))
    · exact .inr (.inl (.inr (.inl h)))
    · exact .inl h
    · exact .inr (.inl (.inr (.inr (.inl h))))
    · exact .inr (.inl (.inr (.inr (.inr h))))
    · rcases pw.mpr (.inr (.inr h)) with h | h | h
      · exact .inr (.inl (.inl h))
      · exact .inr (.inl (.inr (.inl h)))
      · exact .inr (.inr h)

/-- **C77.** The fixed inputs are exactly the operands the specification lists: both zeros, both infinities and, with both signs, the
integers up to ten, the extreme numbers and their ten neighbours, the ten neighbours of one on each side, and the powers of two around
one. -/
theorem C77_inputs_contents {E F : ℕ} (hE : 1 ≤ E) (hF : 4 ≤ F) (hF2 : F + 6 < 1024) (n : ℕ) (draws : ℕ → ℕ × ℕ) (l : List (Fp E F))
    (h : makeInput E F n draws = some l) (d : Datum) :
    (∃ x ∈ l.take (132 + 4 * F), x.datum = d) ↔ TestOperand E F d := by
  have hF1 : 1 ≤ F := by omega
  obtain ⟨b, hb⟩ := roomy_of hF1 ((C77_inputs_exist_iff hE hF1 n draws).mp ⟨l, h⟩)
  obtain ⟨l0, h1, h2, h3⟩ := fixedInput_some hb
  obtain ⟨r, e1, -, e3, -⟩ := randomLoop_spec (E := E) (F := F) (n := n) draws (fun i => by
      obtain ⟨a, b, h, -⟩ := ratio_spec (E := E) hE hF1 (draws i)
      exact ⟨a, b, h⟩) n 0 l0 (by omega)
  rw [makeInput, h1] at h
  rw [show (some l0 >>= fun args => randomLoop E F n draws n 0 args) = randomLoop E F n draws n 0 l0 from rfl, e1] at h
  injection h with h
  subst h
  rw [h2] at e3
  rw [e3, h3 d, edges_value hE hF1]
  have pw := powers_value (E := E) hE hF1 hF2 d
  have five : (∃ t ∈ smallInts F ++ aboveOne F ++ belowOne F ++ aboveMin E F ++ belowMax E F, PlusMinus t.value d) ↔
      ((((∃ t ∈ smallInts F, PlusMinus t.value d) ∨ (∃ t ∈ aboveOne F, PlusMinus t.value d)) ∨ (∃ t ∈ belowOne F, PlusMinus t.value d)) ∨
        (∃ t ∈ aboveMin E F, PlusMinus t.value d)) ∨ (∃ t ∈ belowMax E F, PlusMinus t.value d) := by
    simp only [List.mem_append, or_and_right, exists_or]
  rw [five, smallInts_value hF, aboveOne_value hF, belowOne_value hF, aboveMin_value hE hF, belowMax_value hE hF]
  refine shuffle pw ?_
  constructor
  · rintro ((((⟨i, h1, h2, h⟩ | ⟨i, h1, h2, h⟩) | ⟨i, h1, h2, h⟩) | ⟨i, h1, h2, h⟩) | ⟨i, h1, h2, h⟩)
    · exact ⟨i, h1, h2, .inl h⟩
    · exact ⟨i, h1, h2, .inr (.inl h)⟩
    · exact ⟨i, h1, h2, .inr (.inr (.inl h))⟩
    · exact ⟨i, h1, h2, .inr (.inr (.inr (.inl h)))⟩
    · exact ⟨i, h1, h2, .inr (.inr (.inr (.inr h)))⟩
  · rintro ⟨i, h1, h2, h | h | h | h | h⟩
    · exact .inl (.inl (.inl (.inl ⟨i, h1, h2, h⟩)))
    · exact .inl (.inl (.inl (.inr ⟨i, h1, h2, h⟩)))
    · exact .inl (.inl (.inr ⟨i, h1, h2, h⟩))
    · exact .inl (.inr ⟨i, h1, h2, h⟩)
    · exact .inr ⟨i, h1, h2, h⟩

/-- **C77.** No fixed input is NaN. -/
theorem C77_fixed_inputs_no_nan {E F : ℕ} (hE : 1 ≤ E) (hF : 4 ≤ F) (hF2 : F + 6 < 1024) (n : ℕ) (draws : ℕ → ℕ × ℕ) (l : List (Fp E F))
    (h : makeInput E F n draws = some l) : ∀ x ∈ l.take (132 + 4 * F), x.datum ≠ .nan := by
  intro x hx hd
  have := (C77_inputs_contents hE hF hF2 n draws l h .nan).mp ⟨x, hx, hd⟩
  simp [TestOperand, PlusMinus] at this

/-- **C77.** The fixed inputs are closed under negation. -/
theorem C77_fixed_inputs_symmetric {E F : ℕ} (hE : 1 ≤ E) (hF : 4 ≤ F) (hF2 : F + 6 < 1024) (n : ℕ) (draws : ℕ → ℕ × ℕ) (l : List (Fp E F))
    (h : makeInput E F n draws = some l) : ∀ x ∈ l.take (132 + 4 * F), ∃ y ∈ l.take (132 + 4 * F), y.datum = x.datum.neg := by
  intro x hx
  refine (C77_inputs_contents hE hF hF2 n draws l h _).mpr ?_
  have hx' := (C77_inputs_contents hE hF hF2 n draws l h _).mp ⟨x, hx, rfl⟩
  have pm : ∀ {v d}, PlusMinus v d → PlusMinus v d.neg := by
    rintro v d (rfl | rfl)
    · exact .inr rfl
    · exact .inl (by simp [Datum.neg])
  rcases hx' with ⟨s, hs⟩ | ⟨s, hs⟩ | ⟨i, h1, h2, h3⟩ | h3 | h3 | ⟨k, h1, h2, h3, h4, h5⟩
  · exact .inl ⟨!s, by rw [hs]; rfl⟩
  · exact .inr (.inl ⟨!s, by rw [hs]; rfl⟩)
  · refine .inr (.inr (.inl ⟨i, h1, h2, ?_⟩))
    rcases h3 with h3 | h3 | h3 | h3 | h3
    · exact .inl (pm h3)
    · exact .inr (.inl (pm h3))
    · exact .inr (.inr (.inl (pm h3)))
    · exact .inr (.inr (.inr (.inl (pm h3))))
    · exact .inr (.inr (.inr (.inr (pm h3))))
  · exact .inr (.inr (.inr (.inl (pm h3))))
  · exact .inr (.inr (.inr (.inr (.inl (pm h3)))))
  · exact .inr (.inr (.inr (.inr (.inr ⟨k, h1, h2, h3, h4, pm h5⟩))))

/-- **C77.** A NaN can be among the random inputs: both draws of a round are zero. -/
theorem C77_random_nan {E F : ℕ} (hE : 1 ≤ E) (hF : 1 ≤ F) (n j : ℕ) (draws : ℕ → ℕ × ℕ) (l : List (Fp E F))
    (h : makeInput E F n draws = some l) (hj : j < (n - (132 + 4 * F) + 1) / 2) (hd : draws j = (0, 0)) : ∃ x ∈ l, x.datum = .nan := by
  obtain ⟨-, -, h3⟩ := C77_inputs_structure hE hF n draws l h
  obtain ⟨a, b, h1, -, h2, -⟩ := h3 j hj
  rw [hd] at h2
  refine ⟨a, List.mem_of_getElem? h1, ?_⟩
  simpa [uniform, exactDiv, divSpecial, Delivers] using h2

-- single precision: 224 fixed inputs, which is all of them when 100 are asked for; half precision has them too
example (draws : ℕ → ℕ × ℕ) : ∃ l, makeInput 8 23 100 draws = some l ∧ l.length = 224 := by
  obtain ⟨l, h⟩ := (C77_inputs_exist_iff (E := 8) (F := 23) (by omega) (by omega) 100 draws).mpr (by omega)
  exact ⟨l, h, (C77_inputs_structure (by omega) (by omega) 100 draws l h).1⟩
-- 1000 inputs of single precision: 776 of them random
example (draws : ℕ → ℕ × ℕ) : ∃ l, makeInput 8 23 1000 draws = some l ∧ l.length = 1000 := by
  obtain ⟨l, h⟩ := (C77_inputs_exist_iff (E := 8) (F := 23) (by omega) (by omega) 1000 draws).mpr (by omega)
  exact ⟨l, h, (C77_inputs_structure (by omega) (by omega) 1000 draws l h).1⟩
-- the smallest format with all the inputs, and one that has none
example (draws : ℕ → ℕ × ℕ) : (∃ l, makeInput 3 2 100 draws = some l) ∧ makeInput 3 1 100 draws = none := by
  refine ⟨(C77_inputs_exist_iff (by omega) (by omega) 100 draws).mpr (by omega), ?_⟩
  by_contra h
  obtain ⟨l, hl⟩ := Option.ne_none_iff_exists'.mp h
  have := (C77_inputs_exist_iff (by omega) (by omega) 100 draws).mp ⟨l, hl⟩
  omega


end Thls
