import Verif.Spec
import Verif.Model.Flopoco

/-! # What a packed FloPoCo word denotes, and lemmas on packing and unpacking -/

namespace Thls.Fp

variable {E F : ℕ}

/-- The datum denoted by a packed word: `Spec.denote` of its four fields. -/
def datum (x : Fp E F) : Spec.Datum := Spec.denote E F x.flags x.sign x.exp x.frac

theorem flags_lt (x : Fp E F) : x.flags < 4 := by
  have := getBits_lt (E + F + 2) (E + F + 1) x.bits
  rwa [show E + F + 2 + 1 - (E + F + 1) = 2 by omega] at this

theorem sign_lt (x : Fp E F) : x.sign < 2 := by
  have := getBits_lt (E + F) (E + F) x.bits
  rwa [show E + F + 1 - (E + F) = 1 by omega] at this

theorem exp_lt (hE : 1 ≤ E) (x : Fp E F) : x.exp < 2 ^ E := by
  have := getBits_lt (E + F - 1) F x.bits
  rwa [show E + F - 1 + 1 - F = E by omega] at this

theorem frac_lt (hF : 1 ≤ F) (x : Fp E F) : x.frac < 2 ^ F := by
  have := getBits_lt (F - 1) 0 x.bits
  rwa [show F - 1 + 1 - 0 = F by omega] at this

section
variable {fl s e f : ℕ} (hfl : fl < 4) (hs : s < 2) (he : e < 2 ^ E) (hf : f < 2 ^ F)
include hfl hs he hf

theorem mk4_bits : (mk4 E F fl s e f).bits =
    concat (1 + E + F) fl (concat (E + F) s (concat F e f)) := by
  unfold mk4 ofBits
  refine Nat.mod_eq_of_lt ?_
  have h1 := concat_lt he hf
  have h2 : concat (E + F) s (concat F e f) < 2 ^ (1 + (E + F)) := concat_lt (by simpa using hs) h1
  have h3 : concat (1 + E + F) fl (concat (E + F) s (concat F e f)) < 2 ^ (2 + (1 + E + F)) :=
    concat_lt (by simpa using hfl) (by rwa [← Nat.add_assoc] at h2)
  refine h3.trans_eq ?_
  congr 1; omega

theorem mk4_flags : (mk4 E F fl s e f).flags = fl := by
  have h1 := concat_lt he hf
  have h2 : concat (E + F) s (concat F e f) < 2 ^ (1 + (E + F)) := concat_lt (by simpa using hs) h1
  rw [← Nat.add_assoc] at h2
  unfold flags
  rw [mk4_bits hfl hs he hf, getBits_concat_high h2 (by omega) (by omega),
    show E + F + 2 - (1 + E + F) = 1 by omega, show E + F + 1 - (1 + E + F) = 0 by omega,
    getBits_all (by simpa using hfl)]

theorem mk4_sign : (mk4 E F fl s e f).sign = s := by
  have h1 := concat_lt he hf
  have h2 : concat (E + F) s (concat F e f) < 2 ^ (1 + (E + F)) := concat_lt (by simpa using hs) h1
  rw [← Nat.add_assoc] at h2
  unfold sign
  rw [mk4_bits hfl hs he hf, getBits_concat_low h2 (by omega) (by omega), getBits_concat_high h1 le_rfl le_rfl,
    Nat.sub_self, getBits_all (by simpa using hs)]

theorem mk4_exp (hE : 1 ≤ E) : (mk4 E F fl s e f).exp = e := by
  have h1 := concat_lt he hf
  have h2 : concat (E + F) s (concat F e f) < 2 ^ (1 + (E + F)) := concat_lt (by simpa using hs) h1
  rw [← Nat.add_assoc] at h2
  unfold exp
  rw [mk4_bits hfl hs he hf, getBits_concat_low h2 (by omega) (by omega),
    getBits_concat_low h1 (by omega) (by omega), getBits_concat_high hf le_rfl (by omega),
    Nat.sub_self, getBits_all (by rwa [show E + F - 1 - F + 1 = E by omega])]

theorem mk4_frac (hF : 1 ≤ F) : (mk4 E F fl s e f).frac = f := by
  have h1 := concat_lt he hf
  have h2 : concat (E + F) s (concat F e f) < 2 ^ (1 + (E + F)) := concat_lt (by simpa using hs) h1
  rw [← Nat.add_assoc] at h2
  unfold frac
  rw [mk4_bits hfl hs he hf, getBits_concat_low h2 (by omega) (by omega),
    getBits_concat_low h1 (by omega) (by omega), getBits_concat_low hf (by omega) (by omega),
    getBits_all (by rwa [show F - 1 + 1 = F by omega])]

theorem mk4_datum (hE : 1 ≤ E) (hF : 1 ≤ F) : (mk4 E F fl s e f).datum = Spec.denote E F fl s e f := by
  unfold datum
  rw [mk4_flags hfl hs he hf, mk4_sign hfl hs he hf, mk4_exp hfl hs he hf hE, mk4_frac hfl hs he hf hF]

end

end Thls.Fp
