import Verif.Proofs.Vendor

/-! # Properties C67, C68: the synthesis backends of `fw_uint`

`FollowsFw W o o'` (Verif/SpecBackend.lean): whenever the simulation returns a value (its assertions hold), the other
implementation returns the same `fw_uint<W>`. `SameFw W a a'`: the two hold the same `fw_uint<W>`. -/

namespace Thls

/-! ## C67: the primitive operations -/

/-- The claim of C67 for the primitive operations of one backend. Multiplication asks for operands with at least one bit,
see `C67_zero_width_differs`. -/
structure AgreesWithSimulation (V : Backend) : Prop where
  /-- Constructor from an `int`. -/
  ofInt : ∀ (W : ℕ) (v : ℤ), W ≤ 128 → v < 2 ^ 31 → FollowsFw W (Masked.ofInt W v) (V.ofInt W v)
  add : ∀ W a b a' b' : ℕ, W ≤ 128 → SameFw W a a' → SameFw W b b' → FollowsFw W (Masked.add W a b) (V.add W a' b')
  addInt : ∀ (W a a' : ℕ) (b : ℤ), W ≤ 128 → SameFw W a a' → FollowsFw W (Masked.addInt W a b) (V.addInt W a' b)
  sub : ∀ W a b a' b' : ℕ, W ≤ 128 → SameFw W a a' → SameFw W b b' → FollowsFw W (Masked.sub W a b) (V.sub W a' b')
  subInt : ∀ (W a a' : ℕ) (b : ℤ), W ≤ 128 → SameFw W a a' → FollowsFw W (Masked.subInt W a b) (V.subInt W a' b)
  mul : ∀ W O a b a' b' : ℕ, O + W ≤ 128 → 1 ≤ W → 1 ≤ O → SameFw W a a' → SameFw O b b' →
    FollowsFw (O + W) (Masked.mul W O a b) (V.mul W O a' b')
  square : ∀ W a a' : ℕ, 2 * W ≤ 128 → SameFw W a a' → FollowsFw (2 * W) (Masked.square W a) (V.square W a')
  not : ∀ W a a' : ℕ, W ≤ 128 → SameFw W a a' → FollowsFw W (Masked.not W a) (V.not W a')
  and : ∀ W a b a' b' : ℕ, W ≤ 128 → SameFw W a a' → SameFw W b b' → FollowsFw W (Masked.and W a b) (V.and W a' b')
  or : ∀ W a b a' b' : ℕ, W ≤ 128 → SameFw W a a' → SameFw W b b' → FollowsFw W (Masked.or W a b) (V.or W a' b')
  xor : ∀ W a b a' b' : ℕ, W ≤ 128 → SameFw W a a' → SameFw W b b' → FollowsFw W (Masked.xor W a b) (V.xor W a' b')
  andInt : ∀ (W a a' : ℕ) (b : ℤ), W ≤ 128 → b < 2 ^ 31 → SameFw W a a' →
    FollowsFw W (Masked.andInt W a b) (V.andInt W a' b)
  orInt : ∀ (W a a' : ℕ) (b : ℤ), W ≤ 128 → b < 2 ^ 31 → SameFw W a a' →
    FollowsFw W (Masked.orInt W a b) (V.orInt W a' b)
  shr : ∀ (W a a' : ℕ) (d : ℤ), W ≤ 128 → SameFw W a a' → FollowsFw W (Masked.shr W a d) (V.shr W a' d)
  shl : ∀ (W a a' : ℕ) (d : ℤ), W ≤ 128 → SameFw W a a' → FollowsFw W (Masked.shl W a d) (V.shl W a' d)
  /-- Comparisons of numbers with at least one bit. -/
  cmp : ∀ W a b a' b' : ℕ, 1 ≤ W → SameFw W a a' → SameFw W b b' →
    FollowsFw 1 (Masked.lt a b) (V.lt a' b') ∧ FollowsFw 1 (Masked.le a b) (V.le a' b') ∧
    FollowsFw 1 (Masked.eq a b) (V.eq a' b') ∧ FollowsFw 1 (Masked.ge a b) (V.ge a' b') ∧
    FollowsFw 1 (Masked.gt a b) (V.gt a' b') ∧ FollowsFw 1 (Masked.ne a b) (V.ne a' b')
  getBits : ∀ HI LO W x x' : ℕ, W ≤ 128 → LO ≤ HI → SameFw W x x' →
    FollowsFw (HI + 1 - LO) (Masked.getBits HI LO W x) (V.getBits HI LO W x')
  concat : ∀ WA WB a b a' b' : ℕ, WA + WB ≤ 128 → SameFw WA a a' → SameFw WB b b' →
    FollowsFw (WA + WB) (Masked.concat WA WB a b) (V.concat WA WB a' b')
  checkedCast : ∀ WD WS s s' : ℕ, WS ≤ 128 → SameFw WS s s' →
    FollowsFw WD (Masked.checkedCast WD WS s) (V.checkedCast WD WS s')

/-- **C67.** Every primitive operation on the `ap_uint` backend gives what the simulation backend gives. -/
theorem C67_ap : AgreesWithSimulation apBackend where
  ofInt _ _ h h' := Ap.ofInt_follows h h'
  add _ _ _ _ _ h ha hb := Ap.add_follows h ha hb
  addInt _ _ _ _ h ha := Ap.addInt_follows h ha
  sub _ _ _ _ _ h ha hb := Ap.sub_follows h ha hb
  subInt _ _ _ _ h ha := Ap.subInt_follows h ha
  mul _ _ _ _ _ _ h h1 h2 ha hb := Ap.mul_follows h h1 h2 ha hb
  square _ _ _ h ha := Ap.square_follows h ha
  not _ _ _ h ha := Ap.not_follows h ha
  and _ _ _ _ _ h ha hb := Ap.and_follows h ha hb
  or _ _ _ _ _ h ha hb := Ap.or_follows h ha hb
  xor _ _ _ _ _ h ha hb := Ap.xor_follows h ha hb
  andInt _ _ _ _ h hb ha := Ap.andInt_follows h hb ha
  orInt _ _ _ _ h hb ha := Ap.orInt_follows h hb ha
  shr _ _ _ _ h ha := Ap.shr_follows h ha
  shl _ _ _ _ h ha := Ap.shl_follows h ha
  cmp W a b a' b' h ha hb := by
    have ea := ha.2.resolve_left (by omega)
    have eb := hb.2.resolve_left (by omega)
    subst ea eb
    exact ⟨follows_bool rfl, follows_bool rfl, follows_bool rfl, follows_bool rfl, follows_bool rfl, follows_bool rfl⟩
  getBits _ _ _ _ _ h h' hx := Ap.getBits_follows h h' hx
  concat _ _ _ _ _ _ h ha hb := Ap.concat_follows h ha hb
  checkedCast _ _ _ _ h hs := Ap.checkedCast_follows h hs

/-- **C67.** And so does every primitive operation on the `ac_int` backend, although its constants, shifts, slices and
concatenations are written differently. -/
theorem C67_ac : AgreesWithSimulation acBackend where
  ofInt _ _ h h' := Ac.sim.ofInt h h'
  add _ _ _ _ _ h ha hb := Ap.add_follows h ha hb
  addInt _ _ _ _ h ha := Ap.addInt_follows h ha
  sub _ _ _ _ _ h ha hb := Ap.sub_follows h ha hb
  subInt _ _ _ _ h ha := Ap.subInt_follows h ha
  mul _ _ _ _ _ _ h h1 h2 ha hb := Ap.mul_follows h h1 h2 ha hb
  square _ _ _ h ha := Ap.square_follows h ha
  not _ _ _ h ha := Ap.not_follows h ha
  and _ _ _ _ _ h ha hb := Ap.and_follows h ha hb
  or _ _ _ _ _ h ha hb := Ap.or_follows h ha hb
  xor _ _ _ _ _ h ha hb := Ap.xor_follows h ha hb
  andInt _ _ _ _ h hb ha := Ap.andInt_follows h hb ha
  orInt _ _ _ _ h hb ha := Ap.orInt_follows h hb ha
  shr W a a' d h ha := by
    show FollowsFw W _ (Ac.shr W a' d)
    rw [Ac.shr_eq (by omega)]; exact Ap.shr_follows h ha
  shl W a a' d h ha := by
    show FollowsFw W _ (Ac.shl W a' d)
    rw [Ac.shl_eq (by omega)]; exact Ap.shl_follows h ha
  cmp := C67_ap.cmp
  getBits _ _ _ _ _ h h' hx := Ac.sim.getBits h h' hx
  concat _ _ _ _ _ _ h ha hb := Ac.sim.concat h ha hb
  checkedCast _ _ _ _ h hs := Ap.checkedCast_follows h hs

/-- `operator^(int)` (only the `ac_int` backend compiles it). -/
theorem C67_ac_xor_int {W a a' : ℕ} {b : ℤ} (hW : W ≤ 128) (hb : b < 2 ^ 31) (ha : SameFw W a a') :
    FollowsFw W (Masked.xorInt W a b) (Ac.xorInt W a' b) := Ac.xorInt_follows hW hb ha

/-- The comparisons with a non-negative `int` compare the values, as in the simulation (C02); both reject a negative one. -/
theorem C67_compare_int {a : ℕ} {o : ℤ} (cmp : ℤ → ℤ → Bool) :
    (0 ≤ o → Ap.cmpInt cmp a o = some (cmp a o).toNat ∧ Ac.cmpInt cmp a o = some (cmp a o).toNat) ∧
    (o < 0 → Ap.cmpInt cmp a o = none ∧ Ac.cmpInt cmp a o = none) := by
  unfold Ap.cmpInt Ac.cmpInt
  refine ⟨fun h => ?_, fun h => ?_⟩
  · rw [if_neg (by omega), if_neg (by omega)]; exact ⟨rfl, rfl⟩
  · rw [if_pos h, if_pos h]; exact ⟨rfl, rfl⟩

/-- The hypotheses are met: 100-bit words, and all sides are defined. -/
example : SameFw 100 (2 ^ 99 + 7) (2 ^ 99 + 7) ∧ Masked.add 100 (2 ^ 99 + 7) (2 ^ 99 + 9) = some 16 ∧
    Ap.add 100 (2 ^ 99 + 7) (2 ^ 99 + 9) = some 16 ∧ Ac.add 100 (2 ^ 99 + 7) (2 ^ 99 + 9) = some 16 :=
  ⟨⟨by norm_num, Or.inr rfl⟩, by decide +kernel, by decide +kernel, by decide +kernel⟩
example : Masked.shl 70 5 68 = some (2 ^ 68) ∧ Ap.shl 70 5 68 = some (2 ^ 68) ∧ Ac.shl 70 5 68 = some (2 ^ 68) := by
  decide +kernel
example : Masked.getBits 6 2 9 0b101101101 = some 0b11011 ∧ Ap.getBits 6 2 9 0b101101101 = some 0b11011 ∧
    Ac.getBits 6 2 9 0b101101101 = some 0b11011 := by decide +kernel

/-! ## C67: the helpers of fw_uint.hpp -/

/-- The claim of C67 for the helpers, which are written once over the primitives. -/
structure HelpersAgree (V : Backend) : Prop where
  zg : ∀ W : ℕ, W ≤ 128 → FollowsFw W (Masked.zg W) (V.zg W)
  og : ∀ W : ℕ, W ≤ 128 → FollowsFw W (Masked.og W) (V.og W)
  concat3 : ∀ WA WB WC a b c a' b' c' : ℕ, WA + WB + WC ≤ 128 → SameFw WA a a' → SameFw WB b b' → SameFw WC c c' →
    FollowsFw (WA + (WB + WC)) (Masked.concat3 WA WB WC a b c) (V.concat3 WA WB WC a' b' c')
  concat4 : ∀ WA WB WC WD a b c d a' b' c' d' : ℕ, WA + WB + WC + WD ≤ 128 → SameFw WA a a' → SameFw WB b b' →
    SameFw WC c c' → SameFw WD d d' →
    FollowsFw (WA + WB + (WC + WD)) (Masked.concat4 WA WB WC WD a b c d) (V.concat4 WA WB WC WD a' b' c' d')
  slices : ∀ B W x x' : ℕ, W ≤ 128 → SameFw W x x' →
    FollowsFw B (Masked.takeLsbs B W x) (V.takeLsbs B W x') ∧
    FollowsFw (W - B) (Masked.dropLsbs B W x) (V.dropLsbs B W x') ∧
    FollowsFw B (Masked.takeMsbs B W x) (V.takeMsbs B W x') ∧
    FollowsFw (W - B) (Masked.dropMsbs B W x) (V.dropMsbs B W x')
  bits : ∀ W x x' : ℕ, W ≤ 128 → SameFw W x x' →
    FollowsFw 1 (Masked.takeLsb W x) (V.takeLsb W x') ∧ FollowsFw 1 (Masked.takeMsb W x) (V.takeMsb W x')
  drops : ∀ W x x' : ℕ, 2 ≤ W → W ≤ 128 → SameFw W x x' →
    FollowsFw (W - 1) (Masked.dropLsb W x) (V.dropLsb W x') ∧ FollowsFw (W - 1) (Masked.dropMsb W x) (V.dropMsb W x')
  pads : ∀ P W x x' : ℕ, P + W ≤ 128 → SameFw W x x' →
    FollowsFw (P + W) (Masked.zpadHi P W x) (V.zpadHi P W x') ∧
    FollowsFw (P + W) (Masked.opadHi P W x) (V.opadHi P W x') ∧
    FollowsFw (W + P) (Masked.zpadLo P W x) (V.zpadLo P W x') ∧
    FollowsFw (W + P) (Masked.opadLo P W x) (V.opadLo P W x')
  widths : ∀ B W x x' : ℕ, B ≤ 128 → W ≤ 128 → SameFw W x x' →
    FollowsFw B (Masked.extu B W x) (V.extu B W x') ∧ FollowsFw B (Masked.resize B W x) (V.resize B W x')
  adders : ∀ W x y c x' y' c' : ℕ, 1 ≤ W → W ≤ 128 → SameFw W x x' → SameFw W y y' → SameFw 1 c c' →
    FollowsFw W (Masked.addCin W x c) (V.addCin W x' c') ∧
    FollowsFw W (Masked.addWithCin W x y c) (V.addWithCin W x' y' c') ∧
    FollowsFw W (Masked.addSub W c x y) (V.addSub W c' x' y')
  copybit : ∀ W b b' : ℕ, W ≤ 128 → SameFw 1 b b' → FollowsFw W (Masked.copybit W b) (V.copybit W b')
  /-- `concat_array` of `n + 1` words. -/
  concatArray : ∀ (W lo n : ℕ) (x x' : ℕ → ℕ), (n + 1) * W ≤ 128 → (∀ i, SameFw W (x i) (x' i)) →
    FollowsFw ((n + 1) * W) (Masked.concatArray W lo x n) (V.concatArray W lo x' n)

theorem helpers_of_sim {V : Backend} (S : BackendSim V) : HelpersAgree V where
  zg _ h := S.zg h
  og _ h := S.og h
  concat3 _ _ _ _ _ _ _ _ _ h ha hb hc := S.concat3 h ha hb hc
  concat4 _ _ _ _ _ _ _ _ _ _ _ _ h ha hb hc hd := S.concat4 h ha hb hc hd
  slices _ _ _ _ h hx := ⟨S.takeLsbs h hx, S.dropLsbs h hx, S.takeMsbs h hx, S.dropMsbs h hx⟩
  bits _ _ _ h hx := ⟨S.takeLsb h hx, S.takeMsb h hx⟩
  drops _ _ _ h2 h hx := ⟨S.dropLsb h2 h hx, S.dropMsb h2 h hx⟩
  pads _ _ _ _ h hx := ⟨S.zpadHi h hx, S.opadHi h hx, S.zpadLo (by omega) hx, S.opadLo (by omega) hx⟩
  widths _ _ _ _ hB hW hx := ⟨S.extu hB hx, S.resize hW hB hx⟩
  adders _ _ _ _ _ _ _ h1 hW hx hy hc := ⟨S.addCin h1 hW hx hc, S.addWithCin h1 hW hx hy hc, S.addSub h1 hW hx hy hc⟩
  copybit _ _ _ h hb := S.copybit h hb
  concatArray _ _ n _ _ h hx := S.concatArray hx n h

/-- **C67.** Every helper gives the same on all three backends. -/
theorem C67_helpers : HelpersAgree apBackend ∧ HelpersAgree acBackend := ⟨helpers_of_sim Ap.sim, helpers_of_sim Ac.sim⟩

/-- The helpers of the simulation are those of the generic text, so the comparison is between the same source code. -/
theorem C67_same_helpers : (maskedBackend.zg = Masked.zg ∧ maskedBackend.og = Masked.og ∧
    maskedBackend.concat3 = Masked.concat3 ∧ maskedBackend.concat4 = Masked.concat4 ∧
    maskedBackend.takeLsbs = Masked.takeLsbs ∧ maskedBackend.dropLsbs = Masked.dropLsbs ∧
    maskedBackend.takeMsbs = Masked.takeMsbs ∧ maskedBackend.dropMsbs = Masked.dropMsbs) ∧
    (maskedBackend.zpadHi = Masked.zpadHi ∧ maskedBackend.opadHi = Masked.opadHi ∧ maskedBackend.zpadLo = Masked.zpadLo ∧
    maskedBackend.opadLo = Masked.opadLo ∧ maskedBackend.extu = Masked.extu ∧ maskedBackend.resize = Masked.resize ∧
    maskedBackend.addWithCin = Masked.addWithCin ∧ maskedBackend.addSub = Masked.addSub ∧
    maskedBackend.addCin = Masked.addCin ∧ maskedBackend.copybit = Masked.copybit) :=
  ⟨⟨rfl, rfl, rfl, rfl, rfl, rfl, rfl, rfl⟩, rfl, rfl, rfl, rfl, rfl, rfl, rfl, rfl, rfl, rfl⟩

example : Masked.resize 5 9 0b101101101 = some 0b01101 ∧ apBackend.resize 5 9 0b101101101 = some 0b01101 ∧
    acBackend.resize 5 9 0b101101101 = some 0b01101 := by decide +kernel
example : Masked.opadHi 3 4 0b0101 = some 0b1110101 ∧ apBackend.opadHi 3 4 0b0101 = some 0b1110101 ∧
    acBackend.opadHi 3 4 0b0101 = some 0b1110101 := by decide +kernel
/-- Padding with nothing, although the vendor word of `og<0>` is not zero. -/
example : Masked.og 0 = some 0 ∧ apBackend.og 0 = some 1 ∧ Masked.opadHi 0 4 5 = some 5 ∧ apBackend.opadHi 0 4 5 = some 5 ∧
    apBackend.opadLo 0 4 5 = some 5 ∧ acBackend.opadLo 0 4 5 = some 5 := by decide +kernel

/-! ## C67: the values, for every width -/

/-- The synthesis backends have no limit of 128 bits: for every width of at least one bit the operators are those of the integers
modulo `2^W`. -/
theorem C67_values {W a b : ℕ} (hW : 1 ≤ W) (ha : a < 2 ^ W) (hb : b < 2 ^ W) :
    apBackend.add W a b = some ((a + b) % 2 ^ W) ∧
    (∃ r : ℕ, apBackend.sub W a b = some r ∧ (r : ℤ) = ((a : ℤ) - b) % 2 ^ W) ∧
    apBackend.mul W W a b = some (a * b) ∧ apBackend.square W a = some (a * a) ∧
    apBackend.not W a = some (2 ^ W - 1 - a) ∧
    apBackend.and W a b = some (a &&& b) ∧ apBackend.or W a b = some (a ||| b) ∧ apBackend.xor W a b = some (a ^^^ b) ∧
    (∀ d : ℕ, d < W → apBackend.shr W a d = some (a / 2 ^ d) ∧ apBackend.shl W a d = some (a * 2 ^ d % 2 ^ W)) := by
  have hab : a * b < 2 ^ (W + W) := by rw [pow_add]; exact Nat.mul_lt_mul'' ha hb
  have haa : a * a < 2 ^ (2 * W) := by rw [two_mul, pow_add]; exact Nat.mul_lt_mul'' ha ha
  have hw := safeW_of_pos hW
  refine ⟨?_, ⟨_, rfl, ?_⟩, ?_, ?_, ?_, ?_, ?_, ?_, fun d hd => ⟨?_, ?_⟩⟩
  · show some (vtrunc (safeW W) ((a : ℤ) + b)) = _
    rw [hw, ← Nat.cast_add, vtrunc_nat]
  · rw [hw]; exact vtrunc_cast W _
  · show some (vtrunc (safeW (W + W)) ((a : ℤ) * b)) = _
    rw [safeW_of_pos (by omega), ← Nat.cast_mul, vtrunc_of_lt hab]
  · show some (vtrunc (safeW (2 * W)) ((a : ℤ) * a)) = _
    rw [safeW_of_pos (by omega), ← Nat.cast_mul, vtrunc_of_lt haa]
  · show some (vtrunc (safeW W) (-(a : ℤ) - 1)) = _
    have hp : 0 < 2 ^ W := by positivity
    have : vtrunc W (-(a : ℤ) - 1) = 2 ^ W - 1 - a := by
      zify [show a ≤ 2 ^ W - 1 by omega, show 1 ≤ 2 ^ W by omega]
      rw [vtrunc_cast, show -(a : ℤ) - 1 = (2 ^ W - 1 - a) + 2 ^ W * (-1) by ring, Int.add_mul_emod_self_left]
      have hz : ((2 ^ W : ℕ) : ℤ) = 2 ^ W := by push_cast; rfl
      exact Int.emod_eq_of_lt (by omega) (by omega)
    rw [hw, this]
  · exact congrArg some (by rw [hw, vtrunc_of_lt (Nat.and_le_left.trans_lt ha)])
  · exact congrArg some (by rw [hw, vtrunc_of_lt (Nat.or_lt_two_pow ha hb)])
  · exact congrArg some (by rw [hw, vtrunc_of_lt (Nat.xor_lt_two_pow ha hb)])
  · show Ap.shr W a d = _
    unfold Ap.shr
    rw [if_pos (by omega), hw, Int.toNat_natCast, vtrunc_of_lt ((Nat.div_le_self _ _).trans_lt ha)]
  · show Ap.shl W a d = _
    unfold Ap.shl
    rw [if_pos (by omega), hw, Int.toNat_natCast, vtrunc_nat]

/-- Slices and concatenations too, and the `ac_int` backend computes the same. -/
theorem C67_values_slices {HI LO W x WA WB a b : ℕ} (h1 : LO ≤ HI) (h2 : HI < W) (hA : 1 ≤ WA) (hB : 1 ≤ WB)
    (ha : a < 2 ^ WA) (hb : b < 2 ^ WB) :
    apBackend.getBits HI LO W x = some (x / 2 ^ LO % 2 ^ (HI + 1 - LO)) ∧
    acBackend.getBits HI LO W x = some (x / 2 ^ LO % 2 ^ (HI + 1 - LO)) ∧
    apBackend.concat WA WB a b = some (a * 2 ^ WB + b) ∧ acBackend.concat WA WB a b = some (a * 2 ^ WB + b) := by
  refine ⟨?_, ?_, ?_, ?_⟩
  · show Ap.getBits HI LO W x = _
    rw [← Ac.getBits_eq h1 h2]; unfold Ac.getBits; rw [safeW_of_pos (by omega)]
  · show Ac.getBits HI LO W x = _
    unfold Ac.getBits; rw [safeW_of_pos (by omega)]
  · show Ap.concat WA WB a b = _
    unfold Ap.concat
    rw [if_neg (by omega), if_neg (by omega)]; exact congrArg some (vtrunc_of_lt (concat_lt ha hb))
  · show Ac.concat WA WB a b = _
    unfold Ac.concat
    rw [if_neg (by omega), if_neg (by omega), setSlc_low (show 0 < 2 ^ 0 by norm_num), setSlc_low (by simpa using hb)]
    simp [Nat.add_comm]

theorem C67_ac_equals_ap {W : ℕ} (hW : W + 1 < 2 ^ 30) :
    acBackend.add = apBackend.add ∧ acBackend.sub = apBackend.sub ∧ acBackend.mul = apBackend.mul ∧
    acBackend.square = apBackend.square ∧ acBackend.not = apBackend.not ∧ acBackend.and = apBackend.and ∧
    acBackend.or = apBackend.or ∧ acBackend.xor = apBackend.xor ∧ acBackend.ofInt W = apBackend.ofInt W ∧
    acBackend.shr W = apBackend.shr W ∧ acBackend.shl W = apBackend.shl W :=
  ⟨rfl, rfl, rfl, rfl, rfl, rfl, rfl, rfl, funext fun v => Ac.ofInt_eq hW v,
    funext fun _ => funext fun d => Ac.shr_eq (by omega) d, funext fun _ => funext fun d => Ac.shl_eq (by omega) d⟩

example : apBackend.mul 200 200 (2 ^ 199 + 1) (2 ^ 150) = some (2 ^ 349 + 2 ^ 150) := by decide +kernel

/-! ## C67: where the backends differ -/

/-- The one vendor bit behind a `fw_uint<0>` can be set, and then it is seen: comparing two zero-width numbers, or multiplying
by one, gives different results in simulation and in hardware. -/
theorem C67_zero_width_differs :
    (∃ z z', SameFw 0 z z' ∧ Masked.og 0 = some z ∧ apBackend.og 0 = some z' ∧ acBackend.og 0 = some z' ∧
      Masked.eq z 0 = some 1 ∧ apBackend.eq z' 0 = some 0 ∧ acBackend.eq z' 0 = some 0 ∧
      Masked.mul 8 0 77 z = some 0 ∧ apBackend.mul 8 0 77 z' = some 77 ∧ acBackend.mul 8 0 77 z' = some 77) :=
  ⟨0, 1, ⟨by decide, Or.inl rfl⟩, by decide, by decide +kernel, by decide +kernel, by decide, by decide, by decide, by decide, by decide +kernel,
    by decide +kernel⟩

/-- `x | c` with `c` all ones is rejected by an assertion in simulation only. -/
theorem C67_or_int_differs : Masked.orInt 8 3 255 = none ∧ apBackend.orInt 8 3 255 = some 255 ∧
    acBackend.orInt 8 3 255 = some 255 := by decide +kernel

/-! ## C68: exchange with text, GMP and machine integers -/

/-- **C68.** The text of a number is the same on all backends. -/
theorem C68_to_string (W x : ℕ) : vendorToString W x = Masked.toString W x := by
  unfold vendorToString Masked.toString
  rw [vendorToStringLoop_eq]

/-- Reading the text gives the number back, for every width. -/
theorem C68_string_round_trip {W x : ℕ} (hx : x < 2 ^ W) : vendorOfString W (vendorToString W x) = some x := by
  show vendorParseLoop W W 0 (vendorToStringLoop x W) = some x
  rw [vendorParseLoop_eq, vendorToStringLoop_eq]
  have hs : W ≤ safeW W := by unfold safeW; split <;> omega
  have := Masked.parse_toStringLoop hx hs W le_rfl
  rw [Nat.div_eq_of_lt hx] at this
  rw [this]

example : vendorToString 12 0b110000000101 = "0b1100_00000101".toList ∧
    vendorOfString 12 "0b1100_00000101".toList = some 0b110000000101 := by decide +kernel

/-- **C68.** Conversion to GMP is exact, for every width. -/
theorem C68_to_mpz {W x : ℕ} (hx : x < 2 ^ W) : vendorToMpz W x = x := by
  unfold vendorToMpz
  rw [vendorToMpzLoop_eq]
  have : x < 2 ^ (32 * ((W + 31) / 32)) := hx.trans_le (Nat.pow_le_pow_right (by norm_num) (by omega))
  simp [Nat.mod_eq_of_lt this]

example : vendorToMpz 100 (2 ^ 99 + 12345) = 2 ^ 99 + 12345 := by decide +kernel

/-- Conversion from GMP, full statement: every number that fits is converted exactly. It holds up to 64 bits; what is missing is
every width above (`C68_of_mpz_wide_wrong`). -/
theorem C68_of_mpz_partial {W x : ℕ} (h1 : 1 ≤ W) (h64 : W ≤ 64) (hx : x < 2 ^ W) :
    Ap.ofMpz W x = some x ∧ Ac.ofMpz W x = some x := by
  rw [Ap.ofMpz_eq h1 hx, Ac.ofMpz_eq h1 hx, Nat.mod_eq_of_lt (hx.trans_le (Nat.pow_le_pow_right (by norm_num) h64))]
  exact ⟨rfl, rfl⟩

/-- A number that does not fit is rejected. -/
theorem C68_of_mpz_rejects {W x : ℕ} (hx : 2 ^ W ≤ x) : Ap.ofMpz W x = none ∧ Ac.ofMpz W x = none := by
  have : W < max 1 (Nat.size x) := lt_max_of_lt_right (Nat.lt_size.mpr hx)
  unfold Ap.ofMpz Ac.ofMpz
  rw [if_pos this, if_pos this]
  exact ⟨rfl, rfl⟩

example : Ap.ofMpz 20 123456 = some 123456 ∧ Ac.ofMpz 20 123456 = some 123456 := by decide +kernel

/-- Above 64 bits the high bits are silently lost: the result is `x mod 2^64`, hence wrong for every `x ≥ 2^64`, where the simulation
backend is exact (C04). -/
theorem C68_of_mpz_wide_wrong {W x : ℕ} (h1 : 1 ≤ W) (hx : x < 2 ^ W) (hbig : 2 ^ 64 ≤ x) :
    Ap.ofMpz W x = some (x % 2 ^ 64) ∧ Ac.ofMpz W x = some (x % 2 ^ 64) ∧ x % 2 ^ 64 ≠ x :=
  ⟨Ap.ofMpz_eq h1 hx, Ac.ofMpz_eq h1 hx, by have := Nat.mod_lt x (show 0 < 2 ^ 64 by positivity); omega⟩

example : Ap.ofMpz 70 (2 ^ 64 + 5) = some 5 ∧ Masked.ofMpz 70 (2 ^ 64 + 5) = some (2 ^ 64 + 5) := by decide +kernel

/-- `to_int`: when the simulation accepts the number, all backends return it. -/
theorem C68_to_int {x : ℕ} {r : ℤ} (h : Masked.toInt x = some r) : r = x ∧ vendorToInt x = x := by
  unfold Masked.toInt at h
  split at h
  · rename_i h1
    have h : (x : ℤ) = r := by simpa using h
    refine ⟨h.symm, ?_⟩
    unfold vendorToInt
    rw [Nat.mod_eq_of_lt (by omega), if_pos (by omega)]
  · simp at h

/-- When it does not (from `2^31` on), the others return another number, even a negative one. -/
theorem C68_to_int_wraps {x : ℕ} (h : 2 ^ 31 ≤ x) : Masked.toInt x = none ∧ vendorToInt x ≠ x ∧
    (x < 2 ^ 32 → vendorToInt x < 0) := by
  have hm := Nat.mod_lt x (show 0 < 2 ^ 32 by positivity)
  refine ⟨?_, ?_, fun h2 => ?_⟩
  · unfold Masked.toInt; rw [if_neg (by omega)]
  · unfold vendorToInt
    have := Nat.mod_le x (2 ^ 32)
    split
    · intro e
      have e : x % 2 ^ 32 = x := by exact_mod_cast e
      omega
    · intro e
      generalize x % 2 ^ 32 = y at *
      omega
  · unfold vendorToInt
    rw [Nat.mod_eq_of_lt h2, if_neg (by omega)]
    omega

example : Masked.toInt 5 = some 5 ∧ vendorToInt 5 = 5 ∧ Masked.toInt (2 ^ 32 - 1) = none ∧ vendorToInt (2 ^ 32 - 1) = -1 := by
  decide

/-- `to_uint64` returns the number on every backend that accepts it; the simulation looks at the value, the others at the
width. -/
theorem C68_to_uint64 {W x : ℕ} (hx : x < 2 ^ W) :
    (∀ r, Masked.toUint64 x = some r → r = x) ∧ (∀ r, vendorToUint64 W x = some r → r = x) ∧
    (Masked.toUint64 x = some x ↔ x < 2 ^ 64) ∧ (vendorToUint64 W x = some x ↔ W ≤ 64) := by
  have key : W ≤ 64 → x % 2 ^ 64 = x := fun h =>
    Nat.mod_eq_of_lt (hx.trans_le (Nat.pow_le_pow_right (by norm_num) h))
  have hm := Nat.mod_lt x (show 0 < 2 ^ 64 by positivity)
  unfold Masked.toUint64 vendorToUint64
  refine ⟨fun r h => ?_, fun r h => ?_, ⟨fun h => ?_, fun h => ?_⟩, ⟨fun h => ?_, fun h => ?_⟩⟩
  · split at h
    · have h : x % 2 ^ 64 = r := by simpa using h
      omega
    · simp at h
  · split at h
    · rename_i hW
      have h : x % 2 ^ 64 = r := by simpa using h
      rw [← h, key hW]
    · simp at h
  · split at h
    · omega
    · simp at h
  · rw [Nat.mod_eq_of_lt h, if_pos rfl]
  · by_contra hW
    rw [if_neg hW] at h
    simp at h
  · rw [if_pos h, key h]

example : Masked.toUint64 5 = some 5 ∧ vendorToUint64 65 5 = none ∧ vendorToUint64 64 5 = some 5 := by decide

end Thls
