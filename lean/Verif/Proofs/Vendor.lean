import Verif.SpecBackend
import Verif.Props.FwUint
import Verif.Model.Vendor
import Verif.Proofs.Masked
import Mathlib.Data.Nat.Size

/-! Proofs about the synthesis backends. -/

namespace Thls

theorem vtrunc_cast (n : ℕ) (z : ℤ) : ((vtrunc n z : ℕ) : ℤ) = z % 2 ^ n := Masked.cast_int_mod n z
theorem vtrunc_nat (n v : ℕ) : vtrunc n (v : ℤ) = v % 2 ^ n := by
  have := vtrunc_cast n v
  exact_mod_cast this
theorem vtrunc_of_lt {n v : ℕ} (h : v < 2 ^ n) : vtrunc n (v : ℤ) = v := by rw [vtrunc_nat, Nat.mod_eq_of_lt h]
theorem vtrunc_lt (n : ℕ) (z : ℤ) : vtrunc n z < 2 ^ n := by
  have h := vtrunc_cast n z
  have := Int.emod_lt_of_pos z (show (0 : ℤ) < 2 ^ n by positivity)
  rw [← h] at this; exact_mod_cast this
theorem safeW_pos (W : ℕ) : 0 < safeW W := by unfold safeW; split <;> omega
theorem safeW_of_pos {W : ℕ} (h : 0 < W) : safeW W = W := by unfold safeW; rw [if_neg (by omega)]

theorem FollowsFw.bind {W W' : ℕ} {o o' : Option ℕ} {f f' : ℕ → Option ℕ} (h : FollowsFw W o o')
    (hf : ∀ x y, SameFw W x y → FollowsFw W' (f x) (f' y)) : FollowsFw W' (o >>= f) (o' >>= f') := by
  intro r hr
  rcases o with _ | x
  · simp at hr
  · obtain ⟨y, rfl, hy⟩ := h x rfl
    exact hf x y hy r (by simpa using hr)

theorem FollowsFw.none {W : ℕ} {o' : Option ℕ} : FollowsFw W none o' := by intro r hr; simp at hr

/-! ### `ap_uint` -/

theorem stW_ge (W : ℕ) : 32 ≤ Masked.stW W := by unfold Masked.stW; split; rfl; split <;> norm_num

theorem int_mod_st {W : ℕ} {v : ℤ} (h0 : 0 ≤ v) (h1 : v < 2 ^ 31) : (v % 2 ^ Masked.stW W).toNat = v.toNat := by
  have : (2 : ℤ) ^ 32 ≤ 2 ^ Masked.stW W := pow_le_pow_right₀ (by norm_num) (stW_ge W)
  rw [Int.emod_eq_of_lt h0 (by omega)]

theorem ofInt_follows_gen {W : ℕ} (hW : W ≤ 128) {v : ℤ} (hv : v < 2 ^ 31) {o' : Option ℕ}
    (h : 0 ≤ v → v < 2 ^ W → o' = some (vtrunc (safeW W) v)) : FollowsFw W (Masked.ofInt W v) o' := by
  intro r hr
  have hm : Masked.mask W = 2 ^ W - 1 := Masked.mask_eq hW
  have hp : 0 < 2 ^ W := by positivity
  unfold Masked.ofInt at hr
  by_cases h0 : v < 0
  · rw [if_pos h0] at hr; simp at hr
  rw [if_neg h0, int_mod_st (by omega) hv, hm] at hr
  split at hr
  · rename_i h1
    have hr : v.toNat = r := by simpa using hr
    have hlt : v.toNat < 2 ^ W := by omega
    obtain ⟨n, rfl⟩ := Int.eq_ofNat_of_zero_le (show 0 ≤ v by omega)
    simp only [Int.toNat_natCast] at *
    refine ⟨_, h (by omega) (by exact_mod_cast hlt), hr ▸ hlt, ?_⟩
    rcases Nat.eq_zero_or_pos W with hz | hz
    · exact Or.inl hz
    · right
      rw [safeW_of_pos hz, vtrunc_of_lt hlt]
      omega
  · simp at hr

theorem Ap.ofInt_follows {W : ℕ} (hW : W ≤ 128) {v : ℤ} (hv : v < 2 ^ 31) :
    FollowsFw W (Masked.ofInt W v) (Ap.ofInt W v) := by
  refine ofInt_follows_gen hW hv fun h0 h1 => ?_
  have : (2 : ℤ) ^ W ≤ 2 ^ safeW W := pow_le_pow_right₀ (by norm_num) (by unfold safeW; split <;> omega)
  unfold Ap.ofInt
  rw [if_pos ⟨h0, by omega⟩]

/-- The pattern of all total operations: the masked result is `z mod 2^W`, the vendor result is `z` truncated. -/
theorem follows_trunc {W r : ℕ} {z z' : ℤ} {o o' : Option ℕ} (ho : o = some r) (hr : (r : ℤ) = z % 2 ^ W)
    (ho' : o' = some (vtrunc (safeW W) z')) (hz : W = 0 ∨ z = z') : FollowsFw W o o' := by
  intro q hq
  rw [ho] at hq
  have hq : r = q := by simpa using hq
  subst hq
  have h1 := vtrunc_cast W z
  have h2 := vtrunc_lt W z
  have h3 : r = vtrunc W z := by zify; rw [hr, h1]
  refine ⟨_, ho', by omega, ?_⟩
  rcases Nat.eq_zero_or_pos W with h0 | h0
  · exact Or.inl h0
  · right
    rw [safeW_of_pos h0]
    rcases hz with hz | rfl
    · omega
    · exact h3

theorem SameFw.elim {W x y : ℕ} (h : SameFw W x y) : x < 2 ^ W ∧ (W = 0 ∨ x = y) := h

theorem follows_nat {W n : ℕ} {z : ℤ} {o o' : Option ℕ} (ho : o = some n) (hn : n < 2 ^ W)
    (ho' : o' = some (vtrunc (safeW W) z)) (hz : W = 0 ∨ (n : ℤ) = z) : FollowsFw W o o' :=
  follows_trunc ho (z := (n : ℤ)) (by rw [Int.emod_eq_of_lt (by omega) (by exact_mod_cast hn)]) ho' hz

theorem SameFw.lift {W x y : ℕ} (h : SameFw W x y) {p : Prop} (hp : x = y → p) : W = 0 ∨ p := h.2.imp_right hp
theorem SameFw.lift2 {W x y x' y' : ℕ} (h : SameFw W x y) (h' : SameFw W x' y') {p : Prop} (hp : x = y → x' = y' → p) :
    W = 0 ∨ p := by
  rcases h.2 with h1 | h1
  · exact Or.inl h1
  · exact h'.2.imp_right (hp h1)

theorem Ap.add_follows {W a b a' b' : ℕ} (hW : W ≤ 128) (ha : SameFw W a a') (hb : SameFw W b b') :
    FollowsFw W (Masked.add W a b) (Ap.add W a' b') :=
  follows_trunc (Masked.ofBits_mod hW) (z := (a : ℤ) + b) (by push_cast; rfl) rfl
    (ha.lift2 hb fun h1 h2 => by rw [h1, h2])

theorem Ap.not_follows {W a a' : ℕ} (hW : W ≤ 128) (ha : SameFw W a a') :
    FollowsFw W (Masked.not W a) (Ap.not W a') := by
  refine follows_trunc (Masked.not_eq hW ha.1) (z := -(a : ℤ) - 1) ?_ rfl (ha.lift fun h => by rw [h])
  have ha := ha.1
  have hp : 0 < 2 ^ W := by positivity
  have hz : ((2 ^ W : ℕ) : ℤ) = 2 ^ W := by push_cast; rfl
  rw [show -(a : ℤ) - 1 = (2 ^ W - 1 - a) + 2 ^ W * (-1) by ring, Int.add_mul_emod_self_left, Int.emod_eq_of_lt] <;> omega

theorem Ap.getBits_follows {HI LO W x x' : ℕ} (hW : W ≤ 128) (h : LO ≤ HI) (hx : SameFw W x x') :
    FollowsFw (HI + 1 - LO) (Masked.getBits HI LO W x) (Ap.getBits HI LO W x') := by
  by_cases h1 : HI < W
  · refine follows_nat (z := ((x' / 2 ^ LO % 2 ^ (HI + 1 - LO) : ℕ) : ℤ)) (Masked.getBits_eq hW h1 (by omega))
      (Nat.mod_lt _ (by positivity)) ?_ ?_
    · unfold Ap.getBits
      rw [if_pos ⟨h, h1⟩]
    · rcases hx.2 with h | h
      · omega
      · rw [h]; exact Or.inr rfl
  · have : Masked.getBits HI LO W x = none := by unfold Masked.getBits; rw [if_neg h1]
    rw [this]; exact FollowsFw.none

theorem concat_follows_gen {WA WB a b a' b' : ℕ} (hW : WA + WB ≤ 128) (ha : SameFw WA a a') (hb : SameFw WB b b')
    {o' : Option ℕ} (h1 : WB = 0 → o' = some a') (h2 : WB ≠ 0 → WA = 0 → o' = some b')
    (h3 : WB ≠ 0 → WA ≠ 0 → a' < 2 ^ WA → b' < 2 ^ WB → o' = some (a' * 2 ^ WB + b')) :
    FollowsFw (WA + WB) (Masked.concat WA WB a b) o' := by
  intro r hr
  rw [Masked.concat_eq hW ha.1 hb.1] at hr
  have hr : a * 2 ^ WB + b = r := by simpa using hr
  subst hr
  have hlt := concat_lt ha.1 hb.1
  obtain ⟨ha1, ha2⟩ := ha
  obtain ⟨hb1, hb2⟩ := hb
  by_cases hB : WB = 0
  · subst hB
    have : b = 0 := by simpa using hb1
    subst this
    refine ⟨a', h1 rfl, hlt, ?_⟩
    simpa using ha2
  · by_cases hA : WA = 0
    · subst hA
      have : a = 0 := by simpa using ha1
      subst this
      refine ⟨b', h2 hB rfl, hlt, ?_⟩
      simpa using hb2
    · rcases ha2 with ha2 | rfl
      · omega
      rcases hb2 with hb2 | rfl
      · omega
      exact ⟨_, h3 hB hA ha1 hb1, hlt, Or.inr rfl⟩

theorem Ap.concat_follows {WA WB a b a' b' : ℕ} (hW : WA + WB ≤ 128) (ha : SameFw WA a a') (hb : SameFw WB b b') :
    FollowsFw (WA + WB) (Masked.concat WA WB a b) (Ap.concat WA WB a' b') := by
  refine concat_follows_gen hW ha hb (fun h => ?_) (fun h h' => ?_) fun h h' ha hb => ?_
  · unfold Ap.concat; rw [if_pos h]
  · unfold Ap.concat; rw [if_neg h, if_pos h']
  · unfold Ap.concat; rw [if_neg h, if_neg h']; exact congrArg some (vtrunc_of_lt (concat_lt ha hb))

/-! ### What the helpers need of a backend -/

/-- A backend whose primitive operations follow those of the simulation. -/
structure BackendSim (V : Backend) : Prop where
  ofInt : ∀ {W : ℕ} {v : ℤ}, W ≤ 128 → v < 2 ^ 31 → FollowsFw W (Masked.ofInt W v) (V.ofInt W v)
  add : ∀ {W a b a' b' : ℕ}, W ≤ 128 → SameFw W a a' → SameFw W b b' → FollowsFw W (Masked.add W a b) (V.add W a' b')
  not : ∀ {W a a' : ℕ}, W ≤ 128 → SameFw W a a' → FollowsFw W (Masked.not W a) (V.not W a')
  getBits : ∀ {HI LO W x x' : ℕ}, W ≤ 128 → LO ≤ HI → SameFw W x x' →
    FollowsFw (HI + 1 - LO) (Masked.getBits HI LO W x) (V.getBits HI LO W x')
  concat : ∀ {WA WB a b a' b' : ℕ}, WA + WB ≤ 128 → SameFw WA a a' → SameFw WB b b' →
    FollowsFw (WA + WB) (Masked.concat WA WB a b) (V.concat WA WB a' b')

theorem Ap.sim : BackendSim apBackend :=
  ⟨fun h h' => Ap.ofInt_follows h h', Ap.add_follows, Ap.not_follows, Ap.getBits_follows, Ap.concat_follows⟩

namespace BackendSim
variable {V : Backend} (S : BackendSim V)
include S

theorem zg {W : ℕ} (hW : W ≤ 128) : FollowsFw W (Masked.zg W) (V.zg W) := S.ofInt hW (by norm_num)
theorem og {W : ℕ} (hW : W ≤ 128) : FollowsFw W (Masked.og W) (V.og W) := (S.zg hW).bind fun _ _ h => S.not hW h

theorem concat3 {WA WB WC a b c a' b' c' : ℕ} (hW : WA + WB + WC ≤ 128) (ha : SameFw WA a a') (hb : SameFw WB b b')
    (hc : SameFw WC c c') :
    FollowsFw (WA + (WB + WC)) (Masked.concat3 WA WB WC a b c) (V.concat3 WA WB WC a' b' c') :=
  (S.concat (by omega) hb hc).bind fun _ _ h => S.concat (by omega) ha h

theorem concat4 {WA WB WC WD a b c d a' b' c' d' : ℕ} (hW : WA + WB + WC + WD ≤ 128) (ha : SameFw WA a a')
    (hb : SameFw WB b b') (hc : SameFw WC c c') (hd : SameFw WD d d') :
    FollowsFw (WA + WB + (WC + WD)) (Masked.concat4 WA WB WC WD a b c d) (V.concat4 WA WB WC WD a' b' c' d') :=
  (S.concat (by omega) ha hb).bind fun _ _ h => (S.concat (by omega) hc hd).bind fun _ _ h' => S.concat (by omega) h h'

theorem takeLsbs {B W x x' : ℕ} (hW : W ≤ 128) (hx : SameFw W x x') :
    FollowsFw B (Masked.takeLsbs B W x) (V.takeLsbs B W x') := by
  unfold Masked.takeLsbs Backend.takeLsbs
  split
  · split
    · exact S.zg (by omega)
    · have := S.getBits (HI := B - 1) hW (Nat.zero_le _) hx
      rwa [show B - 1 + 1 - 0 = B by omega] at this
  · exact FollowsFw.none

theorem dropLsbs {B W x x' : ℕ} (hW : W ≤ 128) (hx : SameFw W x x') :
    FollowsFw (W - B) (Masked.dropLsbs B W x) (V.dropLsbs B W x') := by
  unfold Masked.dropLsbs Backend.dropLsbs
  split
  · split
    · exact S.zg (by omega)
    · have := S.getBits (HI := W - 1) (LO := B) hW (by omega) hx
      rwa [show W - 1 + 1 - B = W - B by omega] at this
  · exact FollowsFw.none

theorem takeMsbs {B W x x' : ℕ} (hW : W ≤ 128) (hx : SameFw W x x') :
    FollowsFw B (Masked.takeMsbs B W x) (V.takeMsbs B W x') := by
  unfold Masked.takeMsbs Backend.takeMsbs
  split
  · split
    · exact S.zg (by omega)
    · have := S.getBits (HI := W - 1) (LO := W - B) hW (by omega) hx
      rwa [show W - 1 + 1 - (W - B) = B by omega] at this
  · exact FollowsFw.none

theorem dropMsbs {B W x x' : ℕ} (hW : W ≤ 128) (hx : SameFw W x x') :
    FollowsFw (W - B) (Masked.dropMsbs B W x) (V.dropMsbs B W x') := by
  unfold Masked.dropMsbs Backend.dropMsbs
  split
  · split
    · exact S.zg (by omega)
    · have := S.getBits (HI := W - 1 - B) (LO := 0) hW (by omega) hx
      rwa [show W - 1 - B + 1 - 0 = W - B by omega] at this
  · exact FollowsFw.none

theorem takeLsb {W x x' : ℕ} (hW : W ≤ 128) (hx : SameFw W x x') :
    FollowsFw 1 (Masked.takeLsb W x) (V.takeLsb W x') := S.getBits hW le_rfl hx
theorem takeMsb {W x x' : ℕ} (hW : W ≤ 128) (hx : SameFw W x x') :
    FollowsFw 1 (Masked.takeMsb W x) (V.takeMsb W x') := by
  have := S.getBits (HI := W - 1) hW le_rfl hx
  rwa [show W - 1 + 1 - (W - 1) = 1 by omega] at this
theorem dropLsb {W x x' : ℕ} (h2 : 2 ≤ W) (hW : W ≤ 128) (hx : SameFw W x x') :
    FollowsFw (W - 1) (Masked.dropLsb W x) (V.dropLsb W x') := by
  have := S.getBits (HI := W - 1) (LO := 1) hW (by omega) hx
  rwa [show W - 1 + 1 - 1 = W - 1 by omega] at this
theorem dropMsb {W x x' : ℕ} (h2 : 2 ≤ W) (hW : W ≤ 128) (hx : SameFw W x x') :
    FollowsFw (W - 1) (Masked.dropMsb W x) (V.dropMsb W x') := by
  have := S.getBits (HI := W - 2) (LO := 0) hW (by omega) hx
  rwa [show W - 2 + 1 - 0 = W - 1 by omega] at this

theorem zpadHi {P W x x' : ℕ} (hW : P + W ≤ 128) (hx : SameFw W x x') :
    FollowsFw (P + W) (Masked.zpadHi P W x) (V.zpadHi P W x') :=
  (S.zg (by omega)).bind fun _ _ h => S.concat hW h hx
theorem opadHi {P W x x' : ℕ} (hW : P + W ≤ 128) (hx : SameFw W x x') :
    FollowsFw (P + W) (Masked.opadHi P W x) (V.opadHi P W x') :=
  (S.og (by omega)).bind fun _ _ h => S.concat hW h hx
theorem zpadLo {P W x x' : ℕ} (hW : W + P ≤ 128) (hx : SameFw W x x') :
    FollowsFw (W + P) (Masked.zpadLo P W x) (V.zpadLo P W x') :=
  (S.zg (by omega)).bind fun _ _ h => S.concat hW hx h
theorem opadLo {P W x x' : ℕ} (hW : W + P ≤ 128) (hx : SameFw W x x') :
    FollowsFw (W + P) (Masked.opadLo P W x) (V.opadLo P W x') :=
  (S.og (by omega)).bind fun _ _ h => S.concat hW hx h
theorem extu {B W x x' : ℕ} (hB : B ≤ 128) (hx : SameFw W x x') :
    FollowsFw B (Masked.extu B W x) (V.extu B W x') := by
  unfold Masked.extu Backend.extu
  split
  · have := S.zpadHi (P := B - W) (by omega) hx
    rwa [show B - W + W = B by omega] at this
  · exact FollowsFw.none
theorem resize {B W x x' : ℕ} (hW : W ≤ 128) (hB : B ≤ 128) (hx : SameFw W x x') :
    FollowsFw B (Masked.resize B W x) (V.resize B W x') :=
  (S.zpadHi (by omega) hx).bind fun _ _ h => S.takeLsbs (by omega) h
theorem addCin {W x c x' c' : ℕ} (h1 : 1 ≤ W) (hW : W ≤ 128) (hx : SameFw W x x') (hc : SameFw 1 c c') :
    FollowsFw W (Masked.addCin W x c) (V.addCin W x' c') :=
  (S.zpadHi (by omega) hc).bind fun _ _ h => S.add hW hx (by rwa [show W - 1 + 1 = W by omega] at h)
theorem addWithCin {W x y c x' y' c' : ℕ} (h1 : 1 ≤ W) (hW : W ≤ 128) (hx : SameFw W x x') (hy : SameFw W y y')
    (hc : SameFw 1 c c') : FollowsFw W (Masked.addWithCin W x y c) (V.addWithCin W x' y' c') :=
  (S.add hW hx hy).bind fun _ _ h0 => (S.zpadHi (by omega) hc).bind fun _ _ h =>
    S.add hW h0 (by rwa [show W - 1 + 1 = W by omega] at h)
theorem addSub {W x y c x' y' c' : ℕ} (h1 : 1 ≤ W) (hW : W ≤ 128) (hx : SameFw W x x') (hy : SameFw W y y')
    (hc : SameFw 1 c c') : FollowsFw W (Masked.addSub W c x y) (V.addSub W c' x' y') := by
  refine (S.not hW hy).bind fun p q h => ?_
  have hcc : c = c' := hc.2.resolve_left (by norm_num)
  subst hcc
  refine S.addWithCin h1 hW hx ?_ hc
  split
  · exact h
  · exact hy
theorem copybit {W b b' : ℕ} (hW : W ≤ 128) (hb : SameFw 1 b b') :
    FollowsFw W (Masked.copybit W b) (V.copybit W b') := by
  have hcc : b = b' := hb.2.resolve_left (by norm_num)
  subst hcc
  unfold Masked.copybit Backend.copybit
  split
  · exact S.og hW
  · exact S.zg hW
theorem concatArray {W lo : ℕ} {x x' : ℕ → ℕ} (hx : ∀ i, SameFw W (x i) (x' i)) (n : ℕ) (hW : (n + 1) * W ≤ 128) :
    FollowsFw ((n + 1) * W) (Masked.concatArray W lo x n) (V.concatArray W lo x' n) := by
  induction n with
  | zero =>
    intro r hr
    have hr : x lo = r := by simpa [Masked.concatArray] using hr
    subst hr
    exact ⟨x' lo, rfl, by simpa using hx lo⟩
  | succ n ih =>
    have e : (n + 1 + 1) * W = W + (n + 1) * W := by ring
    rw [e] at hW ⊢
    exact (ih (by omega)).bind fun _ _ h => S.concat hW (hx _) h

end BackendSim

/-! ### `ac_int` -/

theorem log2CeilRec_lt {lim x p k : ℕ} (h : Masked.log2CeilRec lim x p = some k) : x < 2 ^ k := by
  fun_induction Masked.log2CeilRec lim x p with
  | case1 p h1 h2 => 
    have : p = k := by simpa using h
    subst this
    simpa [Nat.shiftLeft_eq] using h2
  | case2 p h1 h2 ih => exact ih h
  | case3 => simp at h

theorem log2CeilRec_isSome {lim x p : ℕ} (hp : p < lim) (hx : x < 2 ^ (lim - 1)) : (Masked.log2CeilRec lim x p).isSome := by
  fun_induction Masked.log2CeilRec lim x p with
  | case1 => rfl
  | case2 p h1 h2 ih =>
    refine ih ?_ 
    by_contra h
    have : p = lim - 1 := by omega
    subst this
    rw [Nat.shiftLeft_eq, one_mul] at h2
    exact h2 hx
  | case3 => omega

theorem Ac.distW_spec {x : ℕ} (hx : x < 2 ^ 30) : x < 2 ^ Ac.distW x := by
  obtain ⟨k, hk⟩ := Option.isSome_iff_exists.mp (log2CeilRec_isSome (lim := 31) (p := 0) (by norm_num) hx)
  have := log2CeilRec_lt hk
  have e : Ac.distW x = k := by unfold Ac.distW Masked.log2Ceil; rw [hk]; rfl
  rwa [e]

theorem Ac.dist_eq {W d : ℕ} (hW : W < 2 ^ 30) (hd : d ≤ W) : vtrunc (Ac.distW W) (d : ℤ) = d :=
  vtrunc_of_lt (hd.trans_lt (Ac.distW_spec hW))

theorem Ac.overflow_eq {W : ℕ} (hW : W + 1 < 2 ^ 30) : Ac.overflow W = 2 ^ safeW W := by
  unfold Ac.overflow
  have h : safeW W + 1 < 2 ^ 30 := by unfold safeW; split <;> omega
  rw [Ac.dist_eq (W := safeW W + 1) h (by omega), one_mul]
  exact vtrunc_of_lt (Nat.pow_lt_pow_right (by norm_num) (by omega))

theorem Ac.ofInt_eq {W : ℕ} (hW : W + 1 < 2 ^ 30) (v : ℤ) : Ac.ofInt W v = Ap.ofInt W v := by
  unfold Ac.ofInt Ap.ofInt
  rw [Ac.overflow_eq hW]
  push_cast
  rfl

theorem Ac.shr_eq {W a : ℕ} (hW : W < 2 ^ 30) (d : ℤ) : Ac.shr W a d = Ap.shr W a d := by
  unfold Ac.shr Ap.shr
  split
  · rename_i h
    obtain ⟨n, rfl⟩ := Int.eq_ofNat_of_zero_le h.1
    rw [Ac.dist_eq hW (by omega)]
    rfl
  · rfl

theorem Ac.shl_eq {W a : ℕ} (hW : W < 2 ^ 30) (d : ℤ) : Ac.shl W a d = Ap.shl W a d := by
  unfold Ac.shl Ap.shl
  split
  · rename_i h
    obtain ⟨n, rfl⟩ := Int.eq_ofNat_of_zero_le h.1
    rw [Ac.dist_eq hW (by omega)]
    rfl
  · rfl

theorem Ac.getBits_eq {HI LO W x : ℕ} (h1 : LO ≤ HI) (h2 : HI < W) : Ac.getBits HI LO W x = Ap.getBits HI LO W x := by
  unfold Ac.getBits Ap.getBits
  rw [if_pos ⟨h1, h2⟩, safeW_of_pos (by omega), vtrunc_of_lt (Nat.mod_lt _ (by positivity))]

theorem Ac.concat_follows {WA WB a b a' b' : ℕ} (hW : WA + WB ≤ 128) (ha : SameFw WA a a') (hb : SameFw WB b b') :
    FollowsFw (WA + WB) (Masked.concat WA WB a b) (Ac.concat WA WB a' b') := by
  refine concat_follows_gen hW ha hb (fun h => ?_) (fun h h' => ?_) fun h h' ha hb => ?_
  · unfold Ac.concat; rw [if_pos h]
  · unfold Ac.concat; rw [if_neg h, if_pos h']
  · unfold Ac.concat Ac.setSlc
    have h0 : b' < 2 ^ (WB + WA) := hb.trans_le (Nat.pow_le_pow_right (by norm_num) (by omega))
    rw [if_neg h, if_neg h']
    simp only [pow_zero, Nat.mod_one, Nat.zero_add, mul_one, Nat.zero_div, Nat.zero_mul, Nat.add_zero]
    rw [Nat.mod_eq_of_lt hb, Nat.div_eq_of_lt h0]
    simp [Nat.add_comm]

theorem Ac.sim : BackendSim acBackend where
  ofInt {W v} hW hv := by
    show FollowsFw W _ (Ac.ofInt W v)
    rw [Ac.ofInt_eq (by omega)]; exact Ap.ofInt_follows hW hv
  add := Ap.add_follows
  not := Ap.not_follows
  getBits {HI LO W x x'} hW h hx := by
    by_cases h2 : HI < W
    · show FollowsFw _ _ (Ac.getBits HI LO W x')
      rw [Ac.getBits_eq h h2]; exact Ap.getBits_follows hW h hx
    · have : Masked.getBits HI LO W x = none := by unfold Masked.getBits; rw [if_neg h2]
      rw [this]; exact FollowsFw.none
  concat := Ac.concat_follows

/-! ### The remaining operators -/

theorem follows_ofBits {W v v' : ℕ} {o' : Option ℕ} (hW : W ≤ 128) (hv : v < 2 ^ W) (ho' : o' = some (vtrunc (safeW W) (v' : ℤ)))
    (h : W = 0 ∨ v = v') : FollowsFw W (Masked.ofBits W v) o' :=
  follows_nat (Masked.ofBits_eq hW hv) hv ho' (h.imp_right fun h => by rw [h])

theorem Ap.addInt_follows {W a a' : ℕ} {b : ℤ} (hW : W ≤ 128) (ha : SameFw W a a') :
    FollowsFw W (Masked.addInt W a b) (Ap.addInt W a' b) := by
  obtain ⟨r, hr, hv⟩ := C01_add_int (a := a) (b := b) hW
  exact follows_trunc hr hv rfl (ha.lift fun h => by rw [h])

theorem Ap.sub_follows {W a b a' b' : ℕ} (hW : W ≤ 128) (ha : SameFw W a a') (hb : SameFw W b b') :
    FollowsFw W (Masked.sub W a b) (Ap.sub W a' b') := by
  obtain ⟨r, hr, hv⟩ := C01_sub (a := a) hW hb.1
  exact follows_trunc hr hv rfl (ha.lift2 hb fun h h' => by rw [h, h'])

theorem Ap.subInt_follows {W a a' : ℕ} {b : ℤ} (hW : W ≤ 128) (ha : SameFw W a a') :
    FollowsFw W (Masked.subInt W a b) (Ap.subInt W a' b) := by
  obtain ⟨r, hr, hv⟩ := C01_sub_int (a := a) (b := b) hW
  exact follows_trunc hr hv rfl (ha.lift fun h => by rw [h])

theorem Ap.mul_follows {W O a b a' b' : ℕ} (hW : O + W ≤ 128) (h1 : 1 ≤ W) (h2 : 1 ≤ O) (ha : SameFw W a a')
    (hb : SameFw O b b') : FollowsFw (O + W) (Masked.mul W O a b) (Ap.mul W O a' b') := by
  have ea := ha.2.resolve_left (by omega)
  have eb := hb.2.resolve_left (by omega)
  subst ea eb
  refine follows_nat (C01_mul hW ha.1 hb.1) ?_ rfl (Or.inr (by push_cast; rfl))
  rw [pow_add, Nat.mul_comm (2 ^ O)]
  exact Nat.mul_lt_mul'' ha.1 hb.1

theorem Ap.square_follows {W a a' : ℕ} (hW : 2 * W ≤ 128) (ha : SameFw W a a') :
    FollowsFw (2 * W) (Masked.square W a) (Ap.square W a') := by
  refine follows_nat (C01_square hW ha.1) ?_ rfl ?_
  · rw [two_mul, pow_add]; exact Nat.mul_lt_mul'' ha.1 ha.1
  · rcases ha.2 with h | h
    · left; omega
    · right; rw [h]; push_cast; rfl

theorem Ap.and_follows {W a b a' b' : ℕ} (hW : W ≤ 128) (ha : SameFw W a a') (hb : SameFw W b b') :
    FollowsFw W (Masked.and W a b) (Ap.and W a' b') :=
  follows_ofBits hW (Nat.and_le_left.trans_lt ha.1) rfl (ha.lift2 hb fun h h' => by rw [h, h'])

theorem Ap.or_follows {W a b a' b' : ℕ} (hW : W ≤ 128) (ha : SameFw W a a') (hb : SameFw W b b') :
    FollowsFw W (Masked.or W a b) (Ap.or W a' b') := by
  unfold Masked.or
  have h := Nat.or_lt_two_pow ha.1 hb.1
  rw [Masked.and_mask hW, Nat.mod_eq_of_lt h]
  exact follows_ofBits hW h rfl (ha.lift2 hb fun h h' => by rw [h, h'])

theorem Ap.xor_follows {W a b a' b' : ℕ} (hW : W ≤ 128) (ha : SameFw W a a') (hb : SameFw W b b') :
    FollowsFw W (Masked.xor W a b) (Ap.xor W a' b') := by
  unfold Masked.xor
  have h := Nat.xor_lt_two_pow ha.1 hb.1
  rw [Masked.and_mask hW, Nat.mod_eq_of_lt h]
  exact follows_ofBits hW h rfl (ha.lift2 hb fun h h' => by rw [h, h'])

theorem Ap.andInt_follows {W a a' : ℕ} {b : ℤ} (hW : W ≤ 128) (hb : b < 2 ^ 31) (ha : SameFw W a a') :
    FollowsFw W (Masked.andInt W a b) (Ap.andInt W a' b) := by
  unfold Masked.andInt Ap.andInt
  by_cases h0 : b < 0
  · rw [if_pos h0]; exact FollowsFw.none
  · rw [if_neg h0, if_neg h0, int_mod_st (by omega) hb]
    exact follows_ofBits hW (Nat.and_le_left.trans_lt ha.1) rfl (ha.lift fun h => by rw [h])

theorem Ap.orInt_follows {W a a' : ℕ} {b : ℤ} (hW : W ≤ 128) (hb : b < 2 ^ 31) (ha : SameFw W a a') :
    FollowsFw W (Masked.orInt W a b) (Ap.orInt W a' b) := by
  unfold Masked.orInt Ap.orInt
  by_cases h0 : b < 0
  · rw [if_pos (Or.inl h0)]; exact FollowsFw.none
  · rw [if_neg h0, int_mod_st (by omega) hb]
    split
    · exact FollowsFw.none
    · rename_i h1
      rw [Masked.mask_eq hW] at h1
      have h := Nat.or_lt_two_pow ha.1 (show b.toNat < 2 ^ W by omega)
      rw [Masked.and_mask hW, Nat.mod_eq_of_lt h]
      exact follows_ofBits hW h rfl (ha.lift fun h => by rw [h])

theorem Ac.xorInt_follows {W a a' : ℕ} {b : ℤ} (hW : W ≤ 128) (hb : b < 2 ^ 31) (ha : SameFw W a a') :
    FollowsFw W (Masked.xorInt W a b) (Ac.xorInt W a' b) := by
  unfold Masked.xorInt Ac.xorInt
  by_cases h0 : b < 0
  · rw [if_pos h0]; exact FollowsFw.none
  · rw [if_neg h0, if_neg h0, int_mod_st (by omega) hb, Masked.and_mask hW]
    exact follows_trunc (z := ((a ^^^ b.toNat : ℕ) : ℤ)) (Masked.ofBits_eq hW (Nat.mod_lt _ (by positivity)))
      (by push_cast; rfl) rfl (ha.lift fun h => by rw [h])

theorem Ap.shr_follows {W a a' : ℕ} {d : ℤ} (hW : W ≤ 128) (ha : SameFw W a a') :
    FollowsFw W (Masked.shr W a d) (Ap.shr W a' d) := by
  unfold Masked.shr Ap.shr
  split
  · rw [Nat.shiftRight_eq_div_pow]
    exact follows_ofBits hW ((Nat.div_le_self _ _).trans_lt ha.1) rfl (ha.lift fun h => by rw [h])
  · exact FollowsFw.none

theorem Ap.shl_follows {W a a' : ℕ} {d : ℤ} (hW : W ≤ 128) (ha : SameFw W a a') :
    FollowsFw W (Masked.shl W a d) (Ap.shl W a' d) := by
  unfold Masked.shl Ap.shl
  split
  · rw [Nat.shiftLeft_eq]
    exact follows_trunc (Masked.ofBits_mod hW) (z := ((a * 2 ^ d.toNat : ℕ) : ℤ)) (by push_cast; rfl) rfl
      (ha.lift fun h => by rw [h])
  · exact FollowsFw.none

theorem Ap.checkedCast_follows {WD WS s s' : ℕ} (hW : WS ≤ 128) (hs : SameFw WS s s') :
    FollowsFw WD (Masked.checkedCast WD WS s) (Ap.checkedCast WD WS s') := by
  unfold Masked.checkedCast Ap.checkedCast
  split
  · rename_i h
    subst h
    exact follows_ofBits hW hs.1 rfl (hs.lift id)
  · exact FollowsFw.none

theorem follows_bool {b b' : Bool} (h : b = b') : FollowsFw 1 (Masked.ofBool b) (Ap.ofBool b') := by
  subst h
  intro r hr
  rw [Masked.ofBool_eq] at hr
  have hr : b.toNat = r := by simpa using hr
  subst hr
  exact ⟨_, rfl, by cases b <;> decide, Or.inr rfl⟩

/-! ### Exchange with text and GMP -/

theorem vendorToStringLoop_eq (x n : ℕ) : vendorToStringLoop x n = Masked.toStringLoop x n := by
  induction n with
  | zero => rfl
  | succ n ih =>
    have e : (x.testBit n = true) ↔ ((x >>> n) &&& 1 = 1) := by
      rw [Masked.bit_and_one, Nat.testBit_eq_decide_div_mod_eq]; simp
    simp only [vendorToStringLoop, Masked.toStringLoop, ih, e]

theorem vendorParseLoop_eq (W n : ℕ) (bits : ℕ) (l : List Char) :
    vendorParseLoop W n bits l = Masked.parseLoop (safeW W) n bits l := by
  induction l generalizing n bits with
  | nil => cases n <;> rfl
  | cons c rest ih =>
    cases n with
    | zero => rfl
    | succ n =>
      have h : ∀ d : ℕ, vtrunc (safeW W) ((bits * 2 % 2 ^ safeW W + d : ℕ) : ℤ) = ((bits <<< 1) % 2 ^ safeW W + d) % 2 ^ safeW W := by
        intro d
        rw [vtrunc_nat, Nat.shiftLeft_eq, pow_one]
      simp only [vendorParseLoop, Masked.parseLoop, ih]
      rw [h 0, h 1]

theorem vendorToMpzLoop_eq (x n off res : ℕ) : vendorToMpzLoop x n off res = res + x / 2 ^ off % 2 ^ (32 * n) * 2 ^ off := by
  induction n generalizing off res with
  | zero => simp [vendorToMpzLoop, Nat.mod_one]
  | succ n ih =>
    have h1 : x / 2 ^ off % 2 ^ 64 % 2 ^ 32 = x / 2 ^ off % 2 ^ 32 := Nat.mod_mod_of_dvd _ (by norm_num)
    rw [vendorToMpzLoop, ih, h1, show 32 * (n + 1) = 32 + 32 * n by ring, pow_add 2 32 (32 * n), Nat.mod_mul, pow_add 2 off 32,
      ← Nat.div_div_eq_div_mul]
    ring

theorem setSlc_low {acc off n v : ℕ} (h : acc < 2 ^ off) : Ac.setSlc acc off n v = acc + v * 2 ^ off := by
  unfold Ac.setSlc
  rw [Nat.mod_eq_of_lt h, Nat.div_eq_of_lt (h.trans_le (Nat.pow_le_pow_right (by norm_num) (by omega)))]
  simp

theorem size_le_of {W x : ℕ} (h : ¬ W < max 1 (Nat.size x)) : 1 ≤ W ∧ x < 2 ^ W := by
  rw [not_lt, max_le_iff] at h
  exact ⟨h.1, Nat.size_le.mp h.2⟩

theorem Ap.ofMpzLoop_small {W x : ℕ} (hW : W < 32) (h1 : 1 ≤ W) (hx : x < 2 ^ W) :
    Ap.ofMpzLoop W (x + 1) x 0 0 = x := by
  have h32 : x < 2 ^ 32 := hx.trans (Nat.pow_lt_pow_right (by norm_num) hW)
  rw [Ap.ofMpzLoop]
  split
  · omega
  · rw [Nat.div_eq_of_lt h32, Nat.mod_eq_of_lt h32, pow_zero, Nat.mul_one, Nat.mod_eq_of_lt h32, Nat.zero_or, safeW_of_pos h1,
      vtrunc_of_lt hx]
    cases x with
    | zero => rfl
    | succ n => rw [Ap.ofMpzLoop, if_pos rfl]

theorem Ac.ofMpzLoop_small {x : ℕ} (h32 : x < 2 ^ 32) : Ac.ofMpzLoop (x + 1) x 0 0 = x := by
  rw [Ac.ofMpzLoop]
  split
  · omega
  · rw [Nat.div_eq_of_lt h32, Nat.mod_eq_of_lt h32, setSlc_low (by norm_num), pow_zero, Nat.mul_one, Nat.zero_add]
    cases x with
    | zero => rfl
    | succ n => rw [Ac.ofMpzLoop, if_pos rfl, Nat.zero_add]

theorem Ap.ofMpz_eq {W x : ℕ} (h1 : 1 ≤ W) (hx : x < 2 ^ W) : Ap.ofMpz W x = some (x % 2 ^ 64) := by
  unfold Ap.ofMpz
  rw [if_neg (by rw [not_lt, max_le_iff]; exact ⟨h1, Nat.size_le.mpr hx⟩)]
  split
  · rw [safeW_of_pos h1, vtrunc_of_lt ((Nat.mod_le _ _).trans_lt hx)]
  · rw [Ap.ofMpzLoop_small (by omega) h1 hx,
      Nat.mod_eq_of_lt (hx.trans_le (Nat.pow_le_pow_right (by norm_num) (by omega)))]

theorem Ac.ofMpz_eq {W x : ℕ} (h1 : 1 ≤ W) (hx : x < 2 ^ W) : Ac.ofMpz W x = some (x % 2 ^ 64) := by
  unfold Ac.ofMpz
  rw [if_neg (by rw [not_lt, max_le_iff]; exact ⟨h1, Nat.size_le.mpr hx⟩)]
  split
  · rw [safeW_of_pos h1, vtrunc_of_lt ((Nat.mod_le _ _).trans_lt hx)]
  · have h32 : x < 2 ^ 32 := hx.trans_le (Nat.pow_le_pow_right (by norm_num) (by omega))
    rw [Ac.ofMpzLoop_small h32, safeW_of_pos h1, vtrunc_of_lt hx, Nat.mod_eq_of_lt (h32.trans (by norm_num))]

end Thls
