import Verif.Model.FwHelpers
import Verif.SpecRandom
import Verif.Props.FwUint
import Verif.Proofs.Double
import Mathlib.Data.Nat.Log
import Mathlib.Data.Fintype.Card
import Mathlib.Data.Fintype.Pi
import Mathlib.Data.Fintype.BigOperators
import Mathlib.Data.Fintype.EquivFin
import Mathlib.Data.List.OfFn

/-! # Property C59: the remaining helpers of `fw_uint.hpp` -/

namespace Thls
open Masked Spec

/-! ## Widths -/

theorem log2CeilRec_spec {lim x p r : ℕ} (hp : p = 0 ∨ 2 ^ (p - 1) ≤ x) (h : log2CeilRec lim x p = some r) :
    x < 2 ^ r ∧ (r = 0 ∨ 2 ^ (r - 1) ≤ x) := by
  fun_induction log2CeilRec lim x p with
  | case1 p h1 h2 =>
    cases h
    rw [Nat.one_shiftLeft] at h2
    exact ⟨h2, hp⟩
  | case2 p h1 h2 ih =>
    rw [Nat.one_shiftLeft, not_lt] at h2
    exact ih (Or.inr h2) h
  | case3 => cases h

theorem log2CeilRec_some {lim x p : ℕ} (hx : x < 2 ^ (lim - 1)) (hp : p < lim) : ∃ r, log2CeilRec lim x p = some r := by
  fun_induction log2CeilRec lim x p with
  | case1 p h1 h2 => exact ⟨_, rfl⟩
  | case2 p h1 h2 ih =>
    rw [Nat.one_shiftLeft, not_lt] at h2
    refine ih ?_
    by_contra h
    have : p = lim - 1 := by omega
    rw [this] at h2; omega
  | case3 p h => omega

/-- **C59.** `thls_ctLog2Ceil(x)` is the number of bits of `x`: the least width that can hold `x`. It compiles for every `x` of at
most `lim - 1` bits, `lim` being the number of value bits of the type. -/
theorem C59_log2_ceil {lim x : ℕ} (hl : 1 ≤ lim) (hx : x < 2 ^ (lim - 1)) :
    ∃ r, log2Ceil lim x = some r ∧ ∀ k, x < 2 ^ k ↔ r ≤ k := by
  obtain ⟨r, hr⟩ := log2CeilRec_some (p := 0) hx (by omega)
  obtain ⟨h1, h2⟩ := log2CeilRec_spec (Or.inl rfl) hr
  refine ⟨r, hr, fun k => ⟨fun h => ?_, fun h => h1.trans_le (Nat.pow_le_pow_right (by norm_num) h)⟩⟩
  rcases h2 with h2 | h2
  · omega
  · by_contra hk
    have : 2 ^ k ≤ 2 ^ (r - 1) := Nat.pow_le_pow_right (by norm_num) (by omega)
    omega

/-- Despite its name the function is not the ceiling of the base-2 logarithm: it is one too large exactly at the powers of two. -/
theorem C59_log2_ceil_not_ceil {lim x : ℕ} (hl : 1 ≤ lim) (hx : x < 2 ^ (lim - 1)) (h0 : 1 ≤ x) :
    ∃ r, log2Ceil lim x = some r ∧ ((∃ k, x = 2 ^ k) → r = Nat.clog 2 x + 1) ∧ ((¬ ∃ k, x = 2 ^ k) → r = Nat.clog 2 x) := by
  obtain ⟨r, hr, hk⟩ := C59_log2_ceil hl hx
  refine ⟨r, hr, ?_⟩
  have hc : ∀ k, x ≤ 2 ^ k ↔ Nat.clog 2 x ≤ k := fun k => (Nat.clog_le_iff_le_pow (by norm_num)).symm
  refine ⟨fun h => ?_, fun h => ?_⟩
  · obtain ⟨k, rfl⟩ := h
    have e1 : Nat.clog 2 (2 ^ k) = k := Nat.clog_pow 2 k (by norm_num)
    rw [e1]
    refine le_antisymm ((hk _).1 (Nat.pow_lt_pow_right (by norm_num) (by omega))) ?_
    by_contra hh
    have := (hk k).2 (by omega)
    omega
  · refine le_antisymm ((hk _).1 ?_) ((hc _).1 ((hk r).2 le_rfl).le)
    have h1 := (hc _).2 le_rfl
    exact lt_of_le_of_ne h1 fun e => h ⟨_, e⟩

example : log2Ceil 31 8 = some 4 ∧ log2Ceil 31 7 = some 3 ∧ log2Ceil 31 (2 ^ 31) = none := by
  refine ⟨by decide +kernel, by decide +kernel, by decide +kernel⟩

/-- **C59.** `extu<B>` keeps the value; it is rejected at compile time when `B` is smaller than the width. -/
theorem C59_extu {B W x : ℕ} (hB : B ≤ 128) (hx : x < 2 ^ W) : extu B W x = if W ≤ B then some x else none := by
  unfold extu
  split_ifs with h
  · exact (C03_pad (P := B - W) (by omega) hx).1
  · rfl

/-- **C59.** `take<B>` on a `W`-bit value compiles only when `W = 2B + 1`, and then returns the low `B + 1` bits. -/
theorem C59_take {B W x : ℕ} (hW : W ≤ 128) (hx : x < 2 ^ W) :
    take B W x = if W = 2 * B + 1 then some (x % 2 ^ (B + 1)) else none := by
  unfold take
  by_cases h : W = 2 * B + 1
  · have hB : B ≤ W := by omega
    have h2 : W - B = B + 1 := by omega
    have hlt : x % 2 ^ (B + 1) < 2 ^ (B + 1) := Nat.mod_lt _ (by positivity)
    rw [if_pos hB, if_pos h, Masked.getBits_eq hW (by omega) (by omega), pow_zero, Nat.div_one, Nat.sub_zero, h2]
    simp only [bind, Option.bind, checkedCast, if_true]
    exact ofBits_eq (by omega) hlt
  · rw [if_neg h]
    split_ifs with h1
    · cases hg : Masked.getBits B 0 W x with
      | none => rfl
      | some v =>
        simp only [bind, Option.bind, checkedCast]
        rw [if_neg (by omega)]
    · rfl

/-- **C59.** `add_cin` adds the carry modulo `2^W`. -/
theorem C59_add_cin {W x c : ℕ} (h1 : 1 ≤ W) (hW : W ≤ 128) (hc : c < 2) :
    addCin W x c = some ((x + c) % 2 ^ W) := by
  unfold addCin
  rw [(C03_pad (P := W - 1) (W := 1) (by omega) (by simpa using hc)).1]
  exact C01_add hW

/-- **C59.** `||` and `&&` of single bits are the logical connectives. -/
theorem C59_logical (a b : Bool) : lor a.toNat b.toNat = some (a || b).toNat ∧ land a.toNat b.toNat = some (a && b).toNat := by
  cases a <;> cases b <;> decide

/-- **C59.** A `select` chain returns the value of the first true condition, and the default exactly when no condition is true. -/
theorem C59_select {α : Type} (d : α) (cs : List (Bool × α)) :
    (∀ i (hi : i < cs.length), cs[i].1 = true → (∀ j (hj : j < i), cs[j].1 = false) → selectChain d cs = cs[i].2) ∧
    ((∀ c ∈ cs, c.1 = false) → selectChain d cs = d) := by
  induction cs with
  | nil => exact ⟨fun i hi => absurd hi (by simp), fun _ => rfl⟩
  | cons c cs ih =>
    obtain ⟨b, v⟩ := c
    refine ⟨fun i hi h1 h2 => ?_, fun h => ?_⟩
    · rcases i with _ | i
      · simp only [List.getElem_cons_zero] at h1 ⊢
        rw [selectChain, h1]; rfl
      · have h0 := h2 0 (by omega)
        simp only [List.getElem_cons_zero] at h0
        rw [selectChain, h0]
        simp only [List.getElem_cons_succ] at h1 ⊢
        exact ih.1 i (by simpa using hi) h1 fun j hj => by
          have := h2 (j + 1) (by omega)
          simpa using this
    · have h0 := h (b, v) (by simp)
      simp only at h0
      rw [selectChain, h0]
      exact ih.2 fun c hc => h c (by simp [hc])

example : selectChain 9 [(false, 1), (true, 2), (true, 3)] = 2 := rfl

/-! ## Tables -/

theorem lutBuild_list {WD : ℕ} (hW : WD ≤ 128) (init : ℕ → ℤ) (l : List ℕ) (h : ∀ i ∈ l, 0 ≤ init i ∧ init i < 2 ^ WD) :
    (l.mapM fun i => ofInt WD (init i)) = some (l.map fun i => (init i).toNat) := by
  induction l with
  | nil => rfl
  | cons a l ih =>
    rw [List.mapM_cons, ofInt_eq hW (h a (by simp)).1 (h a (by simp)).2, ih fun i hi => h i (by simp [hi])]
    rfl

/-- **C59.** A `lut` built from in-range entries returns, at every address of its width, the value of the initialiser there. -/
theorem C59_lut {WD WA : ℕ} (hW : WD ≤ 128) (init : ℕ → ℤ) (h : ∀ i < 2 ^ WA, 0 ≤ init i ∧ init i < 2 ^ WD) :
    ∃ t, lutBuild WD WA init = some t ∧ ∀ a < 2 ^ WA, lutRead t a = some (init a).toNat := by
  refine ⟨_, lutBuild_list hW init _ fun i hi => h i (by simpa using hi), fun a ha => ?_⟩
  unfold lutRead
  rw [List.getElem?_map, List.getElem?_range ha]
  rfl

/-- A negative entry, or one that needs more than `WD` bits (but is an `int`), is rejected by an assertion. -/
theorem C59_lut_rejects {WD WA i : ℕ} (hW : WD ≤ 128) (init : ℕ → ℤ) (hi : i < 2 ^ WA) (hint : init i < 2 ^ 31)
    (h : init i < 0 ∨ 2 ^ WD ≤ init i) : lutBuild WD WA init = none := by
  have hz : ofInt WD (init i) = none := by
    unfold ofInt
    rcases h with h | h
    · rw [if_pos h]
    · have h0 : (0 : ℤ) < 2 ^ WD := by positivity
      rw [if_neg (by omega), if_neg]
      have hs : (2 : ℤ) ^ 31 ≤ 2 ^ stW WD := by
        refine pow_le_pow_right₀ (by norm_num) ?_
        unfold stW; split
        · norm_num
        · split <;> norm_num
      rw [Int.emod_eq_of_lt (by omega) (by omega), mask_eq hW]
      have h1 : ((2 ^ WD : ℕ) : ℤ) ≤ ((init i).toNat : ℤ) := by
        rw [Int.toNat_of_nonneg (by omega)]; push_cast; exact h
      have h2 : 0 < 2 ^ WD := by positivity
      have h3 : 2 ^ WD ≤ (init i).toNat := by exact_mod_cast h1
      omega
  have key : ∀ l : List ℕ, i ∈ l → (l.mapM fun i => ofInt WD (init i)) = none := by
    intro l hl
    induction l with
    | nil => simp at hl
    | cons a l ih =>
      rw [List.mapM_cons]
      rcases List.mem_cons.1 hl with rfl | hl
      · rw [hz]; rfl
      · rw [ih hl]; cases ofInt WD (init a) <;> rfl
  exact key _ (by simpa using hi)

example : ∃ t, lutBuild 8 2 (fun i => (i : ℤ) * i) = some t ∧ lutRead t 3 = some 9 := ⟨[0, 1, 4, 9], by decide +kernel, rfl⟩

/-! ## Random words -/

theorem bigEndian_append (acc : ℕ) (ws : List ℕ) :
    ws.foldl (fun n w => n * 2 ^ 32 + w) acc = acc * 2 ^ (32 * ws.length) + bigEndian ws := by
  unfold bigEndian
  induction ws generalizing acc with
  | nil => simp
  | cons w ws ih =>
    rw [List.foldl_cons, List.foldl_cons, ih, ih (0 * 2 ^ 32 + w), List.length_cons, Nat.mul_succ, pow_add]
    ring

theorem bigEndian_cons (w : ℕ) (ws : List ℕ) : bigEndian (w :: ws) = w * 2 ^ (32 * ws.length) + bigEndian ws := by
  conv_lhs => unfold bigEndian
  rw [List.foldl_cons, bigEndian_append, zero_mul, zero_add]

theorem bigEndian_lt (ws : List ℕ) (h : ∀ w ∈ ws, w < 2 ^ 32) : bigEndian ws < 2 ^ (32 * ws.length) := by
  induction ws with
  | nil => simp [bigEndian]
  | cons w ws ih =>
    rw [bigEndian_cons, List.length_cons, Nat.mul_succ, pow_add]
    have h1 := ih fun w hw => h w (by simp [hw])
    have h2 : w < 2 ^ 32 := h w (by simp)
    have h3 : (w + 1) * 2 ^ (32 * ws.length) ≤ 2 ^ 32 * 2 ^ (32 * ws.length) := Nat.mul_le_mul_right _ (by omega)
    rw [Nat.add_mul, Nat.one_mul] at h3
    rw [Nat.mul_comm (2 ^ (32 * ws.length))]
    omega

theorem bigEndian_inj : ∀ (xs ys : List ℕ), xs.length = ys.length → (∀ w ∈ xs, w < 2 ^ 32) → (∀ w ∈ ys, w < 2 ^ 32) →
    bigEndian xs = bigEndian ys → xs = ys
  | [], [], _, _, _, _ => rfl
  | x :: xs, y :: ys, hl, hx, hy, h => by
    rw [bigEndian_cons, bigEndian_cons] at h
    have hl' : xs.length = ys.length := by simpa using hl
    have h1 := bigEndian_lt xs fun w hw => hx w (by simp [hw])
    have h2 := bigEndian_lt ys fun w hw => hy w (by simp [hw])
    rw [hl'] at h h1
    have hp : 0 < 2 ^ (32 * ys.length) := by positivity
    have e1 : (x * 2 ^ (32 * ys.length) + bigEndian xs) / 2 ^ (32 * ys.length) = x := by
      rw [Nat.mul_comm, Nat.mul_add_div hp, Nat.div_eq_of_lt h1, Nat.add_zero]
    have e2 : (y * 2 ^ (32 * ys.length) + bigEndian ys) / 2 ^ (32 * ys.length) = y := by
      rw [Nat.mul_comm, Nat.mul_add_div hp, Nat.div_eq_of_lt h2, Nat.add_zero]
    have e3 : x = y := by rw [← e1, ← e2, h]
    subst e3
    have h4 : bigEndian xs = bigEndian ys := Nat.add_left_cancel h
    rw [bigEndian_inj xs ys hl' (fun w hw => hx w (by simp [hw])) (fun w hw => hy w (by simp [hw])) h4]

/-- **C59.** `random_fw_uint<W>` draws `⌈W/32⌉` words and returns the top `W` bits of the number they form, the first word being
the most significant; no assertion fails, and the remaining words are left in the generator. -/
theorem C59_random_word {W : ℕ} (hW : W ≤ 128) : ∀ (ws rest : List ℕ), (∀ w ∈ ws, w < 2 ^ 32) → ws.length = (W + 31) / 32 →
    randomFw W (ws ++ rest) = some (bigEndian ws / 2 ^ (32 * ((W + 31) / 32) - W), rest) := by
  induction W using Nat.strong_induction_on with
  | _ W ih =>
  intro ws rest hw hl
  rw [randomFw.eq_def]
  by_cases h0 : W = 0
  · subst h0
    have : ws = [] := List.eq_nil_of_length_eq_zero (by simpa using hl)
    subst this
    rfl
  · rw [if_neg h0]
    rcases ws with _ | ⟨w, ws⟩
    · simp only [List.length_nil] at hl; omega
    · simp only [List.length_cons] at hl
      have hw0 : w < 2 ^ 32 := hw w (by simp)
      have hws : ∀ v ∈ ws, v < 2 ^ 32 := fun v hv => hw v (by simp [hv])
      simp only [List.cons_append]
      by_cases h32 : 32 ≤ W
      · simp only [h32, if_true, lt_irrefl, if_false]
        rw [ofBits_eq (by omega) hw0, ih (W - 32) (by omega) (by omega) ws rest hws (by omega)]
        simp only [bind, Option.bind]
        have hk : 32 * ((W - 32 + 31) / 32) - (W - 32) = 32 * ((W + 31) / 32) - W := by omega
        have hlen : 32 * ws.length = (W - 32) + (32 * ((W + 31) / 32) - W) := by omega
        rw [hk]
        have hb := bigEndian_lt ws hws
        obtain ⟨k, hk'⟩ : ∃ k, k = 32 * ((W + 31) / 32) - W := ⟨_, rfl⟩
        rw [hlen, ← hk', pow_add] at hb
        rw [← hk']
        have hlo : bigEndian ws / 2 ^ k < 2 ^ (W - 32) := by
          rw [Nat.div_lt_iff_lt_mul (by positivity)]; exact hb
        rw [Masked.concat_eq (by omega) hw0 hlo]
        rw [bigEndian_cons, hlen, ← hk', pow_add]
        have e : (w * (2 ^ (W - 32) * 2 ^ k) + bigEndian ws) / 2 ^ k = w * 2 ^ (W - 32) + bigEndian ws / 2 ^ k := by
          rw [← Nat.mul_assoc, Nat.mul_comm _ (2 ^ k), Nat.mul_add_div (by positivity)]
        rw [e]
      · have hn : (W + 31) / 32 = 1 := by omega
        have hnil : ws = [] := List.eq_nil_of_length_eq_zero (by omega)
        subst hnil
        simp only [h32, if_false, show W < 32 by omega, if_true, List.nil_append, Nat.sub_self]
        have hv : w / 2 ^ (32 - W) < 2 ^ W := by
          rw [Nat.div_lt_iff_lt_mul (by positivity), ← pow_add]
          rwa [show W + (32 - W) = 32 by omega]
        rw [ofBits_eq hW hv, randomFw.eq_def, if_pos rfl]
        simp only [bind, Option.bind]
        rw [Masked.concat_eq (WB := 0) (b := 0) (by omega) hv (by norm_num)]
        rw [bigEndian_cons, hn]
        simp [bigEndian]

/-- **C59.** `random_fw_uint<W>` is uniform: whatever the width, each `W`-bit value is the result for exactly `2^(32n - W)` of the
`2^(32n)` equally likely sequences of `n = ⌈W/32⌉` generator words. -/
theorem C59_random_uniform {W v : ℕ} (hW : W ≤ 128) (hv : v < 2 ^ W) :
    ((Finset.univ : Finset (Fin ((W + 31) / 32) → Fin (2 ^ 32))).filter fun ws =>
      (randomFw W (List.ofFn fun i => (ws i : ℕ))).map Prod.fst = some v).card = 2 ^ (32 * ((W + 31) / 32) - W) := by
  obtain ⟨n, hn⟩ : ∃ n, n = (W + 31) / 32 := ⟨_, rfl⟩
  rw [← hn]
  have hmem : ∀ ws : Fin n → Fin (2 ^ 32), ∀ w ∈ List.ofFn (fun i => (ws i : ℕ)), w < 2 ^ 32 := by
    intro ws w hw
    obtain ⟨i, rfl⟩ := (List.mem_ofFn' _ _).1 hw
    exact (ws i).2
  have hlen : ∀ ws : Fin n → Fin (2 ^ 32), (List.ofFn (fun i => (ws i : ℕ))).length = n := fun ws => List.length_ofFn
  let f : (Fin n → Fin (2 ^ 32)) → Fin (2 ^ (32 * n)) := fun ws =>
    ⟨bigEndian (List.ofFn fun i => (ws i : ℕ)), by
      have := bigEndian_lt _ (hmem ws); rwa [hlen] at this⟩
  have hinj : Function.Injective f := by
    intro a b hab
    have h1 : bigEndian (List.ofFn fun i => (a i : ℕ)) = bigEndian (List.ofFn fun i => (b i : ℕ)) := congrArg Fin.val hab
    have h2 := bigEndian_inj _ _ (by rw [hlen, hlen]) (hmem a) (hmem b) h1
    have h3 := List.ofFn_injective h2
    funext i
    exact Fin.ext (congrFun h3 i)
  have hbij : Function.Bijective f := by
    rw [Fintype.bijective_iff_injective_and_card]
    refine ⟨hinj, ?_⟩
    rw [Fintype.card_pi_const, Fintype.card_fin, Fintype.card_fin, ← pow_mul]
  have hres : ∀ ws : Fin n → Fin (2 ^ 32), (randomFw W (List.ofFn fun i => (ws i : ℕ))).map Prod.fst =
      some ((f ws : ℕ) / 2 ^ (32 * n - W)) := by
    intro ws
    have := C59_random_word hW (List.ofFn fun i => (ws i : ℕ)) [] (hmem ws) (by rw [hlen, hn])
    rw [List.append_nil, ← hn] at this
    rw [this]; rfl
  obtain ⟨k, hk⟩ : ∃ k, k = 32 * n - W := ⟨_, rfl⟩
  rw [← hk] at hres ⊢
  have hWk : W + k = 32 * n := by omega
  have hbound : ∀ j < 2 ^ k, v * 2 ^ k + j < 2 ^ (32 * n) := by
    intro j hj
    rw [← hWk, pow_add]
    have : (v + 1) * 2 ^ k ≤ 2 ^ W * 2 ^ k := Nat.mul_le_mul_right _ hv
    rw [Nat.add_mul, Nat.one_mul] at this
    omega
  symm
  rw [← Fintype.card_fin (2 ^ k), ← Finset.card_univ]
  let g := Equiv.ofBijective f hbij
  refine Finset.card_bij (fun j _ => g.symm ⟨v * 2 ^ k + j, hbound j j.2⟩) (fun j _ => ?_) (fun a _ b _ h => ?_) (fun ws hws => ?_)
  · rw [Finset.mem_filter]
    refine ⟨Finset.mem_univ _, ?_⟩
    rw [hres]
    have : f (g.symm ⟨v * 2 ^ k + j, hbound j j.2⟩) = ⟨v * 2 ^ k + j, hbound j j.2⟩ := g.apply_symm_apply _
    rw [this]
    simp only
    rw [Nat.mul_comm, Nat.mul_add_div (by positivity), Nat.div_eq_of_lt j.2, Nat.add_zero]
  · have h1 := congrArg Fin.val (g.symm.injective h)
    simp only at h1
    exact Fin.ext (Nat.add_left_cancel h1)
  · rw [Finset.mem_filter, hres] at hws
    have h1 : (f ws : ℕ) / 2 ^ k = v := by simpa using hws.2
    have h2 := Nat.div_add_mod (f ws : ℕ) (2 ^ k)
    rw [h1, Nat.mul_comm] at h2
    refine ⟨⟨(f ws : ℕ) % 2 ^ k, Nat.mod_lt _ (by positivity)⟩, Finset.mem_univ _, ?_⟩
    rw [Equiv.symm_apply_eq]
    exact Fin.ext h2

example : (randomFw 40 [0xDEADBEEF, 0x12345678]).map Prod.fst = some 0xDEADBEEF12 := by decide +kernel

/-! ## Approximate conversion to `double` -/

theorem natToDouble_le (n : ℕ) : |(natToDouble n : ℚ) - n| ≤ n * 2 ^ (-53 : ℤ) := by
  unfold natToDouble
  split_ifs with h
  · rw [sub_self, abs_zero]; positivity
  · have hn : n ≠ 0 := by rintro rfl; norm_num at h
    have hl : 53 ≤ Nat.log2 n := (Nat.le_log2 hn).2 (not_lt.1 h)
    have hp : 2 ^ Nat.log2 n ≤ n := Nat.log2_self_le hn
    obtain ⟨k, hk⟩ : ∃ k, k = Nat.log2 n - 52 := ⟨_, rfl⟩
    rw [← hk]
    rw [show Nat.log2 n = k + 52 by omega, pow_add] at hp
    have hd := Nat.div_add_mod n (2 ^ k)
    have hm := Nat.mod_lt n (show 0 < 2 ^ k by positivity)
    have hb : (2 : ℚ) ^ k / 2 ≤ n * 2 ^ (-53 : ℤ) := by
      have : ((2 ^ k * 2 ^ 52 : ℕ) : ℚ) ≤ n := by exact_mod_cast hp
      push_cast at this
      rw [zpow_neg, show ((2 : ℚ) ^ (53 : ℤ)) = 2 ^ 52 * 2 by norm_num, ← div_eq_mul_inv, le_div_iff₀ (by positivity)]
      linarith
    have hd' : (n : ℚ) = 2 ^ k * ((n / 2 ^ k : ℕ) : ℚ) + ((n % 2 ^ k : ℕ) : ℚ) := by exact_mod_cast hd.symm
    refine le_trans ?_ hb
    rcases roundShift_spec n k with ⟨h1, h2, -⟩ | ⟨h1, h2, -⟩
    · rw [h1]
      have h2' : 2 * ((n % 2 ^ k : ℕ) : ℚ) ≤ 2 ^ k := by exact_mod_cast h2
      have h0 : (0 : ℚ) ≤ ((n % 2 ^ k : ℕ) : ℚ) := by positivity
      have e : (((n / 2 ^ k * 2 ^ k : ℕ)) : ℚ) - n = -((n % 2 ^ k : ℕ) : ℚ) := by
        rw [Nat.cast_mul]; push_cast; push_cast at hd'; linarith
      rw [e, abs_neg, abs_of_nonneg h0]; linarith
    · rw [h1]
      have h2' : (2 : ℚ) ^ k ≤ 2 * ((n % 2 ^ k : ℕ) : ℚ) := by exact_mod_cast h2
      have hm' : ((n % 2 ^ k : ℕ) : ℚ) ≤ 2 ^ k := by exact_mod_cast hm.le
      have e : ((((n / 2 ^ k + 1) * 2 ^ k : ℕ)) : ℚ) - n = 2 ^ k - ((n % 2 ^ k : ℕ) : ℚ) := by
        rw [Nat.cast_mul]; push_cast; push_cast at hd'; linarith
      rw [e, abs_of_nonneg (by linarith)]; linarith

theorem natToDouble_exact {m k : ℕ} (h : m < 2 ^ 53) : natToDouble (m * 2 ^ k) = m * 2 ^ k := by
  unfold natToDouble
  split_ifs with h1
  · rfl
  · have hn : m * 2 ^ k ≠ 0 := by intro e; rw [e] at h1; norm_num at h1
    have hl : Nat.log2 (m * 2 ^ k) < 53 + k := (Nat.log2_lt hn).2 (by rw [pow_add]; exact Nat.mul_lt_mul_of_pos_right h (by positivity))
    obtain ⟨s, hs⟩ : ∃ s, s = Nat.log2 (m * 2 ^ k) - 52 := ⟨_, rfl⟩
    rw [← hs]
    obtain ⟨t, ht⟩ : ∃ t, k = s + t := ⟨k - s, by omega⟩
    have hd : m * 2 ^ k = 2 ^ s * (m * 2 ^ t) := by rw [ht, pow_add]; ring
    unfold roundShift
    rw [hd, Nat.mul_div_cancel_left _ (by positivity), Nat.mul_mod_right]
    have hp : 0 < 2 ^ s := by positivity
    rw [if_neg (by omega)]
    ring

theorem step_err {res w z : ℕ} {r c u : ℚ} (hu : 0 < u) (h1 : |r - (res + w : ℕ)| ≤ (res + w : ℕ) * u) (hc : 1 ≤ c)
    (h : |(res : ℚ) - z| ≤ (c - 1) * z) : |r - (z + w : ℕ)| ≤ (c * (1 + u) - 1) * (z + w : ℕ) := by
  push_cast at h1 ⊢
  have hw0 : (0 : ℚ) ≤ w := Nat.cast_nonneg w
  have hz0 : (0 : ℚ) ≤ z := Nat.cast_nonneg z
  have h2 := abs_le.1 h
  have h3 := abs_le.1 h1
  have hcw : 0 ≤ (c - 1) * (w : ℚ) := mul_nonneg (by linarith) hw0
  have hrw : (res : ℚ) + w ≤ c * (z + w) := by linarith [h2.2]
  have h4 : ((res : ℚ) + w) * u ≤ c * (z + w) * u := mul_le_mul_of_nonneg_right hrw hu.le
  rw [abs_le]
  constructor <;> linarith [h3.1, h3.2, h2.1, h2.2]

theorem toDoubleLoop_err {n : ℕ} {x res e : ℕ} (hx : x < 2 ^ (32 * n)) {z : ℕ} {c u : ℚ} (hu : 0 < u)
    (hr : ∀ n : ℕ, |(natToDouble n : ℚ) - n| ≤ n * u) (hc : 1 ≤ c)
    (hz : z < 2 ^ e) (h : |(res : ℚ) - z| ≤ (c - 1) * z) :
    |(toDoubleLoop x res e : ℚ) - (z + x * 2 ^ e : ℕ)| ≤ (c * (1 + u) ^ n - 1) * (z + x * 2 ^ e : ℕ) := by
  induction n generalizing x res e z c with
  | zero =>
    have : x = 0 := by simpa using hx
    subst this
    rw [toDoubleLoop, if_pos rfl]
    simpa using h
  | succ n ih =>
    rw [toDoubleLoop]
    have hone : (1 : ℚ) ≤ (1 + u) ^ (n + 1) := one_le_pow₀ (by linarith)
    split_ifs with h0
    · have e0 : z + x * 2 ^ e = z := by rw [h0, zero_mul, add_zero]
      rw [e0]
      have h1 : c * 1 ≤ c * (1 + u) ^ (n + 1) := mul_le_mul_of_nonneg_left hone (by linarith)
      have hz0 : (0 : ℚ) ≤ z := Nat.cast_nonneg z
      have h2 : (c - 1) * (z : ℚ) ≤ (c * (1 + u) ^ (n + 1) - 1) * z := mul_le_mul_of_nonneg_right (by linarith) hz0
      exact le_trans h h2
    · have hx' : x / 2 ^ 32 < 2 ^ (32 * n) := by
        rw [Nat.div_lt_iff_lt_mul (by positivity), ← pow_add]
        rwa [show 32 * n + 32 = 32 * (n + 1) by ring]
      have hdm := Nat.div_add_mod x (2 ^ 32)
      have hml : x % 2 ^ 32 < 2 ^ 32 := Nat.mod_lt _ (by positivity)
      have hz' : z + x % 2 ^ 32 * 2 ^ e < 2 ^ (e + 32) := by
        have : (x % 2 ^ 32 + 1) * 2 ^ e ≤ 2 ^ 32 * 2 ^ e := Nat.mul_le_mul_right _ hml
        rw [Nat.add_mul, Nat.one_mul] at this
        rw [pow_add, Nat.mul_comm (2 ^ e)]; omega
      have hstep : |(natToDouble (res + x % 2 ^ 32 * 2 ^ e) : ℚ) - (z + x % 2 ^ 32 * 2 ^ e : ℕ)| ≤
          (c * (1 + u) - 1) * (z + x % 2 ^ 32 * 2 ^ e : ℕ) := step_err hu (hr _) hc h
      have hc' : 1 ≤ c * (1 + u) := by
        have : c * 1 ≤ c * (1 + u) := mul_le_mul_of_nonneg_left (by linarith) (by linarith)
        linarith
      have key := ih hx' hc' hz' hstep
      have e1 : z + x % 2 ^ 32 * 2 ^ e + x / 2 ^ 32 * 2 ^ (e + 32) = z + x * 2 ^ e := by
        conv_rhs => rw [← hdm]
        rw [pow_add]; ring
      rw [e1] at key
      have e2 : c * (1 + u) * (1 + u) ^ n = c * (1 + u) ^ (n + 1) := by ring
      rw [e2] at key
      exact key

/-- **C59.** `to_double_approx` is exact for at most 52 bits; for every width its relative error is at most
`(1 + 2^-53)^⌈W/32⌉ - 1`, less than `2^-50` up to the 128 bits of the software backend. -/
theorem C59_to_double_approx {W x : ℕ} (hx : x < 2 ^ W) :
    (W ≤ 52 → Masked.toDoubleApprox W x = x) ∧
    |(Masked.toDoubleApprox W x : ℚ) - x| ≤ ((1 + 2 ^ (-53 : ℤ)) ^ ((W + 31) / 32) - 1) * x := by
  refine ⟨fun h => if_pos h, ?_⟩
  unfold Masked.toDoubleApprox
  have hu : (0 : ℚ) < 2 ^ (-53 : ℤ) := two_zpow_pos _
  split_ifs with h
  · rw [sub_self, abs_zero]
    have : (1 : ℚ) ≤ (1 + 2 ^ (-53 : ℤ)) ^ ((W + 31) / 32) := one_le_pow₀ (by linarith)
    exact mul_nonneg (by linarith) (by positivity)
  · have := toDoubleLoop_err (n := (W + 31) / 32) (x := x) (res := 0) (e := 0) (z := 0) (c := 1)
      (hx.trans_le (Nat.pow_le_pow_right (by norm_num) (by omega))) hu natToDouble_le le_rfl (by norm_num) (by norm_num)
    simpa using this

theorem toDoubleLoop_exact {m : ℕ} (hm : m < 2 ^ 53) (k : ℕ) : ∀ (x z e : ℕ), z < 2 ^ e → z + x * 2 ^ e = m * 2 ^ k →
    toDoubleLoop x z e = m * 2 ^ k := by
  intro x
  induction x using Nat.strong_induction_on with
  | _ x ih =>
  intro z e hz h
  rw [toDoubleLoop]
  split_ifs with h0
  · subst h0; omega
  · have hdm := Nat.div_add_mod x (2 ^ 32)
    have hml : x % 2 ^ 32 < 2 ^ 32 := Nat.mod_lt _ (by positivity)
    have hz' : z + x % 2 ^ 32 * 2 ^ e < 2 ^ (e + 32) := by
      have : (x % 2 ^ 32 + 1) * 2 ^ e ≤ 2 ^ 32 * 2 ^ e := Nat.mul_le_mul_right _ hml
      rw [Nat.add_mul, Nat.one_mul] at this
      rw [pow_add, Nat.mul_comm (2 ^ e)]; omega
    have e1 : z + x % 2 ^ 32 * 2 ^ e + x / 2 ^ 32 * 2 ^ (e + 32) = m * 2 ^ k := by
      rw [← h]; conv_rhs => rw [← hdm]
      rw [pow_add]; ring
    -- the partial sum is the number modulo a power of two, so it has no more significant bits
    obtain ⟨m', hm', hp⟩ : ∃ m', m' < 2 ^ 53 ∧ z + x % 2 ^ 32 * 2 ^ e = m' * 2 ^ k := by
      have hmod : z + x % 2 ^ 32 * 2 ^ e = m * 2 ^ k % 2 ^ (e + 32) := by
        rw [← e1, Nat.add_mul_mod_self_right, Nat.mod_eq_of_lt hz']
      rw [hmod]
      rcases le_total k (e + 32) with hk | hk
      · obtain ⟨t, ht⟩ := Nat.exists_eq_add_of_le hk
        refine ⟨m % 2 ^ t, (Nat.mod_le _ _).trans_lt hm, ?_⟩
        rw [ht, pow_add, Nat.mul_comm m, Nat.mul_mod_mul_left, Nat.mul_comm]
      · obtain ⟨t, ht⟩ := Nat.exists_eq_add_of_le hk
        refine ⟨0, by norm_num, ?_⟩
        rw [ht, pow_add, Nat.mul_left_comm, Nat.mul_mod_right, zero_mul]
    have e2 : natToDouble (z + x % 2 ^ 32 * 2 ^ e) = z + x % 2 ^ 32 * 2 ^ e := by rw [hp]; exact natToDouble_exact hm'
    rw [e2]
    exact ih _ (Nat.div_lt_self (by omega) (by norm_num)) _ _ hz' e1

/-- **C59.** `to_double_approx` is exact for every value that a `double` can hold, whatever the width. -/
theorem C59_to_double_exact {W m k : ℕ} (hm : m < 2 ^ 53) : Masked.toDoubleApprox W (m * 2 ^ k) = m * 2 ^ k := by
  unfold Masked.toDoubleApprox
  split_ifs
  · rfl
  · exact toDoubleLoop_exact hm k _ 0 0 (by norm_num) (by ring)

/-- It is not always the nearest `double`: the low 64 bits of the number below are first rounded up to a tie, which is then rounded up
again. -/
theorem C59_to_double_not_nearest : ∃ x < 2 ^ 128, Masked.toDoubleApprox 128 x ≠ natToDouble x := by
  refine ⟨2 ^ 116 + 2 ^ 64 + 2 ^ 63 - 1, by norm_num, ?_⟩
  have h1 : natToDouble (2 ^ 116 + 2 ^ 64 + 2 ^ 63 - 1) = 2 ^ 116 + 2 ^ 64 := by decide +kernel
  have h2 : toDoubleLoop (2 ^ 116 + 2 ^ 64 + 2 ^ 63 - 1) 0 0 = 2 ^ 116 + 2 ^ 65 := by
    rw [toDoubleLoop, if_neg (by norm_num), toDoubleLoop, if_neg (by norm_num), toDoubleLoop, if_neg (by norm_num), toDoubleLoop,
      if_neg (by norm_num), toDoubleLoop, if_pos (by norm_num)]
    decide +kernel
  have h3 : Masked.toDoubleApprox 128 (2 ^ 116 + 2 ^ 64 + 2 ^ 63 - 1) = 2 ^ 116 + 2 ^ 65 := h2
  rw [h1, h3]; norm_num

/-- The hypotheses are met by a wide number with a short significand and by a 40-bit number. -/
example : Masked.toDoubleApprox 128 (3 * 2 ^ 100) = 3 * 2 ^ 100 ∧ Masked.toDoubleApprox 40 (2 ^ 40 - 1) = 2 ^ 40 - 1 := by
  refine ⟨C59_to_double_exact (by decide), (C59_to_double_approx (W := 40) (by decide)).1 (by decide)⟩

end Thls
