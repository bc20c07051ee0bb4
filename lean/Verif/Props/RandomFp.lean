import Verif.Props.FwHelpers
import Verif.Proofs.Order

/-! # Property C60: the random test source -/

namespace Thls
open Spec

theorem inClass_mk4 {E F exp frac : ℕ} (hE : 1 ≤ E) (hF : 1 ≤ F) (he : exp < 2 ^ E) (hf : frac < 2 ^ F) :
    InClass 0 (Fp.mk4 E F 0b00 0 exp frac).datum ∧ InClass 1 (Fp.mk4 E F 0b00 1 exp frac).datum ∧
    InClass 2 (Fp.mk4 E F 0b01 0 exp frac).datum ∧ InClass 3 (Fp.mk4 E F 0b01 1 exp frac).datum ∧
    InClass 4 (Fp.mk4 E F 0b10 0 exp frac).datum ∧ InClass 5 (Fp.mk4 E F 0b10 1 exp frac).datum ∧
    ∀ s < 2, InClass 6 (Fp.mk4 E F 0b11 s exp frac).datum := by
  have hp : (0 : ℚ) < ((2 ^ F + frac : ℕ) : ℚ) * 2 ^ ((exp : ℤ) - bias E - F) :=
    mul_pos (by exact_mod_cast Nat.add_pos_left (by positivity) _) (two_zpow_pos _)
  refine ⟨?_, ?_, ?_, ?_, ?_, ?_, fun s hs => ?_⟩
  · rw [Fp.mk4_datum (by decide) (by decide) he hf hE hF]; rfl
  · rw [Fp.mk4_datum (by decide) (by decide) he hf hE hF]; rfl
  · rw [Fp.mk4_datum (by decide) (by decide) he hf hE hF]
    exact ⟨_, by rw [if_neg (by decide), one_mul]; exact hp, rfl⟩
  · rw [Fp.mk4_datum (by decide) (by decide) he hf hE hF]
    exact ⟨_, by rw [if_pos (by decide)]; linarith, rfl⟩
  · rw [Fp.mk4_datum (by decide) (by decide) he hf hE hF]; rfl
  · rw [Fp.mk4_datum (by decide) (by decide) he hf hE hF]; rfl
  · rw [Fp.mk4_datum (by decide) hs he hf hE hF]; rfl

/-- The class of a datum. -/
def classOf : Datum → ℕ
  | .zero s => if s then 1 else 0
  | .num q => if q < 0 then 3 else 2
  | .inf s => if s then 5 else 4
  | .nan => 6

theorem inClass_classOf (c : ℕ) (d : Datum) (hc : InClass c d) : c = classOf d := by
  rcases c with _ | _ | _ | _ | _ | _ | _ | c
  · simp only [InClass] at hc; rw [hc]; rfl
  · simp only [InClass] at hc; rw [hc]; rfl
  · obtain ⟨q, h0, rfl⟩ := hc; simp only [classOf, if_neg (not_lt.2 h0.le)]
  · obtain ⟨q, h0, rfl⟩ := hc; simp only [classOf, if_pos h0]
  · simp only [InClass] at hc; rw [hc]; rfl
  · simp only [InClass] at hc; rw [hc]; rfl
  · simp only [InClass] at hc; rw [hc]; rfl
  · exact absurd hc (by simp [InClass])

/-- The classes are disjoint. -/
theorem inClass_unique {a b : ℕ} {d : Datum} (ha : InClass a d) (hb : InClass b d) : a = b := by
  rw [inClass_classOf a d ha, inClass_classOf b d hb]

theorem pick_spec (u : ℚ) : ∀ (pdf : List ℕ) (acc : ℕ), u ≤ acc + pdf.sum →
    pdf ≠ [] → ∃ h : pickClass u (cdfOf acc pdf) < pdf.length, (u ≤ acc ∧ pickClass u (cdfOf acc pdf) = 0) ∨
      (acc < u ∧ 0 < pdf[pickClass u (cdfOf acc pdf)])
  | [], _, _, h => absurd rfl h
  | p :: ps, acc, hu, _ => by
    simp only [cdfOf, pickClass]
    by_cases h1 : u ≤ ((acc + p : ℕ) : ℚ)
    · simp only [h1, if_true, List.length_cons, List.getElem_cons_zero]
      refine ⟨by omega, ?_⟩
      rcases le_or_gt u acc with h2 | h2
      · exact Or.inl ⟨h2, trivial⟩
      · refine Or.inr ⟨h2, ?_⟩
        by_contra h3
        have : p = 0 := by omega
        subst this
        simp only [add_zero] at h1
        linarith
    · simp only [h1, if_false, List.length_cons]
      push Not at h1
      have hps : ps ≠ [] := by
        rintro rfl
        simp only [List.sum_cons, List.sum_nil, add_zero] at hu
        push_cast at hu h1
        linarith
      obtain ⟨h, h2⟩ := pick_spec u ps (acc + p) (by
        rw [List.sum_cons] at hu; push_cast at hu ⊢; linarith) hps
      refine ⟨by omega, Or.inr ?_⟩
      rcases h2 with ⟨h2, -⟩ | ⟨h2, h3⟩
      · linarith
      · push_cast at h2
        refine ⟨by have : (0 : ℚ) ≤ p := Nat.cast_nonneg p; linarith, ?_⟩
        simpa using h3

/-- The result of the generator: its class is the one selected by `u`, its exponent and fraction are the random words. -/
theorem randomFp_eq {E F : ℕ} (hE : 1 ≤ E) (hF : 1 ≤ F) (hE' : E ≤ 128) (hF' : F ≤ 128) {pdf es fs : List ℕ} {u : ℚ} {sw : ℕ}
    (hes : ∀ w ∈ es, w < 2 ^ 32) (hfs : ∀ w ∈ fs, w < 2 ^ 32) (hsw : sw < 2 ^ 32)
    (hel : es.length = (E + 31) / 32) (hfl : fs.length = (F + 31) / 32) (hsel : pickClass u (cdfOf 0 pdf) < 7) :
    ∃ x : Fp E F, randomFp E F pdf (es ++ fs) u sw = some x ∧ InClass (pickClass u (cdfOf 0 pdf)) x.datum ∧
      x.exp = bigEndian es / 2 ^ (32 * ((E + 31) / 32) - E) ∧ x.frac = bigEndian fs / 2 ^ (32 * ((F + 31) / 32) - F) ∧
      x.flags = pickClass u (cdfOf 0 pdf) / 2 ∧
      x.sign = (if pickClass u (cdfOf 0 pdf) = 6 then sw / 2 ^ 31 else pickClass u (cdfOf 0 pdf) % 2) := by
  have h1 := C59_random_word hE' es fs hes hel
  have h2 := C59_random_word hF' fs [] hfs hfl
  rw [List.append_nil] at h2
  obtain ⟨e, he⟩ : ∃ e, e = bigEndian es / 2 ^ (32 * ((E + 31) / 32) - E) := ⟨_, rfl⟩
  obtain ⟨f, hf⟩ : ∃ f, f = bigEndian fs / 2 ^ (32 * ((F + 31) / 32) - F) := ⟨_, rfl⟩
  have hel' : e < 2 ^ E := by
    rw [he, Nat.div_lt_iff_lt_mul (by positivity), ← pow_add]
    have := bigEndian_lt es hes
    rw [hel] at this
    rwa [show E + (32 * ((E + 31) / 32) - E) = 32 * ((E + 31) / 32) by omega]
  have hfl' : f < 2 ^ F := by
    rw [hf, Nat.div_lt_iff_lt_mul (by positivity), ← pow_add]
    have := bigEndian_lt fs hfs
    rw [hfl] at this
    rwa [show F + (32 * ((F + 31) / 32) - F) = 32 * ((F + 31) / 32) by omega]
  have hs : sw / 2 ^ 31 < 2 := by omega
  have h3 : Masked.randomFw 1 [sw] = some (sw / 2 ^ 31, []) := by
    have := C59_random_word (W := 1) (by norm_num) [sw] [] (by simpa using hsw) rfl
    rw [List.append_nil] at this
    rw [this]; simp [bigEndian]
  rw [← he] at h1 ⊢
  rw [← hf] at h2 ⊢
  obtain ⟨c0, c1, c2, c3, c4, c5, c6⟩ := inClass_mk4 hE hF hel' hfl'
  unfold randomFp
  rw [h1]
  simp only [bind, Option.bind]
  rw [h2]
  simp only
  obtain ⟨s, hsl⟩ : ∃ s, s = pickClass u (cdfOf 0 pdf) := ⟨_, rfl⟩
  rw [← hsl] at hsel ⊢
  have field : ∀ fl sg : ℕ, fl < 4 → sg < 2 → (Fp.mk4 E F fl sg e f).exp = e ∧ (Fp.mk4 E F fl sg e f).frac = f ∧
      (Fp.mk4 E F fl sg e f).flags = fl ∧ (Fp.mk4 E F fl sg e f).sign = sg := fun fl sg h1 h2 =>
    ⟨Fp.mk4_exp h1 h2 hel' hfl' hE, Fp.mk4_frac h1 h2 hel' hfl' hF, Fp.mk4_flags h1 h2 hel' hfl', Fp.mk4_sign h1 h2 hel' hfl'⟩
  interval_cases s
  · exact ⟨_, rfl, c0, field 0 0 (by decide) (by decide)⟩
  · exact ⟨_, rfl, c1, field 0 1 (by decide) (by decide)⟩
  · exact ⟨_, rfl, c2, field 1 0 (by decide) (by decide)⟩
  · exact ⟨_, rfl, c3, field 1 1 (by decide) (by decide)⟩
  · exact ⟨_, rfl, c4, field 2 0 (by decide) (by decide)⟩
  · exact ⟨_, rfl, c5, field 2 1 (by decide) (by decide)⟩
  · simp only [h3]
    exact ⟨_, rfl, c6 _ hs, field 3 _ (by decide) hs⟩

/-- The probabilities after disabling the classes `ds`, in order. -/
abbrev pdfAfter (ds : List ℕ) : List ℕ := ds.foldl disableClass defaultPdf

theorem pdfAfter_get (ds : List ℕ) : (pdfAfter ds).length = 7 ∧ ∀ c (h : c < (pdfAfter ds).length), c ∈ ds → (pdfAfter ds)[c] = 0 := by
  have key : ∀ (ds : List ℕ) (pdf : List ℕ), (ds.foldl disableClass pdf).length = pdf.length ∧
      ∀ c (h : c < (ds.foldl disableClass pdf).length) (h' : c < pdf.length), c ∈ ds ∨ pdf[c] = 0 → (ds.foldl disableClass pdf)[c] = 0 := by
    intro ds
    induction ds with
    | nil => exact fun pdf => ⟨rfl, fun c h h' hc => by simpa using hc⟩
    | cons d ds ih =>
      intro pdf
      obtain ⟨h1, h2⟩ := ih (disableClass pdf d)
      have hl : (disableClass pdf d).length = pdf.length := by simp [disableClass]
      refine ⟨by rw [List.foldl_cons, h1, hl], fun c h h' hc => ?_⟩
      refine h2 c h (by rw [hl]; exact h') ?_
      by_cases hcd : c = d
      · right; subst hcd; simp [disableClass]
      · rcases hc with hc | hc
        · rcases List.mem_cons.1 hc with hc | hc
          · exact absurd hc hcd
          · exact Or.inl hc
        · right
          simp only [disableClass, List.getElem_set]
          rw [if_neg (Ne.symm hcd)]; exact hc
  obtain ⟨h1, h2⟩ := key ds defaultPdf
  exact ⟨h1, fun c h hc => h2 c h (by rw [← h1]; exact h) (Or.inl hc)⟩

/-- **C60.** After any sequence of `disable_class` calls, and whatever the words drawn: a value is produced (no assertion fails), and
a disabled class other than `PosZero` is never produced. `u` is the uniform draw scaled by the total weight. -/
theorem C60_disabled_class_never_partial {E F : ℕ} (hE : 1 ≤ E) (hF : 1 ≤ F) (hE' : E ≤ 128) (hF' : F ≤ 128) (ds : List ℕ)
    {es fs : List ℕ} {u : ℚ} {sw : ℕ} (hes : ∀ w ∈ es, w < 2 ^ 32) (hfs : ∀ w ∈ fs, w < 2 ^ 32) (hsw : sw < 2 ^ 32)
    (hel : es.length = (E + 31) / 32) (hfl : fs.length = (F + 31) / 32) (hu0 : 0 ≤ u) (hu1 : u ≤ (pdfAfter ds).sum) :
    ∃ x : Fp E F, randomFp E F (pdfAfter ds) (es ++ fs) u sw = some x ∧
      ∀ c ∈ ds, (c ≠ 0 ∨ 0 < u) → ¬ InClass c x.datum := by
  obtain ⟨hl, hz⟩ := pdfAfter_get ds
  obtain ⟨hp, h2⟩ := pick_spec u (pdfAfter ds) 0 (by push_cast; linarith) (by intro h; rw [h] at hl; cases hl)
  rw [hl] at hp
  obtain ⟨x, hx, hc, -⟩ := randomFp_eq (E := E) (F := F) hE hF hE' hF' (pdf := pdfAfter ds) (u := u) hes hfs hsw hel hfl hp
  refine ⟨x, hx, fun c hcd hne hin => ?_⟩
  have e := inClass_unique hin hc
  rcases h2 with ⟨h2, h3⟩ | ⟨h2, h3⟩
  · rcases hne with h | h
    · exact h (e.trans h3)
    · push_cast at h2; linarith
  · have := hz _ (by rw [hl]; exact hp) (e ▸ hcd)
    rw [this] at h3
    exact lt_irrefl _ h3

example : 0 ≤ (1 : ℚ) ∧ (1 : ℚ) ≤ (pdfAfter [0, 5]).sum := by constructor <;> norm_num [pdfAfter, disableClass, defaultPdf]

/-- A disabled `PosZero` is produced when the uniform draw is exactly zero, which `std::uniform_real_distribution` may return: the
test is `u <= class_cdf[0]`, and the running sum there is zero. -/
theorem C60_disabled_pos_zero_produced {E F : ℕ} (hE : 1 ≤ E) (hF : 1 ≤ F) (hE' : E ≤ 128) (hF' : F ≤ 128) (ds : List ℕ) (h : 0 ∈ ds)
    {es fs : List ℕ} {sw : ℕ} (hes : ∀ w ∈ es, w < 2 ^ 32) (hfs : ∀ w ∈ fs, w < 2 ^ 32) (hsw : sw < 2 ^ 32)
    (hel : es.length = (E + 31) / 32) (hfl : fs.length = (F + 31) / 32) :
    0 ∈ ds ∧ ∃ x : Fp E F, randomFp E F (pdfAfter ds) (es ++ fs) 0 sw = some x ∧ InClass 0 x.datum := by
  refine ⟨h, ?_⟩
  have h0 : pickClass 0 (cdfOf 0 (pdfAfter ds)) = 0 := by
    obtain ⟨hl, -⟩ := pdfAfter_get ds
    cases hp : pdfAfter ds with
    | nil => rw [hp] at hl; cases hl
    | cons p ps => simp only [cdfOf, pickClass]; rw [if_pos (Nat.cast_nonneg _)]
  obtain ⟨x, hx, hc, -⟩ := randomFp_eq (E := E) (F := F) hE hF hE' hF' (pdf := pdfAfter ds) (u := 0) hes hfs hsw hel hfl (by rw [h0]; norm_num)
  exact ⟨x, hx, h0 ▸ hc⟩

/-- **C60.** The default source can produce every encoding of the format. -/
theorem C60_every_value_reachable {E F : ℕ} (hE : 1 ≤ E) (hF : 1 ≤ F) (hE' : E ≤ 128) (hF' : F ≤ 128) (x : Fp E F) :
    ∃ (ws : List ℕ) (u : ℚ) (sw : ℕ), 0 ≤ u ∧ u ≤ defaultPdf.sum ∧ (∀ w ∈ ws, w < 2 ^ 32) ∧ sw < 2 ^ 32 ∧ randomFp E F defaultPdf ws u sw = some x := by
  -- words whose top bits are a given value
  have words : ∀ W v : ℕ, W ≤ 128 → v < 2 ^ W → ∃ ws : List ℕ, (∀ w ∈ ws, w < 2 ^ 32) ∧ ws.length = (W + 31) / 32 ∧
      bigEndian ws / 2 ^ (32 * ((W + 31) / 32) - W) = v := by
    intro W v hW hv
    have hc := C59_random_uniform hW hv
    have hpos : 0 < 2 ^ (32 * ((W + 31) / 32) - W) := by positivity
    rw [← hc, Finset.card_pos] at hpos
    obtain ⟨ws, hws⟩ := hpos
    rw [Finset.mem_filter] at hws
    have hm : ∀ w ∈ List.ofFn (fun i => (ws i : ℕ)), w < 2 ^ 32 := by
      intro w hw
      obtain ⟨i, rfl⟩ := (List.mem_ofFn' _ _).1 hw
      exact (ws i).2
    refine ⟨List.ofFn fun i => (ws i : ℕ), hm, List.length_ofFn, ?_⟩
    have h1 := C59_random_word hW _ [] hm List.length_ofFn
    rw [List.append_nil] at h1
    rw [h1] at hws
    simpa using hws.2
  obtain ⟨es, he1, he2, he3⟩ := words E x.exp hE' (x.exp_lt hE)
  obtain ⟨fs, hf1, hf2, hf3⟩ := words F x.frac hF' (x.frac_lt hF)
  have hfl := x.flags_lt
  have hsg := x.sign_lt
  have hcdf : cdfOf 0 defaultPdf = [1, 2, 66, 130, 131, 132, 133] := by decide
  have hsum : defaultPdf.sum = 133 := by decide
  -- a draw for each class
  have draw : ∃ u : ℚ, 0 ≤ u ∧ u ≤ 133 ∧ pickClass u (cdfOf 0 defaultPdf) < 7 ∧ pickClass u (cdfOf 0 defaultPdf) / 2 = x.flags ∧
      (pickClass u (cdfOf 0 defaultPdf) ≠ 6 → pickClass u (cdfOf 0 defaultPdf) % 2 = x.sign) := by
    obtain ⟨fl, hfl'⟩ : ∃ fl, fl = x.flags := ⟨_, rfl⟩
    obtain ⟨sg, hsg'⟩ : ∃ sg, sg = x.sign := ⟨_, rfl⟩
    rw [← hfl'] at hfl ⊢
    rw [← hsg'] at hsg ⊢
    rw [hcdf]
    interval_cases fl <;> interval_cases sg
    · exact ⟨0, by norm_num, by norm_num, by norm_num [pickClass]⟩
    · exact ⟨2, by norm_num, by norm_num, by norm_num [pickClass]⟩
    · exact ⟨66, by norm_num, by norm_num, by norm_num [pickClass]⟩
    · exact ⟨130, by norm_num, by norm_num, by norm_num [pickClass]⟩
    · exact ⟨131, by norm_num, by norm_num, by norm_num [pickClass]⟩
    · exact ⟨132, by norm_num, by norm_num, by norm_num [pickClass]⟩
    · exact ⟨133, by norm_num, by norm_num, by norm_num [pickClass]⟩
    · exact ⟨133, by norm_num, by norm_num, by norm_num [pickClass]⟩
  obtain ⟨u, hu0, hu1, hsel, hd1, hd2⟩ := draw
  have hsw : x.sign * 2 ^ 31 < 2 ^ 32 := by omega
  obtain ⟨y, hy, -, hye, hyf, hyfl, hys⟩ :=
    randomFp_eq (E := E) (F := F) hE hF hE' hF' (pdf := defaultPdf) (u := u) he1 hf1 hsw he2 hf2 hsel
  refine ⟨es ++ fs, u, x.sign * 2 ^ 31, hu0, by rw [hsum]; exact_mod_cast hu1, ?_, hsw, ?_⟩
  · intro w hw
    rcases List.mem_append.1 hw with h | h
    · exact he1 w h
    · exact hf1 w h
  · rw [hy]
    congr 1
    refine Fp.ext_fields hE hF (hyfl.trans hd1) ?_ (hye.trans he3) (hyf.trans hf3)
    rw [hys]
    split_ifs with h6
    · rw [Nat.mul_div_cancel _ (by positivity)]
    · exact hd2 h6

/-- For example a negative single-precision number. -/
example : ∃ (ws : List ℕ) (u : ℚ) (sw : ℕ), 0 ≤ u ∧ u ≤ defaultPdf.sum ∧ (∀ w ∈ ws, w < 2 ^ 32) ∧ sw < 2 ^ 32 ∧
    randomFp 8 23 defaultPdf ws u sw = some (Fp.mk4 8 23 1 1 130 12345) :=
  C60_every_value_reachable (by decide) (by decide) (by decide) (by decide) _

end Thls
