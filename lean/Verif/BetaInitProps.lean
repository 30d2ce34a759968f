import Verif.BetaInit

/-! # Random initialisation and beta_phase (C119, C120) -/

namespace Simphox

open MeasureTheory ProbabilityTheory Set

theorem IsBetaincinv.strictMonoOn {a b : ℝ} {inv : ℝ → ℝ} (h : IsBetaincinv a b inv) :
    StrictMonoOn inv (Icc 0 1) := by
  intro u hu v hv huv
  by_contra hcon
  have hle : inv v ≤ inv u := not_lt.1 hcon
  have h1 := measure_mono (μ := betaMeasure a b) (Iic_subset_Iic.2 hle)
  rw [(h u hu).2, (h v hv).2, ENNReal.ofReal_le_ofReal_iff hu.1] at h1
  linarith

theorem IsBetaincinv.aemeasurable {a b : ℝ} {inv : ℝ → ℝ} (h : IsBetaincinv a b inv) :
    AEMeasurable inv uniform01 :=
  aemeasurable_restrict_of_monotoneOn measurableSet_Ico
    (h.strictMonoOn.monotoneOn.mono Ico_subset_Icc_self)

/-- C119, split ratios: for uniform draws `betaincinv(beta, alpha, u)` follows the beta
distribution, for all positive parameters. -/
theorem C119_rand_s_law (a b : ℝ) (ha : 0 < a) (hb : 0 < b) (inv : ℝ → ℝ) (h : IsBetaincinv a b inv) :
    Measure.map inv uniform01 = betaMeasure a b := by
  have := isProbabilityMeasureBeta ha hb
  have hu : IsProbabilityMeasure uniform01 := ⟨by simp [uniform01]⟩
  have := Measure.isProbabilityMeasure_map h.aemeasurable
  refine Measure.ext_of_Iic _ _ fun x => ?_
  rw [Measure.map_apply_of_aemeasurable h.aemeasurable measurableSet_Iic]
  have hF1 : betaMeasure a b (Iic x) ≤ 1 := prob_le_one
  set c : ℝ := (betaMeasure a b (Iic x)).toReal with hc
  have hcF : betaMeasure a b (Iic x) = ENNReal.ofReal c := by
    rw [hc, ENNReal.ofReal_toReal (measure_ne_top _ _)]
  have hc0 : 0 ≤ c := ENNReal.toReal_nonneg
  have hc1 : c ≤ 1 := by
    rw [hcF] at hF1
    exact ENNReal.ofReal_le_one.1 hF1
  rw [hcF, uniform01, Measure.restrict_apply' measurableSet_Ico]
  apply le_antisymm
  · have : inv ⁻¹' Iic x ∩ Ico 0 1 ⊆ Icc 0 c := by
      rintro u ⟨hu1, hu2⟩
      refine ⟨hu2.1, ?_⟩
      have hle : inv u ≤ x := hu1
      have h1 := measure_mono (μ := betaMeasure a b) (Iic_subset_Iic.2 hle)
      rw [(h u (Ico_subset_Icc_self hu2)).2, hcF, ENNReal.ofReal_le_ofReal_iff hc0] at h1
      exact h1
    refine (measure_mono this).trans ?_
    simp
  · have : Ico 0 c ⊆ inv ⁻¹' Iic x ∩ Ico 0 1 := by
      intro u hu
      have hu2 : u ∈ Ico (0 : ℝ) 1 := ⟨hu.1, hu.2.trans_le hc1⟩
      refine ⟨?_, hu2⟩
      by_contra hcon
      have hle : x ≤ inv u := (not_le.1 hcon).le
      have h1 := measure_mono (μ := betaMeasure a b) (Iic_subset_Iic.2 hle)
      rw [(h u (Ico_subset_Icc_self hu2)).2, hcF, ENNReal.ofReal_le_ofReal_iff hu.1] at h1
      linarith [hu.2]
    refine le_trans ?_ (measure_mono this)
    simp

/-- The phase of an ideal node as a function of its split ratio. -/
noncomputable def idealPhase (s : ℝ) : ℝ := Real.arccos (min (max (2 * s - 1) (-1)) 1)

theorem measurable_idealPhase : Measurable idealPhase := by
  unfold idealPhase
  exact Real.continuous_arccos.measurable.comp (by fun_prop)

theorem randTheta_ideal (inv : ℝ → ℝ) (u : ℝ) : randTheta inv 0 0 u = idealPhase (inv u) := by
  have h2 : Real.sqrt 2 * Real.sqrt 2 = 2 := Real.mul_self_sqrt (by norm_num)
  have hcs : (mziTerms 0 0).cs = 1 / 2 := by
    simp [mziTerms]; linarith
  have hsc : (mziTerms 0 0).sc = 1 / 2 := by
    simp [mziTerms]; linarith
  unfold randTheta transmissivityToPhase idealPhase
  rw [hcs, hsc]
  congr 3
  ring

theorem idealPhase_cos (t : ℝ) (ht : t ∈ Icc 0 Real.pi) : idealPhase (Real.cos (t / 2) ^ 2) = t := by
  unfold idealPhase
  have h1 : 2 * Real.cos (t / 2) ^ 2 - 1 = Real.cos t := by
    rw [← Real.cos_two_mul]; ring_nf
  rw [h1, max_eq_left (Real.neg_one_le_cos t), min_eq_left (Real.cos_le_one t), Real.arccos_cos ht.1 ht.2]

theorem halfCos_pos {t : ℝ} (ht : t ∈ Ioo 0 Real.pi) : 0 < Real.cos (t / 2) ∧ 0 < Real.sin (t / 2) ∧
    Real.cos (t / 2) < 1 := by
  have h1 : 0 < Real.cos (t / 2) :=
    Real.cos_pos_of_mem_Ioo ⟨by linarith [ht.1, Real.pi_pos], by linarith [ht.2]⟩
  have h2 : 0 < Real.sin (t / 2) :=
    Real.sin_pos_of_pos_of_lt_pi (by linarith [ht.1]) (by linarith [ht.2, Real.pi_pos])
  exact ⟨h1, h2, by nlinarith [Real.sin_sq_add_cos_sq (t / 2)]⟩

theorem cosSq_surj {s : ℝ} (hs : s ∈ Ioo (0 : ℝ) 1) :
    idealPhase s ∈ Ioo 0 Real.pi ∧ Real.cos (idealPhase s / 2) ^ 2 = s := by
  have hval : idealPhase s = Real.arccos (2 * s - 1) := by
    unfold idealPhase
    rw [max_eq_left (by linarith [hs.1]), min_eq_left (by linarith [hs.2])]
  have hc : Real.cos (Real.arccos (2 * s - 1)) = 2 * s - 1 :=
    Real.cos_arccos (by linarith [hs.1]) (by linarith [hs.2])
  rw [hval]
  refine ⟨⟨Real.arccos_pos.2 (by linarith [hs.2]), ?_⟩, ?_⟩
  · rcases (Real.arccos_le_pi (2 * s - 1)).lt_or_eq with h | h
    · exact h
    · rw [h, Real.cos_pi] at hc; linarith [hs.1]
  · rw [Real.cos_sq]
    rw [mul_div_cancel₀ _ (two_ne_zero' ℝ), hc]; ring

/-- The density of the phase: `π * beta_phase` on `(0, π)`. -/
noncomputable def phaseDensity (a b : ℝ) (t : ℝ) : ENNReal := ENNReal.ofReal (Real.pi * betaPhase t a b)

theorem map_idealPhase (a b : ℝ) :
    Measure.map idealPhase (betaMeasure a b) = (volume.restrict (Ioo 0 Real.pi)).withDensity (phaseDensity a b) := by
  ext A hA
  rw [Measure.map_apply measurable_idealPhase hA, betaMeasure, withDensity_apply _ (measurable_idealPhase hA),
    withDensity_apply _ hA, Measure.restrict_restrict hA]
  set g : ℝ → ℝ := fun t => Real.cos (t / 2) ^ 2 with hg
  have himg : idealPhase ⁻¹' A ∩ Ioo 0 1 = g '' (A ∩ Ioo 0 Real.pi) := by
    ext s
    constructor
    · rintro ⟨h1, h2⟩
      exact ⟨idealPhase s, ⟨h1, (cosSq_surj h2).1⟩, (cosSq_surj h2).2⟩
    · rintro ⟨t, ⟨h1, h2⟩, rfl⟩
      obtain ⟨p1, p2, p3⟩ := halfCos_pos h2
      refine ⟨?_, ?_, ?_⟩
      · show idealPhase (g t) ∈ A
        rw [hg]; simp only
        rw [idealPhase_cos t (Ioo_subset_Icc_self h2)]; exact h1
      · show 0 < Real.cos (t / 2) ^ 2
        positivity
      · show Real.cos (t / 2) ^ 2 < 1
        nlinarith
  have hres : ∫⁻ s in idealPhase ⁻¹' A, betaPDF a b s = ∫⁻ s in idealPhase ⁻¹' A ∩ Ioo 0 1, betaPDF a b s := by
    rw [← lintegral_inter_add_sdiff _ (idealPhase ⁻¹' A) measurableSet_Ioo]
    rw [setLIntegral_eq_zero (s := idealPhase ⁻¹' A \ Ioo 0 1)
      ((measurable_idealPhase hA).diff measurableSet_Ioo), add_zero]
    intro s hs
    have := hs.2
    simp only [mem_Ioo, not_and, not_lt] at this
    rcases le_or_gt s 0 with h | h
    · exact betaPDF_eq_zero_of_nonpos h
    · exact betaPDF_eq_zero_of_one_le (this h)
  have hderiv : ∀ t ∈ A ∩ Ioo 0 Real.pi,
      HasDerivWithinAt g (-(Real.sin (t / 2) * Real.cos (t / 2))) (A ∩ Ioo 0 Real.pi) t := by
    intro t _
    have h0 : HasDerivAt (fun t : ℝ => t / 2) (1 / 2) t := (hasDerivAt_id t).div_const 2
    have h1 := ((Real.hasDerivAt_cos (t / 2)).comp t h0).pow 2
    refine (h1.congr_deriv ?_).hasDerivWithinAt
    simp; ring
  have hinj : InjOn g (A ∩ Ioo 0 Real.pi) := by
    intro t ht t' ht' he
    have h1 := idealPhase_cos t (Ioo_subset_Icc_self ht.2)
    have h2 := idealPhase_cos t' (Ioo_subset_Icc_self ht'.2)
    rw [← h1, ← h2]
    exact congrArg idealPhase he
  rw [hres, himg, lintegral_image_eq_lintegral_abs_deriv_mul (hA.inter measurableSet_Ioo) hderiv hinj]
  refine setLIntegral_congr_fun (hA.inter measurableSet_Ioo) ?_
  intro t ht
  obtain ⟨p1, p2, p3⟩ := halfCos_pos ht.2
  have hg01 : 0 < g t ∧ g t < 1 := ⟨by show 0 < Real.cos (t / 2) ^ 2; positivity,
    by show Real.cos (t / 2) ^ 2 < 1; nlinarith⟩
  simp only [abs_neg]
  rw [betaPDF_of_pos_lt_one hg01.1 hg01.2, abs_of_pos (by positivity), ← ENNReal.ofReal_mul (by positivity)]
  unfold phaseDensity betaPhase betaPdf
  congr 1
  have := Real.pi_ne_zero
  rw [hg]
  field_simp

/-- C119, phases: on ideal couplers the random coupling phase lies in `[0, π]`, sends exactly the
drawn split ratio to the other rail, and its law has density `π * beta_phase(·, beta, alpha)`. -/
theorem C119_rand_theta_law (a b : ℝ) (ha : 0 < a) (hb : 0 < b) (inv : ℝ → ℝ) (h : IsBetaincinv a b inv) :
    Measure.map (randTheta inv 0 0) uniform01 =
      (volume.restrict (Ioo 0 Real.pi)).withDensity (fun t => ENNReal.ofReal (Real.pi * betaPhase t a b)) ∧
    ∀ u ∈ Ico (0 : ℝ) 1, ∀ phi, randTheta inv 0 0 u ∈ Icc 0 Real.pi ∧
      crossPower 0 0 (randTheta inv 0 0 u) phi = inv u := by
  constructor
  · have h1 : randTheta inv 0 0 = idealPhase ∘ inv := by
      funext u; exact randTheta_ideal inv u
    rw [h1, ← AEMeasurable.map_map_of_aemeasurable measurable_idealPhase.aemeasurable h.aemeasurable,
      C119_rand_s_law a b ha hb inv h, map_idealPhase]
    rfl
  · intro u hu phi
    have hs := (h u (Ico_subset_Icc_self hu)).1
    refine ⟨⟨Real.arccos_nonneg _, Real.arccos_le_pi _⟩, ?_⟩
    have h2 : Real.sqrt 2 * Real.sqrt 2 = 2 := Real.mul_self_sqrt (by norm_num)
    have hcs : (mziTerms 0 0).cs = 1 / 2 := by
      simp [mziTerms]; linarith
    have hsc : (mziTerms 0 0).sc = 1 / 2 := by
      simp [mziTerms]; linarith
    rw [crossPower_eq, hcs, hsc, randTheta_ideal, idealPhase,
      max_eq_left (by linarith [hs.1]), min_eq_left (by linarith [hs.2]),
      Real.cos_arccos (by linarith [hs.1]) (by linarith [hs.2])]
    ring

/-- C119, imperfect couplers: the phase lies in `[0, π]` and no other phase brings the cross power
closer to the drawn split ratio. -/
theorem C119_errors (a b : ℝ) (inv : ℝ → ℝ) (_h : IsBetaincinv a b inv) (el er : ℝ)
    (he : (mziTerms el er).cs * (mziTerms el er).sc ≠ 0) (u phi : ℝ) :
    randTheta inv el er u ∈ Icc 0 Real.pi ∧
      ∀ theta', |crossPower el er (randTheta inv el er u) phi - inv u| ≤ |crossPower el er theta' phi - inv u| := by
  have := C25_transmissivity_to_phase el er (inv u) phi he
  exact ⟨⟨this.1, this.2.1⟩, this.2.2⟩

/-- `beta_pdf` is the density of the beta distribution. -/
theorem C120_beta_pdf (a b x : ℝ) (hx : x ∈ Ioo (0 : ℝ) 1) : betaPdf x a b = betaPDFReal a b x := by
  unfold betaPdf betaPDFReal
  rw [if_pos ⟨hx.1, hx.2⟩]
  ring

/-- C120: `beta_phase` is not a probability density: over `[0, π]` it integrates to `1 / π`, for all
positive parameters. -/
theorem C120_beta_phase_counterexample (a b : ℝ) (ha : 0 < a) (hb : 0 < b) :
    ∫⁻ t in Ioo 0 Real.pi, ENNReal.ofReal (betaPhase t a b) = ENNReal.ofReal (1 / Real.pi) ∧
    ENNReal.ofReal (1 / Real.pi) ≠ 1 := by
  have := isProbabilityMeasureBeta ha hb
  have h1 : Measure.map idealPhase (betaMeasure a b) univ = 1 := by
    rw [Measure.map_apply measurable_idealPhase MeasurableSet.univ]; simp
  rw [map_idealPhase, withDensity_apply _ MeasurableSet.univ, Measure.restrict_univ] at h1
  have h2 : ∀ t, phaseDensity a b t = ENNReal.ofReal Real.pi * ENNReal.ofReal (betaPhase t a b) := by
    intro t
    unfold phaseDensity
    rw [ENNReal.ofReal_mul Real.pi_pos.le]
  simp only [h2] at h1
  rw [lintegral_const_mul' _ _ ENNReal.ofReal_ne_top] at h1
  constructor
  · rw [one_div, ENNReal.ofReal_inv_of_pos Real.pi_pos]
    exact (ENNReal.eq_inv_of_mul_eq_one_left (by rw [mul_comm]; exact h1))
  · rw [Ne, ENNReal.ofReal_eq_one]
    intro h
    have hp := Real.two_le_pi
    rw [div_eq_iff Real.pi_ne_zero] at h
    linarith

/-- C120, what does hold: `π * beta_phase` is nonnegative and integrates to one. -/
theorem C120_beta_phase_partial (a b : ℝ) (ha : 0 < a) (hb : 0 < b) :
    (∀ t ∈ Ioo 0 Real.pi, 0 < betaPhase t a b) ∧
    ∫⁻ t in Ioo 0 Real.pi, ENNReal.ofReal (Real.pi * betaPhase t a b) = 1 := by
  have := isProbabilityMeasureBeta ha hb
  constructor
  · intro t ht
    obtain ⟨p1, p2, p3⟩ := halfCos_pos ht
    have hb' := beta_pos ha hb
    have : 0 < 1 - Real.cos (t / 2) ^ 2 := by nlinarith
    unfold betaPhase betaPdf
    have := Real.pi_pos
    positivity
  · have h1 : Measure.map idealPhase (betaMeasure a b) univ = 1 := by
      rw [Measure.map_apply measurable_idealPhase MeasurableSet.univ]; simp
    rw [map_idealPhase, withDensity_apply _ MeasurableSet.univ, Measure.restrict_univ] at h1
    exact h1

/-- The hypothesis of C119 is satisfiable: `betaincinv` exists for all positive parameters. -/
theorem exists_betaincinv (a b : ℝ) (ha : 0 < a) (hb : 0 < b) : ∃ inv, IsBetaincinv a b inv := by
  have hP := isProbabilityMeasureBeta ha hb
  set F := cdf (betaMeasure a b) with hF
  have hmeas : ∀ x, betaMeasure a b (Iic x) = ENNReal.ofReal (F x) := fun x => (ofReal_cdf _ x).symm
  have hac : betaMeasure a b ≪ volume := withDensity_absolutelyContinuous _ _
  have hcont : Continuous F := by
    rw [continuous_iff_continuousAt]
    intro x
    rw [F.mono.continuousAt_iff_leftLim_eq_rightLim, F.rightLim_eq]
    have h0 : F.measure {x} = 0 := by
      rw [hF, measure_cdf]
      exact hac (by simp)
    rw [F.measure_singleton, ENNReal.ofReal_eq_zero] at h0
    exact le_antisymm (F.mono.leftLim_le le_rfl) (by linarith)
  have h0 : F 0 = 0 := by
    have h : betaMeasure a b (Iic 0) = 0 := by
      rw [betaMeasure, withDensity_apply _ measurableSet_Iic]
      exact setLIntegral_eq_zero measurableSet_Iic fun x hx => betaPDF_eq_zero_of_nonpos hx
    rw [hmeas, ENNReal.ofReal_eq_zero] at h
    exact le_antisymm h (cdf_nonneg _ _)
  have h1 : F 1 = 1 := by
    have h : betaMeasure a b (Iic 1)ᶜ = 0 := by
      rw [compl_Iic, betaMeasure, withDensity_apply _ measurableSet_Ioi]
      exact setLIntegral_eq_zero measurableSet_Ioi fun x hx => betaPDF_eq_zero_of_one_le (le_of_lt hx)
    have h2 := (prob_compl_eq_zero_iff (μ := betaMeasure a b) measurableSet_Iic).1 h
    rw [hmeas, ENNReal.ofReal_eq_one] at h2
    exact h2
  have hsurj := intermediate_value_Icc (zero_le_one' ℝ) hcont.continuousOn
  rw [h0, h1] at hsurj
  choose! inv hinv using hsurj
  refine ⟨inv, fun u hu => ⟨(hinv hu).1, ?_⟩⟩
  rw [hmeas, (hinv hu).2]

end Simphox
