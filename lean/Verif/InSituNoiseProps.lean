import Verif.InSituNoise
import Mathlib.Probability.Independence.InfinitePi
import Mathlib.Probability.Moments.Variance

/-!
# Mean and variance of noisy in-situ gradients (C180, C181)
-/

namespace Simphox

open Complex MeasureTheory ProbabilityTheory

/-! ### Specification -/

/-- The numbers drawn by `np.random.randn`: independent and standard normal. -/
structure StandardNormal {Ω : Type} [MeasurableSpace Ω] (Pr : Measure Ω) {K : ℕ} (d : NoiseIdx K → Ω → ℝ) : Prop where
  meas : ∀ i, Measurable (d i)
  law : ∀ i, Pr.map (d i) = gaussianReal 0 1
  indep : iIndepFun d Pr

/-- The mean factor by which amplitude errors of standard deviation `α` and phase errors of standard deviation `τ π` multiply a
transmitted amplitude. -/
noncomputable def noiseGain (α τ : ℝ) : ℝ := (∫ z, |1 + α * z| ∂(gaussianReal 0 1)) * Real.exp (-(Real.pi * τ) ^ 2 / 2)

theorem standardNormal_exists (K : ℕ) : ∃ (Ω : Type) (_ : MeasurableSpace Ω) (Pr : Measure Ω) (_ : IsProbabilityMeasure Pr)
    (d : NoiseIdx K → Ω → ℝ), StandardNormal Pr d := by
  refine ⟨NoiseIdx K → ℝ, inferInstance, Measure.infinitePi fun _ => gaussianReal 0 1, inferInstance, fun i ω => ω i, ?_, ?_, ?_⟩
  · intro i
    exact measurable_pi_apply i
  · intro i
    exact Measure.infinitePi_map_eval _ i
  · exact iIndepFun_infinitePi (X := fun _ x => x) fun _ => measurable_id

/-! ### The gain -/

theorem integrable_gauss_id : Integrable (fun z : ℝ => z) (gaussianReal 0 1) :=
  (memLp_id_gaussianReal (μ := 0) (v := 1) 1).integrable (by norm_num)

theorem integrable_gauss_abs (α : ℝ) : Integrable (fun z : ℝ => |1 + α * z|) (gaussianReal 0 1) :=
  ((integrable_const (1 : ℝ)).add (integrable_gauss_id.const_mul α)).abs

theorem one_le_gauss_abs (α : ℝ) : 1 ≤ ∫ z, |1 + α * z| ∂(gaussianReal 0 1) := by
  have h1 : ∫ z, (1 + α * z) ∂(gaussianReal 0 1) = 1 := by
    rw [integral_add (integrable_const _) (integrable_gauss_id.const_mul α), integral_const_mul, integral_id_gaussianReal]
    simp
  calc (1 : ℝ) = _ := h1.symm
    _ ≤ _ := integral_mono ((integrable_const (1 : ℝ)).add (integrable_gauss_id.const_mul α)) (integrable_gauss_abs α)
        fun z => le_abs_self _

theorem noiseGain_pos (α τ : ℝ) : 0 < noiseGain α τ :=
  mul_pos (lt_of_lt_of_le one_pos (one_le_gauss_abs α)) (Real.exp_pos _)

theorem noiseGain_zero : noiseGain 0 0 = 1 := by
  simp [noiseGain]

theorem gauss_cexp (t : ℝ) : ∫ z : ℝ, exp (-(I * ((t * z : ℝ) : ℂ))) ∂(gaussianReal 0 1) = Real.exp (-t ^ 2 / 2) := by
  have h := charFun_gaussianReal (μ := 0) (v := 1) (-t)
  rw [charFun_apply_real] at h
  have e : (fun z : ℝ => exp (-(I * ((t * z : ℝ) : ℂ)))) = fun z : ℝ => exp (((-t : ℝ) : ℂ) * z * I) := by
    funext z
    congr 1
    push_cast
    ring
  rw [e, h]
  push_cast
  congr 1
  ring

section
variable {Ω : Type} [MeasurableSpace Ω] {Pr : Measure Ω}

/-- The factor by which an amplitude is multiplied (conjugated). -/
noncomputable def passFactor (L : NoiseLevels) (ξ η : ℝ) : ℂ :=
  (|1 + L.amp * ξ| : ℝ) * exp (-(I * ((Real.pi * L.phase * η : ℝ) : ℂ)))

theorem conj_noisyPass (L : NoiseLevels) (ξ η : ℝ) (z : ℂ) :
    starRingEnd ℂ (noisyPass L ξ η z) = starRingEnd ℂ z * passFactor L ξ η := by
  unfold noisyPass passFactor
  have h : starRingEnd ℂ z = (‖z‖ : ℂ) * exp (-(I * (arg z : ℂ))) := by
    conv_lhs => rw [← norm_mul_exp_arg_mul_I z]
    rw [map_mul, conj_ofReal, ← exp_conj, map_mul, conj_ofReal, conj_I]
    congr 2
    ring
  rw [h, map_mul, conj_ofReal, ← exp_conj, map_mul, conj_ofReal, conj_I, abs_mul, abs_norm]
  have e : exp (-I * ((arg z + L.phase * η * Real.pi : ℝ) : ℂ)) =
      exp (-(I * (arg z : ℂ))) * exp (-(I * ((Real.pi * L.phase * η : ℝ) : ℂ))) := by
    rw [← exp_add]
    congr 1
    push_cast
    ring
  rw [e]
  push_cast
  ring

theorem measurable_passFactor (L : NoiseLevels) : Measurable fun p : ℝ × ℝ => passFactor L p.1 p.2 := by
  unfold passFactor
  fun_prop

variable {K : ℕ} {d : NoiseIdx K → Ω → ℝ}

theorem StandardNormal.integrable (h : StandardNormal Pr d) (i : NoiseIdx K) : Integrable (d i) Pr := by
  have h1 : Integrable (fun z : ℝ => z) (Pr.map (d i)) := by
    rw [h.law i]
    exact integrable_gauss_id
  exact h1.comp_measurable (h.meas i)

theorem StandardNormal.mean (h : StandardNormal Pr d) (i : NoiseIdx K) : ∫ ω, d i ω ∂Pr = 0 := by
  have h1 : ∫ z, z ∂(Pr.map (d i)) = ∫ ω, d i ω ∂Pr := integral_map (h.meas i).aemeasurable (by fun_prop)
  rw [← h1, h.law i, integral_id_gaussianReal]

theorem StandardNormal.pass [IsProbabilityMeasure Pr] (h : StandardNormal Pr d) (L : NoiseLevels) {i j : NoiseIdx K} (hij : i ≠ j) :
    Integrable (fun ω => passFactor L (d i ω) (d j ω)) Pr ∧
    ∫ ω, passFactor L (d i ω) (d j ω) ∂Pr = noiseGain L.amp L.phase := by
  have hi : IndepFun (fun ω => ((|1 + L.amp * d i ω| : ℝ) : ℂ)) (fun ω => exp (-(I * ((Real.pi * L.phase * d j ω : ℝ) : ℂ)))) Pr :=
    (h.indep.indepFun hij).comp (φ := fun x : ℝ => ((|1 + L.amp * x| : ℝ) : ℂ))
      (ψ := fun y : ℝ => exp (-(I * ((Real.pi * L.phase * y : ℝ) : ℂ)))) (by fun_prop) (by fun_prop)
  have m1 : Integrable (fun ω => ((|1 + L.amp * d i ω| : ℝ) : ℂ)) Pr := by
    have h1 : Integrable (fun z : ℝ => ((|1 + L.amp * z| : ℝ) : ℂ)) (Pr.map (d i)) := by
      rw [h.law i]
      exact (integrable_gauss_abs L.amp).ofReal
    exact h1.comp_measurable (h.meas i)
  have m2 : Integrable (fun ω => exp (-(I * ((Real.pi * L.phase * d j ω : ℝ) : ℂ)))) Pr := by
    refine Integrable.of_bound (by have := h.meas j; fun_prop) 1 (ae_of_all _ fun ω => ?_)
    rw [show -(I * ((Real.pi * L.phase * d j ω : ℝ) : ℂ)) = ((-(Real.pi * L.phase * d j ω) : ℝ) : ℂ) * I by push_cast; ring,
      norm_exp_ofReal_mul_I]
  refine ⟨hi.integrable_mul m1 m2, ?_⟩
  unfold passFactor
  rw [hi.integral_fun_mul_eq_mul_integral m1.aestronglyMeasurable m2.aestronglyMeasurable]
  have i1 : ∫ ω, ((|1 + L.amp * d i ω| : ℝ) : ℂ) ∂Pr = ((∫ z, |1 + L.amp * z| ∂(gaussianReal 0 1) : ℝ) : ℂ) := by
    rw [integral_complex_ofReal, ← h.law i, integral_map (h.meas i).aemeasurable (by fun_prop)]
  have i2 : ∫ ω, exp (-(I * ((Real.pi * L.phase * d j ω : ℝ) : ℂ))) ∂Pr = Real.exp (-(Real.pi * L.phase) ^ 2 / 2) := by
    rw [← gauss_cexp, ← h.law j, integral_map (h.meas j).aemeasurable (by fun_prop)]
  rw [i1, i2]
  unfold noiseGain
  push_cast
  ring

/-- A tap detector's noise has mean zero when the light on it does not depend on it. -/
theorem StandardNormal.shot (h : StandardNormal Pr d) (S : Finset (NoiseIdx K)) (i : NoiseIdx K) (hi : i ∉ S) (F : (S → ℝ) → ℝ)
    (hF : Measurable F) (hint : Integrable (fun ω => F fun j => d j ω) Pr) :
    Integrable (fun ω => F (fun j => d j ω) * d i ω) Pr ∧ ∫ ω, F (fun j => d j ω) * d i ω ∂Pr = 0 := by
  have hd : Disjoint S {i} := by simpa using hi
  have h0 := h.indep.indepFun_finset S {i} hd h.meas
  have hI : IndepFun (fun ω => F fun j => d j ω) (d i) Pr :=
    h0.comp (φ := F) (ψ := fun y : (({i} : Finset (NoiseIdx K)) → ℝ) => y ⟨i, by simp⟩) hF (measurable_pi_apply _)
  refine ⟨hI.integrable_mul hint (h.integrable i), ?_⟩
  rw [hI.integral_fun_mul_eq_mul_integral hint.aestronglyMeasurable (h.integrable i).aestronglyMeasurable, h.mean i, mul_zero]

/-- The field that noisy adjoint inputs make at a detector. -/
noncomputable def noisyField (L : NoiseLevels) (c : Fin K) (n : ℕ) (coef : ℕ → ℂ) (z : NoiseIdx K → ℝ) : ℂ :=
  ∑ s ∈ Finset.range n, coef s * passFactor L (z (.amp c s)) (z (.phase c s))

theorem StandardNormal.field [IsProbabilityMeasure Pr] (h : StandardNormal Pr d) (L : NoiseLevels) (c : Fin K) (n : ℕ) (coef : ℕ → ℂ) :
    Integrable (fun ω => noisyField L c n coef fun i => d i ω) Pr ∧
    ∫ ω, noisyField L c n coef (fun i => d i ω) ∂Pr = noiseGain L.amp L.phase * ∑ s ∈ Finset.range n, coef s := by
  have hi : ∀ s ∈ Finset.range n, Integrable (fun ω => coef s * passFactor L (d (.amp c s) ω) (d (.phase c s) ω)) Pr :=
    fun s _ => (h.pass L (by simp)).1.const_mul _
  refine ⟨integrable_finsetSum _ hi, ?_⟩
  unfold noisyField
  rw [integral_finsetSum _ hi, Finset.mul_sum]
  refine Finset.sum_congr rfl fun s _ => ?_
  rw [integral_const_mul, (h.pass L (by simp)).2, mul_comm]

theorem measurable_noisyField {α : Type} [MeasurableSpace α] (L : NoiseLevels) (c : Fin K) (n : ℕ) (coef : ℕ → ℂ)
    (z : α → NoiseIdx K → ℝ) (hz : ∀ j, Measurable fun y => z y j) : Measurable fun y => noisyField L c n coef (z y) := by
  unfold noisyField
  refine Finset.measurable_sum _ fun s _ => Measurable.const_mul ?_ _
  exact (measurable_passFactor L).comp ((hz _).prodMk (hz _))

theorem StandardNormal.fieldShot [IsProbabilityMeasure Pr] (h : StandardNormal Pr d) (L : NoiseLevels) (c : Fin K) (n : ℕ) (coef : ℕ → ℂ)
    (a k : ℂ) (i : NoiseIdx K) (h1 : ∀ s, i ≠ .amp c s) (h2 : ∀ s, i ≠ .phase c s) :
    Integrable (fun ω => ‖a + k * noisyField L c n coef fun i => d i ω‖ * d i ω) Pr ∧
    ∫ ω, ‖a + k * noisyField L c n coef fun i => d i ω‖ * d i ω ∂Pr = 0 := by
  let T : Finset (NoiseIdx K) := (Finset.range n).image (fun s => NoiseIdx.amp c s) ∪ (Finset.range n).image (fun s => NoiseIdx.phase c s)
  have hi : i ∉ T := by
    intro hi
    rcases Finset.mem_union.1 hi with hi | hi
    · obtain ⟨s, _, e⟩ := Finset.mem_image.1 hi
      exact h1 s e.symm
    · obtain ⟨s, _, e⟩ := Finset.mem_image.1 hi
      exact h2 s e.symm
  let ext : (T → ℝ) → NoiseIdx K → ℝ := fun y j => if hj : j ∈ T then y ⟨j, hj⟩ else 0
  have hext : ∀ j, Measurable fun y : T → ℝ => ext y j := by
    intro j
    by_cases hj : j ∈ T
    · have : (fun y : T → ℝ => ext y j) = fun y => y ⟨j, hj⟩ := by
        funext y
        exact dif_pos hj
      rw [this]
      exact measurable_pi_apply _
    · have : (fun y : T → ℝ => ext y j) = fun _ => 0 := by
        funext y
        exact dif_neg hj
      rw [this]
      exact measurable_const
  have hFm : Measurable fun y : T → ℝ => ‖a + k * noisyField L c n coef (ext y)‖ :=
    Measurable.norm (Measurable.const_add (Measurable.const_mul (measurable_noisyField L c n coef ext hext) _) _)
  have hbe : ∀ ω, noisyField L c n coef (ext fun j => d j ω) = noisyField L c n coef fun i => d i ω := by
    intro ω
    unfold noisyField
    refine Finset.sum_congr rfl fun s hs' => ?_
    have g1 : NoiseIdx.amp c s ∈ T := Finset.mem_union_left _ (Finset.mem_image_of_mem _ hs')
    have g2 : NoiseIdx.phase c s ∈ T := Finset.mem_union_right _ (Finset.mem_image_of_mem _ hs')
    have e1 : ext (fun j => d j ω) (.amp c s) = d (.amp c s) ω := dif_pos g1
    have e2 : ext (fun j => d j ω) (.phase c s) = d (.phase c s) ω := dif_pos g2
    rw [e1, e2]
  have hint : Integrable (fun ω => ‖a + k * noisyField L c n coef (ext fun j => d j ω)‖) Pr := by
    simp only [hbe]
    exact ((integrable_const a).add ((h.field L c n coef).1.const_mul k)).norm
  have := h.shot T i hi (fun y => ‖a + k * noisyField L c n coef (ext y)‖) hFm hint
  simp only [hbe] at this
  exact this

theorem mean_combine {f u v : Ω → ℝ} {m : ℝ} (k : ℝ) (hf : Integrable f Pr ∧ ∫ ω, f ω ∂Pr = m) (hu : Integrable u Pr ∧ ∫ ω, u ω ∂Pr = 0)
    (hv : Integrable v Pr ∧ ∫ ω, v ω ∂Pr = 0) :
    Integrable (fun ω => f ω + (k * u ω - k * v ω)) Pr ∧ ∫ ω, f ω + (k * u ω - k * v ω) ∂Pr = m := by
  have h1 : Integrable (fun ω => k * u ω) Pr := hu.1.const_mul k
  have h2 : Integrable (fun ω => k * v ω) Pr := hv.1.const_mul k
  have h3 : Integrable (fun ω => k * u ω - k * v ω) Pr := h1.sub h2
  refine ⟨hf.1.add h3, ?_⟩
  rw [integral_add hf.1 h3, integral_sub h1 h2, integral_const_mul, integral_const_mul, hu.2, hv.2, hf.2]
  ring

theorem polar_analog (a b : ℂ) : (‖a + -I * b‖ ^ 2 - ‖a + I * b‖ ^ 2) / 2 = 2 * (I * a * starRingEnd ℂ b).re := by
  simp only [← normSq_eq_norm_sq, normSq_apply]
  simp
  ring

theorem StandardNormal.linear [IsProbabilityMeasure Pr] (h : StandardNormal Pr d) (L : NoiseLevels) (c : Fin K) (n : ℕ) (coef : ℕ → ℂ)
    (a : ℂ) : Integrable (fun ω => 2 * (I * a * starRingEnd ℂ (noisyField L c n coef fun i => d i ω)).re) Pr ∧
    ∫ ω, 2 * (I * a * starRingEnd ℂ (noisyField L c n coef fun i => d i ω)).re ∂Pr =
      noiseGain L.amp L.phase * (2 * (I * a * starRingEnd ℂ (∑ s ∈ Finset.range n, coef s)).re) := by
  let T : ℂ →L[ℝ] ℝ := LinearMap.toContinuousLinearMap
    { toFun := fun b => 2 * (I * a * starRingEnd ℂ b).re
      map_add' := fun x y => by rw [map_add, mul_add, add_re, mul_add]
      map_smul' := fun k x => by
        rw [real_smul, map_mul, conj_ofReal, RingHom.id_apply, smul_eq_mul,
          show I * a * ((k : ℂ) * starRingEnd ℂ x) = (k : ℂ) * (I * a * starRingEnd ℂ x) by ring, re_ofReal_mul]
        ring }
  have hT : ∀ b, T b = 2 * (I * a * starRingEnd ℂ b).re := fun _ => rfl
  obtain ⟨h1, h2⟩ := h.field L c n coef
  refine ⟨T.integrable_comp h1, ?_⟩
  have := T.integral_comp_comm h1
  simp only [hT] at this
  rw [this, h2, map_mul, conj_ofReal, show I * a * ((noiseGain L.amp L.phase : ℂ) * starRingEnd ℂ (∑ s ∈ Finset.range n, coef s)) =
    (noiseGain L.amp L.phase : ℂ) * (I * a * starRingEnd ℂ (∑ s ∈ Finset.range n, coef s)) by ring, re_ofReal_mul]
  ring

/-! ### Fields at the detectors -/

section
variable {n : ℕ} {M : Mesh} (hM : M.WellFormed n) (hs : M.style = .top) (he : M.Errorless) (hl : M.Lossless)
  {E : InSituEngine} {P : Params} (hE : E.Runs n M P)
include hM hs he hl hE

theorem fprop_combine (x y : ℕ → ℂ) (k : ℂ) (t r : ℕ) (ht : t ≤ (meshSteps P M.nodes).length) :
    (E.fprop fun r => x r + k * y r).getD t 0 r =
      runSteps ((meshSteps P M.nodes).take t) x r + k * runSteps ((meshSteps P M.nodes).take t) y r := by
  have hsy : ∀ s ∈ (meshSteps P M.nodes).take t, SymStep n s := fun s h => meshSteps_sym hM P s (List.mem_of_mem_take h)
  rw [fprop_get hM hs he hl hE _ t ht, runSteps_add hsy, runSteps_smul hsy]

omit hs he hl hE in
theorem runSteps_take_sum (P : Params) (t r : ℕ) (hr : r < n) : ∃ coef : ℕ → ℂ, ∀ y : ℕ → ℂ,
    runSteps ((meshSteps P M.nodes).take t) y r = ∑ s ∈ Finset.range n, coef s * y s := by
  have hsy : ∀ s ∈ (meshSteps P M.nodes).take t, SymStep n s := fun s h => meshSteps_sym hM P s (List.mem_of_mem_take h)
  refine ⟨runSteps ((meshSteps P M.nodes).take t).reverse fun s => if s = r then 1 else 0, fun y => ?_⟩
  rw [← runSteps_symm hsy]
  simp [Finset.sum_ite_eq', hr]

/-- The analog measurement in terms of the noisy field. -/
theorem gradPowerNoisy_analog (L : NoiseLevels) {K : ℕ} (z : NoiseIdx K → ℝ) (c : Fin K) (x g : ℕ → ℂ)
    (t r : ℕ) (ht : t ≤ (meshSteps P M.nodes).length) (coef : ℕ → ℂ) (hcoef : ∀ y : ℕ → ℂ,
      runSteps ((meshSteps P M.nodes).take t) y r = ∑ s ∈ Finset.range n, coef s * y s) :
    gradPowerNoisy E true L z c x g t r =
      2 * (I * runSteps ((meshSteps P M.nodes).take t) x r *
        starRingEnd ℂ (noisyField L c n (fun s => coef s * starRingEnd ℂ (E.bapply g s)) z)).re +
      (L.tap / 2 * (‖runSteps ((meshSteps P M.nodes).take t) x r +
          -I * noisyField L c n (fun s => coef s * starRingEnd ℂ (E.bapply g s)) z‖ * z (.sum c t r)) -
        L.tap / 2 * (‖runSteps ((meshSteps P M.nodes).take t) x r +
          I * noisyField L c n (fun s => coef s * starRingEnd ℂ (E.bapply g s)) z‖ * z (.diff c t r))) := by
  have hb : runSteps ((meshSteps P M.nodes).take t) (fun s => starRingEnd ℂ (adjointInputsNoisy E true L z c g s)) r =
      noisyField L c n (fun s => coef s * starRingEnd ℂ (E.bapply g s)) z := by
    rw [hcoef]
    refine Finset.sum_congr rfl fun s _ => ?_
    simp only [adjointInputsNoisy, if_true, conj_noisyPass]
    ring
  rw [← polar_analog]
  simp only [gradPowerNoisy, if_true, tapMeasure]
  have hsub : (fun r => x r - I * starRingEnd ℂ (adjointInputsNoisy E true L z c g r)) =
      fun r => x r + (-I) * starRingEnd ℂ (adjointInputsNoisy E true L z c g r) := by
    funext r; ring
  rw [hsub, fprop_combine hM hs he hl hE _ _ _ t r ht, fprop_combine hM hs he hl hE _ _ _ t r ht, hb]
  ring

theorem gradPower_analog (x g : ℕ → ℂ) (t r : ℕ) (ht : t ≤ (meshSteps P M.nodes).length) (coef : ℕ → ℂ) (hcoef : ∀ y : ℕ → ℂ,
      runSteps ((meshSteps P M.nodes).take t) y r = ∑ s ∈ Finset.range n, coef s * y s) :
    gradPower E true x g t r = 2 * (I * runSteps ((meshSteps P M.nodes).take t) x r *
        starRingEnd ℂ (∑ s ∈ Finset.range n, coef s * starRingEnd ℂ (E.bapply g s))).re := by
  have hb0 : runSteps ((meshSteps P M.nodes).take t) (fun s => starRingEnd ℂ (adjointInputs E true g s)) r =
      ∑ s ∈ Finset.range n, coef s * starRingEnd ℂ (E.bapply g s) := by
    rw [hcoef]
    refine Finset.sum_congr rfl fun s _ => ?_
    simp only [adjointInputs, if_true, ioPass]
    rw [mul_comm I, norm_mul_exp_arg_mul_I]
  rw [← polar_analog]
  simp only [gradPower, if_true]
  have hsub : (fun r => x r - I * starRingEnd ℂ (adjointInputs E true g r)) =
      fun r => x r + (-I) * starRingEnd ℂ (adjointInputs E true g r) := by
    funext r; ring
  rw [hsub, fprop_combine hM hs he hl hE _ _ _ t r ht, fprop_combine hM hs he hl hE _ _ _ t r ht, hb0]

/-- The mean of a measured power. -/
theorem gradPower_mean [IsProbabilityMeasure Pr] (h : StandardNormal Pr d) (analog : Bool) (L : NoiseLevels) (c : Fin K) (x g : ℕ → ℂ)
    (t r : ℕ) (ht : t ≤ (meshSteps P M.nodes).length) (hr : r < n) :
    Integrable (fun ω => gradPowerNoisy E analog L (fun i => d i ω) c x g t r) Pr ∧
    ∫ ω, gradPowerNoisy E analog L (fun i => d i ω) c x g t r ∂Pr =
      (if analog then noiseGain L.amp L.phase else 1) * gradPower E analog x g t r := by
  cases analog with
  | false =>
    have e : (fun ω => gradPowerNoisy E false L (fun i => d i ω) c x g t r) = fun ω => gradPower E false x g t r +
        (L.tap * ‖(E.fprop fun r => x r - I * starRingEnd ℂ (adjointInputs E false g r)).getD t 0 r‖ * d (.sum c t r) ω +
          (-(L.tap * ‖(E.fprop x).getD t 0 r‖) * d (.fwd c t r) ω +
            -(L.tap * ‖(E.bprop g).reverse.getD t 0 r‖) * d (.adj c t r) ω)) := by
      funext ω
      simp only [gradPowerNoisy, gradPower, adjointInputsNoisy, adjointInputs, tapMeasure, Bool.false_eq_true, if_false]
      ring
    rw [e]
    generalize L.tap * ‖(E.fprop fun r => x r - I * starRingEnd ℂ (adjointInputs E false g r)).getD t 0 r‖ = k1
    generalize -(L.tap * ‖(E.fprop x).getD t 0 r‖) = k2
    generalize -(L.tap * ‖(E.bprop g).reverse.getD t 0 r‖) = k3
    have i1 : Integrable (fun ω => k1 * d (.sum c t r) ω) Pr := (h.integrable (.sum c t r)).const_mul _
    have i2 : Integrable (fun ω => k2 * d (.fwd c t r) ω) Pr := (h.integrable (.fwd c t r)).const_mul _
    have i3 : Integrable (fun ω => k3 * d (.adj c t r) ω) Pr := (h.integrable (.adj c t r)).const_mul _
    have i23 : Integrable (fun ω => k2 * d (.fwd c t r) ω + k3 * d (.adj c t r) ω) Pr := i2.add i3
    have i123 : Integrable (fun ω => k1 * d (.sum c t r) ω + (k2 * d (.fwd c t r) ω + k3 * d (.adj c t r) ω)) Pr := i1.add i23
    refine ⟨(integrable_const _).add i123, ?_⟩
    rw [integral_add (integrable_const _) i123, integral_add i1 i23, integral_add i2 i3,
      integral_const_mul, integral_const_mul, integral_const_mul, h.mean, h.mean, h.mean]
    simp
  | true =>
    obtain ⟨coef, hcoef⟩ := runSteps_take_sum hM P t r hr
    simp only [gradPowerNoisy_analog hM hs he hl hE L _ c x g t r ht coef hcoef]
    rw [gradPower_analog hM hs he hl hE x g t r ht coef hcoef]
    simp only [if_true]
    exact mean_combine (L.tap / 2)
      (h.linear L c n (fun s => coef s * starRingEnd ℂ (E.bapply g s)) (runSteps ((meshSteps P M.nodes).take t) x r))
      (h.fieldShot L c n (fun s => coef s * starRingEnd ℂ (E.bapply g s)) (runSteps ((meshSteps P M.nodes).take t) x r)
        (-I) (.sum c t r) (by simp) (by simp))
      (h.fieldShot L c n (fun s => coef s * starRingEnd ℂ (E.bapply g s)) (runSteps ((meshSteps P M.nodes).take t) x r)
        I (.diff c t r) (by simp) (by simp))

/-- The mean of a returned gradient entry. -/
theorem pow_mean [IsProbabilityMeasure Pr] (h : StandardNormal Pr d) (analog : Bool) (L : NoiseLevels) (X G : Fin K → ℕ → ℂ)
    {inorm gnorm : ℝ} (hi : inorm ≠ 0) (hg : gnorm ≠ 0) (t r : ℕ) (ht : t ≤ (meshSteps P M.nodes).length) (hr : r < n) :
    Integrable (fun ω => ∑ c, gradPowerNoisy E analog L (fun i => d i ω) c (fun r => X c r / inorm) (fun r => G c r / gnorm) t r / 2 *
      (inorm * gnorm)) Pr ∧
    ∫ ω, ∑ c, gradPowerNoisy E analog L (fun i => d i ω) c (fun r => X c r / inorm) (fun r => G c r / gnorm) t r / 2 *
      (inorm * gnorm) ∂Pr = (if analog then noiseGain L.amp L.phase else 1) *
        ∑ c, (I * runSteps ((meshSteps P M.nodes).take t) (X c) r * runSteps ((meshSteps P M.nodes).drop t).reverse (G c) r).re := by
  have h1 : ∀ c, Integrable (fun ω => gradPowerNoisy E analog L (fun i => d i ω) c (fun r => X c r / inorm) (fun r => G c r / gnorm) t r /
      2 * (inorm * gnorm)) Pr := fun c =>
    ((gradPower_mean hM hs he hl hE h analog L c (fun r => X c r / inorm) (fun r => G c r / gnorm) t r ht hr).1.div_const _).mul_const _
  refine ⟨integrable_finsetSum _ fun c _ => h1 c, ?_⟩
  rw [integral_finsetSum _ fun c _ => h1 c, Finset.mul_sum]
  refine Finset.sum_congr rfl fun c _ => ?_
  rw [integral_mul_const, integral_div,
    (gradPower_mean hM hs he hl hE h analog L c (fun r => X c r / inorm) (fun r => G c r / gnorm) t r ht hr).2,
    ← pow_eq hM hs he hl hE analog hi hg (X c) (G c) t r ht]
  ring

end

end

/-! ### C180 -/

/-- C180: with independent standard normal draws and any noise levels, the mean of every gradient entry that the backward pass
returns is the true partial derivative of `Re Σ g · (mesh @ x)` times one positive factor, the same for all entries (the shot noise
of the detectors drops out; the digital mode has factor one). TOP meshes without errors and loss, listed in column order (C20);
inputs and cotangent not zero. -/
theorem C180_mean_gradient (n : ℕ) (M : Mesh) (hM : M.WellFormed n) (hs : M.style = .top)
    (he : ∀ p ∈ M.errors, p = (0, 0)) (hl : M.Lossless) (hid : (M.nodes.map Node.id).Nodup)
    (P : Params) (E : InSituEngine) (hE : E.Runs n M P) (analog : Bool) (L : NoiseLevels) {K : ℕ}
    (X G : Fin K → ℕ → ℂ) (hX : ∃ c, ∃ r < n, X c r ≠ 0) (hG : ∃ c, ∃ r < n, G c r ≠ 0)
    {Ω : Type} [MeasurableSpace Ω] (Pr : Measure Ω) [IsProbabilityMeasure Pr] (d : NoiseIdx K → Ω → ℝ) (hd : StandardNormal Pr d) :
    ∃ R : Ω → InSituResult K, (∀ ω, inSituBwdNoisy E analog L (fun i => d i ω) n M.nodes X G = some (R ω)) ∧
      (∀ ω, (R ω).thetas.length = M.nodes.length ∧ (R ω).phis.length = M.nodes.length) ∧
      (∀ j a, (executionOrder M.nodes)[j]? = some a →
        (∃ D, HasDerivAt (fun x => vjpObjective n M { P with thetas := Function.update P.thetas a.id x } X G) D (P.thetas a.id) ∧
          Integrable (fun ω => (R ω).thetas.getD j 0) Pr ∧
          ∫ ω, (R ω).thetas.getD j 0 ∂Pr = (if analog then noiseGain L.amp L.phase else 1) * D) ∧
        ∃ D, HasDerivAt (fun x => vjpObjective n M { P with phis := Function.update P.phis a.id x } X G) D (P.phis a.id) ∧
          Integrable (fun ω => (R ω).phis.getD j 0) Pr ∧
          ∫ ω, (R ω).phis.getD j 0 ∂Pr = (if analog then noiseGain L.amp L.phase else 1) * D) ∧
      ∀ r < n, ∃ D, HasDerivAt (fun x => vjpObjective n M { P with gammas := Function.update P.gammas r x } X G) D (P.gammas r) ∧
          Integrable (fun ω => (R ω).gammas r) Pr ∧
          ∫ ω, (R ω).gammas r ∂Pr = (if analog then noiseGain L.amp L.phase else 1) * D := by
  have hi := maxRowNorm_ne_zero hX
  have hg := maxRowNorm_ne_zero hG
  have hT : (E.fprop 0).length - 1 = (meshSteps P M.nodes).length := by
    rw [fprop_eq hM hs he hl hE]; simp [snapsOf_length]
  refine ⟨fun ω =>
    let pow : ℕ → ℕ → ℝ := fun t r => ∑ c, gradPowerNoisy E analog L (fun i => d i ω) c (fun r => X c r / maxRowNorm n X)
      (fun r => G c r / maxRowNorm n G) t r / 2 * (maxRowNorm n X * maxRowNorm n G)
    let loc := phaseShiftLocalize M.nodes (E.fprop 0).length pow
    ⟨loc.1, loc.2.1, loc.2.2, fun c => adjointInputsNoisy E analog L (fun i => d i ω) c fun r => G c r / maxRowNorm n G⟩, ?_, ?_, ?_, ?_⟩
  · intro ω
    unfold inSituBwdNoisy
    simp only [hi, hg, or_self, if_false]
  · intro ω
    simp only [C20_localize_order_partial, List.length_map, (executionOrder_perm M.nodes).length_eq, and_self]
  · intro j a hja
    have ha : a ∈ M.nodes := mem_executionOrder.1 (List.mem_of_getElem? hja)
    have hc := column_lt_numColumns ha
    have ht : 4 * a.column + 2 ≤ (meshSteps P M.nodes).length := by rw [meshSteps_length]; omega
    have ht' : 4 * a.column ≤ (meshSteps P M.nodes).length := by omega
    have hr := (hM.rails a ha).1
    simp only [C20_localize_order_partial, List.getD_eq_getElem?_getD, List.getElem?_map, hja, Option.map_some, Option.getD_some]
    exact ⟨⟨_, theta_derivative hM hs he hl hid P X G ha, pow_mean hM hs he hl hE hd analog L X G hi hg _ _ ht hr⟩,
      ⟨_, phi_derivative hM hs he hl hid P X G ha, pow_mean hM hs he hl hE hd analog L X G hi hg _ _ ht' hr⟩⟩
  · intro r hr
    refine ⟨_, gamma_derivative hM hs he hl P X G hr, ?_⟩
    have := pow_mean hM hs he hl hE hd analog L X G hi hg _ r le_rfl hr
    simp only [List.take_length, List.drop_length, List.reverse_nil, runSteps_nil] at this
    simp only [phaseShiftLocalize, hT]
    exact this

/-- C180, the factor: positive for all noise levels, one without errors of the adjoint inputs, and at least what the phase errors
leave of the amplitude. -/
theorem C180_gain (α τ : ℝ) : 0 < noiseGain α τ ∧ noiseGain 0 0 = 1 ∧ Real.exp (-(Real.pi * τ) ^ 2 / 2) ≤ noiseGain α τ ∧
    noiseGain 0 τ = Real.exp (-(Real.pi * τ) ^ 2 / 2) := by
  refine ⟨noiseGain_pos α τ, noiseGain_zero, ?_, ?_⟩
  · exact le_mul_of_one_le_left (Real.exp_pos _).le (one_le_gauss_abs α)
  · simp [noiseGain]

/-- C180: the outputs of the forward pass have the noiseless outputs as mean, up to the same factor. -/
theorem C180_mean_output (L : NoiseLevels) {K : ℕ} (fwd : Fin K → ℕ → ℂ) (c : Fin K) (r : ℕ)
    {Ω : Type} [MeasurableSpace Ω] (Pr : Measure Ω) [IsProbabilityMeasure Pr] (d : NoiseIdx K → Ω → ℝ) (hd : StandardNormal Pr d) :
    Integrable (fun ω => inSituForward L (fun i => d i ω) fwd c r) Pr ∧
    ∫ ω, inSituForward L (fun i => d i ω) fwd c r ∂Pr = noiseGain L.amp L.phase * fwd c r := by
  have h1 : ∀ ω, inSituForward L (fun i => d i ω) fwd c r =
      starRingEnd ℂ (starRingEnd ℂ (fwd c r) * passFactor L (d (.outAmp c r) ω) (d (.outPhase c r) ω)) := by
    intro ω
    rw [← conj_noisyPass, Complex.conj_conj]
    rfl
  obtain ⟨h2, h3⟩ := hd.pass L (i := .outAmp c r) (j := .outPhase c r) (by simp)
  have h4 := h2.const_mul (starRingEnd ℂ (fwd c r))
  simp only [h1]
  refine ⟨(Complex.conjCLE : ℂ ≃L[ℝ] ℂ).toContinuousLinearMap.integrable_comp h4, ?_⟩
  rw [integral_conj, integral_const_mul, h3, map_mul, Complex.conj_conj, conj_ofReal, mul_comm]

/-- At zero noise levels the model with noise is that of C19. -/
theorem C180_noiseless (E : InSituEngine) (analog : Bool) {K : ℕ} (z : NoiseIdx K → ℝ) (n : ℕ) (nodes : List Node)
    (X G : Fin K → ℕ → ℂ) : inSituBwdNoisy E analog ⟨0, 0, 0⟩ z n nodes X G = inSituBwd E analog n nodes X G := by
  have h1 : ∀ (c : Fin K) (g : ℕ → ℂ), adjointInputsNoisy E analog ⟨0, 0, 0⟩ z c g = adjointInputs E analog g := by
    intro c g
    unfold adjointInputsNoisy adjointInputs noisyPass ioPass
    simp
  unfold inSituBwdNoisy inSituBwd inSituBwdWith
  simp only [gradPowerNoisy, gradPower, h1, tapMeasure, zero_mul, add_zero]

end Simphox
