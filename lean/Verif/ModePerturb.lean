import Mathlib.Analysis.Calculus.Deriv.Add
import Mathlib.Analysis.Calculus.Deriv.Mul
import Mathlib.Analysis.Calculus.Deriv.Pow
import Mathlib.Analysis.SpecialFunctions.Sqrt
import Mathlib.Topology.Compactness.Compact
import Mathlib.Topology.Order.Compact
import Verif.ModeFundamental

/-!
# Perturbation theory of the fundamental slab mode (C188)

How the propagation constant `solve` finds reacts to a change of the permittivity or of the wave number.
-/

namespace Simphox

open Matrix Complex Filter Topology

variable {n : ℕ} [NeZero n]

/-! ### Specification -/

/-- The share of the mode's intensity in each cell: `|u i|² / sum |u|²`. -/
noncomputable def intensity (u : SField (shapeOf n 1 1)) (i : GIdx (shapeOf n 1 1)) : ℝ := ‖u i‖ ^ 2 / ∑ j, ‖u j‖ ^ 2

/-! ### Lemmas -/

omit [NeZero n] in
theorem intensity_mul (u : SField (shapeOf n 1 1)) (hS : 0 < ∑ j, ‖u j‖ ^ 2) (w : GIdx (shapeOf n 1 1) → ℝ) :
    (∑ i, w i * intensity u i) * ∑ j, ‖u j‖ ^ 2 = ∑ i, w i * ‖u i‖ ^ 2 := by
  rw [Finset.sum_mul]
  refine Finset.sum_congr rfl fun i _ => ?_
  unfold intensity
  rw [mul_assoc, div_mul_cancel₀ _ hS.ne']

omit [NeZero n] in
theorem intensity_sum (u : SField (shapeOf n 1 1)) (hS : 0 < ∑ j, ‖u j‖ ^ 2) : ∑ i, intensity u i = 1 := by
  unfold intensity
  rw [← Finset.sum_div, div_self hS.ne']

omit [NeZero n] in
theorem intensity_nonneg (u : SField (shapeOf n 1 1)) (i : GIdx (shapeOf n 1 1)) : 0 ≤ intensity u i := by
  unfold intensity; positivity

omit [NeZero n] in
theorem power_pos (u : SField (shapeOf n 1 1)) (hu : u ≠ 0) : 0 < ∑ j, ‖u j‖ ^ 2 := by
  have hp := ip_self_pos u hu
  rwa [ip_self, ofReal_re] at hp

/-! ### C188 -/

/-- C188, two-sided bounds: between any two lossless slabs (and wave numbers) on the same uniform grid the squared propagation constant of the
fundamental mode changes at least by the change of `k0² eps` averaged over the intensity of the old mode, and at most by the average over the
intensity of the new mode. -/
theorem C188_bounds (spacing : Fin 3 → ℝ) (k0 k0' : ℝ) (eps eps' : SField (shapeOf n 1 1)) (heps : ∀ i, (eps i).im = 0)
    (heps' : ∀ i, (eps' i).im = 0) (lam lam' : ℝ) (u u' : SField (shapeOf n 1 1))
    (h : IsFundamental (uniformOps (shapeOf n 1 1) (fun _ => 1) spacing) k0 eps lam u)
    (h' : IsFundamental (uniformOps (shapeOf n 1 1) (fun _ => 1) spacing) k0' eps' lam' u') :
    ∑ i, (k0' ^ 2 * (eps' i).re - k0 ^ 2 * (eps i).re) * intensity u i ≤ lam' - lam ∧
      lam' - lam ≤ ∑ i, (k0' ^ 2 * (eps' i).re - k0 ^ 2 * (eps i).re) * intensity u' i := by
  have hd : ∀ v : SField (shapeOf n 1 1), ray spacing k0' eps' v - ray spacing k0 eps v
      = ∑ i, (k0' ^ 2 * (eps' i).re - k0 ^ 2 * (eps i).re) * ‖v i‖ ^ 2 := by
    intro v
    unfold ray
    simp only [sub_mul, Finset.sum_sub_distrib, Finset.mul_sum, mul_assoc]
    ring
  have hp := power_pos u h.1
  have hp' := power_pos u' h'.1
  constructor
  · have hr := eigen_ray spacing k0 eps heps lam u h.2.1
    have hr' := (fundamental_ray spacing k0' eps' heps' lam' h'.2.2 u).1
    refine le_of_mul_le_mul_right ?_ hp
    rw [intensity_mul u hp, ← hd]
    linarith
  · have hr := eigen_ray spacing k0' eps' heps' lam' u' h'.2.1
    have hr' := (fundamental_ray spacing k0 eps heps lam h.2.2 u').1
    refine le_of_mul_le_mul_right ?_ hp'
    rw [intensity_mul u' hp', ← hd]
    linarith

/-- C188, stability: permittivities that differ by at most `δ` give squared effective indices that differ by at most `δ`. -/
theorem C188_stable (spacing : Fin 3 → ℝ) (k0 : ℝ) (hk : k0 ≠ 0) (eps eps' : SField (shapeOf n 1 1)) (heps : ∀ i, (eps i).im = 0)
    (heps' : ∀ i, (eps' i).im = 0) (δ : ℝ) (hδ : ∀ i, |(eps' i).re - (eps i).re| ≤ δ) (lam lam' : ℝ) (u u' : SField (shapeOf n 1 1))
    (h : IsFundamental (uniformOps (shapeOf n 1 1) (fun _ => 1) spacing) k0 eps lam u)
    (h' : IsFundamental (uniformOps (shapeOf n 1 1) (fun _ => 1) spacing) k0 eps' lam' u') :
    |lam' / k0 ^ 2 - lam / k0 ^ 2| ≤ δ := by
  obtain ⟨h1, h2⟩ := C188_bounds spacing k0 k0 eps eps' heps heps' lam lam' u u' h h'
  have hk2 : 0 < k0 ^ 2 := by positivity
  have hb : ∀ v : SField (shapeOf n 1 1), v ≠ 0 → |∑ i, (k0 ^ 2 * (eps' i).re - k0 ^ 2 * (eps i).re) * intensity v i| ≤ k0 ^ 2 * δ := by
    intro v hv
    refine (Finset.abs_sum_le_sum_abs _ _).trans ?_
    calc _ ≤ ∑ i, k0 ^ 2 * δ * intensity v i := by
          refine Finset.sum_le_sum fun i _ => ?_
          rw [abs_mul, abs_of_nonneg (intensity_nonneg v i), ← mul_sub, abs_mul, abs_of_pos hk2]
          exact mul_le_mul_of_nonneg_right (mul_le_mul_of_nonneg_left (hδ i) hk2.le) (intensity_nonneg v i)
      _ = k0 ^ 2 * δ := by rw [← Finset.mul_sum, intensity_sum v (power_pos v hv), mul_one]
  have b1 := abs_le.1 (hb u h.1)
  have b2 := abs_le.1 (hb u' h'.1)
  rw [← sub_div, abs_div, abs_of_pos hk2, div_le_iff₀ hk2, abs_le]
  constructor <;> linarith

/-- C188, index offset: adding `c` to the permittivity everywhere keeps every mode and adds exactly `c` to its squared effective index. -/
theorem C188_offset (spacing : Fin 3 → ℝ) (k0 : ℝ) (hk : k0 ≠ 0) (eps u : SField (shapeOf n 1 1)) (c lam : ℝ) :
    (wgm1d (uniformOps (shapeOf n 1 1) (fun _ => 1) spacing) k0 eps u = fun i => (lam : ℂ) * u i) ↔
      (wgm1d (uniformOps (shapeOf n 1 1) (fun _ => 1) spacing) k0 (fun i => eps i + c) u
        = fun i => ((k0 ^ 2 * (lam / k0 ^ 2 + c) : ℝ) : ℂ) * u i) := by
  have hk2 : k0 ^ 2 ≠ 0 := by positivity
  have e : k0 ^ 2 * (lam / k0 ^ 2 + c) = lam + k0 ^ 2 * c := by field_simp
  rw [e]
  constructor <;> intro h <;> funext i <;> have h1 := congrFun h i <;> rw [wgm_line] at h1 ⊢ <;> push_cast at h1 ⊢ <;>
    linear_combination h1

/-- The normalised intensity profile of the fundamental mode as a nonnegative eigenvector. -/
theorem normalised (spacing : Fin 3 → ℝ) (k0 : ℝ) (eps : SField (shapeOf n 1 1)) (heps : ∀ i, (eps i).im = 0) (lam : ℝ)
    (u : SField (shapeOf n 1 1)) (h : IsFundamental (uniformOps (shapeOf n 1 1) (fun _ => 1) spacing) k0 eps lam u) :
    ray spacing k0 eps (fun i => ((Real.sqrt (intensity u i) : ℝ) : ℂ)) = lam := by
  have hp := power_pos u h.1
  have hN := norm_fundamental spacing k0 eps heps lam u h
  have hsq : ∀ i, Real.sqrt (intensity u i) = ‖u i‖ / Real.sqrt (∑ j, ‖u j‖ ^ 2) := fun i => by
    unfold intensity
    rw [Real.sqrt_div (by positivity), Real.sqrt_sq (norm_nonneg _)]
  have hE : wgm1d (uniformOps (shapeOf n 1 1) (fun _ => 1) spacing) k0 eps (fun i => ((Real.sqrt (intensity u i) : ℝ) : ℂ))
      = fun i => (lam : ℂ) * ((Real.sqrt (intensity u i) : ℝ) : ℂ) := by
    funext i
    have h1 := congrFun hN i
    rw [wgm_line] at h1 ⊢
    simp only [hsq]
    push_cast
    linear_combination h1 / ((Real.sqrt (∑ j, ‖u j‖ ^ 2) : ℝ) : ℂ)
  rw [eigen_ray spacing k0 eps heps lam _ hE]
  have : ∑ i, ‖((Real.sqrt (intensity u i) : ℝ) : ℂ)‖ ^ 2 = 1 := by
    rw [← intensity_sum u hp]
    refine Finset.sum_congr rfl fun i _ => ?_
    rw [norm_real, Real.norm_eq_abs, sq_abs, Real.sq_sqrt (intensity_nonneg u i)]
  rw [this, mul_one]

theorem ray_continuous (spacing : Fin 3 → ℝ) (k0 : ℝ) (eps : SField (shapeOf n 1 1)) :
    Continuous fun v : GIdx (shapeOf n 1 1) → ℝ => ray spacing k0 eps (fun i => (v i : ℂ)) := by
  unfold ray
  simp only [bwd_line]
  fun_prop

/-- The profile of the fundamental mode depends continuously on the structure. -/
theorem profile_tendsto (spacing : Fin 3 → ℝ) (hdx : spacing 0 ≠ 0) (k0 : ℝ → ℝ) (eps : ℝ → SField (shapeOf n 1 1))
    (heps : ∀ t i, (eps t i).im = 0) (lam : ℝ → ℝ) (u : ℝ → SField (shapeOf n 1 1))
    (h : ∀ t, IsFundamental (uniformOps (shapeOf n 1 1) (fun _ => 1) spacing) (k0 t) (eps t) (lam t) (u t)) (t0 : ℝ)
    (hW : ∀ i, ContinuousAt (fun t => k0 t ^ 2 * (eps t i).re) t0) :
    Tendsto (fun t => fun i => Real.sqrt (intensity (u t) i)) (𝓝 t0) (𝓝 fun i => Real.sqrt (intensity (u t0) i)) := by
  set K : Set (GIdx (shapeOf n 1 1) → ℝ) := Set.Icc 0 1 ∩ {v | ∑ i, v i ^ 2 = 1} with hK
  have hKc : IsCompact K := by
    refine isCompact_Icc.inter_right ?_
    exact isClosed_eq (by fun_prop) continuous_const
  have hmem : ∀ t, (fun i => Real.sqrt (intensity (u t) i)) ∈ K := by
    intro t
    have hp := power_pos (u t) (h t).1
    have hs := intensity_sum (u t) hp
    refine ⟨⟨fun i => Real.sqrt_nonneg _, fun i => ?_⟩, ?_⟩
    · change Real.sqrt _ ≤ 1
      rw [Real.sqrt_le_one]
      rw [← hs]
      exact Finset.single_le_sum (f := fun i => intensity (u t) i) (fun i _ => intensity_nonneg _ i) (Finset.mem_univ i)
    · change ∑ i, Real.sqrt _ ^ 2 = 1
      rw [← hs]
      exact Finset.sum_congr rfl fun i _ => Real.sq_sqrt (intensity_nonneg _ i)
  have hdiff : Tendsto (fun t => ∑ i, |k0 t ^ 2 * (eps t i).re - k0 t0 ^ 2 * (eps t0 i).re|) (𝓝 t0) (𝓝 0) := by
    have : (0 : ℝ) = ∑ i : GIdx (shapeOf n 1 1), |k0 t0 ^ 2 * (eps t0 i).re - k0 t0 ^ 2 * (eps t0 i).re| := by simp
    rw [this]
    exact tendsto_finsetSum _ fun i _ => ((hW i).tendsto.sub_const _).abs
  have hwb : ∀ t (v : SField (shapeOf n 1 1)), v ≠ 0 → |∑ i, (k0 t ^ 2 * (eps t i).re - k0 t0 ^ 2 * (eps t0 i).re) * intensity v i|
      ≤ ∑ i, |k0 t ^ 2 * (eps t i).re - k0 t0 ^ 2 * (eps t0 i).re| := by
    intro t v hv
    refine (Finset.abs_sum_le_sum_abs _ _).trans (Finset.sum_le_sum fun i _ => ?_)
    rw [abs_mul, abs_of_nonneg (intensity_nonneg v i)]
    refine mul_le_of_le_one_right (abs_nonneg _) ?_
    rw [← intensity_sum v (power_pos v hv)]
    exact Finset.single_le_sum (f := fun i => intensity v i) (fun i _ => intensity_nonneg _ i) (Finset.mem_univ i)
  have hray : Tendsto (fun t => ray spacing (k0 t0) (eps t0) (fun i => ((Real.sqrt (intensity (u t) i) : ℝ) : ℂ))) (𝓝 t0) (𝓝 (lam t0)) := by
    rw [tendsto_iff_norm_sub_tendsto_zero]
    refine squeeze_zero (fun _ => norm_nonneg _) (fun t => ?_) (by simpa using hdiff.const_mul 2)
    have e1 := normalised spacing (k0 t) (eps t) (heps t) (lam t) (u t) (h t)
    obtain ⟨b1, b2⟩ := C188_bounds spacing (k0 t0) (k0 t) (eps t0) (eps t) (heps t0) (heps t) _ _ _ _ (h t0) (h t)
    have c1 := abs_le.1 (hwb t (u t0) (h t0).1)
    have c2 := abs_le.1 (hwb t (u t) (h t).1)
    have hd : ray spacing (k0 t) (eps t) (fun i => ((Real.sqrt (intensity (u t) i) : ℝ) : ℂ))
        - ray spacing (k0 t0) (eps t0) (fun i => ((Real.sqrt (intensity (u t) i) : ℝ) : ℂ))
        = ∑ i, (k0 t ^ 2 * (eps t i).re - k0 t0 ^ 2 * (eps t0 i).re) * intensity (u t) i := by
      unfold ray
      have e : ∀ i, ‖((Real.sqrt (intensity (u t) i) : ℝ) : ℂ)‖ ^ 2 = intensity (u t) i := fun i => by
        rw [norm_real, Real.norm_eq_abs, sq_abs, Real.sq_sqrt (intensity_nonneg _ i)]
      simp only [e, sub_mul, Finset.sum_sub_distrib, Finset.mul_sum, mul_assoc]
      ring
    rw [Real.norm_eq_abs, abs_le]
    constructor <;> linarith
  refine hKc.tendsto_nhds_of_unique_mapClusterPt (Eventually.of_forall hmem) ?_
  intro y hy hcl
  -- the limit is a nonnegative normalised fundamental mode of the unperturbed structure
  have hρ : ray spacing (k0 t0) (eps t0) (fun i => (y i : ℂ)) = lam t0 := by
    have hc := MapClusterPt.continuousAt_comp (f := fun v : GIdx (shapeOf n 1 1) → ℝ => ray spacing (k0 t0) (eps t0) (fun i => (v i : ℂ)))
      (ray_continuous spacing (k0 t0) (eps t0)).continuousAt hcl
    have hc2 : ClusterPt (ray spacing (k0 t0) (eps t0) (fun i => (y i : ℂ))) (𝓝 (lam t0)) := ClusterPt.mono hc hray
    exact eq_of_nhds_neBot hc2
  have hy1 : ∑ i, ‖((y i : ℝ) : ℂ)‖ ^ 2 = 1 := by
    have := hy.2
    simp only [Set.mem_ofPred_eq] at this
    rw [← this]
    exact Finset.sum_congr rfl fun i _ => by rw [norm_real, Real.norm_eq_abs, sq_abs]
  have hyE := (fundamental_ray spacing (k0 t0) (eps t0) (heps t0) (lam t0) (h t0).2.2 (fun i => (y i : ℂ))).2 (by rw [hρ, hy1, mul_one])
  obtain ⟨c, hc⟩ := (C138_nodeless spacing hdx (k0 t0) (eps t0) (heps t0) (lam t0) (u t0) (h t0)).2.1 _ hyE
  have hyn : ∀ i, y i = ‖c‖ * ‖u t0 i‖ := fun i => by
    rw [← norm_mul, ← hc i, norm_real, Real.norm_of_nonneg (hy.1.1 i)]
  have hp := power_pos (u t0) (h t0).1
  have hc2 : ‖c‖ ^ 2 * ∑ j, ‖u t0 j‖ ^ 2 = 1 := by
    have := hy.2
    simp only [Set.mem_ofPred_eq, hyn, mul_pow] at this
    rwa [← Finset.mul_sum] at this
  funext i
  have hnn : 0 ≤ y i := hy.1.1 i
  rw [← Real.sqrt_sq hnn]
  congr 1
  rw [hyn, intensity, mul_pow, eq_div_iff hp.ne']
  linear_combination (‖u t0 i‖ ^ 2) * hc2

/-- C188, sensitivity: when the structure changes smoothly (the permittivity of the cells, the wave number or both), the squared propagation constant of
the fundamental mode is differentiable, and its derivative is the derivative of `k0² eps` averaged over the intensity of the mode. -/
theorem C188_derivative (spacing : Fin 3 → ℝ) (hdx : spacing 0 ≠ 0) (k0 : ℝ → ℝ) (eps : ℝ → SField (shapeOf n 1 1))
    (heps : ∀ t i, (eps t i).im = 0) (lam : ℝ → ℝ) (u : ℝ → SField (shapeOf n 1 1))
    (h : ∀ t, IsFundamental (uniformOps (shapeOf n 1 1) (fun _ => 1) spacing) (k0 t) (eps t) (lam t) (u t)) (t0 : ℝ)
    (W' : GIdx (shapeOf n 1 1) → ℝ) (hW : ∀ i, HasDerivAt (fun t => k0 t ^ 2 * (eps t i).re) (W' i) t0) :
    HasDerivAt lam (∑ i, W' i * intensity (u t0) i) t0 := by
  have hq0 : HasDerivAt (fun t => lam t0 + ∑ i, (k0 t ^ 2 * (eps t i).re - k0 t0 ^ 2 * (eps t0 i).re) * intensity (u t0) i)
      (∑ i, W' i * intensity (u t0) i) t0 :=
    (HasDerivAt.fun_sum fun i _ => ((hW i).sub_const _).mul_const _).const_add _
  have ht := profile_tendsto spacing hdx k0 eps heps lam u h t0 fun i => (hW i).continuousAt
  have hint : ∀ i, Tendsto (fun t => intensity (u t) i - intensity (u t0) i) (𝓝 t0) (𝓝 0) := by
    intro i
    have h1 := ((tendsto_pi_nhds.1 ht i).pow 2).sub_const (intensity (u t0) i)
    simpa only [Real.sq_sqrt (intensity_nonneg _ _), sub_self] using h1
  have hrest : HasDerivAt (fun t => lam t - (lam t0 + ∑ i, (k0 t ^ 2 * (eps t i).re - k0 t0 ^ 2 * (eps t0 i).re) * intensity (u t0) i)) 0 t0 := by
    rw [hasDerivAt_iff_isLittleO]
    simp only [smul_zero, sub_zero]
    have hz : lam t0 - (lam t0 + ∑ i, (k0 t0 ^ 2 * (eps t0 i).re - k0 t0 ^ 2 * (eps t0 i).re) * intensity (u t0) i) = 0 := by simp
    simp only [hz, sub_zero]
    have hO : (fun t => ∑ i, |k0 t ^ 2 * (eps t i).re - k0 t0 ^ 2 * (eps t0 i).re| * |intensity (u t) i - intensity (u t0) i|)
        =o[𝓝 t0] fun t => t - t0 := by
      refine Asymptotics.IsLittleO.fun_sum fun i _ => ?_
      have a : (fun t => |k0 t ^ 2 * (eps t i).re - k0 t0 ^ 2 * (eps t0 i).re|) =O[𝓝 t0] fun t => t - t0 :=
        (hW i).isBigO_sub.norm_left
      have b : (fun t => |intensity (u t) i - intensity (u t0) i|) =o[𝓝 t0] fun _ => (1 : ℝ) :=
        (Asymptotics.isLittleO_one_iff ℝ).2 (by simpa using (hint i).abs)
      simpa using a.mul_isLittleO b
    refine Asymptotics.IsBigO.trans_isLittleO (Asymptotics.IsBigO.of_bound 1 (Eventually.of_forall fun t => ?_)) hO
    obtain ⟨b1, b2⟩ := C188_bounds spacing (k0 t0) (k0 t) (eps t0) (eps t) (heps t0) (heps t) _ _ _ _ (h t0) (h t)
    have hnn : 0 ≤ ∑ i, |k0 t ^ 2 * (eps t i).re - k0 t0 ^ 2 * (eps t0 i).re| * |intensity (u t) i - intensity (u t0) i| :=
      Finset.sum_nonneg fun i _ => by positivity
    have hle : ∑ i, (k0 t ^ 2 * (eps t i).re - k0 t0 ^ 2 * (eps t0 i).re) * intensity (u t) i
        - ∑ i, (k0 t ^ 2 * (eps t i).re - k0 t0 ^ 2 * (eps t0 i).re) * intensity (u t0) i
        ≤ ∑ i, |k0 t ^ 2 * (eps t i).re - k0 t0 ^ 2 * (eps t0 i).re| * |intensity (u t) i - intensity (u t0) i| := by
      rw [← Finset.sum_sub_distrib]
      refine Finset.sum_le_sum fun i _ => ?_
      rw [← mul_sub, ← abs_mul]
      exact le_abs_self _
    rw [one_mul, Real.norm_eq_abs, Real.norm_of_nonneg hnn, abs_of_nonneg (by linarith)]
    linarith
  have := hrest.add hq0
  rw [zero_add] at this
  refine this.congr_of_eventuallyEq (Eventually.of_forall fun t => ?_)
  simp

/-- C188, in terms of the effective index `n_eff = √lam / k0` of a guided mode: changing the permittivity of the cells at rate `eps'` changes `n_eff` at rate
`sum eps' |u|² / (2 n_eff sum |u|²)`. -/
theorem C188_neff (spacing : Fin 3 → ℝ) (hdx : spacing 0 ≠ 0) (k0 : ℝ) (hk : 0 < k0) (eps : ℝ → SField (shapeOf n 1 1))
    (heps : ∀ t i, (eps t i).im = 0) (lam : ℝ → ℝ) (u : ℝ → SField (shapeOf n 1 1))
    (h : ∀ t, IsFundamental (uniformOps (shapeOf n 1 1) (fun _ => 1) spacing) k0 (eps t) (lam t) (u t)) (t0 : ℝ) (hlam : 0 < lam t0)
    (E' : GIdx (shapeOf n 1 1) → ℝ) (hE : ∀ i, HasDerivAt (fun t => (eps t i).re) (E' i) t0) :
    HasDerivAt (fun t => Real.sqrt (lam t) / k0) ((∑ i, E' i * intensity (u t0) i) / (2 * (Real.sqrt (lam t0) / k0))) t0 := by
  have hd := C188_derivative spacing hdx (fun _ => k0) eps heps lam u h t0 (fun i => k0 ^ 2 * E' i) fun i => (hE i).const_mul (k0 ^ 2)
  have h2 := (hd.sqrt hlam.ne').div_const k0
  refine h2.congr_deriv ?_
  have : ∑ i, k0 ^ 2 * E' i * intensity (u t0) i = k0 ^ 2 * ∑ i, E' i * intensity (u t0) i := by
    rw [Finset.mul_sum]; exact Finset.sum_congr rfl fun i _ => by ring
  rw [this]
  have hs := Real.sqrt_pos.2 hlam
  field_simp

/-- C188, group index: for a permittivity independent of the wavelength, `beta = √lam` grows with the wave number at rate
`d beta / d k0 = sum eps |u|² / (n_eff sum |u|²)`. -/
theorem C188_group_index (spacing : Fin 3 → ℝ) (hdx : spacing 0 ≠ 0) (eps : SField (shapeOf n 1 1))
    (heps : ∀ i, (eps i).im = 0) (lam : ℝ → ℝ) (u : ℝ → SField (shapeOf n 1 1))
    (h : ∀ k0, IsFundamental (uniformOps (shapeOf n 1 1) (fun _ => 1) spacing) k0 eps (lam k0) (u k0)) (k0 : ℝ) (hk : 0 < k0) (hlam : 0 < lam k0) :
    HasDerivAt (fun k => Real.sqrt (lam k)) ((∑ i, (eps i).re * intensity (u k0) i) / (Real.sqrt (lam k0) / k0)) k0 := by
  have hd := C188_derivative spacing hdx (fun k => k) (fun _ => eps) (fun _ => heps) lam u h k0 (fun i => 2 * k0 * (eps i).re) (fun i => by
    have := ((hasDerivAt_id k0).pow 2).mul_const (eps i).re
    simpa using this)
  refine (hd.sqrt hlam.ne').congr_deriv ?_
  have : ∑ i, 2 * k0 * (eps i).re * intensity (u k0) i = 2 * k0 * ∑ i, (eps i).re * intensity (u k0) i := by
    rw [Finset.mul_sum]; exact Finset.sum_congr rfl fun i _ => by ring
  rw [this]
  have hs := Real.sqrt_pos.2 hlam
  field_simp

/-- Nontrivial case: a fundamental mode exists for every structure of a family, so the families of the theorems exist; e.g. a three-cell core of
permittivity `12 + t` in six cells of permittivity 2. -/
example : ∃ (lam : ℝ → ℝ) (u : ℝ → SField (shapeOf 6 1 1)), ∀ t, IsFundamental (uniformOps (shapeOf 6 1 1) (fun _ => 1) (fun _ => 1 / 10)) 4
    (fun i => if (i 0 : ℕ) < 3 then ((12 + t : ℝ) : ℂ) else 2) (lam t) (u t) := by
  have : ∀ t : ℝ, ∃ lam u, IsFundamental (uniformOps (shapeOf 6 1 1) (fun _ => 1) (fun _ => 1 / 10)) 4
      (fun i => if (i 0 : ℕ) < 3 then ((12 + t : ℝ) : ℂ) else 2) lam u := fun t => by
    refine fundamental_exists _ _ _ fun i => ?_
    split_ifs
    · exact ofReal_im _
    · simp
  choose lam u h using this
  exact ⟨lam, u, h⟩

end Simphox
