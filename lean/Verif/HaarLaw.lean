import Verif.MeshSpread

/-!
# Haar-random meshes (C206)
-/

namespace Simphox

open Matrix Complex MeasureTheory ProbabilityTheory ComplexConjugate
open scoped BoundedContinuousFunction

/-! ### Laws of random matrices -/

noncomputable instance instMeasurableMat (n : ℕ) : MeasurableSpace (Matrix (Fin n) (Fin n) ℂ) := inferInstanceAs (MeasurableSpace (Fin n → Fin n → ℂ))

instance instBorelMat (n : ℕ) : BorelSpace (Matrix (Fin n) (Fin n) ℂ) := inferInstanceAs (BorelSpace (Fin n → Fin n → ℂ))

instance instApproxMat (n : ℕ) : HasOuterApproxClosed (Matrix (Fin n) (Fin n) ℂ) := inferInstanceAs (HasOuterApproxClosed (Fin n → Fin n → ℂ))

instance instSecondMat (n : ℕ) : SecondCountableTopology (Matrix (Fin n) (Fin n) ℂ) :=
  inferInstanceAs (SecondCountableTopology (Fin n → Fin n → ℂ))

theorem measurable_mat {n : ℕ} {α : Type} [MeasurableSpace α] {f : α → Matrix (Fin n) (Fin n) ℂ} (h : ∀ i j, Measurable fun a => f a i j) :
    Measurable f := measurable_pi_iff.2 fun i => measurable_pi_iff.2 fun j => h i j

theorem measurable_entry {n : ℕ} {α : Type} [MeasurableSpace α] {f : α → Matrix (Fin n) (Fin n) ℂ} (h : Measurable f) (i j : Fin n) :
    Measurable fun a => f a i j := measurable_pi_iff.1 (measurable_pi_iff.1 h i) j

theorem measurable_mat_mul {n : ℕ} {α : Type} [MeasurableSpace α] {f g : α → Matrix (Fin n) (Fin n) ℂ} (hf : Measurable f) (hg : Measurable g) :
    Measurable fun a => f a * g a := by
  refine measurable_mat fun i j => ?_
  simp only [Matrix.mul_apply]
  exact Finset.measurable_sum _ fun k _ => (measurable_entry hf i k).mul (measurable_entry hg k j)

/-- The unitary matrices that leave the rails from rail `k` on alone. -/
def HeadUnitary (n k : ℕ) : Set (Matrix (Fin n) (Fin n) ℂ) :=
  {g | g ∈ unitaryGroup (Fin n) ℂ ∧ ∀ i j : Fin n, k ≤ j.val → (g i j = if i = j then 1 else 0) ∧ (g j i = if i = j then 1 else 0)}

theorem HeadUnitary.mul {n k : ℕ} {g h : Matrix (Fin n) (Fin n) ℂ} (hg : g ∈ HeadUnitary n k) (hh : h ∈ HeadUnitary n k) : g * h ∈ HeadUnitary n k := by
  refine ⟨mul_mem hg.1 hh.1, fun i j hj => ⟨?_, ?_⟩⟩
  · rw [Matrix.mul_apply, Finset.sum_eq_single j]
    · rw [(hh.2 j j hj).1, if_pos rfl, mul_one, (hg.2 i j hj).1]
    · intro l _ hl
      rw [(hh.2 l j hj).1, if_neg hl, mul_zero]
    · simp
  · rw [Matrix.mul_apply, Finset.sum_eq_single j]
    · rw [(hg.2 j j hj).1, if_pos rfl, one_mul, (hh.2 i j hj).2]
    · intro l _ hl
      rw [(hg.2 l j hj).2, if_neg hl, zero_mul]
    · simp

theorem HeadUnitary.mono {n k l : ℕ} (h : k ≤ l) : HeadUnitary n k ⊆ HeadUnitary n l := fun _ hg => ⟨hg.1, fun i j hj => hg.2 i j (by omega)⟩

/-- Two such matrices with the same row `k` differ by one that leaves this rail alone too. -/
theorem head_factor {n k : ℕ} (hk : k < n) {g g' : Matrix (Fin n) (Fin n) ℂ} (hg : g ∈ HeadUnitary n (k + 1)) (hg' : g' ∈ HeadUnitary n (k + 1))
    (h : ∀ j, g ⟨k, hk⟩ j = g' ⟨k, hk⟩ j) : ∃ w ∈ HeadUnitary n k, g' = w * g := by
  have u1 : g * gᴴ = 1 := mem_unitaryGroup_iff.1 hg.1
  have u2 : gᴴ * g = 1 := mem_unitaryGroup_iff'.1 hg.1
  have u3 : g' * g'ᴴ = 1 := mem_unitaryGroup_iff.1 hg'.1
  have hgc : gᴴ ∈ HeadUnitary n (k + 1) := by
    refine ⟨mem_unitaryGroup_iff.2 (by rw [star_eq_conjTranspose, conjTranspose_conjTranspose]; exact u2), fun i j hj => ⟨?_, ?_⟩⟩
    · rw [conjTranspose_apply, (hg.2 i j hj).2]; split_ifs <;> simp
    · rw [conjTranspose_apply, (hg.2 i j hj).1]; split_ifs <;> simp
  have hw := HeadUnitary.mul hg' hgc
  refine ⟨g' * gᴴ, ⟨hw.1, fun i j hj => ?_⟩, by rw [mul_assoc, u2, mul_one]⟩
  rcases Nat.lt_or_ge k j with hj' | hj'
  · exact hw.2 i j hj'
  · obtain rfl : j = ⟨k, hk⟩ := Fin.ext (by show j.val = k; omega)
    constructor
    · have e : (g' * gᴴ) i ⟨k, hk⟩ = (g' * g'ᴴ) i ⟨k, hk⟩ := by
        rw [Matrix.mul_apply, Matrix.mul_apply]
        refine Finset.sum_congr rfl fun l _ => ?_
        rw [conjTranspose_apply, conjTranspose_apply, h]
      rw [e, u3, Matrix.one_apply]
    · have e : (g' * gᴴ) ⟨k, hk⟩ i = (g * gᴴ) ⟨k, hk⟩ i := by
        rw [Matrix.mul_apply, Matrix.mul_apply]
        refine Finset.sum_congr rfl fun l _ => ?_
        rw [h]
      rw [e, u1, Matrix.one_apply]
      simp only [eq_comm]

theorem head_compact (n k : ℕ) : IsCompact (HeadUnitary n k) := by
  have hc : IsClosed (HeadUnitary n k) := by
    have e : HeadUnitary n k = {g | g * star g = 1} ∩ ⋂ (i : Fin n) (j : Fin n) (_ : k ≤ j.val),
        ({g | g i j = if i = j then 1 else 0} ∩ {g | g j i = if i = j then 1 else 0}) := by
      ext g
      simp only [HeadUnitary, mem_unitaryGroup_iff, Set.mem_inter_iff, Set.mem_iInter, Set.mem_ofPred_eq]
    rw [e]
    refine IsClosed.inter (isClosed_eq ?_ continuous_const) (isClosed_iInter fun i => isClosed_iInter fun j => isClosed_iInter fun _ =>
      IsClosed.inter (isClosed_eq ?_ continuous_const) (isClosed_eq ?_ continuous_const))
    · exact continuous_id.mul continuous_star
    · exact continuous_id.matrix_elem i j
    · exact continuous_id.matrix_elem j i
  have hb : IsCompact (Set.univ.pi fun _ : Fin n => Set.univ.pi fun _ : Fin n => Metric.closedBall (0 : ℂ) 1) :=
    isCompact_univ_pi fun _ => isCompact_univ_pi fun _ => isCompact_closedBall _ _
  refine IsCompact.of_isClosed_subset (X := Matrix (Fin n) (Fin n) ℂ) hb hc fun g hg i _ j _ => ?_
  rw [mem_closedBall_zero_iff]
  exact entry_norm_bound_of_unitary hg.1 i j

/-- Random matrices whose mean values do not change under multiplication by the unitary matrices on the first rails. -/
def RightInv {Ω : Type} [MeasurableSpace Ω] (Pr : Measure Ω) (n k : ℕ) (W : Ω → Matrix (Fin n) (Fin n) ℂ) : Prop :=
  ∀ f : Matrix (Fin n) (Fin n) ℂ →ᵇ ℝ, ∀ h ∈ HeadUnitary n k, ∫ ω, f (W ω * h) ∂Pr = ∫ ω, f (W ω) ∂Pr

/-- A function after multiplication. -/
noncomputable def mulBcf {n : ℕ} (f : Matrix (Fin n) (Fin n) ℂ →ᵇ ℝ) (g : Matrix (Fin n) (Fin n) ℂ) : Matrix (Fin n) (Fin n) ℂ →ᵇ ℝ :=
  f.compContinuous ⟨fun M => M * g, continuous_id.mul continuous_const⟩

theorem integrable_bcf {Ω : Type} [MeasurableSpace Ω] (Pr : Measure Ω) [IsProbabilityMeasure Pr] {n : ℕ} (f : Matrix (Fin n) (Fin n) ℂ →ᵇ ℝ)
    {W : Ω → Matrix (Fin n) (Fin n) ℂ} (hW : Measurable W) : Integrable (fun ω => f (W ω)) Pr :=
  Integrable.of_bound (f.continuous.measurable.comp hW).aestronglyMeasurable ‖f‖ (Filter.Eventually.of_forall fun _ => f.norm_coe_le_norm _)

/-- One more subunit: if the matrix that acts last is right invariant on the rails below `k` and the row `k` of the matrix that acts first does not
change its law, the product is right invariant on the rails up to `k`. -/
theorem RightInv.step {Ω : Type} [MeasurableSpace Ω] (Pr : Measure Ω) [IsProbabilityMeasure Pr] {n k : ℕ} (hk : k < n)
    {W V : Ω → Matrix (Fin n) (Fin n) ℂ} (hW : Measurable W) (hV : Measurable V) (hind : IndepFun W V Pr) (hinv : RightInv Pr n k W)
    (hVk : ∀ ω, V ω ∈ HeadUnitary n (k + 1))
    (hrow : ∀ h ∈ HeadUnitary n (k + 1), Pr.map (fun ω => (V ω * h) ⟨k, hk⟩) = Pr.map (fun ω => V ω ⟨k, hk⟩)) :
    RightInv Pr n (k + 1) fun ω => W ω * V ω := by
  intro f h hh
  set Φ : Matrix (Fin n) (Fin n) ℂ → ℝ := fun g => ∫ ω, f (W ω * g) ∂Pr with hΦ
  have hcont : Continuous Φ := by
    refine continuous_of_dominated (bound := fun _ => ‖f‖) (fun g => ?_) (fun g => Filter.Eventually.of_forall fun ω => f.norm_coe_le_norm _)
      (integrable_const _) (Filter.Eventually.of_forall fun ω => f.continuous.comp (continuous_const.mul continuous_id))
    exact (f.continuous.measurable.comp (measurable_mat_mul hW measurable_const)).aestronglyMeasurable
  have hfac : ∀ g ∈ HeadUnitary n (k + 1), ∀ g' ∈ HeadUnitary n (k + 1), (g ⟨k, hk⟩ = g' ⟨k, hk⟩) → Φ g' = Φ g := by
    intro g hg g' hg' e
    obtain ⟨w, hw, rfl⟩ := head_factor hk hg hg' fun j => congrFun e j
    have := hinv (mulBcf f g) w hw
    simp only [mulBcf, BoundedContinuousFunction.compContinuous_apply, ContinuousMap.coe_mk, Matrix.mul_assoc] at this
    exact this
  -- the mean value as a function of the row
  classical
  let φ : (Fin n → ℂ) → ℝ := fun x => if e : ∃ g ∈ HeadUnitary n (k + 1), g ⟨k, hk⟩ = x then Φ e.choose else 0
  have hφ : ∀ g ∈ HeadUnitary n (k + 1), φ (g ⟨k, hk⟩) = Φ g := by
    intro g hg
    have e : ∃ g' ∈ HeadUnitary n (k + 1), g' ⟨k, hk⟩ = g ⟨k, hk⟩ := ⟨g, hg, rfl⟩
    show (if e : ∃ g' ∈ HeadUnitary n (k + 1), g' ⟨k, hk⟩ = g ⟨k, hk⟩ then Φ e.choose else 0) = _
    rw [dif_pos e]
    exact hfac g hg _ e.choose_spec.1 e.choose_spec.2.symm
  have hrc : Continuous fun g : Matrix (Fin n) (Fin n) ℂ => g ⟨k, hk⟩ := continuous_pi fun j => continuous_id.matrix_elem _ j
  have hmeas : Measurable φ := by
    refine measurable_of_isClosed fun C hC => ?_
    have e : φ ⁻¹' C = ((fun g : Matrix (Fin n) (Fin n) ℂ => g ⟨k, hk⟩) '' (HeadUnitary n (k + 1) ∩ Φ ⁻¹' C)) ∪
        (if (0 : ℝ) ∈ C then ((fun g : Matrix (Fin n) (Fin n) ℂ => g ⟨k, hk⟩) '' HeadUnitary n (k + 1))ᶜ else ∅) := by
      ext x
      by_cases hx : ∃ g ∈ HeadUnitary n (k + 1), g ⟨k, hk⟩ = x
      · obtain ⟨g, hg, rfl⟩ := hx
        rw [Set.mem_preimage, hφ g hg]
        constructor
        · intro hc; exact Or.inl ⟨g, ⟨hg, hc⟩, rfl⟩
        · rintro (⟨g', ⟨hg', hc⟩, e⟩ | hc)
          · rw [← hfac g hg g' hg' e.symm]; exact hc
          · split_ifs at hc
            · exact absurd ⟨g, hg, rfl⟩ hc
            · exact absurd hc (Set.notMem_empty _)
      · have e0 : φ x = 0 := dif_neg hx
        rw [Set.mem_preimage, e0]
        constructor
        · intro hc
          right
          rw [if_pos hc]
          rintro ⟨g, hg, e⟩
          exact hx ⟨g, hg, e⟩
        · rintro (⟨g', ⟨hg', hc⟩, e⟩ | hc)
          · exact absurd ⟨g', hg', e⟩ hx
          · split_ifs at hc with h0
            · exact h0
            · exact absurd hc (Set.notMem_empty _)
    rw [e]
    have c1 := (((head_compact n (k + 1)).inter_right (hC.preimage hcont)).image hrc).isClosed.measurableSet
    have c2 := ((head_compact n (k + 1)).image hrc).isClosed.measurableSet
    refine c1.union ?_
    split_ifs
    · exact c2.compl
    · exact MeasurableSet.empty
  have key : ∀ h ∈ HeadUnitary n (k + 1), ∫ ω, f (W ω * V ω * h) ∂Pr = ∫ ω, φ ((V ω * h) ⟨k, hk⟩) ∂Pr := by
    intro h hh
    have hVh : Measurable fun ω => V ω * h := measurable_mat_mul hV measurable_const
    have hi : IndepFun W (fun ω => V ω * h) Pr := hind.comp measurable_id (measurable_mat_mul measurable_id measurable_const)
    have hpair := (indepFun_iff_map_prod_eq_prod_map_map hW.aemeasurable hVh.aemeasurable).1 hi
    have hfm : Measurable fun p : Matrix (Fin n) (Fin n) ℂ × Matrix (Fin n) (Fin n) ℂ => f (p.1 * p.2) :=
      f.continuous.measurable.comp (measurable_mat_mul measurable_fst measurable_snd)
    have e1 : ∫ ω, f (W ω * V ω * h) ∂Pr = ∫ p, f (p.1 * p.2) ∂(Pr.map fun ω => (W ω, V ω * h)) := by
      rw [integral_map (hW.prodMk hVh).aemeasurable hfm.aestronglyMeasurable]
      simp only [Matrix.mul_assoc]
    have : IsProbabilityMeasure (Pr.map W) := Measure.isProbabilityMeasure_map hW.aemeasurable
    have : IsProbabilityMeasure (Pr.map fun ω => V ω * h) := Measure.isProbabilityMeasure_map hVh.aemeasurable
    rw [e1, hpair, integral_prod_symm _ (Integrable.of_bound hfm.aestronglyMeasurable ‖f‖ (Filter.Eventually.of_forall fun _ => f.norm_coe_le_norm _))]
    have e2 : ∀ g : Matrix (Fin n) (Fin n) ℂ, ∫ M, f (M * g) ∂(Pr.map W) = Φ g := by
      intro g
      rw [integral_map hW.aemeasurable]
      exact (f.continuous.measurable.comp (measurable_mat_mul measurable_id measurable_const)).aestronglyMeasurable
    simp only [e2]
    rw [integral_map hVh.aemeasurable hcont.measurable.aestronglyMeasurable]
    exact integral_congr_ae (Filter.Eventually.of_forall fun ω => (hφ _ (HeadUnitary.mul (hVk ω) hh)).symm)
  have hrm : ∀ h : Matrix (Fin n) (Fin n) ℂ, Measurable fun ω => (V ω * h) ⟨k, hk⟩ := fun h =>
    measurable_pi_iff.2 fun j => measurable_entry (measurable_mat_mul hV measurable_const) _ j
  have h1 := key 1 ⟨one_mem _, fun i j _ => ⟨Matrix.one_apply, by rw [Matrix.one_apply]; simp only [eq_comm]⟩⟩
  simp only [mul_one] at h1
  show ∫ ω, f (W ω * V ω * h) ∂Pr = ∫ ω, f (W ω * V ω) ∂Pr
  rw [key h hh, h1]
  have m1 := hrm 1
  simp only [mul_one] at m1
  rw [← integral_map (hrm h).aemeasurable hmeas.aestronglyMeasurable, ← integral_map m1.aemeasurable hmeas.aestronglyMeasurable, hrow h hh]

/-! ### Vectors with equal moments -/

/-- The characteristic function of a bounded random number is determined by its moments. -/
theorem bounded_exp {Ω : Type} [MeasurableSpace Ω] (Pr : Measure Ω) [IsProbabilityMeasure Pr] (y : Ω → ℝ) (hy : Measurable y) (C : ℝ)
    (hC : ∀ ω, |y ω| ≤ C) : ∫ ω, Complex.exp (y ω * I) ∂Pr = ∑' m : ℕ, I ^ m / (m.factorial : ℂ) * ∫ ω, ((y ω : ℂ)) ^ m ∂Pr := by
  have hb : ∀ (m : ℕ) (ω : Ω), ‖((y ω : ℂ) * I) ^ m / (m.factorial : ℂ)‖ ≤ C ^ m / m.factorial := by
    intro m ω
    rw [norm_div, norm_pow, norm_mul, norm_I, mul_one, norm_real, Real.norm_eq_abs, Complex.norm_natCast]
    have := pow_le_pow_left₀ (abs_nonneg _) (hC ω) m
    gcongr
  have hm : ∀ m : ℕ, Measurable fun ω => ((y ω : ℂ) * I) ^ m / (m.factorial : ℂ) := fun m =>
    (((Complex.measurable_ofReal.comp hy).mul_const I).pow_const m).div_const _
  have hi : ∀ m : ℕ, Integrable (fun ω => ((y ω : ℂ) * I) ^ m / (m.factorial : ℂ)) Pr := fun m =>
    Integrable.of_bound (hm m).aestronglyMeasurable _ (Filter.Eventually.of_forall (hb m))
  have h := hasSum_integral_of_summable_integral_norm hi (by
    refine Summable.of_nonneg_of_le (fun m => integral_nonneg fun ω => norm_nonneg _) (fun m => ?_) (Real.summable_pow_div_factorial C)
    refine (integral_mono (hi m).norm (integrable_const _) (hb m)).trans ?_
    simp)
  have e : ∀ ω, ∑' m : ℕ, ((y ω : ℂ) * I) ^ m / (m.factorial : ℂ) = Complex.exp (y ω * I) := by
    intro ω
    rw [Complex.exp_eq_exp_ℂ, NormedSpace.exp_eq_tsum_div]
  simp only [e] at h
  rw [← h.tsum_eq]
  refine tsum_congr fun m => ?_
  rw [← integral_const_mul]
  refine integral_congr_ae (Filter.Eventually.of_forall fun ω => ?_)
  simp only [mul_pow]
  ring

/-- A real linear functional on complex vectors. -/
theorem dual_form {n : ℕ} (L : StrongDual ℝ (Fin n → ℂ)) : ∃ c : Fin n → ℂ, ∀ v, L v = (∑ i, v i * c i).re := by
  refine ⟨fun i => ⟨L (Pi.single i 1), -L (Pi.single i I)⟩, fun v => ?_⟩
  have e : v = ∑ i, ((v i).re • (Pi.single i 1 : Fin n → ℂ) + (v i).im • (Pi.single i I : Fin n → ℂ)) := by
    funext j
    rw [Finset.sum_apply, Finset.sum_eq_single j]
    · simp [Complex.re_add_im]
    · intro i _ hi
      simp [Pi.single_eq_of_ne hi.symm]
    · simp
  conv_lhs => rw [e]
  rw [map_sum, Complex.re_sum]
  refine Finset.sum_congr rfl fun i _ => ?_
  rw [map_add, map_smul, map_smul, Complex.mul_re]
  simp

/-- Bounded random vectors have the same law if the mixed moments of all their linear forms agree. -/
theorem law_of_moments {Ω : Type} [MeasurableSpace Ω] (Pr : Measure Ω) [IsProbabilityMeasure Pr] {n : ℕ} (r r' : Ω → Fin n → ℂ)
    (hr : Measurable r) (hr' : Measurable r') (C : ℝ) (hC : ∀ ω i, ‖r ω i‖ ≤ C) (hC' : ∀ ω i, ‖r' ω i‖ ≤ C)
    (h : ∀ (c : Fin n → ℂ) (p q : ℕ), ∫ ω, (∑ i, r ω i * c i) ^ p * conj (∑ i, r ω i * c i) ^ q ∂Pr =
      ∫ ω, (∑ i, r' ω i * c i) ^ p * conj (∑ i, r' ω i * c i) ^ q ∂Pr) : Pr.map r = Pr.map r' := by
  have : IsProbabilityMeasure (Pr.map r) := Measure.isProbabilityMeasure_map hr.aemeasurable
  have : IsProbabilityMeasure (Pr.map r') := Measure.isProbabilityMeasure_map hr'.aemeasurable
  refine Measure.ext_of_charFunDual (funext fun L => ?_)
  obtain ⟨c, hc⟩ := dual_form L
  have key : ∀ u : Ω → Fin n → ℂ, Measurable u → (∀ ω i, ‖u ω i‖ ≤ C) → charFunDual (Pr.map u) L =
      ∑' m : ℕ, I ^ m / (m.factorial : ℂ) * ((1 / 2) ^ m * ∑ p ∈ Finset.range (m + 1), ((m.choose p : ℕ) : ℂ) *
        ∫ ω, (∑ i, u ω i * c i) ^ p * conj (∑ i, u ω i * c i) ^ (m - p) ∂Pr) := by
    intro u hu hCu
    have mz : Measurable fun ω => ∑ i, u ω i * c i := Finset.measurable_sum _ fun i _ => (measurable_pi_iff.1 hu i).mul_const _
    have bz : ∀ ω, ‖∑ i, u ω i * c i‖ ≤ ∑ i, C * ‖c i‖ := fun ω => (norm_sum_le _ _).trans (Finset.sum_le_sum fun i _ => by
      rw [norm_mul]; exact mul_le_mul_of_nonneg_right (hCu ω i) (norm_nonneg _))
    rw [charFunDual_apply, integral_map hu.aemeasurable (by fun_prop)]
    simp only [hc]
    rw [bounded_exp Pr (fun ω => (∑ i, u ω i * c i).re) (Complex.measurable_re.comp mz) (∑ i, C * ‖c i‖) fun ω => (abs_re_le_norm _).trans (bz ω)]
    refine tsum_congr fun m => ?_
    congr 1
    have e : ∀ ω, (((∑ i, u ω i * c i).re : ℝ) : ℂ) ^ m = (1 / 2) ^ m * ∑ p ∈ Finset.range (m + 1), ((m.choose p : ℕ) : ℂ) *
        ((∑ i, u ω i * c i) ^ p * conj (∑ i, u ω i * c i) ^ (m - p)) := by
      intro ω
      rw [Complex.re_eq_add_conj, div_eq_mul_one_div, mul_pow, add_pow, mul_comm]
      congr 1
      refine Finset.sum_congr rfl fun p _ => ?_
      ring
    simp only [e]
    have hint : ∀ p q : ℕ, Integrable (fun ω => (∑ i, u ω i * c i) ^ p * conj (∑ i, u ω i * c i) ^ q) Pr := by
      intro p q
      refine Integrable.of_bound (((mz.pow_const p).mul ((Complex.continuous_conj.measurable.comp mz).pow_const q)).aestronglyMeasurable)
        ((∑ i, C * ‖c i‖) ^ p * (∑ i, C * ‖c i‖) ^ q) (Filter.Eventually.of_forall fun ω => ?_)
      rw [norm_mul, norm_pow, norm_pow, RCLike.norm_conj]
      have := bz ω
      have h0 : 0 ≤ ∑ i, C * ‖c i‖ := (norm_nonneg _).trans this
      gcongr
    rw [integral_const_mul, integral_finsetSum _ fun p _ => (hint p (m - p)).const_mul _]
    congr 1
    refine Finset.sum_congr rfl fun p _ => ?_
    rw [integral_const_mul]
  rw [key r hr hC, key r' hr' hC']
  refine tsum_congr fun m => ?_
  congr 2
  refine Finset.sum_congr rfl fun p _ => ?_
  rw [h c p (m - p)]

/-! ### A chain of random nodes -/

/-- Random nodes of the chain: node `j` sends, on average, the powers of the beta distribution with parameters `j + 1` and `1`, from its upper rail to
its lower one; its external phase is uniform. -/
structure HaarNode (X : ℝ × ℝ → Elements) (j : ℕ) : Prop where
  m11 : Measurable fun x => (X x).t11
  m12 : Measurable fun x => (X x).t12
  m21 : Measurable fun x => (X x).t21
  m22 : Measurable fun x => (X x).t22
  unitary : ∀ x, (X x).mat ∈ unitaryGroup (Fin 2) ℂ
  mixed : ∀ A B C D, A ≠ B → ∫ x, ((X x).t12 ^ A * conj (X x).t12 ^ B) * ((X x).t22 ^ C * conj (X x).t22 ^ D) ∂(uniform01.prod uniform01) = 0
  powers : ∀ A C, ∫ x, ((X x).t12 ^ A * conj (X x).t12 ^ A) * ((X x).t22 ^ C * conj (X x).t22 ^ C) ∂(uniform01.prod uniform01) =
    ((j + 1) * (j + A).factorial * C.factorial : ℂ) / ((j + A + C + 1).factorial : ℂ)

/-- Independent uniform draws: `(0, k)` and `(1, k)` set the phases of node `k`, `(2, r)` the output phase of rail `r`. -/
structure UniformDraws {Ω : Type} [MeasurableSpace Ω] (Pr : Measure Ω) (X : Fin 3 × ℕ → Ω → ℝ) : Prop where
  meas : ∀ i, Measurable (X i)
  law : ∀ i, Pr.map (X i) = uniform01
  indep : iIndepFun X Pr

/-- Functions of different draws are independent. -/
theorem UniformDraws.split {Ω : Type} [MeasurableSpace Ω] {Pr : Measure Ω} {X : Fin 3 × ℕ → Ω → ℝ} (h : UniformDraws Pr X)
    {E F : Type} [MeasurableSpace E] [MeasurableSpace F] {f : (Fin 3 × ℕ → ℝ) → E} {g : (Fin 3 × ℕ → ℝ) → F} (hf : Measurable f) (hg : Measurable g)
    (S T : Finset (Fin 3 × ℕ)) (hST : Disjoint S T) (hfS : ∀ x y : Fin 3 × ℕ → ℝ, (∀ i ∈ S, x i = y i) → f x = f y)
    (hgT : ∀ x y : Fin 3 × ℕ → ℝ, (∀ i ∈ T, x i = y i) → g x = g y) : IndepFun (fun ω => f fun i => X i ω) (fun ω => g fun i => X i ω) Pr := by
  classical
  have hi := h.indep.indepFun_finset S T hST h.meas
  let pad : (U : Finset (Fin 3 × ℕ)) → (U → ℝ) → (Fin 3 × ℕ → ℝ) := fun U u i => if e : i ∈ U then u ⟨i, e⟩ else 0
  have hp : ∀ U, Measurable (pad U) := by
    intro U
    refine measurable_pi_iff.2 fun i => ?_
    by_cases e : i ∈ U
    · simp only [pad, dif_pos e]; exact measurable_pi_apply _
    · simp only [pad, dif_neg e]; exact measurable_const
  have := hi.comp (hf.comp (hp S)) (hg.comp (hp T))
  have e1 : ∀ ω, f (pad S fun i => X i ω) = f fun i => X i ω := fun ω => hfS _ _ fun i hi => by simp only [pad, dif_pos hi]
  have e2 : ∀ ω, g (pad T fun i => X i ω) = g fun i => X i ω := fun ω => hgT _ _ fun i hi => by simp only [pad, dif_pos hi]
  simp only [Function.comp_def, e1, e2] at this
  exact this

theorem UniformDraws.pair {Ω : Type} [MeasurableSpace Ω] {Pr : Measure Ω} [IsProbabilityMeasure Pr] {X : Fin 3 × ℕ → Ω → ℝ} (h : UniformDraws Pr X) (k : ℕ) :
    Pr.map (fun ω => (X (0, k) ω, X (1, k) ω)) = uniform01.prod uniform01 := by
  have hi := h.indep.indepFun (i := (0, k)) (j := (1, k)) (by simp)
  rw [(indepFun_iff_map_prod_eq_prod_map_map (h.meas _).aemeasurable (h.meas _).aemeasurable).1 hi, h.law, h.law]

/-- The linear form `c` of the last row of a chain of `j` nodes with ids from `N`. -/
def chainForm (el : ℕ → Elements) (N : ℕ) (c : ℕ → ℂ) : ℕ → ℂ
  | 0 => c 0
  | j + 1 => (el (N + j)).t12 * chainForm el N c j + (el (N + j)).t22 * c (j + 1)

/-- The elements of random nodes. -/
def drawnEl (X : ℕ → ℝ × ℝ → Elements) (x : Fin 3 × ℕ → ℝ) (k : ℕ) : Elements := X k (x (0, k), x (1, k))

theorem chainForm_dep (X : ℕ → ℝ × ℝ → Elements) (N : ℕ) (c : ℕ → ℂ) (x y : Fin 3 × ℕ → ℝ) (j : ℕ)
    (h : ∀ i < j, x (0, N + i) = y (0, N + i) ∧ x (1, N + i) = y (1, N + i)) : chainForm (drawnEl X x) N c j = chainForm (drawnEl X y) N c j := by
  induction j with
  | zero => rfl
  | succ j ih =>
    rw [chainForm, chainForm, ih fun i hi => h i (by omega)]
    simp only [drawnEl, h j (by omega)]

theorem measurable_draw (N : ℕ) : Measurable fun x : Fin 3 × ℕ → ℝ => (x (0, N), x (1, N)) := (measurable_pi_apply _).prodMk (measurable_pi_apply _)

theorem chainForm_meas (X : ℕ → ℝ × ℝ → Elements) (N : ℕ) (c : ℕ → ℂ) (j : ℕ) (h : ∀ i < j, HaarNode (X (N + i)) i) :
    Measurable fun x => chainForm (drawnEl X x) N c j := by
  induction j with
  | zero => exact measurable_const
  | succ j ih =>
    have hj := h j (by omega)
    exact ((hj.m12.comp (measurable_draw _)).mul (ih fun i hi => h i (by omega))).add ((hj.m22.comp (measurable_draw _)).mul_const _)

theorem HaarNode.bound {X : ℝ × ℝ → Elements} {j : ℕ} (h : HaarNode X j) (x : ℝ × ℝ) : ‖(X x).t12‖ ≤ 1 ∧ ‖(X x).t22‖ ≤ 1 := by
  have h1 := entry_norm_bound_of_unitary (h.unitary x) 1 0
  have h2 := entry_norm_bound_of_unitary (h.unitary x) 1 1
  exact ⟨h1, h2⟩

theorem chainForm_bound (X : ℕ → ℝ × ℝ → Elements) (N : ℕ) (c : ℕ → ℂ) (j : ℕ) (h : ∀ i < j, HaarNode (X (N + i)) i) (x : Fin 3 × ℕ → ℝ) :
    ‖chainForm (drawnEl X x) N c j‖ ≤ ∑ i ∈ Finset.range (j + 1), ‖c i‖ := by
  induction j with
  | zero => simp [chainForm]
  | succ j ih =>
    obtain ⟨b1, b2⟩ := (h j (by omega)).bound (x (0, N + j), x (1, N + j))
    have h1 := ih fun i hi => h i (by omega)
    rw [chainForm, Finset.sum_range_succ]
    refine (norm_add_le _ _).trans (add_le_add ?_ ?_)
    · rw [norm_mul]
      calc _ ≤ 1 * ‖chainForm (drawnEl X x) N c j‖ := mul_le_mul_of_nonneg_right b1 (norm_nonneg _)
        _ ≤ _ := by rw [one_mul]; exact h1
    · rw [norm_mul]
      calc _ ≤ 1 * ‖c (j + 1)‖ := mul_le_mul_of_nonneg_right b2 (norm_nonneg _)
        _ = _ := one_mul _

theorem UniformDraws.node {Ω : Type} [MeasurableSpace Ω] {Pr : Measure Ω} [IsProbabilityMeasure Pr] {D : Fin 3 × ℕ → Ω → ℝ} (h : UniformDraws Pr D)
    (f : ℝ × ℝ → ℂ) (hf : Measurable f) (k : ℕ) : ∫ ω, f (D (0, k) ω, D (1, k) ω) ∂Pr = ∫ x, f x ∂(uniform01.prod uniform01) := by
  rw [← h.pair k, integral_map ((h.meas _).prodMk (h.meas _)).aemeasurable hf.aestronglyMeasurable]

theorem integrable_of_norm {Ω : Type} [MeasurableSpace Ω] (Pr : Measure Ω) [IsProbabilityMeasure Pr] {f : Ω → ℂ} (hf : Measurable f) (C : ℝ)
    (hC : ∀ ω, ‖f ω‖ ≤ C) : Integrable f Pr := Integrable.of_bound hf.aestronglyMeasurable C (Filter.Eventually.of_forall hC)

/-- The even moments of a linear form of the last row of a random chain depend on the length of the form only. -/
theorem chainForm_moment {Ω : Type} [MeasurableSpace Ω] {Pr : Measure Ω} [IsProbabilityMeasure Pr] {D : Fin 3 × ℕ → Ω → ℝ} (hD : UniformDraws Pr D)
    (X : ℕ → ℝ × ℝ → Elements) (N : ℕ) (c : ℕ → ℂ) (j : ℕ) (h : ∀ i < j, HaarNode (X (N + i)) i) (p : ℕ) :
    ∫ ω, chainForm (drawnEl X fun i => D i ω) N c j ^ p * conj (chainForm (drawnEl X fun i => D i ω) N c j) ^ p ∂Pr =
      (p.factorial * j.factorial : ℂ) / ((j + p).factorial : ℂ) * (∑ i ∈ Finset.range (j + 1), c i * conj (c i)) ^ p := by
  induction j generalizing p with
  | zero =>
    simp only [chainForm, Nat.factorial_zero, Nat.cast_one, mul_one, Nat.zero_add, Finset.sum_range_one, mul_pow]
    rw [div_self (by exact_mod_cast p.factorial_ne_zero), one_mul]
    simp
  | succ j ih =>
    have hj := h j (by omega)
    have hlt : ∀ i < j, HaarNode (X (N + i)) i := fun i hi => h i (by omega)
    set s : Ω → ℂ := fun ω => chainForm (drawnEl X fun i => D i ω) N c j with hs
    set x : Ω → ℝ × ℝ := fun ω => (D (0, N + j) ω, D (1, N + j) ω) with hx
    have ms0 : Measurable fun ω i => D i ω := measurable_pi_iff.2 fun i => hD.meas i
    have ms : Measurable s := (chainForm_meas X N c j hlt).comp ms0
    have mx : Measurable x := (hD.meas _).prodMk (hD.meas _)
    have cj : Measurable (fun z : ℂ => conj z) := Complex.continuous_conj.measurable
    let F : ℕ → ℕ → ℝ × ℝ → ℂ := fun a b y => ((X (N + j) y).t12 ^ a * conj (X (N + j) y).t12 ^ b) *
      ((X (N + j) y).t22 ^ (p - a) * conj (X (N + j) y).t22 ^ (p - b))
    have mF : ∀ a b, Measurable (F a b) := fun a b => ((hj.m12.pow_const a).mul ((cj.comp hj.m12).pow_const b)).mul
      ((hj.m22.pow_const _).mul ((cj.comp hj.m22).pow_const _))
    let G : ℕ → ℕ → ℂ → ℂ := fun a b z => z ^ a * conj z ^ b
    have mG : ∀ a b, Measurable (G a b) := fun a b => (measurable_id.pow_const a).mul (cj.pow_const b)
    have bs : ∀ ω, ‖s ω‖ ≤ ∑ i ∈ Finset.range (j + 1), ‖c i‖ := fun ω => chainForm_bound X N c j hlt _
    have bx : ∀ a b y, ‖F a b y‖ ≤ 1 := by
      intro a b y
      obtain ⟨b1, b2⟩ := hj.bound y
      simp only [F, norm_mul, norm_pow, RCLike.norm_conj]
      have q1 := pow_le_one₀ (norm_nonneg _) b1 (n := a)
      have q2 := pow_le_one₀ (norm_nonneg _) b1 (n := b)
      have q3 := pow_le_one₀ (norm_nonneg _) b2 (n := p - a)
      have q4 := pow_le_one₀ (norm_nonneg _) b2 (n := p - b)
      exact mul_le_one₀ (mul_le_one₀ q1 (by positivity) q2) (by positivity) (mul_le_one₀ q3 (by positivity) q4)
    set B := ∑ i ∈ Finset.range (j + 1), ‖c i‖ with hB
    have hB0 : 0 ≤ B := Finset.sum_nonneg fun _ _ => norm_nonneg _
    have bG : ∀ a b ω, ‖G a b (s ω)‖ ≤ B ^ a * B ^ b := by
      intro a b ω
      simp only [G, norm_mul, norm_pow, RCLike.norm_conj]
      have := bs ω
      gcongr
    have hind : ∀ a b, IndepFun (fun ω => F a b (x ω)) (fun ω => G a b (s ω)) Pr := by
      intro a b
      have := hD.split (f := fun y : Fin 3 × ℕ → ℝ => F a b (y (0, N + j), y (1, N + j))) (g := fun y => G a b (chainForm (drawnEl X y) N c j))
        ((mF a b).comp (measurable_draw _)) ((mG a b).comp (chainForm_meas X N c j hlt)) {(0, N + j), (1, N + j)}
        ((Finset.univ : Finset (Fin 3)) ×ˢ (Finset.range j).image fun i => N + i) (by
          rw [Finset.disjoint_left]
          intro i hi hi'
          simp only [Finset.mem_insert, Finset.mem_singleton] at hi
          simp only [Finset.mem_product, Finset.mem_univ, true_and, Finset.mem_image, Finset.mem_range] at hi'
          obtain ⟨l, hl, e⟩ := hi'
          rcases hi with rfl | rfl <;> simp only at e <;> omega)
        (fun y z hyz => by simp only [hyz (0, N + j) (by simp), hyz (1, N + j) (by simp)])
        (fun y z hyz => by
          rw [chainForm_dep X N c y z j fun i hi => ⟨hyz _ (by simp [hi]), hyz _ (by simp [hi])⟩])
      exact this
    have hterm : ∀ a b, ∫ ω, F a b (x ω) * G a b (s ω) ∂Pr = (∫ y, F a b y ∂(uniform01.prod uniform01)) * ∫ ω, G a b (s ω) ∂Pr := by
      intro a b
      rw [← hD.node (F a b) (mF a b) (N + j)]
      exact (hind a b).integral_fun_mul_eq_mul_integral ((mF a b).comp mx).aestronglyMeasurable ((mG a b).comp ms).aestronglyMeasurable
    have hexp : ∀ ω, chainForm (drawnEl X fun i => D i ω) N c (j + 1) ^ p * conj (chainForm (drawnEl X fun i => D i ω) N c (j + 1)) ^ p =
        ∑ a ∈ Finset.range (p + 1), ∑ b ∈ Finset.range (p + 1),
          (c (j + 1) ^ (p - a) * conj (c (j + 1)) ^ (p - b) * (p.choose a : ℂ) * (p.choose b : ℂ)) * (F a b (x ω) * G a b (s ω)) := by
      intro ω
      rw [chainForm, map_add, map_mul, map_mul, add_pow, add_pow, Finset.sum_mul_sum]
      refine Finset.sum_congr rfl fun a _ => Finset.sum_congr rfl fun b _ => ?_
      simp only [F, G, hs, hx, drawnEl]
      ring
    have hint : ∀ a b, Integrable (fun ω => F a b (x ω) * G a b (s ω)) Pr := fun a b =>
      integrable_of_norm Pr (((mF a b).comp mx).mul ((mG a b).comp ms)) (1 * (B ^ a * B ^ b)) fun ω => by
        rw [norm_mul]
        exact mul_le_mul (bx _ _ _) (bG _ _ _) (norm_nonneg _) zero_le_one
    simp only [hexp]
    rw [integral_finsetSum _ fun a _ => integrable_finsetSum _ fun b _ => (hint a b).const_mul _]
    have hdiag : ∀ a ∈ Finset.range (p + 1), ∫ ω, ∑ b ∈ Finset.range (p + 1),
        (c (j + 1) ^ (p - a) * conj (c (j + 1)) ^ (p - b) * (p.choose a : ℂ) * (p.choose b : ℂ)) * (F a b (x ω) * G a b (s ω)) ∂Pr =
        (p.factorial * (j + 1).factorial : ℂ) / ((j + 1 + p).factorial : ℂ) *
          ((∑ i ∈ Finset.range (j + 1), c i * conj (c i)) ^ a * (c (j + 1) * conj (c (j + 1))) ^ (p - a) * (p.choose a : ℂ)) := by
      intro a ha
      have hap : a ≤ p := by have := Finset.mem_range.1 ha; omega
      rw [integral_finsetSum _ fun b _ => (hint a b).const_mul _, Finset.sum_eq_single a]
      · rw [integral_const_mul, hterm]
        have e1 : ∫ y, F a a y ∂(uniform01.prod uniform01) = _ := hj.powers a (p - a)
        have e2 : ∫ ω, G a a (s ω) ∂Pr = _ := ih hlt a
        rw [e1, e2, show j + a + (p - a) + 1 = j + 1 + p by omega]
        have f1 : ((j + a).factorial : ℂ) ≠ 0 := by exact_mod_cast (j + a).factorial_ne_zero
        have f2 : ((j + 1 + p).factorial : ℂ) ≠ 0 := by exact_mod_cast (j + 1 + p).factorial_ne_zero
        have f3 : (p.choose a : ℂ) * a.factorial * (p - a).factorial = p.factorial := by exact_mod_cast Nat.choose_mul_factorial_mul_factorial hap
        have f4 : ((j + 1).factorial : ℂ) = (j + 1) * j.factorial := by exact_mod_cast Nat.factorial_succ j
        rw [mul_pow, f4, ← f3]
        field_simp
      · intro b _ hba
        rw [integral_const_mul, hterm, show ∫ y, F a b y ∂(uniform01.prod uniform01) = 0 from hj.mixed a b _ _ (Ne.symm hba), zero_mul, mul_zero]
      · intro hna; exact absurd ha hna
    rw [Finset.sum_congr rfl hdiag, ← Finset.mul_sum, ← add_pow, Finset.sum_range_succ _ (j + 1)]

/-- With the random output phase of its rail, all moments of a linear form of the last row of a random chain depend on the length of the form only. -/
theorem phased_moment {Ω : Type} [MeasurableSpace Ω] {Pr : Measure Ω} [IsProbabilityMeasure Pr] {D : Fin 3 × ℕ → Ω → ℝ} (hD : UniformDraws Pr D)
    (X : ℕ → ℝ × ℝ → Elements) (N r : ℕ) (c : ℕ → ℂ) (j : ℕ) (h : ∀ i < j, HaarNode (X (N + i)) i) (p q : ℕ) :
    ∫ ω, (exp (I * ((2 * Real.pi * D (2, r) ω : ℝ) : ℂ)) * chainForm (drawnEl X fun i => D i ω) N c j) ^ p *
      conj (exp (I * ((2 * Real.pi * D (2, r) ω : ℝ) : ℂ)) * chainForm (drawnEl X fun i => D i ω) N c j) ^ q ∂Pr =
      if p = q then (p.factorial * j.factorial : ℂ) / ((j + p).factorial : ℂ) * (∑ i ∈ Finset.range (j + 1), c i * conj (c i)) ^ p else 0 := by
  have cj : Measurable (fun z : ℂ => conj z) := Complex.continuous_conj.measurable
  let F : (Fin 3 × ℕ → ℝ) → ℂ := fun y => exp (I * ((2 * Real.pi * y (2, r) : ℝ) : ℂ)) ^ p * conj (exp (I * ((2 * Real.pi * y (2, r) : ℝ) : ℂ))) ^ q
  let G : (Fin 3 × ℕ → ℝ) → ℂ := fun y => chainForm (drawnEl X y) N c j ^ p * conj (chainForm (drawnEl X y) N c j) ^ q
  have me : Measurable fun t : ℝ => exp (I * ((2 * Real.pi * t : ℝ) : ℂ)) := by fun_prop
  have mE : Measurable fun t : ℝ => exp (I * ((2 * Real.pi * t : ℝ) : ℂ)) ^ p * conj (exp (I * ((2 * Real.pi * t : ℝ) : ℂ))) ^ q :=
    (me.pow_const p).mul ((cj.comp me).pow_const q)
  have mF : Measurable F := mE.comp (measurable_pi_apply _)
  have mG : Measurable G := ((chainForm_meas X N c j h).pow_const p).mul ((cj.comp (chainForm_meas X N c j h)).pow_const q)
  have hind := hD.split mF mG {(2, r)} (({0, 1} : Finset (Fin 3)) ×ˢ (Finset.range j).image fun i => N + i) (by
      rw [Finset.disjoint_left]
      intro i hi hi'
      rw [Finset.mem_singleton] at hi
      subst hi
      simp at hi')
    (fun y z hyz => by simp only [F, hyz (2, r) (by simp)])
    (fun y z hyz => by
      simp only [G]
      rw [chainForm_dep X N c y z j fun i hi => ⟨hyz _ (by simp [hi]), hyz _ (by simp [hi])⟩])
  have ms0 : Measurable fun ω i => D i ω := measurable_pi_iff.2 fun i => hD.meas i
  have hmul := hind.integral_fun_mul_eq_mul_integral (mF.comp ms0).aestronglyMeasurable (mG.comp ms0).aestronglyMeasurable
  have e : ∀ ω, (exp (I * ((2 * Real.pi * D (2, r) ω : ℝ) : ℂ)) * chainForm (drawnEl X fun i => D i ω) N c j) ^ p *
      conj (exp (I * ((2 * Real.pi * D (2, r) ω : ℝ) : ℂ)) * chainForm (drawnEl X fun i => D i ω) N c j) ^ q =
      F (fun i => D i ω) * G (fun i => D i ω) := by
    intro ω
    simp only [F, G, map_mul]
    ring
  have e2 : ∫ ω, F (fun i => D i ω) ∂Pr = if p = q then 1 else 0 := by
    rw [← uniform_phase p q, ← hD.law (2, r), integral_map (hD.meas _).aemeasurable mE.aestronglyMeasurable]
  simp only [e]
  rw [hmul, e2]
  split_ifs with hpq
  · subst hpq
    rw [one_mul]
    exact chainForm_moment hD X N c j h p
  · rw [zero_mul]

end Simphox
