import Verif.HaarRectangular
import Verif.CascadeRandom
import Verif.UtilsProps

/-!
# The error of freshly drawn meshes (C214)

`normalized_error(u)(mesh.matrix())` (utils.py:285-303) of a mesh with freshly drawn settings. The settings are the model of C206, the error that of C29.
-/

namespace Simphox

open Matrix Complex MeasureTheory ProbabilityTheory Set

local notation "conj" => starRingEnd ℂ

/-- A fixed unitary matrix times a Haar-random matrix is Haar-random. -/
theorem HaarRandom.mul_left {Ω : Type} [MeasurableSpace Ω] {Pr : Measure Ω} {n : ℕ} {U : Ω → Matrix (Fin n) (Fin n) ℂ} (hU : HaarRandom Pr U)
    {V : Matrix (Fin n) (Fin n) ℂ} (hV : V ∈ unitaryGroup (Fin n) ℂ) : HaarRandom Pr fun ω => V * U ω := by
  have ml : ∀ A : Matrix (Fin n) (Fin n) ℂ, Measurable fun M => A * M := fun A => measurable_mat_mul measurable_const measurable_id
  refine ⟨fun ω => mul_mem hV (hU.unitary ω), (ml V).comp_aemeasurable hU.measurable, fun A hA B hB => ?_, fun A hA B hB => ?_⟩
  · rw [hU.left V hV B hB]
    simp only [← Matrix.mul_assoc]
    exact hU.left (A * V) (mul_mem hA hV) B hB
  · simp only [Matrix.mul_assoc]
    exact hU.right A hA ((fun M => V * M) ⁻¹' B) (ml V hB)

theorem HaarRandom.integral_left {Ω : Type} [MeasurableSpace Ω] {Pr : Measure Ω} {n : ℕ} {U : Ω → Matrix (Fin n) (Fin n) ℂ} (hU : HaarRandom Pr U)
    {A : Matrix (Fin n) (Fin n) ℂ} (hA : A ∈ unitaryGroup (Fin n) ℂ) {F : Matrix (Fin n) (Fin n) ℂ → ℂ} (hF : Measurable F) :
    ∫ ω, F (A * U ω) ∂Pr = ∫ ω, F (U ω) ∂Pr := by
  have ml : Measurable fun M : Matrix (Fin n) (Fin n) ℂ => A * M := measurable_mat_mul measurable_const measurable_id
  have hm : AEMeasurable (fun ω => A * U ω) Pr := ml.comp_aemeasurable hU.measurable
  have e : Pr.map (fun ω => A * U ω) = Pr.map U := by
    ext C hC
    rw [Measure.map_apply_of_aemeasurable hm hC, Measure.map_apply_of_aemeasurable hU.measurable hC]
    exact hU.left A hA C hC
  rw [← integral_map hm hF.aestronglyMeasurable, ← integral_map hU.measurable hF.aestronglyMeasurable, e]

theorem flip_unitary {n : ℕ} (i : Fin n) : Matrix.diagonal (fun k => if k = i then (-1 : ℂ) else 1) ∈ unitaryGroup (Fin n) ℂ := by
  rw [mem_unitaryGroup_iff, star_eq_conjTranspose, diagonal_conjTranspose, diagonal_mul_diagonal, ← diagonal_one]
  congr 1
  funext k
  by_cases h : k = i <;> simp [h]

theorem entry_le {n : ℕ} {U : Matrix (Fin n) (Fin n) ℂ} (hU : U ∈ unitaryGroup (Fin n) ℂ) (i j : Fin n) : ‖U i j‖ ≤ 1 :=
  entry_norm_bound_of_unitary hU i j

/-- The mean square of the trace of a Haar-random matrix is 1. -/
theorem HaarRandom.trace {Ω : Type} [MeasurableSpace Ω] {Pr : Measure Ω} [IsProbabilityMeasure Pr] {n : ℕ} (hn : 2 ≤ n) {U : Ω → Matrix (Fin n) (Fin n) ℂ}
    (hU : HaarRandom Pr U) : Integrable (fun ω => ‖(U ω).trace‖ ^ 2) Pr ∧ ∫ ω, ‖(U ω).trace‖ ^ 2 ∂Pr = 1 := by
  have me : ∀ i j : Fin n, Measurable fun M : Matrix (Fin n) (Fin n) ℂ => M i i * conj (M j j) := fun i j =>
    (measurable_entry measurable_id i i).mul (Complex.continuous_conj.measurable.comp (measurable_entry measurable_id j j))
  have hi : ∀ i j : Fin n, Integrable (fun ω => U ω i i * conj (U ω j j)) Pr := by
    intro i j
    refine Integrable.of_bound ((me i j).comp_aemeasurable hU.measurable).aestronglyMeasurable 1 (Filter.Eventually.of_forall fun ω => ?_)
    rw [norm_mul, RCLike.norm_conj]
    exact mul_le_one₀ (entry_le (hU.unitary ω) i i) (norm_nonneg _) (entry_le (hU.unitary ω) j j)
  have off : ∀ i j : Fin n, ∫ ω, U ω i i * conj (U ω j j) ∂Pr = if i = j then 1 / (n : ℂ) else 0 := by
    intro i j
    by_cases hij : i = j
    · subst hij
      rw [if_pos rfl]
      exact (HaarRandom.moments hn hU i).mean i
    · rw [if_neg hij]
      have h := hU.integral_left (flip_unitary i) (me i j)
      simp only [diagonal_mul, if_true, if_neg (Ne.symm hij), one_mul, neg_mul] at h
      rw [integral_neg] at h
      have h2 : (2 : ℂ) * ∫ ω, U ω i i * conj (U ω j j) ∂Pr = 0 := by
        linear_combination -h
      exact (mul_eq_zero.1 h2).resolve_left two_ne_zero
  have ex : ∀ ω, ((‖(U ω).trace‖ ^ 2 : ℝ) : ℂ) = ∑ i, ∑ j, U ω i i * conj (U ω j j) := by
    intro ω
    rw [← Complex.normSq_eq_norm_sq, ← Complex.mul_conj, Matrix.trace, map_sum, Finset.sum_mul_sum]
    rfl
  have hI : Integrable (fun ω => ((‖(U ω).trace‖ ^ 2 : ℝ) : ℂ)) Pr := by
    simp only [ex]
    exact integrable_finsetSum _ fun i _ => integrable_finsetSum _ fun j _ => hi i j
  refine ⟨by simpa only [RCLike.re_eq_complex_re, Complex.ofReal_re] using hI.re, ?_⟩
  have : ((∫ ω, ‖(U ω).trace‖ ^ 2 ∂Pr : ℝ) : ℂ) = 1 := by
    rw [← integral_complex_ofReal]
    simp only [ex]
    rw [integral_finsetSum _ fun i _ => integrable_finsetSum _ fun j _ => hi i j]
    have : ∀ i : Fin n, ∫ ω, ∑ j, U ω i i * conj (U ω j j) ∂Pr = 1 / (n : ℂ) := by
      intro i
      rw [integral_finsetSum _ fun j _ => hi i j]
      simp only [off, Finset.sum_ite_eq, Finset.mem_univ, if_true]
    simp only [this, Finset.sum_const, Finset.card_univ, Fintype.card_fin, nsmul_eq_mul]
    have : (n : ℂ) ≠ 0 := by exact_mod_cast (by omega : n ≠ 0)
    field_simp
  exact_mod_cast this

theorem error_sq {n : ℕ} (hn : 2 ≤ n) {V U : Matrix (Fin n) (Fin n) ℂ} (hV : V ∈ unitaryGroup (Fin n) ℂ) (hU : U ∈ unitaryGroup (Fin n) ℂ) :
    normalizedError V U ^ 2 = 1 - ‖(star V * U).trace‖ ^ 2 / (n : ℝ) ^ 2 := by
  have h0 : (0 : ℝ) < n := by exact_mod_cast (by omega : 0 < n)
  have hb : ‖(star V * U).trace‖ ≤ n := by
    rw [Matrix.trace]
    refine (norm_sum_le _ _).trans ((Finset.sum_le_sum fun i _ => entry_le (mul_mem (Unitary.star_mem hV) hU) i i).trans ?_)
    simp
  have e : ‖(U.conjTranspose * U).trace‖ = n := by
    rw [trace_unitary hU]
    simp
  unfold normalizedError
  rw [e, Real.sq_sqrt]
  · rfl
  · rw [sub_nonneg, div_le_one (by positivity)]
    exact pow_le_pow_left₀ (norm_nonneg _) hb 2

theorem measurable_error {n : ℕ} (V : Matrix (Fin n) (Fin n) ℂ) : Measurable fun M : Matrix (Fin n) (Fin n) ℂ => normalizedError V M := by
  have ml : ∀ A : Matrix (Fin n) (Fin n) ℂ, Measurable fun M => A * M := fun A => measurable_mat_mul measurable_const measurable_id
  have mt : Measurable fun M : Matrix (Fin n) (Fin n) ℂ => M.trace :=
    Finset.measurable_sum _ fun i _ => measurable_entry measurable_id i i
  refine Real.continuous_sqrt.measurable.comp (measurable_const.sub (Measurable.div ?_ ?_))
  · exact (mt.comp (ml _)).norm.pow_const 2
  · exact (mt.comp (measurable_mat_mul measurable_star_mat measurable_id)).norm.pow_const 2

/-- C214: the error of a Haar-random matrix has the mean square `1 - 1 / n²` for every target, and comes below `t < 1` with a probability of at most
`1 / (n² (1 - t²))`. -/
theorem C214_haar {Ω : Type} [MeasurableSpace Ω] (Pr : Measure Ω) [IsProbabilityMeasure Pr] (n : ℕ) (hn : 2 ≤ n) (U : Ω → Matrix (Fin n) (Fin n) ℂ)
    (hU : HaarRandom Pr U) (V : Matrix (Fin n) (Fin n) ℂ) (hV : V ∈ unitaryGroup (Fin n) ℂ) :
    ∫ ω, normalizedError V (U ω) ^ 2 ∂Pr = 1 - 1 / (n : ℝ) ^ 2 ∧
    ∀ t, 0 ≤ t → t < 1 → Pr.real {ω | normalizedError V (U ω) ≤ t} ≤ 1 / ((n : ℝ) ^ 2 * (1 - t ^ 2)) := by
  have h0 : (0 : ℝ) < n := by exact_mod_cast (by omega : 0 < n)
  obtain ⟨hi, ht⟩ := HaarRandom.trace hn (hU.mul_left (Unitary.star_mem hV))
  constructor
  · simp only [fun ω => error_sq hn hV (hU.unitary ω)]
    rw [integral_sub (integrable_const _) (hi.div_const _), integral_div, ht]
    simp
  · intro t ht0 ht1
    have h1 : 0 < 1 - t ^ 2 := by nlinarith
    have hm := mul_meas_ge_le_integral_of_nonneg (Filter.Eventually.of_forall fun ω => sq_nonneg ‖(star V * U ω).trace‖) hi ((n : ℝ) ^ 2 * (1 - t ^ 2))
    rw [ht] at hm
    rw [le_div_iff₀ (by positivity), mul_comm]
    refine le_trans (mul_le_mul_of_nonneg_left (measureReal_mono fun ω hω => ?_) (by positivity)) hm
    have h2 : normalizedError V (U ω) ^ 2 ≤ t ^ 2 := pow_le_pow_left₀ (Real.sqrt_nonneg _) hω 2
    rw [error_sq hn hV (hU.unitary ω)] at h2
    have h3 : 1 - t ^ 2 ≤ ‖(star V * U ω).trace‖ ^ 2 / (n : ℝ) ^ 2 := by linarith
    rw [le_div_iff₀ (by positivity)] at h3
    show (n : ℝ) ^ 2 * (1 - t ^ 2) ≤ ‖(star V * U ω).trace‖ ^ 2
    linarith

/-- C214: the errors of Haar-random matrices have one law, whatever the target and the Haar-random matrix. -/
theorem C214_one_law {Ω Ω' : Type} [MeasurableSpace Ω] [MeasurableSpace Ω'] (Pr : Measure Ω) [IsProbabilityMeasure Pr] (Pr' : Measure Ω')
    [IsProbabilityMeasure Pr'] (n : ℕ) (U : Ω → Matrix (Fin n) (Fin n) ℂ) (hU : HaarRandom Pr U) (U' : Ω' → Matrix (Fin n) (Fin n) ℂ)
    (hU' : HaarRandom Pr' U') (V V' : Matrix (Fin n) (Fin n) ℂ) (hV : V ∈ unitaryGroup (Fin n) ℂ) (hV' : V' ∈ unitaryGroup (Fin n) ℂ)
    (B : Set ℝ) (hB : MeasurableSet B) : Pr {ω | normalizedError V (U ω) ∈ B} = Pr' {ω | normalizedError V' (U' ω) ∈ B} := by
  have e : ∀ A ∈ unitaryGroup (Fin n) ℂ, ∀ M ∈ unitaryGroup (Fin n) ℂ, normalizedError A M = normalizedError 1 (star A * M) := by
    intro A hA M hM
    unfold normalizedError
    rw [trace_unitary hM, trace_unitary (mul_mem (Unitary.star_mem hA) hM), conjTranspose_one, Matrix.one_mul]
    rfl
  have h := (hU.mul_left (Unitary.star_mem hV)).law_unique (hU'.mul_left (Unitary.star_mem hV')) ((fun M => normalizedError 1 M) ⁻¹' B) (measurable_error 1 hB)
  simp only [fun ω => e V hV _ (hU.unitary ω), fun ω => e V' hV' _ (hU'.unitary ω)]
  exact h

/-- C214: a freshly drawn triangular mesh. -/
theorem C214_triangular {Ω : Type} [MeasurableSpace Ω] (Pr : Measure Ω) [IsProbabilityMeasure Pr] (eps : ℝ) (heps : 0 ≤ eps) (n : ℕ) (hn : 2 ≤ n)
    (u : Matrix (Fin n) (Fin n) ℂ) (hu : u ∈ unitaryGroup (Fin n) ℂ) (binv : ℕ → ℕ → ℝ → ℝ) (hb : IsBetaincinvFamily binv)
    (D : Fin 3 × ℕ → Ω → ℝ) (hD : UniformDraws Pr D) :
    ∃ M P, cascade eps .top 0 n false u = some (M, P) ∧ ∀ V ∈ unitaryGroup (Fin n) ℂ,
      ∫ ω, normalizedError V (M.matrix n (freshParams binv M.nodes (fun k => (D (0, k) ω, D (1, k) ω)) (fun r => D (2, r) ω)) false) ^ 2 ∂Pr =
        1 - 1 / (n : ℝ) ^ 2 ∧
      ∀ t, 0 ≤ t → t < 1 → Pr.real {ω | normalizedError V
        (M.matrix n (freshParams binv M.nodes (fun k => (D (0, k) ω, D (1, k) ω)) (fun r => D (2, r) ω)) false) ≤ t} ≤ 1 / ((n : ℝ) ^ 2 * (1 - t ^ 2)) := by
  obtain ⟨M, P, h1, h2⟩ := C206_triangular Pr eps heps n hn u hu binv hb D hD
  exact ⟨M, P, h1, fun V hV => C214_haar Pr n hn _ h2 V hV⟩

/-- C214: a freshly drawn rectangular mesh. -/
theorem C214_rectangular {Ω : Type} [MeasurableSpace Ω] (Pr : Measure Ω) [IsProbabilityMeasure Pr] (n : ℕ) (hn : 2 ≤ n) (u : Matrix (Fin n) (Fin n) ℂ)
    (binv : ℕ → ℕ → ℝ → ℝ) (hb : IsBetaincinvFamily binv) (D : Fin 3 × ℕ → Ω → ℝ) (hD : UniformDraws Pr D) :
    ∀ V ∈ unitaryGroup (Fin n) ℂ,
      ∫ ω, normalizedError V ((rectangular n u).1.matrix n
        (freshParams binv (rectangular n u).1.nodes (fun k => (D (0, k) ω, D (1, k) ω)) (fun r => D (2, r) ω)) false) ^ 2 ∂Pr = 1 - 1 / (n : ℝ) ^ 2 ∧
      ∀ t, 0 ≤ t → t < 1 → Pr.real {ω | normalizedError V ((rectangular n u).1.matrix n
        (freshParams binv (rectangular n u).1.nodes (fun k => (D (0, k) ω, D (1, k) ω)) (fun r => D (2, r) ω)) false) ≤ t} ≤
          1 / ((n : ℝ) ^ 2 * (1 - t ^ 2)) :=
  fun V hV => C214_haar Pr n hn _ (C207_rectangular Pr n (by omega) u binv hb D hD) V hV

/-- C214, the hypotheses can be met, and the bound says something: an 8-rail mesh comes within error 1/2 of a given target with a probability below 1/47. -/
theorem C214_case : ∃ (binv : ℕ → ℕ → ℝ → ℝ) (Ω : Type) (_ : MeasurableSpace Ω) (Pr : Measure Ω) (D : Fin 3 × ℕ → Ω → ℝ),
    IsProbabilityMeasure Pr ∧ IsBetaincinvFamily binv ∧ UniformDraws Pr D ∧
    Pr.real {ω | normalizedError 1 ((rectangular 8 1).1.matrix 8
      (freshParams binv (rectangular 8 1).1.nodes (fun k => (D (0, k) ω, D (1, k) ω)) (fun r => D (2, r) ω)) false) ≤ 1 / 2} < 1 / 47 := by
  obtain ⟨binv, hb, -⟩ := exists_binv
  have hU01 : IsProbabilityMeasure uniform01 := ⟨by simp [uniform01]⟩
  have hD : UniformDraws (Measure.infinitePi fun _ : Fin 3 × ℕ => uniform01) (fun i ω => ω i) :=
    ⟨fun i => measurable_pi_apply i, fun i => Measure.infinitePi_map_eval _ i, iIndepFun_infinitePi (X := fun _ x => x) fun _ => measurable_id⟩
  refine ⟨binv, Fin 3 × ℕ → ℝ, inferInstance, Measure.infinitePi fun _ : Fin 3 × ℕ => uniform01, fun i ω => ω i, inferInstance, hb, hD, ?_⟩
  refine lt_of_le_of_lt ((C214_rectangular _ 8 (by norm_num) 1 binv hb _ hD 1 (one_mem _)).2 (1 / 2) (by norm_num) (by norm_num)) (by norm_num)

end Simphox
