import Verif.VectorProgram
import Mathlib.Probability.Distributions.Gaussian.Real

/-!
# `random_vector` and the vector unit it programs (C210)

`random_vector` (utils.py:241-254) draws the real and the imaginary part of every entry from a normal law of mean 0 and standard deviation 1/2. The law of the
vector is changed by no unitary matrix, so the phases of `vector_unit(random_vector(n))` have the law of `C210_vector_unit`.
-/

namespace Simphox

open Matrix Complex MeasureTheory ProbabilityTheory Set

local notation "conj" => starRingEnd ℂ

/-- `random_tensor(n)` (utils.py:257-269): `0.5 * randn(n) + 0.5 * randn(n) * 1j`; the draws of the two calls are `g (k, false)` and `g (k, true)`. -/
noncomputable def randomTensor {n : ℕ} (g : Fin n × Bool → ℝ) : Fin n → ℂ := fun k => 0.5 * (g (k, false) : ℂ) + 0.5 * (g (k, true) : ℂ) * I

/-- `random_vector(n, normed)` (utils.py:241-254). -/
noncomputable def randomVector {n : ℕ} (normed : Bool) (g : Fin n × Bool → ℝ) : Fin n → ℂ :=
  if normed then finUnit (randomTensor g) else randomTensor g

/-- Specification: independent standard normal draws. -/
structure NormalDraws {Ω ι : Type} [MeasurableSpace Ω] (Pr : Measure Ω) (g : ι → Ω → ℝ) : Prop where
  measurable : ∀ i, Measurable (g i)
  law : ∀ i, Pr.map (g i) = gaussianReal 0 1
  indep : iIndepFun g Pr

theorem measurable_randomTensor {n : ℕ} : Measurable fun g : Fin n × Bool → ℝ => randomTensor g := by
  refine measurable_pi_iff.2 fun k => ?_
  unfold randomTensor
  fun_prop

/-- A linear form of the random vector. -/
theorem randomTensor_form {n : ℕ} (c : Fin n → ℂ) (g : Fin n × Bool → ℝ) :
    (∑ i, randomTensor g i * c i).re = ∑ p : Fin n × Bool, (if p.2 then -(c p.1).im / 2 else (c p.1).re / 2) * g p := by
  rw [Fintype.sum_prod_type, Complex.re_sum]
  refine Finset.sum_congr rfl fun i _ => ?_
  rw [Fintype.sum_bool]
  simp [randomTensor, Complex.mul_re, Complex.add_re, Complex.add_im, Complex.mul_im]
  norm_num
  ring

/-- The characteristic function of the random vector. -/
theorem normal_charFun {Ω : Type} [MeasurableSpace Ω] {Pr : Measure Ω} [IsProbabilityMeasure Pr] {n : ℕ} {g : Fin n × Bool → Ω → ℝ} (hg : NormalDraws Pr g)
    (c : Fin n → ℂ) :
    ∫ ω, exp (((∑ i, randomTensor (fun p => g p ω) i * c i).re : ℝ) * I) ∂Pr = exp (-(((∑ i, ‖c i‖ ^ 2) / 8 : ℝ) : ℂ)) := by
  have hlaw : Pr.map (fun ω p => g p ω) = Measure.pi fun _ : Fin n × Bool => gaussianReal 0 1 := by
    rw [(iIndepFun_iff_map_fun_eq_pi_map fun p => (hg.measurable p).aemeasurable).1 hg.indep]
    congr 1
    funext p
    exact hg.law p
  have mg : Measurable fun ω p => g p ω := measurable_pi_iff.2 hg.measurable
  set t : Fin n × Bool → ℝ := fun p => if p.2 then -(c p.1).im / 2 else (c p.1).re / 2 with ht
  have e1 : ∀ x : Fin n × Bool → ℝ, exp (((∑ p, t p * x p : ℝ) : ℂ) * I) = ∏ p, exp ((t p : ℂ) * (x p : ℂ) * I) := by
    intro x
    rw [← Complex.exp_sum]
    congr 1
    push_cast
    rw [Finset.sum_mul]
  simp only [randomTensor_form]
  rw [← integral_map (μ := Pr) (φ := fun ω p => g p ω) (f := fun x => exp (((∑ p, t p * x p : ℝ) : ℂ) * I)) mg.aemeasurable (by
    refine Measurable.aestronglyMeasurable ?_
    have h : Measurable fun x : Fin n × Bool → ℝ => ∑ p, t p * x p := Finset.measurable_sum _ fun p _ => (measurable_pi_apply p).const_mul _
    exact Complex.measurable_exp.comp ((Complex.measurable_ofReal.comp h).mul_const I)), hlaw]
  simp only [e1]
  rw [integral_fintype_prod_eq_prod (fun (p : Fin n × Bool) (y : ℝ) => exp ((t p : ℂ) * (y : ℂ) * I))]
  have e2 : ∀ p, ∫ y, exp ((t p : ℂ) * (y : ℂ) * I) ∂gaussianReal 0 1 = exp (-((t p ^ 2 / 2 : ℝ) : ℂ)) := by
    intro p
    rw [← charFun_apply_real, charFun_gaussianReal]
    congr 1
    push_cast
    simp
  simp only [e2]
  rw [← Complex.exp_sum]
  congr 1
  rw [Finset.sum_neg_distrib, ← Complex.ofReal_sum]
  congr 2
  rw [Fintype.sum_prod_type, Finset.sum_div]
  refine Finset.sum_congr rfl fun i _ => ?_
  rw [Fintype.sum_bool, Complex.sq_norm, Complex.normSq_apply]
  simp only [ht, if_true, Bool.false_eq_true, if_false]
  ring

/-- The law of the random vector is changed by no unitary matrix. -/
theorem normal_direction {Ω : Type} [MeasurableSpace Ω] {Pr : Measure Ω} [IsProbabilityMeasure Pr] {n : ℕ} (hn : 1 ≤ n) {g : Fin n × Bool → Ω → ℝ}
    (hg : NormalDraws Pr g) : RandomDirection Pr fun ω => randomTensor fun p => g p ω := by
  have mg : Measurable fun ω p => g p ω := measurable_pi_iff.2 hg.measurable
  have mz : Measurable fun ω => randomTensor fun p => g p ω := measurable_randomTensor.comp mg
  refine ⟨mz.aemeasurable, ?_, fun A hA B hB => ?_⟩
  · have h0 : Pr (g (⟨0, by omega⟩, false) ⁻¹' {0}) = 0 := by
      rw [← Measure.map_apply (hg.measurable _) (measurableSet_singleton 0), hg.law]
      have := nullSingletonClass_gaussianReal (μ := 0) (v := 1) one_ne_zero
      exact measure_singleton 0
    refine (measure_eq_zero_iff_ae_notMem.1 h0).mono fun ω hω h => hω ?_
    have h1 := congrArg Complex.re (congrFun h ⟨0, by omega⟩)
    simp [randomTensor, Complex.mul_re, Complex.mul_im] at h1
    rcases h1 with h1 | h1
    · norm_num at h1
    · exact h1
  · have mA : Measurable fun v : Fin n → ℂ => A *ᵥ v := measurable_mulVec.comp (measurable_const.prodMk measurable_id)
    have mAz : Measurable fun ω => A *ᵥ randomTensor fun p => g p ω := mA.comp mz
    have p1 : IsProbabilityMeasure (Pr.map fun ω => randomTensor fun p => g p ω) := Measure.isProbabilityMeasure_map mz.aemeasurable
    have p2 : IsProbabilityMeasure (Pr.map fun ω => A *ᵥ randomTensor fun p => g p ω) := Measure.isProbabilityMeasure_map mAz.aemeasurable
    have key : (Pr.map fun ω => A *ᵥ randomTensor fun p => g p ω) = Pr.map fun ω => randomTensor fun p => g p ω := by
      refine Measure.ext_of_charFunDual (funext fun L => ?_)
      obtain ⟨c, hc⟩ := dual_form L
      rw [charFunDual_apply, charFunDual_apply, integral_map mAz.aemeasurable (by fun_prop), integral_map mz.aemeasurable (by fun_prop)]
      simp only [hc]
      have e1 : ∀ v : Fin n → ℂ, ∑ i, (A *ᵥ v) i * c i = ∑ i, v i * (c ᵥ* A) i := by
        intro v
        have h := dotProduct_mulVec c A v
        rw [dotProduct_comm, dotProduct_comm (c ᵥ* A)] at h
        exact h
      simp only [e1]
      rw [normal_charFun hg, normal_charFun hg]
      have e2 : ∑ i, ‖(c ᵥ* A) i‖ ^ 2 = ∑ i, ‖c i‖ ^ 2 := by
        have h := unitary_power (Unitary.star_mem hA) (star c)
        rw [star_eq_conjTranspose, ← star_vecMul] at h
        simpa only [Pi.star_apply, norm_star] using h
      rw [e2]
    have h := congrArg (fun μ => μ B) key
    simp only [Measure.map_apply mAz hB, Measure.map_apply mz hB] at h
    exact h

/-- C210: the phases of `vector_unit(random_vector(n, normed))`. -/
theorem C210_random_vector {Ω : Type} [MeasurableSpace Ω] (Pr : Measure Ω) [IsProbabilityMeasure Pr] (n : ℕ) (hn : 2 ≤ n) (balanced normed : Bool)
    (g : Fin n × Bool → Ω → ℝ) (hg : NormalDraws Pr g) (A F : ℕ → Set ℝ) (C : Set ℝ) (hA : ∀ k, MeasurableSet (A k)) (hF : ∀ k, MeasurableSet (F k))
    (hC : MeasurableSet C) :
    Pr {ω | ∃ P w, vectorUnit 0 .top 0 n balanced (padFin 0 (randomVector normed fun p => g p ω)) = some (errorMesh (tree n n balanced) 0 .top, P, w) ∧
      (∀ a ∈ tree n n balanced, P.thetas a.id ∈ A a.id ∧ P.phis a.id ∈ F a.id) ∧ P.gammas (n - 1) ∈ C} =
      ((tree n n balanced).map fun a => splitLaw (topInputs (tree n n balanced) a) (bottomInputs (tree n n balanced) a) (A a.id) * turnLaw 0 (F a.id)).prod *
        turnLaw (-Real.pi) C := by
  have h := normal_direction (by omega) hg
  refine C210_vector_unit Pr n hn balanced (fun ω => randomVector normed fun p => g p ω) ?_ A F C hA hF hC
  cases normed
  · exact h
  · exact h.unit

/-- The hypotheses of `C210_random_vector` hold, for every number of inputs, for the coordinates of a product of normal laws, and those of `C210_vector_unit` for
the vectors made of them; in the balanced unit of 5 inputs the nodes merge 1 and 1, 1 and 1, 1 and 2, and 2 and 3 inputs. -/
theorem C210_case : NormalDraws (Measure.pi fun _ : Fin 5 × Bool => gaussianReal 0 1) (fun p x => x p) ∧
    RandomDirection (Measure.pi fun _ : Fin 5 × Bool => gaussianReal 0 1) (fun x => randomTensor x) ∧
    (tree 5 5 true).map (fun a => (topInputs (tree 5 5 true) a, bottomInputs (tree 5 5 true) a)) = [(2, 3), (1, 1), (1, 2), (1, 1)] := by
  have h : NormalDraws (Measure.pi fun _ : Fin 5 × Bool => gaussianReal 0 1) (fun p x => x p) :=
    ⟨fun p => measurable_pi_apply p, fun p => (measurePreserving_eval (fun _ : Fin 5 × Bool => gaussianReal 0 1) p).map_eq,
      iIndepFun_pi (X := fun _ x => x) fun _ => aemeasurable_id⟩
  exact ⟨h, normal_direction (by norm_num) h, by decide +kernel⟩

end Simphox
