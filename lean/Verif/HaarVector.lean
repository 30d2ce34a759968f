import Verif.HaarProgram
import Verif.RandomTreeProps
import Verif.VectorProps
import Mathlib.Data.Nat.Choose.Multinomial

/-!
# Random directions

A random vector whose law no unitary matrix changes. Its direction has one law (`direction_unique`), and a random unit vector with the moments of a row of a
Haar-random matrix (`HaarMoments`) has that law.
-/

namespace Simphox

open Matrix Complex MeasureTheory ProbabilityTheory Set

local notation "conj" => starRingEnd ℂ

/-- Specification: the law of the random vector is changed by no fixed unitary matrix, and the vector is almost surely not zero. -/
structure RandomDirection {Ω : Type} [MeasurableSpace Ω] (Pr : Measure Ω) {n : ℕ} (v : Ω → Fin n → ℂ) : Prop where
  measurable : AEMeasurable v Pr
  nonzero : ∀ᵐ ω ∂Pr, v ω ≠ 0
  invariant : ∀ A ∈ unitaryGroup (Fin n) ℂ, ∀ B, MeasurableSet B → Pr {ω | A *ᵥ v ω ∈ B} = Pr {ω | v ω ∈ B}

/-- `norm(v)`. -/
noncomputable def finNorm {n : ℕ} (v : Fin n → ℂ) : ℝ := Real.sqrt (∑ i, ‖v i‖ ^ 2)

/-- `v / norm(v)`. -/
noncomputable def finUnit {n : ℕ} (v : Fin n → ℂ) : Fin n → ℂ := fun i => v i / (finNorm v : ℂ)

theorem measurable_mulVec {n : ℕ} : Measurable fun p : Matrix (Fin n) (Fin n) ℂ × (Fin n → ℂ) => p.1 *ᵥ p.2 := by
  refine measurable_pi_iff.2 fun i => ?_
  have h : Measurable fun p : Matrix (Fin n) (Fin n) ℂ × (Fin n → ℂ) => ∑ j, p.1 i j * p.2 j :=
    Finset.measurable_sum _ fun j _ => (measurable_entry measurable_fst i j).mul ((measurable_pi_apply j).comp measurable_snd)
  exact h

theorem measurable_finNorm {n : ℕ} : Measurable fun v : Fin n → ℂ => finNorm v := by
  have h : Measurable fun v : Fin n → ℂ => ∑ i, ‖v i‖ ^ 2 := Finset.measurable_sum _ fun i _ => ((measurable_pi_apply i).norm).pow_const 2
  exact Real.continuous_sqrt.measurable.comp h

theorem measurable_finUnit {n : ℕ} : Measurable fun v : Fin n → ℂ => finUnit v := by
  refine measurable_pi_iff.2 fun i => ?_
  exact (measurable_pi_apply i).div (Complex.measurable_ofReal.comp measurable_finNorm)

theorem finNorm_pos {n : ℕ} {v : Fin n → ℂ} (h : v ≠ 0) : 0 < finNorm v := by
  refine Real.sqrt_pos.2 ?_
  obtain ⟨i, hi⟩ := Function.ne_iff.1 h
  refine Finset.sum_pos' (fun _ _ => sq_nonneg _) ⟨i, Finset.mem_univ _, ?_⟩
  have : 0 < ‖v i‖ := norm_pos_iff.2 hi
  positivity

theorem finNorm_finUnit {n : ℕ} {v : Fin n → ℂ} (h : v ≠ 0) : ∑ i, ‖finUnit v i‖ ^ 2 = 1 := by
  have h0 := finNorm_pos h
  have h1 : finNorm v ^ 2 = ∑ i, ‖v i‖ ^ 2 := Real.sq_sqrt (Finset.sum_nonneg fun _ _ => sq_nonneg _)
  simp only [finUnit, norm_div, div_pow, Complex.norm_real, Real.norm_eq_abs, sq_abs]
  rw [← Finset.sum_div, ← h1, div_self (by positivity)]

theorem finNorm_mulVec {n : ℕ} {A : Matrix (Fin n) (Fin n) ℂ} (hA : A ∈ unitaryGroup (Fin n) ℂ) (v : Fin n → ℂ) : finNorm (A *ᵥ v) = finNorm v := by
  have h : ∀ w : Fin n → ℂ, ((∑ i, ‖w i‖ ^ 2 : ℝ) : ℂ) = star w ⬝ᵥ w := by
    intro w
    rw [dotProduct]
    push_cast
    refine Finset.sum_congr rfl fun i _ => ?_
    rw [← Complex.conj_mul']
    rfl
  unfold finNorm
  congr 1
  have : ((∑ i, ‖(A *ᵥ v) i‖ ^ 2 : ℝ) : ℂ) = ((∑ i, ‖v i‖ ^ 2 : ℝ) : ℂ) := by
    rw [h, h, star_mulVec, dotProduct_mulVec, vecMul_vecMul, ← star_eq_conjTranspose, mem_unitaryGroup_iff'.1 hA, vecMul_one]
  exact_mod_cast this

theorem finUnit_mulVec {n : ℕ} {A : Matrix (Fin n) (Fin n) ℂ} (hA : A ∈ unitaryGroup (Fin n) ℂ) (v : Fin n → ℂ) : finUnit (A *ᵥ v) = A *ᵥ finUnit v := by
  funext i
  simp only [finUnit, finNorm_mulVec hA]
  simp only [mulVec, dotProduct, Finset.sum_div, mul_div_assoc]
  rfl

/-- The direction of a random direction is one. -/
theorem RandomDirection.unit {Ω : Type} [MeasurableSpace Ω] {Pr : Measure Ω} {n : ℕ} {v : Ω → Fin n → ℂ} (h : RandomDirection Pr v) :
    RandomDirection Pr fun ω => finUnit (v ω) := by
  refine ⟨measurable_finUnit.comp_aemeasurable h.measurable, ?_, fun A hA B hB => ?_⟩
  · filter_upwards [h.nonzero] with ω h0 h1
    have := finNorm_finUnit h0
    simp [h1] at this
  · simp only [← finUnit_mulVec hA]
    exact h.invariant A hA _ (measurable_finUnit hB)

/-- Every unit vector is the image of the last basis vector under a unitary matrix. -/
theorem unit_transitive {n : ℕ} (hn : 2 ≤ n) {x : Fin n → ℂ} (hx : ∑ i, ‖x i‖ ^ 2 = 1) :
    ∃ g ∈ unitaryGroup (Fin n) ℂ, g *ᵥ (fun r : Fin n => if r.val + 1 = n then (1 : ℂ) else 0) = x := by
  obtain ⟨P, w, h1⟩ : ∃ P w, vectorUnit 0 .top 0 n true (padFin 0 x) = some (errorMesh (tree n n true) 0 .top, P, w) := by
    obtain ⟨M, P, w, h1, -⟩ := C14_vector_unit 0 le_rfl .top (Or.inl rfl) n hn true (padFin 0 x)
    have h3 := h1
    simp only [vectorUnit, Option.bind_eq_bind, Option.bind_eq_some_iff] at h3
    obtain ⟨⟨P', w'⟩, h4, h5⟩ := h3
    simp only [Option.some.injEq, Prod.mk.injEq] at h5
    refine ⟨P, w, ?_⟩
    rw [h1, ← h5.1]
  obtain ⟨M, P', w', h2, h3⟩ := C14_vector_unit_exact .top (Or.inl rfl) n hn true (padFin 0 x)
  rw [h1] at h2
  simp only [Option.some.injEq, Prod.mk.injEq] at h2
  obtain ⟨rfl, rfl, rfl⟩ := h2
  have hwf : (errorMesh (tree n n true) 0 .top).WellFormed n := by
    have := tree_wellFormed n hn true .top
    exact this
  have hU := C06_lossless_unitary n _ hwf (errorMesh_lossless _ _ _) P false
  have hr : restrict n (padFin 0 x) = x := by funext i; simp [restrict, padFin]
  rw [hr, hx] at h3
  refine ⟨_, Unitary.star_mem hU, ?_⟩
  have h4 : (fun r : Fin n => if r.val + 1 = n then (1 : ℂ) else 0) = (errorMesh (tree n n true) 0 .top).matrix n P false *ᵥ x := by
    rw [h3]; simp
  rw [h4, mulVec_mulVec, mem_unitaryGroup_iff'.1 hU, one_mulVec]

/-- There are Haar-random matrices of every size. -/
theorem exists_haar {n : ℕ} (hn : 2 ≤ n) : ∃ (Ω : Type) (_ : MeasurableSpace Ω) (Pr : Measure Ω) (U : Ω → Matrix (Fin n) (Fin n) ℂ),
    IsProbabilityMeasure Pr ∧ HaarRandom Pr U := by
  obtain ⟨binv, hb, -⟩ := exists_measurable_betaincinv
  have hD : UniformDraws (Measure.infinitePi fun _ : Fin 3 × ℕ => uniform01) (fun i ω => ω i) :=
    ⟨fun i => measurable_pi_apply i, fun i => Measure.infinitePi_map_eval _ i, iIndepFun_infinitePi (X := fun _ x => x) fun _ => measurable_id⟩
  obtain ⟨M, P, -, h⟩ := C206_triangular (Measure.infinitePi fun _ : Fin 3 × ℕ => uniform01) 0 le_rfl n hn 1 (one_mem _) binv hb _ hD
  exact ⟨Fin 3 × ℕ → ℝ, inferInstance, Measure.infinitePi fun _ : Fin 3 × ℕ => uniform01, _, inferInstance, h⟩

/-- The average of a bounded continuous function over a random unit direction is its average over the images of the last basis vector. -/
theorem direction_average {Ω K : Type} [MeasurableSpace Ω] [MeasurableSpace K] {Pr : Measure Ω} [IsProbabilityMeasure Pr] {κ : Measure K}
    [IsProbabilityMeasure κ] {n : ℕ} (hn : 2 ≤ n) {x : Ω → Fin n → ℂ} (h : RandomDirection Pr x) (h1 : ∀ᵐ ω ∂Pr, ∑ i, ‖x ω i‖ ^ 2 = 1)
    {U : K → Matrix (Fin n) (Fin n) ℂ} (hU : HaarRandom κ U) (f : BoundedContinuousFunction (Fin n → ℂ) ℝ) :
    ∫ ω, f (x ω) ∂Pr = ∫ k, f (U k *ᵥ fun r : Fin n => if r.val + 1 = n then (1 : ℂ) else 0) ∂κ := by
  set e : Fin n → ℂ := fun r : Fin n => if r.val + 1 = n then (1 : ℂ) else 0
  have hf : Measurable f := f.continuous.measurable
  have mA : ∀ A : Matrix (Fin n) (Fin n) ℂ, Measurable fun v : Fin n → ℂ => A *ᵥ v := fun A => measurable_mulVec.comp (measurable_const.prodMk measurable_id)
  have mv : ∀ v : Fin n → ℂ, Measurable fun A : Matrix (Fin n) (Fin n) ℂ => A *ᵥ v := fun v => measurable_mulVec.comp (measurable_id.prodMk measurable_const)
  have mr : ∀ A : Matrix (Fin n) (Fin n) ℂ, Measurable fun M => M * A := fun A => measurable_mat_mul measurable_id measurable_const
  have mfe : Measurable fun M : Matrix (Fin n) (Fin n) ℂ => f (M *ᵥ e) := hf.comp (mv e)
  have p1 : IsProbabilityMeasure (Pr.map x) := Measure.isProbabilityMeasure_map h.measurable
  have p2 : IsProbabilityMeasure (κ.map U) := Measure.isProbabilityMeasure_map hU.measurable
  -- invariance of the vector
  have i1 : ∀ A ∈ unitaryGroup (Fin n) ℂ, ∫ v, f (A *ᵥ v) ∂(Pr.map x) = ∫ v, f v ∂(Pr.map x) := by
    intro A hA
    have : (Pr.map x).map (fun v => A *ᵥ v) = Pr.map x := by
      ext C hC
      rw [Measure.map_apply (mA A) hC, Measure.map_apply_of_aemeasurable h.measurable (mA A hC), Measure.map_apply_of_aemeasurable h.measurable hC]
      exact h.invariant A hA C hC
    conv_rhs => rw [← this, integral_map (mA A).aemeasurable hf.aestronglyMeasurable]
  -- the average over the matrix does not depend on the unit vector
  have i2 : ∀ v : Fin n → ℂ, ∑ i, ‖v i‖ ^ 2 = 1 → ∫ M, f (M *ᵥ v) ∂(κ.map U) = ∫ M, f (M *ᵥ e) ∂(κ.map U) := by
    intro v hv
    obtain ⟨g, hg, rfl⟩ := unit_transitive hn hv
    have : (κ.map U).map (fun M => M * g) = κ.map U := by
      ext C hC
      rw [Measure.map_apply (mr g) hC, Measure.map_apply_of_aemeasurable hU.measurable (mr g hC), Measure.map_apply_of_aemeasurable hU.measurable hC]
      exact hU.right g hg C hC
    conv_rhs => rw [← this, integral_map (mr g).aemeasurable mfe.aestronglyMeasurable]
    simp only [mulVec_mulVec]
    rfl
  have hc : MeasurableSet {M : Matrix (Fin n) (Fin n) ℂ | M ∈ unitaryGroup (Fin n) ℂ} := by
    have := (head_compact n n).isClosed.measurableSet
    convert this using 1
    ext M
    exact ⟨fun hM => ⟨hM, fun i j hj => absurd hj (by omega)⟩, fun hM => hM.1⟩
  have u1 : ∀ᵐ M ∂(κ.map U), M ∈ unitaryGroup (Fin n) ℂ := (ae_map_iff hU.measurable hc).2 (Filter.Eventually.of_forall hU.unitary)
  have hs : MeasurableSet {v : Fin n → ℂ | ∑ i, ‖v i‖ ^ 2 = 1} :=
    (Finset.measurable_sum _ fun i _ => ((measurable_pi_apply i).norm).pow_const 2 : Measurable fun v : Fin n → ℂ => ∑ i, ‖v i‖ ^ 2)
      (measurableSet_singleton 1)
  have u2 : ∀ᵐ v ∂(Pr.map x), ∑ i, ‖v i‖ ^ 2 = 1 := (ae_map_iff h.measurable hs).2 h1
  have a1 : ∫ M, ∫ v, f (M *ᵥ v) ∂(Pr.map x) ∂(κ.map U) = ∫ v, f v ∂(Pr.map x) := by
    rw [integral_congr_ae (g := fun _ => ∫ v, f v ∂(Pr.map x)) (by filter_upwards [u1] with M hM using i1 M hM)]
    simp
  have a2 : ∫ v, ∫ M, f (M *ᵥ v) ∂(κ.map U) ∂(Pr.map x) = ∫ M, f (M *ᵥ e) ∂(κ.map U) := by
    rw [integral_congr_ae (g := fun _ => ∫ M, f (M *ᵥ e) ∂(κ.map U)) (by filter_upwards [u2] with v hv using i2 v hv)]
    simp
  have sw : ∫ M, ∫ v, f (M *ᵥ v) ∂(Pr.map x) ∂(κ.map U) = ∫ v, ∫ M, f (M *ᵥ v) ∂(κ.map U) ∂(Pr.map x) := by
    refine integral_integral_swap (f := fun M v => f (M *ᵥ v)) ?_
    refine Integrable.of_bound (hf.comp measurable_mulVec).aestronglyMeasurable ‖f‖ (Filter.Eventually.of_forall fun p => f.norm_coe_le_norm _)
  rw [← integral_map h.measurable hf.aestronglyMeasurable, ← a1, sw, a2, integral_map hU.measurable mfe.aestronglyMeasurable]

/-- All random unit directions have the same law. -/
theorem direction_unique {Ω Ω' : Type} [MeasurableSpace Ω] [MeasurableSpace Ω'] {Pr : Measure Ω} [IsProbabilityMeasure Pr] {Pr' : Measure Ω'}
    [IsProbabilityMeasure Pr'] {n : ℕ} (hn : 2 ≤ n) {x : Ω → Fin n → ℂ} (h : RandomDirection Pr x) (h1 : ∀ᵐ ω ∂Pr, ∑ i, ‖x ω i‖ ^ 2 = 1)
    {y : Ω' → Fin n → ℂ} (h' : RandomDirection Pr' y) (h1' : ∀ᵐ ω ∂Pr', ∑ i, ‖y ω i‖ ^ 2 = 1) : Pr.map x = Pr'.map y := by
  obtain ⟨K, _, κ, U, _, hU⟩ := exists_haar hn
  have p1 : IsProbabilityMeasure (Pr.map x) := Measure.isProbabilityMeasure_map h.measurable
  have p2 : IsProbabilityMeasure (Pr'.map y) := Measure.isProbabilityMeasure_map h'.measurable
  refine ext_of_forall_integral_eq_of_IsFiniteMeasure fun f => ?_
  rw [integral_map h.measurable f.continuous.measurable.aestronglyMeasurable, integral_map h'.measurable f.continuous.measurable.aestronglyMeasurable,
    direction_average hn h h1 hU, direction_average hn h' h1' hU]

/-! ### Moments -/

/-- The moments of the linear forms of a random unit vector with the moments of a Haar-random row. -/
theorem HaarMoments.form {Ω : Type} [MeasurableSpace Ω] {Pr : Measure Ω} [IsProbabilityMeasure Pr] {n : ℕ} {r : Ω → Fin n → ℂ} (h : HaarMoments Pr n r)
    (hr : Measurable r) (hC : ∀ ω i, ‖r ω i‖ ≤ 1) (c : Fin n → ℂ) (p q : ℕ) :
    ∫ ω, (∑ i, r ω i * c i) ^ p * conj (∑ i, r ω i * c i) ^ q ∂Pr =
      if p = q then ((n - 1).factorial * p.factorial : ℂ) / ((n - 1 + p).factorial : ℂ) * (∑ i, c i * conj (c i)) ^ p else 0 := by
  classical
  have hm : ∀ i, Measurable fun ω => r ω i := fun i => measurable_pi_iff.1 hr i
  have hint : ∀ a b : Fin n → ℕ, Integrable (fun ω => ∏ k, (r ω k ^ a k * conj (r ω k) ^ b k)) Pr := by
    intro a b
    refine Integrable.of_bound (Finset.measurable_prod _ fun k _ => ((hm k).pow_const _).mul
      ((Complex.continuous_conj.measurable.comp (hm k)).pow_const _)).aestronglyMeasurable 1 (Filter.Eventually.of_forall fun ω => ?_)
    rw [norm_prod]
    refine Finset.prod_le_one (fun _ _ => norm_nonneg _) fun k _ => ?_
    rw [norm_mul, norm_pow, norm_pow, RCLike.norm_conj]
    exact mul_le_one₀ (pow_le_one₀ (norm_nonneg _) (hC ω k)) (by positivity) (pow_le_one₀ (norm_nonneg _) (hC ω k))
  have e : ∀ ω, (∑ i, r ω i * c i) ^ p * conj (∑ i, r ω i * c i) ^ q =
      ∑ a ∈ Finset.piAntidiag Finset.univ p, ∑ b ∈ Finset.piAntidiag Finset.univ q,
        ((Nat.multinomial Finset.univ a : ℂ) * (Nat.multinomial Finset.univ b : ℂ) * ∏ k, (c k ^ a k * conj (c k) ^ b k)) *
          ∏ k, (r ω k ^ a k * conj (r ω k) ^ b k) := by
    intro ω
    rw [map_sum, Finset.sum_pow_eq_sum_piAntidiag, Finset.sum_pow_eq_sum_piAntidiag, Finset.sum_mul_sum]
    refine Finset.sum_congr rfl fun a _ => Finset.sum_congr rfl fun b _ => ?_
    simp only [map_mul, mul_pow, Finset.prod_mul_distrib]
    ring
  simp only [e]
  rw [integral_finsetSum _ fun a _ => integrable_finsetSum _ fun b _ => (hint a b).const_mul _]
  simp only [integral_finsetSum _ fun b _ => (hint _ b).const_mul _, integral_const_mul, h _ _]
  split_ifs with hpq
  · subst hpq
    rw [Finset.sum_pow_eq_sum_piAntidiag, Finset.mul_sum]
    refine Finset.sum_congr rfl fun a ha => ?_
    rw [Finset.sum_eq_single a]
    · rw [if_pos rfl]
      have hs : ∑ k, a k = p := (Finset.mem_piAntidiag.1 ha).1
      have hf : ((∏ k, (a k).factorial : ℕ) : ℂ) * (Nat.multinomial Finset.univ a : ℂ) = (p.factorial : ℂ) := by
        have := Nat.multinomial_spec Finset.univ a
        rw [hs] at this
        exact_mod_cast this
      rw [hs]
      simp only [mul_pow, ← hf]
      push_cast
      ring
    · intro b _ hb
      rw [if_neg (Ne.symm hb), mul_zero]
    · exact fun hn => absurd ha hn
  · refine Finset.sum_eq_zero fun a ha => Finset.sum_eq_zero fun b hb => ?_
    rw [if_neg, mul_zero]
    rintro rfl
    exact hpq ((Finset.mem_piAntidiag.1 ha).1.symm.trans (Finset.mem_piAntidiag.1 hb).1)

/-- The conjugate of a random unit vector with the moments of a Haar-random row is a random direction. -/
theorem HaarMoments.direction {Ω : Type} [MeasurableSpace Ω] {Pr : Measure Ω} [IsProbabilityMeasure Pr] {n : ℕ} {r : Ω → Fin n → ℂ}
    (h : HaarMoments Pr n r) (hr : Measurable r) (h1 : ∀ ω, ∑ i, ‖r ω i‖ ^ 2 = 1) : RandomDirection Pr fun ω => star (r ω) := by
  have hb : ∀ v : Fin n → ℂ, ∑ i, ‖v i‖ ^ 2 = 1 → ∀ i, ‖v i‖ ≤ 1 := by
    intro v hv i
    have := Finset.single_le_sum (f := fun i => ‖v i‖ ^ 2) (fun i _ => sq_nonneg _) (Finset.mem_univ i)
    rw [hv] at this
    exact (sq_le_one_iff₀ (norm_nonneg _)).1 this
  have mst : Measurable fun v : Fin n → ℂ => star v := measurable_pi_iff.2 fun i => Complex.continuous_conj.measurable.comp (measurable_pi_apply i)
  refine ⟨(mst.comp hr).aemeasurable, Filter.Eventually.of_forall fun ω h0 => ?_, fun A hA B hB => ?_⟩
  · have := h1 ω
    rw [star_eq_zero.1 h0] at this
    simp at this
  · have mg : Measurable fun v : Fin n → ℂ => v ᵥ* Aᴴ := by
      refine measurable_pi_iff.2 fun i => ?_
      have h : Measurable fun v : Fin n → ℂ => ∑ j, v j * Aᴴ j i := Finset.measurable_sum _ fun j _ => (measurable_pi_apply j).mul_const _
      exact h
    have mgr : Measurable fun ω => r ω ᵥ* Aᴴ := mg.comp hr
    have hAs : Aᴴ ∈ unitaryGroup (Fin n) ℂ := Unitary.star_mem hA
    have nrm : ∀ ω, ∑ i, ‖(r ω ᵥ* Aᴴ) i‖ ^ 2 = 1 := by
      intro ω
      have e1 : r ω ᵥ* Aᴴ = star (A *ᵥ star (r ω)) := by rw [star_mulVec, star_star]
      have e2 : ∑ i, ‖(r ω ᵥ* Aᴴ) i‖ ^ 2 = ∑ i, ‖(A *ᵥ star (r ω)) i‖ ^ 2 := by
        rw [e1]; simp only [Pi.star_apply, norm_star]
      have e3 : Real.sqrt (∑ i, ‖(A *ᵥ star (r ω)) i‖ ^ 2) = Real.sqrt (∑ i, ‖star (r ω) i‖ ^ 2) := finNorm_mulVec hA (star (r ω))
      rw [e2, ← Real.sqrt_inj (Finset.sum_nonneg fun _ _ => sq_nonneg _) zero_le_one, e3]
      simp only [Pi.star_apply, norm_star, h1]
    have law : Pr.map (fun ω => r ω ᵥ* Aᴴ) = Pr.map r := by
      refine law_of_moments Pr _ r mgr hr 1 (fun ω => hb _ (nrm ω)) (fun ω => hb _ (h1 ω)) fun c p q => ?_
      have e1 : ∀ ω, ∑ i, (r ω ᵥ* Aᴴ) i * c i = ∑ i, r ω i * (Aᴴ *ᵥ c) i := fun ω => (dotProduct_mulVec (r ω) Aᴴ c).symm
      simp only [e1]
      rw [h.form hr (fun ω => hb _ (h1 ω)), h.form hr (fun ω => hb _ (h1 ω))]
      congr 3
      have e2 : ∀ w : Fin n → ℂ, ∑ i, w i * conj (w i) = ((∑ i, ‖w i‖ ^ 2 : ℝ) : ℂ) := by
        intro w
        push_cast
        exact Finset.sum_congr rfl fun i _ => by rw [Complex.mul_conj']
      rw [e2, e2]
      congr 1
      have := finNorm_mulVec hAs c
      exact (Real.sqrt_inj (Finset.sum_nonneg fun _ _ => sq_nonneg _) (Finset.sum_nonneg fun _ _ => sq_nonneg _)).1 this
    have e : ∀ ω, A *ᵥ star (r ω) = star (r ω ᵥ* Aᴴ) := by
      intro ω
      rw [star_vecMul, conjTranspose_conjTranspose]
    have h2 := congrArg (fun μ => μ ((fun v : Fin n → ℂ => star v) ⁻¹' B)) law
    simp only [Measure.map_apply mgr (mst hB), Measure.map_apply hr (mst hB)] at h2
    simp only [e]
    exact h2

end Simphox
