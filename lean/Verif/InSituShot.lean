import Verif.InSituNoiseProps

/-!
# Shot noise of in-situ gradients (C181)
-/

namespace Simphox

open Complex MeasureTheory ProbabilityTheory

/-! ### Specification -/

/-- The variance of a gradient entry in the analog mode: `F` is the field that the inputs make at the phase shifter (position `t`
of `propagate`, rail `r`), `A` that of the cotangent sent backwards; both are measured at inputs of norm one. -/
noncomputable def analogVariance (σ : ℝ) (E : InSituEngine) (n : ℕ) {K : ℕ} (X G : Fin K → ℕ → ℂ) (t r : ℕ) : ℝ :=
  σ ^ 2 / 8 * ∑ c, (maxRowNorm n G ^ 2 * ‖(E.fprop (X c)).getD t 0 r‖ ^ 2 +
    maxRowNorm n X ^ 2 * ‖(E.bprop (G c)).reverse.getD t 0 r‖ ^ 2)

/-- The variance of a gradient entry in the digital mode, with the interference of `F` and `A`. -/
noncomputable def digitalVariance (σ : ℝ) (E : InSituEngine) (n : ℕ) {K : ℕ} (X G : Fin K → ℕ → ℂ) (t r : ℕ) : ℝ :=
  σ ^ 2 / 4 * ∑ c, (‖maxRowNorm n G * (E.fprop (X c)).getD t 0 r -
      I * maxRowNorm n X * starRingEnd ℂ ((E.bprop (G c)).reverse.getD t 0 r)‖ ^ 2 +
    maxRowNorm n G ^ 2 * ‖(E.fprop (X c)).getD t 0 r‖ ^ 2 + maxRowNorm n X ^ 2 * ‖(E.bprop (G c)).reverse.getD t 0 r‖ ^ 2)

/-! ### Lemmas -/

section
variable {Ω : Type} [MeasurableSpace Ω] {Pr : Measure Ω} [IsProbabilityMeasure Pr] {K : ℕ} {d : NoiseIdx K → Ω → ℝ}

omit [IsProbabilityMeasure Pr] in
theorem StandardNormal.memLp (h : StandardNormal Pr d) (i : NoiseIdx K) : MemLp (d i) 2 Pr := by
  have h1 : MemLp (id : ℝ → ℝ) 2 (Pr.map (d i)) := by
    rw [h.law i]
    exact memLp_id_gaussianReal 2
  exact h1.comp_of_map (h.meas i).aemeasurable

omit [IsProbabilityMeasure Pr] in
theorem StandardNormal.variance (h : StandardNormal Pr d) (i : NoiseIdx K) : Var[d i; Pr] = 1 := by
  have h1 := variance_id_gaussianReal (μ := 0) (v := 1)
  rw [← h.law i, variance_map (by fun_prop) (h.meas i).aemeasurable] at h1
  simpa using h1

theorem StandardNormal.variance_combination (h : StandardNormal Pr d) {ι : Type} [Fintype ι] (f : ι → NoiseIdx K)
    (hf : Function.Injective f) (k : ι → ℝ) (C : ℝ) :
    Var[fun ω => C + ∑ i, k i * d (f i) ω; Pr] = ∑ i, k i ^ 2 := by
  have hm : ∀ i, MemLp (fun ω => k i * d (f i) ω) 2 Pr := fun i => (h.memLp (f i)).const_mul (k i)
  rw [variance_const_add (by
    refine Finset.aestronglyMeasurable_fun_sum _ fun i _ => (hm i).aestronglyMeasurable)]
  have e : (fun ω => ∑ i, k i * d (f i) ω) = ∑ i, fun ω => k i * d (f i) ω := by
    funext ω
    simp
  rw [e, IndepFun.variance_sum fun i _ => hm i]
  · refine Finset.sum_congr rfl fun i _ => ?_
    rw [variance_const_mul, h.variance, mul_one]
  · intro i _ j _ hij
    exact (h.indep.indepFun (fun e => hij (hf e))).comp (φ := fun x : ℝ => k i * x) (ψ := fun x : ℝ => k j * x)
      (by fun_prop) (by fun_prop)

end

theorem adjointInputsNoisy_shot (E : InSituEngine) (analog : Bool) (σ : ℝ) {K : ℕ} (z : NoiseIdx K → ℝ) (c : Fin K) (g : ℕ → ℂ) :
    adjointInputsNoisy E analog ⟨σ, 0, 0⟩ z c g = adjointInputs E analog g := by
  unfold adjointInputsNoisy adjointInputs noisyPass ioPass
  simp

section
variable {n : ℕ} {M : Mesh} (hM : M.WellFormed n) (hs : M.style = .top) (he : M.Errorless) (hl : M.Lossless)
  {E : InSituEngine} {P : Params} (hE : E.Runs n M P)
include hM hs he hl hE

theorem sum_field (analog : Bool) (k : ℂ) (x g : ℕ → ℂ) (t r : ℕ) (ht : t ≤ (meshSteps P M.nodes).length) :
    (E.fprop fun r => x r + k * starRingEnd ℂ (adjointInputs E analog g r)).getD t 0 r =
      (E.fprop x).getD t 0 r + k * starRingEnd ℂ ((E.bprop g).reverse.getD t 0 r) := by
  set S := meshSteps P M.nodes with hS
  have hsy : ∀ s ∈ S.take t, SymStep n s := fun s h => meshSteps_sym hM P s (List.mem_of_mem_take h)
  have hw := adjointInputs_eq hM hs he hl hE analog g
  rw [fprop_combine hM hs he hl hE _ _ _ t r ht, fprop_get hM hs he hl hE _ t ht, bprop_get hM hs he hl hE _ t ht, ← hS]
  congr 2
  rw [hw, ← hS]
  conv_lhs => rw [← List.take_append_drop t S, List.reverse_append, List.take_append_drop t S]
  have : (fun r => starRingEnd ℂ
      (runSteps ((S.drop t).reverse ++ (S.take t).reverse) g r)) =
      fun r => starRingEnd ℂ (runSteps (S.take t).reverse (runSteps (S.drop t).reverse g) r) := by
    rw [runSteps_append]
  rw [this, runSteps_retrace hsy]

theorem fprop_scale (k : ℝ) (x : ℕ → ℂ) (t r : ℕ) (ht : t ≤ (meshSteps P M.nodes).length) :
    (E.fprop fun r => x r / k).getD t 0 r = (E.fprop x).getD t 0 r / k := by
  have hsy : ∀ s ∈ (meshSteps P M.nodes).take t, SymStep n s := fun s h => meshSteps_sym hM P s (List.mem_of_mem_take h)
  have h1 : (fun r => x r / (k : ℂ)) = fun r => (k : ℂ)⁻¹ * x r := by funext r; ring
  rw [h1, fprop_get hM hs he hl hE _ t ht, fprop_get hM hs he hl hE _ t ht, runSteps_smul hsy]
  ring

theorem bprop_scale (k : ℝ) (g : ℕ → ℂ) (t r : ℕ) (ht : t ≤ (meshSteps P M.nodes).length) :
    (E.bprop fun r => g r / k).reverse.getD t 0 r = (E.bprop g).reverse.getD t 0 r / k := by
  have hsy : ∀ s ∈ ((meshSteps P M.nodes).drop t).reverse, SymStep n s := fun s h =>
    meshSteps_sym hM P s (List.mem_of_mem_drop (List.mem_reverse.1 h))
  have h1 : (fun r => g r / (k : ℂ)) = fun r => (k : ℂ)⁻¹ * g r := by funext r; ring
  rw [h1, bprop_get hM hs he hl hE _ t ht, bprop_get hM hs he hl hE _ t ht, runSteps_smul hsy]
  ring

omit hM hs he hl hE in
theorem parallelogram_I (a b : ℂ) : ‖a + -I * b‖ ^ 2 + ‖a + I * b‖ ^ 2 = 2 * (‖a‖ ^ 2 + ‖b‖ ^ 2) := by
  simp only [← normSq_eq_norm_sq, normSq_apply]
  simp
  ring

variable {Ω : Type} [MeasurableSpace Ω] {Pr : Measure Ω} [IsProbabilityMeasure Pr] {K : ℕ} {d : NoiseIdx K → Ω → ℝ}

/-- The variance of a returned entry. -/
theorem pow_variance (h : StandardNormal Pr d) (analog : Bool) (σ : ℝ) (X G : Fin K → ℕ → ℂ)
    (hi : maxRowNorm n X ≠ 0) (hg : maxRowNorm n G ≠ 0) (t r : ℕ) (ht : t ≤ (meshSteps P M.nodes).length) :
    Var[fun ω => ∑ c, gradPowerNoisy E analog ⟨σ, 0, 0⟩ (fun i => d i ω) c (fun r => X c r / maxRowNorm n X)
      (fun r => G c r / maxRowNorm n G) t r / 2 * (maxRowNorm n X * maxRowNorm n G); Pr] =
      if analog then analogVariance σ E n X G t r else digitalVariance σ E n X G t r := by
  have hsub : ∀ (x w : ℕ → ℂ), (fun r => x r - I * starRingEnd ℂ (w r)) = fun r => x r + (-I) * starRingEnd ℂ (w r) := by
    intro x w
    funext r
    ring
  cases analog with
  | true =>
    let F : Fin K → ℂ := fun c => (E.fprop fun r => X c r / maxRowNorm n X).getD t 0 r
    let A : Fin K → ℂ := fun c => starRingEnd ℂ ((E.bprop fun r => G c r / maxRowNorm n G).reverse.getD t 0 r)
    let N : ℝ := maxRowNorm n X * maxRowNorm n G
    let f : Fin K × Bool → NoiseIdx K := fun p => if p.2 then .sum p.1 t r else .diff p.1 t r
    let k : Fin K × Bool → ℝ := fun p => if p.2 then σ / 4 * N * ‖F p.1 + -I * A p.1‖ else -(σ / 4 * N * ‖F p.1 + I * A p.1‖)
    have hf : Function.Injective f := by
      rintro ⟨c, b⟩ ⟨c', b'⟩ e
      cases b <;> cases b' <;> simp_all [f]
    have hv := h.variance_combination f hf k (∑ c, (‖F c + -I * A c‖ ^ 2 - ‖F c + I * A c‖ ^ 2) / 2 / 2 * N)
    have e : (fun ω => ∑ c, gradPowerNoisy E true ⟨σ, 0, 0⟩ (fun i => d i ω) c (fun r => X c r / maxRowNorm n X)
        (fun r => G c r / maxRowNorm n G) t r / 2 * (maxRowNorm n X * maxRowNorm n G)) =
        fun ω => (∑ c, (‖F c + -I * A c‖ ^ 2 - ‖F c + I * A c‖ ^ 2) / 2 / 2 * N) + ∑ i, k i * d (f i) ω := by
      funext ω
      rw [Fintype.sum_prod_type, ← Finset.sum_add_distrib]
      refine Finset.sum_congr rfl fun c _ => ?_
      simp only [gradPowerNoisy, if_true, adjointInputsNoisy_shot, hsub, sum_field hM hs he hl hE true _ _ _ t r ht, tapMeasure]
      simp only [Fintype.sum_bool, k, f, N, F, A, if_true, Bool.false_eq_true, if_false]
      ring
    rw [e, hv, Fintype.sum_prod_type]
    simp only [if_true, analogVariance]
    rw [Finset.mul_sum]
    refine Finset.sum_congr rfl fun c _ => ?_
    simp only [Fintype.sum_bool, k, if_true, Bool.false_eq_true, if_false]
    have hp := parallelogram_I (F c) (A c)
    have e1 : (σ / 4 * N * ‖F c + -I * A c‖) ^ 2 + (-(σ / 4 * N * ‖F c + I * A c‖)) ^ 2 =
        (σ / 4 * N) ^ 2 * (‖F c + -I * A c‖ ^ 2 + ‖F c + I * A c‖ ^ 2) := by ring
    rw [e1, hp]
    simp only [F, A, N, fprop_scale hM hs he hl hE _ _ t r ht, bprop_scale hM hs he hl hE _ _ t r ht, RCLike.norm_conj, norm_div,
      Complex.norm_real, Real.norm_eq_abs, div_pow, sq_abs]
    field_simp
    ring
  | false =>
    let F : Fin K → ℂ := fun c => (E.fprop fun r => X c r / maxRowNorm n X).getD t 0 r
    let B : Fin K → ℂ := fun c => (E.bprop fun r => G c r / maxRowNorm n G).reverse.getD t 0 r
    let N : ℝ := maxRowNorm n X * maxRowNorm n G
    let f : Fin K × Fin 3 → NoiseIdx K := fun p => if p.2 = 0 then .sum p.1 t r else if p.2 = 1 then .fwd p.1 t r else .adj p.1 t r
    let k : Fin K × Fin 3 → ℝ := fun p => if p.2 = 0 then σ / 2 * N * ‖F p.1 + -I * starRingEnd ℂ (B p.1)‖
      else if p.2 = 1 then -(σ / 2 * N * ‖F p.1‖) else -(σ / 2 * N * ‖B p.1‖)
    have hf : Function.Injective f := by
      rintro ⟨c, b⟩ ⟨c', b'⟩ e
      fin_cases b <;> fin_cases b' <;> simp_all [f]
    have hv := h.variance_combination f hf k (∑ c, (‖F c + -I * starRingEnd ℂ (B c)‖ ^ 2 - ‖F c‖ ^ 2 - ‖B c‖ ^ 2) / 2 * N)
    have e : (fun ω => ∑ c, gradPowerNoisy E false ⟨σ, 0, 0⟩ (fun i => d i ω) c (fun r => X c r / maxRowNorm n X)
        (fun r => G c r / maxRowNorm n G) t r / 2 * (maxRowNorm n X * maxRowNorm n G)) =
        fun ω => (∑ c, (‖F c + -I * starRingEnd ℂ (B c)‖ ^ 2 - ‖F c‖ ^ 2 - ‖B c‖ ^ 2) / 2 * N) + ∑ i, k i * d (f i) ω := by
      funext ω
      rw [Fintype.sum_prod_type, ← Finset.sum_add_distrib]
      refine Finset.sum_congr rfl fun c _ => ?_
      simp only [gradPowerNoisy, Bool.false_eq_true, if_false, adjointInputsNoisy_shot, hsub,
        sum_field hM hs he hl hE false _ _ _ t r ht, tapMeasure]
      simp only [Fin.sum_univ_three, k, f, N, F, B, if_true, Fin.isValue, one_ne_zero, if_false, Fin.reduceEq]
      ring
    rw [e, hv, Fintype.sum_prod_type]
    simp only [Bool.false_eq_true, if_false, digitalVariance]
    rw [Finset.mul_sum]
    refine Finset.sum_congr rfl fun c _ => ?_
    simp only [Fin.sum_univ_three, k, if_true, Fin.isValue, one_ne_zero, if_false, Fin.reduceEq]
    have e2 : (maxRowNorm n G : ℂ) * (E.fprop (X c)).getD t 0 r - I * maxRowNorm n X * starRingEnd ℂ ((E.bprop (G c)).reverse.getD t 0 r) =
        (N : ℂ) * (F c + -I * starRingEnd ℂ (B c)) := by
      have hi' : (maxRowNorm n X : ℂ) ≠ 0 := by exact_mod_cast hi
      have hg' : (maxRowNorm n G : ℂ) ≠ 0 := by exact_mod_cast hg
      simp only [F, B, N, fprop_scale hM hs he hl hE _ _ t r ht, bprop_scale hM hs he hl hE _ _ t r ht, map_div₀, conj_ofReal]
      push_cast
      field_simp
      ring
    have e3 : ‖(maxRowNorm n G : ℂ) * (E.fprop (X c)).getD t 0 r -
        I * maxRowNorm n X * starRingEnd ℂ ((E.bprop (G c)).reverse.getD t 0 r)‖ ^ 2 = N ^ 2 * ‖F c + -I * starRingEnd ℂ (B c)‖ ^ 2 := by
      rw [e2, norm_mul, mul_pow, Complex.norm_real, Real.norm_eq_abs, sq_abs]
    rw [e3]
    generalize ‖F c + -I * starRingEnd ℂ (B c)‖ = y
    simp only [F, B, N, fprop_scale hM hs he hl hE _ _ t r ht, bprop_scale hM hs he hl hE _ _ t r ht, norm_div,
      Complex.norm_real, Real.norm_eq_abs]
    have hX2 : |maxRowNorm n X| ^ 2 = maxRowNorm n X ^ 2 := sq_abs _
    have hG2 : |maxRowNorm n G| ^ 2 = maxRowNorm n G ^ 2 := sq_abs _
    have hX3 : |maxRowNorm n X| ≠ 0 := abs_ne_zero.2 hi
    have hG3 : |maxRowNorm n G| ≠ 0 := abs_ne_zero.2 hg
    have q1 : ∀ y : ℝ, maxRowNorm n X ^ 2 * (y / |maxRowNorm n X|) ^ 2 = y ^ 2 := by
      intro y
      rw [← hX2]
      field_simp
    have q2 : ∀ y : ℝ, maxRowNorm n G ^ 2 * (y / |maxRowNorm n G|) ^ 2 = y ^ 2 := by
      intro y
      rw [← hG2]
      field_simp
    linear_combination (σ ^ 2 / 4 * maxRowNorm n G ^ 2) * q1 ‖(E.fprop (X c)).getD t 0 r‖ +
      (σ ^ 2 / 4 * maxRowNorm n X ^ 2) * q2 ‖(E.bprop (G c)).reverse.getD t 0 r‖

end

/-! ### C181 -/

/-- C181: with shot noise of level `σ` at the tap detectors, the variance of every returned gradient entry is the stated one (position
`4 c + 2` of `propagate` for the internal phase of a node in column `c`, `4 c` for the external one, the last for output phases). -/
theorem C181_shot_variance (n : ℕ) (M : Mesh) (hM : M.WellFormed n) (hs : M.style = .top)
    (he : ∀ p ∈ M.errors, p = (0, 0)) (hl : M.Lossless)
    (P : Params) (E : InSituEngine) (hE : E.Runs n M P) (analog : Bool) (σ : ℝ) {K : ℕ}
    (X G : Fin K → ℕ → ℂ) (hX : ∃ c, ∃ r < n, X c r ≠ 0) (hG : ∃ c, ∃ r < n, G c r ≠ 0)
    {Ω : Type} [MeasurableSpace Ω] (Pr : Measure Ω) [IsProbabilityMeasure Pr] (d : NoiseIdx K → Ω → ℝ) (hd : StandardNormal Pr d)
    (R : Ω → InSituResult K) (hR : ∀ ω, inSituBwdNoisy E analog ⟨σ, 0, 0⟩ (fun i => d i ω) n M.nodes X G = some (R ω)) :
    (∀ j a, (executionOrder M.nodes)[j]? = some a →
      Var[fun ω => (R ω).thetas.getD j 0; Pr] = (if analog then analogVariance σ E n X G (4 * a.column + 2) a.top
        else digitalVariance σ E n X G (4 * a.column + 2) a.top) ∧
      Var[fun ω => (R ω).phis.getD j 0; Pr] = if analog then analogVariance σ E n X G (4 * a.column) a.top
        else digitalVariance σ E n X G (4 * a.column) a.top) ∧
    ∀ r < n, Var[fun ω => (R ω).gammas r; Pr] = if analog then analogVariance σ E n X G (4 * numColumns M.nodes + 1) r
      else digitalVariance σ E n X G (4 * numColumns M.nodes + 1) r := by
  have hi := maxRowNorm_ne_zero hX
  have hg := maxRowNorm_ne_zero hG
  have hT : (E.fprop 0).length - 1 = (meshSteps P M.nodes).length := by
    rw [fprop_eq hM hs he hl hE]; simp [snapsOf_length]
  have hR' : R = fun ω =>
    let pow : ℕ → ℕ → ℝ := fun t r => ∑ c, gradPowerNoisy E analog ⟨σ, 0, 0⟩ (fun i => d i ω) c (fun r => X c r / maxRowNorm n X)
      (fun r => G c r / maxRowNorm n G) t r / 2 * (maxRowNorm n X * maxRowNorm n G)
    let loc := phaseShiftLocalize M.nodes (E.fprop 0).length pow
    ⟨loc.1, loc.2.1, loc.2.2, fun c => adjointInputsNoisy E analog ⟨σ, 0, 0⟩ (fun i => d i ω) c fun r => G c r / maxRowNorm n G⟩ := by
    funext ω
    have := hR ω
    unfold inSituBwdNoisy at this
    simp only [hi, hg, or_self, if_false, Option.some.injEq] at this
    exact this.symm
  subst hR'
  refine ⟨fun j a hja => ?_, fun r hr => ?_⟩
  · have ha : a ∈ M.nodes := mem_executionOrder.1 (List.mem_of_getElem? hja)
    have hc := column_lt_numColumns ha
    have ht : 4 * a.column + 2 ≤ (meshSteps P M.nodes).length := by rw [meshSteps_length]; omega
    have ht' : 4 * a.column ≤ (meshSteps P M.nodes).length := by omega
    simp only [C20_localize_order_partial, List.getD_eq_getElem?_getD, List.getElem?_map, hja, Option.map_some, Option.getD_some]
    exact ⟨pow_variance hM hs he hl hE hd analog σ X G hi hg _ _ ht, pow_variance hM hs he hl hE hd analog σ X G hi hg _ _ ht'⟩
  · have := pow_variance hM hs he hl hE hd analog σ X G hi hg _ r le_rfl
    simp only [phaseShiftLocalize, hT]
    rw [this, meshSteps_length]

/-- C181: the analog mode never has more than half the variance of the digital mode. -/
theorem C181_analog_half (σ : ℝ) (E : InSituEngine) (n : ℕ) {K : ℕ} (X G : Fin K → ℕ → ℂ) (t r : ℕ) :
    2 * analogVariance σ E n X G t r ≤ digitalVariance σ E n X G t r := by
  unfold analogVariance digitalVariance
  rw [← mul_assoc, show 2 * (σ ^ 2 / 8) = σ ^ 2 / 4 by ring]
  refine mul_le_mul_of_nonneg_left (Finset.sum_le_sum fun c _ => ?_) (by positivity)
  rw [add_assoc]
  exact le_add_of_nonneg_left (by positivity)

/-- A mesh of one node, any phases, two inputs, and draws as C180 and C181 assume them. -/
example (P : Params) : (∃ E : InSituEngine, E.Runs 2 (singleMesh .top (0, 0) (0, 0)) P) ∧
    (∃ X : Fin 2 → ℕ → ℂ, ∃ c, ∃ r < 2, X c r ≠ 0) ∧
    ∃ (Ω : Type) (_ : MeasurableSpace Ω) (Pr : Measure Ω) (_ : IsProbabilityMeasure Pr) (d : NoiseIdx 2 → Ω → ℝ), StandardNormal Pr d :=
  ⟨singleMesh_runs_exists P, ⟨fun _ _ => 1, 0, 0, by norm_num, one_ne_zero⟩, standardNormal_exists 2⟩

end Simphox
