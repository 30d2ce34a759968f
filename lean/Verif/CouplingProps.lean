import Verif.CouplingLemmas

/-! # Properties of coupling nodes (C25, C26) -/

namespace Simphox

open Matrix Complex

/-! ### C25 -/

/-- Power that the lossless MZI of a mesh (any of the four elements formulas) sends from its top
input to its bottom output. -/
noncomputable def crossPower (el er theta phi : ℝ) : ℝ :=
  ‖(mziElements .top false el er 0 0 theta phi).t12‖ ^ 2

theorem crossPower_eq (el er theta phi : ℝ) :
    crossPower el er theta phi = (mziTerms el er).cs ^ 2 + (mziTerms el er).sc ^ 2 +
      2 * (mziTerms el er).cs * (mziTerms el er).sc * Real.cos theta := by
  unfold crossPower mziElements
  simp only [Bool.false_eq_true, if_false, sub_zero, mul_one, mul_zero, zero_div, ofReal_zero,
    add_zero]
  rw [norm_mul, norm_mul, norm_I, one_mul, mul_comm I (phi : ℂ), norm_exp_ofReal_mul_I, mul_one,
    ← Complex.normSq_eq_norm_sq, mul_comm I (theta : ℂ), exp_mul_I, ← ofReal_cos, ← ofReal_sin,
    normSq_apply]
  simp only [add_re, ofReal_re, mul_re, I_re, ofReal_im, I_im, mul_im, add_im]
  have := Real.sin_sq_add_cos_sq theta
  nlinarith [this]

/-- C25: for every requested power `s` and every node with `cs * sc ≠ 0`, the phase lies in
`[0, π]` and no other phase brings the MZI's cross power closer to `s`. -/
theorem C25_transmissivity_to_phase (el er s phi : ℝ)
    (h : (mziTerms el er).cs * (mziTerms el er).sc ≠ 0) :
    let theta := transmissivityToPhase s (mziTerms el er).cs (mziTerms el er).sc
    0 ≤ theta ∧ theta ≤ Real.pi ∧
      ∀ theta', |crossPower el er theta phi - s| ≤ |crossPower el er theta' phi - s| := by
  intro theta
  refine ⟨Real.arccos_nonneg _, Real.arccos_le_pi _, ?_⟩
  intro theta'
  rw [crossPower_eq, crossPower_eq]
  have htheta : theta = transmissivityToPhase s (mziTerms el er).cs (mziTerms el er).sc := rfl
  clear_value theta
  generalize (mziTerms el er).cs = cs at *
  generalize (mziTerms el er).sc = sc at *
  set x := (s - cs ^ 2 - sc ^ 2) / (2 * cs * sc) with hx
  have hxs : s = cs ^ 2 + sc ^ 2 + 2 * cs * sc * x := by
    rw [hx, mul_div_cancel₀ _ (by simpa [mul_assoc] using h)]; ring
  have hcos : Real.cos theta = min (max x (-1)) 1 := by
    rw [htheta]
    exact Real.cos_arccos (le_min (le_max_right _ _) (by norm_num)) (min_le_right _ _)
  rw [hcos, hxs]
  have e : ∀ y : ℝ, cs ^ 2 + sc ^ 2 + 2 * cs * sc * y - (cs ^ 2 + sc ^ 2 + 2 * cs * sc * x) =
    2 * cs * sc * (y - x) := fun y => by ring
  rw [e, e, abs_mul (2 * cs * sc), abs_mul (2 * cs * sc)]
  apply mul_le_mul_of_nonneg_left _ (abs_nonneg _)
  have h1 := Real.neg_one_le_cos theta'
  have h2 := Real.cos_le_one theta'
  rcases le_total x (-1) with hx1 | hx1
  · rw [max_eq_right hx1, min_eq_left (by norm_num), abs_of_nonneg (by linarith),
      abs_of_nonneg (by linarith)]
    linarith
  · rw [max_eq_left hx1]
    rcases le_total x 1 with hx2 | hx2
    · rw [min_eq_left hx2]; simp
    · rw [min_eq_right hx2, abs_of_nonpos (by linarith), abs_of_nonpos (by linarith)]
      linarith

/-- C25, reachable powers: a power the MZI can produce at some phase is produced exactly, and the
rest of the power stays in the top rail. -/
theorem C25_reachable (el er phi theta' : ℝ)
    (h : (mziTerms el er).cs * (mziTerms el er).sc ≠ 0) :
    let s := crossPower el er theta' phi
    let theta := transmissivityToPhase s (mziTerms el er).cs (mziTerms el er).sc
    crossPower el er theta phi = s ∧
      ‖(mziElements .top false el er 0 0 theta phi).t11‖ ^ 2 = 1 - s := by
  intro s theta
  have h1 := (C25_transmissivity_to_phase el er s phi h).2.2 theta'
  have h2 : crossPower el er theta phi = s := by
    have : |crossPower el er theta phi - s| ≤ 0 := by simpa [s] using h1
    have := abs_nonpos_iff.1 this
    linarith
  refine ⟨h2, ?_⟩
  have hu := mziElements_unitary .top false el er theta phi
  have hp := unitary_power hu ![1, 0]
  simp [Fin.sum_univ_two, Elements.mat] at hp
  rw [← h2]
  unfold crossPower
  linarith

/-- Ideal couplers satisfy the hypothesis of C25. -/
example : (mziTerms 0 0).cs * (mziTerms 0 0).sc ≠ 0 := by
  simp [mziTerms, Real.cos_pi_div_four, Real.sin_pi_div_four]

/-! ### C26 -/

theorem dcMatrix_lossless (e : ℝ) : dcMatrix e 0 = coupler (Real.pi / 4 + e) := by
  simp [dcMatrix, coupler, loss2insertion]

/-- C26: node matrices of lossless nodes are unitary, and embedding keeps unitarity. `mmi_node_matrix`
is excluded (see the counterexample). -/
theorem C26_node_matrices_unitary_partial (top bottom s e el er theta phi : ℝ) (hs0 : 0 ≤ s)
    (hs1 : s ≤ 1) :
    phaseMatrix top bottom ∈ unitaryGroup (Fin 2) ℂ ∧
    couplingMatrixS s ∈ unitaryGroup (Fin 2) ℂ ∧
    dcMatrix e 0 ∈ unitaryGroup (Fin 2) ℂ ∧
    mziNodeMatrix el er 0 0 theta phi ∈ unitaryGroup (Fin 2) ℂ ∧
    idealNodeMatrix s phi ∈ unitaryGroup (Fin 2) ℂ ∧
    ∀ n i j : ℕ, i < n → j < n → i ≠ j → ∀ m ∈ unitaryGroup (Fin 2) ℂ,
      embed2 n i j m ∈ unitaryGroup (Fin n) ℂ := by
  have hphase : ∀ x y : ℝ, phaseMatrix x y ∈ unitaryGroup (Fin 2) ℂ := by
    intro x y
    apply diag2_unitary <;> rw [mul_comm, norm_exp_ofReal_mul_I]
  have hdc : ∀ e, dcMatrix e 0 ∈ unitaryGroup (Fin 2) ℂ := by
    intro e; rw [dcMatrix_lossless]; exact coupler_unitary _
  have hS : couplingMatrixS s ∈ unitaryGroup (Fin 2) ℂ := by
    have h1 : ((Real.sqrt (1 - s) : ℝ) : ℂ) * Real.sqrt (1 - s) = ((1 - s : ℝ) : ℂ) := by
      rw [← ofReal_mul, Real.mul_self_sqrt (by linarith)]
    have h2 : ((Real.sqrt s : ℝ) : ℂ) * Real.sqrt s = (s : ℂ) := by
      rw [← ofReal_mul, Real.mul_self_sqrt hs0]
    rw [mem_unitaryGroup_iff, star_eq_conjTranspose]
    ext a b
    fin_cases a <;> fin_cases b <;>
      simp [couplingMatrixS, Matrix.mul_apply, Fin.sum_univ_two, conjTranspose_apply]
    · rw [h1, h2]; push_cast; ring
    · ring
    · ring
    · rw [h1, h2]; push_cast; ring
  refine ⟨hphase _ _, hS, hdc _, ?_, mul_mem (hphase _ _) hS, ?_⟩
  · exact mul_mem (mul_mem (mul_mem (hdc _) (hphase _ _)) (hdc _)) (hphase _ _)
  · intro n i j hi hj hij m hm; exact embed2_unitary hi hj hij hm

/-- C26 fails for the MMI node: `coupling_matrix_phase` has `sin` where `cos` is needed; at
`theta = 0` the lossless, error-free MMI matrix has a zero row. -/
theorem C26_mmi_counterexample :
    mmiNodeMatrix 0 0 0 0 ∉ unitaryGroup (Fin 2) ℂ := by
  rw [mem_unitaryGroup_iff, star_eq_conjTranspose]
  intro h
  have := congrFun (congrFun h 1) 1
  simp [mmiNodeMatrix, couplingMatrixPhase, phaseMatrix, Matrix.mul_apply] at this

example : (0 : ℝ) ≤ 1 / 3 ∧ (1 / 3 : ℝ) ≤ 1 := by norm_num

end Simphox
