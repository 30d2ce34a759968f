import Verif.CascadeProps

/-! # DIFFERENTIAL self-configuration (C98) -/

namespace Simphox

open Matrix Complex

/-- `parallel_nullify` treats DIFFERENTIAL like TOP. -/
theorem nullifyPhases_differential (eps el er : ℝ) (t b : ℂ) :
    nullifyPhases eps .differential el er t b = nullifyPhases eps .top el er t b := rfl

theorem terms_half : (mziTerms 0 0).cc = 1 / 2 ∧ (mziTerms 0 0).cs = 1 / 2 ∧ (mziTerms 0 0).sc = 1 / 2 ∧
    (mziTerms 0 0).ss = 1 / 2 := by
  simp only [mziTerms, add_zero, Real.cos_pi_div_four, Real.sin_pi_div_four]
  refine ⟨?_, ?_, ?_, ?_⟩ <;> nlinarith [Real.mul_self_sqrt (show (0 : ℝ) ≤ 2 by norm_num)]

/-- The phases found for the vector `(1, i)`. -/
theorem phases_one_I : ∃ phi : ℝ, nullifyPhases 0 .top 0 0 1 I = some (Real.pi / 2, phi) ∧ exp (I * phi) = -I := by
  have hcs : (mziTerms 0 0).cs = 1 / 2 := by
    simp only [mziTerms, add_zero, Real.cos_pi_div_four, Real.sin_pi_div_four]
    nlinarith [Real.mul_self_sqrt (show (0 : ℝ) ≤ 2 by norm_num)]
  have hth : transmissivityToPhase (directTransmissivity 0 1 I) (mziTerms 0 0).cs (mziTerms 0 0).sc = Real.pi / 2 := by
    rw [sc_eq_cs, hcs]
    unfold transmissivityToPhase directTransmissivity
    norm_num [Real.arccos_zero]
  obtain ⟨phi, hphi⟩ : ∃ phi, nullifyPhases 0 .top 0 0 1 I = some (Real.pi / 2, phi) := by
    simp only [nullifyPhases, hth]; exact ⟨_, rfl⟩
  refine ⟨phi, hphi, ?_⟩
  have hz := nullify_residual .top (Or.inl rfl) le_rfl 0 (by simp) 1 I
    (by simpa using (directTransmissivity_mem le_rfl (1 : ℂ) I).2) hphi
  rw [Real.sqrt_zero] at hz
  have hz := norm_le_zero_iff.1 hz
  have he : exp (I * ((Real.pi / 2 : ℝ) : ℂ)) = I := by
    rw [mul_comm]; push_cast; exact exp_pi_div_two_mul_I
  have hcc : (mziTerms 0 0).cc = 1 / 2 := by
    simp only [mziTerms, add_zero, Real.cos_pi_div_four]
    nlinarith [Real.mul_self_sqrt (show (0 : ℝ) ≤ 2 by norm_num)]
  have hss : (mziTerms 0 0).ss = 1 / 2 := by
    simp only [mziTerms, add_zero, Real.sin_pi_div_four]
    nlinarith [Real.mul_self_sqrt (show (0 : ℝ) ≤ 2 by norm_num)]
  simp only [mziElements, hcc, hss, sc_eq_cs, hcs] at hz
  simp [-ofReal_div] at hz
  rw [he] at hz
  have h1 : (-1 + I) * (exp (I * phi) + I) = 0 := by
    push_cast at hz
    linear_combination 2 * hz - I * I_sq
  have hne : (-1 + I : ℂ) ≠ 0 := by
    intro h; have := congrArg Complex.re h; simp at this
  exact eq_neg_of_add_eq_zero_left ((mul_eq_zero.1 h1).resolve_left hne)

/-- C98 fails: `vector_unit((1, i), phase_style=DIFFERENTIAL)` does not raise, but the mesh it returns sends
all the power to rail 0 and none to the last rail (for TOP and BOTTOM it is the other way round, C14): the phase
shift is applied with the opposite sign in this style. -/
theorem C98_differential_counterexample (balanced : Bool) :
    ∃ M P w, vectorUnit 0 .differential 0 2 balanced (fun r => if r = 0 then 1 else if r = 1 then I else 0) =
        some (M, P, w) ∧ M.style = .differential ∧
      ‖(M.matrix 2 P false).mulVec ![1, I] 0‖ ^ 2 = 2 ∧ (M.matrix 2 P false).mulVec ![1, I] 1 = 0 := by
  obtain ⟨phi, hphi, hexp⟩ := phases_one_I
  have htree : tree 2 2 balanced = [⟨0, 0, 1, 2, 1, 1, 0⟩] := by cases balanced <;> decide +kernel
  have hnc : numColumns [(⟨0, 0, 1, 2, 1, 1, 0⟩ : Node)] = 1 := by decide +kernel
  have hcol : columnNodes [(⟨0, 0, 1, 2, 1, 1, 0⟩ : Node)] 0 = [⟨0, 0, 1, 2, 1, 1, 0⟩] := by decide +kernel
  have hP : ∃ P w, vectorUnit 0 .differential 0 2 balanced (fun r => if r = 0 then 1 else if r = 1 then I else 0) =
      some (errorMesh [⟨0, 0, 1, 2, 1, 1, 0⟩] 0 .differential, P, w) ∧ P.thetas 0 = Real.pi / 2 ∧
        P.phis 0 = modTwoPi phi := by
    have hph : (nodePhases 0 .differential 0 0 (fun r _ => if r = 0 then 1 else if r = 1 then I else 0)
        ⟨0, 0, 1, 2, 1, 1, 0⟩) = (Real.pi / 2, phi) := by
      unfold nodePhases
      simp only [if_true, one_ne_zero, if_false, nullifyPhases_differential, hphi, Option.getD_some]
    have hl : ∃ st, nullLoop 0 .differential 0 0 [⟨0, 0, 1, 2, 1, 1, 0⟩] (List.range 1)
        ⟨fun r _ => if r = 0 then 1 else if r = 1 then I else 0, fun _ => 0, fun _ => 0⟩ = some st ∧
        st.thetas 0 = Real.pi / 2 ∧ st.phis 0 = modTwoPi phi := by
      simp only [List.range_one, nullLoop, hcol, nullColumn_eq (style := .differential) (by simp), Option.bind_eq_bind,
        Option.bind_some]
      refine ⟨_, rfl, ?_, ?_⟩ <;>
      simp only [List.map_cons, List.map_nil, assign, List.foldl_cons, List.foldl_nil, Function.update_self, hph]
    obtain ⟨st, h1, h2, h3⟩ := hl
    refine ⟨⟨st.thetas, st.phis, fun r => -arg ((if r = 2 - 1 then 1 else 0) * st.w (2 - 1) 0)⟩, fun r => st.w r 0, ?_, h2, h3⟩
    unfold vectorUnit programVectorUnit
    simp only [htree, hnc, h1, Option.bind_eq_bind, Option.bind_some]
  obtain ⟨P, w, h1, hth, hph⟩ := hP
  refine ⟨_, P, w, h1, rfl, ?_⟩
  rw [matrix_two, hth, hph]
  set E := exp (I * (((-modTwoPi phi - Real.pi / 2) / 2 : ℝ) : ℂ)) with hE
  have hE2 : exp (I * (((modTwoPi phi - Real.pi / 2) / 2 : ℝ) : ℂ)) = -I * E := by
    have h2 : exp (I * modTwoPi phi) = -I := by rw [exp_modTwoPi, hexp]
    rw [hE, ← h2, ← exp_add]; congr 1; push_cast; ring
  have he : exp (I * ((Real.pi / 2 : ℝ) : ℂ)) = I := by
    rw [mul_comm]; push_cast; exact exp_pi_div_two_mul_I
  have hm : (mziElements .differential false 0 0 0 0 (Real.pi / 2) (modTwoPi phi)).mat =
      !![(I - 1) / 2 * E, (I - 1) / 2 * (-I * E); (I - 1) / 2 * E, (1 - I) / 2 * (-I * E)] := by
    obtain ⟨h1, h2, h3, h4⟩ := terms_half
    rw [← hE2, hE]
    ext i j
    fin_cases i <;> fin_cases j <;>
    · simp [Elements.mat, mziElements, h1, h2, h3, h4, -ofReal_div]
      rw [he]
      push_cast
      ring_nf
      try simp
      try ring_nf
  have hEn : ‖E‖ = 1 := norm_exp_I _
  rw [hm, ← mulVec_mulVec]
  constructor
  · rw [mulVec_diagonal, norm_mul, norm_exp_I, one_mul]
    have : (!![(I - 1) / 2 * E, (I - 1) / 2 * (-I * E); (I - 1) / 2 * E, (1 - I) / 2 * (-I * E)] *ᵥ ![1, I]) 0 =
        (I - 1) * E := by
      simp [Matrix.mulVec, dotProduct, Fin.sum_univ_two]
      linear_combination (-(I - 1) / 2 * E) * I_sq
    rw [this, norm_mul, hEn, mul_one, ← normSq_eq_norm_sq, normSq_apply]
    simp; norm_num
  · rw [mulVec_diagonal]
    have : (!![(I - 1) / 2 * E, (I - 1) / 2 * (-I * E); (I - 1) / 2 * E, (1 - I) / 2 * (-I * E)] *ᵥ ![1, I]) 1 = 0 := by
      simp [Matrix.mulVec, dotProduct, Fin.sum_univ_two]
      linear_combination (-(1 - I) / 2 * E) * I_sq
    rw [this, mul_zero]

end Simphox
