import Verif.NullifyStyleProps

/-! # DIFFERENTIAL self-configuration of two rails: the exact condition (C98) -/

namespace Simphox

open Matrix Complex

/-- Algebra behind `C98_differential_iff_partial`: `A, B` the amplitudes of an ideal node, `X = exp(i phi)`. -/
theorem differential_null_iff {A B X t b : ℂ} (hX : ‖X‖ = 1) (hr : (starRingEnd ℂ) ((starRingEnd ℂ) A * B) = (starRingEnd ℂ) A * B)
    (hA : ‖A‖ ^ 2 + ‖B‖ ^ 2 = 1) (hnull : A * X * t + B * b = 0) :
    A * t + B * X * b = 0 ↔ ((starRingEnd ℂ) t * b).im = 0 := by
  have hXX : X * (starRingEnd ℂ) X = 1 := by rw [mul_conj, normSq_eq_norm_sq, hX]; simp
  by_cases ht : t = 0
  · subst ht
    rcases eq_or_ne b 0 with rfl | hb
    · simp
    · have : B = 0 := by simpa [hb] using hnull
      simp [this]
  by_cases hb : b = 0
  · subst hb
    have hX0 : X ≠ 0 := by rintro rfl; simp at hX
    have : A = 0 := by simpa [ht, hX0] using hnull
    simp [this]
  have hA0 : A ≠ 0 := by
    rintro rfl
    have : B = 0 := by simpa [hb] using hnull
    simp [this] at hA
  have hX0 : X ≠ 0 := by rintro rfl; simp at hX
  have hB0 : B ≠ 0 := by
    rintro rfl
    simp [ht, hX0, hA0] at hnull
  have hcA : (starRingEnd ℂ) A ≠ 0 := by simpa using hA0
  have hct : (starRingEnd ℂ) t ≠ 0 := by simpa using ht
  set r := (starRingEnd ℂ) A * B with hrdef
  have hr0 : r ≠ 0 := mul_ne_zero hcA hB0
  set m := (starRingEnd ℂ) A * A with hm
  have hm0 : m ≠ 0 := mul_ne_zero hcA hA0
  have hmc : (starRingEnd ℂ) m = m := by rw [hm]; simp [mul_comm]
  have e1 : m * X * t + r * b = 0 := by rw [hm, hrdef]; linear_combination (starRingEnd ℂ) A * hnull
  have e1c : m * (starRingEnd ℂ) X * (starRingEnd ℂ) t + r * (starRingEnd ℂ) b = 0 := by
    have := congrArg (starRingEnd ℂ) e1
    simpa only [map_add, map_mul, map_zero, hmc, hr] using this
  -- `|m|^2 |t|^2 = r^2 |b|^2`
  have e2 : m ^ 2 * (t * (starRingEnd ℂ) t) = r ^ 2 * (b * (starRingEnd ℂ) b) := by
    have h1 : m * X * t = -(r * b) := by linear_combination e1
    have h2 : m * (starRingEnd ℂ) X * (starRingEnd ℂ) t = -(r * (starRingEnd ℂ) b) := by linear_combination e1c
    have h3 : m * X * t * (m * (starRingEnd ℂ) X * (starRingEnd ℂ) t) = r * b * (r * (starRingEnd ℂ) b) := by
      rw [h1, h2]; ring
    linear_combination h3 - m ^ 2 * (t * (starRingEnd ℂ) t) * hXX
  have e3 : A * t + B * X * b = 0 ↔ m ^ 2 * t ^ 2 = r ^ 2 * b ^ 2 := by
    have h1 : (starRingEnd ℂ) A * (m * t) * (A * t + B * X * b) = m ^ 2 * t ^ 2 - r ^ 2 * b ^ 2 := by
      rw [hm, hrdef] at *
      linear_combination (starRingEnd ℂ) A * B * b * e1
    rw [← sub_eq_zero (b := r ^ 2 * b ^ 2), ← h1]
    simp [hA0, hm0, ht]
  have e4 : m ^ 2 * t ^ 2 = r ^ 2 * b ^ 2 ↔ (starRingEnd ℂ) t * b = (starRingEnd ℂ) ((starRingEnd ℂ) t * b) := by
    have h1 : ((starRingEnd ℂ) t) ^ 2 * (m ^ 2 * t ^ 2 - r ^ 2 * b ^ 2) =
        -(r ^ 2 * ((starRingEnd ℂ) t * b) * ((starRingEnd ℂ) t * b - (starRingEnd ℂ) ((starRingEnd ℂ) t * b))) := by
      simp only [map_mul, Complex.conj_conj]
      linear_combination t * (starRingEnd ℂ) t * e2
    rw [← sub_eq_zero, ← sub_eq_zero (a := (starRingEnd ℂ) t * b)]
    have h2 := congrArg (· = 0) h1
    simpa [ht, hb, hr0] using h2
  rw [e3, e4, eq_comm, Complex.conj_eq_iff_im]

theorem ideal_amps (theta : ℝ) : (starRingEnd ℂ) ((starRingEnd ℂ) ((exp (I * theta) - 1) / 2) * (I * (1 + exp (I * theta)) / 2)) =
    (starRingEnd ℂ) ((exp (I * theta) - 1) / 2) * (I * (1 + exp (I * theta)) / 2) ∧
    ‖(exp (I * theta) - 1) / 2‖ ^ 2 + ‖I * (1 + exp (I * theta)) / 2‖ ^ 2 = 1 := by
  set Z := exp (I * theta) with hZ
  have hn : ‖Z‖ = 1 := norm_exp_I _
  have hZZ : Z * (starRingEnd ℂ) Z = 1 := by rw [mul_conj, normSq_eq_norm_sq, hn]; simp
  constructor
  · simp only [map_mul, map_div₀, map_sub, map_add, map_one, Complex.conj_I, Complex.conj_conj]
    have : (starRingEnd ℂ) (2 : ℂ) = 2 := Complex.conj_ofNat 2
    rw [this]
    linear_combination (-I / 2) * hZZ
  · have h : ((‖(Z - 1) / 2‖ ^ 2 + ‖I * (1 + Z) / 2‖ ^ 2 : ℝ) : ℂ) = 1 := by
      push_cast
      rw [← Complex.mul_conj', ← Complex.mul_conj']
      simp only [map_mul, map_div₀, map_sub, map_add, map_one, Complex.conj_I]
      have : (starRingEnd ℂ) (2 : ℂ) = 2 := Complex.conj_ofNat 2
      rw [this]
      linear_combination (1 / 2) * hZZ - (1 + Z) * (1 + (starRingEnd ℂ) Z) / 4 * I_sq
    exact_mod_cast h

/-- C98, the exact condition on two rails: `vector_unit((t, b), phase_style=DIFFERENTIAL)` leaves rail 0 dark (all power
on the last rail) if and only if `conj(t) b` is real. -/
theorem C98_differential_iff_partial (balanced : Bool) (t b : ℂ) :
    ∃ M P w, vectorUnit 0 .differential 0 2 balanced (fun r => if r = 0 then t else if r = 1 then b else 0) =
        some (M, P, w) ∧ M.style = .differential ∧
      ((M.matrix 2 P false).mulVec ![t, b] 0 = 0 ↔ ((starRingEnd ℂ) t * b).im = 0) := by
  have htree : tree 2 2 balanced = [⟨0, 0, 1, 2, 1, 1, 0⟩] := by cases balanced <;> decide +kernel
  have hnc : numColumns [(⟨0, 0, 1, 2, 1, 1, 0⟩ : Node)] = 1 := by decide +kernel
  have hcol : columnNodes [(⟨0, 0, 1, 2, 1, 1, 0⟩ : Node)] 0 = [⟨0, 0, 1, 2, 1, 1, 0⟩] := by decide +kernel
  obtain ⟨th, phi, hph0⟩ : ∃ th phi, nullifyPhases 0 .top 0 0 t b = some (th, phi) := ⟨_, _, rfl⟩
  have hP : ∃ P w, vectorUnit 0 .differential 0 2 balanced (fun r => if r = 0 then t else if r = 1 then b else 0) =
      some (errorMesh [⟨0, 0, 1, 2, 1, 1, 0⟩] 0 .differential, P, w) ∧ P.thetas 0 = th ∧
        P.phis 0 = modTwoPi phi := by
    have hph : (nodePhases 0 .differential 0 0 (fun r _ => if r = 0 then t else if r = 1 then b else 0)
        ⟨0, 0, 1, 2, 1, 1, 0⟩) = (th, phi) := by
      unfold nodePhases
      simp only [if_true, one_ne_zero, if_false, nullifyPhases_differential, hph0, Option.getD_some]
    have hl : ∃ st, nullLoop 0 .differential 0 0 [⟨0, 0, 1, 2, 1, 1, 0⟩] (List.range 1)
        ⟨fun r _ => if r = 0 then t else if r = 1 then b else 0, fun _ => 0, fun _ => 0⟩ = some st ∧
        st.thetas 0 = th ∧ st.phis 0 = modTwoPi phi := by
      simp only [List.range_one, nullLoop, hcol, nullColumn_eq (style := .differential) (by simp), Option.bind_eq_bind,
        Option.bind_some]
      refine ⟨_, rfl, ?_, ?_⟩ <;>
      simp only [List.map_cons, List.map_nil, assign, List.foldl_cons, List.foldl_nil, Function.update_self, hph]
    obtain ⟨st, h1, h2, h3⟩ := hl
    refine ⟨⟨st.thetas, st.phis, fun r => -arg ((if r = 2 - 1 then 1 else 0) * st.w (2 - 1) 0)⟩, fun r => st.w r 0, ?_, h2, h3⟩
    unfold vectorUnit programVectorUnit
    simp only [htree, hnc, h1, Option.bind_eq_bind, Option.bind_some]
  obtain ⟨P, w, h1, hth, hph⟩ := hP
  refine ⟨_, P, w, h1, rfl, ?_⟩
  rw [matrix_two, hth, hph]
  obtain ⟨k1, k2, k3, k4⟩ := terms_half
  have hres := nullify_residual .top (Or.inl rfl) le_rfl 0 (by simp) t b
    (by simpa using (directTransmissivity_mem le_rfl t b).2) hph0
  rw [Real.sqrt_zero, norm_le_zero_iff] at hres
  have hnull : (exp (I * th) - 1) / 2 * exp (I * modTwoPi phi) * t + I * (1 + exp (I * th)) / 2 * b = 0 := by
    rw [exp_modTwoPi]
    rw [← hres]
    simp only [mziElements, k1, k2, k3, k4]
    push_cast
    simp
    ring
  obtain ⟨a1, a2⟩ := ideal_amps th
  rw [← differential_null_iff (norm_exp_I _) a1 a2 hnull, ← mulVec_mulVec, mulVec_diagonal]
  set E := exp (I * (((-modTwoPi phi - th) / 2 : ℝ) : ℂ)) with hE
  have hE2 : exp (I * (((modTwoPi phi - th) / 2 : ℝ) : ℂ)) = exp (I * modTwoPi phi) * E := by
    rw [hE, ← exp_add]; congr 1; push_cast; ring
  have hout : ((mziElements .differential false 0 0 0 0 th (modTwoPi phi)).mat *ᵥ ![t, b]) 0 =
      E * ((exp (I * th) - 1) / 2 * t + I * (1 + exp (I * th)) / 2 * exp (I * modTwoPi phi) * b) := by
    have : ((mziElements .differential false 0 0 0 0 th (modTwoPi phi)).mat *ᵥ ![t, b]) 0 =
      (mziElements .differential false 0 0 0 0 th (modTwoPi phi)).t11 * t +
      (mziElements .differential false 0 0 0 0 th (modTwoPi phi)).t21 * b := by
      simp [Elements.mat, Matrix.mulVec, dotProduct, Fin.sum_univ_two]
    rw [this]
    have t1 : (mziElements .differential false 0 0 0 0 th (modTwoPi phi)).t11 = (exp (I * th) - 1) / 2 * E := by
      rw [hE]
      simp only [mziElements, k1, k4]
      push_cast
      simp
      ring
    have t2 : (mziElements .differential false 0 0 0 0 th (modTwoPi phi)).t21 =
        I * (1 + exp (I * th)) / 2 * (exp (I * modTwoPi phi) * E) := by
      rw [← hE2]
      simp only [mziElements, k2, k3]
      push_cast
      simp
      ring
    rw [t1, t2]; ring
  rw [hout]
  have hE0 : E ≠ 0 := exp_ne_zero _
  simp [hE0, exp_ne_zero]

end Simphox
