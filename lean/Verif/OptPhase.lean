import Verif.MatrixOpt

/-!
# Gradient optimisation does not see the global phase (C215)

The cost and gradient of `matrix_opt` (forward.py:623-651), in the model of C148.
-/

namespace Simphox

open Complex

/-- The matrix of a mesh before the output phases, `matrix_fn` without the factor `exp(i gammas)` (forward.py:172-230). -/
noncomputable def preOutput {n : ℕ} (M : Mesh) (P : Params) (i j : Fin n) : ℂ :=
  columnsApply (M.elements P false) M.nodes (columnOrder M.nodes false) (fun r => if r = j.val then 1 else 0) i.val

theorem matrix_preOutput {n : ℕ} (M : Mesh) (P : Params) (g : ℕ → ℝ) (i j : Fin n) :
    M.matrix n { P with gammas := g } false i j = exp (I * (g i.val : ℝ)) * preOutput M P i j := rfl

theorem den_gammas {n : ℕ} (M : Mesh) (P : Params) (g : ℕ → ℝ) :
    ((M.matrix n { P with gammas := g } false).conjTranspose * M.matrix n { P with gammas := g } false).trace =
      ∑ i : Fin n, ∑ j : Fin n, (starRingEnd ℂ) (preOutput M P j i) * preOutput M P j i := by
  have h : ((M.matrix n { P with gammas := g } false).conjTranspose * M.matrix n { P with gammas := g } false).trace =
      ∑ i : Fin n, ∑ j : Fin n, (starRingEnd ℂ) (M.matrix n { P with gammas := g } false j i) * M.matrix n { P with gammas := g } false j i := rfl
  rw [h]
  refine Finset.sum_congr rfl fun i _ => Finset.sum_congr rfl fun j _ => ?_
  rw [matrix_preOutput, map_mul]
  have e : (starRingEnd ℂ) (exp (I * (g j.val : ℝ))) * exp (I * (g j.val : ℝ)) = 1 := by
    rw [← exp_conj, ← exp_add]
    simp
  linear_combination (starRingEnd ℂ) (preOutput M P j i) * preOutput M P j i * e

theorem num_gammas {n : ℕ} (u : Matrix (Fin n) (Fin n) ℂ) (M : Mesh) (P : Params) (g : ℕ → ℝ) :
    (u.conjTranspose * M.matrix n { P with gammas := g } false).trace =
      ∑ j : Fin n, exp (I * (g j.val : ℝ)) * ∑ i : Fin n, (starRingEnd ℂ) (u j i) * preOutput M P j i := by
  have h : (u.conjTranspose * M.matrix n { P with gammas := g } false).trace =
      ∑ i : Fin n, ∑ j : Fin n, (starRingEnd ℂ) (u j i) * M.matrix n { P with gammas := g } false j i := rfl
  rw [h, Finset.sum_comm]
  refine Finset.sum_congr rfl fun j _ => ?_
  rw [Finset.mul_sum]
  refine Finset.sum_congr rfl fun i _ => ?_
  rw [matrix_preOutput]
  ring

theorem radicand_shift {n : ℕ} (u : Matrix (Fin n) (Fin n) ℂ) (M : Mesh) (P : Params) (g : ℕ → ℝ) (c : ℝ) :
    errorRadicand u (M.matrix n { P with gammas := fun k => g k + c } false) = errorRadicand u (M.matrix n { P with gammas := g } false) := by
  unfold errorRadicand
  rw [den_gammas, den_gammas, num_gammas, num_gammas]
  have e : ∑ j : Fin n, exp (I * ((g j.val + c : ℝ) : ℂ)) * ∑ i : Fin n, (starRingEnd ℂ) (u j i) * preOutput M P j i =
      exp (I * (c : ℝ)) * ∑ j : Fin n, exp (I * (g j.val : ℝ)) * ∑ i : Fin n, (starRingEnd ℂ) (u j i) * preOutput M P j i := by
    rw [Finset.mul_sum]
    refine Finset.sum_congr rfl fun j _ => ?_
    rw [ofReal_add, mul_add, exp_add]
    ring
  have h1 : ‖exp (I * (c : ℝ))‖ = 1 := by rw [mul_comm]; exact norm_exp_ofReal_mul_I c
  rw [e, norm_mul, h1, one_mul]

/-- C215: shifting all output phases of any mesh (losses and coupling errors included) by one amount changes neither the cost of `matrix_opt` nor any entry
of the gradient. -/
theorem C215_shift {n : ℕ} (u : Matrix (Fin n) (Fin n) ℂ) (M : Mesh) (P : Params) (c : ℝ) :
    optCost u M { P with gammas := fun k => P.gammas k + c } = optCost u M P ∧
    optGrad u M { P with gammas := fun k => P.gammas k + c } = optGrad u M P := by
  have hc : optCost u M { P with gammas := fun k => P.gammas k + c } = optCost u M P := by
    unfold optCost
    rw [radicand_shift u M P P.gammas c, den_gammas M P]
    exact (congrArg (fun z : ℂ => if z = 0 then none else _) (den_gammas M P P.gammas).symm)
  refine ⟨hc, ?_⟩
  unfold optGrad
  rw [hc]
  cases optCost u M P with
  | none => rfl
  | some v =>
    dsimp only
    by_cases hv : v = 0
    · rw [if_pos hv, if_pos hv]
    · rw [if_neg hv, if_neg hv]
      congr 2
      · funext k
        congr 2
        funext x
        exact radicand_shift u M { P with thetas := Function.update P.thetas k x } P.gammas c
      · funext k
        congr 2
        funext x
        exact radicand_shift u M { P with phis := Function.update P.phis k x } P.gammas c
      · funext k
        congr 1
        have e : (fun x => errorRadicand u (M.matrix n { P with gammas := Function.update (fun q => P.gammas q + c) k x } false)) =
            fun x => errorRadicand u (M.matrix n { P with gammas := Function.update P.gammas k (x - c) } false) := by
          funext x
          rw [← radicand_shift u M P (Function.update P.gammas k (x - c)) c]
          congr 4
          funext q
          by_cases h : q = k
          · subst h; simp
          · simp [Function.update_of_ne h]
        have := deriv_comp_sub_const (f := fun x => errorRadicand u (M.matrix n { P with gammas := Function.update P.gammas k x } false)) c (P.gammas k + c)
        rw [add_sub_cancel_right] at this
        rw [← this]
        exact congrArg (fun f => deriv f (P.gammas k + c)) e

/-- C215: the entries of the gradient that belong to the output phases add up to zero, and those beyond the last rail are zero. -/
theorem C215_sum {n : ℕ} (u : Matrix (Fin n) (Fin n) ℂ) (M : Mesh) (P g : Params) (hg : optGrad u M P = some g) :
    ∑ k ∈ Finset.range n, g.gammas k = 0 ∧ ∀ k, n ≤ k → g.gammas k = 0 := by
  set w : Fin n → ℂ := fun j => ∑ i : Fin n, (starRingEnd ℂ) (u j i) * preOutput M P j i with hw
  set N : ℝ := ‖∑ i : Fin n, ∑ j : Fin n, (starRingEnd ℂ) (preOutput M P j i) * preOutput M P j i‖ ^ 2 with hN
  set T : ℂ := ∑ j : Fin n, exp (I * (P.gammas j.val : ℝ)) * w j with hT
  have hr : ∀ q : ℕ → ℝ, errorRadicand u (M.matrix n { P with gammas := q } false) = 1 - ‖∑ j : Fin n, exp (I * (q j.val : ℝ)) * w j‖ ^ 2 / N := by
    intro q
    unfold errorRadicand
    rw [den_gammas, num_gammas]
  have hd : ∀ k, HasDerivAt (fun x => errorRadicand u (M.matrix n { P with gammas := Function.update P.gammas k x } false))
      (-(2 * inner ℝ T (∑ j : Fin n, if j.val = k then I * (exp (I * (P.gammas j.val : ℝ)) * w j) else 0) / N)) (P.gammas k) := by
    intro k
    simp only [hr]
    have h1 : HasDerivAt (fun x : ℝ => ∑ j : Fin n, exp (I * ((Function.update P.gammas k x j.val : ℝ) : ℂ)) * w j)
        (∑ j : Fin n, if j.val = k then I * (exp (I * (P.gammas j.val : ℝ)) * w j) else 0) (P.gammas k) := by
      refine HasDerivAt.fun_sum fun j _ => ?_
      by_cases h : j.val = k
      · subst h
        simp only [Function.update_self, if_true]
        have h2 : HasDerivAt (fun x : ℝ => I * (x : ℂ)) I (P.gammas j.val) := by
          simpa using (HasDerivAt.ofReal_comp (hasDerivAt_id (P.gammas j.val))).const_mul I
        have h3 := h2.cexp.mul_const (w j)
        refine h3.congr_deriv ?_
        ring
      · simp only [Function.update_of_ne h, if_neg h]
        exact hasDerivAt_const _ _
    have h4 := ((h1.norm_sq).div_const N).const_sub 1
    simp only [Function.update_eq_self] at h4
    exact h4
  have hk : ∃ v : ℝ, ∀ k, g.gammas k = -(2 * inner ℝ T (∑ j : Fin n, if j.val = k then I * (exp (I * (P.gammas j.val : ℝ)) * w j) else 0) / N) / (2 * v) := by
    unfold optGrad at hg
    cases hc : optCost u M P with
    | none => rw [hc] at hg; exact absurd hg (by simp)
    | some v =>
      rw [hc] at hg
      dsimp only at hg
      by_cases hv : v = 0
      · rw [if_pos hv] at hg; exact absurd hg (by simp)
      · rw [if_neg hv, Option.some.injEq] at hg
        refine ⟨v, fun k => ?_⟩
        rw [← hg, ← (hd k).deriv]
  obtain ⟨v, hv⟩ := hk
  constructor
  · simp only [hv]
    rw [← Finset.sum_div, Finset.sum_neg_distrib, ← Finset.sum_div, ← Finset.mul_sum, ← inner_sum]
    have : ∑ k ∈ Finset.range n, ∑ j : Fin n, (if j.val = k then I * (exp (I * (P.gammas j.val : ℝ)) * w j) else 0) = I * T := by
      rw [Finset.sum_comm, hT, Finset.mul_sum]
      refine Finset.sum_congr rfl fun j _ => ?_
      rw [Finset.sum_ite_eq, if_pos (Finset.mem_range.2 j.isLt)]
    rw [this, Complex.inner]
    have : (I * T * (starRingEnd ℂ) T).re = 0 := by
      simp [mul_re, mul_im]
      ring
    rw [this]
    simp
  · intro k hkn
    rw [hv]
    have : ∑ j : Fin n, (if j.val = k then I * (exp (I * (P.gammas j.val : ℝ)) * w j) else 0) = 0 :=
      Finset.sum_eq_zero fun j _ => if_neg (by omega)
    rw [this]
    simp

/-- C215, the hypothesis of `C215_sum` can be met: for a lossless coupler at any phases there is a target with a gradient. -/
theorem C215_case (P : Params) : ∃ u ∈ Matrix.unitaryGroup (Fin 2) ℂ, ∃ g, optGrad u (lossyPair 0) P = some g := by
  have hw : (lossyPair 0).WellFormed 2 :=
    { errors_length := by simp [lossyPair]
      losses_length := by simp [lossyPair]
      ids := by intro a ha; simp only [lossyPair, List.mem_singleton] at ha; subst ha; exact Nat.one_pos
      rails := by intro a ha; simp only [lossyPair, List.mem_singleton] at ha; subst ha; decide
      disjoint := by simp [ColumnsDisjoint, lossyPair] }
  have hL : (lossyPair 0).Lossless := by intro p hp; simp only [lossyPair, List.mem_singleton] at hp; exact hp
  have hU := C06_lossless_unitary 2 (lossyPair 0) hw hL P false
  have hJ : Matrix.diagonal ![(1 : ℂ), I] ∈ Matrix.unitaryGroup (Fin 2) ℂ := by
    rw [Matrix.mem_unitaryGroup_iff, Matrix.star_eq_conjTranspose, Matrix.diagonal_conjTranspose, Matrix.diagonal_mul_diagonal, ← Matrix.diagonal_one]
    congr 1
    funext k
    fin_cases k <;> simp
  set U := (lossyPair 0).matrix 2 P false with hUd
  have hu := mul_mem hU hJ
  refine ⟨_, hu, ?_⟩
  have hne : normalizedError (U * Matrix.diagonal ![(1 : ℂ), I]) U ≠ 0 := by
    have h1 : ((U * Matrix.diagonal ![(1 : ℂ), I]).conjTranspose * U).trace = 1 - I := by
      rw [Matrix.conjTranspose_mul, Matrix.mul_assoc, ← Matrix.star_eq_conjTranspose U, (Unitary.mem_iff.1 hU).1, Matrix.mul_one,
        Matrix.diagonal_conjTranspose, Matrix.trace_diagonal, Fin.sum_univ_two]
      simp [sub_eq_add_neg]
    have h2 : (U.conjTranspose * U).trace = 2 := by
      rw [← Matrix.star_eq_conjTranspose, (Unitary.mem_iff.1 hU).1, Matrix.trace_one, Fintype.card_fin]
      norm_num
    have h3 : ‖(1 : ℂ) - I‖ ^ 2 = 2 := by
      rw [← Complex.normSq_eq_norm_sq, Complex.normSq_apply]
      norm_num
    unfold normalizedError
    rw [h1, h2, h3]
    norm_num
  obtain ⟨g, hg, -⟩ := C148_gradient_partial (by norm_num : 0 < 2) _ hu (lossyPair 0) hw hL P hne
  exact ⟨g, hg⟩

end Simphox
