import Mathlib.LinearAlgebra.Matrix.ToLin
import Mathlib.Analysis.InnerProductSpace.PiL2
import Mathlib.LinearAlgebra.Matrix.NonsingularInverse
import Verif.ReciprocityProps

/-!
# Power balance and well-posedness of `FDFD.solve` without PML (C124)

`FDFD.solve` returns a field that satisfies Ampère's law with the current `j = -i src` (C49, time
convention `exp(-i k0 t)`). The source delivers the power `-Re Σ conj(e) j`, the medium absorbs
`k0 Σ Im(eps) |e|²`.
-/

namespace Simphox

open Matrix Complex

variable {s : Fin 3 → ℕ}

/-! ### Specification -/

/-- The power delivered by the electric current `j` to the field `e`. -/
noncomputable def deliveredPower (j e : VField s) : ℝ := -∑ c, ∑ i, ((starRingEnd ℂ) (e c i) * j c i).re

/-- The power absorbed by the medium. -/
noncomputable def absorbedPower (k0 : ℝ) (epsT e : VField s) : ℝ :=
  k0 * ∑ c, ∑ i, (epsT c i).im * ‖e c i‖ ^ 2

/-! ### Quadratic forms -/

theorem dot_star_self_im {ι : Type} [Fintype ι] (v : ι → ℂ) : (star v ⬝ᵥ v).im = 0 := by
  simp only [dotProduct, Pi.star_apply, im_sum]
  refine Finset.sum_eq_zero fun i _ => ?_
  have : star (v i) * v i = ((normSq (v i) : ℝ) : ℂ) := by rw [normSq_eq_conj_mul_self]; rfl
  rw [this, ofReal_im]

theorem quad_gram {ι : Type} [Fintype ι] (B C : Matrix ι ι ℂ) (h : B = Cᴴ) (v : ι → ℂ) :
    star v ⬝ᵥ (B *ᵥ (C *ᵥ v)) = star (C *ᵥ v) ⬝ᵥ (C *ᵥ v) := by
  rw [h, Matrix.dotProduct_mulVec, ← Matrix.star_mulVec]

/-- The quadratic form of the three dimensional operator: its imaginary part comes from the medium. -/
theorem fdfdMat_quad_im [∀ a, NeZero (s a)] (b : Fin 3 → ℂ) (spacing : Fin 3 → ℝ) (k0 : ℝ) (epsT e : VField s) :
    (star (vflat e) ⬝ᵥ (fdfdMat (uniformOps s b spacing) k0 epsT *ᵥ vflat e)).im =
      -(k0 ^ 2 * ∑ c, ∑ i, (epsT c i).im * ‖e c i‖ ^ 2) := by
  set g := uniformOps s b spacing
  have hC : d2curlOp (g.deriv true) = (d2curlOp (g.deriv false))ᴴ :=
    d2curlOp_conjTranspose _ _ fun a => C44_adjoint g a (spacing a) fun _ _ => rfl
  unfold fdfdMat
  rw [Matrix.sub_mulVec, dotProduct_sub, ← Matrix.mulVec_mulVec, quad_gram _ _ hC, sub_im, dot_star_self_im, zero_sub]
  congr 1
  simp only [dotProduct, Fintype.sum_prod_type, Matrix.smul_mulVec, Pi.smul_apply, Matrix.mulVec_diagonal, smul_eq_mul,
    Pi.star_apply, im_sum, vflat, Finset.mul_sum]
  refine Finset.sum_congr rfl fun c _ => Finset.sum_congr rfl fun i _ => ?_
  have h1 : star (e c i) * ((k0 : ℂ) ^ 2 * (epsT c i * e c i)) = ((k0 ^ 2 * ‖e c i‖ ^ 2 : ℝ) : ℂ) * epsT c i := by
    have : star (e c i) * e c i = ((‖e c i‖ ^ 2 : ℝ) : ℂ) := by
      rw [← normSq_eq_norm_sq, normSq_eq_conj_mul_self]; rfl
    rw [ofReal_mul, ← this]; push_cast; ring
  rw [h1, im_ofReal_mul]; ring

theorem mul_conj_norm (z : ℂ) : star z * z = ((‖z‖ ^ 2 : ℝ) : ℂ) := by
  rw [← normSq_eq_norm_sq, normSq_eq_conj_mul_self]; rfl

theorem gram_axis [∀ a, NeZero (s a)] (b : Fin 3 → ℂ) (spacing : Fin 3 → ℝ) (a : Fin 3) (t v : SField s) :
    star v ⬝ᵥ ((uniformOps s b spacing).deriv true a *ᵥ fun j => t j * ((uniformOps s b spacing).deriv false a *ᵥ v) j) =
      -∑ i, t i * ((‖((uniformOps s b spacing).deriv false a *ᵥ v) i‖ ^ 2 : ℝ) : ℂ) := by
  rw [C44_adjoint (uniformOps s b spacing) a (spacing a) fun _ _ => rfl, Matrix.neg_mulVec, dotProduct_neg,
    Matrix.dotProduct_mulVec, ← Matrix.star_mulVec]
  congr 1
  simp only [dotProduct, Pi.star_apply]
  refine Finset.sum_congr rfl fun i _ => ?_
  rw [← mul_conj_norm]; ring

/-- The quadratic form of the two dimensional operators. -/
theorem quad_2d [∀ a, NeZero (s a)] (b : Fin 3 → ℂ) (spacing : Fin 3 → ℝ) (t0 t1 q v w : SField s)
    (h : let g := uniformOps s b spacing
      ∀ i, w i = -(g.deriv true 0 *ᵥ fun j => t0 j * (g.deriv false 0 *ᵥ v) j) i
      - (g.deriv true 1 *ᵥ fun j => t1 j * (g.deriv false 1 *ᵥ v) j) i - q i * v i) :
    let g := uniformOps s b spacing
    star v ⬝ᵥ w = (∑ i, t0 i * ((‖(g.deriv false 0 *ᵥ v) i‖ ^ 2 : ℝ) : ℂ)) +
      (∑ i, t1 i * ((‖(g.deriv false 1 *ᵥ v) i‖ ^ 2 : ℝ) : ℂ)) - ∑ i, q i * ((‖v i‖ ^ 2 : ℝ) : ℂ) := by
  intro g
  have hw : w = -(g.deriv true 0 *ᵥ fun j => t0 j * (g.deriv false 0 *ᵥ v) j)
      - (g.deriv true 1 *ᵥ fun j => t1 j * (g.deriv false 1 *ᵥ v) j) - fun i => q i * v i := funext h
  rw [hw, dotProduct_sub, dotProduct_sub, dotProduct_neg, gram_axis, gram_axis, neg_neg, sub_neg_eq_add]
  congr 1
  simp only [dotProduct, Pi.star_apply]
  refine Finset.sum_congr rfl fun i _ => ?_
  rw [← mul_conj_norm]; ring

/-! ### C124 -/

/-- C124, power balance in three dimensions: without PML, for every Bloch factor, cell size and complex
permittivity, the power delivered by the current of the solution is the power absorbed by the medium. -/
theorem C124_power_3d [∀ a, NeZero (s a)] (b : Fin 3 → ℂ) (spacing : Fin 3 → ℝ) (k0 : ℝ) (hk : k0 ≠ 0)
    (epsT src : VField s) (solver : Solver (Fin 3 × GIdx s)) :
    let g := uniformOps s b spacing
    fdfdMat g k0 epsT *ᵥ solver (fdfdMat g k0 epsT) (fun p => (k0 : ℂ) * vflat src p) =
      (fun p => (k0 : ℂ) * vflat src p) →
    let e := (solve3d g k0 epsT solver src).1
    deliveredPower (fun c i => -I * src c i) e = absorbedPower k0 epsT e := by
  intro g h e
  have hq := fdfdMat_quad_im b spacing k0 epsT e
  have he : fdfdMat g k0 epsT *ᵥ vflat e = fun p => (k0 : ℂ) * vflat src p := h
  rw [he] at hq
  have hl : (star (vflat e) ⬝ᵥ fun p => (k0 : ℂ) * vflat src p).im =
      k0 * -deliveredPower (fun c i => -I * src c i) e := by
    simp only [dotProduct, Fintype.sum_prod_type, Pi.star_apply, im_sum, vflat, deliveredPower, neg_neg, Finset.mul_sum]
    refine Finset.sum_congr rfl fun c _ => Finset.sum_congr rfl fun i _ => ?_
    simp only [star_def, mul_im, mul_re, conj_re, conj_im, neg_re, neg_im, I_re, I_im, ofReal_re, ofReal_im]
    ring
  rw [hl] at hq
  unfold absorbedPower
  apply mul_left_cancel₀ hk
  linarith

/-- C124, power balance in two dimensions, `e_z` (`tm_2d=False`). -/
theorem C124_power_ez [∀ a, NeZero (s a)] (b : Fin 3 → ℂ) (spacing : Fin 3 → ℝ) (k0 : ℝ) (hk : k0 ≠ 0)
    (epsT : VField s) (src : SField s) (solver : Solver (GIdx s)) :
    let g := uniformOps s b spacing
    fdfdMatEz g k0 epsT *ᵥ solver (fdfdMatEz g k0 epsT) (fun i => (k0 : ℂ) * src i) = (fun i => (k0 : ℂ) * src i) →
    let e := (solve2d g k0 epsT false solver src).1
    deliveredPower (fun c i => -I * (![0, 0, src] : VField s) c i) e = absorbedPower k0 epsT e := by
  intro g h e
  set ez := solver (fdfdMatEz g k0 epsT) (fun i => (k0 : ℂ) * src i) with hez
  have he : e = ![0, 0, ez] := rfl
  have hq := quad_2d b spacing (fun _ => 1) (fun _ => 1) (fun i => k0 ^ 2 * epsT 2 i) ez (fun i => (k0 : ℂ) * src i)
    (fun i => by rw [mul_assoc, ← fdfdMatEz_mulVec]; exact (congrFun h i).symm)
  have hi := congrArg Complex.im hq
  simp only [add_im, sub_im, im_sum, one_mul, ofReal_im, Finset.sum_const_zero, zero_add, add_zero, dotProduct, Pi.star_apply] at hi
  have e1 : ∀ i, (star (ez i) * ((k0 : ℂ) * src i)).im = k0 * ((starRingEnd ℂ) (ez i) * (-I * src i)).re := by
    intro i
    simp only [star_def, mul_im, mul_re, conj_re, conj_im, neg_re, neg_im, I_re, I_im, ofReal_re, ofReal_im]
    ring
  have e2 : ∀ i, ((k0 : ℂ) ^ 2 * epsT 2 i * ((‖ez i‖ ^ 2 : ℝ) : ℂ)).im = k0 * (k0 * ((epsT 2 i).im * ‖ez i‖ ^ 2)) := by
    intro i
    rw [im_mul_ofReal, ← ofReal_pow, im_ofReal_mul]; ring
  simp only [e1, e2, ← Finset.mul_sum] at hi
  unfold deliveredPower absorbedPower
  rw [he, Fin.sum_univ_three, Fin.sum_univ_three]
  simp only [Fin.isValue, Matrix.cons_val_zero, Matrix.cons_val_one, Matrix.cons_val, Pi.zero_apply, map_zero, zero_mul,
    zero_re, Finset.sum_const_zero, zero_add, norm_zero, ne_eq, OfNat.ofNat_ne_zero, not_false_eq_true, zero_pow, mul_zero]
  apply mul_left_cancel₀ hk
  linarith

/-- C124, lossless media do not absorb: with real permittivity the source delivers no net power, so a
solution exists only for sources that are not in phase with their own field. -/
theorem C124_lossless [∀ a, NeZero (s a)] (b : Fin 3 → ℂ) (spacing : Fin 3 → ℝ) (k0 : ℝ) (hk : k0 ≠ 0)
    (epsT src : VField s) (hr : ∀ c i, (epsT c i).im = 0) (solver : Solver (Fin 3 × GIdx s)) :
    let g := uniformOps s b spacing
    fdfdMat g k0 epsT *ᵥ solver (fdfdMat g k0 epsT) (fun p => (k0 : ℂ) * vflat src p) =
      (fun p => (k0 : ℂ) * vflat src p) →
    deliveredPower (fun c i => -I * src c i) (solve3d g k0 epsT solver src).1 = 0 := by
  intro g h
  rw [C124_power_3d b spacing k0 hk epsT src solver h, absorbedPower]
  simp [hr]

theorem bijective_of_ker {ι : Type} [Fintype ι] [DecidableEq ι] (A : Matrix ι ι ℂ) (h : ∀ v, A *ᵥ v = 0 → v = 0)
    (w : ι → ℂ) : ∃! v, A *ᵥ v = w := by
  have hi : Function.Injective A.mulVecLin := by
    rw [← LinearMap.ker_eq_bot, LinearMap.ker_eq_bot']
    intro v hv; exact h v hv
  have hsu : Function.Surjective A.mulVecLin := LinearMap.injective_iff_surjective.1 hi
  obtain ⟨v, hv⟩ := hsu w
  exact ⟨v, hv, fun y hy => hi ((show A.mulVecLin y = w from hy).trans hv.symm)⟩

/-- C124, well-posedness: if every cell absorbs (or every cell has gain), then for every source the
system that `FDFD.solve` hands to the solver has exactly one solution, in three dimensions and for both
two dimensional polarisations. -/
theorem C124_unique [∀ a, NeZero (s a)] (b : Fin 3 → ℂ) (spacing : Fin 3 → ℝ) (k0 : ℝ) (hk : k0 ≠ 0)
    (epsT : VField s) (hl : (∀ c i, 0 < (epsT c i).im) ∨ ∀ c i, (epsT c i).im < 0) :
    let g := uniformOps s b spacing
    (∀ w, ∃! v, fdfdMat g k0 epsT *ᵥ v = w) ∧ (∀ w, ∃! v, fdfdMatEz g k0 epsT *ᵥ v = w) ∧
      ∀ w, ∃! v, fdfdMatHz g k0 epsT *ᵥ v = w := by
  intro g
  have hk2 : 0 < k0 ^ 2 := by positivity
  have zero_of_sum : ∀ {ι : Type} [Fintype ι] (m : ι → ℝ) (x : ι → ℂ), ((∀ p, 0 < m p) ∨ ∀ p, m p < 0) →
      ∑ p, m p * ‖x p‖ ^ 2 = 0 → x = 0 := by
    intro ι _ m x hm hs
    funext p
    rcases hm with hm | hm
    · have := (Finset.sum_eq_zero_iff_of_nonneg fun p _ => mul_nonneg (hm p).le (sq_nonneg ‖x p‖)).1 hs p (Finset.mem_univ p)
      have h2 := (mul_eq_zero.1 this).resolve_left (hm p).ne'
      exact norm_eq_zero.1 (pow_eq_zero_iff two_ne_zero |>.1 h2)
    · have := (Finset.sum_eq_zero_iff_of_nonpos fun p _ => mul_nonpos_of_nonpos_of_nonneg (hm p).le (sq_nonneg ‖x p‖)).1 hs p (Finset.mem_univ p)
      have h2 := (mul_eq_zero.1 this).resolve_left (hm p).ne
      exact norm_eq_zero.1 (pow_eq_zero_iff two_ne_zero |>.1 h2)
  refine ⟨?_, ?_, ?_⟩
  · refine bijective_of_ker _ fun v hv => ?_
    have hf : vflat (vunflat v) = v := rfl
    have hq := fdfdMat_quad_im b spacing k0 epsT (vunflat v)
    rw [hf, hv, dotProduct_zero, zero_im, eq_comm, neg_eq_zero] at hq
    have hq' := (mul_eq_zero.1 hq).resolve_left hk2.ne'
    rw [← Fintype.sum_prod_type (f := fun p : Fin 3 × GIdx s => (epsT p.1 p.2).im * ‖vunflat v p.1 p.2‖ ^ 2)] at hq'
    exact zero_of_sum (fun p : Fin 3 × GIdx s => (epsT p.1 p.2).im) v
      (hl.imp (fun h p => h p.1 p.2) fun h p => h p.1 p.2) hq'
  · refine bijective_of_ker _ fun v hv => ?_
    have hq := quad_2d b spacing (fun _ => 1) (fun _ => 1) (fun i => k0 ^ 2 * epsT 2 i) v 0
      (fun i => by rw [mul_assoc, ← fdfdMatEz_mulVec]; exact (congrFun hv i).symm)
    have hi := congrArg Complex.im hq
    simp only [add_im, sub_im, im_sum, one_mul, ofReal_im, Finset.sum_const_zero, zero_add, dotProduct_zero,
      zero_im, zero_sub] at hi
    have e2 : ∀ i, ((k0 : ℂ) ^ 2 * epsT 2 i * ((‖v i‖ ^ 2 : ℝ) : ℂ)).im = k0 ^ 2 * ((epsT 2 i).im * ‖v i‖ ^ 2) := by
      intro i
      rw [im_mul_ofReal, ← ofReal_pow, im_ofReal_mul]; ring
    simp only [e2, ← Finset.mul_sum] at hi
    have hq' := (mul_eq_zero.1 (neg_eq_zero.1 hi.symm)).resolve_left hk2.ne'
    exact zero_of_sum (fun i => (epsT 2 i).im) v (hl.imp (fun h p => h 2 p) fun h p => h 2 p) hq'
  · refine bijective_of_ker _ fun v hv => ?_
    have hq := quad_2d b spacing (fun i => 1 / epsT 1 i) (fun i => 1 / epsT 0 i) (fun _ => (k0 : ℂ) ^ 2) v 0
      (fun i => by rw [← fdfdMatHz_mulVec]; exact (congrFun hv i).symm)
    have hi := congrArg Complex.im hq
    have e0 : ∀ c i, ∀ r : ℝ, (1 / epsT c i * (r : ℂ)).im = -((epsT c i).im / normSq (epsT c i)) * r := by
      intro c i r
      rw [im_mul_ofReal, one_div, inv_im]; ring
    have e2 : ∀ r : ℝ, ((k0 : ℂ) ^ 2 * (r : ℂ)).im = 0 := by
      intro r
      rw [← ofReal_pow, ← ofReal_mul, ofReal_im]
    simp only [add_im, sub_im, im_sum, dotProduct_zero, zero_im, e0, e2, Finset.sum_const_zero, sub_zero] at hi
    have hne : ∀ c i, epsT c i ≠ 0 := by
      intro c i h0
      rcases hl with h | h <;> · have := h c i; rw [h0, zero_im] at this; exact lt_irrefl _ this
    have hm : ∀ c, (∀ i, 0 < -((epsT c i).im / normSq (epsT c i))) ∨ ∀ i, -((epsT c i).im / normSq (epsT c i)) < 0 := by
      intro c
      rcases hl with h | h
      · exact Or.inr fun i => neg_neg_of_pos (div_pos (h c i) (normSq_pos.2 (hne c i)))
      · exact Or.inl fun i => neg_pos_of_neg (div_neg_of_neg_of_pos (h c i) (normSq_pos.2 (hne c i)))
    set S0 := ∑ i, -((epsT 1 i).im / normSq (epsT 1 i)) * ‖((uniformOps s b spacing).deriv false 0 *ᵥ v) i‖ ^ 2
    set S1 := ∑ i, -((epsT 0 i).im / normSq (epsT 0 i)) * ‖((uniformOps s b spacing).deriv false 1 *ᵥ v) i‖ ^ 2
    have hS : S0 = 0 ∧ S1 = 0 := by
      rcases hl with h | h
      · have n0 : S0 ≤ 0 := Finset.sum_nonpos fun i _ => mul_nonpos_of_nonpos_of_nonneg
          (neg_nonpos_of_nonneg (div_nonneg (h 1 i).le (normSq_nonneg _))) (sq_nonneg _)
        have n1 : S1 ≤ 0 := Finset.sum_nonpos fun i _ => mul_nonpos_of_nonpos_of_nonneg
          (neg_nonpos_of_nonneg (div_nonneg (h 0 i).le (normSq_nonneg _))) (sq_nonneg _)
        constructor <;> linarith
      · have n0 : 0 ≤ S0 := Finset.sum_nonneg fun i _ => mul_nonneg
          (neg_nonneg_of_nonpos (div_nonpos_of_nonpos_of_nonneg (h 1 i).le (normSq_nonneg _))) (sq_nonneg _)
        have n1 : 0 ≤ S1 := Finset.sum_nonneg fun i _ => mul_nonneg
          (neg_nonneg_of_nonpos (div_nonpos_of_nonpos_of_nonneg (h 0 i).le (normSq_nonneg _))) (sq_nonneg _)
        constructor <;> linarith
    have z0 := zero_of_sum _ _ (hm 1) hS.1
    have z1 := zero_of_sum _ _ (hm 0) hS.2
    funext i
    have hvi := congrFun hv i
    rw [fdfdMatHz_mulVec] at hvi
    have y0 : (fun j => 1 / epsT 1 j * (g.deriv false 0 *ᵥ v) j) = 0 := by
      funext j; rw [show (g.deriv false 0 *ᵥ v) j = 0 from congrFun z0 j, mul_zero]; rfl
    have y1 : (fun j => 1 / epsT 0 j * (g.deriv false 1 *ᵥ v) j) = 0 := by
      funext j; rw [show (g.deriv false 1 *ᵥ v) j = 0 from congrFun z1 j, mul_zero]; rfl
    rw [y0, y1, Matrix.mulVec_zero, Matrix.mulVec_zero] at hvi
    have hk' : (k0 : ℂ) ^ 2 ≠ 0 := pow_ne_zero 2 (by exact_mod_cast hk)
    simpa [hk'] using hvi

/-- C124, stability: if every cell absorbs at least `δ`, the field is bounded by the source,
`k0 δ ‖e‖ ≤ ‖src‖`, whatever the grid, the Bloch phase and the rest of the permittivity. -/
theorem C124_bound [∀ a, NeZero (s a)] (b : Fin 3 → ℂ) (spacing : Fin 3 → ℝ) (k0 : ℝ) (hk : 0 < k0)
    (epsT src : VField s) (δ : ℝ) (hδ : 0 < δ) (hl : ∀ c i, δ ≤ (epsT c i).im) (solver : Solver (Fin 3 × GIdx s)) :
    let g := uniformOps s b spacing
    fdfdMat g k0 epsT *ᵥ solver (fdfdMat g k0 epsT) (fun p => (k0 : ℂ) * vflat src p) =
      (fun p => (k0 : ℂ) * vflat src p) →
    let e := (solve3d g k0 epsT solver src).1
    k0 * δ * √(∑ c, ∑ i, ‖e c i‖ ^ 2) ≤ √(∑ c, ∑ i, ‖src c i‖ ^ 2) := by
  intro g h e
  have hp := C124_power_3d b spacing k0 hk.ne' epsT src solver h
  set E := ∑ c, ∑ i, ‖e c i‖ ^ 2 with hE
  set S := ∑ c, ∑ i, ‖src c i‖ ^ 2 with hS
  have E0 : 0 ≤ E := Finset.sum_nonneg fun c _ => Finset.sum_nonneg fun i _ => sq_nonneg _
  have S0 : 0 ≤ S := Finset.sum_nonneg fun c _ => Finset.sum_nonneg fun i _ => sq_nonneg _
  have h1 : k0 * δ * E ≤ absorbedPower k0 epsT e := by
    unfold absorbedPower
    rw [hE, mul_assoc]
    refine mul_le_mul_of_nonneg_left ?_ hk.le
    rw [Finset.mul_sum]
    refine Finset.sum_le_sum fun c _ => ?_
    rw [Finset.mul_sum]
    exact Finset.sum_le_sum fun i _ => mul_le_mul_of_nonneg_right (hl c i) (sq_nonneg _)
  have h2 : deliveredPower (fun c i => -I * src c i) e ≤ √E * √S := by
    have h3 : deliveredPower (fun c i => -I * src c i) e ≤ ∑ p : Fin 3 × GIdx s, ‖e p.1 p.2‖ * ‖src p.1 p.2‖ := by
      unfold deliveredPower
      rw [Fintype.sum_prod_type, ← Finset.sum_neg_distrib]
      refine Finset.sum_le_sum fun c _ => ?_
      rw [← Finset.sum_neg_distrib]
      refine Finset.sum_le_sum fun i _ => ?_
      have := (abs_re_le_norm ((starRingEnd ℂ) (e c i) * (-I * src c i)))
      rw [norm_mul, norm_mul, norm_neg, norm_I, one_mul, RCLike.norm_conj] at this
      exact (neg_le_abs _).trans this
    refine h3.trans ?_
    have := Real.sum_mul_le_sqrt_mul_sqrt Finset.univ (fun p : Fin 3 × GIdx s => ‖e p.1 p.2‖) fun p => ‖src p.1 p.2‖
    rwa [Fintype.sum_prod_type (f := fun p : Fin 3 × GIdx s => ‖e p.1 p.2‖ ^ 2),
      Fintype.sum_prod_type (f := fun p : Fin 3 × GIdx s => ‖src p.1 p.2‖ ^ 2)] at this
  have h4 : k0 * δ * √E * √E ≤ √S * √E := by
    rw [mul_assoc _ (√E), Real.mul_self_sqrt E0, mul_comm (√S)]
    rw [hp] at h2
    exact h1.trans h2
  rcases E0.eq_or_lt with h0 | h0
  · rw [← h0, Real.sqrt_zero, mul_zero]; exact Real.sqrt_nonneg _
  · exact le_of_mul_le_mul_right h4 (Real.sqrt_pos.2 h0)

/-- The hypotheses of C123 and C124 are met: for an absorbing medium the inverse matrix is a solver, for
every source, grid, spacing and Bloch phase. -/
theorem inv_solver [∀ a, NeZero (s a)] (b : Fin 3 → ℂ) (spacing : Fin 3 → ℝ) (k0 : ℝ) (hk : k0 ≠ 0)
    (epsT : VField s) (hl : ∀ c i, 0 < (epsT c i).im) (w : Fin 3 × GIdx s → ℂ) :
    fdfdMat (uniformOps s b spacing) k0 epsT *ᵥ
      ((fun M v => M⁻¹ *ᵥ v : Solver (Fin 3 × GIdx s)) (fdfdMat (uniformOps s b spacing) k0 epsT) w) = w := by
  set A := fdfdMat (uniformOps s b spacing) k0 epsT
  have hu := (C124_unique b spacing k0 hk epsT (Or.inl hl)).1
  have hunit : IsUnit A := by
    rw [← Matrix.mulVec_surjective_iff_isUnit]
    exact fun w => (hu w).exists
  show A *ᵥ (A⁻¹ *ᵥ w) = w
  rw [Matrix.mulVec_mulVec, Matrix.mul_nonsing_inv _ ((Matrix.isUnit_iff_isUnit_det A).1 hunit), Matrix.one_mulVec]

/-- Concrete instance: a `4 x 3 x 2` grid with lossy medium, Bloch phase, two different point sources. -/
example : let g := uniformOps (shapeOf 4 3 2) (fun _ => I) (fun _ => (1 / 10 : ℝ))
    let solver : Solver (Fin 3 × GIdx (shapeOf 4 3 2)) := fun M v => M⁻¹ *ᵥ v
    let eps : VField (shapeOf 4 3 2) := fun _ _ => 2 + I
    reading g (pointSource 1 (fun _ => 0)) (solve3d g 4 eps solver (pointSource 0 fun _ => 1)).1 =
      reading g (pointSource 0 fun _ => 1) (solve3d g.reversed 4 eps solver (pointSource 1 (fun _ => 0))).1 := by
  intro g solver eps
  have hl : ∀ c i, 0 < (eps c i).im := fun _ _ => by simp [eps]
  have hr : g.reversed = uniformOps (shapeOf 4 3 2) (fun _ => (starRingEnd ℂ) I) (fun _ => (1 / 10 : ℝ)) := rfl
  refine C123_3d g (fun p a i => ?_) 4 (by norm_num) eps _ _ solver (inv_solver _ _ 4 (by norm_num) eps hl _) ?_
  · show (((1 / 10 : ℝ)) : ℂ) ≠ 0
    norm_num
  · rw [hr]; exact inv_solver _ _ 4 (by norm_num) eps hl _

end Simphox
