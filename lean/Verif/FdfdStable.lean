import Verif.FdfdPowerProps

/-! # Errors of `FDFD.solve` in absorbing media (C196)

`FDFD.solve` may call an iterative solver (`gmres`, `bicgstab`, fdfd.py:212-215; `bicgstab` in `get_fields_fn`,
fdfd.py:401), which stops when the residual is small, and the permittivity is only known up to an error. If every
cell absorbs, both errors move the field by a controlled amount. -/

namespace Simphox

open Matrix Complex

variable {s : Fin 3 → ℕ}

/-! ### Specification -/

/-- The Euclidean norm of an array. -/
noncomputable def l2 {ι : Type} [Fintype ι] (v : ι → ℂ) : ℝ := √(∑ i, ‖v i‖ ^ 2)

/-! ### Lemmas -/

theorem l2_eq {ι : Type} [Fintype ι] (v : ι → ℂ) : l2 v = ‖(WithLp.toLp 2 v : EuclideanSpace ℂ ι)‖ := by
  rw [EuclideanSpace.norm_eq]; rfl

theorem l2_smul {ι : Type} [Fintype ι] (c : ℂ) (v : ι → ℂ) : l2 (fun i => c * v i) = ‖c‖ * l2 v := by
  rw [l2_eq, l2_eq, ← norm_smul]; rfl

theorem l2_nonneg {ι : Type} [Fintype ι] (v : ι → ℂ) : 0 ≤ l2 v := Real.sqrt_nonneg _

theorem l2_sq {ι : Type} [Fintype ι] (v : ι → ℂ) : l2 v ^ 2 = ∑ i, ‖v i‖ ^ 2 :=
  Real.sq_sqrt (Finset.sum_nonneg fun _ _ => sq_nonneg _)

theorem l2_mul_le {ι : Type} [Fintype ι] (d v : ι → ℂ) (η : ℝ) (hη : 0 ≤ η) (h : ∀ i, ‖d i‖ ≤ η) :
    l2 (fun i => d i * v i) ≤ η * l2 v := by
  apply Real.sqrt_le_iff.2
  refine ⟨mul_nonneg hη (l2_nonneg v), ?_⟩
  rw [mul_pow, l2_sq, Finset.mul_sum]
  refine Finset.sum_le_sum fun i _ => ?_
  rw [norm_mul, mul_pow]
  exact mul_le_mul_of_nonneg_right (pow_le_pow_left₀ (norm_nonneg _) (h i) 2) (sq_nonneg _)

/-- A matrix whose quadratic form is bounded away from zero has a bounded inverse. -/
theorem lower_bound {ι : Type} [Fintype ι] (v w : ι → ℂ) (m : ℝ)
    (h : m * ∑ i, ‖v i‖ ^ 2 ≤ -(star v ⬝ᵥ w).im) : m * l2 v ≤ l2 w := by
  have h1 : -(star v ⬝ᵥ w).im ≤ l2 v * l2 w := by
    have h2 : -(star v ⬝ᵥ w).im ≤ ∑ i, ‖v i‖ * ‖w i‖ := by
      have := abs_im_le_norm (star v ⬝ᵥ w)
      refine (neg_le_abs _).trans (this.trans ?_)
      unfold dotProduct
      refine (norm_sum_le _ _).trans (Finset.sum_le_sum fun i _ => ?_)
      rw [norm_mul, Pi.star_apply, norm_star]
    exact h2.trans (Real.sum_mul_le_sqrt_mul_sqrt Finset.univ (fun i => ‖v i‖) fun i => ‖w i‖)
  rw [← l2_sq] at h
  rcases (l2_nonneg v).eq_or_lt with h0 | h0
  · rw [← h0, mul_zero]; exact l2_nonneg w
  · refine le_of_mul_le_mul_right ?_ h0
    nlinarith

theorem fdfdMat_lower [∀ a, NeZero (s a)] (b : Fin 3 → ℂ) (spacing : Fin 3 → ℝ) (k0 : ℝ) (epsT : VField s) (δ : ℝ)
    (hl : ∀ c i, δ ≤ (epsT c i).im) (v : Fin 3 × GIdx s → ℂ) :
    k0 ^ 2 * δ * l2 v ≤ l2 (fdfdMat (uniformOps s b spacing) k0 epsT *ᵥ v) := by
  apply lower_bound
  have hq := fdfdMat_quad_im b spacing k0 epsT (vunflat v)
  have hf : vflat (vunflat v) = v := rfl
  rw [hf] at hq
  rw [hq, neg_neg, mul_assoc]
  refine mul_le_mul_of_nonneg_left ?_ (sq_nonneg _)
  rw [Fintype.sum_prod_type, Finset.mul_sum]
  refine Finset.sum_le_sum fun c _ => ?_
  rw [Finset.mul_sum]
  exact Finset.sum_le_sum fun i _ => mul_le_mul_of_nonneg_right (hl c i) (sq_nonneg _)

theorem fdfdMatEz_lower [∀ a, NeZero (s a)] (b : Fin 3 → ℂ) (spacing : Fin 3 → ℝ) (k0 : ℝ) (epsT : VField s) (δ : ℝ)
    (hl : ∀ i, δ ≤ (epsT 2 i).im) (v : SField s) :
    k0 ^ 2 * δ * l2 v ≤ l2 (fdfdMatEz (uniformOps s b spacing) k0 epsT *ᵥ v) := by
  apply lower_bound
  have hq := quad_2d b spacing (fun _ => 1) (fun _ => 1) (fun i => k0 ^ 2 * epsT 2 i) v
    (fdfdMatEz (uniformOps s b spacing) k0 epsT *ᵥ v)
    (fun i => by rw [mul_assoc, ← fdfdMatEz_mulVec])
  have hi := congrArg Complex.im hq
  simp only [add_im, sub_im, im_sum, one_mul, ofReal_im, Finset.sum_const_zero, zero_add, zero_sub] at hi
  have e2 : ∀ i, ((k0 : ℂ) ^ 2 * epsT 2 i * ((‖v i‖ ^ 2 : ℝ) : ℂ)).im = k0 ^ 2 * ((epsT 2 i).im * ‖v i‖ ^ 2) := by
    intro i
    rw [im_mul_ofReal, ← ofReal_pow, im_ofReal_mul]; ring
  simp only [e2, ← Finset.mul_sum] at hi
  rw [hi, neg_neg, mul_assoc]
  refine mul_le_mul_of_nonneg_left ?_ (sq_nonneg _)
  rw [Finset.mul_sum]
  exact Finset.sum_le_sum fun i _ => mul_le_mul_of_nonneg_right (hl i) (sq_nonneg _)

/-- The residual bound for any system with a lower bound. -/
theorem residual_bound {ι : Type} [Fintype ι] (A : Matrix ι ι ℂ) (k0 δ tol : ℝ) (hk : 0 < k0)
    (hA : ∀ v, k0 ^ 2 * δ * l2 v ≤ l2 (A *ᵥ v)) (x y src : ι → ℂ) (hy : A *ᵥ y = fun i => (k0 : ℂ) * src i)
    (hx : l2 (fun i => (A *ᵥ x) i - k0 * src i) ≤ tol * l2 (fun i => (k0 : ℂ) * src i)) :
    k0 * δ * l2 (fun i => x i - y i) ≤ tol * l2 src := by
  have h := hA (x - y)
  have e : A *ᵥ (x - y) = fun i => (A *ᵥ x) i - k0 * src i := by
    rw [Matrix.mulVec_sub, hy]; rfl
  rw [e] at h
  rw [l2_smul, Complex.norm_real, Real.norm_of_nonneg hk.le] at hx
  have h2 := h.trans hx
  have e3 : l2 (x - y) = l2 (fun i => x i - y i) := rfl
  rw [e3] at h2
  refine le_of_mul_le_mul_left ?_ hk
  calc k0 * (k0 * δ * l2 (fun i => x i - y i)) = k0 ^ 2 * δ * l2 (fun i => x i - y i) := by ring
    _ ≤ tol * (k0 * l2 src) := h2
    _ = k0 * (tol * l2 src) := by ring

/-- Two systems that differ in the medium only. -/
theorem medium_bound {ι : Type} [Fintype ι] [DecidableEq ι] (C : Matrix ι ι ℂ) (k0 δ η : ℝ) (hk : 0 < k0) (hη : 0 ≤ η)
    (m m' : ι → ℂ) (hm : ∀ i, ‖m' i - m i‖ ≤ η)
    (hA : ∀ v, k0 ^ 2 * δ * l2 v ≤ l2 ((C - (k0 ^ 2 : ℂ) • Matrix.diagonal m) *ᵥ v)) (x x' b : ι → ℂ)
    (hx : (C - (k0 ^ 2 : ℂ) • Matrix.diagonal m) *ᵥ x = b) (hx' : (C - (k0 ^ 2 : ℂ) • Matrix.diagonal m') *ᵥ x' = b) :
    δ * l2 (fun i => x' i - x i) ≤ η * l2 x' := by
  have h := hA (x' - x)
  have e : (C - (k0 ^ 2 : ℂ) • Matrix.diagonal m) *ᵥ (x' - x) = fun i => (k0 ^ 2 : ℂ) * ((m' i - m i) * x' i) := by
    rw [Matrix.mulVec_sub, hx, ← hx']
    simp only [Matrix.sub_mulVec, Matrix.smul_mulVec]
    funext i
    simp only [Pi.sub_apply, Pi.smul_apply, Matrix.mulVec_diagonal, smul_eq_mul]
    ring
  rw [e, l2_smul, norm_pow, Complex.norm_real, Real.norm_of_nonneg hk.le] at h
  have h2 := l2_mul_le (fun i => m' i - m i) x' η hη hm
  have e3 : l2 (x' - x) = l2 (fun i => x' i - x i) := rfl
  rw [e3] at h
  refine le_of_mul_le_mul_left ?_ (pow_pos hk 2)
  calc k0 ^ 2 * (δ * l2 (fun i => x' i - x i)) = k0 ^ 2 * δ * l2 (fun i => x' i - x i) := by ring
    _ ≤ k0 ^ 2 * l2 (fun i => (m' i - m i) * x' i) := h
    _ ≤ k0 ^ 2 * (η * l2 x') := mul_le_mul_of_nonneg_left h2 (sq_nonneg _)

/-! ### C196 -/

/-- C196, three dimensions: if the solver stops at relative residual `tol`, the electric field it returns differs
from the exact one by at most `tol ‖src‖ / (k0 δ)`, where `δ` is the smallest absorption. -/
theorem C196_residual_3d [∀ a, NeZero (s a)] (b : Fin 3 → ℂ) (spacing : Fin 3 → ℝ) (k0 : ℝ) (hk : 0 < k0)
    (epsT src : VField s) (δ tol : ℝ) (hl : ∀ c i, δ ≤ (epsT c i).im) (exact iter : Solver (Fin 3 × GIdx s)) :
    let g := uniformOps s b spacing
    let A := fdfdMat g k0 epsT
    let rhs := fun p => (k0 : ℂ) * vflat src p
    A *ᵥ exact A rhs = rhs → l2 (fun p => (A *ᵥ iter A rhs) p - rhs p) ≤ tol * l2 rhs →
    k0 * δ * l2 (fun p => vflat (solve3d g k0 epsT iter src).1 p - vflat (solve3d g k0 epsT exact src).1 p) ≤
      tol * l2 (vflat src) := by
  intro g A rhs h1 h2
  exact residual_bound A k0 δ tol hk (fdfdMat_lower b spacing k0 epsT δ hl) _ _ (vflat src) h1 h2

/-- C196, two dimensions, `e_z`. -/
theorem C196_residual_ez [∀ a, NeZero (s a)] (b : Fin 3 → ℂ) (spacing : Fin 3 → ℝ) (k0 : ℝ) (hk : 0 < k0)
    (epsT : VField s) (src : SField s) (δ tol : ℝ) (hl : ∀ i, δ ≤ (epsT 2 i).im) (exact iter : Solver (GIdx s)) :
    let g := uniformOps s b spacing
    let A := fdfdMatEz g k0 epsT
    let rhs := fun p => (k0 : ℂ) * src p
    A *ᵥ exact A rhs = rhs → l2 (fun p => (A *ᵥ iter A rhs) p - rhs p) ≤ tol * l2 rhs →
    k0 * δ * l2 (fun i => (solve2d g k0 epsT false iter src).1 2 i - (solve2d g k0 epsT false exact src).1 2 i) ≤
      tol * l2 src := by
  intro g A rhs h1 h2
  exact residual_bound A k0 δ tol hk (fdfdMatEz_lower b spacing k0 epsT δ hl) _ _ src h1 h2

/-- C196, three dimensions: changing the permittivity by at most `η` in every cell moves the electric field by at
most `η/δ` times the new field, hence by at most `η/δ` times `‖src‖/(k0 δ)` if the new medium absorbs too. -/
theorem C196_medium_3d [∀ a, NeZero (s a)] (b : Fin 3 → ℂ) (spacing : Fin 3 → ℝ) (k0 : ℝ) (hk : 0 < k0)
    (epsT epsT' src : VField s) (δ η : ℝ) (hδ : 0 < δ) (hη : 0 ≤ η) (hl : ∀ c i, δ ≤ (epsT c i).im)
    (hd : ∀ c i, ‖epsT' c i - epsT c i‖ ≤ η) (solver : Solver (Fin 3 × GIdx s)) :
    let g := uniformOps s b spacing
    let rhs := fun p => (k0 : ℂ) * vflat src p
    fdfdMat g k0 epsT *ᵥ solver (fdfdMat g k0 epsT) rhs = rhs →
    fdfdMat g k0 epsT' *ᵥ solver (fdfdMat g k0 epsT') rhs = rhs →
    let e := vflat (solve3d g k0 epsT solver src).1
    let e' := vflat (solve3d g k0 epsT' solver src).1
    δ * l2 (fun p => e' p - e p) ≤ η * l2 e' ∧
      ((∀ c i, δ ≤ (epsT' c i).im) → k0 * δ ^ 2 * l2 (fun p => e' p - e p) ≤ η * l2 (vflat src)) := by
  intro g rhs h1 h2 e e'
  have key : δ * l2 (fun p => e' p - e p) ≤ η * l2 e' :=
    medium_bound (d2curlOp (g.deriv true) * d2curlOp (g.deriv false)) k0 δ η hk hη (vflat epsT) (vflat epsT')
      (fun p => hd p.1 p.2) (fdfdMat_lower b spacing k0 epsT δ hl) _ _ rhs h1 h2
  refine ⟨key, fun hl' => ?_⟩
  have hb := C124_bound b spacing k0 hk epsT' src δ hδ hl' solver h2
  have hb' : k0 * δ * l2 e' ≤ l2 (vflat src) := by
    unfold l2
    rw [Fintype.sum_prod_type, Fintype.sum_prod_type]
    exact hb
  calc k0 * δ ^ 2 * l2 (fun p => e' p - e p) = (k0 * δ) * (δ * l2 (fun p => e' p - e p)) := by ring
    _ ≤ (k0 * δ) * (η * l2 e') := mul_le_mul_of_nonneg_left key (by positivity)
    _ = η * (k0 * δ * l2 e') := by ring
    _ ≤ η * l2 (vflat src) := mul_le_mul_of_nonneg_left hb' hη

/-- C196, two dimensions, `e_z`. -/
theorem C196_medium_ez [∀ a, NeZero (s a)] (b : Fin 3 → ℂ) (spacing : Fin 3 → ℝ) (k0 : ℝ) (hk : 0 < k0)
    (epsT epsT' : VField s) (src : SField s) (δ η : ℝ) (hη : 0 ≤ η) (hl : ∀ i, δ ≤ (epsT 2 i).im)
    (hd : ∀ i, ‖epsT' 2 i - epsT 2 i‖ ≤ η) (solver : Solver (GIdx s)) :
    let g := uniformOps s b spacing
    let rhs := fun p => (k0 : ℂ) * src p
    fdfdMatEz g k0 epsT *ᵥ solver (fdfdMatEz g k0 epsT) rhs = rhs →
    fdfdMatEz g k0 epsT' *ᵥ solver (fdfdMatEz g k0 epsT') rhs = rhs →
    let e := (solve2d g k0 epsT false solver src).1 2
    let e' := (solve2d g k0 epsT' false solver src).1 2
    δ * l2 (fun p => e' p - e p) ≤ η * l2 e' := by
  intro g rhs h1 h2 e e'
  exact medium_bound (-(g.deriv true 0) * g.deriv false 0 - g.deriv true 1 * g.deriv false 1) k0 δ η hk hη (epsT 2)
    (epsT' 2) hd (fdfdMatEz_lower b spacing k0 epsT δ hl) _ _ rhs h1 h2

/-- Concrete instance: a lossy medium on a `4 x 3 x 2` grid, its permittivity changed by 1/100, and a solver that
is off by a relative residual of at most 1 (the zero field). -/
example : let g := uniformOps (shapeOf 4 3 2) (fun _ => I) (fun _ => (1 / 10 : ℝ))
    let solver : Solver (Fin 3 × GIdx (shapeOf 4 3 2)) := fun M v => M⁻¹ *ᵥ v
    let src : VField (shapeOf 4 3 2) := fun _ _ => 1
    4 * 1 * l2 (fun p => vflat (solve3d g 4 (fun _ _ => 2 + I) (fun _ _ _ => 0) src).1 p -
      vflat (solve3d g 4 (fun _ _ => 2 + I) solver src).1 p) ≤ 1 * l2 (vflat src) ∧
    1 * l2 (fun p => vflat (solve3d g 4 (fun _ _ => 2 + I + 1 / 100) solver src).1 p -
      vflat (solve3d g 4 (fun _ _ => 2 + I) solver src).1 p) ≤
      (1 / 100) * l2 (vflat (solve3d g 4 (fun _ _ => 2 + I + 1 / 100) solver src).1) := by
  intro g solver src
  have h1 : ∀ c i, 0 < ((fun _ _ => 2 + I : VField (shapeOf 4 3 2)) c i).im := fun _ _ => by simp
  have h2 : ∀ c i, 0 < ((fun _ _ => 2 + I + 1 / 100 : VField (shapeOf 4 3 2)) c i).im := fun _ _ => by
    have : (2 + I + 1 / 100 : ℂ).im = 1 := by norm_num
    rw [this]; exact one_pos
  refine ⟨?_, ?_⟩
  · refine C196_residual_3d _ _ 4 (by norm_num) _ src 1 1 (fun _ _ => by simp) solver (fun _ _ _ => 0)
      (inv_solver _ _ 4 (by norm_num) _ h1 _) ?_
    have e : (fun _ => 0 : Fin 3 × GIdx (shapeOf 4 3 2) → ℂ) = 0 := rfl
    simp only [e, Matrix.mulVec_zero, Pi.zero_apply, zero_sub, one_mul]
    unfold l2
    simp only [norm_neg]
    exact le_refl _
  · exact (C196_medium_3d _ _ 4 (by norm_num) _ _ src 1 (1 / 100) one_pos (by norm_num) (fun _ _ => by simp)
      (fun _ _ => by norm_num) solver (inv_solver _ _ 4 (by norm_num) _ h1 _) (inv_solver _ _ 4 (by norm_num) _ h2 _)).1

end Simphox
