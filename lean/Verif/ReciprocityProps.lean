import Verif.FdfdProps

/-!
# Lorentz reciprocity of `FDFD.solve` (C123)

Exchanging sources and detectors: two sources `src1`, `src2` on the same device give fields `e1`,
`e2`; the field of the first read with the second source equals the field of the second read with
the first, every reading weighted by the (complex stretched) volume of the Yee cell around the field
component. No conjugation, so lossy media and PML are included. A Bloch phase has to be reversed
for the second run.
-/

namespace Simphox

open Matrix Complex

variable {s : Fin 3 → ℕ}

/-! ### Specification -/

/-- The volume that belongs to the `c` component of the electric field at cell `i`: the cell of the
electric derivative along `c`, the cells of the magnetic derivative along the two other axes. -/
def dualVolume (g : YeeOps s) (c : Fin 3) (i : GIdx s) : ℂ :=
  ∏ a, g.dx (decide (a ≠ c)) a (i a)

/-- The same for the magnetic field. -/
def primalVolume (g : YeeOps s) (c : Fin 3) (i : GIdx s) : ℂ :=
  ∏ a, g.dx (decide (a = c)) a (i a)

/-- The grid with the opposite Bloch phase (`b` becomes its conjugate). -/
noncomputable def YeeOps.reversed (g : YeeOps s) : YeeOps s :=
  { bloch := fun a => (starRingEnd ℂ) (g.bloch a), dx := g.dx }

/-- What a detector `w` (with the shape of a source) reads from a field. -/
noncomputable def reading (g : YeeOps s) (w e : VField s) : ℂ := ∑ c, ∑ i, dualVolume g c i * w c i * e c i

/-! ### Weighted integration by parts -/

theorem bwd1_transpose {n : ℕ} [NeZero n] (b : ℂ) (i j : Fin n) :
    bwd1 n b i j = -fwd1 n ((starRingEnd ℂ) b) j i := by
  rw [bwd1_apply, fwd1_apply]
  have : (starRingEnd ℂ) (wrapFac n b j) = wrapFac n ((starRingEnd ℂ) b) j := by
    unfold wrapFac; split_ifs <;> simp
  rw [this]
  split_ifs <;> ring

theorem sum_by_parts [∀ a, NeZero (s a)] (g : YeeOps s) (hE : ∀ p a i, g.dx p a i ≠ 0) (a : Fin 3)
    (w : GIdx s → ℂ) (hw : ∀ i j : GIdx s, (∀ b, b ≠ a → i b = j b) → w i = w j) (u v : SField s) :
    ∑ i, w i * g.dx true a (i a) * u i * (g.deriv true a *ᵥ v) i =
      -∑ i, w i * g.dx false a (i a) * (g.reversed.deriv false a *ᵥ u) i * v i := by
  have h1 : ∀ i, w i * g.dx true a (i a) * u i * (g.deriv true a *ᵥ v) i =
      ∑ j, w i * u i * axisOp a (bwd1 (s a) (g.bloch a)) i j * v j := by
    intro i
    have : (g.deriv true a *ᵥ v) i = 1 / g.dx true a (i a) * ∑ j, axisOp a (bwd1 (s a) (g.bloch a)) i j * v j := by
      show (∑ j, (g.deriv true a) i j * v j) = _
      rw [Finset.mul_sum]
      refine Finset.sum_congr rfl fun j _ => ?_
      rw [YeeOps.deriv, Matrix.diagonal_mul]
      simp only [if_true, axisOp]
      ring
    rw [this, Finset.mul_sum, Finset.mul_sum]
    refine Finset.sum_congr rfl fun j _ => ?_
    have := hE true a (i a)
    field_simp
  have h2 : ∀ j, w j * g.dx false a (j a) * (g.reversed.deriv false a *ᵥ u) j * v j =
      ∑ i, w j * axisOp a (fwd1 (s a) ((starRingEnd ℂ) (g.bloch a))) j i * u i * v j := by
    intro j
    have : (g.reversed.deriv false a *ᵥ u) j =
        1 / g.dx false a (j a) * ∑ i, axisOp a (fwd1 (s a) ((starRingEnd ℂ) (g.bloch a))) j i * u i := by
      show (∑ i, (g.reversed.deriv false a) j i * u i) = _
      rw [Finset.mul_sum]
      refine Finset.sum_congr rfl fun i _ => ?_
      rw [YeeOps.deriv, Matrix.diagonal_mul]
      simp only [axisOp, YeeOps.reversed]
      rw [if_neg (by decide)]
      ring
    rw [this, Finset.mul_sum, Finset.mul_sum, Finset.sum_mul]
    refine Finset.sum_congr rfl fun i _ => ?_
    have := hE false a (j a)
    field_simp
  simp only [h1, h2]
  rw [Finset.sum_comm, ← Finset.sum_neg_distrib]
  refine Finset.sum_congr rfl fun j _ => ?_
  rw [← Finset.sum_neg_distrib]
  refine Finset.sum_congr rfl fun i _ => ?_
  rw [axisOp_apply, axisOp_apply]
  by_cases h : ∀ b, b ≠ a → i b = j b
  · rw [if_pos h, if_pos fun b hb => (h b hb).symm, bwd1_transpose, hw i j h]
    ring
  · rw [if_neg h, if_neg fun h' => h fun b hb => (h' b hb).symm]
    ring

theorem curl_by_parts [∀ a, NeZero (s a)] (g : YeeOps s) (hE : ∀ p a i, g.dx p a i ≠ 0) (u v : VField s) :
    ∑ c, ∑ i, dualVolume g c i * u c i * curlOf (g.deriv true) v c i =
      ∑ c, ∑ i, primalVolume g c i * curlOf (g.reversed.deriv false) u c i * v c i := by
  have key : ∀ c a d : Fin 3, c ≠ a → d ≠ a →
      ∑ i : GIdx s, g.dx false c (i c) * g.dx true d (i d) * g.dx true a (i a) * u c i * (g.deriv true a *ᵥ v d) i =
      -∑ i : GIdx s, g.dx false c (i c) * g.dx true d (i d) * g.dx false a (i a) *
        (g.reversed.deriv false a *ᵥ u c) i * v d i := by
    intro c a d hc hd
    refine sum_by_parts g hE a (fun i => g.dx false c (i c) * g.dx true d (i d)) ?_ _ _
    intro i j h
    simp only [h c hc, h d hd]
  have dv : ∀ (c : Fin 3) (i : GIdx s), dualVolume g c i =
      g.dx (decide (0 ≠ c)) 0 (i 0) * g.dx (decide (1 ≠ c)) 1 (i 1) * g.dx (decide (2 ≠ c)) 2 (i 2) :=
    fun c i => by rw [dualVolume, Fin.prod_univ_three]
  have pv : ∀ (c : Fin 3) (i : GIdx s), primalVolume g c i =
      g.dx (decide (0 = c)) 0 (i 0) * g.dx (decide (1 = c)) 1 (i 1) * g.dx (decide (2 = c)) 2 (i 2) :=
    fun c i => by rw [primalVolume, Fin.prod_univ_three]
  have d0 : ∀ i, dualVolume g 0 i = g.dx false 0 (i 0) * g.dx true 1 (i 1) * g.dx true 2 (i 2) := fun i => dv 0 i
  have d1 : ∀ i, dualVolume g 1 i = g.dx true 0 (i 0) * g.dx false 1 (i 1) * g.dx true 2 (i 2) := fun i => dv 1 i
  have d2 : ∀ i, dualVolume g 2 i = g.dx true 0 (i 0) * g.dx true 1 (i 1) * g.dx false 2 (i 2) := fun i => dv 2 i
  have p0 : ∀ i, primalVolume g 0 i = g.dx true 0 (i 0) * g.dx false 1 (i 1) * g.dx false 2 (i 2) := fun i => pv 0 i
  have p1 : ∀ i, primalVolume g 1 i = g.dx false 0 (i 0) * g.dx true 1 (i 1) * g.dx false 2 (i 2) := fun i => pv 1 i
  have p2 : ∀ i, primalVolume g 2 i = g.dx false 0 (i 0) * g.dx false 1 (i 1) * g.dx true 2 (i 2) := fun i => pv 2 i
  have k1 := key 0 1 2 (by decide) (by decide)
  have k2 := key 0 2 1 (by decide) (by decide)
  have k3 := key 1 2 0 (by decide) (by decide)
  have k4 := key 1 0 2 (by decide) (by decide)
  have k5 := key 2 0 1 (by decide) (by decide)
  have k6 := key 2 1 0 (by decide) (by decide)
  have L : ∑ c, ∑ i, dualVolume g c i * u c i * curlOf (g.deriv true) v c i =
      (∑ i : GIdx s, g.dx false 0 (i 0) * g.dx true 2 (i 2) * g.dx true 1 (i 1) * u 0 i * (g.deriv true 1 *ᵥ v 2) i)
      - (∑ i : GIdx s, g.dx false 0 (i 0) * g.dx true 1 (i 1) * g.dx true 2 (i 2) * u 0 i * (g.deriv true 2 *ᵥ v 1) i)
      + ((∑ i : GIdx s, g.dx false 1 (i 1) * g.dx true 0 (i 0) * g.dx true 2 (i 2) * u 1 i * (g.deriv true 2 *ᵥ v 0) i)
      - (∑ i : GIdx s, g.dx false 1 (i 1) * g.dx true 2 (i 2) * g.dx true 0 (i 0) * u 1 i * (g.deriv true 0 *ᵥ v 2) i))
      + ((∑ i : GIdx s, g.dx false 2 (i 2) * g.dx true 1 (i 1) * g.dx true 0 (i 0) * u 2 i * (g.deriv true 0 *ᵥ v 1) i)
      - (∑ i : GIdx s, g.dx false 2 (i 2) * g.dx true 0 (i 0) * g.dx true 1 (i 1) * u 2 i * (g.deriv true 1 *ᵥ v 0) i)) := by
    simp only [Fin.sum_univ_three, ← Finset.sum_sub_distrib, d0, d1, d2, curlOf]
    simp only [Fin.isValue, Matrix.cons_val_zero, Matrix.cons_val_one, Matrix.cons_val, Pi.sub_apply]
    congr 1
    · congr 1
      · exact Finset.sum_congr rfl fun i _ => by ring
      · exact Finset.sum_congr rfl fun i _ => by ring
    · exact Finset.sum_congr rfl fun i _ => by ring
  rw [L, k1, k2, k3, k4, k5, k6]
  simp only [Fin.sum_univ_three, p0, p1, p2, curlOf]
  simp only [Fin.isValue, Matrix.cons_val_zero, Matrix.cons_val_one, Matrix.cons_val, Pi.sub_apply, ← Finset.sum_neg_distrib,
    ← Finset.sum_sub_distrib, ← Finset.sum_add_distrib]
  exact Finset.sum_congr rfl fun i _ => by ring

/-! ### C123 -/

/-- C123, three dimensions: Lorentz reciprocity for every permittivity (complex, varying per
component), every Bloch factor and every nonzero complex cell size (so with PML). -/
theorem C123_3d [∀ a, NeZero (s a)] (g : YeeOps s) (hE : ∀ p a i, g.dx p a i ≠ 0) (k0 : ℝ) (hk : k0 ≠ 0)
    (epsT src1 src2 : VField s) (solver : Solver (Fin 3 × GIdx s))
    (h1 : fdfdMat g k0 epsT *ᵥ solver (fdfdMat g k0 epsT) (fun p => (k0 : ℂ) * vflat src1 p)
      = fun p => (k0 : ℂ) * vflat src1 p)
    (h2 : fdfdMat g.reversed k0 epsT *ᵥ solver (fdfdMat g.reversed k0 epsT) (fun p => (k0 : ℂ) * vflat src2 p)
      = fun p => (k0 : ℂ) * vflat src2 p) :
    reading g src2 (solve3d g k0 epsT solver src1).1 = reading g src1 (solve3d g.reversed k0 epsT solver src2).1 := by
  set e1 := (solve3d g k0 epsT solver src1).1 with he1
  set e2 := (solve3d g.reversed k0 epsT solver src2).1 with he2
  have hk' : (k0 : ℂ) ≠ 0 := by exact_mod_cast hk
  have m1 : ∀ c i, (k0 : ℂ) * src1 c i = curlOf (g.deriv true) (curlOf (g.deriv false) e1) c i - k0 ^ 2 * (epsT c i * e1 c i) := by
    intro c i
    rw [← fdfdMat_mulVec]
    exact (congrFun h1 (c, i)).symm
  have m2 : ∀ c i, (k0 : ℂ) * src2 c i = curlOf (g.reversed.deriv true) (curlOf (g.reversed.deriv false) e2) c i - k0 ^ 2 * (epsT c i * e2 c i) := by
    intro c i
    rw [← fdfdMat_mulVec]
    exact (congrFun h2 (c, i)).symm
  have rr : g.reversed.reversed = g := by simp [YeeOps.reversed]
  have b1 := curl_by_parts g hE e2 (curlOf (g.deriv false) e1)
  have b2 := curl_by_parts g.reversed hE e1 (curlOf (g.reversed.deriv false) e2)
  rw [rr] at b2
  have v1 : ∀ c i, dualVolume g.reversed c i = dualVolume g c i := fun _ _ => rfl
  have v2 : ∀ c i, primalVolume g.reversed c i = primalVolume g c i := fun _ _ => rfl
  simp only [v1, v2] at b2
  have e : ∑ c, ∑ i, dualVolume g c i * e2 c i * curlOf (g.deriv true) (curlOf (g.deriv false) e1) c i =
      ∑ c, ∑ i, dualVolume g c i * e1 c i * curlOf (g.reversed.deriv true) (curlOf (g.reversed.deriv false) e2) c i := by
    rw [b1, b2]
    exact Finset.sum_congr rfl fun c _ => Finset.sum_congr rfl fun i _ => by ring
  have L : (k0 : ℂ) * reading g src1 e2 = ∑ c, ∑ i, dualVolume g c i * e2 c i * curlOf (g.deriv true) (curlOf (g.deriv false) e1) c i
      - ∑ c, ∑ i, dualVolume g c i * k0 ^ 2 * epsT c i * e1 c i * e2 c i := by
    simp only [reading, Finset.mul_sum, ← Finset.sum_sub_distrib]
    refine Finset.sum_congr rfl fun c _ => Finset.sum_congr rfl fun i _ => ?_
    linear_combination (dualVolume g c i * e2 c i) * m1 c i
  have R : (k0 : ℂ) * reading g src2 e1 = ∑ c, ∑ i, dualVolume g c i * e1 c i * curlOf (g.reversed.deriv true) (curlOf (g.reversed.deriv false) e2) c i
      - ∑ c, ∑ i, dualVolume g c i * k0 ^ 2 * epsT c i * e1 c i * e2 c i := by
    simp only [reading, Finset.mul_sum, ← Finset.sum_sub_distrib]
    refine Finset.sum_congr rfl fun c _ => Finset.sum_congr rfl fun i _ => ?_
    linear_combination (dualVolume g c i * e1 c i) * m2 c i
  apply mul_left_cancel₀ hk'
  rw [R, L, e]

/-- Two dimensions: what a detector `w` reads from the `z` field; the cell areas of the magnetic derivative. -/
noncomputable def readingZ (g : YeeOps s) (w f : SField s) : ℂ :=
  ∑ i, g.dx true 0 (i 0) * g.dx true 1 (i 1) * w i * f i

theorem second_by_parts [∀ a, NeZero (s a)] (g : YeeOps s) (hE : ∀ p a i, g.dx p a i ≠ 0) (a b : Fin 3) (hab : b ≠ a)
    (t u v : SField s) :
    ∑ i, g.dx true b (i b) * g.dx true a (i a) * u i * (g.deriv true a *ᵥ fun j => t j * (g.deriv false a *ᵥ v) j) i =
      ∑ i, g.dx true b (i b) * g.dx true a (i a) * v i *
        (g.reversed.deriv true a *ᵥ fun j => t j * (g.reversed.deriv false a *ᵥ u) j) i := by
  have rr : g.reversed.reversed = g := by simp [YeeOps.reversed]
  have h1 := sum_by_parts g hE a (fun i => g.dx true b (i b)) (fun i j h => by simp only [h b hab]) u
    (fun j => t j * (g.deriv false a *ᵥ v) j)
  have h2 := sum_by_parts g.reversed hE a (fun i => g.dx true b (i b)) (fun i j h => by simp only [h b hab]) v
    (fun j => t j * (g.reversed.deriv false a *ᵥ u) j)
  rw [rr] at h2
  have hd : g.reversed.dx = g.dx := rfl
  simp only [hd] at h2
  rw [h1, h2, neg_inj]
  exact Finset.sum_congr rfl fun i _ => by ring

theorem diag_mulVec (t v : SField s) : (Matrix.diagonal t *ᵥ v) = fun i => t i * v i := by
  funext i; exact Matrix.mulVec_diagonal t v i

theorem fdfdMatHz_mulVec (g : YeeOps s) (k0 : ℝ) (epsT : VField s) (f : SField s) (i : GIdx s) :
    (fdfdMatHz g k0 epsT *ᵥ f) i =
      -(g.deriv true 0 *ᵥ fun j => (1 / epsT 1 j) * (g.deriv false 0 *ᵥ f) j) i
      - (g.deriv true 1 *ᵥ fun j => (1 / epsT 0 j) * (g.deriv false 1 *ᵥ f) j) i - k0 ^ 2 * f i := by
  unfold fdfdMatHz
  simp only [Matrix.sub_mulVec, Matrix.neg_mul, Matrix.neg_mulVec, Matrix.smul_mulVec, ← Matrix.mulVec_mulVec,
    diag_mulVec, Matrix.one_mulVec, Pi.sub_apply, Pi.neg_apply, Pi.smul_apply, smul_eq_mul]

theorem fdfdMatEz_mulVec (g : YeeOps s) (k0 : ℝ) (epsT : VField s) (f : SField s) (i : GIdx s) :
    (fdfdMatEz g k0 epsT *ᵥ f) i =
      -(g.deriv true 0 *ᵥ fun j => 1 * (g.deriv false 0 *ᵥ f) j) i
      - (g.deriv true 1 *ᵥ fun j => 1 * (g.deriv false 1 *ᵥ f) j) i - k0 ^ 2 * (epsT 2 i * f i) := by
  unfold fdfdMatEz
  simp only [Matrix.sub_mulVec, Matrix.neg_mul, Matrix.neg_mulVec, Matrix.smul_mulVec, ← Matrix.mulVec_mulVec,
    diag_mulVec, Pi.sub_apply, Pi.neg_apply, Pi.smul_apply, smul_eq_mul, one_mul]

/-- Reciprocity of any operator of the two dimensional form. -/
theorem reciprocity_2d [∀ a, NeZero (s a)] (g : YeeOps s) (hE : ∀ p a i, g.dx p a i ≠ 0) (k0 : ℂ) (hk : k0 ≠ 0)
    (t0 t1 q src1 src2 f1 f2 : SField s)
    (h1 : ∀ i, k0 * src1 i = -(g.deriv true 0 *ᵥ fun j => t0 j * (g.deriv false 0 *ᵥ f1) j) i
      - (g.deriv true 1 *ᵥ fun j => t1 j * (g.deriv false 1 *ᵥ f1) j) i - q i * f1 i)
    (h2 : ∀ i, k0 * src2 i = -(g.reversed.deriv true 0 *ᵥ fun j => t0 j * (g.reversed.deriv false 0 *ᵥ f2) j) i
      - (g.reversed.deriv true 1 *ᵥ fun j => t1 j * (g.reversed.deriv false 1 *ᵥ f2) j) i - q i * f2 i) :
    readingZ g src2 f1 = readingZ g src1 f2 := by
  have a0 := second_by_parts g hE 0 1 (by decide) t0 f2 f1
  have a1 := second_by_parts g hE 1 0 (by decide) t1 f2 f1
  apply mul_left_cancel₀ hk
  simp only [readingZ, Finset.mul_sum]
  have e1 : ∀ i, k0 * (g.dx true 0 (i 0) * g.dx true 1 (i 1) * src2 i * f1 i) =
      -(g.dx true 1 (i 1) * g.dx true 0 (i 0) * f1 i *
        (g.reversed.deriv true 0 *ᵥ fun j => t0 j * (g.reversed.deriv false 0 *ᵥ f2) j) i)
      - g.dx true 0 (i 0) * g.dx true 1 (i 1) * f1 i *
        (g.reversed.deriv true 1 *ᵥ fun j => t1 j * (g.reversed.deriv false 1 *ᵥ f2) j) i
      - g.dx true 0 (i 0) * g.dx true 1 (i 1) * q i * f1 i * f2 i := by
    intro i; linear_combination (g.dx true 0 (i 0) * g.dx true 1 (i 1) * f1 i) * h2 i
  have e2 : ∀ i, k0 * (g.dx true 0 (i 0) * g.dx true 1 (i 1) * src1 i * f2 i) =
      -(g.dx true 1 (i 1) * g.dx true 0 (i 0) * f2 i *
        (g.deriv true 0 *ᵥ fun j => t0 j * (g.deriv false 0 *ᵥ f1) j) i)
      - g.dx true 0 (i 0) * g.dx true 1 (i 1) * f2 i *
        (g.deriv true 1 *ᵥ fun j => t1 j * (g.deriv false 1 *ᵥ f1) j) i
      - g.dx true 0 (i 0) * g.dx true 1 (i 1) * q i * f1 i * f2 i := by
    intro i; linear_combination (g.dx true 0 (i 0) * g.dx true 1 (i 1) * f2 i) * h1 i
  simp only [e1, e2, Finset.sum_sub_distrib, Finset.sum_neg_distrib, a0, a1]

/-- C123, two dimensions, both polarisations: reciprocity of the `e_z` field (`tm_2d=False`) and of the
`h_z` field (`tm_2d=True`) for the same grids and permittivities. -/
theorem C123_2d [∀ a, NeZero (s a)] (g : YeeOps s) (hE : ∀ p a i, g.dx p a i ≠ 0) (k0 : ℝ) (hk : k0 ≠ 0)
    (epsT : VField s) (src1 src2 : SField s) (solver : Solver (GIdx s)) (tm : Bool)
    (h1 : let A := if tm then fdfdMatHz g k0 epsT else fdfdMatEz g k0 epsT
      A *ᵥ solver A (fun i => (k0 : ℂ) * src1 i) = fun i => (k0 : ℂ) * src1 i)
    (h2 : let A := if tm then fdfdMatHz g.reversed k0 epsT else fdfdMatEz g.reversed k0 epsT
      A *ᵥ solver A (fun i => (k0 : ℂ) * src2 i) = fun i => (k0 : ℂ) * src2 i) :
    let field := fun f : VField s × VField s => if tm then f.2 2 else f.1 2
    readingZ g src2 (field (solve2d g k0 epsT tm solver src1)) =
      readingZ g src1 (field (solve2d g.reversed k0 epsT tm solver src2)) := by
  have hk' : (k0 : ℂ) ≠ 0 := by exact_mod_cast hk
  intro field
  cases tm
  · refine reciprocity_2d g hE k0 hk' (fun _ => 1) (fun _ => 1) (fun i => k0 ^ 2 * epsT 2 i) _ _ _ _ ?_ ?_
    · intro i
      rw [mul_assoc, ← fdfdMatEz_mulVec]
      exact (congrFun h1 i).symm
    · intro i
      rw [mul_assoc, ← fdfdMatEz_mulVec]
      exact (congrFun h2 i).symm
  · refine reciprocity_2d g hE k0 hk' (fun i => 1 / epsT 1 i) (fun i => 1 / epsT 0 i) (fun _ => (k0 : ℂ) ^ 2) _ _ _ _ ?_ ?_
    · intro i
      rw [← fdfdMatHz_mulVec]
      exact (congrFun h1 i).symm
    · intro i
      rw [← fdfdMatHz_mulVec]
      exact (congrFun h2 i).symm

/-- A point source of amplitude one in component `c` at cell `i`. -/
def pointSource (c : Fin 3) (i : GIdx s) : VField s := fun d j => if d = c ∧ j = i then 1 else 0

theorem reading_pointSource (g : YeeOps s) (c : Fin 3) (i : GIdx s) (e : VField s) :
    reading g (pointSource c i) e = dualVolume g c i * e c i := by
  unfold reading
  rw [Finset.sum_eq_single c, Finset.sum_eq_single i]
  · simp [pointSource]
  · intro j _ hj; simp [pointSource, hj]
  · simp
  · intro d _ hd; exact Finset.sum_eq_zero fun j _ => by simp [pointSource, hd]
  · simp

/-- C123 for point sources on a grid without PML and Bloch phase: the `c'` component at cell `j` of the
field of a point source in component `c` at cell `i` does not change when source and detector are
exchanged, however the lossy, anisotropic device looks. -/
theorem C123_points [∀ a, NeZero (s a)] (spacing : Fin 3 → ℝ) (hs : ∀ a, spacing a ≠ 0) (k0 : ℝ) (hk : k0 ≠ 0)
    (epsT : VField s) (solver : Solver (Fin 3 × GIdx s)) (c c' : Fin 3) (i j : GIdx s) :
    let g := uniformOps s (fun _ => 1) spacing
    (∀ src : VField s, fdfdMat g k0 epsT *ᵥ solver (fdfdMat g k0 epsT) (fun p => (k0 : ℂ) * vflat src p)
      = fun p => (k0 : ℂ) * vflat src p) →
    (solve3d g k0 epsT solver (pointSource c i)).1 c' j = (solve3d g k0 epsT solver (pointSource c' j)).1 c i := by
  intro g hsol
  have hr : g.reversed = g := by simp [YeeOps.reversed, g, uniformOps]
  have hE : ∀ p a i, g.dx p a i ≠ 0 := fun p a i => by
    show (spacing a : ℂ) ≠ 0
    exact_mod_cast hs a
  have h := C123_3d g hE k0 hk epsT (pointSource c i) (pointSource c' j) solver (hsol _) (by rw [hr]; exact hsol _)
  rw [hr, reading_pointSource, reading_pointSource] at h
  have hv : ∀ d k, dualVolume g d k = ∏ a, (spacing a : ℂ) := fun _ _ => rfl
  rw [hv, hv] at h
  exact mul_left_cancel₀ (Finset.prod_ne_zero_iff.2 fun a _ => by exact_mod_cast hs a) h

end Simphox
