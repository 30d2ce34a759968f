import Mathlib.LinearAlgebra.Matrix.PosDef
import Mathlib.Analysis.Complex.Order
import Mathlib.Analysis.RCLike.Basic
import Mathlib.Analysis.Complex.Basic
import Mathlib.Analysis.Complex.Exponential
import Verif.YeeLemmas
import Verif.Fdfd

/-!
# Properties of the Yee operators: C44 (adjointness), C45 (vector identities), C46 (functional curl),
C47 (Hermitian FDFD operators)
-/

namespace Simphox

open Matrix Complex ComplexOrder

variable {s : Fin 3 → ℕ}

/-! ### Specification -/

/-- Divergence built from one derivative matrix per axis. -/
def divOf (d : Fin 3 → Matrix (GIdx s) (GIdx s) ℂ) (f : VField s) : SField s :=
  d 0 *ᵥ f 0 + d 1 *ᵥ f 1 + d 2 *ᵥ f 2

/-- Gradient built from one derivative matrix per axis. -/
def gradOf (d : Fin 3 → Matrix (GIdx s) (GIdx s) ℂ) (f : SField s) : VField s := fun a => d a *ᵥ f

/-- A flattened vector field as three components. -/
def vunflat (v : Fin 3 × GIdx s → ℂ) : VField s := fun c i => v (c, i)

/-- Divergence and gradient with the functional difference `diff_fn`. -/
noncomputable def divFn (df : SField s → Fin 3 → SField s) (f : VField s) : SField s :=
  df (f 0) 0 + df (f 1) 1 + df (f 2) 2

/-! ### C44 -/

/-- C44: on an axis with real cell size, the same for both derivatives and all cells, the backward
derivative is minus the conjugate transpose of the forward one, for every Bloch factor. -/
theorem C44_adjoint [∀ a, NeZero (s a)] (g : YeeOps s) (a : Fin 3) (h : ℝ)
    (hdx : ∀ back i, g.dx back a i = (h : ℂ)) : g.deriv true a = -(g.deriv false a)ᴴ := by
  rw [YeeOps.deriv_eq, YeeOps.deriv_eq, axisOp_conjTranspose, ← axisOp_neg]
  congr 1
  have hd : ∀ back, (Matrix.diagonal fun i => 1 / g.dx back a i) = ((1 / (h : ℂ)) • (1 : Matrix (Fin (s a)) (Fin (s a)) ℂ)) := by
    intro back
    ext i j
    by_cases hij : i = j
    · subst hij; simp [hdx]
    · simp [hij]
  simp only [YeeOps.d1, hd, if_true, if_neg Bool.false_ne_true, bwd1_eq, conjTranspose_smul,
    Matrix.smul_mul, Matrix.one_mul, smul_neg]
  simp

/-- C44 for every grid without PML (its cells are uniform): all axes, every Bloch phase. -/
theorem C44_adjoint_uniform [∀ a, NeZero (s a)] (phase : Fin 3 → ℝ) (spacing : Fin 3 → ℝ) (a : Fin 3) :
    (uniformOps s (fun b => exp (I * phase b)) spacing).deriv true a
      = -((uniformOps s (fun b => exp (I * phase b)) spacing).deriv false a)ᴴ :=
  C44_adjoint _ a (spacing a) (fun _ _ => rfl)

/-- C44, in terms of fields: discrete integration by parts, `<u, D_back v> = - <D_forward u, v>`. -/
theorem C44_integration_by_parts [∀ a, NeZero (s a)] (g : YeeOps s) (a : Fin 3) (h : ℝ)
    (hdx : ∀ back i, g.dx back a i = (h : ℂ)) (u v : SField s) :
    ∑ i, star (u i) * (g.deriv true a *ᵥ v) i = -∑ i, star ((g.deriv false a *ᵥ u) i) * v i := by
  have h1 : star u ⬝ᵥ (g.deriv true a *ᵥ v) = -(star (g.deriv false a *ᵥ u) ⬝ᵥ v) := by
    rw [C44_adjoint g a h hdx, Matrix.neg_mulVec, dotProduct_neg, Matrix.star_mulVec,
      Matrix.dotProduct_mulVec]
  exact h1

/-- A grid with two cells and Bloch factor `-1`: the forward difference matrix is not symmetric, and
the wrap-around entry is conjugated in the backward one. -/
example : fwd1 2 Complex.I = !![-1, 1; Complex.I, -1] ∧ bwd1 2 Complex.I = !![1, Complex.I; -1, 1] := by
  constructor <;> ext i j <;> fin_cases i <;> fin_cases j <;> simp [fwd1, bwd1, spDiags]

/-! ### C45 -/

theorem div_curl_of_comm (d : Fin 3 → Matrix (GIdx s) (GIdx s) ℂ)
    (hc : ∀ a b, a ≠ b → d a * d b = d b * d a) (f : VField s) :
    divOf d (curlFn (fun v a => d a *ᵥ v) f) = 0 := by
  have e : divOf d (curlFn (fun v a => d a *ᵥ v) f)
      = d 0 *ᵥ (d 1 *ᵥ f 2 - d 2 *ᵥ f 1) + d 1 *ᵥ (d 2 *ᵥ f 0 - d 0 *ᵥ f 2)
        + d 2 *ᵥ (d 0 *ᵥ f 1 - d 1 *ᵥ f 0) := rfl
  rw [e]
  simp only [Matrix.mulVec_sub, Matrix.mulVec_mulVec]
  rw [hc 1 0 (by decide), hc 2 0 (by decide), hc 2 1 (by decide)]
  abel

theorem curl_grad_of_comm (d : Fin 3 → Matrix (GIdx s) (GIdx s) ℂ)
    (hc : ∀ a b, a ≠ b → d a * d b = d b * d a) (f : SField s) :
    curlFn (fun v a => d a *ᵥ v) (gradOf d f) = 0 := by
  have e : curlFn (fun v a => d a *ᵥ v) (gradOf d f)
      = ![d 1 *ᵥ (d 2 *ᵥ f) - d 2 *ᵥ (d 1 *ᵥ f), d 2 *ᵥ (d 0 *ᵥ f) - d 0 *ᵥ (d 2 *ᵥ f),
          d 0 *ᵥ (d 1 *ᵥ f) - d 1 *ᵥ (d 0 *ᵥ f)] := rfl
  rw [e]
  simp only [Matrix.mulVec_mulVec]
  rw [hc 1 0 (by decide), hc 2 0 (by decide), hc 2 1 (by decide)]
  funext c
  match c with
  | 0 => exact sub_self _
  | 1 => exact sub_self _
  | 2 => exact sub_self _

/-- C45 for the sparse matrices: for every Bloch phase, every (possibly PML-stretched, non-uniform)
cell sizes, and both derivatives, the divergence of the curl matrix vanishes and so does the curl of
a gradient. -/
theorem C45_matrix_identities (g : YeeOps s) (back : Bool) (f : VField s) (p : SField s) :
    divOf (g.deriv back) (vunflat (d2curlOp (g.deriv back) *ᵥ vflat f)) = 0
      ∧ d2curlOp (g.deriv back) *ᵥ vflat (gradOf (g.deriv back) p) = 0 := by
  have hc := fun a b (h : a ≠ b) => YeeOps.deriv_comm g back back h
  constructor
  · rw [d2curlOp_mulVec]
    exact div_curl_of_comm (g.deriv back) hc f
  · rw [d2curlOp_mulVec, curl_grad_of_comm (g.deriv back) hc p]
    rfl

/-- The functional operators are the matrices of the same grid without Bloch phase. -/
theorem diffFn_eq_noBloch [∀ a, NeZero (s a)] (g : YeeOps s) (ofH : Bool) :
    g.diffFn ofH = fun f a => ({ g with bloch := fun _ => 1 } : YeeOps s).deriv ofH a *ᵥ f := by
  funext f a
  exact YeeOps.diffFn_eq ({ g with bloch := fun _ => 1 } : YeeOps s) (fun _ => rfl) ofH f a

/-- C45 for the functional operators `diff_fn`, `curl_fn`, on every grid. -/
theorem C45_functional_identities [∀ a, NeZero (s a)] (g : YeeOps s) (ofH : Bool) (f : VField s)
    (p : SField s) :
    divFn (g.diffFn ofH) (g.curl ofH f) = 0 ∧ g.curl ofH (fun a => g.diffFn ofH p a) = 0 := by
  have hc := fun a b (h : a ≠ b) =>
    YeeOps.deriv_comm ({ g with bloch := fun _ => 1 } : YeeOps s) ofH ofH h
  unfold YeeOps.curl
  rw [diffFn_eq_noBloch]
  exact ⟨div_curl_of_comm _ hc f, curl_grad_of_comm _ hc p⟩

/-! ### C46 -/

/-- C46: for zero Bloch phase, on every grid (any cell sizes, PML or not), the difference and curl of
array rolls equal the sparse matrices applied to the flattened fields. -/
theorem C46_functional_eq_matrix [∀ a, NeZero (s a)] (g : YeeOps s) (hb : ∀ a, g.bloch a = 1)
    (ofH : Bool) (p : SField s) (f : VField s) :
    (∀ a, g.diffFn ofH p a = g.deriv ofH a *ᵥ p)
      ∧ vflat (g.curl ofH f) = d2curlOp (g.deriv ofH) *ᵥ vflat f := by
  refine ⟨fun a => YeeOps.diffFn_eq g hb ofH p a, ?_⟩
  rw [d2curlOp_mulVec]
  unfold YeeOps.curl
  congr 2
  funext v a
  exact YeeOps.diffFn_eq g hb ofH v a

/-! ### C47 -/

theorem d2curlOp_conjTranspose (d e : Fin 3 → Matrix (GIdx s) (GIdx s) ℂ) (h : ∀ a, e a = -(d a)ᴴ) :
    d2curlOp e = (d2curlOp d)ᴴ := by
  ext p q
  obtain ⟨c, i⟩ := p
  obtain ⟨c', j⟩ := q
  have key : ∀ c c', curlBlock e c c' = (curlBlock d c' c)ᴴ := by
    have h0 := h 0
    have h1 := h 1
    have h2 := h 2
    intro c c'
    match c, c' with
    | 0, 0 => exact (conjTranspose_zero).symm
    | 0, 1 => change -(e 2) = (d 2)ᴴ; rw [h2, neg_neg]
    | 0, 2 => change e 1 = (-(d 1))ᴴ; rw [h1, conjTranspose_neg]
    | 1, 0 => change e 2 = (-(d 2))ᴴ; rw [h2, conjTranspose_neg]
    | 1, 1 => exact (conjTranspose_zero).symm
    | 1, 2 => change -(e 0) = (d 0)ᴴ; rw [h0, neg_neg]
    | 2, 0 => change -(e 1) = (d 1)ᴴ; rw [h1, neg_neg]
    | 2, 1 => change e 0 = (-(d 0))ᴴ; rw [h0, conjTranspose_neg]
    | 2, 2 => exact (conjTranspose_zero).symm
  rw [conjTranspose_apply]
  change curlBlock e c c' i j = star (curlBlock d c' c j i)
  rw [key, conjTranspose_apply]

theorem smul_diag_isHermitian {ι : Type} [DecidableEq ι] (k0 : ℝ) (w : ι → ℂ) (hw : ∀ i, (w i).im = 0) :
    ((k0 ^ 2 : ℂ) • Matrix.diagonal w).IsHermitian := by
  unfold Matrix.IsHermitian
  rw [conjTranspose_smul, diagonal_conjTranspose]
  congr 1
  · simp
  · congr 1
    funext i
    exact Complex.conj_eq_iff_im.2 (hw i)

/-- The derivative part of `mat`: the curl of the curl. -/
noncomputable def curlCurl (g : YeeOps s) : Matrix (Fin 3 × GIdx s) (Fin 3 × GIdx s) ℂ :=
  d2curlOp (g.deriv true) * d2curlOp (g.deriv false)

/-- C47, three dimensional operator: without PML, for every Bloch phase, every cell size and every
real permittivity, `mat` is Hermitian, and `mat + k0^2 eps` (its derivative part) is positive
semidefinite. -/
theorem C47_mat [∀ a, NeZero (s a)] (phase spacing : Fin 3 → ℝ) (k0 : ℝ) (epsT : VField s)
    (heps : ∀ c i, (epsT c i).im = 0) :
    let g := uniformOps s (fun b => exp (I * phase b)) spacing
    (fdfdMat g k0 epsT).IsHermitian
      ∧ (fdfdMat g k0 epsT + (k0 ^ 2 : ℂ) • Matrix.diagonal (vflat epsT)).PosSemidef := by
  intro g
  have hcc : d2curlOp (g.deriv true) * d2curlOp (g.deriv false)
      = (d2curlOp (g.deriv false))ᴴ * d2curlOp (g.deriv false) := by
    rw [d2curlOp_conjTranspose (g.deriv false) (g.deriv true) (fun a => C44_adjoint_uniform phase spacing a)]
  have hp : (d2curlOp (g.deriv true) * d2curlOp (g.deriv false)).PosSemidef := by
    rw [hcc]; exact Matrix.posSemidef_conjTranspose_mul_self _
  constructor
  · exact hp.isHermitian.sub (smul_diag_isHermitian k0 _ fun p => heps p.1 p.2)
  · unfold fdfdMat
    rw [sub_add_cancel]
    exact hp

/-- C47, `mat_ez`. -/
theorem C47_mat_ez [∀ a, NeZero (s a)] (phase spacing : Fin 3 → ℝ) (k0 : ℝ) (epsT : VField s)
    (heps : ∀ c i, (epsT c i).im = 0) :
    let g := uniformOps s (fun b => exp (I * phase b)) spacing
    (fdfdMatEz g k0 epsT).IsHermitian
      ∧ (fdfdMatEz g k0 epsT + (k0 ^ 2 : ℂ) • Matrix.diagonal (epsT 2)).PosSemidef := by
  intro g
  have hd := fun a => C44_adjoint_uniform (s := s) phase spacing a
  have he : -(g.deriv true 0) * g.deriv false 0 - g.deriv true 1 * g.deriv false 1
      = (g.deriv false 0)ᴴ * g.deriv false 0 + (g.deriv false 1)ᴴ * g.deriv false 1 := by
    rw [hd 0, hd 1, neg_neg, Matrix.neg_mul, sub_neg_eq_add]
  have hp : (-(g.deriv true 0) * g.deriv false 0 - g.deriv true 1 * g.deriv false 1).PosSemidef := by
    rw [he]
    exact (Matrix.posSemidef_conjTranspose_mul_self _).add (Matrix.posSemidef_conjTranspose_mul_self _)
  constructor
  · exact hp.isHermitian.sub (smul_diag_isHermitian k0 _ fun i => heps 2 i)
  · unfold fdfdMatEz
    rw [sub_add_cancel]
    exact hp

/-- C47, `mat_hz`: Hermitian for every real permittivity; positive semidefinite derivative part for
nonnegative permittivity. -/
theorem C47_mat_hz [∀ a, NeZero (s a)] (phase spacing : Fin 3 → ℝ) (k0 : ℝ) (epsT : VField s)
    (heps : ∀ c i, (epsT c i).im = 0) :
    let g := uniformOps s (fun b => exp (I * phase b)) spacing
    (fdfdMatHz g k0 epsT).IsHermitian
      ∧ ((∀ c i, 0 ≤ (epsT c i).re) → (fdfdMatHz g k0 epsT + (k0 ^ 2 : ℂ) • 1).PosSemidef) := by
  intro g
  have hd := fun a => C44_adjoint_uniform (s := s) phase spacing a
  have he : ∀ t0 t1 : Matrix (GIdx s) (GIdx s) ℂ,
      -(g.deriv true 0) * t1 * g.deriv false 0 - g.deriv true 1 * t0 * g.deriv false 1
      = (g.deriv false 0)ᴴ * t1 * g.deriv false 0 + (g.deriv false 1)ᴴ * t0 * g.deriv false 1 := by
    intro t0 t1
    rw [hd 0, hd 1, neg_neg, Matrix.neg_mul, Matrix.neg_mul, sub_neg_eq_add]
  have hr : ∀ c i, epsT c i = (((epsT c i).re : ℝ) : ℂ) := fun c i => Complex.ext rfl (heps c i)
  have ht : ∀ c : Fin 3, (Matrix.diagonal fun i => 1 / epsT c i).IsHermitian := by
    intro c
    apply Matrix.isHermitian_diagonal_of_self_adjoint
    funext i
    change star (1 / epsT c i) = 1 / epsT c i
    rw [hr c i]
    simp
  constructor
  · unfold fdfdMatHz
    simp only
    rw [he]
    refine ((Matrix.isHermitian_conjTranspose_mul_mul _ (ht 1)).add
      (Matrix.isHermitian_conjTranspose_mul_mul _ (ht 0))).sub ?_
    have := smul_diag_isHermitian (ι := GIdx s) k0 (fun _ => 1) (fun _ => by simp)
    rwa [Matrix.diagonal_one] at this
  · intro hpos
    unfold fdfdMatHz
    simp only
    rw [he, sub_add_cancel]
    have htp : ∀ c : Fin 3, (Matrix.diagonal fun i => 1 / epsT c i).PosSemidef := by
      intro c
      apply Matrix.PosSemidef.diagonal
      intro i
      change (0 : ℂ) ≤ 1 / epsT c i
      rw [hr c i, one_div, ← Complex.ofReal_inv]
      exact Complex.zero_le_real.2 (inv_nonneg.2 (hpos c i))
    exact ((htp 1).conjTranspose_mul_mul_same _).add ((htp 0).conjTranspose_mul_mul_same _)

/-- The hypotheses of C47 are met by an averaged two-material permittivity on a 3 x 2 grid. -/
example : ∀ c i, ((yeeAvgG (s := shapeOf 3 2 1)
    (fun i => if (i 0 : ℕ) = 0 then 12 else 2) : VField _) c i).im = 0 := by
  intro c i
  match c with
  | 0 => simp [yeeAvgG, rollFwd]; split_ifs <;> simp
  | 1 => simp [yeeAvgG, rollFwd]; split_ifs <;> simp
  | 2 => simp [yeeAvgG, rollFwd]; split_ifs <;> simp

end Simphox
