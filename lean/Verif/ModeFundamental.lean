import Verif.ModeBounds
import Verif.PmlPowerProps
import Mathlib.Analysis.Matrix.PosDef
import Mathlib.Analysis.Matrix.Order

/-!
# The fundamental mode of a one dimensional cross section (C138, C139)

The mode with the largest propagation constant of a lossless slab is unique, has no nodes, shares the symmetry of the slab, and
its effective index grows with the permittivity.
-/

namespace Simphox

open Matrix Complex
open scoped ComplexOrder

local notation "conj" => starRingEnd ℂ

section general

variable {s : Fin 3 → ℕ} [∀ a, NeZero (s a)]

/-! ### Specification -/

/-- `u` is the fundamental mode: an eigenvector of the solver's operator whose eigenvalue `lam` (the squared propagation constant) is the largest one. -/
def IsFundamental (g : YeeOps s) (k0 : ℝ) (eps : SField s) (lam : ℝ) (u : SField s) : Prop :=
  u ≠ 0 ∧ (wgm1d g k0 eps u = fun i => (lam : ℂ) * u i) ∧
    ∀ (mu : ℂ) (v : SField s), v ≠ 0 → (wgm1d g k0 eps v = fun i => mu * v i) → mu.re ≤ lam

/-! ### The operator as a Hermitian matrix -/

noncomputable def wgmMat (g : YeeOps s) (k0 : ℝ) (eps : SField s) : Matrix (GIdx s) (GIdx s) ℂ :=
  diagonal (fun i => eps i * (k0 : ℂ) ^ 2) + g.deriv false 0 * g.deriv true 0

omit [∀ a, NeZero (s a)] in
theorem wgmMat_mulVec (g : YeeOps s) (k0 : ℝ) (eps u : SField s) : wgmMat g k0 eps *ᵥ u = wgm1d g k0 eps u := by
  funext i
  unfold wgmMat wgm1d
  rw [add_mulVec, ← mulVec_mulVec, Pi.add_apply, mulVec_diagonal]

theorem wgmMat_herm (spacing : Fin 3 → ℝ) (k0 : ℝ) (eps : SField s) (heps : ∀ i, (eps i).im = 0) :
    (wgmMat (uniformOps s (fun _ => 1) spacing) k0 eps).IsHermitian := by
  unfold wgmMat
  refine IsHermitian.add ?_ ?_
  · refine isHermitian_diagonal_of_self_adjoint _ (funext fun i => ?_)
    show conj (eps i * (k0 : ℂ) ^ 2) = _
    rw [map_mul, map_pow, conj_ofReal, conj_eq_iff_im.2 (heps i)]
  · have h := C44_adjoint (uniformOps s (fun _ => 1) spacing) 0 (spacing 0) (fun _ _ => rfl)
    unfold IsHermitian
    rw [conjTranspose_mul, h, conjTranspose_neg, conjTranspose_conjTranspose]
    simp

/-- The Rayleigh quotient as a real number. -/
noncomputable def ray (spacing : Fin 3 → ℝ) (k0 : ℝ) (eps u : SField s) : ℝ :=
  k0 ^ 2 * ∑ i, (eps i).re * ‖u i‖ ^ 2 - ∑ i, ‖((uniformOps s (fun _ => 1) spacing).deriv true 0 *ᵥ u) i‖ ^ 2

theorem ip_wgm (spacing : Fin 3 → ℝ) (k0 : ℝ) (eps u : SField s) (heps : ∀ i, (eps i).im = 0) :
    ip u (wgm1d (uniformOps s (fun _ => 1) spacing) k0 eps u) = (ray spacing k0 eps u : ℂ) := by
  rw [rayleigh1d, ip_weight eps u heps, ip_self, ray]
  push_cast
  rfl

theorem fundamental_psd (spacing : Fin 3 → ℝ) (k0 : ℝ) (eps : SField s) (heps : ∀ i, (eps i).im = 0) (lam : ℝ) 
    (ht : ∀ (mu : ℂ) (v : SField s), v ≠ 0 → (wgm1d (uniformOps s (fun _ => 1) spacing) k0 eps v = fun i => mu * v i) → mu.re ≤ lam) :
    ((lam : ℂ) • (1 : Matrix (GIdx s) (GIdx s) ℂ) - wgmMat (uniformOps s (fun _ => 1) spacing) k0 eps).PosSemidef := by
  have hH : ((lam : ℂ) • (1 : Matrix (GIdx s) (GIdx s) ℂ) - wgmMat (uniformOps s (fun _ => 1) spacing) k0 eps).IsHermitian := by
    refine IsHermitian.sub ?_ (wgmMat_herm spacing k0 eps heps)
    unfold IsHermitian
    rw [conjTranspose_smul, conjTranspose_one]
    simp
  rw [hH.posSemidef_iff_eigenvalues_nonneg]
  intro j
  have hv := hH.mulVec_eigenvectorBasis j
  set v : SField s := ⇑(hH.eigenvectorBasis j) with hvd
  have hv0 : v ≠ 0 := by
    intro h0
    have h1 := hH.eigenvectorBasis.orthonormal.1 j
    have : hH.eigenvectorBasis j = 0 := by
      ext i; exact congrFun h0 i
    rw [this, norm_zero] at h1
    exact zero_ne_one h1
  rw [sub_mulVec, smul_mulVec, one_mulVec, wgmMat_mulVec] at hv
  have := ht ((lam - hH.eigenvalues j : ℝ) : ℂ) v hv0 (by
    funext i
    have := congrFun hv i
    have h2 : (lam : ℂ) * v i - wgm1d (uniformOps s (fun _ => 1) spacing) k0 eps v i = (hH.eigenvalues j : ℂ) * v i := this
    push_cast
    linear_combination -h2)
  rw [ofReal_re] at this
  show 0 ≤ hH.eigenvalues j
  linarith

omit [∀ a, NeZero (s a)] in
theorem ip_dot (u v : SField s) : star u ⬝ᵥ v = ip u v := rfl

/-- The Rayleigh quotient is at most the largest eigenvalue, with equality only for its eigenvectors. -/
theorem fundamental_ray (spacing : Fin 3 → ℝ) (k0 : ℝ) (eps : SField s) (heps : ∀ i, (eps i).im = 0) (lam : ℝ) 
    (ht : ∀ (mu : ℂ) (v : SField s), v ≠ 0 → (wgm1d (uniformOps s (fun _ => 1) spacing) k0 eps v = fun i => mu * v i) → mu.re ≤ lam) (v : SField s) :
    ray spacing k0 eps v ≤ lam * ∑ i, ‖v i‖ ^ 2 ∧
      (ray spacing k0 eps v = lam * ∑ i, ‖v i‖ ^ 2 → wgm1d (uniformOps s (fun _ => 1) spacing) k0 eps v = fun i => (lam : ℂ) * v i) := by
  have hP := fundamental_psd spacing k0 eps heps lam ht
  have hq : star v ⬝ᵥ (((lam : ℂ) • (1 : Matrix (GIdx s) (GIdx s) ℂ) - wgmMat (uniformOps s (fun _ => 1) spacing) k0 eps) *ᵥ v) =
      ((lam * ∑ i, ‖v i‖ ^ 2 - ray spacing k0 eps v : ℝ) : ℂ) := by
    rw [ip_dot, sub_mulVec, smul_mulVec, one_mulVec, wgmMat_mulVec, ip_sub, ip_smul, ip_self, ip_wgm spacing k0 eps v heps]
    push_cast; rfl
  constructor
  · have h := hP.dotProduct_mulVec_nonneg v
    rw [hq] at h
    have : (0 : ℝ) ≤ lam * ∑ i, ‖v i‖ ^ 2 - ray spacing k0 eps v := by exact_mod_cast h
    linarith
  · intro he
    have h := (hP.dotProduct_mulVec_zero_iff v).1 (by rw [hq, he, sub_self, ofReal_zero])
    rw [sub_mulVec, smul_mulVec, one_mulVec, wgmMat_mulVec] at h
    exact (sub_eq_zero.1 h).symm

theorem eigen_ray (spacing : Fin 3 → ℝ) (k0 : ℝ) (eps : SField s) (heps : ∀ i, (eps i).im = 0) (lam : ℝ) (u : SField s)
    (h : wgm1d (uniformOps s (fun _ => 1) spacing) k0 eps u = fun i => (lam : ℂ) * u i) : ray spacing k0 eps u = lam * ∑ i, ‖u i‖ ^ 2 := by
  have h1 := ip_wgm spacing k0 eps u heps
  have h2 : ip u (fun i => (lam : ℂ) * u i) = lam * ip u u := ip_smul u u lam
  rw [h, h2, ip_self] at h1
  exact_mod_cast h1.symm

/-- There is a fundamental mode. -/
theorem fundamental_exists (spacing : Fin 3 → ℝ) (k0 : ℝ) (eps : SField s) (heps : ∀ i, (eps i).im = 0) :
    ∃ lam u, IsFundamental (uniformOps s (fun _ => 1) spacing) k0 eps lam u := by
  have hH := wgmMat_herm spacing k0 eps heps
  obtain ⟨j, hj⟩ := Finite.exists_max hH.eigenvalues
  refine ⟨hH.eigenvalues j, ⇑(hH.eigenvectorBasis j), ?_, ?_, ?_⟩
  · intro h0
    have h1 := hH.eigenvectorBasis.orthonormal.1 j
    have : hH.eigenvectorBasis j = 0 := by
      ext i; exact congrFun h0 i
    rw [this, norm_zero] at h1
    exact zero_ne_one h1
  · rw [← wgmMat_mulVec, hH.mulVec_eigenvectorBasis]
    rfl
  · intro mu v hv he
    have him : mu.im = 0 := C137_real_1d spacing k0 eps heps mu v hv he
    rw [← wgmMat_mulVec] at he
    have hmu : mu = ((mu.re : ℝ) : ℂ) := Complex.ext rfl (by rw [him, ofReal_im])
    have hsp : mu.re ∈ spectrum ℝ (wgmMat (uniformOps s (fun _ => 1) spacing) k0 eps) := by
      rw [spectrum.mem_iff]
      intro hu
      obtain ⟨U, hU⟩ := hu
      apply hv
      have h0 : (algebraMap ℝ (Matrix (GIdx s) (GIdx s) ℂ) mu.re - wgmMat (uniformOps s (fun _ => 1) spacing) k0 eps) *ᵥ v = 0 := by
        rw [sub_mulVec, he, Algebra.algebraMap_eq_smul_one, smul_mulVec, one_mulVec]
        funext i
        show (mu.re : ℝ) • v i - mu * v i = 0
        rw [real_smul, ← hmu, sub_self]
      rw [← hU] at h0
      have := congrArg (fun w => (U⁻¹.1 : Matrix (GIdx s) (GIdx s) ℂ) *ᵥ w) h0
      simpa only [mulVec_mulVec, Units.inv_mul, one_mulVec, mulVec_zero, Units.inv_eq_val_inv] using this
    rw [hH.spectrum_real_eq_range_eigenvalues] at hsp
    obtain ⟨k, hk⟩ := hsp
    rw [← hk]
    exact hj k

end general

/-! ### Slabs: one line of cells -/

section line

variable {n : ℕ} [NeZero n]

/-- Neighbouring cells. -/
def nextC (i : GIdx (shapeOf n 1 1)) : GIdx (shapeOf n 1 1) := Function.update i 0 (i 0 + 1)
def prevC (i : GIdx (shapeOf n 1 1)) : GIdx (shapeOf n 1 1) := Function.update i 0 (i 0 - 1)

theorem bwd_line (spacing : Fin 3 → ℝ) (u : SField (shapeOf n 1 1)) (i : GIdx (shapeOf n 1 1)) :
    ((uniformOps (shapeOf n 1 1) (fun _ => 1) spacing).deriv true 0 *ᵥ u) i = (u i - u (prevC i)) / (spacing 0 : ℂ) := by
  rw [← YeeOps.diffFn_eq (uniformOps (shapeOf n 1 1) (fun _ => 1) spacing) (fun _ => rfl)]
  rfl

theorem fwd_line (spacing : Fin 3 → ℝ) (u : SField (shapeOf n 1 1)) (i : GIdx (shapeOf n 1 1)) :
    ((uniformOps (shapeOf n 1 1) (fun _ => 1) spacing).deriv false 0 *ᵥ u) i = (u (nextC i) - u i) / (spacing 0 : ℂ) := by
  rw [← YeeOps.diffFn_eq (uniformOps (shapeOf n 1 1) (fun _ => 1) spacing) (fun _ => rfl)]
  rfl

theorem prev_next (i : GIdx (shapeOf n 1 1)) : prevC (nextC i) = i := by
  unfold prevC nextC
  simp

theorem next_prev (i : GIdx (shapeOf n 1 1)) : nextC (prevC i) = i := by
  unfold prevC nextC
  simp

theorem wgm_line (spacing : Fin 3 → ℝ) (k0 : ℝ) (eps u : SField (shapeOf n 1 1)) (i : GIdx (shapeOf n 1 1)) :
    wgm1d (uniformOps (shapeOf n 1 1) (fun _ => 1) spacing) k0 eps u i =
      eps i * (k0 : ℂ) ^ 2 * u i + (u (nextC i) - 2 * u i + u (prevC i)) / (spacing 0 : ℂ) ^ 2 := by
  unfold wgm1d
  rw [fwd_line, bwd_line, bwd_line, prev_next]
  ring

/-- A property of a cell that passes on to the next cell holds everywhere. -/
theorem line_induct (p : GIdx (shapeOf n 1 1) → Prop) (i0 : GIdx (shapeOf n 1 1)) (h0 : p i0) (hs : ∀ i, p i → p (nextC i)) (i : GIdx (shapeOf n 1 1)) : p i := by
  have hk : ∀ k : ℕ, p (Function.update i0 0 (i0 0 + Fin.ofNat _ k)) := by
    intro k
    induction k with
    | zero =>
      have : Function.update i0 0 (i0 0 + Fin.ofNat _ 0) = i0 := by
        have : (Fin.ofNat (shapeOf n 1 1 0) 0) = 0 := rfl
        rw [this, add_zero, Function.update_eq_self]
      rw [this]; exact h0
    | succ k ih =>
      have h := hs _ ih
      have e : nextC (Function.update i0 0 (i0 0 + Fin.ofNat _ k)) = Function.update i0 0 (i0 0 + Fin.ofNat _ (k + 1)) := by
        unfold nextC
        rw [Function.update_self, Function.update_idem, add_assoc]
        congr 2
        apply Fin.ext
        simp [Fin.val_add, Fin.ofNat]
      rw [e] at h; exact h
  have := hk (i 0 - i0 0 : Fin _).val
  have e : Function.update i0 0 (i0 0 + Fin.ofNat _ (i 0 - i0 0 : Fin _).val) = i := by
    apply gidx_line_ext
    rw [Function.update_self]
    have : Fin.ofNat (shapeOf n 1 1 0) (i 0 - i0 0 : Fin _).val = i 0 - i0 0 := by
      apply Fin.ext
      exact Nat.mod_eq_of_lt (Fin.is_lt _)
    rw [this, add_sub_cancel]
  rw [e] at this; exact this

theorem norm_ray (spacing : Fin 3 → ℝ) (k0 : ℝ) (eps u : SField (shapeOf n 1 1)) :
    ray spacing k0 eps u ≤ ray spacing k0 eps (fun i => (‖u i‖ : ℂ)) := by
  unfold ray
  have h1 : ∑ i, (eps i).re * ‖((‖u i‖ : ℝ) : ℂ)‖ ^ 2 = ∑ i, (eps i).re * ‖u i‖ ^ 2 :=
    Finset.sum_congr rfl fun i _ => by rw [norm_real, norm_norm]
  rw [h1]
  have h2 : ∑ i, ‖((uniformOps (shapeOf n 1 1) (fun _ => 1) spacing).deriv true 0 *ᵥ fun i => ((‖u i‖ : ℝ) : ℂ)) i‖ ^ 2 ≤
      ∑ i, ‖((uniformOps (shapeOf n 1 1) (fun _ => 1) spacing).deriv true 0 *ᵥ u) i‖ ^ 2 := by
    refine Finset.sum_le_sum fun i _ => ?_
    rw [bwd_line, bwd_line, norm_div, norm_div, div_pow, div_pow]
    refine div_le_div_of_nonneg_right ?_ (by positivity)
    rw [← ofReal_sub, norm_real, Real.norm_eq_abs, sq_abs]
    exact sq_le_sq' (by linarith [norm_sub_norm_le (u (prevC i)) (u i), norm_sub_rev (u i) (u (prevC i))]) (norm_sub_norm_le _ _)
  linarith

/-- The modulus of a fundamental mode is a fundamental mode. -/
theorem norm_fundamental (spacing : Fin 3 → ℝ) (k0 : ℝ) (eps : SField (shapeOf n 1 1)) (heps : ∀ i, (eps i).im = 0) (lam : ℝ) (u : SField (shapeOf n 1 1))
    (h : IsFundamental (uniformOps (shapeOf n 1 1) (fun _ => 1) spacing) k0 eps lam u) :
    wgm1d (uniformOps (shapeOf n 1 1) (fun _ => 1) spacing) k0 eps (fun i => (‖u i‖ : ℂ)) = fun i => (lam : ℂ) * (‖u i‖ : ℂ) := by
  obtain ⟨_, he, ht⟩ := h
  obtain ⟨h1, h2⟩ := fundamental_ray spacing k0 eps heps lam ht (fun i => (‖u i‖ : ℂ))
  have e1 := eigen_ray spacing k0 eps heps lam u he
  have hn : ∑ i, ‖((‖u i‖ : ℝ) : ℂ)‖ ^ 2 = ∑ i, ‖u i‖ ^ 2 := Finset.sum_congr rfl fun i _ => by rw [norm_real, norm_norm]
  apply h2
  rw [hn] at h1 ⊢
  exact le_antisymm h1 (e1 ▸ norm_ray spacing k0 eps u)

/-- A fundamental mode that vanishes in one cell vanishes everywhere. -/
theorem vanish (spacing : Fin 3 → ℝ) (hdx : spacing 0 ≠ 0) (k0 : ℝ) (eps : SField (shapeOf n 1 1)) (heps : ∀ i, (eps i).im = 0) (lam : ℝ)
    (ht : ∀ (mu : ℂ) (v : SField (shapeOf n 1 1)), v ≠ 0 → (wgm1d (uniformOps (shapeOf n 1 1) (fun _ => 1) spacing) k0 eps v = fun i => mu * v i) → mu.re ≤ lam)
    (u : SField (shapeOf n 1 1)) (he : wgm1d (uniformOps (shapeOf n 1 1) (fun _ => 1) spacing) k0 eps u = fun i => (lam : ℂ) * u i)
    (i0 : GIdx (shapeOf n 1 1)) (h0 : u i0 = 0) : u = 0 := by
  by_contra hu
  have hN := norm_fundamental spacing k0 eps heps lam u ⟨hu, he, ht⟩
  have hz : ∀ i, u i = 0 := by
    refine line_induct (fun i => u i = 0) i0 h0 fun i hi => ?_
    have h := congrFun hN i
    rw [wgm_line, hi, norm_zero, ofReal_zero, mul_zero, mul_zero, zero_add, mul_zero, sub_zero] at h
    have hd : (spacing 0 : ℂ) ^ 2 ≠ 0 := pow_ne_zero _ (by exact_mod_cast hdx)
    have h3 := (div_eq_zero_iff.1 h).resolve_right hd
    rw [← ofReal_add] at h3
    have h4 : ‖u (nextC i)‖ + ‖u (prevC i)‖ = 0 := by exact_mod_cast h3
    have h5 := norm_nonneg (u (nextC i))
    have h6 := norm_nonneg (u (prevC i))
    exact norm_eq_zero.1 (by linarith)
  exact hu (funext hz)

/-! ### C138 -/

/-- C138: the fundamental mode of a lossless slab has no nodes, every other mode with its propagation constant is a multiple of it, and with the phase
reference of `solve` (the first cell) it is real and positive everywhere. -/
theorem C138_nodeless (spacing : Fin 3 → ℝ) (hdx : spacing 0 ≠ 0) (k0 : ℝ) (eps : SField (shapeOf n 1 1)) (heps : ∀ i, (eps i).im = 0) (lam : ℝ)
    (u : SField (shapeOf n 1 1)) (h : IsFundamental (uniformOps (shapeOf n 1 1) (fun _ => 1) spacing) k0 eps lam u) :
    (∀ i, u i ≠ 0) ∧
    (∀ v, (wgm1d (uniformOps (shapeOf n 1 1) (fun _ => 1) spacing) k0 eps v = fun i => (lam : ℂ) * v i) → ∃ c : ℂ, ∀ i, v i = c * u i) ∧
    ∀ i, rephase 0 u i = (‖u i‖ : ℂ) := by
  have hN := norm_fundamental spacing k0 eps heps lam u h
  obtain ⟨hu, he, ht⟩ := h
  have hne : ∀ i, u i ≠ 0 := fun i h0 => hu (vanish spacing hdx k0 eps heps lam ht u he i h0)
  have hs : ∀ v, (wgm1d (uniformOps (shapeOf n 1 1) (fun _ => 1) spacing) k0 eps v = fun i => (lam : ℂ) * v i) → ∃ c : ℂ, ∀ i, v i = c * u i := by
    intro v hv
    have hw : wgm1d (uniformOps (shapeOf n 1 1) (fun _ => 1) spacing) k0 eps (fun i => v i - v 0 / u 0 * u i) = fun i => (lam : ℂ) * (v i - v 0 / u 0 * u i) := by
      funext i
      have h1 := congrFun hv i
      have h2 := congrFun he i
      rw [wgm_line] at h1 h2 ⊢
      linear_combination h1 - v 0 / u 0 * h2
    have h0 := vanish spacing hdx k0 eps heps lam ht _ hw 0 (by rw [div_mul_cancel₀ _ (hne 0), sub_self])
    exact ⟨v 0 / u 0, fun i => sub_eq_zero.1 (congrFun h0 i)⟩
  refine ⟨hne, hs, fun i => ?_⟩
  obtain ⟨c, hc⟩ := hs _ hN
  obtain ⟨r0, d, hd, hr⟩ := C62_phase_reference (0 : GIdx (shapeOf n 1 1)) u
  rw [hr] at r0 ⊢
  have hcd : c = d := by
    have := hc 0
    rw [← r0] at this
    exact (mul_right_cancel₀ (hne 0) this).symm
  rw [hc i, hcd]

/-- Mirror image of a cell. -/
def mirrorC (m : Fin (shapeOf n 1 1 0)) (i : GIdx (shapeOf n 1 1)) : GIdx (shapeOf n 1 1) := Function.update i 0 (m - i 0)

theorem mirrorC_mirrorC (m : Fin (shapeOf n 1 1 0)) (i : GIdx (shapeOf n 1 1)) : mirrorC m (mirrorC m i) = i := by
  unfold mirrorC
  rw [Function.update_self, Function.update_idem]
  rw [sub_sub_cancel, Function.update_eq_self]

theorem mirrorC_next (m : Fin (shapeOf n 1 1 0)) (i : GIdx (shapeOf n 1 1)) : mirrorC m (nextC i) = prevC (mirrorC m i) := by
  unfold mirrorC nextC prevC
  rw [Function.update_self, Function.update_self, Function.update_idem, Function.update_idem]
  congr 1
  exact sub_add_eq_sub_sub _ _ _

theorem mirrorC_prev (m : Fin (shapeOf n 1 1 0)) (i : GIdx (shapeOf n 1 1)) : mirrorC m (prevC i) = nextC (mirrorC m i) := by
  rw [← mirrorC_mirrorC m (nextC (mirrorC m i)), mirrorC_next, mirrorC_mirrorC]

/-- C138: the fundamental mode has the mirror symmetry of the slab, about any cell or cell boundary. -/
theorem C138_symmetric (spacing : Fin 3 → ℝ) (hdx : spacing 0 ≠ 0) (k0 : ℝ) (eps : SField (shapeOf n 1 1)) (heps : ∀ i, (eps i).im = 0) (lam : ℝ)
    (u : SField (shapeOf n 1 1)) (h : IsFundamental (uniformOps (shapeOf n 1 1) (fun _ => 1) spacing) k0 eps lam u)
    (m : Fin (shapeOf n 1 1 0)) (hm : ∀ i, eps (mirrorC m i) = eps i) : ∀ i, u (mirrorC m i) = u i := by
  obtain ⟨hne, hs, hpos⟩ := C138_nodeless spacing hdx k0 eps heps lam u h
  obtain ⟨c, hc⟩ := hs (fun i => u (mirrorC m i)) (by
    funext i
    have := congrFun h.2.1 (mirrorC m i)
    rw [wgm_line] at this ⊢
    simp only [mirrorC_next, mirrorC_prev]
    rw [hm] at this
    rw [← this]
    ring)
  -- the phase reference makes both sides positive
  obtain ⟨_, d, hd, hr⟩ := C62_phase_reference (0 : GIdx (shapeOf n 1 1)) u
  have hd0 : d ≠ 0 := by
    intro h0; rw [h0, norm_zero] at hd; exact zero_ne_one hd
  have hn : ∀ i, d * u i = (‖u i‖ : ℂ) := fun i => by rw [← hr, hpos]
  have hcc : c = ((‖u (mirrorC m 0)‖ / ‖u 0‖ : ℝ) : ℂ) := by
    have h1 := hc 0
    have h0 : (‖u 0‖ : ℂ) ≠ 0 := by exact_mod_cast norm_ne_zero_iff.2 (hne 0)
    push_cast
    rw [eq_div_iff h0, ← hn, ← hn]
    rw [h1]; ring
  have hc2 : c * c = 1 := by
    have h1 := hc 0
    have h2 := hc (mirrorC m 0)
    rw [mirrorC_mirrorC, h1, ← mul_assoc] at h2
    exact (mul_right_cancel₀ (hne 0) (by rw [one_mul]; exact h2)).symm
  have hc1 : c = 1 := by
    rw [hcc] at hc2 ⊢
    have h0 : (0 : ℝ) ≤ ‖u (mirrorC m 0)‖ / ‖u 0‖ := by positivity
    have h2 : (‖u (mirrorC m 0)‖ / ‖u 0‖) * (‖u (mirrorC m 0)‖ / ‖u 0‖) = 1 := by exact_mod_cast hc2
    have : ‖u (mirrorC m 0)‖ / ‖u 0‖ = 1 := by nlinarith
    rw [this, ofReal_one]
  intro i
  have := hc i
  rw [this, hc1, one_mul]

/-- C138, through `solve`: if the eigensolver lists eigenpairs of the slab's operator, the one with the largest eigenvalue among them and guided ones first
(see C62), the first mode `solve` returns is positive in every cell, and no other returned mode has its propagation constant unless it is the same profile. -/
theorem C138_solve (argsort : List ℝ → List ℕ) (ha : IsArgsort argsort) (spacing : Fin 3 → ℝ) (hdx : spacing 0 ≠ 0) (k0 : ℝ) (eps : SField (shapeOf n 1 1))
    (heps : ∀ i, (eps i).im = 0) (vals : List ℂ) (vecs : List (SField (shapeOf n 1 1))) (hl : vecs.length = vals.length) (hg : GuidedFirst vals)
    (heig : ∀ k < vals.length, vecs.getD k 0 ≠ 0 ∧
      wgm1d (uniformOps (shapeOf n 1 1) (fun _ => 1) spacing) k0 eps (vecs.getD k 0) = fun i => vals.getD k 0 * vecs.getD k 0 i)
    (lam : ℝ) (hlam : 0 < lam) (u : SField (shapeOf n 1 1)) (hu : IsFundamental (uniformOps (shapeOf n 1 1) (fun _ => 1) spacing) k0 eps lam u)
    (hin : (lam : ℂ) ∈ vals) :
    ∃ betas modes, solvePost argsort (fun _ v => v) (0 : GIdx (shapeOf n 1 1)) 0 vals vecs = .ok (betas, modes) ∧
      ∃ (h1 : 0 < betas.length) (h2 : 0 < modes.length), betas[0] = Real.sqrt lam ∧
        ∃ r : ℝ, 0 < r ∧ ∀ i, modes[0] i = ((r * ‖u i‖ : ℝ) : ℂ) ∧ 0 < r * ‖u i‖ := by
  obtain ⟨betas, modes, hok, hlen, hsort, _, σ, _, hmem, hbs, hms⟩ :=
    C62_solve_partial argsort ha (fun _ v => v) (0 : GIdx (shapeOf n 1 1)) 0 vals vecs hl hg
  refine ⟨betas, modes, hok, ?_⟩
  obtain ⟨k, hk, hkv⟩ := List.getElem_of_mem hin
  have hkd : vals.getD k 0 = lam := by rw [List.getD_eq_getElem?_getD, List.getElem?_eq_getElem hk]; exact hkv
  have hkσ : k ∈ σ := (hmem k).2 ⟨hk, by rw [hkd, ofReal_re]; exact hlam⟩
  have hσ : 0 < σ.length := List.length_pos_of_mem hkσ
  have h1 : 0 < betas.length := by rw [hbs, List.length_map]; exact hσ
  have h2 : 0 < modes.length := hlen ▸ h1
  have hb0 : betas[0] = Real.sqrt (vals.getD σ[0] 0).re := by simp only [hbs, List.getElem_map]
  have hj := (hmem σ[0]).1 (List.getElem_mem hσ)
  obtain ⟨hv, hev⟩ := heig σ[0] hj.1
  have him := C137_real_1d spacing k0 eps heps _ _ hv hev
  have hle : (vals.getD σ[0] 0).re ≤ lam := hu.2.2 _ _ hv hev
  have hge : Real.sqrt lam ≤ betas[0] := by
    obtain ⟨t, ht, htk⟩ := List.getElem_of_mem hkσ
    have htb : t < betas.length := by rw [hbs, List.length_map]; exact ht
    have hbt : betas[t] = Real.sqrt lam := by simp only [hbs, List.getElem_map, htk, hkd, ofReal_re]
    rw [← hbt]
    rcases Nat.eq_zero_or_pos t with h0 | h0
    · subst h0; exact le_refl _
    · exact List.pairwise_iff_getElem.1 hsort 0 t h1 htb h0
  rw [hb0] at hge
  have hre : (vals.getD σ[0] 0).re = lam := le_antisymm hle ((Real.sqrt_le_sqrt_iff hj.2.le).1 hge)
  have hval : vals.getD σ[0] 0 = (lam : ℂ) := Complex.ext (by rw [hre, ofReal_re]) (by rw [him, ofReal_im])
  refine ⟨h1, h2, by rw [hb0, hre], ?_⟩
  rw [hval] at hev
  have hf : IsFundamental (uniformOps (shapeOf n 1 1) (fun _ => 1) spacing) k0 eps lam (vecs.getD σ[0] 0) := ⟨hv, hev, hu.2.2⟩
  obtain ⟨hne, _, hpos⟩ := C138_nodeless spacing hdx k0 eps heps lam _ hf
  obtain ⟨hneu, hsu, _⟩ := C138_nodeless spacing hdx k0 eps heps lam u hu
  obtain ⟨c, hc⟩ := hsu _ hev
  have hc0 : c ≠ 0 := by
    intro h0
    exact hne 0 (by rw [hc 0, h0, zero_mul])
  refine ⟨‖c‖, norm_pos_iff.2 hc0, fun i => ⟨?_, mul_pos (norm_pos_iff.2 hc0) (norm_pos_iff.2 (hneu i))⟩⟩
  have : modes[0] i = rephase 0 (vecs.getD σ[0] 0) i := by
    have := List.getElem_of_eq hms h2
    rw [this, List.getElem_map]
  rw [this, hpos, hc, norm_mul]

/-! ### C139 -/

/-- C139: the squared propagation constant of the fundamental mode is at least `k0²` times the mean permittivity (and by C137 at most `k0²` times the
maximum), so a slab with positive mean permittivity always guides. -/
theorem C139_mean (spacing : Fin 3 → ℝ) (k0 : ℝ) (eps : SField (shapeOf n 1 1)) (heps : ∀ i, (eps i).im = 0) :
    ∃ lam u, IsFundamental (uniformOps (shapeOf n 1 1) (fun _ => 1) spacing) k0 eps lam u ∧ k0 ^ 2 * ((∑ i, (eps i).re) / n) ≤ lam := by
  obtain ⟨lam, u, hu⟩ := fundamental_exists spacing k0 eps heps
  refine ⟨lam, u, hu, ?_⟩
  have h := (fundamental_ray spacing k0 eps heps lam hu.2.2 (fun _ => 1)).1
  have hr : ray spacing k0 eps (fun _ => 1) = k0 ^ 2 * ∑ i, (eps i).re := by
    unfold ray
    have : ∑ i, ‖((uniformOps (shapeOf n 1 1) (fun _ => 1) spacing).deriv true 0 *ᵥ fun _ => (1 : ℂ)) i‖ ^ 2 = 0 :=
      Finset.sum_eq_zero fun i _ => by rw [bwd_line]; simp
    rw [this]
    simp
  have hc : ∑ i : GIdx (shapeOf n 1 1), ‖(1 : ℂ)‖ ^ 2 = n := by
    rw [Finset.sum_const, norm_one, one_pow, nsmul_eq_mul, mul_one, Finset.card_univ, Fintype.card_pi]
    simp [shapeOf]
  rw [hr, hc] at h
  have hn : (0 : ℝ) < n := by exact_mod_cast NeZero.pos n
  rw [mul_div_assoc', div_le_iff₀ hn]
  exact h

/-- C139: raising the permittivity anywhere never lowers the propagation constant of the fundamental mode, and raising it in some cell raises it strictly. -/
theorem C139_monotone (spacing : Fin 3 → ℝ) (hdx : spacing 0 ≠ 0) (k0 : ℝ) (hk : k0 ≠ 0) (eps eps' : SField (shapeOf n 1 1)) (heps : ∀ i, (eps i).im = 0)
    (heps' : ∀ i, (eps' i).im = 0) (hle : ∀ i, (eps i).re ≤ (eps' i).re) (lam lam' : ℝ) (u u' : SField (shapeOf n 1 1))
    (h : IsFundamental (uniformOps (shapeOf n 1 1) (fun _ => 1) spacing) k0 eps lam u)
    (h' : IsFundamental (uniformOps (shapeOf n 1 1) (fun _ => 1) spacing) k0 eps' lam' u') :
    lam ≤ lam' ∧ ((∃ i, (eps i).re < (eps' i).re) → lam < lam') := by
  have hr := eigen_ray spacing k0 eps heps lam u h.2.1
  have hr' := (fundamental_ray spacing k0 eps' heps' lam' h'.2.2 u).1
  have hp := ip_self_pos u h.1
  rw [ip_self, ofReal_re] at hp
  have hk2 : 0 < k0 ^ 2 := by positivity
  have hd : ray spacing k0 eps' u - ray spacing k0 eps u = k0 ^ 2 * ∑ i, ((eps' i).re - (eps i).re) * ‖u i‖ ^ 2 := by
    unfold ray
    have : ∑ i, ((eps' i).re - (eps i).re) * ‖u i‖ ^ 2 = ∑ i, (eps' i).re * ‖u i‖ ^ 2 - ∑ i, (eps i).re * ‖u i‖ ^ 2 := by
      rw [← Finset.sum_sub_distrib]
      exact Finset.sum_congr rfl fun i _ => by ring
    rw [this]; ring
  have hnn : ∀ i ∈ Finset.univ, 0 ≤ ((eps' i).re - (eps i).re) * ‖u i‖ ^ 2 := fun i _ => mul_nonneg (by linarith [hle i]) (by positivity)
  constructor
  · have := mul_nonneg hk2.le (Finset.sum_nonneg hnn)
    refine le_of_mul_le_mul_right (?_ : lam * ∑ i, ‖u i‖ ^ 2 ≤ lam' * ∑ i, ‖u i‖ ^ 2) hp
    linarith
  · rintro ⟨i, hi⟩
    have hne := (C138_nodeless spacing hdx k0 eps heps lam u h).1
    have : 0 < k0 ^ 2 * ∑ i, ((eps' i).re - (eps i).re) * ‖u i‖ ^ 2 :=
      mul_pos hk2 (Finset.sum_pos' hnn ⟨i, Finset.mem_univ _, mul_pos (by linarith) (by have := norm_pos_iff.2 (hne i); positivity)⟩)
    refine lt_of_mul_lt_mul_right (?_ : lam * ∑ i, ‖u i‖ ^ 2 < lam' * ∑ i, ‖u i‖ ^ 2) hp.le
    linarith

/-- C139: with permittivities independent of the wavelength, the effective index of the fundamental mode does not decrease with the wave number
(`neff² = lam / k0²`): shorter wavelengths are confined better. -/
theorem C139_dispersion (spacing : Fin 3 → ℝ) (k0 k0' : ℝ) (hk : 0 < k0) (hkk : k0 ≤ k0') (eps : SField (shapeOf n 1 1)) (heps : ∀ i, (eps i).im = 0)
    (lam lam' : ℝ) (u u' : SField (shapeOf n 1 1))
    (h : IsFundamental (uniformOps (shapeOf n 1 1) (fun _ => 1) spacing) k0 eps lam u)
    (h' : IsFundamental (uniformOps (shapeOf n 1 1) (fun _ => 1) spacing) k0' eps lam' u') :
    lam / k0 ^ 2 ≤ lam' / k0' ^ 2 ∧ Real.sqrt lam / k0 ≤ Real.sqrt lam' / k0' := by
  have hr := eigen_ray spacing k0 eps heps lam u h.2.1
  have hr' := (fundamental_ray spacing k0' eps heps lam' h'.2.2 u).1
  have hp := ip_self_pos u h.1
  rw [ip_self, ofReal_re] at hp
  have hk2 : 0 < k0 ^ 2 := by positivity
  have hk' : 0 < k0' := by linarith
  have hk2' : 0 < k0' ^ 2 := by positivity
  have hle : k0 ^ 2 ≤ k0' ^ 2 := by nlinarith
  unfold ray at hr hr'
  set D := ∑ i, ‖((uniformOps (shapeOf n 1 1) (fun _ => 1) spacing).deriv true 0 *ᵥ u) i‖ ^ 2 with hD
  set W := ∑ i, (eps i).re * ‖u i‖ ^ 2 with hW
  set N := ∑ i, ‖u i‖ ^ 2 with hN
  have hD0 : 0 ≤ D := Finset.sum_nonneg fun i _ => by positivity
  have key : lam / k0 ^ 2 ≤ lam' / k0' ^ 2 := by
    rw [div_le_div_iff₀ hk2 hk2']
    refine le_of_mul_le_mul_right (?_ : lam * k0' ^ 2 * N ≤ lam' * k0 ^ 2 * N) hp
    have e1 : lam * k0' ^ 2 * N = k0' ^ 2 * (k0 ^ 2 * W - D) := by rw [hr]; ring
    have e2 : k0 ^ 2 * (k0' ^ 2 * W - D) ≤ k0 ^ 2 * (lam' * N) := mul_le_mul_of_nonneg_left hr' hk2.le
    nlinarith
  refine ⟨key, ?_⟩
  have e : ∀ (x k : ℝ), 0 < k → Real.sqrt x / k = Real.sqrt (x / k ^ 2) := fun x k hk => by
    rw [Real.sqrt_div' _ (sq_nonneg k), Real.sqrt_sq hk.le]
  rw [e _ _ hk, e _ _ hk']
  exact Real.sqrt_le_sqrt key

end line

/-- The two cell slab with permittivities 2 and 5: its fundamental mode is `(1, 2)` with `beta² = 4`. -/
theorem two_fundamental : IsFundamental g2 1 twoEps 4 twoMode := by
  obtain ⟨v0, v1, e0, e1⟩ := twoMode_val
  refine ⟨fun h => by have := congrFun h ix0; rw [v0] at this; exact one_ne_zero this, ?_, ?_⟩
  · rw [twoMode_mode]; funext i; push_cast; norm_num
  · intro mu v hv he
    have h0 := congrFun he ix0
    have h1 := congrFun he ix1
    change twoEps ix0 * ((1 : ℝ) : ℂ) ^ 2 * v ix0 + (g2.deriv false 0 *ᵥ (g2.deriv true 0 *ᵥ v)) ix0 = _ at h0
    change twoEps ix1 * ((1 : ℝ) : ℂ) ^ 2 * v ix1 + (g2.deriv false 0 *ᵥ (g2.deriv true 0 *ᵥ v)) ix1 = _ at h1
    rw [(g2_fwd _).1, (g2_bwd _).1, (g2_bwd _).2, e0] at h0
    rw [(g2_fwd _).2, (g2_bwd _).1, (g2_bwd _).2, e1] at h1
    have hq : mu = 4 ∨ mu = -1 := by
      have hdet : (mu - 4) * (mu + 1) * v ix0 = 0 ∧ (mu - 4) * (mu + 1) * v ix1 = 0 := by
        push_cast at h0 h1
        constructor
        · linear_combination (-(mu - 3)) * h0 - 2 * h1
        · linear_combination (-mu) * h1 - 2 * h0
      have hne : v ix0 ≠ 0 ∨ v ix1 ≠ 0 := by
        by_contra hcon
        push Not at hcon
        refine hv (funext fun i => ?_)
        rcases two_cases i with rfl | rfl
        · exact hcon.1
        · exact hcon.2
      have hz : (mu - 4) * (mu + 1) = 0 := by
        rcases hne with h | h
        · exact (mul_eq_zero.1 hdet.1).resolve_right h
        · exact (mul_eq_zero.1 hdet.2).resolve_right h
      rcases mul_eq_zero.1 hz with h | h
      · exact Or.inl (sub_eq_zero.1 h)
      · exact Or.inr (eq_neg_of_add_eq_zero_left h)
    rcases hq with rfl | rfl
    · norm_num
    · norm_num

example : ∀ i, rephase 0 twoMode i = (‖twoMode i‖ : ℂ) :=
  (C138_nodeless (fun _ => 1) one_ne_zero 1 twoEps (fun i => by
    rcases two_cases i with rfl | rfl
    · rw [twoMode_val.2.2.1]; simp
    · rw [twoMode_val.2.2.2]; simp) 4 twoMode two_fundamental).2.2

end Simphox
