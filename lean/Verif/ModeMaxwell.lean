import Verif.ModeProps
import Verif.FdfdProps

/-!
# Guided modes and Maxwell's equations: C87, C88
-/

namespace Simphox

open Matrix Complex

variable {s : Fin 3 → ℕ} [∀ a, NeZero (s a)]

/-! ### Specification -/

/-- The curl of a field `f(x, y) exp(dz * z)`, with derivative matrices `d 0`, `d 1` along `x`, `y`. -/
def curlZ (d : Fin 3 → Matrix (GIdx s) (GIdx s) ℂ) (dz : ℂ) (f : VField s) : VField s :=
  ![fun i => (d 1 *ᵥ f 2) i - dz * f 1 i, fun i => dz * f 0 i - (d 0 *ᵥ f 2) i,
    fun i => (d 0 *ᵥ f 1) i - (d 1 *ᵥ f 0) i]

/-- Source-free Maxwell equations for fields with dependence `exp(dz * z)`: `de`, `dh` are the
derivatives acting on `e` and on `h`; `σ = ±1` is the sign of the time convention
(`curl e = σ i k0 h`, `curl h = -σ i k0 eps e`). -/
def MaxwellZ (de dh : Fin 3 → Matrix (GIdx s) (GIdx s) ℂ) (σ dz : ℂ) (k0 : ℝ) (epsT e h : VField s) : Prop :=
  (∀ c i, curlZ de dz e c i = σ * (I * k0 * h c i)) ∧
  (∀ c i, curlZ dh dz h c i = -σ * (I * k0 * epsT c i * e c i))

/-! ### C87 -/

theorem csqrt_sq (b : ℝ) (hb : 0 < b) : csqrt ((b : ℂ) ^ 2) = b := by
  unfold csqrt
  rw [show ((b : ℂ) ^ 2) = ((b ^ 2 : ℝ) : ℂ) by push_cast; rfl,
    show ((1 : ℂ) / 2) = (((1 / 2 : ℝ)) : ℂ) by push_cast; rfl,
    ← Complex.ofReal_cpow (by positivity)]
  rw [← Real.sqrt_eq_rpow, Real.sqrt_sq hb.le]

theorem curlFnBeta_eq (g : YeeOps s) (hb : ∀ a, g.bloch a = 1) (ofH : Bool) (beta : ℂ) (f : VField s) :
    curlFnBeta (g.diffFn ofH) beta f = curlZ (g.deriv ofH) (-I * beta) f := by
  funext c i
  match c with
  | 0 =>
    change g.diffFn ofH (f 2) 1 i + I * beta * f 1 i = (g.deriv ofH 1 *ᵥ f 2) i - (-I * beta) * f 1 i
    rw [YeeOps.diffFn_eq g hb]; ring
  | 1 =>
    change -I * beta * f 0 i - g.diffFn ofH (f 2) 0 i = (-I * beta) * f 0 i - (g.deriv ofH 0 *ᵥ f 2) i
    rw [YeeOps.diffFn_eq g hb]
  | 2 =>
    change g.diffFn ofH (f 1) 0 i - g.diffFn ofH (f 0) 1 i = (g.deriv ofH 0 *ᵥ f 1) i - (g.deriv ofH 1 *ᵥ f 0) i
    rw [YeeOps.diffFn_eq g hb, YeeOps.diffFn_eq g hb]

omit [∀ a, NeZero (s a)] in
theorem mulVec_scale (d : Matrix (GIdx s) (GIdx s) ℂ) (c : ℂ) (f : SField s) (i : GIdx s) :
    (d *ᵥ fun j => c * f j) i = c * (d *ᵥ f) i := by
  have : (fun j => c * f j) = c • f := rfl
  rw [this, mulVec_smul]; rfl

omit [∀ a, NeZero (s a)] in
theorem mulVec_lin2 (d : Matrix (GIdx s) (GIdx s) ℂ) (c c' : ℂ) (f f' : SField s) (i : GIdx s) :
    (d *ᵥ fun j => c * f j + c' * f' j) i = c * (d *ᵥ f) i + c' * (d *ᵥ f') i := by
  have : (fun j => c * f j + c' * f' j) = c • f + c' • f' := rfl
  rw [this, mulVec_add, mulVec_smul, mulVec_smul]; rfl

omit [∀ a, NeZero (s a)] in
/-- The eigenvalue equation of the two dimensional mode operator, component by component. -/
theorem wgm2d_eq (g : YeeOps s) (k0 : ℝ) (epsT : VField s) (hx hy : SField s) (i : GIdx s) :
    let ez : SField s := fun i => 1 / epsT 2 i * ((g.deriv true 0 *ᵥ hy) i - (g.deriv true 1 *ᵥ hx) i)
    let dv : SField s := fun i => (g.deriv false 0 *ᵥ hx) i + (g.deriv false 1 *ᵥ hy) i
    (wgm2d g k0 epsT hx hy).1 i = epsT 1 i * (k0 : ℂ) ^ 2 * hx i - epsT 1 i * (g.deriv false 1 *ᵥ ez) i
      + (g.deriv true 0 *ᵥ dv) i ∧
    (wgm2d g k0 epsT hx hy).2 i = epsT 0 i * (k0 : ℂ) ^ 2 * hy i + epsT 0 i * (g.deriv false 0 *ᵥ ez) i
      + (g.deriv true 1 *ᵥ dv) i := by
  intro ez dv
  have h1 : (fun i => 1 / epsT 2 i * ((-(g.deriv true 1)) *ᵥ hx + g.deriv true 0 *ᵥ hy) i) = ez := by
    funext j
    simp only [ez, neg_mulVec, Pi.add_apply, Pi.neg_apply]
    ring
  have h2 : transverseDiv (g.deriv false) hx hy = dv := rfl
  simp only [wgm2d, h1, h2]
  simp only [neg_mulVec, Pi.neg_apply]
  exact ⟨by ring1, trivial⟩

/-- **C87** Every eigenvector `(hx, hy)` of the two dimensional mode operator with eigenvalue `beta^2`,
completed with the solver's `hz` and with the library's `e = h2e(h, beta)`, satisfies all six components
of the source-free discrete Maxwell equations on the solver's own grid for fields `exp(-i beta z)`
(time convention `σ = -1`), and `h` is divergence free. -/
theorem C87_mode_maxwell (g : YeeOps s) (hb : ∀ a, g.bloch a = 1) (k0 beta : ℝ) (hk : k0 ≠ 0) (hbeta : 0 < beta)
    (epsT : VField s) (he : ∀ c i, epsT c i ≠ 0) (hx hy : SField s)
    (hev : wgm2d g k0 epsT hx hy = (fun i => (beta : ℂ) ^ 2 * hx i, fun i => (beta : ℂ) ^ 2 * hy i)) :
    let h := fullH g ((beta : ℂ) ^ 2) (hx, hy)
    let e := modeH2e g k0 epsT beta h
    MaxwellZ (g.deriv false) (g.deriv true) (-1) (-I * beta) k0 epsT e h ∧
    (∀ i, (g.deriv false 0 *ᵥ h 0) i + (g.deriv false 1 *ᵥ h 1) i + (-I * beta) * h 2 i = 0) ∧
    modeE2h g k0 beta e = -h := by
  intro h e
  have hk' : (k0 : ℂ) ≠ 0 := by exact_mod_cast hk
  have hbe : (beta : ℂ) ≠ 0 := by exact_mod_cast hbeta.ne'
  have hI := I_ne_zero
  have hI2 : I * I = -1 := I_mul_I
  have hz : h 2 = fun i => (1 / (I * beta)) * ((g.deriv false 0 *ᵥ hx) i + (g.deriv false 1 *ᵥ hy) i) := by
    funext i
    change transverseDiv (g.deriv false) hx hy i / (I * csqrt ((beta : ℂ) ^ 2)) = _
    rw [csqrt_sq beta hbeta]
    simp only [transverseDiv, Pi.add_apply]
    ring
  have h0 : h 0 = hx := rfl
  have h1 : h 1 = hy := rfl
  -- Ampère: the definition of `e`
  have hamp : ∀ c i, curlZ (g.deriv true) (-I * beta) h c i = -(-1) * (I * k0 * epsT c i * e c i) := by
    intro c i
    change _ = -(-1) * (I * k0 * epsT c i * (curlFnBeta (g.diffFn true) beta h c i / (I * k0 * epsT c i)))
    rw [curlFnBeta_eq g hb]
    have := he c i
    field_simp
  have hec : ∀ c, e c = fun i => curlZ (g.deriv true) (-I * beta) h c i / (I * k0 * epsT c i) := by
    intro c; funext i
    change curlFnBeta (g.diffFn true) beta h c i / (I * k0 * epsT c i) = _
    rw [curlFnBeta_eq g hb]
  set ez : SField s := fun i => 1 / epsT 2 i * ((g.deriv true 0 *ᵥ hy) i - (g.deriv true 1 *ᵥ hx) i) with hez
  set dv : SField s := fun i => (g.deriv false 0 *ᵥ hx) i + (g.deriv false 1 *ᵥ hy) i with hdv
  have he2 : e 2 = fun i => 1 / (I * k0) * ez i := by
    rw [hec 2]; funext i
    change ((g.deriv true 0 *ᵥ hy) i - (g.deriv true 1 *ᵥ hx) i) / (I * k0 * epsT 2 i) = _
    simp only [hez]
    have := he 2 i
    field_simp
  have hBz : ∀ a i, (g.deriv true a *ᵥ h 2) i = 1 / (I * beta) * (g.deriv true a *ᵥ dv) i := by
    intro a i
    rw [hz]
    exact mulVec_scale _ _ dv i
  have he1 : ∀ i, e 1 i = (-I * beta * hx i - 1 / (I * beta) * (g.deriv true 0 *ᵥ dv) i) / (I * k0 * epsT 1 i) := by
    intro i
    rw [hec 1]
    change (-I * beta * h 0 i - (g.deriv true 0 *ᵥ h 2) i) / (I * k0 * epsT 1 i) = _
    rw [hBz, h0]
  have he0 : ∀ i, e 0 i = (1 / (I * beta) * (g.deriv true 1 *ᵥ dv) i - (-I * beta) * hy i) / (I * k0 * epsT 0 i) := by
    intro i
    rw [hec 0]
    change ((g.deriv true 1 *ᵥ h 2) i - (-I * beta) * h 1 i) / (I * k0 * epsT 0 i) = _
    rw [hBz, h1]
  have hF2 : ∀ a i, (g.deriv false a *ᵥ e 2) i = 1 / (I * k0) * (g.deriv false a *ᵥ ez) i := by
    intro a i
    rw [he2]
    exact mulVec_scale _ _ ez i
  -- Faraday, transverse components: the eigenvalue equation
  have hfx : ∀ i, (g.deriv false 1 *ᵥ e 2) i - (-I * beta) * e 1 i = -(I * k0 * hx i) := by
    intro i
    have hw := (wgm2d_eq g k0 epsT hx hy i).1
    rw [hev] at hw
    simp only at hw
    change (beta : ℂ) ^ 2 * hx i = epsT 1 i * (k0 : ℂ) ^ 2 * hx i - epsT 1 i * (g.deriv false 1 *ᵥ ez) i +
      (g.deriv true 0 *ᵥ dv) i at hw
    rw [hF2, he1]
    have := he 1 i
    field_simp
    ring_nf
    simp only [I_sq]
    linear_combination hw
  have hfy : ∀ i, (-I * beta) * e 0 i - (g.deriv false 0 *ᵥ e 2) i = -(I * k0 * hy i) := by
    intro i
    have hw := (wgm2d_eq g k0 epsT hx hy i).2
    rw [hev] at hw
    simp only at hw
    change (beta : ℂ) ^ 2 * hy i = epsT 0 i * (k0 : ℂ) ^ 2 * hy i + epsT 0 i * (g.deriv false 0 *ᵥ ez) i +
      (g.deriv true 1 *ᵥ dv) i at hw
    rw [hF2, he0]
    have := he 0 i
    field_simp
    ring_nf
    simp only [I_sq]
    linear_combination hw
  have hfz : ∀ i, (g.deriv false 0 *ᵥ e 1) i - (g.deriv false 1 *ᵥ e 0) i = -(I * k0 * h 2 i) := by
    intro i
    have e1' : e 1 = fun j => (-I * k0 / (I * beta)) * hx j + (-1 / (I * beta)) * (g.deriv false 1 *ᵥ e 2) j := by
      funext j
      have := hfx j
      field_simp
      linear_combination (norm := ring_nf) this
    have e0' : e 0 = fun j => (I * k0 / (I * beta)) * hy j + (-1 / (I * beta)) * (g.deriv false 0 *ᵥ e 2) j := by
      funext j
      have := hfy j
      field_simp
      linear_combination (norm := ring_nf) -this
    have c1 : (g.deriv false 0 *ᵥ e 1) i = (-I * k0 / (I * beta)) * (g.deriv false 0 *ᵥ hx) i +
        (-1 / (I * beta)) * (g.deriv false 0 *ᵥ (g.deriv false 1 *ᵥ e 2)) i := by
      rw [e1']; exact mulVec_lin2 _ _ _ _ _ _
    have c0 : (g.deriv false 1 *ᵥ e 0) i = (I * k0 / (I * beta)) * (g.deriv false 1 *ᵥ hy) i +
        (-1 / (I * beta)) * (g.deriv false 1 *ᵥ (g.deriv false 0 *ᵥ e 2)) i := by
      rw [e0']; exact mulVec_lin2 _ _ _ _ _ _
    have hcomm : (g.deriv false 0 *ᵥ (g.deriv false 1 *ᵥ e 2)) i = (g.deriv false 1 *ᵥ (g.deriv false 0 *ᵥ e 2)) i := by
      rw [mulVec_mulVec, mulVec_mulVec, YeeOps.deriv_comm g false false (a := 0) (b := 1) (by decide)]
    rw [c1, c0, hcomm, hz]
    simp only
    field_simp
    ring
  have hfar : ∀ c i, curlZ (g.deriv false) (-I * beta) e c i = -1 * (I * k0 * h c i) := by
    intro c i
    match c with
    | 0 => exact (hfx i).trans (by rw [neg_one_mul]; rfl)
    | 1 => exact (hfy i).trans (by rw [neg_one_mul]; rfl)
    | 2 => exact (hfz i).trans (by rw [neg_one_mul])
  refine ⟨⟨hfar, hamp⟩, fun i => ?_, ?_⟩
  · rw [h0, h1, hz]
    simp only
    field_simp
    ring
  · funext c i
    change curlFnBeta (g.diffFn false) beta e c i / (I * k0) = -h c i
    rw [curlFnBeta_eq g hb, hfar]
    field_simp

/-- **C87** Conversely, every solution of the source-free discrete Maxwell equations with dependence
`exp(-i beta z)` is found: its transverse magnetic field is an eigenvector with eigenvalue `beta^2`, and
its other components are the ones the library computes. -/
theorem C87_mode_complete (g : YeeOps s) (hb : ∀ a, g.bloch a = 1) (k0 beta : ℝ) (hk : k0 ≠ 0) (hbeta : 0 < beta)
    (epsT : VField s) (he : ∀ c i, epsT c i ≠ 0) (e h : VField s)
    (hm : MaxwellZ (g.deriv false) (g.deriv true) (-1) (-I * beta) k0 epsT e h) :
    wgm2d g k0 epsT (h 0) (h 1) = (fun i => (beta : ℂ) ^ 2 * h 0 i, fun i => (beta : ℂ) ^ 2 * h 1 i) ∧
    h = fullH g ((beta : ℂ) ^ 2) (h 0, h 1) ∧ e = modeH2e g k0 epsT beta h := by
  obtain ⟨hf, ha⟩ := hm
  have hk' : (k0 : ℂ) ≠ 0 := by exact_mod_cast hk
  have hbe : (beta : ℂ) ≠ 0 := by exact_mod_cast hbeta.ne'
  have hI := I_ne_zero
  have hII : I * I = -1 := I_mul_I
  have fx : ∀ i, (g.deriv false 1 *ᵥ e 2) i - (-I * beta) * e 1 i = -1 * (I * k0 * h 0 i) := hf 0
  have fy : ∀ i, (-I * beta) * e 0 i - (g.deriv false 0 *ᵥ e 2) i = -1 * (I * k0 * h 1 i) := hf 1
  have fz : ∀ i, (g.deriv false 0 *ᵥ e 1) i - (g.deriv false 1 *ᵥ e 0) i = -1 * (I * k0 * h 2 i) := hf 2
  have ax : ∀ i, (g.deriv true 1 *ᵥ h 2) i - (-I * beta) * h 1 i = -(-1) * (I * k0 * epsT 0 i * e 0 i) := ha 0
  have ay : ∀ i, (-I * beta) * h 0 i - (g.deriv true 0 *ᵥ h 2) i = -(-1) * (I * k0 * epsT 1 i * e 1 i) := ha 1
  have az : ∀ i, (g.deriv true 0 *ᵥ h 1) i - (g.deriv true 1 *ᵥ h 0) i = -(-1) * (I * k0 * epsT 2 i * e 2 i) := ha 2
  have hdiv : ∀ i, h 2 i = 1 / (I * beta) * ((g.deriv false 0 *ᵥ h 0) i + (g.deriv false 1 *ᵥ h 1) i) := by
    intro i
    have e1 : h 0 = fun j => (-1 / (I * k0)) * (g.deriv false 1 *ᵥ e 2) j + (-I * beta / (I * k0)) * e 1 j := by
      funext j
      have := fx j
      field_simp
      linear_combination (norm := ring_nf) this
    have e2 : h 1 = fun j => (1 / (I * k0)) * (g.deriv false 0 *ᵥ e 2) j + (I * beta / (I * k0)) * e 0 j := by
      funext j
      have := fy j
      field_simp
      linear_combination (norm := ring_nf) this
    have c0 : (g.deriv false 0 *ᵥ h 0) i = (-1 / (I * k0)) * (g.deriv false 0 *ᵥ (g.deriv false 1 *ᵥ e 2)) i +
        (-I * beta / (I * k0)) * (g.deriv false 0 *ᵥ e 1) i := by
      rw [e1]; exact mulVec_lin2 _ _ _ _ _ _
    have c1 : (g.deriv false 1 *ᵥ h 1) i = (1 / (I * k0)) * (g.deriv false 1 *ᵥ (g.deriv false 0 *ᵥ e 2)) i +
        (I * beta / (I * k0)) * (g.deriv false 1 *ᵥ e 0) i := by
      rw [e2]; exact mulVec_lin2 _ _ _ _ _ _
    have hcomm : (g.deriv false 0 *ᵥ (g.deriv false 1 *ᵥ e 2)) i = (g.deriv false 1 *ᵥ (g.deriv false 0 *ᵥ e 2)) i := by
      rw [mulVec_mulVec, mulVec_mulVec, YeeOps.deriv_comm g false false (a := 0) (b := 1) (by decide)]
    rw [c0, c1, hcomm]
    have := fz i
    field_simp
    linear_combination (norm := ring_nf) I * beta * this
  have hfull : h = fullH g ((beta : ℂ) ^ 2) (h 0, h 1) := by
    funext c i
    match c with
    | 0 => rfl
    | 1 => rfl
    | 2 =>
      change h 2 i = transverseDiv (g.deriv false) (h 0) (h 1) i / (I * csqrt ((beta : ℂ) ^ 2))
      rw [csqrt_sq beta hbeta, hdiv]
      simp only [transverseDiv, Pi.add_apply]
      ring
  refine ⟨?_, hfull, ?_⟩
  · have hez : e 2 = fun i => 1 / (I * k0) * (1 / epsT 2 i * ((g.deriv true 0 *ᵥ h 1) i - (g.deriv true 1 *ᵥ h 0) i)) := by
      funext i
      have := he 2 i
      rw [az]
      field_simp
    have hF : ∀ a i, (g.deriv false a *ᵥ e 2) i = 1 / (I * k0) * (g.deriv false a *ᵥ fun i =>
        1 / epsT 2 i * ((g.deriv true 0 *ᵥ h 1) i - (g.deriv true 1 *ᵥ h 0) i)) i := by
      intro a i
      rw [hez]; exact mulVec_scale _ _ _ _
    have hB : ∀ a i, (g.deriv true a *ᵥ h 2) i = 1 / (I * beta) * (g.deriv true a *ᵥ fun i =>
        (g.deriv false 0 *ᵥ h 0) i + (g.deriv false 1 *ᵥ h 1) i) i := by
      intro a i
      rw [show h 2 = fun i => 1 / (I * beta) * ((g.deriv false 0 *ᵥ h 0) i + (g.deriv false 1 *ᵥ h 1) i) from
        funext hdiv]
      exact mulVec_scale _ _ _ _
    refine Prod.ext (funext fun i => ?_) (funext fun i => ?_)
    · rw [(wgm2d_eq g k0 epsT (h 0) (h 1) i).1]
      have h1 := fx i
      have h2 := ay i
      rw [hF] at h1
      rw [hB] at h2
      have := he 1 i
      generalize (g.deriv false 1 *ᵥ fun i => 1 / epsT 2 i * ((g.deriv true 0 *ᵥ h 1) i - (g.deriv true 1 *ᵥ h 0) i)) i = X at *
      generalize (g.deriv true 0 *ᵥ fun i => (g.deriv false 0 *ᵥ h 0) i + (g.deriv false 1 *ᵥ h 1) i) i = Y at *
      field_simp at h1 h2
      simp only [neg_mul, neg_neg, sub_neg_eq_add, one_mul] at *
      have hI3 : I ^ 2 = -1 := I_sq
      ring_nf at h1 h2 ⊢
      simp only [I_sq] at h1 h2
      linear_combination (norm := ring_nf) (-epsT 1 i) * h1 - h2
      try simp only [I_sq]
      try ring
    · rw [(wgm2d_eq g k0 epsT (h 0) (h 1) i).2]
      have h1 := fy i
      have h2 := ax i
      rw [hF] at h1
      rw [hB] at h2
      have := he 0 i
      generalize (g.deriv false 0 *ᵥ fun i => 1 / epsT 2 i * ((g.deriv true 0 *ᵥ h 1) i - (g.deriv true 1 *ᵥ h 0) i)) i = X at *
      generalize (g.deriv true 1 *ᵥ fun i => (g.deriv false 0 *ᵥ h 0) i + (g.deriv false 1 *ᵥ h 1) i) i = Y at *
      field_simp at h1 h2
      simp only [neg_mul, neg_neg, sub_neg_eq_add, one_mul] at *
      ring_nf at h1 h2 ⊢
      simp only [I_sq] at h1 h2
      linear_combination (norm := ring_nf) (-epsT 0 i) * h1 + h2
      try simp only [I_sq]
      try ring
  · funext c i
    change e c i = curlFnBeta (g.diffFn true) beta h c i / (I * k0 * epsT c i)
    rw [curlFnBeta_eq g hb, ha]
    have := he c i
    field_simp

omit [∀ a, NeZero (s a)] in
theorem wgm2d_scale (g : YeeOps s) (k0 : ℝ) (epsT : VField s) (hx hy : SField s) (c : ℂ) :
    wgm2d g k0 epsT (fun i => c * hx i) (fun i => c * hy i) =
      (fun i => c * (wgm2d g k0 epsT hx hy).1 i, fun i => c * (wgm2d g k0 epsT hx hy).2 i) := by
  have hez : (fun i => 1 / epsT 2 i * ((g.deriv true 0 *ᵥ fun i => c * hy i) i - (g.deriv true 1 *ᵥ fun i => c * hx i) i)) =
      fun i => c * (1 / epsT 2 i * ((g.deriv true 0 *ᵥ hy) i - (g.deriv true 1 *ᵥ hx) i)) := by
    funext i; rw [mulVec_scale, mulVec_scale]; ring
  have hdv : (fun i => (g.deriv false 0 *ᵥ fun i => c * hx i) i + (g.deriv false 1 *ᵥ fun i => c * hy i) i) =
      fun i => c * ((g.deriv false 0 *ᵥ hx) i + (g.deriv false 1 *ᵥ hy) i) := by
    funext i; rw [mulVec_scale, mulVec_scale]; ring
  refine Prod.ext (funext fun i => ?_) (funext fun i => ?_)
  · have h1 := (wgm2d_eq g k0 epsT (fun i => c * hx i) (fun i => c * hy i) i).1
    rw [hez, hdv, mulVec_scale, mulVec_scale] at h1
    change _ = c * (wgm2d g k0 epsT hx hy).1 i
    rw [h1, (wgm2d_eq g k0 epsT hx hy i).1]
    ring
  · have h1 := (wgm2d_eq g k0 epsT (fun i => c * hx i) (fun i => c * hy i) i).2
    rw [hez, hdv, mulVec_scale, mulVec_scale] at h1
    change _ = c * (wgm2d g k0 epsT hx hy).2 i
    rw [h1, (wgm2d_eq g k0 epsT hx hy i).2]
    ring

omit [∀ a, NeZero (s a)] in
theorem fullH_scale (g : YeeOps s) (lam c : ℂ) (hx hy : SField s) :
    fullH g lam (fun i => c * hx i, fun i => c * hy i) = fun k i => c * fullH g lam (hx, hy) k i := by
  funext k i
  match k with
  | 0 => rfl
  | 1 => rfl
  | 2 =>
    change ((g.deriv false 0 *ᵥ fun i => c * hx i) + (g.deriv false 1 *ᵥ fun i => c * hy i)) i / (I * csqrt lam) =
      c * ((g.deriv false 0 *ᵥ hx + g.deriv false 1 *ᵥ hy) i / (I * csqrt lam))
    rw [Pi.add_apply, mulVec_scale, mulVec_scale, Pi.add_apply]
    ring

/-- **C87** End to end: if the eigensolver returns eigenpairs of the mode operator with real
eigenvalues, guided ones first (see C62), then `solve` succeeds and every returned mode, with the `e`
field the library derives from it and its own propagation constant, satisfies the discrete Maxwell
equations. -/
theorem C87_solve_maxwell (argsort : List ℝ → List ℕ) (hs : IsArgsort argsort) (g : YeeOps s)
    (hb : ∀ a, g.bloch a = 1) (k0 : ℝ) (hk : k0 ≠ 0) (epsT : VField s) (he : ∀ c i, epsT c i ≠ 0)
    (vals : List ℂ) (vecs : List (SField s × SField s)) (hl : vecs.length = vals.length) (hg : GuidedFirst vals)
    (hreal : ∀ z ∈ vals, z.im = 0)
    (heig : ∀ k < vals.length, wgm2d g k0 epsT (vecs.getD k 0).1 (vecs.getD k 0).2 =
      (fun i => vals.getD k 0 * (vecs.getD k 0).1 i, fun i => vals.getD k 0 * (vecs.getD k 0).2 i)) :
    ∃ betas modes, solvePost argsort (fun lam v => vflat (fullH g lam v)) ((0 : Fin 3), (0 : GIdx s)) 0 vals vecs =
        .ok (betas, modes) ∧ betas.length = modes.length ∧
      ∀ k (h1 : k < betas.length) (h2 : k < modes.length),
        MaxwellZ (g.deriv false) (g.deriv true) (-1) (-I * betas[k]) k0 epsT
          (modeH2e g k0 epsT betas[k] fun c i => modes[k] (c, i)) (fun c i => modes[k] (c, i)) := by
  obtain ⟨betas, modes, hok, hlen, _, _, σ, _, hmem, hbs, hms⟩ :=
    C62_solve_partial argsort hs (fun lam v => vflat (fullH g lam v)) ((0 : Fin 3), (0 : GIdx s)) 0 vals vecs hl hg
  refine ⟨betas, modes, hok, hlen, fun k h1 h2 => ?_⟩
  subst hbs hms
  have hkσ : k < σ.length := by simpa using h1
  set j := σ[k] with hj
  have hjm := (hmem j).1 (List.getElem_mem hkσ)
  have hlam : vals.getD j 0 = ((Real.sqrt (vals.getD j 0).re : ℝ) : ℂ) ^ 2 := by
    have him : (vals.getD j 0).im = 0 := by
      have : vals.getD j 0 = vals[j]'hjm.1 := by
        simp [List.getD_eq_getElem?_getD, List.getElem?_eq_getElem hjm.1]
      rw [this]
      exact hreal _ (List.getElem_mem _)
    apply Complex.ext
    · rw [← ofReal_pow, ofReal_re, Real.sq_sqrt hjm.2.le]
    · rw [← ofReal_pow, ofReal_im, him]
  set b := Real.sqrt (vals.getD j 0).re with hbdef
  have hbpos : 0 < b := Real.sqrt_pos.2 hjm.2
  have hev := heig j hjm.1
  rw [hlam] at hev
  obtain ⟨-, c, -, hc⟩ := C62_phase_reference ((0 : Fin 3), (0 : GIdx s)) (vflat (fullH g (vals.getD j 0) (vecs.getD j 0)))
  have hmode : (fun (a : Fin 3) (i : GIdx s) => (List.map (fun i => rephase ((0 : Fin 3), (0 : GIdx s))
      (vflat (fullH g (vals.getD i 0) (vecs.getD i 0)))) σ)[k] (a, i)) =
      fullH g ((b : ℂ) ^ 2) (fun i => c * (vecs.getD j 0).1 i, fun i => c * (vecs.getD j 0).2 i) := by
    rw [fullH_scale]
    funext a i
    rw [List.getElem_map]
    change rephase _ (vflat (fullH g (vals.getD j 0) (vecs.getD j 0))) (a, i) = _
    rw [hc, hlam]
    rfl
  have hbk : (List.map (fun i => Real.sqrt (vals.getD i 0).re) σ)[k] = b := by
    rw [List.getElem_map]
  rw [hbk, hmode]
  refine (C87_mode_maxwell g hb k0 b hk hbpos epsT he _ _ ?_).1
  rw [wgm2d_scale, hev]
  refine Prod.ext (funext fun i => ?_) (funext fun i => ?_) <;> simp only <;> ring

/-! ### A concrete mode, and C88: one dimensional modes -/

/-- The field `1, i, -1, -i` along `x` on four cells. -/
noncomputable def quarter : SField (shapeOf 4 1 1) := fun i => I ^ (i 0 : ℕ)

theorem quarter_next (i : GIdx (shapeOf 4 1 1)) : quarter (Function.update i 0 (i 0 + 1)) = I * quarter i := by
  have hi : ((i 0 : Fin 4) : ℕ) < 4 := (i 0).isLt
  have hup : ((Function.update i 0 (i 0 + 1) 0 : Fin 4) : ℕ) = if ((i 0 : Fin 4) : ℕ) + 1 = 4 then 0 else ((i 0 : Fin 4) : ℕ) + 1 := by
    rw [Function.update_self]
    exact fin_val_add_one (i 0)
  change I ^ ((Function.update i 0 (i 0 + 1) 0 : Fin 4) : ℕ) = I * I ^ ((i 0 : Fin 4) : ℕ)
  rw [hup]
  split_ifs with h
  · have : ((i 0 : Fin 4) : ℕ) = 3 := by omega
    rw [this, ← pow_succ', I_pow_four, pow_zero]
  · rw [pow_succ']

theorem quarter_prev (i : GIdx (shapeOf 4 1 1)) : quarter (Function.update i 0 (i 0 - 1)) = -I * quarter i := by
  have := quarter_next (Function.update i 0 (i 0 - 1))
  rw [Function.update_idem, Function.update_self, sub_add_cancel, Function.update_eq_self] at this
  rw [this, ← mul_assoc, show -I * I = 1 by rw [neg_mul, I_mul_I, neg_neg], one_mul]

noncomputable abbrev g4 : YeeOps (shapeOf 4 1 1) := uniformOps (shapeOf 4 1 1) (fun _ => 1) (fun _ => 1)

theorem quarter_fwd (i : GIdx (shapeOf 4 1 1)) : (g4.deriv false 0 *ᵥ quarter) i = (I - 1) * quarter i := by
  rw [YeeOps.deriv_forward_mulVec]
  change (wrapFac _ 1 (i 0) * quarter (Function.update i 0 (i 0 + 1)) - quarter i) / ((1 : ℝ) : ℂ) = _
  rw [wrapFac_one, quarter_next]
  push_cast; ring

theorem quarter_bwd (i : GIdx (shapeOf 4 1 1)) : (g4.deriv true 0 *ᵥ quarter) i = (1 + I) * quarter i := by
  rw [YeeOps.deriv_backward_mulVec]
  change (quarter i - (starRingEnd ℂ) (wrapFac _ 1 (i 0 - 1)) * quarter (Function.update i 0 (i 0 - 1))) / ((1 : ℝ) : ℂ) = _
  rw [wrapFac_one, quarter_prev, map_one]
  push_cast; ring

/-- The hypotheses of C87 are met: `hy = 1, i, -1, -i` on four cells in vacuum, `k0 = 3/2`, `beta = 1/2`. -/
theorem quarter_mode2d : wgm2d g4 (3 / 2) (fun _ _ => 1) 0 quarter =
    (fun i => ((1 / 2 : ℝ) : ℂ) ^ 2 * (0 : SField _) i, fun i => ((1 / 2 : ℝ) : ℂ) ^ 2 * quarter i) := by
  have h1 : ∀ p, g4.deriv p 1 = 0 := fun p => deriv_one_cell g4 p 1 rfl
  have hez : (fun i => 1 / (1 : ℂ) * ((g4.deriv true 0 *ᵥ quarter) i - (g4.deriv true 1 *ᵥ (0 : SField _)) i)) =
      fun i => (1 + I) * quarter i := by
    funext i; rw [quarter_bwd, h1, zero_mulVec]; simp
  have hdv : (fun i => (g4.deriv false 0 *ᵥ (0 : SField _)) i + (g4.deriv false 1 *ᵥ quarter) i) = 0 := by
    funext i; rw [h1, zero_mulVec, mulVec_zero]; simp
  refine Prod.ext (funext fun i => ?_) (funext fun i => ?_)
  · have h := (wgm2d_eq g4 (3 / 2) (fun _ _ => 1) 0 quarter i).1
    rw [hez, hdv, h1, zero_mulVec, mulVec_zero] at h
    rw [h]; simp
  · have h := (wgm2d_eq g4 (3 / 2) (fun _ _ => 1) 0 quarter i).2
    rw [hez, hdv, mulVec_zero, mulVec_scale, quarter_fwd] at h
    rw [h]
    push_cast
    rw [Pi.zero_apply]
    have : I ^ 2 = -1 := I_sq
    linear_combination quarter i * this

example : MaxwellZ (g4.deriv false) (g4.deriv true) (-1) (-I * ((1 / 2 : ℝ) : ℂ)) (3 / 2) (fun _ _ => 1)
    (modeH2e g4 (3 / 2) (fun _ _ => 1) ((1 / 2 : ℝ) : ℂ) (fullH g4 (((1 / 2 : ℝ) : ℂ) ^ 2) (0, quarter)))
    (fullH g4 (((1 / 2 : ℝ) : ℂ) ^ 2) (0, quarter)) :=
  (C87_mode_maxwell g4 (fun _ => rfl) (3 / 2) (1 / 2) (by norm_num) (by norm_num) _ (fun _ _ => one_ne_zero) 0 quarter
    quarter_mode2d).1

/-- **C88, partial** The TE fields of a one dimensional mode satisfy the discrete Maxwell equations for
`exp(i beta z)` (time convention `σ = -1`) with the scalar permittivity, but on the mirrored lattice: the
backward difference acts on `e` and the forward difference on `h`. -/
theorem C88_te_partial (spacing : Fin 3 → ℝ) (hz : s 1 = 1) (k0 beta : ℝ) (hk : k0 ≠ 0) (eps : SField s)
    (epsT : VField s) (he : epsT 1 = eps) (u : SField s)
    (hev : wgm1d (uniformOps s (fun _ => 1) spacing) k0 eps u = fun i => (beta : ℂ) ^ 2 * u i) :
    MaxwellZ ((uniformOps s (fun _ => 1) spacing).deriv true) ((uniformOps s (fun _ => 1) spacing).deriv false)
      (-1) (I * beta) k0 epsT ![0, u, 0] (ModeLib.hTE (uniformOps s (fun _ => 1) spacing) k0 beta u) := by
  set g := uniformOps s (fun _ => 1) spacing with hgdef
  have hb : ∀ a, g.bloch a = 1 := fun _ => rfl
  have hk' : (k0 : ℂ) ≠ 0 := by exact_mod_cast hk
  have hI := I_ne_zero
  have h1 : ∀ p, g.deriv p 1 = 0 := fun p => deriv_one_cell g p 1 hz
  have hB : ∀ i, (u i - rollFwd 0 u i) / g.dx false 0 (i 0) = (g.deriv true 0 *ᵥ u) i := by
    intro i
    rw [← YeeOps.diffFn_eq g hb]
    rfl
  have hh2 : (ModeLib.hTE g k0 beta u) 2 = fun i => (-1 / (I * k0)) * (g.deriv true 0 *ᵥ u) i := by
    funext i
    change -(u i - rollFwd 0 u i) / g.dx false 0 (i 0) / (I * k0) = _
    rw [neg_div, hB]
    ring
  have hh0 : (ModeLib.hTE g k0 beta u) 0 = fun i => (I * beta / (I * k0)) * u i := by
    funext i
    change I * beta * u i / (I * k0) = _
    ring
  have hev' : ∀ i, eps i * (k0 : ℂ) ^ 2 * u i + (g.deriv false 0 *ᵥ (g.deriv true 0 *ᵥ u)) i = (beta : ℂ) ^ 2 * u i :=
    fun i => congrFun hev i
  constructor
  · intro c i
    match c with
    | 0 =>
      change (g.deriv true 1 *ᵥ (0 : SField s)) i - I * beta * u i = -1 * (I * k0 * (ModeLib.hTE g k0 beta u) 0 i)
      rw [hh0, mulVec_zero]
      simp only [Pi.zero_apply]
      field_simp
      ring
    | 1 =>
      change I * beta * (0 : SField s) i - (g.deriv true 0 *ᵥ (0 : SField s)) i = -1 * (I * k0 * (0 : SField s) i)
      rw [mulVec_zero]; simp
    | 2 =>
      change (g.deriv true 0 *ᵥ u) i - (g.deriv true 1 *ᵥ (0 : SField s)) i = -1 * (I * k0 * (ModeLib.hTE g k0 beta u) 2 i)
      rw [hh2, mulVec_zero]
      simp only [Pi.zero_apply]
      field_simp
      ring
  · intro c i
    match c with
    | 0 =>
      change (g.deriv false 1 *ᵥ (ModeLib.hTE g k0 beta u) 2) i - I * beta * (0 : SField s) i = -(-1) * (I * k0 * epsT 0 i * (0 : SField s) i)
      rw [h1, zero_mulVec]; simp
    | 1 =>
      change I * beta * (ModeLib.hTE g k0 beta u) 0 i - (g.deriv false 0 *ᵥ (ModeLib.hTE g k0 beta u) 2) i = -(-1) * (I * k0 * epsT 1 i * u i)
      rw [hh0, hh2, mulVec_scale, he]
      have := hev' i
      field_simp
      ring_nf
      simp only [I_sq]
      linear_combination this
    | 2 =>
      change (g.deriv false 0 *ᵥ (0 : SField s)) i - (g.deriv false 1 *ᵥ (ModeLib.hTE g k0 beta u) 0) i = -(-1) * (I * k0 * epsT 2 i * (0 : SField s) i)
      rw [h1, zero_mulVec, mulVec_zero]; simp

/-- **C88, partial** In a uniform medium the TM fields of a one dimensional mode satisfy the discrete
Maxwell equations for `exp(i beta z)` (time convention `σ = 1`) on the mirrored lattice. -/
theorem C88_tm_partial (spacing : Fin 3 → ℝ) (hz : s 1 = 1) (k0 beta : ℝ) (hk : k0 ≠ 0) (c : ℂ) (hc : c ≠ 0)
    (u : SField s)
    (hev : wgm1d (uniformOps s (fun _ => 1) spacing) k0 (fun _ => c) u = fun i => (beta : ℂ) ^ 2 * u i) :
    MaxwellZ ((uniformOps s (fun _ => 1) spacing).deriv true) ((uniformOps s (fun _ => 1) spacing).deriv false)
      1 (I * beta) k0 (fun _ _ => c)
      (ModeLib.eTM (uniformOps s (fun _ => 1) spacing) k0 beta (fun _ _ => c) u) ![0, u, 0] := by
  set g := uniformOps s (fun _ => 1) spacing with hgdef
  have hb : ∀ a, g.bloch a = 1 := fun _ => rfl
  have hk' : (k0 : ℂ) ≠ 0 := by exact_mod_cast hk
  have hI := I_ne_zero
  have h1 : ∀ p, g.deriv p 1 = 0 := fun p => deriv_one_cell g p 1 hz
  have hF : ∀ i, (rollBack 0 u i - u i) / g.dx false 0 (i 0) = (g.deriv false 0 *ᵥ u) i := by
    intro i
    rw [← YeeOps.diffFn_eq g hb]
    rfl
  set e := ModeLib.eTM g k0 beta (fun _ _ => c) u with hedef
  have he2 : e 2 = fun i => (-1 / (I * k0 * c)) * (g.deriv false 0 *ᵥ u) i := by
    funext i
    change -(rollBack 0 u i - u i) / g.dx false 0 (i 0) / (I * k0 * c) = _
    rw [neg_div, hF]
    ring
  have he0 : e 0 = fun i => (I * beta / (I * k0 * c)) * u i := by
    funext i
    change I * beta * u i / (I * k0 * c) = _
    ring
  have hev' : ∀ i, c * (k0 : ℂ) ^ 2 * u i + (g.deriv false 0 *ᵥ (g.deriv true 0 *ᵥ u)) i = (beta : ℂ) ^ 2 * u i :=
    fun i => congrFun hev i
  constructor
  · intro k i
    match k with
    | 0 =>
      change (g.deriv true 1 *ᵥ e 2) i - I * beta * (0 : SField s) i = 1 * (I * k0 * (0 : SField s) i)
      rw [h1, zero_mulVec]; simp
    | 1 =>
      change I * beta * e 0 i - (g.deriv true 0 *ᵥ e 2) i = 1 * (I * k0 * u i)
      rw [he0, he2, mulVec_scale, mulVec_mulVec]
      have h2 := hev' i
      rw [mulVec_mulVec, ← deriv_fb_comm] at h2
      field_simp
      ring_nf
      simp only [I_sq]
      linear_combination h2
    | 2 =>
      change (g.deriv true 0 *ᵥ (0 : SField s)) i - (g.deriv true 1 *ᵥ e 0) i = 1 * (I * k0 * (0 : SField s) i)
      rw [h1, zero_mulVec, mulVec_zero]; simp
  · intro k i
    match k with
    | 0 =>
      change (g.deriv false 1 *ᵥ (0 : SField s)) i - I * beta * u i = -1 * (I * k0 * c * e 0 i)
      rw [he0, mulVec_zero]
      simp only [Pi.zero_apply]
      field_simp
      ring
    | 1 =>
      change I * beta * (0 : SField s) i - (g.deriv false 0 *ᵥ (0 : SField s)) i = -1 * (I * k0 * c * (0 : SField s) i)
      rw [mulVec_zero]; simp
    | 2 =>
      change (g.deriv false 0 *ᵥ u) i - (g.deriv false 1 *ᵥ (0 : SField s)) i = -1 * (I * k0 * c * e 2 i)
      rw [he2, mulVec_zero]
      simp only [Pi.zero_apply]
      field_simp
      ring

theorem quarter_mode1d : wgm1d g4 (3 / 2) (fun _ => 1) quarter = fun i => ((1 / 2 : ℝ) : ℂ) ^ 2 * quarter i := by
  funext i
  have h : (g4.deriv true 0 *ᵥ quarter) = fun i => (1 + I) * quarter i := funext quarter_bwd
  change (1 : ℂ) * ((3 / 2 : ℝ) : ℂ) ^ 2 * quarter i + (g4.deriv false 0 *ᵥ (g4.deriv true 0 *ᵥ quarter)) i = _
  rw [h, mulVec_scale, quarter_fwd]
  push_cast
  have : I ^ 2 = -1 := I_sq
  linear_combination quarter i * this

/-- The hypotheses of the two partial theorems are met by this mode. -/
example : MaxwellZ (g4.deriv true) (g4.deriv false) (-1) (I * ((1 / 2 : ℝ) : ℂ)) (3 / 2) (fun _ _ => 1) ![0, quarter, 0]
      (ModeLib.hTE g4 (3 / 2) (1 / 2) quarter) ∧
    MaxwellZ (g4.deriv true) (g4.deriv false) 1 (I * ((1 / 2 : ℝ) : ℂ)) (3 / 2) (fun _ _ => 1)
      (ModeLib.eTM g4 (3 / 2) (1 / 2) (fun _ _ => 1) quarter) ![0, quarter, 0] :=
  ⟨C88_te_partial (fun _ => 1) rfl _ _ (by norm_num) (fun _ => 1) _ rfl _ quarter_mode1d,
   C88_tm_partial (fun _ => 1) rfl _ _ (by norm_num) 1 one_ne_zero _ quarter_mode1d⟩

/-- **C88, violated**: on the grid's own lattice (forward differences on `e`, backward on `h`) neither
polarisation of this mode satisfies the discrete Maxwell equations, for any propagation direction and
either time convention. -/
theorem C88_lattice_counterexample (σ dz : ℂ) (hσ : σ = 1 ∨ σ = -1) :
    wgm1d g4 (3 / 2) (fun _ => 1) quarter = (fun i => ((1 / 2 : ℝ) : ℂ) ^ 2 * quarter i) ∧
    ¬ MaxwellZ (g4.deriv false) (g4.deriv true) σ dz (3 / 2) (fun _ _ => 1) ![0, quarter, 0]
      (ModeLib.hTE g4 (3 / 2) (1 / 2) quarter) ∧
    ¬ MaxwellZ (g4.deriv false) (g4.deriv true) σ dz (3 / 2) (fun _ _ => 1)
      (ModeLib.eTM g4 (3 / 2) (1 / 2) (fun _ _ => 1) quarter) ![0, quarter, 0] := by
  refine ⟨quarter_mode1d, fun h => ?_, fun h => ?_⟩
  · have h2 := h.1 2 0
    change (g4.deriv false 0 *ᵥ quarter) 0 - (g4.deriv false 1 *ᵥ (0 : SField _)) 0 =
      σ * (I * ((3 / 2 : ℝ) : ℂ) * (-(quarter 0 - rollFwd 0 quarter 0) / ((1 : ℝ) : ℂ) / (I * ((3 / 2 : ℝ) : ℂ)))) at h2
    rw [quarter_fwd, mulVec_zero] at h2
    have hr : rollFwd 0 quarter 0 = -I * quarter 0 := quarter_prev 0
    have hq : quarter 0 = 1 := by simp [quarter]
    rw [hr, hq] at h2
    have hI := I_ne_zero
    rcases hσ with rfl | rfl
    · have := congrArg Complex.re h2
      push_cast at h2
      field_simp at h2
      have := congrArg Complex.im h2
      simp at this
      norm_num at this
    · push_cast at h2
      field_simp at h2
      have := congrArg Complex.re h2
      simp at this
      norm_num at this
  · have h2 := h.2 2 0
    change (g4.deriv true 0 *ᵥ quarter) 0 - (g4.deriv true 1 *ᵥ (0 : SField _)) 0 =
      -σ * (I * ((3 / 2 : ℝ) : ℂ) * 1 * (-(rollBack 0 quarter 0 - quarter 0) / ((1 : ℝ) : ℂ) / (I * ((3 / 2 : ℝ) : ℂ) * 1))) at h2
    rw [quarter_bwd, mulVec_zero] at h2
    have hr : rollBack 0 quarter 0 = I * quarter 0 := quarter_next 0
    have hq : quarter 0 = 1 := by simp [quarter]
    rw [hr, hq] at h2
    have hI := I_ne_zero
    rcases hσ with rfl | rfl
    · push_cast at h2
      field_simp at h2
      have := congrArg Complex.re h2
      simp at this
      norm_num at this
    · push_cast at h2
      field_simp at h2
      have := congrArg Complex.im h2
      simp at this
      norm_num at this

/-! A mode of a non-uniform medium: two unit cells with permittivities 2 and 5, `k0 = 1`, `beta = 2`. -/

noncomputable abbrev g2 : YeeOps (shapeOf 2 1 1) := uniformOps (shapeOf 2 1 1) (fun _ => 1) (fun _ => 1)

/-- The profile `(1, 2)` and the permittivity `(2, 5)`. -/
noncomputable def twoMode : SField (shapeOf 2 1 1) := fun i => if (i 0 : ℕ) = 0 then 1 else 2
noncomputable def twoEps : SField (shapeOf 2 1 1) := fun i => if (i 0 : ℕ) = 0 then 2 else 5

/-- The two indices of the grid. -/
def ix0 : GIdx (shapeOf 2 1 1) := fun _ => 0
def ix1 : GIdx (shapeOf 2 1 1) := Function.update ix0 0 (0 + 1)

theorem two_cases (i : GIdx (shapeOf 2 1 1)) : i = ix0 ∨ i = ix1 := by
  revert i; unfold ix0 ix1; decide

theorem ix0_next : Function.update ix0 0 (ix0 0 + 1) = ix1 := rfl
theorem ix1_next : Function.update ix1 0 (ix1 0 + 1) = ix0 := by decide
theorem ix0_prev : Function.update ix0 0 (ix0 0 - 1) = ix1 := by decide
theorem ix1_prev : Function.update ix1 0 (ix1 0 - 1) = ix0 := by decide

theorem g2_fwd (f : SField (shapeOf 2 1 1)) :
    (g2.deriv false 0 *ᵥ f) ix0 = f ix1 - f ix0 ∧ (g2.deriv false 0 *ᵥ f) ix1 = f ix0 - f ix1 := by
  constructor
  · rw [YeeOps.deriv_forward_mulVec, ix0_next]
    change (wrapFac _ 1 (ix0 0) * f ix1 - f ix0) / ((1 : ℝ) : ℂ) = _
    rw [wrapFac_one]; push_cast; ring
  · rw [YeeOps.deriv_forward_mulVec, ix1_next]
    change (wrapFac _ 1 (ix1 0) * f ix0 - f ix1) / ((1 : ℝ) : ℂ) = _
    rw [wrapFac_one]; push_cast; ring

theorem g2_bwd (f : SField (shapeOf 2 1 1)) :
    (g2.deriv true 0 *ᵥ f) ix0 = f ix0 - f ix1 ∧ (g2.deriv true 0 *ᵥ f) ix1 = f ix1 - f ix0 := by
  constructor
  · rw [YeeOps.deriv_backward_mulVec, ix0_prev]
    change (f ix0 - (starRingEnd ℂ) (wrapFac _ 1 (ix0 0 - 1)) * f ix1) / ((1 : ℝ) : ℂ) = _
    rw [wrapFac_one, map_one]; push_cast; ring
  · rw [YeeOps.deriv_backward_mulVec, ix1_prev]
    change (f ix1 - (starRingEnd ℂ) (wrapFac _ 1 (ix1 0 - 1)) * f ix0) / ((1 : ℝ) : ℂ) = _
    rw [wrapFac_one, map_one]; push_cast; ring

theorem twoMode_val : twoMode ix0 = 1 ∧ twoMode ix1 = 2 ∧ twoEps ix0 = 2 ∧ twoEps ix1 = 5 := by
  refine ⟨if_pos rfl, if_neg ?_, if_pos rfl, if_neg ?_⟩ <;> · unfold ix1; decide

theorem twoMode_mode : wgm1d g2 1 twoEps twoMode = fun i => ((2 : ℝ) : ℂ) ^ 2 * twoMode i := by
  obtain ⟨v0, v1, e0, e1⟩ := twoMode_val
  funext i
  change twoEps i * ((1 : ℝ) : ℂ) ^ 2 * twoMode i + (g2.deriv false 0 *ᵥ (g2.deriv true 0 *ᵥ twoMode)) i = _
  rcases two_cases i with rfl | rfl
  · rw [(g2_fwd _).1, (g2_bwd _).1, (g2_bwd _).2, v0, v1, e0]; norm_num
  · rw [(g2_fwd _).2, (g2_bwd _).1, (g2_bwd _).2, v0, v1, e1]; norm_num

/-- **C88, violated**: in a non-uniform medium the TM fields of a mode found by the solver satisfy the
discrete Maxwell equations with the averaged permittivity `eps_t` on no lattice (any choice of forward or
backward differences for `e` and for `h`), in no direction and with neither time convention: the one
dimensional operator lacks the TM permittivity weighting. -/
theorem C88_tm_counterexample (pe ph : Bool) (σ dz : ℂ) (hσ : σ = 1 ∨ σ = -1) :
    wgm1d g2 1 twoEps twoMode = (fun i => ((2 : ℝ) : ℂ) ^ 2 * twoMode i) ∧
    ¬ MaxwellZ (g2.deriv pe) (g2.deriv ph) σ dz 1 (yeeAvgG twoEps)
      (ModeLib.eTM g2 1 2 (yeeAvgG twoEps) twoMode) ![0, twoMode, 0] := by
  refine ⟨twoMode_mode, fun h => ?_⟩
  obtain ⟨v0, v1, e0, e1⟩ := twoMode_val
  have hI := I_ne_zero
  have hroll1 : ∀ (f : SField (shapeOf 2 1 1)) i, rollFwd 1 f i = f i := by
    intro f i
    have : Function.update i 1 (i 1 - 1) = i := by
      funext a
      by_cases ha : a = 1
      · subst ha; exact Subsingleton.elim (α := Fin 1) _ _
      · rw [Function.update_of_ne ha]
    simp only [rollFwd, this]
  -- the averaged permittivity
  have ex : ∀ i, yeeAvgG twoEps 0 i = twoEps i := by
    intro i
    change (twoEps i + rollFwd 1 twoEps i) / 2 = _
    rw [hroll1]; ring
  have ez : ∀ i, yeeAvgG twoEps 2 i = 7 / 2 := by
    intro i
    change ((twoEps i + rollFwd 0 twoEps i) / 2 + rollFwd 1 (fun i => (twoEps i + rollFwd 0 twoEps i) / 2) i) / 2 = _
    rw [hroll1]
    rcases two_cases i with rfl | rfl
    · simp only [rollFwd]; rw [ix0_prev, e0, e1]; norm_num
    · simp only [rollFwd]; rw [ix1_prev, e0, e1]; norm_num
  set e := ModeLib.eTM g2 1 2 (yeeAvgG twoEps) twoMode with hedef
  have he0 : e 0 ix0 = 1 := by
    change I * ((2 : ℝ) : ℂ) * twoMode ix0 / (I * ((1 : ℝ) : ℂ) * yeeAvgG twoEps 0 ix0) = 1
    rw [ex, v0, e0]; push_cast; field_simp
  have he2 : e 2 ix0 = -1 / (I * (7 / 2)) ∧ e 2 ix1 = 1 / (I * (7 / 2)) := by
    constructor
    · change -(twoMode (Function.update ix0 0 (ix0 0 + 1)) - twoMode ix0) / ((1 : ℝ) : ℂ) / (I * ((1 : ℝ) : ℂ) * yeeAvgG twoEps 2 ix0) = _
      rw [ix0_next, ez, v0, v1]; norm_num
    · change -(twoMode (Function.update ix1 0 (ix1 0 + 1)) - twoMode ix1) / ((1 : ℝ) : ℂ) / (I * ((1 : ℝ) : ℂ) * yeeAvgG twoEps 2 ix1) = _
      rw [ix1_next, ez, v0, v1]; norm_num
  -- Ampère along x fixes `dz`
  have a0 := h.2 0 ix0
  change (g2.deriv ph 1 *ᵥ (0 : SField _)) ix0 - dz * twoMode ix0 = -σ * (I * ((1 : ℝ) : ℂ) * yeeAvgG twoEps 0 ix0 * e 0 ix0) at a0
  rw [mulVec_zero, he0, ex, v0, e0] at a0
  have hdz : dz = σ * (I * 2) := by
    push_cast at a0
    rw [Pi.zero_apply] at a0
    linear_combination -a0
  -- Faraday along y
  have f1 := h.1 1 ix0
  change dz * e 0 ix0 - (g2.deriv pe 0 *ᵥ e 2) ix0 = σ * (I * ((1 : ℝ) : ℂ) * twoMode ix0) at f1
  rw [he0, v0, hdz] at f1
  cases pe
  · rw [(g2_fwd _).1, he2.1, he2.2] at f1
    push_cast at f1
    field_simp at f1
    rcases hσ with rfl | rfl
    · have := congrArg Complex.re f1; simp [pow_two] at this; norm_num at this
    · have := congrArg Complex.re f1; simp [pow_two] at this; norm_num at this
  · rw [(g2_bwd _).1, he2.1, he2.2] at f1
    push_cast at f1
    field_simp at f1
    rcases hσ with rfl | rfl
    · have := congrArg Complex.re f1; simp [pow_two] at this; norm_num at this
    · have := congrArg Complex.re f1; simp [pow_two] at this; norm_num at this

/-- **C88, violated**: the TE fields of a mode carry their flux in the `-z` direction (or none at all)
whereas the TM fields of the same mode carry it in the `+z` direction (`C63_tm_flux`). -/
theorem C88_te_flux_counterexample (g : YeeOps s) (k0 beta : ℝ) (hk : 0 < k0) (hb : 0 < beta) (u : SField s) :
    ∃ p : ℝ, 0 ≤ p ∧ ∑ i, poyntingZ ![0, u, 0] (ModeLib.hTE g k0 beta u) i = -(p : ℂ) := by
  refine ⟨∑ i, beta / k0 * normSq ((u i + rollFwd 0 u i) / 2),
    Finset.sum_nonneg fun i _ => mul_nonneg (div_nonneg hb.le hk.le) (normSq_nonneg _), ?_⟩
  push_cast
  rw [← Finset.sum_neg_distrib]
  refine Finset.sum_congr rfl fun i _ => ?_
  have hk' : (k0 : ℂ) ≠ 0 := by exact_mod_cast hk.ne'
  have hI := I_ne_zero
  have e1 : ∀ x : ℂ, I * beta * x / (I * k0) = ((beta / k0 : ℝ) : ℂ) * x := by
    intro x; push_cast; field_simp
  change ((0 : SField s) i + rollFwd 1 (0 : SField s) i) / 2 * (starRingEnd ℂ) (((0 : SField s) i + rollFwd 1 (0 : SField s) i) / 2)
    - (u i + rollFwd 0 u i) / 2 * (starRingEnd ℂ) ((I * beta * u i / (I * k0) + I * beta * u (Function.update i 0 (i 0 - 1)) / (I * k0)) / 2) = _
  have h0 : ((0 : SField s) i + rollFwd 1 (0 : SField s) i) / 2 = 0 := by simp [rollFwd]
  rw [h0, e1, e1, zero_mul, zero_sub, normSq_eq_conj_mul_self]
  simp only [map_div₀, map_add, map_mul, conj_ofReal, rollFwd]
  push_cast
  ring

end Simphox
