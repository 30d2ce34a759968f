import Mathlib.Analysis.SpecialFunctions.Trigonometric.Bounds
import Mathlib.Analysis.Real.Pi.Bounds
import Verif.PlaneWave

/-!
# Resolution: how far plane waves on the grid are from plane waves in space (C191)
-/

namespace Simphox

open Complex Matrix

variable {s : Fin 3 → ℕ} [∀ a, NeZero (s a)]

/-! ### Specification -/

/-- The squared wave number in space of a wave whose phase advances by `κ_a` per cell of length `dx_a`: `sum_a (κ_a / dx_a)^2`. -/
noncomputable def waveNumberSq (spacing κ : Fin 3 → ℝ) : ℝ := ∑ a, (κ a / spacing a) ^ 2

/-! ### Lemmas -/

/-- The sine of half a phase advance, squared. -/
theorem sin_half_sq {x θ : ℝ} (hx : |x| ≤ θ) (hθ : θ ≤ Real.pi) :
    (1 - θ ^ 2 / 12) * x ^ 2 ≤ (2 * Real.sin (x / 2)) ^ 2 ∧ (2 * Real.sin (x / 2)) ^ 2 ≤ x ^ 2 := by
  have key : ∀ y : ℝ, 0 ≤ y → y ≤ θ → (1 - θ ^ 2 / 12) * y ^ 2 ≤ (2 * Real.sin (y / 2)) ^ 2 ∧ (2 * Real.sin (y / 2)) ^ 2 ≤ y ^ 2 := by
    intro y hy hyθ
    have hpi := Real.pi_lt_d2
    have hy2 : y ≤ 3.15 := by linarith
    have h1 := Real.sin_ge_sub_cube (x := y / 2) (by positivity)
    have h2 := Real.sin_le (x := y / 2) (by positivity)
    have hsq : y ^ 2 ≤ θ ^ 2 := by nlinarith
    have hlow : 0 ≤ y - y ^ 3 / 24 := by
      have : y - y ^ 3 / 24 = y * (1 - y ^ 2 / 24) := by ring
      rw [this]
      refine mul_nonneg hy ?_
      nlinarith
    have h1' : y - y ^ 3 / 24 ≤ 2 * Real.sin (y / 2) := by
      have : (y / 2) ^ 3 / 6 = y ^ 3 / 48 := by ring
      rw [this] at h1
      linarith
    have h2' : 2 * Real.sin (y / 2) ≤ y := by linarith
    constructor
    · have ha : (y - y ^ 3 / 24) ^ 2 ≤ (2 * Real.sin (y / 2)) ^ 2 := pow_le_pow_left₀ hlow h1' 2
      refine le_trans ?_ ha
      have e : (y - y ^ 3 / 24) ^ 2 = (1 - y ^ 2 / 12) * y ^ 2 + (y ^ 3 / 24) ^ 2 := by ring
      rw [e]
      have : (1 - θ ^ 2 / 12) * y ^ 2 ≤ (1 - y ^ 2 / 12) * y ^ 2 := mul_le_mul_of_nonneg_right (by linarith) (by positivity)
      have h0 : 0 ≤ (y ^ 3 / 24) ^ 2 := by positivity
      linarith
    · exact pow_le_pow_left₀ (hlow.trans h1') h2' 2
  rcases le_total 0 x with h | h
  · exact key x h (by rwa [abs_of_nonneg h] at hx)
  · have := key (-x) (by linarith) (by rwa [abs_of_nonpos h] at hx)
    have e : Real.sin (-x / 2) = -Real.sin (x / 2) := by rw [neg_div, Real.sin_neg]
    rw [e] at this
    have e2 : (2 * -Real.sin (x / 2)) ^ 2 = (2 * Real.sin (x / 2)) ^ 2 := by ring
    rwa [e2, neg_sq] at this

/-! ### C191 -/

/-- C191, the grid's wave number: on a uniform grid a wave whose phase advances by at most `θ ≤ π` per cell along every axis has a squared
wave number on the grid that is at most the one in space, and smaller by at most the fraction `θ²/12`. -/
theorem C191_wave_number (spacing κ : Fin 3 → ℝ) (θ : ℝ) (hθ : θ ≤ Real.pi) (hκ : ∀ a, |κ a| ≤ θ) :
    (1 - θ ^ 2 / 12) * waveNumberSq spacing κ ≤ gridWaveNumberSq spacing κ ∧ gridWaveNumberSq spacing κ ≤ waveNumberSq spacing κ := by
  unfold waveNumberSq gridWaveNumberSq
  have h : ∀ a, (1 - θ ^ 2 / 12) * (κ a / spacing a) ^ 2 ≤ (2 / spacing a * Real.sin (κ a / 2)) ^ 2 ∧
      (2 / spacing a * Real.sin (κ a / 2)) ^ 2 ≤ (κ a / spacing a) ^ 2 := by
    intro a
    obtain ⟨h1, h2⟩ := sin_half_sq (hκ a) hθ
    have e : (2 / spacing a * Real.sin (κ a / 2)) ^ 2 = (2 * Real.sin (κ a / 2)) ^ 2 / spacing a ^ 2 := by
      rw [div_mul_eq_mul_div, div_pow]
    rw [e, div_pow, mul_div_assoc']
    exact ⟨div_le_div_of_nonneg_right h1 (sq_nonneg _), div_le_div_of_nonneg_right h2 (sq_nonneg _)⟩
  constructor
  · rw [Finset.mul_sum]
    exact Finset.sum_le_sum fun a _ => (h a).1
  · exact Finset.sum_le_sum fun a _ => (h a).2

/-- C191, FDTD: with the time step the constructor chooses, in a homogeneous medium of permittivity `eps ≥ 1`, every transverse plane wave whose
phase advances by at most `θ ≤ π` per cell oscillates at a frequency that differs from the true one, `|k| / √eps`, by at most the fraction `θ²/6`
(20 cells per wavelength: 1.7 percent), in every direction and polarisation. -/
theorem C191_fdtd_frequency (ndim : ℕ) (hnd : 0 < ndim) (spacing : Fin 3 → ℝ) (hs : ∀ a, 0 < spacing a)
    (hcells : ∀ a : Fin 3, ndim ≤ a → s a = 1) (eps : ℝ) (heps : 1 ≤ eps) (jax : Bool) (κ : Fin 3 → ℝ)
    (hκ : FitsGrid s (fun _ => 1) κ) (e : Fin 3 → ℂ) (he : e ≠ 0) (ht : Transverse spacing κ e) (θ : ℝ) (hθ : θ ≤ Real.pi) (hκθ : ∀ a, |κ a| ≤ θ) :
    let F := plainFdtd (s := s) ndim (fun _ => 1) spacing (fun _ => eps)
    ∀ ω : ℝ, 0 ≤ ω → ω ≤ Real.pi / F.dt → (∃ h : Fin 3 → ℂ, Oscillates F jax ω (fun _ => []) (waveState F κ e h)) →
      |ω - Real.sqrt (waveNumberSq spacing κ / eps)| ≤ θ ^ 2 / 6 * Real.sqrt (waveNumberSq spacing κ / eps) := by
  intro F ω hω0 hω1 hosc
  have hsum : 0 < ∑ a : Fin 3, (if (a : ℕ) < ndim then 1 / spacing a ^ 2 else 0) := by
    refine Finset.sum_pos' (fun a _ => ?_) ⟨0, Finset.mem_univ _, ?_⟩
    · split_ifs
      · have := hs a; positivity
      · exact le_refl 0
    · rw [if_pos (by simpa using hnd)]
      have := hs 0; positivity
  have hdt : 0 < F.dt := by
    change 0 < 1 / Real.sqrt _
    have := Real.sqrt_pos.2 hsum
    positivity
  have hdt2 : F.dt ^ 2 * (∑ a : Fin 3, (if (a : ℕ) < ndim then 1 / spacing a ^ 2 else 0)) = 1 := by
    change (1 / Real.sqrt _) ^ 2 * _ = 1
    rw [div_pow, Real.sq_sqrt hsum.le]
    field_simp
  have hE : ∀ c i, F.epsT c i = (eps : ℂ) := by
    intro c i
    change yeeAvgG (fun _ => (eps : ℂ)) c i = eps
    match c with
    | 0 => change ((eps : ℂ) + eps) / 2 = eps; ring
    | 1 => change ((eps : ℂ) + eps) / 2 = eps; ring
    | 2 => change (((eps : ℂ) + eps) / 2 + (eps + eps) / 2) / 2 = eps; ring
  have hepsC : (eps : ℂ) ≠ 0 := by
    have : eps ≠ 0 := by linarith
    exact_mod_cast this
  have hdis := (C140_fdtd_dispersion F rfl spacing (fun a => (hs a).ne') rfl eps hepsC hE hdt.ne' jax κ hκ ω e he ht).1 hosc
  have hdis' : eps * (2 / F.dt * Real.sin (ω * F.dt / 2)) ^ 2 = gridWaveNumberSq spacing κ := by exact_mod_cast hdis
  obtain ⟨hK1, hK2⟩ := C191_wave_number spacing κ θ hθ hκθ
  have hθ0 : 0 ≤ θ := (abs_nonneg _).trans (hκθ 0)
  have hpi := Real.pi_lt_d2
  have hθ2 : θ ^ 2 ≤ 3.15 ^ 2 := pow_le_pow_left₀ hθ0 (by linarith) 2
  have hk0 : 0 ≤ waveNumberSq spacing κ := by unfold waveNumberSq; positivity
  -- the exact frequency is resolved in time
  have hkd : waveNumberSq spacing κ * F.dt ^ 2 ≤ θ ^ 2 := by
    have : waveNumberSq spacing κ ≤ θ ^ 2 * ∑ a : Fin 3, (if (a : ℕ) < ndim then 1 / spacing a ^ 2 else 0) := by
      unfold waveNumberSq
      rw [Finset.mul_sum]
      refine Finset.sum_le_sum fun a _ => ?_
      by_cases ha : (a : ℕ) < ndim
      · rw [if_pos ha, div_pow, mul_one_div]
        refine div_le_div_of_nonneg_right ?_ (sq_nonneg _)
        exact sq_le_sq' (by linarith [neg_le_of_abs_le (hκθ a)]) (le_of_abs_le (hκθ a))
      · rw [if_neg ha, (hκ a).2 (hcells a (by omega))]
        simp
    calc _ ≤ θ ^ 2 * (∑ a : Fin 3, (if (a : ℕ) < ndim then 1 / spacing a ^ 2 else 0)) * F.dt ^ 2 :=
          mul_le_mul_of_nonneg_right this (sq_nonneg _)
      _ = θ ^ 2 := by rw [mul_assoc, mul_comm _ (F.dt ^ 2), hdt2, mul_one]
  set ω0 := Real.sqrt (waveNumberSq spacing κ / eps) with hω0d
  have heps0 : 0 < eps := by linarith
  have hω0sq : ω0 ^ 2 = waveNumberSq spacing κ / eps := Real.sq_sqrt (by positivity)
  have hω0nn : 0 ≤ ω0 := Real.sqrt_nonneg _
  have hω0d2 : (ω0 * F.dt) ^ 2 ≤ θ ^ 2 := by
    rw [mul_pow, hω0sq]
    refine le_trans ?_ hkd
    refine mul_le_mul_of_nonneg_right ?_ (sq_nonneg _)
    exact div_le_self hk0 heps
  set y := ω * F.dt / 2 with hy
  have hy0 : 0 ≤ y := by positivity
  have hy1 : y ≤ Real.pi / 2 := by
    rw [hy]
    have := (le_div_iff₀ hdt).1 hω1
    linarith
  set x := Real.sin y with hx
  have hx0 : 0 ≤ x := Real.sin_nonneg_of_nonneg_of_le_pi hy0 (by linarith [Real.pi_pos])
  set Ω := 2 / F.dt * x with hΩ
  have hΩ0 : 0 ≤ Ω := by positivity
  have hΩsq : Ω ^ 2 = gridWaveNumberSq spacing κ / eps := by
    rw [eq_div_iff heps0.ne', mul_comm]; exact hdis'
  have hΩle : Ω ≤ ω0 := by
    refine abs_le_of_sq_le_sq' ?_ hω0nn |>.2
    rw [hΩsq, hω0sq]
    exact div_le_div_of_nonneg_right hK2 heps0.le
  have hΩge : (1 - θ ^ 2 / 12) * ω0 ≤ Ω := by
    have hc0 : 0 ≤ 1 - θ ^ 2 / 12 := by linarith
    refine abs_le_of_sq_le_sq' ?_ hΩ0 |>.2
    rw [mul_pow, hω0sq, hΩsq]
    have h1 : (1 - θ ^ 2 / 12) ^ 2 ≤ 1 - θ ^ 2 / 12 := by nlinarith [sq_nonneg θ]
    calc _ ≤ (1 - θ ^ 2 / 12) * (waveNumberSq spacing κ / eps) := mul_le_mul_of_nonneg_right h1 (by positivity)
      _ = (1 - θ ^ 2 / 12) * waveNumberSq spacing κ / eps := by ring
      _ ≤ _ := div_le_div_of_nonneg_right hK1 heps0.le
  have hωy : ω = 2 / F.dt * y := by rw [hy]; field_simp
  have hω_ge : Ω ≤ ω := by
    rw [hωy, hΩ]
    exact mul_le_mul_of_nonneg_left (Real.sin_le hy0) (by positivity)
  have hyx : y ≤ x + 2 / 3 * x ^ 3 := by
    have h1 := Real.sin_ge_sub_cube hy0
    have h2 := Real.mul_le_sin hy0 hy1
    have hpp := Real.pi_pos
    have h3 : y ≤ Real.pi / 2 * x := by
      have : Real.pi / 2 * (2 / Real.pi * y) = y := by field_simp
      rw [← this]
      exact mul_le_mul_of_nonneg_left h2 (by positivity)
    have h4 : y ^ 3 ≤ (Real.pi / 2 * x) ^ 3 := pow_le_pow_left₀ hy0 h3 3
    have h5 : (Real.pi / 2) ^ 3 ≤ 4 := by
      have : (Real.pi / 2) ^ 3 ≤ (3.15 / 2) ^ 3 := pow_le_pow_left₀ (by positivity) (by linarith) 3
      refine this.trans (by norm_num)
    have h6 : (Real.pi / 2 * x) ^ 3 ≤ 4 * x ^ 3 := by
      rw [mul_pow]; exact mul_le_mul_of_nonneg_right h5 (by positivity)
    linarith
  have hω_le : ω ≤ (1 + θ ^ 2 / 6) * ω0 := by
    have h1 : ω ≤ Ω + Ω * (2 / 3 * x ^ 2) := by
      rw [hωy, hΩ]
      have := mul_le_mul_of_nonneg_left hyx (show 0 ≤ 2 / F.dt by positivity)
      calc _ ≤ _ := this
        _ = _ := by ring
    have h2 : 2 / 3 * x ^ 2 ≤ θ ^ 2 / 6 := by
      have hxx : x = Ω * F.dt / 2 := by rw [hΩ]; field_simp
      have : (Ω * F.dt) ^ 2 ≤ (ω0 * F.dt) ^ 2 :=
        pow_le_pow_left₀ (by positivity) (mul_le_mul_of_nonneg_right hΩle hdt.le) 2
      rw [hxx, div_pow]
      linarith
    calc ω ≤ Ω + Ω * (2 / 3 * x ^ 2) := h1
      _ ≤ Ω + Ω * (θ ^ 2 / 6) := by linarith [mul_le_mul_of_nonneg_left h2 hΩ0]
      _ = (1 + θ ^ 2 / 6) * Ω := by ring
      _ ≤ _ := mul_le_mul_of_nonneg_left hΩle (by positivity)
  rw [abs_le]
  constructor
  · have : 0 ≤ θ ^ 2 / 12 * ω0 := by positivity
    linarith
  · linarith

/-- C191, FDFD: the plane wave a plane-wave current radiates has amplitude `A` where the wave equation in space gives
`A₀ = k0 / (|k|² - k0² eps)`, and `|A - A₀| ≤ |A| (θ²/12) |k|² / ||k|² - k0² eps|`. -/
theorem C191_fdfd (spacing : Fin 3 → ℝ) (bloch : Fin 3 → ℂ) (κ : Fin 3 → ℝ) (hκ : FitsGrid s bloch κ) (k0 : ℝ) (eps : ℂ)
    (hres : (gridWaveNumberSq spacing κ : ℂ) - k0 ^ 2 * eps ≠ 0) (hres' : (waveNumberSq spacing κ : ℂ) - k0 ^ 2 * eps ≠ 0)
    (j : Fin 3 → ℂ) (ht : Transverse spacing κ j) (solver : Solver (Fin 3 × GIdx s))
    (hsolve : let A := fdfdMat (uniformOps s bloch spacing) k0 (fun _ _ => eps); ∀ b, A *ᵥ solver A b = b)
    (θ : ℝ) (hθ : θ ≤ Real.pi) (hκθ : ∀ a, |κ a| ≤ θ) :
    ∃ A : ℂ, (solve3d (uniformOps s bloch spacing) k0 (fun _ _ => eps) solver (vecWave κ j)).1 = vecWave κ (fun c => A * j c) ∧
      ‖A - k0 / (waveNumberSq spacing κ - k0 ^ 2 * eps)‖
        ≤ ‖A‖ * (θ ^ 2 / 12 * waveNumberSq spacing κ / ‖(waveNumberSq spacing κ : ℂ) - k0 ^ 2 * eps‖) := by
  refine ⟨_, C140_fdfd spacing bloch κ hκ k0 eps hres j ht solver hsolve, ?_⟩
  obtain ⟨h1, h2⟩ := C191_wave_number spacing κ θ hθ hκθ
  set K := gridWaveNumberSq spacing κ with hK
  set k := waveNumberSq spacing κ with hk
  have e : (k0 : ℂ) / (K - k0 ^ 2 * eps) - k0 / (k - k0 ^ 2 * eps)
      = k0 / (K - k0 ^ 2 * eps) * (((k - K : ℝ) : ℂ) / (k - k0 ^ 2 * eps)) := by
    field_simp
    push_cast
    ring
  rw [e, norm_mul, norm_div ((k - K : ℝ) : ℂ), norm_real, Real.norm_of_nonneg (by linarith)]
  refine mul_le_mul_of_nonneg_left (div_le_div_of_nonneg_right (by linarith) (norm_nonneg _)) (norm_nonneg _)

/-- C191, slab modes: in a homogeneous cross section the squared propagation constant of a wave whose transverse phase advances by `κ` per cell is larger
than the one in space, `k0² eps - (κ/dx)²`, by at most `θ²/12 (κ/dx)²`. -/
theorem C191_mode_1d (spacing : Fin 3 → ℝ) (bloch : Fin 3 → ℂ) (κ : Fin 3 → ℝ) (hκ : FitsGrid s bloch κ) (k0 eps : ℝ)
    (hθ : |κ 0| ≤ Real.pi) :
    ∃ lam : ℝ, (wgm1d (uniformOps s bloch spacing) k0 (fun _ => (eps : ℂ)) (planeWave κ) = fun i => (lam : ℂ) * planeWave κ i) ∧
      k0 ^ 2 * eps - (κ 0 / spacing 0) ^ 2 ≤ lam ∧
      lam ≤ k0 ^ 2 * eps - (κ 0 / spacing 0) ^ 2 + κ 0 ^ 2 / 12 * (κ 0 / spacing 0) ^ 2 := by
  refine ⟨k0 ^ 2 * eps - (2 / spacing 0 * Real.sin (κ 0 / 2)) ^ 2, ?_, ?_⟩
  · rw [C140_mode_1d spacing bloch κ hκ k0 eps]
    funext i
    push_cast
    ring
  · obtain ⟨h1, h2⟩ := sin_half_sq (le_refl |κ 0|) hθ
    have e : (2 / spacing 0 * Real.sin (κ 0 / 2)) ^ 2 = (2 * Real.sin (κ 0 / 2)) ^ 2 / spacing 0 ^ 2 := by
      rw [div_mul_eq_mul_div, div_pow]
    have d1 := div_le_div_of_nonneg_right h1 (sq_nonneg (spacing 0))
    have d2 := div_le_div_of_nonneg_right h2 (sq_nonneg (spacing 0))
    rw [sq_abs] at d1
    rw [← e] at d1 d2
    have e1 : (1 - κ 0 ^ 2 / 12) * κ 0 ^ 2 / spacing 0 ^ 2 = (κ 0 / spacing 0) ^ 2 - κ 0 ^ 2 / 12 * (κ 0 / spacing 0) ^ 2 := by
      rw [div_pow]; ring
    rw [e1] at d1
    rw [← div_pow] at d2
    constructor <;> linarith

/-- Nontrivial case: on 20 x 20 cells a wave along x with one wavelength per 20 cells fits the periodic grid, is transverse for polarisation z, and advances
by `π/10` per cell. -/
example : FitsGrid (shapeOf 20 20 1) (fun _ => 1) ![Real.pi / 10, 0, 0] ∧ Transverse (fun _ => 1) ![Real.pi / 10, 0, 0] ![0, 0, 1] ∧
    ∀ a, |(![Real.pi / 10, 0, 0] : Fin 3 → ℝ) a| ≤ Real.pi / 10 := by
  have hpi := Real.pi_pos
  refine ⟨fun a => ⟨?_, ?_⟩, ?_, fun a => ?_⟩
  · match a with
    | 0 =>
      change exp (I * (((Real.pi / 10 : ℝ) : ℂ) * ((20 : ℕ) : ℂ))) = 1
      rw [← exp_two_pi_mul_I]
      congr 1
      push_cast
      ring
    | 1 => change exp (I * (((0 : ℝ) : ℂ) * ((20 : ℕ) : ℂ))) = 1; simp
    | 2 => change exp (I * (((0 : ℝ) : ℂ) * ((1 : ℕ) : ℂ))) = 1; simp
  · match a with
    | 0 => intro h; exact absurd h (by decide)
    | 1 => intro h; exact absurd h (by decide)
    | 2 => intro _; rfl
  · unfold Transverse bwdSymbol
    rw [Fin.sum_univ_three]
    simp
  · match a with
    | 0 => change |Real.pi / 10| ≤ _; rw [abs_of_pos (by positivity)]
    | 1 => change |(0 : ℝ)| ≤ _; rw [abs_zero]; positivity
    | 2 => change |(0 : ℝ)| ≤ _; rw [abs_zero]; positivity

end Simphox
