import Verif.FdtdSteady
import Verif.TileProps
import Verif.Mode

/-!
# Plane waves and the numerical dispersion relation (C140)

The exact solutions of the FDTD update (fdtd.py:117-170), of the FDFD operators (fdfd.py:124-180) and of the waveguide mode operators (mode.py:90-122) in a
homogeneous medium on a uniform grid: discrete plane waves, whose frequency and wave vector are tied by the
dispersion relation of the Yee scheme.
-/

namespace Simphox

open Complex Matrix

variable {s : Fin 3 → ℕ} [∀ a, NeZero (s a)]

/-! ### Specification -/

/-- The plane wave whose phase advances by `κ a` radians per cell along axis `a`. -/
noncomputable def planeWave (κ : Fin 3 → ℝ) : SField s := fun i => exp (I * ∑ a, (κ a * (i a : ℕ) : ℂ))

/-- A plane wave with constant polarisation `e`. -/
noncomputable def vecWave (κ : Fin 3 → ℝ) (e : Fin 3 → ℂ) : VField s := fun c i => e c * planeWave κ i

/-- The wave continues across the boundary as the boundary condition demands: over the length of the grid
its phase advances by the Bloch factor, and it is constant along an axis with one cell. -/
def FitsGrid (s : Fin 3 → ℕ) (bloch : Fin 3 → ℂ) (κ : Fin 3 → ℝ) : Prop :=
  ∀ a, exp (I * (κ a * (s a : ℂ))) = bloch a ∧ (s a = 1 → κ a = 0)

/-- What the backward difference quotient sees of the wave along axis `a`: `(1 - exp(-i κ)) / dx`. -/
noncomputable def bwdSymbol (spacing κ : Fin 3 → ℝ) (a : Fin 3) : ℂ := (1 - exp (-(I * κ a))) / spacing a

/-- The polarisation is transverse: the discrete divergence of the wave vanishes. -/
def Transverse (spacing κ : Fin 3 → ℝ) (e : Fin 3 → ℂ) : Prop := ∑ a, bwdSymbol spacing κ a * e a = 0

/-- The squared wave number the grid sees, `sum_a (2/dx_a sin(κ_a/2))^2`; it tends to `sum_a (κ_a/dx_a)^2`
for long waves. -/
noncomputable def gridWaveNumberSq (spacing κ : Fin 3 → ℝ) : ℝ := ∑ a, (2 / spacing a * Real.sin (κ a / 2)) ^ 2

/-! ### Lemmas -/

/-- What the difference quotients see of the wave. -/
noncomputable def waveSymbol (spacing κ : Fin 3 → ℝ) (back : Bool) (a : Fin 3) : ℂ :=
  if back then bwdSymbol spacing κ a else (exp (I * κ a) - 1) / spacing a

omit [∀ a, NeZero (s a)] in
theorem planeWave_update (κ : Fin 3 → ℝ) (i : GIdx s) (a : Fin 3) (x : Fin (s a)) :
    planeWave κ (Function.update i a x) = exp (I * (κ a * ((x : ℕ) : ℂ) - κ a * ((i a : ℕ) : ℂ))) * planeWave κ i := by
  unfold planeWave
  rw [← exp_add]
  congr 1
  rw [← mul_add]
  congr 1
  rw [← Finset.add_sum_erase _ (fun b => (κ b * ((Function.update i a x b : ℕ) : ℂ))) (Finset.mem_univ a),
    ← Finset.add_sum_erase _ (fun a => (κ a * ((i a : ℕ) : ℂ))) (Finset.mem_univ a)]
  have : ∀ b ∈ Finset.univ.erase a, (κ b * ((Function.update i a x b : ℕ) : ℂ)) = κ b * ((i b : ℕ) : ℂ) := by
    intro b hb
    rw [Function.update_of_ne]
    simpa using hb
  rw [Finset.sum_congr rfl this, Function.update_self]
  ring

/-- The next sample of the wave, with the Bloch factor at the wrap. -/
theorem wave_next {bloch : Fin 3 → ℂ} {κ : Fin 3 → ℝ} (hκ : FitsGrid s bloch κ) (i : GIdx s) (a : Fin 3) :
    wrapFac (s a) (bloch a) (i a) * planeWave κ (Function.update i a (i a + 1)) = exp (I * κ a) * planeWave κ i := by
  rw [planeWave_update, ← mul_assoc]
  congr 1
  rw [fin_val_add_one]
  unfold wrapFac
  have hi := (i a).isLt
  split_ifs with h1 h2 h2
  · have hs : s a = 1 := by omega
    have : ((i a : ℕ)) = 0 := by omega
    rw [(hκ a).2 hs]; simp
  · omega
  · rw [← (hκ a).1, ← exp_add]
    congr 1
    have : ((i a : ℕ) : ℂ) + 1 = (s a : ℂ) := by exact_mod_cast h2
    push_cast
    linear_combination (-(I * κ a)) * this
  · rw [one_mul]
    congr 1
    push_cast
    ring

omit [∀ a, NeZero (s a)] in
theorem bloch_unit {bloch : Fin 3 → ℂ} {κ : Fin 3 → ℝ} (hκ : FitsGrid s bloch κ) (a : Fin 3) (x : Fin (s a)) :
    (starRingEnd ℂ) (wrapFac (s a) (bloch a) x) * wrapFac (s a) (bloch a) x = 1 := by
  unfold wrapFac
  split_ifs
  · simp
  · rw [← (hκ a).1, ← exp_conj, ← exp_add]
    simp
  · simp

theorem wave_prev {bloch : Fin 3 → ℂ} {κ : Fin 3 → ℝ} (hκ : FitsGrid s bloch κ) (i : GIdx s) (a : Fin 3) :
    (starRingEnd ℂ) (wrapFac (s a) (bloch a) (i a - 1)) * planeWave κ (Function.update i a (i a - 1))
      = exp (-(I * κ a)) * planeWave κ i := by
  have h := wave_next hκ (Function.update i a (i a - 1)) a
  have h1 : Function.update (Function.update i a (i a - 1)) a ((Function.update i a (i a - 1)) a + 1) = i := by
    rw [Function.update_self, Function.update_idem, sub_add_cancel, Function.update_eq_self]
  rw [h1, Function.update_self] at h
  have hu := bloch_unit hκ a (i a - 1)
  have he : exp (-(I * κ a)) * exp (I * κ a) = 1 := by rw [← exp_add]; simp
  linear_combination (-(exp (-(I * κ a))) * (starRingEnd ℂ) (wrapFac (s a) (bloch a) (i a - 1))) * h
    - (exp (-(I * κ a)) * planeWave κ i) * (-hu) - (planeWave κ (Function.update i a (i a - 1)) * (starRingEnd ℂ) (wrapFac (s a) (bloch a) (i a - 1))) * he

theorem deriv_wave {bloch : Fin 3 → ℂ} {κ : Fin 3 → ℝ} (spacing : Fin 3 → ℝ) (hκ : FitsGrid s bloch κ) (back : Bool)
    (a : Fin 3) (k : ℂ) (i : GIdx s) :
    ((uniformOps s bloch spacing).deriv back a *ᵥ (fun i => k * planeWave κ i)) i = waveSymbol spacing κ back a * k * planeWave κ i := by
  cases back
  · rw [YeeOps.deriv_forward_mulVec]
    have := wave_next hκ i a
    change (wrapFac (s a) (bloch a) (i a) * (k * planeWave κ (Function.update i a (i a + 1))) - k * planeWave κ i) / (spacing a : ℂ)
      = (exp (I * κ a) - 1) / spacing a * k * planeWave κ i
    rw [mul_left_comm, this]
    ring
  · rw [YeeOps.deriv_backward_mulVec]
    have := wave_prev hκ i a
    change (k * planeWave κ i - (starRingEnd ℂ) (wrapFac (s a) (bloch a) (i a - 1)) * (k * planeWave κ (Function.update i a (i a - 1)))) / (spacing a : ℂ)
      = (1 - exp (-(I * κ a))) / spacing a * k * planeWave κ i
    rw [mul_left_comm, this]
    ring

/-- The cross product with the symbols of the difference quotients. -/
noncomputable def symCross (d : Fin 3 → ℂ) (e : Fin 3 → ℂ) : Fin 3 → ℂ :=
  ![d 1 * e 2 - d 2 * e 1, d 2 * e 0 - d 0 * e 2, d 0 * e 1 - d 1 * e 0]

theorem curlOf_wave {bloch : Fin 3 → ℂ} {κ : Fin 3 → ℝ} (spacing : Fin 3 → ℝ) (hκ : FitsGrid s bloch κ) (back : Bool) (e : Fin 3 → ℂ) :
    curlOf ((uniformOps s bloch spacing).deriv back) (vecWave κ e) = vecWave κ (symCross (waveSymbol spacing κ back) e) := by
  have hd := fun a c i => deriv_wave spacing hκ back a (e c) i
  funext c i
  match c with
  | 0 =>
    change ((uniformOps s bloch spacing).deriv back 1 *ᵥ (fun i => e 2 * planeWave κ i)) i - ((uniformOps s bloch spacing).deriv back 2 *ᵥ (fun i => e 1 * planeWave κ i)) i
      = (waveSymbol spacing κ back 1 * e 2 - waveSymbol spacing κ back 2 * e 1) * planeWave κ i
    rw [hd, hd]; ring
  | 1 =>
    change ((uniformOps s bloch spacing).deriv back 2 *ᵥ (fun i => e 0 * planeWave κ i)) i - ((uniformOps s bloch spacing).deriv back 0 *ᵥ (fun i => e 2 * planeWave κ i)) i
      = (waveSymbol spacing κ back 2 * e 0 - waveSymbol spacing κ back 0 * e 2) * planeWave κ i
    rw [hd, hd]; ring
  | 2 =>
    change ((uniformOps s bloch spacing).deriv back 0 *ᵥ (fun i => e 1 * planeWave κ i)) i - ((uniformOps s bloch spacing).deriv back 1 *ᵥ (fun i => e 0 * planeWave κ i)) i
      = (waveSymbol spacing κ back 0 * e 1 - waveSymbol spacing κ back 1 * e 0) * planeWave κ i
    rw [hd, hd]; ring

theorem symbol_mul (spacing κ : Fin 3 → ℝ) (a : Fin 3) :
    waveSymbol spacing κ true a * waveSymbol spacing κ false a = -(((2 / spacing a * Real.sin (κ a / 2)) ^ 2 : ℝ) : ℂ) := by
  change (1 - exp (-(I * κ a))) / spacing a * ((exp (I * κ a) - 1) / spacing a) = _
  have h2 : exp (I * κ a) = exp ((κ a / 2 : ℝ) * I) * exp ((κ a / 2 : ℝ) * I) := by
    rw [← exp_add]; congr 1; push_cast; ring
  have h3 : exp (-(I * κ a)) = exp (-(κ a / 2 : ℝ) * I) * exp (-(κ a / 2 : ℝ) * I) := by
    rw [← exp_add]; congr 1; push_cast; ring
  have h4 : exp ((κ a / 2 : ℝ) * I) * exp (-(κ a / 2 : ℝ) * I) = 1 := by rw [← exp_add]; simp
  have h5 : ((Real.sin (κ a / 2) : ℝ) : ℂ) = (exp (-(κ a / 2 : ℝ) * I) - exp ((κ a / 2 : ℝ) * I)) * I / 2 := by
    rw [Complex.ofReal_sin, Complex.sin]
  push_cast at h5 h2 h3 h4 ⊢
  rw [h5, h2, h3]
  generalize exp ((κ a / 2 : ℂ) * I) = u at *
  generalize exp (-(κ a / 2 : ℂ) * I) = v at *
  have hI : I ^ 2 = -1 := I_sq
  have key : (1 - v * v) * (u * u - 1) = (v - u) ^ 2 := by linear_combination (-(u * v) + 1) * h4
  by_cases hz : (spacing a : ℂ) = 0
  · simp [hz]
  · field_simp
    linear_combination key + (v - u) ^ 2 * hI

theorem cross_cross (b d e : Fin 3 → ℂ) (c : Fin 3) :
    symCross b (symCross d e) c = d c * (∑ a, b a * e a) - (∑ a, b a * d a) * e c := by
  match c with
  | 0 => simp [symCross, Fin.sum_univ_three]; ring
  | 1 => simp [symCross, Fin.sum_univ_three]; ring
  | 2 => simp [symCross, Fin.sum_univ_three]; ring

theorem sum_symbols (spacing κ : Fin 3 → ℝ) :
    ∑ a, waveSymbol spacing κ true a * waveSymbol spacing κ false a = -((gridWaveNumberSq spacing κ : ℝ) : ℂ) := by
  unfold gridWaveNumberSq
  rw [Complex.ofReal_sum, ← Finset.sum_neg_distrib]
  exact Finset.sum_congr rfl fun a _ => symbol_mul spacing κ a

theorem curl_curl_wave (spacing κ : Fin 3 → ℝ) (e : Fin 3 → ℂ) (ht : Transverse spacing κ e) (c : Fin 3) :
    symCross (waveSymbol spacing κ true) (symCross (waveSymbol spacing κ false) e) c = (gridWaveNumberSq spacing κ : ℝ) * e c := by
  rw [cross_cross, sum_symbols]
  have : ∑ a, waveSymbol spacing κ true a * e a = 0 := ht
  rw [this]; ring

omit [∀ a, NeZero (s a)] in
theorem planeWave_ne (κ : Fin 3 → ℝ) (i : GIdx s) : planeWave κ i ≠ 0 := exp_ne_zero _

omit [∀ a, NeZero (s a)] in
theorem vecWave_inj {κ : Fin 3 → ℝ} {e f : Fin 3 → ℂ} (i : GIdx s) (h : ∀ c, vecWave κ e c i = vecWave κ f c i) : e = f := by
  funext c
  exact mul_right_cancel₀ (planeWave_ne κ i) (h c)

/-! ### C140: FDTD -/

/-- The plane wave with electric polarisation `e` and magnetic polarisation `h` as a state of the FDTD. -/
noncomputable def waveState (F : Fdtd s) (κ : Fin 3 → ℝ) (e h : Fin 3 → ℂ) : FState s F.npml :=
  (vecWave κ e, vecWave κ h, fun _ _ _ => 0, fun _ _ _ => 0)

theorem wave_step_iff (F : Fdtd s) (hF : F.npml = 0) (spacing : Fin 3 → ℝ) (hg : F.g = uniformOps s (fun _ => 1) spacing)
    (eps : ℂ) (hE : ∀ c i, F.epsT c i = eps) (jax : Bool) (κ : Fin 3 → ℝ) (hκ : FitsGrid s (fun _ => 1) κ) (ω : ℝ)
    (e h : Fin 3 → ℂ) :
    Oscillates F jax ω (fun _ => []) (waveState F κ e h) ↔
      (∀ c, (exp (I * (F.dt * ω)) - 1) * e c = symCross (waveSymbol spacing κ true) h c / eps * F.dt) ∧
      ∀ c, (exp (I * (F.dt * ω)) - 1) * h c = -(exp (I * (F.dt * ω)) * symCross (waveSymbol spacing κ false) e c * F.dt) := by
  have hb : ∀ a, F.g.bloch a = 1 := fun a => by rw [hg]; rfl
  have hcurl : ∀ ofH f, F.g.curl ofH (vecWave κ f) = vecWave κ (symCross (waveSymbol spacing κ ofH) f) := by
    intro ofH f
    rw [curl_eq_curlOf F.g hb, hg]
    exact curlOf_wave spacing hκ ofH f
  set z : ℂ := exp (I * (F.dt * ω)) with hz
  have hpow : ∀ n : ℕ, exp (I * (n * F.dt * ω)) = z ^ n := by
    intro n
    rw [hz, ← Complex.exp_nat_mul]
    congr 1; ring
  have hscale : ∀ (k : ℂ) (f : Fin 3 → ℂ) (c : Fin 3) (i : GIdx s), k * vecWave κ f c i = vecWave κ (fun c => k * f c) c i := by
    intro k f c i; unfold vecWave; ring
  have hcross : ∀ (d f : Fin 3 → ℂ) (k : ℂ) (c : Fin 3), symCross d (fun c => k * f c) c = k * symCross d f c := by
    intro d f k c
    match c with
    | 0 => simp [symCross]; ring
    | 1 => simp [symCross]; ring
    | 2 => simp [symCross]; ring
  have i0 : GIdx s := fun a => 0
  constructor
  · intro hosc
    obtain ⟨h1, h2⟩ := hosc 1
    obtain ⟨s1, s2⟩ := step_plain F hF jax (waveState F κ e h)
    have r1 : F.run jax (fun _ => []) (waveState F κ e h) 1 = F.step jax (waveState F κ e h) [] := rfl
    rw [r1] at h1 h2
    simp only [hpow, pow_one] at h1 h2
    have E1 : (F.step jax (waveState F κ e h) []).1 = vecWave κ (fun c => z * e c) := by
      funext c i; rw [h1, ← hscale]; rfl
    rw [← s1, E1] at s2
    have A : ∀ c, z * e c * planeWave κ i0 = e c * planeWave κ i0 + symCross (waveSymbol spacing κ true) h c * planeWave κ i0 / eps * F.dt := by
      intro c
      have := congrFun (congrFun (s1.symm.trans E1) c) i0
      have e1 : (waveState F κ e h).2.1 = vecWave κ h := rfl
      simp only [e1, hcurl, hE] at this
      exact this.symm
    have B : ∀ c, z * h c * planeWave κ i0 = h c * planeWave κ i0 - z * symCross (waveSymbol spacing κ false) e c * planeWave κ i0 * F.dt := by
      intro c
      have := (h2 c i0).symm.trans (congrFun (congrFun s2 c) i0)
      simp only [hcurl] at this
      have e1 : (waveState F κ e h).2.1 c i0 = h c * planeWave κ i0 := rfl
      rw [e1] at this
      have e2 : vecWave κ (symCross (waveSymbol spacing κ false) fun c => z * e c) c i0 = z * symCross (waveSymbol spacing κ false) e c * planeWave κ i0 := by
        unfold vecWave; rw [hcross]
      rw [e2] at this
      linear_combination this
    refine ⟨fun c => mul_right_cancel₀ (planeWave_ne κ i0) ?_, fun c => mul_right_cancel₀ (planeWave_ne κ i0) ?_⟩
    · linear_combination A c
    · linear_combination B c
  · rintro ⟨hA, hB⟩ n
    simp only [hpow]
    have key : (F.run jax (fun _ => []) (waveState F κ e h) n).1 = vecWave κ (fun c => z ^ n * e c) ∧
        (F.run jax (fun _ => []) (waveState F κ e h) n).2.1 = vecWave κ (fun c => z ^ n * h c) := by
      induction n with
      | zero => constructor <;> simp <;> rfl
      | succ n ih =>
        obtain ⟨s1, s2⟩ := step_plain F hF jax (F.run jax (fun _ => []) (waveState F κ e h) n)
        have r1 : F.run jax (fun _ => []) (waveState F κ e h) (n + 1) = F.step jax (F.run jax (fun _ => []) (waveState F κ e h) n) [] := rfl
        rw [r1]
        have E1 : (F.step jax (F.run jax (fun _ => []) (waveState F κ e h) n) []).1 = vecWave κ (fun c => z ^ (n + 1) * e c) := by
          rw [s1]
          funext c i
          rw [ih.1, ih.2, hcurl, hE]
          unfold vecWave
          rw [hcross]
          linear_combination (-(z ^ n * planeWave κ i)) * hA c
        refine ⟨E1, ?_⟩
        rw [← s1, E1] at s2
        rw [s2]
        funext c i
        rw [ih.2, hcurl]
        unfold vecWave
        rw [hcross]
        linear_combination (-(z ^ n * planeWave κ i)) * hB c
    refine ⟨fun c i => ?_, fun c i => ?_⟩
    · rw [key.1, ← hscale]; rfl
    · rw [key.2, ← hscale]; rfl

theorem dispersed_sq (dt ω : ℝ) (hdt : dt ≠ 0) :
    (exp (I * (dt * ω)) - 1) ^ 2 = -(exp (I * (dt * ω)) * dt ^ 2 * (dispersed dt ω ^ 2 : ℝ)) := by
  rw [dispersed_phase dt ω hdt]
  have h : exp (I * (dt * ω)) = exp (I * (ω * dt / 2)) * exp (I * (ω * dt / 2)) := by
    rw [← exp_add]; congr 1; ring
  rw [h]
  push_cast
  linear_combination (exp (I * (ω * dt / 2)) ^ 2 * (dispersed dt ω) ^ 2 * dt ^ 2) * I_sq

theorem symbol_false_zero (spacing κ : Fin 3 → ℝ) (h : gridWaveNumberSq spacing κ = 0) (hs : ∀ a, spacing a ≠ 0) (back : Bool) (a : Fin 3) :
    waveSymbol spacing κ back a = 0 := by
  have h1 : (2 / spacing a * Real.sin (κ a / 2)) ^ 2 = 0 :=
    (Finset.sum_eq_zero_iff_of_nonneg (fun a _ => sq_nonneg _)).1 h a (Finset.mem_univ a)
  have h2 : Real.sin (κ a / 2) = 0 := by
    have := pow_eq_zero_iff (two_ne_zero) |>.1 h1
    rcases mul_eq_zero.1 this with h | h
    · exact absurd h (div_ne_zero two_ne_zero (hs a))
    · exact h
  have h3 : exp (I * κ a) = 1 := by
    obtain ⟨n, hn⟩ := Real.sin_eq_zero_iff.1 h2
    rw [Complex.exp_eq_one_iff]
    refine ⟨n, ?_⟩
    have : κ a = 2 * (n * Real.pi) := by rw [hn]; ring
    rw [this]; push_cast; ring
  have h4 : exp (-(I * κ a)) = 1 := by rw [exp_neg, h3, inv_one]
  cases back
  · change (exp (I * κ a) - 1) / _ = _; rw [h3]; simp
  · change (1 - exp (-(I * κ a))) / _ = _; rw [h4]; simp

/-- C140, the dispersion relation of the FDTD: in a homogeneous medium on a uniform grid a transverse plane
wave can be completed by a magnetic wave to a state that oscillates at frequency `ω` (every field value is
multiplied by `exp(i ω dt)` in each step, for all steps) exactly if
`eps (2/dt sin(ω dt/2))^2 = sum_a (2/dx_a sin(κ_a/2))^2`. Both modes, any time step, any nonzero
permittivity, any wave vector that fits the grid. -/
theorem C140_fdtd_dispersion (F : Fdtd s) (hF : F.npml = 0) (spacing : Fin 3 → ℝ) (hs : ∀ a, spacing a ≠ 0)
    (hg : F.g = uniformOps s (fun _ => 1) spacing) (eps : ℂ) (heps : eps ≠ 0) (hE : ∀ c i, F.epsT c i = eps) (hdt : F.dt ≠ 0)
    (jax : Bool) (κ : Fin 3 → ℝ) (hκ : FitsGrid s (fun _ => 1) κ) (ω : ℝ) (e : Fin 3 → ℂ) (he : e ≠ 0) (ht : Transverse spacing κ e) :
    (∃ h : Fin 3 → ℂ, Oscillates F jax ω (fun _ => []) (waveState F κ e h)) ↔
      eps * (2 / F.dt * Real.sin (ω * F.dt / 2)) ^ 2 = gridWaveNumberSq spacing κ := by
  have hsq := dispersed_sq F.dt ω hdt
  have hd : (F.dt : ℂ) ≠ 0 := by exact_mod_cast hdt
  have hdis : ((2 / F.dt * Real.sin (ω * F.dt / 2) : ℂ)) ^ 2 = (dispersed F.dt ω ^ 2 : ℝ) := by
    unfold dispersed; push_cast; rfl
  rw [show ((2 : ℂ) / F.dt * ((Real.sin (ω * F.dt / 2) : ℝ) : ℂ)) ^ 2 = (dispersed F.dt ω ^ 2 : ℝ) from hdis]
  simp only [wave_step_iff F hF spacing hg eps hE jax κ hκ ω e]
  have hz0 : exp (I * (F.dt * ω)) ≠ 0 := exp_ne_zero _
  set z : ℂ := exp (I * (F.dt * ω)) with hz
  have hcross : ∀ (d f : Fin 3 → ℂ) (k : ℂ) (c : Fin 3), symCross d (fun c => k * f c) c = k * symCross d f c := by
    intro d f k c
    match c with
    | 0 => simp [symCross]; ring
    | 1 => simp [symCross]; ring
    | 2 => simp [symCross]; ring
  constructor
  · rintro ⟨h, hA, hB⟩
    obtain ⟨c, hc⟩ : ∃ c, e c ≠ 0 := by
      by_contra hn
      push Not at hn
      exact he (funext hn)
    have hBf : (fun c => (z - 1) * h c) = fun c => (-(z * F.dt)) * symCross (waveSymbol spacing κ false) e c := by
      funext c; rw [hB c]; ring
    have h1 : (z - 1) ^ 2 * e c = -(z * F.dt) * ((gridWaveNumberSq spacing κ : ℝ) * e c) / eps * F.dt := by
      rw [← curl_curl_wave spacing κ e ht c, ← hcross, ← hBf, hcross, pow_two, mul_assoc, hA c]
      ring
    rw [hsq] at h1
    field_simp at h1
    have := congrArg Neg.neg h1
    simp only [neg_neg] at this
    linear_combination this
  · intro hrel
    by_cases h1 : z - 1 = 0
    · rw [h1] at hsq
      have hK : (dispersed F.dt ω ^ 2 : ℝ) = (0 : ℂ) := by
        have h2 : z * F.dt ^ 2 ≠ 0 := mul_ne_zero hz0 (pow_ne_zero 2 hd)
        refine mul_left_cancel₀ h2 ?_
        linear_combination hsq
      have hW : gridWaveNumberSq spacing κ = 0 := by
        rw [hK, mul_zero] at hrel
        exact_mod_cast hrel.symm
      have hsym := fun back => symbol_false_zero spacing κ hW hs back
      have hzero : ∀ back f c, symCross (waveSymbol spacing κ back) f c = 0 := by
        intro back f c
        match c with
        | 0 => simp [symCross, hsym]
        | 1 => simp [symCross, hsym]
        | 2 => simp [symCross, hsym]
      refine ⟨0, fun c => ?_, fun c => ?_⟩
      · rw [h1, hzero]; simp
      · rw [h1, hzero]; simp
    · refine ⟨fun c => (-(z * F.dt) / (z - 1)) * symCross (waveSymbol spacing κ false) e c, fun c => ?_, fun c => ?_⟩
      · have e1 : symCross (waveSymbol spacing κ true) (fun c => (-(z * F.dt) / (z - 1)) * symCross (waveSymbol spacing κ false) e c) c
            = (-(z * F.dt) / (z - 1)) * ((gridWaveNumberSq spacing κ : ℝ) * e c) := by
          rw [hcross]
          congr 1
          exact curl_curl_wave spacing κ e ht c
        rw [e1, ← hrel]
        field_simp
        linear_combination e c * hsq
      · field_simp

/-- C140, only transverse waves travel: a plane wave that oscillates with `exp(i ω dt) ≠ 1` has no discrete
divergence, for any permittivity. -/
theorem C140_travelling_is_transverse (F : Fdtd s) (hF : F.npml = 0) (spacing : Fin 3 → ℝ)
    (hg : F.g = uniformOps s (fun _ => 1) spacing) (eps : ℂ) (hE : ∀ c i, F.epsT c i = eps)
    (jax : Bool) (κ : Fin 3 → ℝ) (hκ : FitsGrid s (fun _ => 1) κ) (ω : ℝ) (hω : exp (I * (F.dt * ω)) ≠ 1) (e h : Fin 3 → ℂ)
    (hosc : Oscillates F jax ω (fun _ => []) (waveState F κ e h)) : Transverse spacing κ e := by
  obtain ⟨hA, -⟩ := (wave_step_iff F hF spacing hg eps hE jax κ hκ ω e h).1 hosc
  have hz : exp (I * (F.dt * ω)) - 1 ≠ 0 := sub_ne_zero.2 hω
  refine mul_left_cancel₀ hz ?_
  rw [mul_zero, Finset.mul_sum]
  have : ∀ a, (exp (I * (F.dt * ω)) - 1) * (bwdSymbol spacing κ a * e a)
      = waveSymbol spacing κ true a * (symCross (waveSymbol spacing κ true) h a / eps * F.dt) := by
    intro a
    rw [← hA a]
    change _ = bwdSymbol spacing κ a * _
    ring
  rw [Finset.sum_congr rfl fun a _ => this a, Fin.sum_univ_three]
  simp only [symCross, Matrix.cons_val_zero, Matrix.cons_val_one, Matrix.cons_val]
  ring

/-- C140, every wave has a real frequency: with the time step the constructor chooses and a permittivity of
at least 1, each wave vector that fits the grid has a frequency between 0 and `π/dt` satisfying the
dispersion relation, so each transverse plane wave travels without growing or decaying. -/
theorem C140_fdtd_frequency (ndim : ℕ) (hnd : 0 < ndim) (spacing : Fin 3 → ℝ) (hs : ∀ a, 0 < spacing a)
    (hcells : ∀ a : Fin 3, ndim ≤ a → s a = 1) (eps : ℝ) (heps : 1 ≤ eps) (jax : Bool) (κ : Fin 3 → ℝ)
    (hκ : FitsGrid s (fun _ => 1) κ) (e : Fin 3 → ℂ) (ht : Transverse spacing κ e) :
    let F := plainFdtd (s := s) ndim (fun _ => 1) spacing (fun _ => eps)
    ∃ ω : ℝ, 0 ≤ ω ∧ ω ≤ Real.pi / F.dt ∧ ∃ h : Fin 3 → ℂ, Oscillates F jax ω (fun _ => []) (waveState F κ e h) := by
  intro F
  have hsum : 0 < ∑ a : Fin 3, (if (a : ℕ) < ndim then 1 / spacing a ^ 2 else 0) := by
    refine Finset.sum_pos' (fun a _ => ?_) ⟨0, Finset.mem_univ _, ?_⟩
    · split_ifs
      · have := hs a; positivity
      · exact le_refl 0
    · rw [if_pos (by simpa using hnd)]
      have := hs 0; positivity
  have hdt : 0 < F.dt := by
    change 0 < 1 / Real.sqrt _
    have := Real.sqrt_pos.2 hsum
    positivity
  have hdt2 : F.dt ^ 2 * (∑ a : Fin 3, (if (a : ℕ) < ndim then 1 / spacing a ^ 2 else 0)) = 1 := by
    change (1 / Real.sqrt _) ^ 2 * _ = 1
    rw [div_pow, Real.sq_sqrt hsum.le]
    field_simp
  have hE : ∀ c i, F.epsT c i = (eps : ℂ) := by
    intro c i
    change yeeAvgG (fun _ => (eps : ℂ)) c i = eps
    match c with
    | 0 => change ((eps : ℂ) + eps) / 2 = eps; ring
    | 1 => change ((eps : ℂ) + eps) / 2 = eps; ring
    | 2 => change (((eps : ℂ) + eps) / 2 + (eps + eps) / 2) / 2 = eps; ring
  have hW : gridWaveNumberSq spacing κ ≤ 4 * ∑ a : Fin 3, (if (a : ℕ) < ndim then 1 / spacing a ^ 2 else 0) := by
    unfold gridWaveNumberSq
    rw [Finset.mul_sum]
    refine Finset.sum_le_sum fun a _ => ?_
    split_ifs with h
    · have h1 := Real.sin_sq_le_one (κ a / 2)
      have h2 : 0 < 1 / spacing a ^ 2 := by have := hs a; positivity
      have : (2 / spacing a * Real.sin (κ a / 2)) ^ 2 = 4 * (1 / spacing a ^ 2) * Real.sin (κ a / 2) ^ 2 := by ring
      rw [this]
      nlinarith
    · rw [(hκ a).2 (hcells a (by omega))]
      simp
  have hW0 : 0 ≤ gridWaveNumberSq spacing κ := Finset.sum_nonneg fun a _ => sq_nonneg _
  have he0 : 0 < eps := by linarith
  set x : ℝ := F.dt / 2 * Real.sqrt (gridWaveNumberSq spacing κ / eps) with hx
  have hx0 : 0 ≤ x := by positivity
  have hxsq : x ^ 2 = F.dt ^ 2 / 4 * (gridWaveNumberSq spacing κ / eps) := by
    rw [hx, mul_pow, Real.sq_sqrt (by positivity)]; ring
  have hx1 : x ≤ 1 := by
    have : x ^ 2 ≤ 1 := by
      rw [hxsq]
      have h1 : gridWaveNumberSq spacing κ / eps ≤ gridWaveNumberSq spacing κ := div_le_self hW0 heps
      have h2 : 0 ≤ F.dt ^ 2 / 4 := by positivity
      calc F.dt ^ 2 / 4 * (gridWaveNumberSq spacing κ / eps) ≤ F.dt ^ 2 / 4 * (4 * ∑ a : Fin 3, (if (a : ℕ) < ndim then 1 / spacing a ^ 2 else 0)) :=
            mul_le_mul_of_nonneg_left (h1.trans hW) h2
        _ = 1 := by linear_combination hdt2
    nlinarith
  refine ⟨2 / F.dt * Real.arcsin x, ?_, ?_, ?_⟩
  · have := Real.arcsin_nonneg.2 hx0
    positivity
  · have := Real.arcsin_le_pi_div_two x
    rw [div_mul_eq_mul_div]
    exact div_le_div_of_nonneg_right (by linarith) hdt.le
  · by_cases he : e = 0
    · refine ⟨0, ?_⟩
      have h0 := wave_step_iff F rfl spacing rfl (eps : ℂ) hE jax κ hκ (2 / F.dt * Real.arcsin x) e 0
      rw [h0, he]
      have hc : ∀ d c, symCross d 0 c = 0 := by
        intro d c
        match c with
        | 0 => simp [symCross]
        | 1 => simp [symCross]
        | 2 => simp [symCross]
      simp [hc]
    · rw [C140_fdtd_dispersion F rfl spacing (fun a => (hs a).ne') rfl (eps : ℂ) (by exact_mod_cast he0.ne') hE hdt.ne' jax κ hκ _ e he ht]
      have h1 : 2 / F.dt * Real.arcsin x * F.dt / 2 = Real.arcsin x := by field_simp
      rw [h1, Real.sin_arcsin (by linarith) hx1]
      have : eps * (2 / F.dt * x) ^ 2 = gridWaveNumberSq spacing κ := by
        rw [mul_pow, hxsq]; field_simp; try ring
      exact_mod_cast this

/-- C140, the magic time step: along a line of cells in vacuum every transverse wave travels at exactly the
speed of light, one cell per step, whatever its wavelength. -/
theorem C140_fdtd_magic (spacing : Fin 3 → ℝ) (hs : ∀ a, 0 < spacing a) (h1 : s 1 = 1) (h2 : s 2 = 1) (jax : Bool)
    (κ : Fin 3 → ℝ) (hκ : FitsGrid s (fun _ => 1) κ) (e : Fin 3 → ℂ) (he : e ≠ 0) (ht : Transverse spacing κ e) :
    let F := plainFdtd (s := s) 1 (fun _ => 1) spacing (fun _ => 1)
    F.dt = spacing 0 ∧ ∃ h : Fin 3 → ℂ, Oscillates F jax (κ 0 / spacing 0) (fun _ => []) (waveState F κ e h) := by
  intro F
  have hdt : F.dt = spacing 0 := by
    change 1 / Real.sqrt _ = _
    have : ∑ a : Fin 3, (if (a : ℕ) < 1 then 1 / spacing a ^ 2 else 0) = (1 / spacing 0) ^ 2 := by
      rw [Fin.sum_univ_three]; simp
    rw [this, Real.sqrt_sq (by have := hs 0; positivity)]
    simp
  refine ⟨hdt, ?_⟩
  have hE : ∀ c i, F.epsT c i = (1 : ℂ) := by
    intro c i
    change yeeAvgG (fun _ => (1 : ℂ)) c i = 1
    match c with
    | 0 => change ((1 : ℂ) + 1) / 2 = 1; ring
    | 1 => change ((1 : ℂ) + 1) / 2 = 1; ring
    | 2 => change (((1 : ℂ) + 1) / 2 + (1 + 1) / 2) / 2 = 1; ring
  rw [C140_fdtd_dispersion F rfl spacing (fun a => (hs a).ne') rfl 1 one_ne_zero hE (by rw [hdt]; exact (hs 0).ne') jax κ hκ _ e he ht]
  have hW : gridWaveNumberSq spacing κ = (2 / spacing 0 * Real.sin (κ 0 / 2)) ^ 2 := by
    unfold gridWaveNumberSq
    rw [Fin.sum_univ_three, (hκ 1).2 h1, (hκ 2).2 h2]
    simp
  rw [hW, hdt, div_mul_cancel₀ _ (hs 0).ne']
  push_cast
  ring

/-! ### C140: FDFD -/

/-- C140, FDFD: a transverse plane-wave current in a homogeneous medium radiates the plane wave of amplitude
`k0 / (sum_a (2/dx_a sin(κ_a/2))^2 - k0^2 eps)`, off resonance and for any solver that solves; any Bloch
phases that fit the wave. -/
theorem C140_fdfd (spacing : Fin 3 → ℝ) (bloch : Fin 3 → ℂ) (κ : Fin 3 → ℝ) (hκ : FitsGrid s bloch κ) (k0 : ℝ) (eps : ℂ)
    (hres : (gridWaveNumberSq spacing κ : ℂ) - k0 ^ 2 * eps ≠ 0) (j : Fin 3 → ℂ) (ht : Transverse spacing κ j)
    (solver : Solver (Fin 3 × GIdx s))
    (hsolve : let A := fdfdMat (uniformOps s bloch spacing) k0 (fun _ _ => eps); ∀ b, A *ᵥ solver A b = b) :
    (solve3d (uniformOps s bloch spacing) k0 (fun _ _ => eps) solver (vecWave κ j)).1
      = vecWave κ (fun c => k0 / (gridWaveNumberSq spacing κ - k0 ^ 2 * eps) * j c) := by
  set A := fdfdMat (uniformOps s bloch spacing) k0 (fun _ _ => eps) with hA
  set e := vecWave (s := s) κ (fun c => k0 / (gridWaveNumberSq spacing κ - k0 ^ 2 * eps) * j c) with he
  have hcross : ∀ (d f : Fin 3 → ℂ) (k : ℂ) (c : Fin 3), symCross d (fun c => k * f c) c = k * symCross d f c := by
    intro d f k c
    match c with
    | 0 => simp [symCross]; ring
    | 1 => simp [symCross]; ring
    | 2 => simp [symCross]; ring
  have h1 : A *ᵥ vflat e = fun p => (k0 : ℂ) * vflat (vecWave κ j) p := by
    funext p
    obtain ⟨c, i⟩ := p
    rw [hA, fdfdMat_mulVec, he, curlOf_wave spacing hκ, curlOf_wave spacing hκ]
    have ht' : Transverse spacing κ (fun c => k0 / (gridWaveNumberSq spacing κ - k0 ^ 2 * eps) * j c) := by
      have h0 : ∑ a, bwdSymbol spacing κ a * j a = 0 := ht
      change ∑ a, bwdSymbol spacing κ a * (k0 / (gridWaveNumberSq spacing κ - k0 ^ 2 * eps) * j a) = 0
      have : ∀ a, bwdSymbol spacing κ a * (k0 / (gridWaveNumberSq spacing κ - k0 ^ 2 * eps) * j a)
          = k0 / (gridWaveNumberSq spacing κ - k0 ^ 2 * eps) * (bwdSymbol spacing κ a * j a) := fun a => by ring
      rw [Finset.sum_congr rfl fun a _ => this a, ← Finset.mul_sum, h0, mul_zero]
    unfold vecWave vflat
    rw [curl_curl_wave spacing κ _ ht' c]
    change _ = (k0 : ℂ) * (j c * planeWave κ i)
    field_simp
    try ring
  have hinj := mulVec_inj_of_solver A (solver A) hsolve
  have h2 : solver A (fun p => (k0 : ℂ) * vflat (vecWave κ j) p) = vflat e := hinj ((hsolve _).trans h1.symm)
  funext c i
  exact congrFun h2 (c, i)

/-- C140, modes: in a homogeneous cross section plane waves are modes of the one-dimensional mode operator,
with `beta^2 = k0^2 eps - (2/dx sin(κ/2))^2`. -/
theorem C140_mode_1d (spacing : Fin 3 → ℝ) (bloch : Fin 3 → ℂ) (κ : Fin 3 → ℝ) (hκ : FitsGrid s bloch κ) (k0 : ℝ) (eps : ℂ) :
    wgm1d (uniformOps s bloch spacing) k0 (fun _ => eps) (planeWave κ)
      = fun i => (k0 ^ 2 * eps - (((2 / spacing 0 * Real.sin (κ 0 / 2)) ^ 2 : ℝ) : ℂ)) * planeWave κ i := by
  have hd : ∀ (back : Bool) (a : Fin 3) (k : ℂ), (uniformOps s bloch spacing).deriv back a *ᵥ (fun i => k * planeWave κ i)
      = fun i => waveSymbol spacing κ back a * k * planeWave κ i := fun back a k => funext fun i => deriv_wave spacing hκ back a k i
  have h1 : (planeWave κ : SField s) = fun i => 1 * planeWave κ i := by funext i; rw [one_mul]
  funext i
  unfold wgm1d
  rw [h1, hd, hd]
  have := symbol_mul spacing κ 0
  linear_combination planeWave κ i * this

/-- C140, modes of two-dimensional cross sections: every polarisation of a plane wave is a mode, with
`beta^2 = k0^2 eps - (2/dx sin(κx/2))^2 - (2/dy sin(κy/2))^2`. -/
theorem C140_mode_2d (spacing : Fin 3 → ℝ) (bloch : Fin 3 → ℂ) (κ : Fin 3 → ℝ) (hκ : FitsGrid s bloch κ) (k0 : ℝ) (eps : ℂ) (heps : eps ≠ 0)
    (p q : ℂ) :
    let lam : ℂ := k0 ^ 2 * eps - (((2 / spacing 0 * Real.sin (κ 0 / 2)) ^ 2 + (2 / spacing 1 * Real.sin (κ 1 / 2)) ^ 2 : ℝ) : ℂ)
    wgm2d (uniformOps s bloch spacing) k0 (fun _ _ => eps) (fun i => p * planeWave κ i) (fun i => q * planeWave κ i)
      = (fun i => lam * (p * planeWave κ i), fun i => lam * (q * planeWave κ i)) := by
  intro lam
  have hd : ∀ (back : Bool) (a : Fin 3) (k : ℂ), (uniformOps s bloch spacing).deriv back a *ᵥ (fun i => k * planeWave κ i)
      = fun i => waveSymbol spacing κ back a * k * planeWave κ i := fun back a k => funext fun i => deriv_wave spacing hκ back a k i
  have hx := symbol_mul spacing κ 0
  have hy := symbol_mul spacing κ 1
  have hl : lam = k0 ^ 2 * eps + waveSymbol spacing κ true 0 * waveSymbol spacing κ false 0 + waveSymbol spacing κ true 1 * waveSymbol spacing κ false 1 := by
    rw [hx, hy]
    simp only [lam]
    push_cast
    ring
  have hdiv : transverseDiv ((uniformOps s bloch spacing).deriv false) (fun i => p * planeWave κ i) (fun i => q * planeWave κ i)
      = fun i => (waveSymbol spacing κ false 0 * p + waveSymbol spacing κ false 1 * q) * planeWave κ i := by
    unfold transverseDiv
    rw [hd, hd]
    funext i
    change waveSymbol spacing κ false 0 * p * planeWave κ i + waveSymbol spacing κ false 1 * q * planeWave κ i = _
    ring
  have hez : (fun i => 1 / eps * ((-((uniformOps s bloch spacing).deriv true 1)) *ᵥ (fun i => p * planeWave κ i)
        + (uniformOps s bloch spacing).deriv true 0 *ᵥ (fun i => q * planeWave κ i)) i)
      = fun i => (1 / eps * (waveSymbol spacing κ true 0 * q - waveSymbol spacing κ true 1 * p)) * planeWave κ i := by
    rw [Matrix.neg_mulVec, hd, hd]
    funext i
    change 1 / eps * (-(waveSymbol spacing κ true 1 * p * planeWave κ i) + waveSymbol spacing κ true 0 * q * planeWave κ i) = _
    ring
  unfold wgm2d
  simp only []
  rw [hdiv]
  have hez' := hez
  refine Prod.ext (funext fun i => ?_) (funext fun i => ?_)
  · simp only []
    rw [hez', hd, Matrix.neg_mulVec, hd, hl]
    simp only [Pi.neg_apply]
    field_simp
    ring
  · simp only []
    rw [hez', hd, hd, hl]
    field_simp
    ring

/-- The wave with `m a` periods over each axis fits a periodic grid. -/
theorem fits_periodic (m : Fin 3 → ℤ) (h : ∀ a, s a = 1 → m a = 0) : FitsGrid s (fun _ => 1) (fun a => 2 * Real.pi * m a / s a) := by
  intro a
  constructor
  · rw [Complex.exp_eq_one_iff]
    refine ⟨m a, ?_⟩
    have : (s a : ℂ) ≠ 0 := by exact_mod_cast NeZero.ne (s a)
    push_cast
    field_simp
  · intro h1
    simp [h a h1]

/-- A wave with one period on four cells, polarised along y, is transverse and travels one cell per step in
vacuum: a concrete instance of the hypotheses of the theorems above. -/
example : ∃ h : Fin 3 → ℂ, Oscillates (plainFdtd (s := shapeOf 4 1 1) 1 (fun _ => 1) (fun _ => 1) (fun _ => 1)) false
    (2 * Real.pi * (1 : ℤ) / (4 : ℕ) / 1) (fun _ => []) (waveState _ (fun a => 2 * Real.pi * ((![1, 0, 0] : Fin 3 → ℤ) a) / (shapeOf 4 1 1 a)) ![0, 1, 0] h) := by
  refine (C140_fdtd_magic (s := shapeOf 4 1 1) (fun _ => 1) (fun _ => one_pos) rfl rfl false _ (fits_periodic ![1, 0, 0] ?_) ![0, 1, 0] ?_ ?_).2
  · intro a ha
    match a with
    | 0 => exact absurd ha (by decide)
    | 1 => rfl
    | 2 => rfl
  · intro h
    have := congrFun h 1
    simp at this
  · unfold Transverse
    rw [Fin.sum_univ_three]
    simp [bwdSymbol]

end Simphox
