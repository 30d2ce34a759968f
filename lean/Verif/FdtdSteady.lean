import Mathlib.Analysis.SpecialFunctions.Trigonometric.Bounds
import Verif.FdtdCausal
import Verif.FdfdProps

/-!
# FDTD and FDFD describe the same harmonic fields (C128)

`FDTD.run_cw_port` (fdtd.py:231-282) drives the grid with `exp(1j * step * dt * k0)` times a fixed
profile. This module relates the periodic states of that iteration to `FDFD.solve` (fdfd.py:182-241).
-/

namespace Simphox

open Complex Matrix

variable {s : Fin 3 → ℕ} [∀ a, NeZero (s a)]

/-! ### Specification -/

/-- The wave number at which the leapfrog scheme of step `dt` oscillates like `exp(i k0 t)`: the scheme
sees `(2/dt) sin(k0 dt / 2)` in place of `k0`. -/
noncomputable def dispersed (dt k0 : ℝ) : ℝ := 2 / dt * Real.sin (k0 * dt / 2)

/-- The continuous-wave drive of fdtd.py:267-274: the profile `src` times `exp(1j * step * dt * k0)` and
the fixed phase `i exp(i k0 dt / 2)`, injected as an electric source in `region`. -/
noncomputable def cwSource (dt k0 : ℝ) (region : Fin 3 → GIdx s → Bool) (src : VField s) (step : ℕ) : List (Source s) :=
  [{ e := some fun c i => (I * exp (I * (k0 * dt / 2)) * src c i) * exp (I * (step * dt * k0)), h := none, region := region }]

/-- `phasor` in steady oscillation: after `n` steps every field value is the initial one times
`exp(i k0 n dt)`. -/
def Oscillates (F : Fdtd s) (jax : Bool) (k0 : ℝ) (srcs : ℕ → List (Source s)) (st : FState s F.npml) : Prop :=
  ∀ n : ℕ, (∀ c i, (F.run jax srcs st n).1 c i = exp (I * (n * F.dt * k0)) * st.1 c i) ∧
    ∀ c i, (F.run jax srcs st n).2.1 c i = exp (I * (n * F.dt * k0)) * st.2.1 c i

/-! ### Lemmas -/

theorem curl_smul' (g : YeeOps s) (ofH : Bool) (k : ℂ) (f : VField s) (c : Fin 3) (i : GIdx s) :
    g.curl ofH (fun c i => k * f c i) c i = k * g.curl ofH f c i := by
  have h := curl_lin g ofH k 0 f f c i
  have e : k • f + (0 : ℂ) • f = fun c i => k * f c i := by
    funext c i; simp
  rw [e] at h
  rw [h]; simp

/-- One step of the scheme with one electric source, NumPy mode. -/
theorem step_driven (F : Fdtd s) (hF : F.npml = 0) (st : FState s F.npml) (v : VField s) (region : Fin 3 → GIdx s → Bool)
    (hv : ∀ c i, region c i = false → v c i = 0) :
    let e' : VField s := fun c i => st.1 c i + F.g.curl true st.2.1 c i / F.epsT c i * F.dt - v c i * (F.dt / F.epsT c i)
    (F.step false st [{ e := some v, h := none, region := region }]).1 = e' ∧
      (F.step false st [{ e := some v, h := none, region := region }]).2.1 = fun c i => st.2.1 c i - F.g.curl false e' c i * F.dt := by
  obtain ⟨g, epsT, dt, np, pml⟩ := F
  simp only at hF
  subst hF
  obtain ⟨e, h, pe, ph⟩ := st
  have key : ∀ x : VField s, addSource false region (fun c i => (dt : ℂ) / epsT c i) (some v) x
      = fun c i => x c i - v c i * (dt / epsT c i) := by
    intro x
    funext c i
    by_cases hr : region c i = true
    · simp [addSource, hr]
    · simp [addSource, hr, hv c i (by simpa using hr)]
  have h1 : (Fdtd.stepE ⟨g, epsT, dt, 0, pml⟩ false (e, h, pe, ph) [{ e := some v, h := none, region := region }]).1
      = fun c i => e c i + g.curl true h c i / epsT c i * dt - v c i * (dt / epsT c i) := key _
  refine ⟨h1, ?_⟩
  funext c i
  show h c i - g.curl false (Fdtd.stepE ⟨g, epsT, dt, 0, pml⟩ false (e, h, pe, ph) [{ e := some v, h := none, region := region }]).1 c i * dt = _
  rw [h1]

theorem dispersed_phase (dt k0 : ℝ) (hdt : dt ≠ 0) :
    exp (I * (dt * k0)) - 1 = exp (I * (k0 * dt / 2)) * (I * dispersed dt k0 * dt) := by
  have hd : (dt : ℂ) ≠ 0 := by exact_mod_cast hdt
  have h1 : ((dispersed dt k0 : ℝ) : ℂ) * dt = 2 * Complex.sin ((k0 * dt / 2 : ℝ) : ℂ) := by
    unfold dispersed
    push_cast
    field_simp
  have h2 : exp (I * (dt * k0)) = exp (I * (k0 * dt / 2)) * exp (I * (k0 * dt / 2)) := by
    rw [← exp_add]; congr 1; ring
  have h3 : exp (I * (k0 * dt / 2)) * exp (-(I * (k0 * dt / 2))) = 1 := by
    rw [← exp_add]; simp
  have h4 : I * (2 * Complex.sin ((k0 * dt / 2 : ℝ) : ℂ)) = exp (I * (k0 * dt / 2)) - exp (-(I * (k0 * dt / 2))) := by
    have e1 : I * (k0 * dt / 2 : ℂ) = ((k0 * dt / 2 : ℝ) : ℂ) * I := by push_cast; ring
    have e2 : -(I * (k0 * dt / 2 : ℂ)) = -((k0 * dt / 2 : ℝ) : ℂ) * I := by push_cast; ring
    rw [e2, e1, Complex.sin]
    linear_combination (-exp (((k0 * dt / 2 : ℝ) : ℂ) * I) + exp (-((k0 * dt / 2 : ℝ) : ℂ) * I)) * I_mul_I
  rw [mul_assoc I, h1, h4, h2]
  linear_combination h3

/-! ### C128 -/

/-- C128: a state oscillates under the drive exactly if its electric part solves the FDFD system of the
dispersed wave number and its magnetic part is `-exp(i k0 dt / 2)` times the magnetic field FDFD
computes from it. Any cell sizes, any permittivity without zeros, any time step, any source region. -/
theorem C128_oscillates_iff (F : Fdtd s) (hF : F.npml = 0) (hb : ∀ a, F.g.bloch a = 1) (heps : ∀ c i, F.epsT c i ≠ 0)
    (hdt : F.dt ≠ 0) (k0 : ℝ) (hk : dispersed F.dt k0 ≠ 0) (region : Fin 3 → GIdx s → Bool) (src : VField s)
    (hsrc : ∀ c i, region c i = false → src c i = 0) (st : FState s F.npml) :
    Oscillates F false k0 (cwSource F.dt k0 region src) st ↔
      (fdfdMat F.g (dispersed F.dt k0) F.epsT *ᵥ vflat st.1 = fun p => (dispersed F.dt k0 : ℂ) * vflat src p) ∧
      ∀ c i, st.2.1 c i = -exp (I * (k0 * F.dt / 2)) * e2h F.g (dispersed F.dt k0) st.1 c i := by
  have hz := dispersed_phase F.dt k0 hdt
  set K : ℝ := dispersed F.dt k0 with hKdef
  set w : ℂ := exp (I * (k0 * F.dt / 2)) with hw
  set z : ℂ := exp (I * (F.dt * k0)) with hzdef
  have hw0 : w ≠ 0 := exp_ne_zero _
  have hK : (K : ℂ) ≠ 0 := by exact_mod_cast hk
  have hd : (F.dt : ℂ) ≠ 0 := by exact_mod_cast hdt
  have hz0 : z ≠ 0 := exp_ne_zero _
  have hpow : ∀ n : ℕ, exp (I * (n * F.dt * k0)) = z ^ n := by
    intro n
    rw [hzdef, ← Complex.exp_nat_mul]
    congr 1; ring
  have hww : z = w * w := by rw [hzdef, hw, ← exp_add]; congr 1; ring
  have hvsup : ∀ (n : ℕ) c i, region c i = false → (I * w * src c i) * exp (I * (n * F.dt * k0)) = 0 := by
    intro n c i h; rw [hsrc c i h]; ring
  -- the two conditions for one step
  have hcond : ((fdfdMat F.g K F.epsT *ᵥ vflat st.1 = fun p => (K : ℂ) * vflat src p) ∧
        ∀ c i, st.2.1 c i = -w * e2h F.g K st.1 c i) ↔
      (∀ c i, z * st.1 c i = st.1 c i + F.g.curl true st.2.1 c i / F.epsT c i * F.dt - (I * w * src c i) * (F.dt / F.epsT c i)) ∧
        ∀ c i, z * st.2.1 c i = st.2.1 c i - z * F.g.curl false st.1 c i * F.dt := by
    have hH : (∀ c i, st.2.1 c i = -w * e2h F.g K st.1 c i) ↔ ∀ c i, z * st.2.1 c i = st.2.1 c i - z * F.g.curl false st.1 c i * F.dt := by
      refine forall_congr' fun c => forall_congr' fun i => ?_
      have e : e2h F.g K st.1 c i = F.g.curl false st.1 c i / (I * K) := rfl
      rw [e]
      have hne : w * (I * K * F.dt) ≠ 0 := mul_ne_zero hw0 (mul_ne_zero (mul_ne_zero I_ne_zero hK) hd)
      constructor
      · intro h
        have h' : I * K * st.2.1 c i = -w * F.g.curl false st.1 c i := by
          rw [h]; field_simp
        linear_combination (st.2.1 c i) * hz + w * F.dt * h' + (-F.g.curl false st.1 c i * F.dt) * (-hww)
      · intro h
        have h' : w * (I * K * F.dt) * (st.2.1 c i) = w * (I * K * F.dt) * (-w * (F.g.curl false st.1 c i / (I * K))) := by
          have : w * (I * K * F.dt) * (-w * (F.g.curl false st.1 c i / (I * K))) = - (w * w) * F.g.curl false st.1 c i * F.dt := by
            field_simp
          rw [this, ← hww, ← hz]
          linear_combination h
        exact mul_left_cancel₀ hne h'
    rw [hH]
    refine and_congr_left fun hh => ?_
    have hh' := hH.2 hh
    have hq : st.2.1 = fun c i => (-w / (I * K)) * F.g.curl false st.1 c i := by
      funext c i
      rw [hh' c i]
      have e : e2h F.g K st.1 c i = F.g.curl false st.1 c i / (I * K) := rfl
      rw [e]; ring
    have hcc : ∀ c i, F.g.curl true st.2.1 c i = (-w / (I * K)) * curlOf (F.g.deriv true) (curlOf (F.g.deriv false) st.1) c i := by
      intro c i
      rw [hq, curl_smul']
      have : (fun c i => F.g.curl false st.1 c i) = curlOf (F.g.deriv false) st.1 := by
        funext c i; rw [curl_eq_curlOf F.g hb]
      rw [show F.g.curl false st.1 = curlOf (F.g.deriv false) st.1 from this, curl_eq_curlOf F.g hb]
    constructor
    · intro h c i
      have h1 := congrFun h (c, i)
      rw [fdfdMat_mulVec] at h1
      rw [hcc]
      have h2 : curlOf (F.g.deriv true) (curlOf (F.g.deriv false) st.1) c i = K * src c i + K ^ 2 * (F.epsT c i * st.1 c i) := by
        have h3 : vflat src (c, i) = src c i := rfl
        simp only [h3] at h1
        linear_combination h1
      rw [h2]
      have h4 : z = 1 + w * (I * K * F.dt) := by linear_combination hz
      rw [h4]
      have he := heps c i
      field_simp
      linear_combination (-w * (F.dt : ℂ) * (K * F.epsT c i * st.1 c i) - src c i * F.dt * w) * (-I_sq)
    · intro h
      funext p
      obtain ⟨c, i⟩ := p
      have h1 := h c i
      rw [hcc] at h1
      rw [fdfdMat_mulVec]
      show _ = (K : ℂ) * src c i
      have h4 : z = 1 + w * (I * K * F.dt) := by linear_combination hz
      rw [h4] at h1
      have he := heps c i
      field_simp at h1
      have hne : w * F.dt ≠ 0 := mul_ne_zero hw0 hd
      apply mul_left_cancel₀ hne
      linear_combination h1 - (w * F.dt * K * src c i + w * F.dt * K ^ 2 * F.epsT c i * st.1 c i) * I_sq
  rw [hcond]
  unfold Oscillates
  constructor
  · intro h
    have h1 := h 1
    have hs := step_driven F hF st (fun c i => (I * w * src c i) * exp (I * ((0 : ℕ) * F.dt * k0))) region (hvsup 0)
    have e0 : F.run false (cwSource F.dt k0 region src) st 1 = F.step false st
        [{ e := some (fun c i => (I * w * src c i) * exp (I * ((0 : ℕ) * F.dt * k0))), h := none, region := region }] := rfl
    rw [e0] at h1
    simp only [hpow, pow_one, pow_zero, mul_one] at h1 hs
    obtain ⟨ha, hbb⟩ := h1
    obtain ⟨sa, sb⟩ := hs
    refine ⟨fun c i => ?_, fun c i => ?_⟩
    · rw [← ha c i, sa]
    · rw [← hbb c i, sb]
      have : (fun c i => st.1 c i + F.g.curl true st.2.1 c i / F.epsT c i * F.dt - I * w * src c i * (F.dt / F.epsT c i)) = fun c i => z * st.1 c i := by
        funext c i; rw [← ha c i, sa]
      rw [this]
      simp only [curl_smul']
  · rintro ⟨hE, hHh⟩ n
    induction n with
    | zero => simp only [Nat.cast_zero, zero_mul, mul_zero, exp_zero, one_mul]; exact ⟨fun _ _ => rfl, fun _ _ => rfl⟩
    | succ n ih =>
      obtain ⟨iE, iH⟩ := ih
      have hs := step_driven F hF (F.run false (cwSource F.dt k0 region src) st n)
        (fun c i => (I * w * src c i) * exp (I * (n * F.dt * k0))) region (hvsup n)
      have e0 : F.run false (cwSource F.dt k0 region src) st (n + 1) = F.step false (F.run false (cwSource F.dt k0 region src) st n)
        [{ e := some (fun c i => (I * w * src c i) * exp (I * (n * F.dt * k0))), h := none, region := region }] := rfl
      rw [e0]
      have fE : (F.run false (cwSource F.dt k0 region src) st n).1 = fun c i => z ^ n * st.1 c i := by
        funext c i; rw [iE, hpow]
      have fH : (F.run false (cwSource F.dt k0 region src) st n).2.1 = fun c i => z ^ n * st.2.1 c i := by
        funext c i; rw [iH, hpow]
      obtain ⟨sa, sb⟩ := hs
      simp only [fE, fH, curl_smul', hpow] at sa sb
      have hstep : (fun c i => z ^ n * st.1 c i + z ^ n * F.g.curl true st.2.1 c i / F.epsT c i * F.dt
          - I * w * src c i * z ^ n * (F.dt / F.epsT c i)) = fun c i => z ^ (n + 1) * st.1 c i := by
        funext c i
        rw [pow_succ]
        linear_combination (-z ^ n) * hE c i
      rw [hstep] at sa sb
      simp only [hpow]
      rw [sa, sb]
      refine ⟨fun _ _ => rfl, fun c i => ?_⟩
      simp only [curl_smul']
      rw [pow_succ]
      linear_combination (-z ^ n) * hHh c i

/-- C128, what holds of the pair of simulators: for an exact solver, the electric field FDFD returns at the
dispersed wave number, together with minus its magnetic field half a step later, is carried on by
`FDTD.step` for ever, and no other magnetic field is. -/
theorem C128_fdfd_continues_partial (F : Fdtd s) (hF : F.npml = 0) (hb : ∀ a, F.g.bloch a = 1) (heps : ∀ c i, F.epsT c i ≠ 0)
    (hdt : F.dt ≠ 0) (k0 : ℝ) (hk : dispersed F.dt k0 ≠ 0) (region : Fin 3 → GIdx s → Bool) (src : VField s)
    (hsrc : ∀ c i, region c i = false → src c i = 0) (solver : Solver (Fin 3 × GIdx s))
    (hsolve : ∀ b, fdfdMat F.g (dispersed F.dt k0) F.epsT *ᵥ solver (fdfdMat F.g (dispersed F.dt k0) F.epsT) b = b)
    (st : FState s F.npml) (he : st.1 = (solve3d F.g (dispersed F.dt k0) F.epsT solver src).1) :
    Oscillates F false k0 (cwSource F.dt k0 region src) st ↔
      ∀ c i, st.2.1 c i = -exp (I * (k0 * F.dt / 2)) * (solve3d F.g (dispersed F.dt k0) F.epsT solver src).2 c i := by
  rw [C128_oscillates_iff F hF hb heps hdt k0 hk region src hsrc st]
  have h1 : fdfdMat F.g (dispersed F.dt k0) F.epsT *ᵥ vflat st.1 = fun p => (dispersed F.dt k0 : ℂ) * vflat src p := by
    rw [he]; exact hsolve _
  have h2 : e2h F.g (dispersed F.dt k0) st.1 = (solve3d F.g (dispersed F.dt k0) F.epsT solver src).2 := by
    rw [he]; rfl
  rw [h2]
  exact ⟨fun h => h.2, fun h => ⟨h1, h⟩⟩

/-- C128, the electric field is unique where FDFD's is: if the FDFD system has one solution, every
oscillating state has the electric field FDFD returns. -/
theorem C128_electric_agrees (F : Fdtd s) (hF : F.npml = 0) (hb : ∀ a, F.g.bloch a = 1) (heps : ∀ c i, F.epsT c i ≠ 0)
    (hdt : F.dt ≠ 0) (k0 : ℝ) (hk : dispersed F.dt k0 ≠ 0) (region : Fin 3 → GIdx s → Bool) (src : VField s)
    (hsrc : ∀ c i, region c i = false → src c i = 0) (solver : Solver (Fin 3 × GIdx s))
    (hsolve : ∀ b, fdfdMat F.g (dispersed F.dt k0) F.epsT *ᵥ solver (fdfdMat F.g (dispersed F.dt k0) F.epsT) b = b)
    (st : FState s F.npml) (ho : Oscillates F false k0 (cwSource F.dt k0 region src) st) :
    st.1 = (solve3d F.g (dispersed F.dt k0) F.epsT solver src).1 := by
  have h := ((C128_oscillates_iff F hF hb heps hdt k0 hk region src hsrc st).1 ho).1
  set A := fdfdMat F.g (dispersed F.dt k0) F.epsT
  have hsurj : Function.Surjective A.mulVec := fun b => ⟨_, hsolve b⟩
  have hinj : Function.Injective A.mulVec := (LinearMap.injective_iff_surjective (f := A.mulVecLin)).2 hsurj
  have h2 : vflat st.1 = solver A fun p => (dispersed F.dt k0 : ℂ) * vflat src p := hinj (h.trans (hsolve _).symm)
  funext c i
  exact congrFun h2 (c, i)

/-- C128, the failure: the two simulators disagree on the magnetic field. On the line of two cells with
`wavelength = 2` (so the Courant step is `1` and the dispersed wave number `2`) there are fields `e`, `h`
with `h` FDFD's magnetic field of the mode `e`, and the FDTD started from `e` and `h` (half a step later)
does not oscillate; started from `e` and `-h` it does. -/
theorem C128_magnetic_sign_counterexample :
    let F : Fdtd (shapeOf 2 1 1) := plainFdtd 1 (fun _ => 1) (fun _ => 1) (fun _ => 1)
    ∃ e h : VField (shapeOf 2 1 1), dispersed F.dt Real.pi = 2 ∧ fdfdMat F.g 2 F.epsT *ᵥ vflat e = 0 ∧ h = e2h F.g 2 e ∧
      ¬ Oscillates F false Real.pi (fun _ => []) (e, fun c i => exp (I * (Real.pi * F.dt / 2)) * h c i, fun k => k.elim0, fun k => k.elim0) ∧
      Oscillates F false Real.pi (fun _ => []) (e, fun c i => -exp (I * (Real.pi * F.dt / 2)) * h c i, fun k => k.elim0, fun k => k.elim0) := by
  intro F
  have hdt : F.dt = 1 := by
    show courantDt 1 (fun _ => 1) = 1
    simp [courantDt]
  have heps : F.epsT = fun _ _ => 1 := by
    show yeeAvgG (fun _ => 1) = _
    funext c i
    match c with
    | 0 => simp [yeeAvgG, rollFwd]
    | 1 => simp [yeeAvgG, rollFwd]
    | 2 => simp [yeeAvgG, rollFwd]
  have hK : dispersed F.dt Real.pi = 2 := by
    rw [hdt]; unfold dispersed; simp
  have hfd : fdfdMat F.g 2 F.epsT *ᵥ vflat altField = 0 := by
    rw [heps]; exact altField_mulVec
  have hsrcs : ∀ (F : Fdtd (shapeOf 2 1 1)) st n, F.npml = 0 → F.run false (cwSource F.dt Real.pi (fun _ _ => true) (fun _ _ => 0)) st n = F.run false (fun _ => []) st n := by
    intro F st n hF
    induction n with
    | zero => rfl
    | succ n ih =>
      show F.step false (F.run false _ st n) _ = F.step false (F.run false _ st n) _
      rw [ih]
      obtain ⟨g, epsT, dt, np, pml⟩ := F
      simp only at hF
      subst hF
      have : ∀ (st : FState (shapeOf 2 1 1) 0), Fdtd.step ⟨g, epsT, dt, 0, pml⟩ false st (cwSource dt Real.pi (fun _ _ => true) (fun _ _ => 0) n)
          = Fdtd.step ⟨g, epsT, dt, 0, pml⟩ false st [] := by
        intro st
        simp [Fdtd.step, Fdtd.stepE, Fdtd.stepH, cwSource, addSource]
      exact this _
  have hosc : ∀ st, Oscillates F false Real.pi (fun _ => []) st ↔ Oscillates F false Real.pi (cwSource F.dt Real.pi (fun _ _ => true) (fun _ _ => 0)) st := by
    intro st
    unfold Oscillates
    simp only [hsrcs F st _ rfl]
  have hiff := fun st => C128_oscillates_iff F rfl (fun _ => rfl) (by rw [heps]; intro _ _; exact one_ne_zero) (by rw [hdt]; exact one_ne_zero)
    Real.pi (by rw [hK]; norm_num) (fun _ _ => true) (fun _ _ => 0) (by simp) st
  rw [hK] at hiff
  have h0 : (fdfdMat F.g 2 F.epsT *ᵥ vflat altField = fun p => ((2 : ℝ) : ℂ) * vflat (fun _ _ => 0) p) := by
    rw [hfd]; funext p; simp [vflat]
  refine ⟨altField, e2h F.g 2 altField, hK, hfd, rfl, ?_, ?_⟩
  · rw [hosc, hiff]
    rintro ⟨-, hh⟩
    have hz : e2h F.g 2 altField = fun _ _ => 0 := by
      funext c i
      have := hh c i
      have hw : exp (I * (Real.pi * F.dt / 2)) ≠ 0 := exp_ne_zero _
      have h3 : (2 * exp (I * (Real.pi * F.dt / 2))) * e2h F.g 2 altField c i = 0 := by linear_combination this
      exact (mul_eq_zero.1 h3).resolve_left (mul_ne_zero two_ne_zero hw)
    have hrt := C48_roundtrip_partial F.g (fun _ => rfl) 2 (by norm_num) (fun _ _ => 1) altField (fun _ _ => one_ne_zero) altField_mulVec
    rw [hz] at hrt
    have h' := congrFun (congrFun hrt 2) (fun _ => 0)
    have h1 : altField 2 (fun _ => 0) = 1 := rfl
    rw [Pi.neg_apply, Pi.neg_apply, h1] at h'
    have hc : F.g.curl true (fun _ _ => 0) 2 (fun _ => 0) = 0 := by
      have := curl_smul' F.g true 0 (fun _ _ => 0) 2 (fun _ => 0)
      simpa using this
    unfold h2e at h'
    rw [hc] at h'
    norm_num at h'
  · rw [hosc, hiff]
    exact ⟨h0, fun _ _ => rfl⟩

/-- C128, the dispersed wave number is close to the wave number asked for: within
`k0^3 dt^2 / 24` below it. -/
theorem C128_dispersed_bounds (dt k0 : ℝ) (hdt : 0 < dt) (hk : 0 < k0) :
    k0 - k0 ^ 3 * dt ^ 2 / 24 < dispersed dt k0 ∧ dispersed dt k0 < k0 := by
  have hx : 0 < k0 * dt / 2 := by positivity
  have h1 := Real.sin_lt hx
  have h2 := Real.sin_gt_sub_cube hx
  unfold dispersed
  constructor
  · have : k0 - k0 ^ 3 * dt ^ 2 / 24 = 2 / dt * (k0 * dt / 2 - (k0 * dt / 2) ^ 3 / 6) := by field_simp; ring
    rw [this]
    exact mul_lt_mul_of_pos_left h2 (by positivity)
  · have : k0 = 2 / dt * (k0 * dt / 2) := by field_simp
    calc 2 / dt * Real.sin (k0 * dt / 2) < 2 / dt * (k0 * dt / 2) := mul_lt_mul_of_pos_left h1 (by positivity)
      _ = k0 := this.symm

end Simphox
