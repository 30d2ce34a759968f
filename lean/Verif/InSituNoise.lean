import Verif.InSituProps
import Mathlib.Probability.Distributions.Gaussian.Real

/-!
# In-situ backpropagation with noise (`simphox/circuit/forward.py:347-414`)

The noise arguments `tap_pd_shot_noise`, `io_amp_error_std` and `io_phase_error_std` of `in_situ_matrix_fn`. The numbers
that `np.random.randn` returns are arguments; every call draws a fresh array.
-/

namespace Simphox

open Complex

/-- One entry of one of the arrays drawn with `np.random.randn` for `K` inputs: amplitude and phase of the adjoint inputs
(forward.py:388-389), the tap detectors of sum and difference (forward.py:395-396) or of sum, forward and adjoint fields
(forward.py:404-406) at position `t` of the propagation and rail `r`, amplitude and phase of the outputs
(forward.py:367-368). -/
inductive NoiseIdx (K : ℕ)
  | amp (c : Fin K) (r : ℕ)
  | phase (c : Fin K) (r : ℕ)
  | sum (c : Fin K) (t r : ℕ)
  | diff (c : Fin K) (t r : ℕ)
  | fwd (c : Fin K) (t r : ℕ)
  | adj (c : Fin K) (t r : ℕ)
  | outAmp (c : Fin K) (r : ℕ)
  | outPhase (c : Fin K) (r : ℕ)
  deriving DecidableEq

/-- The arguments of `in_situ_matrix_fn` (forward.py:347): `tap_pd_shot_noise`, `io_amp_error_std`,
`io_phase_error_std`. -/
structure NoiseLevels where
  tap : ℝ
  amp : ℝ
  phase : ℝ

/-- An amplitude sent or received with amplitude and phase errors (forward.py:367-369, 388-390):
`abs(abs(z) * (1 + std * randn)) * exp(1j * (angle(z) + std * randn * pi))`. -/
noncomputable def noisyPass (L : NoiseLevels) (ξ η : ℝ) (z : ℂ) : ℂ :=
  (|‖z‖ * (1 + L.amp * ξ)| : ℝ) * exp (I * ((arg z + L.phase * η * Real.pi : ℝ) : ℂ))

/-- A tap photodetector (forward.py:395-396, 404-406): `abs(z) ** 2 + noise * abs(z) * randn`. -/
noncomputable def tapMeasure (L : NoiseLevels) (ξ : ℝ) (z : ℂ) : ℝ := ‖z‖ ^ 2 + L.tap * ‖z‖ * ξ

/-- `matrix(params, inputs)` of `in_situ_matrix_fn` (forward.py:363-370), given the noiseless output `fwd` of the
matrix function (C11): input `c`, rail `r`. -/
noncomputable def inSituForward (L : NoiseLevels) {K : ℕ} (d : NoiseIdx K → ℝ) (fwd : Fin K → ℕ → ℂ) (c : Fin K) (r : ℕ) : ℂ :=
  noisyPass L (d (.outAmp c r)) (d (.outPhase c r)) (fwd c r)

/-- The adjoint inputs (forward.py:387-390, 400-401). -/
noncomputable def adjointInputsNoisy (E : InSituEngine) (analog : Bool) (L : NoiseLevels) {K : ℕ} (d : NoiseIdx K → ℝ) (c : Fin K)
    (g : ℕ → ℂ) : ℕ → ℂ :=
  if analog then fun r => noisyPass L (d (.amp c r)) (d (.phase c r)) (E.bapply g r) else (E.bprop g).reverse.headD 0

/-- `grad_powers` (forward.py:391-407) at position `t` and rail `r` for the normalised input `x` and cotangent `g`. -/
noncomputable def gradPowerNoisy (E : InSituEngine) (analog : Bool) (L : NoiseLevels) {K : ℕ} (d : NoiseIdx K → ℝ) (c : Fin K)
    (x g : ℕ → ℂ) (t r : ℕ) : ℝ :=
  let w := adjointInputsNoisy E analog L d c g
  let sum := (E.fprop fun r => x r - I * starRingEnd ℂ (w r)).getD t 0 r
  if analog then
    let diff := (E.fprop fun r => x r + I * starRingEnd ℂ (w r)).getD t 0 r
    (tapMeasure L (d (.sum c t r)) sum - tapMeasure L (d (.diff c t r)) diff) / 2
  else
    tapMeasure L (d (.sum c t r)) sum - tapMeasure L (d (.fwd c t r)) ((E.fprop x).getD t 0 r) -
      tapMeasure L (d (.adj c t r)) ((E.bprop g).reverse.getD t 0 r)

/-- `matrix_bwd` (forward.py:376-411) for inputs of shape `(n, K)`, with the numbers `d` drawn in this call. -/
noncomputable def inSituBwdNoisy (E : InSituEngine) (analog : Bool) (L : NoiseLevels) {K : ℕ} (d : NoiseIdx K → ℝ) (n : ℕ)
    (nodes : List Node) (X G : Fin K → ℕ → ℂ) : Option (InSituResult K) :=
  let inorm := maxRowNorm n X
  let gnorm := maxRowNorm n G
  if inorm = 0 ∨ gnorm = 0 then none else
  let x : Fin K → ℕ → ℂ := fun c r => X c r / inorm
  let g : Fin K → ℕ → ℂ := fun c r => G c r / gnorm
  let pow : ℕ → ℕ → ℝ := fun t r =>
    ∑ c, gradPowerNoisy E analog L d c (x c) (g c) t r / 2 * (inorm * gnorm)
  let loc := phaseShiftLocalize nodes (E.fprop 0).length pow
  some ⟨loc.1, loc.2.1, loc.2.2, fun c => adjointInputsNoisy E analog L d c (g c)⟩

end Simphox
