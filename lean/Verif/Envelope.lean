import Verif.RectProps
import Verif.CascadeProps
import Mathlib.Analysis.SpecialFunctions.Log.Base

/-! # The size estimates of `circuit/envelope.py` -/

namespace Simphox

/-- The dictionary the three functions of envelope.py return (envelope.py:27-33, 57-63, 88-94). -/
structure Envelope where
  layers : ℝ
  length : ℝ
  height : ℝ
  footprint : ℝ
  loss : ℝ

/-- The last lines common to the three functions: height and length in µm from the number of waveguides and
of layers, the dictionary in cm (envelope.py:25-33, 55-63, 86-94). -/
noncomputable def envelopeOf (layers guides pitch device loss : ℝ) : Envelope :=
  let height := guides * pitch
  let length := device * layers
  { layers := layers, length := length / 1e4, height := height / 1e4, footprint := length * height / 1e8,
    loss := loss }

/-- `np.ceil(np.log2(n))` (envelope.py:20, 51, 81); exact real logarithm. -/
noncomputable def ceilLog2 (n : ℕ) : ℝ := (⌈Real.logb 2 n⌉ : ℤ)

/-- `binary_svd_depth_size(n, k, interport_distance, device_length, loss_db)` (envelope.py:6-33), for `n, k ≥ 1`. -/
noncomputable def binarySvdDepthSize (n k : ℕ) (pitch device lossDb : ℝ) : Envelope :=
  let inputLayers := ceilLog2 n
  let unitaryLayers := k * ceilLog2 n
  let attenuateAndUnitary : ℝ := k + 1
  let rows : ℝ := (⌈(n : ℝ) / k⌉ : ℤ)
  let layers := inputLayers + unitaryLayers + attenuateAndUnitary
  envelopeOf layers (rows * n) pitch device
    (-layers * lossDb + 10 * Real.logb 10 (1 / rows) + 10 * Real.logb 10 (1 / n) - 3)

/-- `rectangular_depth_size(n, interport_distance, device_length, loss_db, svd)` (envelope.py:36-63), `n ≥ 1`. -/
noncomputable def rectangularDepthSize (n : ℕ) (pitch device lossDb : ℝ) (svd : Bool) : Envelope :=
  let s : ℝ := if svd then 1 else 0
  let inputLayers := ceilLog2 n
  let unitaryLayers := n * (1 + s) + s
  let layers := inputLayers + unitaryLayers
  envelopeOf layers n pitch device (-layers * lossDb - 10 * Real.logb 10 n - 3 * s)

/-- `k` in `binary_equiv_cascade_size` (envelope.py:80). -/
noncomputable def equivInputs (n nEquiv : ℕ) : ℝ := (⌈(nEquiv : ℝ) ^ 2 / n⌉ : ℤ)

/-- `binary_equiv_cascade_size(n, n_equiv, interport_distance, device_length, loss_db)` (envelope.py:66-94),
`n ≥ 1`. -/
noncomputable def binaryEquivCascadeSize (n nEquiv : ℕ) (pitch device lossDb : ℝ) : Envelope :=
  let k := equivInputs n nEquiv
  let inputLayers := ceilLog2 n
  let unitaryLayers := k * ceilLog2 n
  let layers := inputLayers + unitaryLayers + (k + 1)
  envelopeOf layers n pitch device (-layers * lossDb + 10 * Real.logb 10 (1 / n))

end Simphox
