import Mathlib.Data.Real.Basic
import Mathlib.Data.Complex.Basic
import Mathlib.Data.ZMod.Basic
import Mathlib.Data.EReal.Basic
import Mathlib.Analysis.SpecialFunctions.Exp
import Mathlib.Analysis.SpecialFunctions.Pow.Real
import Mathlib.LinearAlgebra.Matrix.Trace
import Mathlib.LinearAlgebra.Matrix.ConjTranspose

/-!
# Model of parts of `simphox/utils.py`

Exact real/complex arithmetic. An axis of length `n` is indexed by `ZMod n` (for `n > 0` this is
`Fin n` with wrap-around arithmetic), so that `np.roll(p, s)[i] = p[i - s]`.
-/

namespace Simphox

open Complex

/-- A two dimensional array with wrap-around indices. -/
abbrev Arr2 (m n : ℕ) (α : Type) := ZMod m → ZMod n → α

/-- `np.roll(p, shift=s, axis=0)` on a two dimensional array. -/
def roll0 {m n : ℕ} {α : Type} (s : ℤ) (p : Arr2 m n α) : Arr2 m n α := fun i j => p (i - s) j
/-- `np.roll(p, shift=s, axis=1)` on a two dimensional array. -/
def roll1 {m n : ℕ} {α : Type} (s : ℤ) (p : Arr2 m n α) : Arr2 m n α := fun i j => p i (j - s)

/-- Entry-wise `(p + q) / 2`. -/
noncomputable def mean2 {m n : ℕ} (p q : Arr2 m n ℝ) : Arr2 m n ℝ := fun i j => (p i j + q i j) / 2

/-- The three stacked components returned by `yee_avg` and `yee_avg_jax`. -/
structure Yee3 (m n : ℕ) where
  x : Arr2 m n ℝ
  y : Arr2 m n ℝ
  z : Arr2 m n ℝ

/-- `yee_avg(params, shift)` (utils.py:195-200). -/
noncomputable def yeeAvg {m n : ℕ} (s : ℤ) (p : Arr2 m n ℝ) : Yee3 m n :=
  let px := mean2 p (roll1 s p)
  let py := mean2 p (roll0 s p)
  ⟨px, py, mean2 py (roll1 s py)⟩

/-- `yee_avg_2d_z(params)` (utils.py:203-207). -/
noncomputable def yeeAvg2dZ {m n : ℕ} (p : Arr2 m n ℝ) : Arr2 m n ℝ :=
  let py := mean2 p (roll0 1 p)
  mean2 py (roll1 1 py)

/-- `yee_avg_jax(params)` (utils.py:210-215). -/
noncomputable def yeeAvgJax {m n : ℕ} (p : Arr2 m n ℝ) : Yee3 m n :=
  let px := mean2 p (roll1 1 p)
  let py := mean2 p (roll0 1 p)
  ⟨px, py, mean2 py (roll1 1 py)⟩

/-- The dictionary of `splitter_metrics(sparams)` (utils.py:229-238); `s` maps port names to complex
amplitudes, `ports` is the list of ports of the array. -/
structure SplitterMetrics where
  reflectivity : ℝ
  transmissivity : ℝ
  reflection : ℝ
  insertion : ℝ
  upper : ℝ
  lower : ℝ

/-- utils.py:229-238. Division by zero (no output power) gives `nan` in numpy and `0` here; the
theorems assume output power. -/
noncomputable def splitterMetrics (ports : List String) (s : String → ℂ) : SplitterMetrics :=
  let pw := fun k => ‖s k‖ ^ 2
  { reflectivity := pw "b0" / (pw "b0" + pw "b1")
    transmissivity := pw "b1" / (pw "b0" + pw "b1")
    reflection := pw "a0"
    insertion := (ports.map pw).sum
    upper := pw "b0"
    lower := pw "b1" }

/-- `normalized_error(u)(uhat)` (utils.py:285-303). -/
noncomputable def normalizedError {n : ℕ} (u uhat : Matrix (Fin n) (Fin n) ℂ) : ℝ :=
  √(1 - ‖(u.conjTranspose * uhat).trace‖ ^ 2 / ‖(uhat.conjTranspose * uhat).trace‖ ^ 2)

/-! ### `gaussian_fn` -/

/-- `gaussian_fn` (utils.py:336-364). `none` is the `ValueError`. `pulse_width` and `fwidth` are
floats that may be infinite, modelled as extended reals; `2 pi / x` is `0` for infinite `x`. The
value of the returned function is modelled only for a finite resulting `fwidth`. -/
noncomputable def gaussianFn (wavelength : ℝ) (pulseWidth fwidth : EReal)
    (startTime centerTimeFactor chirp : ℝ) : Option (ℝ → ℂ) :=
  if pulseWidth ≤ 0 ∧ pulseWidth = ⊤ then none
  else
    let fw : EReal := if 0 < pulseWidth then ((2 * Real.pi / pulseWidth.toReal : ℝ) : EReal) else fwidth
    let pw : ℝ := if fw = ⊤ ∨ fw = ⊥ then 0 else 2 * Real.pi / fw.toReal
    let k0 := 2 * Real.pi / wavelength
    let t0 := startTime + pw * centerTimeFactor
    some fun t => if startTime < t then
      Complex.exp (I * k0 * ((t : ℂ) - t0)) *
        Complex.exp ((-(fw.toReal : ℂ) + I * chirp) * ((t : ℂ) - t0) ^ 2) else 0

/-! ### `shift_slice` -/

/-- An entry of an index tuple: an int, or a slice with optional integer bounds. -/
inductive PyIndex where
  | int (i : ℤ)
  | slice (start stop : Option ℤ)
  deriving DecidableEq, Repr

/-- Python exceptions, as values. -/
inductive PyError where
  | typeError
  | indexError
  | valueError
  | keyError
  | attributeError
  | runtimeError
  deriving DecidableEq, Repr

/-- `shift_slice(slices, shift, axis)` (utils.py:367-384). A slice with integer bounds hits
`slices[axis] += slice(...)`; `slice + slice` is a `TypeError` in Python. Negative `axis` wraps. -/
def shiftSlice (slices : List PyIndex) (shift : ℤ) (axis : ℤ) : Except PyError (List PyIndex) :=
  let len : ℤ := slices.length
  if axis < -len ∨ len ≤ axis then .error .indexError
  else
    let k := (if axis < 0 then axis + len else axis).toNat
    match slices[k]? with
    | none => .error .indexError
    | some (.int i) => .ok (slices.set k (.int (i + shift)))
    | some (.slice (some _) (some _)) => .error .typeError
    | some (.slice _ _) => .ok slices

/-! ### `pml_sigma` -/

/-- `d[i, c]` (utils.py:219): column 0 holds the cell centres, column 1 the lower cell edges. -/
noncomputable def pmlD (pos : ℕ → ℝ) (c : Fin 2) (i : ℕ) : ℝ :=
  if c = 0 then (pos i + pos (i + 1)) / 2 else pos i

/-- `d_pml[c, i]` (utils.py:220-224) for `N` cells (`pos` has `N + 1` entries) and
`0 < thickness ≤ N / 2`; the code indexes with `-thickness`, i.e. `N - thickness`. -/
noncomputable def pmlDepth (pos : ℕ → ℝ) (N t : ℕ) (c : Fin 2) (i : ℕ) : ℝ :=
  if i < t then (pmlD pos c t - pmlD pos c i) / (pmlD pos c t - pos 0)
  else if i < N - t then 0
  else (pmlD pos c i - pmlD pos c (N - t)) / (pos N - pmlD pos c (N - t))

/-- `pml_sigma(pos, thickness, exp_scale, log_reflection, absorption_corr)` (utils.py:218-225). -/
noncomputable def pmlSigma (pos : ℕ → ℝ) (N t : ℕ) (expScale logR corr : ℝ) (c : Fin 2) (i : ℕ) : ℝ :=
  (expScale + 1) * (pmlDepth pos N t c i ^ expScale) * logR / (2 * corr)

/-- `FDFD.scpml(ax)` (fdfd.py:240-257) on an axis with more than one cell: `c = 0` is the electric
(cell centre), `c = 1` the magnetic (cell edge) stretching factor. -/
noncomputable def scpml (pos : ℕ → ℝ) (N t : ℕ) (expScale logR k0 pmlEps : ℝ) (c : Fin 2) (i : ℕ) : ℂ :=
  1 + I * ((expScale + 1) * (pmlDepth pos N t c i ^ expScale) * logR / (2 * (k0 * pmlEps)) : ℝ)

/-! ### `poynting_fn` -/

/-- `np.roll((1, 2, 0), -axis)` (utils.py:145). -/
def poyntingAxes (axis : ℕ) : Fin 3 → ℕ := fun k =>
  [1, 2, 0].getD ((k.1 + axis) % 3) 0

/-- `poynting_fn(axis)(e, h)` with NumPy (utils.py:144-155). `e`, `h` are the three components of the
fields on a two dimensional cross section. `e_cross`/`h_cross` have only two entries, so
`e_cross[2]` raises `IndexError`. -/
noncomputable def poynting {m n : ℕ} (axis : ℕ) (e h : ℕ → Arr2 m n ℂ) :
    Except PyError (Arr2 m n ℂ) :=
  let a0 := poyntingAxes axis 0
  let a1 := poyntingAxes axis 1
  let eCross : List (Arr2 m n ℂ) :=
    [fun i j => (e a0 i j + roll1 1 (e a0) i j) / 2, fun i j => (e a1 i j + roll0 1 (e a1) i j) / 2]
  let hCross : List (Arr2 m n ℂ) :=
    [fun i j => (h a0 i j + roll0 1 (h a0) i j) / 2, fun i j => (h a1 i j + roll1 1 (h a1) i j) / 2]
  match eCross[a0]?, hCross[a1]?, eCross[a1]?, hCross[a0]? with
  | some e0, some h1, some e1, some h0 =>
    .ok fun i j => e0 i j * (starRingEnd ℂ) (h1 i j) - e1 i j * (starRingEnd ℂ) (h0 i j)
  | _, _, _, _ => .error .indexError

end Simphox
