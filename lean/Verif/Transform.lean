import Mathlib.Data.Real.Basic
import Mathlib.Data.Fin.Rev
import Mathlib.Analysis.SpecialFunctions.Trigonometric.DerivHyp
import Mathlib.Analysis.Complex.Trigonometric
import Mathlib.Algebra.BigOperators.Fin

/-!
# Model of `simphox/transform.py`

Arrays are exact real matrices `Fin m → Fin n → ℝ` (floating point rounding is not modelled).
-/

namespace Simphox

/-- A two dimensional array of shape `(m, n)`. -/
abbrev Arr (m n : ℕ) := Fin m → Fin n → ℝ

/-- `x[::-1]` (transform.py:53). -/
def flipRows {m n : ℕ} (x : Arr m n) : Arr m n := fun i j => x i.rev j

/-- `x[:, ::-1]` (transform.py:54). -/
def flipCols {m n : ℕ} (x : Arr m n) : Arr m n := fun i j => x i j.rev

/-- `x.T` (transform.py:50). -/
def transp {m n : ℕ} (x : Arr m n) : Arr n m := fun i j => x j i

/-- `(x + y) / 2` (transform.py:50-54). -/
noncomputable def avg2 {m n : ℕ} (x y : Arr m n) : Arr m n := fun i j => (x i j + y i j) / 2

/-- `x.at[-(h):, :].set(x[:h, :][::-1, :])` with `h = x.shape[0] // 2 + 1` (transform.py:56).
The destination rows start at `max(m - h, 0)`; the source is the first `min h m` rows, reversed. -/
def copyRows {m n : ℕ} (x : Arr m n) : Arr m n := fun i j =>
  if h : m - (m / 2 + 1) ≤ i.1 then
    x ⟨min (m / 2 + 1) m - 1 - (i.1 - (m - (m / 2 + 1))), by
      have := i.2; omega⟩ j
  else x i j

/-- `x.at[:, -(h):].set(x[:, :h][:, ::-1])` with `h = x.shape[1] // 2 + 1` (transform.py:57). -/
def copyCols {m n : ℕ} (x : Arr m n) : Arr m n := transp (copyRows (transp x))

/-- The flags of `get_symmetry_fn` (transform.py:36-37). -/
structure SymFlags where
  orthoX : Bool
  orthoY : Bool
  diagP : Bool
  diagN : Bool
  avg : Bool

/-- `ortho_x_fn(ortho_y_fn(x))` (transform.py:52-58). -/
noncomputable def orthoStage {m n : ℕ} (f : SymFlags) (x : Arr m n) : Arr m n :=
  let y := if f.orthoY then (if f.avg then avg2 x (flipCols x) else copyCols x) else x
  if f.orthoX then (if f.avg then avg2 y (flipRows y) else copyRows y) else y

/-- `diag_p_fn(diag_n_fn(x))` (transform.py:50-51, 58): `diag_p` selects the average with the
transpose (applied first), `diag_n` the average with `x[::-1, ::-1].T`. -/
noncomputable def diagStage {n : ℕ} (f : SymFlags) (x : Arr n n) : Arr n n :=
  let y := if f.diagP then avg2 x (transp x) else x
  if f.diagN then avg2 y (transp (flipRows (flipCols y))) else y

/-- `get_symmetry_fn(...)` on a square array (transform.py:36-58). On non-square arrays the diagonal
flags raise a broadcasting error; without them the function is `orthoStage`. -/
noncomputable def symmetryFn {n : ℕ} (f : SymFlags) (x : Arr n n) : Arr n n :=
  diagStage f (orthoStage f x)

/-! ### `get_smooth_fn` -/

/-- The unnormalised kernel (transform.py:24-26): `skimage.draw.disk((r, r), r + 1)` marks the
pixels with `(a-r)^2 + (b-r)^2 < (r+1)^2`. -/
def diskKernel (r : ℕ) (a b : Fin (2 * r + 1)) : ℝ :=
  if ((a.1 : ℤ) - r) ^ 2 + ((b.1 : ℤ) - r) ^ 2 < ((r : ℤ) + 1) ^ 2 then 1 else 0

/-- `kernel / kernel.sum()` (transform.py:27). -/
noncomputable def smoothKernel (r : ℕ) (a b : Fin (2 * r + 1)) : ℝ :=
  diskKernel r a b / ∑ a', ∑ b', diskKernel r a' b'

/-- Zero-padded read of an array. -/
def readZero {m n : ℕ} (x : Arr m n) (i j : ℤ) : ℝ :=
  if h : 0 ≤ i ∧ i < m ∧ 0 ≤ j ∧ j < n then x ⟨i.toNat, by omega⟩ ⟨j.toNat, by omega⟩ else 0

/-- `conv(rho, kernel, mode='same')` (transform.py:30): the centred part of the zero padded
convolution. -/
noncomputable def convSame (r : ℕ) {m n : ℕ} (x : Arr m n) : Arr m n := fun i j =>
  ∑ a, ∑ b, smoothKernel r a b * readZero x ((i.1 : ℤ) + r - a.1) ((j.1 : ℤ) + r - b.1)

/-- The projection of transform.py:31-32. -/
noncomputable def project (beta eta x : ℝ) : ℝ :=
  (Real.tanh (beta * eta) + Real.tanh (beta * (x - eta))) /
    (Real.tanh (beta * eta) + Real.tanh (beta * (1 - eta)))

/-- `get_smooth_fn(beta, radius, eta)` (transform.py:11-34). -/
noncomputable def smooth (beta : ℝ) (r : ℕ) (eta : ℝ) {m n : ℕ} (x : Arr m n) : Arr m n :=
  fun i j => project beta eta (convSame r x i j)

end Simphox
