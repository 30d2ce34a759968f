import Mathlib.LinearAlgebra.UnitaryGroup
import Mathlib.LinearAlgebra.Matrix.Notation
import Mathlib.Analysis.SpecialFunctions.Trigonometric.Inverse
import Mathlib.Analysis.SpecialFunctions.Complex.Arg
import Verif.Utils

/-!
# Matrix factorisations of `simphox/circuit/matrix.py`

`dirichlet_matrix` (lines 107-122), `cs` (124-163) and `csinv` (166-189).

Simplifications: exact real/complex arithmetic. A quotient by zero, which makes NumPy return `nan` entries, is the
value `none` of `dirichletMatrix`. `scipy.linalg.svd` and `scipy.linalg.qr` are parameters; what is assumed of them is
`IsSvd` and `IsQr`. A matrix whose rows are split as `[:m]`, `[m:]` is indexed by `Fin m ⊕ Fin p`.
-/

namespace Simphox
open Matrix Complex

/-- `y = np.abs(v) ** 2` (`matrix.py:109`), extended by 0 beyond the end of `v`. -/
noncomputable def dirY {n : ℕ} (v : Fin n → ℂ) (i : ℕ) : ℝ := if h : i < n then ‖v ⟨i, h⟩‖ ^ 2 else 0

/-- `ysum = np.cumsum(y)` (`matrix.py:111`). -/
noncomputable def dirSum {n : ℕ} (v : Fin n → ℂ) (i : ℕ) : ℝ := ∑ k ∈ Finset.range (i + 1), dirY v k

/-- `yden = 1 / np.sqrt(ysum[:-1] * ysum[1:])` (`matrix.py:112`). -/
noncomputable def dirDen {n : ℕ} (v : Fin n → ℂ) (i : ℕ) : ℝ := 1 / Real.sqrt (dirSum v i * dirSum v (i + 1))

/-- `u` after `matrix.py:113-117`: rows `1:` hold `yden * yop` strictly below the diagonal, zero above it and
`-ysum[:-1] * yden` on it; row 0 holds `np.sqrt(y / ysum[-1])`. -/
noncomputable def dirRaw {n : ℕ} (v : Fin n → ℂ) (i j : ℕ) : ℝ :=
  if i = 0 then Real.sqrt (dirY v j / dirSum v (n - 1))
  else if j < i then dirDen v (i - 1) * Real.sqrt (dirY v i * dirY v j)
  else if j = i then -dirSum v (i - 1) * dirDen v (i - 1)
  else 0

/-- `dirichlet_matrix(v)` (`matrix.py:107-121`): the rows are multiplied entrywise by `phases`, rolled by `-1` and the
result is transposed. `none`: some entry is `nan` because of a division by zero. -/
noncomputable def dirichletMatrix {n : ℕ} (v : Fin n → ℂ) : Option (Matrix (Fin n) (Fin n) ℂ) :=
  if (∀ i < n - 1, dirSum v i * dirSum v (i + 1) ≠ 0) ∧ dirSum v (n - 1) ≠ 0 then
    some (Matrix.of fun i j => (dirRaw v ((j.val + 1) % n) i.val : ℂ) * exp (-I * arg (v i)))
  else none

/-- `dirichlet_matrix(v, embed_dim)` with `embed_dim = n + k` (`matrix.py:119-121`): `block_diag` with the identity. -/
noncomputable def dirichletEmbed {n : ℕ} (v : Fin n → ℂ) (k : ℕ) :
    Option (Matrix (Fin n ⊕ Fin k) (Fin n ⊕ Fin k) ℂ) :=
  (dirichletMatrix v).map fun m => (fromBlocks mᵀ 0 0 1)ᵀ

/-- The matrix `d` of `csinv` (`matrix.py:179-184`): `[[diag s, diag c], [diag c, -diag s]]`, extended by a 1 in the
last corner when the lower block is larger by one. Row `inr i` is row `m + i`. -/
noncomputable def csMiddle {m p : ℕ} (theta : Fin m → ℝ) : Matrix (Fin m ⊕ Fin p) (Fin m ⊕ Fin p) ℂ :=
  fromBlocks
    (Matrix.of fun i j => if i = j then (Real.sin (theta i) : ℂ) else 0)
    (Matrix.of fun i j => if i.val = j.val then (Real.cos (theta i) : ℂ) else 0)
    (Matrix.of fun i j => if i.val = j.val then (Real.cos (theta j) : ℂ) else 0)
    (Matrix.of fun i j => if i = j then (if h : i.val < m then -(Real.sin (theta ⟨i, h⟩) : ℂ) else 1) else 0)

/-- `csinv` (`matrix.py:163-185`) for an upper block of size `m` and a lower block of size `p`. When the sizes differ,
`d` is extended by one row and column, so any other `p` makes the matrix product raise `ValueError`. -/
noncomputable def csinv {m p : ℕ} (l0 : Matrix (Fin m) (Fin m) ℂ) (l1 : Matrix (Fin p) (Fin p) ℂ)
    (r0 : Matrix (Fin m) (Fin m) ℂ) (r1 : Matrix (Fin p) (Fin p) ℂ) (theta : Fin m → ℝ) :
    Except PyError (Matrix (Fin m ⊕ Fin p) (Fin m ⊕ Fin p) ℂ) :=
  if p = m ∨ p = m + 1 then
    .ok (fromBlocks l0 0 0 l1 * csMiddle theta * fromBlocks r0 0 0 r1)
  else .error .valueError

/-- What is assumed of `l, d, r = scipy.linalg.svd(a)`. -/
structure IsSvd {m : ℕ} (a l : Matrix (Fin m) (Fin m) ℂ) (d : Fin m → ℝ) (r : Matrix (Fin m) (Fin m) ℂ) : Prop where
  left : l ∈ unitaryGroup (Fin m) ℂ
  right : r ∈ unitaryGroup (Fin m) ℂ
  nonneg : ∀ i, 0 ≤ d i
  prod : a = l * Matrix.diagonal (fun i => (d i : ℂ)) * r

/-- What is assumed of `q, r = scipy.linalg.qr(a)` (full mode): `q` unitary, `r` upper triangular with the real
diagonal `dr` (LAPACK's Householder reflectors make the diagonal of `r` real). -/
structure IsQr {m p : ℕ} (a : Matrix (Fin p) (Fin m) ℂ) (q : Matrix (Fin p) (Fin p) ℂ) (r : Matrix (Fin p) (Fin m) ℂ)
    (dr : Fin m → ℝ) : Prop where
  left : q ∈ unitaryGroup (Fin p) ℂ
  upper : ∀ i j, j.val < i.val → r i j = 0
  diag : ∀ i j, i.val = j.val → r i j = dr j
  prod : a = q * r

/-- `np.sign(np.append(np.diag(r), 1))` for odd sizes and `np.sign(np.diag(r))` for even ones (`matrix.py:149-156`). -/
noncomputable def signDiag {m p : ℕ} (dr : Fin m → ℝ) (i : Fin p) : ℝ :=
  if h : i.val < m then (SignType.sign (dr ⟨i, h⟩) : ℝ) else 1

/-- The four blocks and the angles returned by `cs`. -/
structure CsOut (m p : ℕ) where
  l0 : Matrix (Fin m) (Fin m) ℂ
  l1 : Matrix (Fin p) (Fin p) ℂ
  r0 : Matrix (Fin m) (Fin m) ℂ
  r1 : Matrix (Fin p) (Fin p) ℂ
  theta : Fin m → ℝ

/-- `cs(mat)` (`matrix.py:123-160`) given the results `l0, d00, r0` of the `svd` call, `r1hp`, `dr1` of the first `qr`
and `l1p`, `dl1` of the second. The `phasor` correction of the last row of `r1` applies to odd sizes only. -/
noncomputable def csDecomp {m p : ℕ} (u : Matrix (Fin m ⊕ Fin p) (Fin m ⊕ Fin p) ℂ)
    (l0 : Matrix (Fin m) (Fin m) ℂ) (d00 : Fin m → ℝ) (r0 : Matrix (Fin m) (Fin m) ℂ)
    (r1hp : Matrix (Fin p) (Fin p) ℂ) (dr1 : Fin m → ℝ) (l1p : Matrix (Fin p) (Fin p) ℂ) (dl1 : Fin m → ℝ) :
    CsOut m p :=
  let r1 : Matrix (Fin p) (Fin p) ℂ := (Matrix.of fun i j => r1hp i j * (signDiag dr1 j : ℂ))ᴴ
  let l1 : Matrix (Fin p) (Fin p) ℂ := Matrix.of fun i j => l1p i j * (signDiag dl1 j : ℂ)
  let mid := l1ᴴ * u.toBlocks₂₂ * r1ᴴ
  { l0 := l0
    l1 := l1
    r0 := r0
    r1 := Matrix.of fun i j => if m ≤ i.val then mid i i * r1 i j else r1 i j
    theta := fun i => Real.arcsin (d00 i) }

end Simphox
