import Mathlib.Data.Complex.Basic
import Mathlib.LinearAlgebra.Matrix.ConjTranspose
import Mathlib.Data.Fintype.BigOperators
import Mathlib.Data.Fintype.Pi
import Mathlib.Data.Fin.VecNotation

/-!
# Model of the Yee-grid derivative and curl operators (`simphox/grid.py`, `simphox/utils.py`)

A grid has shape `s : Fin 3 → ℕ` (the code's `shape3`, padded with ones). A scalar field is a
function on multi-indices `GIdx s`; a flattened scalar field is the same function, the row-major
`ravel` being a bijection of index sets that scipy's `kron` is compatible with (see `YeeFlat.lean`
for the flat statement). `Fin (s a)` has wrap-around addition, as `np.roll` has.
Numbers are exact complex numbers.
-/

namespace Simphox

open Matrix

/-- Multi-indices of an array of shape `shape3`. -/
abbrev GIdx (s : Fin 3 → ℕ) := (a : Fin 3) → Fin (s a)

/-- The shape `(nx, ny, nz)`. -/
def shapeOf (nx ny nz : ℕ) : Fin 3 → ℕ := fun a => if a = 0 then nx else if a = 1 then ny else nz

instance shapeOf.neZero (nx ny nz : ℕ) [NeZero nx] [NeZero ny] [NeZero nz] (a : Fin 3) :
    NeZero (shapeOf nx ny nz a) := by
  unfold shapeOf
  split_ifs <;> infer_instance

/-- A scalar field on the grid, and a vector field (`field_shape = (3, *shape3)`). -/
abbrev SField (s : Fin 3 → ℕ) := GIdx s → ℂ
abbrev VField (s : Fin 3 → ℕ) := Fin 3 → GIdx s → ℂ

/-- `sp.diags(values, offsets, shape=(n, n))` with scalar values: entry `(i, j)` is the value of the
diagonal with offset `j - i`. -/
def spDiags (n : ℕ) (l : List (ℂ × ℤ)) : Matrix (Fin n) (Fin n) ℂ := fun i j =>
  (l.map fun p => if (j : ℤ) - (i : ℤ) = p.2 then p.1 else 0).sum

/-- Single-axis forward difference (grid.py:384-385), `0` on an axis with one cell. -/
def fwd1 (n : ℕ) (b : ℂ) : Matrix (Fin n) (Fin n) ℂ :=
  if 1 < n then spDiags n [(-1, 0), (1, 1), (b, -n + 1)] else 0

/-- Single-axis backward difference (grid.py:379-380), `0` on an axis with one cell. -/
def bwd1 (n : ℕ) (b : ℂ) : Matrix (Fin n) (Fin n) ℂ :=
  if 1 < n then spDiags n [(1, 0), (-1, -1), (-(starRingEnd ℂ) b, n - 1)] else 0

/-- Kronecker product of one matrix per axis (`sp.kron(sp.kron(m0, m1), m2)`), on multi-indices. -/
def kron3 {s : Fin 3 → ℕ} (m : (a : Fin 3) → Matrix (Fin (s a)) (Fin (s a)) ℂ) :
    Matrix (GIdx s) (GIdx s) ℂ := fun i j => ∏ a, m a (i a) (j a)

/-- The data of a `YeeGrid` used by the derivatives: the Bloch factors `self.bloch` padded with ones
(grid.py:373) and the cell sizes `self._dxes` of the electric (`false`) and magnetic (`true`)
derivatives, one list per axis (`np.meshgrid(..., indexing='ij')[a][i] = cells[a][i[a]]`,
grid.py:358 and, with PML, fdfd.py:93-100). -/
structure YeeOps (s : Fin 3 → ℕ) where
  bloch : Fin 3 → ℂ
  dx : Bool → (a : Fin 3) → Fin (s a) → ℂ

variable {s : Fin 3 → ℕ}

/-- `YeeGrid.deriv(back)[a]` (grid.py:360-391): the single-axis matrix tiled with identities, rows
scaled by `1 / dx`. -/
noncomputable def YeeOps.deriv (g : YeeOps s) (back : Bool) (a : Fin 3) : Matrix (GIdx s) (GIdx s) ℂ :=
  let d := if back then bwd1 (s a) (g.bloch a) else fwd1 (s a) (g.bloch a)
  Matrix.diagonal (fun i => 1 / g.dx back a (i a)) * kron3 (Function.update (fun _ => 1) a d)

/-- `np.roll(f, 1, axis=a)[i] = f[..., i_a - 1, ...]`. -/
def rollFwd [∀ a, NeZero (s a)] (a : Fin 3) {α : Type} (f : GIdx s → α) : GIdx s → α :=
  fun i => f (Function.update i a (i a - 1))
/-- `np.roll(f, -1, axis=a)[i] = f[..., i_a + 1, ...]`. -/
def rollBack [∀ a, NeZero (s a)] (a : Fin 3) {α : Type} (f : GIdx s → α) : GIdx s → α :=
  fun i => f (Function.update i a (i a + 1))

/-- `YeeGrid.diff_fn(of_h)` (grid.py:413-432). The Bloch phase is not used. -/
noncomputable def YeeOps.diffFn [∀ a, NeZero (s a)] (g : YeeOps s) (ofH : Bool) (f : SField s) (a : Fin 3) :
    SField s :=
  if ofH then fun i => (f i - rollFwd a f i) / g.dx true a (i a)
  else fun i => (rollBack a f i - f i) / g.dx false a (i a)

/-- `curl_fn(df)(f)` with `beta=None` (utils.py:166-178). -/
noncomputable def curlFn (df : SField s → Fin 3 → SField s) (f : VField s) : VField s :=
  ![df (f 2) 1 - df (f 1) 2, df (f 0) 2 - df (f 2) 0, df (f 1) 0 - df (f 0) 1]

/-- `curl_fn(df, beta=beta)(f)` (utils.py:168-172): the cross-section curl for a field with
dependence `exp(-i beta z)`. -/
noncomputable def curlFnBeta (df : SField s → Fin 3 → SField s) (beta : ℂ) (f : VField s) : VField s :=
  ![df (f 2) 1 + fun i => Complex.I * beta * f 1 i,
    (fun i => -Complex.I * beta * f 0 i) - df (f 2) 0,
    df (f 1) 0 - df (f 0) 1]

/-- The blocks of `d2curl_op(d)` (utils.py:158-162). -/
def curlBlock (d : Fin 3 → Matrix (GIdx s) (GIdx s) ℂ) : Fin 3 → Fin 3 → Matrix (GIdx s) (GIdx s) ℂ :=
  ![![0, -d 2, d 1], ![d 2, 0, -d 0], ![-d 1, d 0, 0]]

/-- `d2curl_op(d)` (utils.py:158-162) as one matrix on the flattened vector fields. -/
def d2curlOp (d : Fin 3 → Matrix (GIdx s) (GIdx s) ℂ) :
    Matrix (Fin 3 × GIdx s) (Fin 3 × GIdx s) ℂ := fun p q => curlBlock d p.1 q.1 p.2 q.2

/-- Flattening a `(3, *shape3)` field. -/
def vflat (f : VField s) : Fin 3 × GIdx s → ℂ := fun p => f p.1 p.2

/-- `YeeGrid.curl_fn(of_h)` (grid.py:434-446). -/
noncomputable def YeeOps.curl [∀ a, NeZero (s a)] (g : YeeOps s) (ofH : Bool) : VField s → VField s :=
  curlFn (g.diffFn ofH)

end Simphox
