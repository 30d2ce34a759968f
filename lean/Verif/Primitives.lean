import Mathlib.LinearAlgebra.Matrix.NonsingularInverse
import Verif.Fdfd

/-!
# Model of `simphox/primitives.py` and of the matrix assembly in `FDFD.get_fields_fn`

Sparse matrices produced by a product or sum of scipy CSR matrices store exactly their nonzero
entries (`csr_matmat` and `csr_binop` drop zero results); after `sort_indices()` and `tocoo()` they
are listed in row-major order. Only the fact that every matrix is listed in the same fixed order
matters, so the order is the (arbitrary) fixed enumeration `allPairs`.
`hcb.call` checks nothing but shapes: a result of the wrong size is an error (`none`).
-/

namespace Simphox

open Matrix Complex

section coo

variable {ι : Type} [Fintype ι] [DecidableEq ι]

/-- All index pairs, in a fixed order (row-major in scipy). -/
noncomputable def allPairs (ι : Type) [Fintype ι] : List (ι × ι) := Finset.univ.toList

open Classical in
/-- `mat.tocoo().row, .col` after `sort_indices()` (primitives.py:47-50, fdfd.py:341-344). -/
noncomputable def cooIndices (M : Matrix ι ι ℂ) : List (ι × ι) :=
  (allPairs ι).filter fun p => M p.1 p.2 ≠ 0

/-- `mat.tocoo().data` after `sort_indices()`. -/
noncomputable def cooData (M : Matrix ι ι ℂ) : List ℂ := (cooIndices M).map fun p => M p.1 p.2

/-- `sp.coo_matrix((data, (row, col)))` (primitives.py:20): repeated positions are added up. -/
def cooPlace (data : List ℂ) (idx : List (ι × ι)) : Matrix ι ι ℂ := fun i j =>
  ((idx.zip data).map fun q => if q.1 = (i, j) then q.2 else 0).sum

/-- The same with scipy's check that data and indices have the same length. -/
def cooMatrix (data : List ℂ) (idx : List (ι × ι)) : Option (Matrix ι ι ℂ) :=
  if data.length = idx.length then some (cooPlace data idx) else none

/-- `jnp.arange(n), jnp.arange(n)` (fdfd.py:347, 381): the diagonal positions. -/
noncomputable def diagIdx (ι : Type) [Fintype ι] : List (ι × ι) := (Finset.univ : Finset ι).toList.map fun i => (i, i)

/-! ### `spsolve` and its vector-Jacobian product

The COO matrix has `K` entries `a k` at positions `idx k`. -/

/-- The matrix built by `_spsolve_hcb` (primitives.py:18-20). -/
def cooFn {K : ℕ} (idx : Fin K → ι × ι) (a : Fin K → ℂ) : Matrix ι ι ℂ := fun i j =>
  ∑ k, if idx k = (i, j) then a k else 0

/-- `spsolve(a_entries, b, a_indices)` (primitives.py:18-28) with an exact linear solver. -/
noncomputable def spsolve {K : ℕ} (idx : Fin K → ι × ι) (a : Fin K → ℂ) (b : ι → ℂ) : ι → ℂ :=
  (cooFn idx a)⁻¹ *ᵥ b

/-- `spsolve_bwd((a_entries, x, a_indices), g)` (primitives.py:37-42) with the residuals of
`spsolve_fwd` (primitives.py:31-34): the cotangents of `a_entries` and `b`.
`a_indices[::-1]` swaps rows and columns. -/
noncomputable def spsolveVjp {K : ℕ} (idx : Fin K → ι × ι) (a : Fin K → ℂ) (b g : ι → ℂ) :
    (Fin K → ℂ) × (ι → ℂ) :=
  let x := spsolve idx a b
  let lam := spsolve (fun k => ((idx k).2, (idx k).1)) a g
  (fun k => -lam (idx k).1 * x (idx k).2, lam)

end coo

variable {s : Fin 3 → ℕ}

/-! ### `TMOperator` -/

/-- `TMOperator.x_indices`, `y_indices` (primitives.py:64-65). -/
noncomputable def tmIndices (g : YeeOps s) (axis : Fin 3) : List (GIdx s × GIdx s) :=
  cooIndices (g.deriv false axis * g.deriv true axis)

/-- `_te_hcb(t)` called through `te` (primitives.py:91-105): the stored entries of
`db diag(t) df`; the declared result size is that of `df db`. -/
noncomputable def tmOp (g : YeeOps s) (axis : Fin 3) (t : GIdx s → ℂ) : Option (List ℂ) :=
  let data := cooData (g.deriv true axis * Matrix.diagonal t * g.deriv false axis)
  if data.length = (tmIndices g axis).length then some data else none

/-- `_te_backward_hcb(g)` called through `te_bwd` (primitives.py:98-112). -/
noncomputable def tmOpVjp (g : YeeOps s) (axis : Fin 3) (cot : List ℂ) : Option (GIdx s → ℝ) :=
  match cooMatrix cot ((tmIndices g axis).map fun p => (p.2, p.1)) with
  | none => none
  | some G => some fun m => ((g.deriv false axis * (G * g.deriv true axis)) m m).re

variable [∀ a, NeZero (s a)]

/-- The matrix solved by the two dimensional TM `solve` of `get_fields_fn` (fdfd.py:344-367) for the
permittivity `eps = transform_fn(rho)`. -/
noncomputable def jaxMatTm (g : YeeOps s) (k0 : ℝ) (eps : SField s) : Option (Matrix (GIdx s) (GIdx s) ℂ) :=
  let epsT := yeeAvgG eps
  match tmOp g 0 (fun i => -1 / epsT 1 i), tmOp g 1 (fun i => -1 / epsT 0 i) with
  | some dx, some dy =>
    cooMatrix ((diagIdx (GIdx s)).map (fun _ => -(1 : ℂ) * k0 ^ 2) ++ (dx ++ dy))
      (diagIdx (GIdx s) ++ (tmIndices g 0 ++ tmIndices g 1))
  | _, _ => none

/-- The matrix solved by the two dimensional TE `solve` of `get_fields_fn` (fdfd.py:376-389). -/
noncomputable def jaxMatTe (g : YeeOps s) (k0 : ℝ) (eps : SField s) : Option (Matrix (GIdx s) (GIdx s) ℂ) :=
  let ddz := -(g.deriv true 0) * g.deriv false 0 - g.deriv true 1 * g.deriv false 1
  let e := yeeAvg2dZG eps
  cooMatrix ((diagIdx (GIdx s)).map (fun p => -e p.1 * k0 ^ 2) ++ cooData ddz) (diagIdx (GIdx s) ++ cooIndices ddz)

/-- The operator of the three dimensional `solve` of `get_fields_fn` (fdfd.py:393-404). -/
noncomputable def jaxOp3 (g : YeeOps s) (k0 : ℝ) (eps : SField s) (b : VField s) : VField s := fun c i =>
  curlFn (g.diffFn true) (curlFn (g.diffFn false) b) c i - k0 ^ 2 * yeeAvgG eps c i * b c i

end Simphox
