import Verif.CascadeLemmas
import Verif.InSituGrad

/-!
# Nullification basis (forward.py:434-500)

`mesh.nullification_basis` and `mesh.program_by_null_basis(basis)`. Snapshots come from
`Mesh.propagate` (`propagate(..., explicit=False)`), phases from `nullifyPhases` (`parallel_nullify`).
-/

namespace Simphox

open Complex

/-- The vector with ones on the bottom rails of column `k` (forward.py:447-448). -/
noncomputable def bottomOnes (nodes : List Node) (k : ℕ) : ℕ → ℂ :=
  fun r => if r ∈ (columnNodes nodes k).map Node.bottom then 1 else 0

/-- `ForwardMesh.nullification_basis` (forward.py:434-455): row `k` of the returned array is the
conjugate of the last snapshot of the reversed propagation, from column `k`, of `bottomOnes`.
Simplification: every column is non-empty (for an empty one the Python raises `IndexError` at
`column_by_node[0]`). -/
noncomputable def Mesh.nullificationBasis (M : Mesh) (P : Params) (k : ℕ) : ℕ → ℂ :=
  let vector := bottomOnes M.nodes k
  let last := (M.propagate P true (some ((numColumns M.nodes : ℤ) - (k : ℤ))) vector).getLast?.getD vector
  fun r => (starRingEnd ℂ) (last r)

/-- One iteration of the loop of `program_by_null_basis` (forward.py:468-472): the row `w` is sent through
the columns before column `k` with the phases programmed so far, `parallel_nullify` computes the phases
of column `k` and they are stored (`phi` modulo 2π). `none` is the `NotImplementedError` of
`parallel_nullify` (SYMMETRIC). -/
noncomputable def programNullColumn (eps : ℝ) (M : Mesh) (P : Params) (k : ℕ) (w : ℕ → ℂ) :
    Option Params := do
  let vector := (M.propagate P false (some (k : ℤ)) w).getLast?.getD w
  let nodes := columnNodes M.nodes k
  let ph ← nodes.mapM fun a => nullifyPhases eps M.style (M.errors.getD a.id (0, 0)).1
    (M.errors.getD a.id (0, 0)).2 (vector a.top) (vector a.bottom)
  let np := nodes.zip ph
  some
    { thetas := assign P.thetas (np.map fun p => (p.1.id, p.2.1))
      phis := assign P.phis (np.map fun p => (p.1.id, modTwoPi p.2.2))
      gammas := P.gammas }

/-- The loop of `program_by_null_basis` over a list of columns. -/
noncomputable def programNullLoop (eps : ℝ) (M : Mesh) (basis : ℕ → ℕ → ℂ) :
    List ℕ → Params → Option Params
  | [], P => some P
  | k :: ks, P => do
    let P' ← programNullColumn eps M P k (basis k)
    programNullLoop eps M basis ks P'

/-- `ForwardMesh.program_by_null_basis(basis)` (forward.py:457-472): the parameters of the mesh after the
call, `P` being those before it; `basis` has one row per column. -/
noncomputable def Mesh.programByNullBasis (eps : ℝ) (M : Mesh) (P : Params) (basis : ℕ → ℕ → ℂ) :
    Option Params :=
  programNullLoop eps M basis (List.range (numColumns M.nodes)) P

end Simphox
