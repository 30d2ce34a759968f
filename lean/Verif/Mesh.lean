import Verif.Coupling
import Verif.TreeExec

/-!
# Model of `ForwardMesh` (`/repo/simphox/circuit/forward.py`)

Fields on the rails are functions `ℕ → ℂ`; only rails `< n` matter. The second axis of the Python
arrays (several input vectors at once) is a parameter: every operation acts on each input column
separately.
-/

namespace Simphox

open Matrix Complex

/-- `ForwardMesh` (forward.py:40-65). `errors` and `losses` are the arrays `bs_errors`, `losses`,
in node *list* order (forward.py:48-49). -/
structure Mesh where
  nodes : List Node
  errors : List (ℝ × ℝ)
  losses : List (ℝ × ℝ)
  style : PhaseStyle

/-- The parameter arrays `thetas, phis, gammas` (forward.py:59-61). -/
structure Params where
  thetas : ℕ → ℝ
  phis : ℕ → ℝ
  gammas : ℕ → ℝ

/-- Entry `k` of the arrays returned by `_parallel_mzi(thetas, phis, bs_errors, loss_errors)`
(forward.py:205-211): phases, errors and losses are all read at array position `k`.
(For `k` out of range Python raises; see `Mesh.WellFormed`.) -/
noncomputable def Mesh.elements (M : Mesh) (P : Params) (back : Bool) (k : ℕ) : Elements :=
  mziElements M.style back (M.errors.getD k (0, 0)).1 (M.errors.getD k (0, 0)).2
    (M.losses.getD k (0, 0)).1 (M.losses.getD k (0, 0)).2 (P.thetas k) (P.phis k)

/-- NumPy's `v[idx] = values`: assignments in order, a later duplicate wins. -/
def scatter (v : ℕ → ℂ) (writes : List (ℕ × ℂ)) : ℕ → ℂ :=
  writes.foldl (fun w p => Function.update w p.1 p.2) v

/-- The assignments `v[top + bottom] = vstack([...])` of `_parallel_transform`
(forward.py:760-765) for the nodes of a column: values are computed from the old `v`, and the
elements of a node are looked up by its `node_id`. -/
def columnWrites (el : ℕ → Elements) (nodes : List Node) (v : ℕ → ℂ) : List (ℕ × ℂ) :=
  nodes.map (fun a => (a.top, (el a.id).t11 * v a.top + (el a.id).t21 * v a.bottom)) ++
    nodes.map (fun a => (a.bottom, (el a.id).t12 * v a.top + (el a.id).t22 * v a.bottom))

/-- `_parallel_transform(..., use_jax=False)` (forward.py:742-765) on one column. -/
def parallelTransform (el : ℕ → Elements) (nodes : List Node) (v : ℕ → ℂ) : ℕ → ℂ :=
  scatter v (columnWrites el nodes v)

/-- `(exp(1j * gammas) * outputs.T).T` (forward.py:213-214, 224-225). -/
noncomputable def gammaApply (gammas : ℕ → ℝ) (v : ℕ → ℂ) : ℕ → ℂ :=
  fun r => exp (I * gammas r) * v r

/-- The indices of the columns in the order visited (forward.py:197). -/
def columnOrder (nodes : List Node) (back : Bool) : List ℕ :=
  if back then (List.range (numColumns nodes)).reverse else List.range (numColumns nodes)

/-- The column loop of `matrix_fn` (forward.py:221-222). -/
def columnsApply (el : ℕ → Elements) (nodes : List Node) (cols : List ℕ) (v : ℕ → ℂ) : ℕ → ℂ :=
  cols.foldl (fun v k => parallelTransform el (columnNodes nodes k) v) v

/-- `matrix_fn(use_jax=False, back=back)(params, inputs)` (forward.py:197-226). -/
noncomputable def Mesh.apply (M : Mesh) (P : Params) (back : Bool) (v : ℕ → ℂ) : ℕ → ℂ :=
  if back then
    columnsApply (M.elements P true) M.nodes (columnOrder M.nodes true) (gammaApply P.gammas v)
  else
    gammaApply P.gammas
      (columnsApply (M.elements P false) M.nodes (columnOrder M.nodes false) v)

/-- `mesh.matrix(params, back)` (forward.py:169-170): the identity matrix is propagated; `n` is
`mesh.n`. -/
noncomputable def Mesh.matrix (n : ℕ) (M : Mesh) (P : Params) (back : Bool) :
    Matrix (Fin n) (Fin n) ℂ :=
  Matrix.of fun i j => M.apply P back (fun r => if r = j.val then 1 else 0) i.val

/-- Meshes on `n` rails on which `matrix` does not raise `IndexError` and columns are parallel:
ids index the parameter arrays, rails are two different numbers below `n`, and no two nodes of one
column share a rail. (The Python also raises when a column below `num_columns` is empty; no theorem
needs that.) -/
structure Mesh.WellFormed (n : ℕ) (M : Mesh) : Prop where
  errors_length : M.errors.length = M.nodes.length
  losses_length : M.losses.length = M.nodes.length
  ids : ∀ a ∈ M.nodes, a.id < M.nodes.length
  rails : ∀ a ∈ M.nodes, a.top < n ∧ a.bottom < n ∧ a.top ≠ a.bottom
  disjoint : ColumnsDisjoint M.nodes

/-- No node has loss. -/
def Mesh.Lossless (M : Mesh) : Prop := ∀ p ∈ M.losses, p = (0, 0)

/-- A mesh as `tree`, `vector_unit`, ... build it: no errors, no loss. -/
def idealMesh (nodes : List Node) (style : PhaseStyle) : Mesh where
  nodes := nodes
  errors := nodes.map fun _ => (0, 0)
  losses := nodes.map fun _ => (0, 0)
  style := style

/-! ### JAX path -/

/-- One row of the arrays returned by `ForwardMesh.idx` (forward.py:230-268), as a list of
`(top, bottom, node_idx, mask)`. -/
structure PadEntry where
  top : ℕ
  bottom : ℕ
  idx : ℕ
  mask : ℕ
deriving DecidableEq

/-- `dummy_fill[i][0]`, the first rail not used by the column, if any (forward.py:251-253). -/
def dummyRail (n : ℕ) (nodes : List Node) : Option ℕ :=
  ((List.range n).filter fun r => r ∉ nodes.map Node.top ++ nodes.map Node.bottom).head?

/-- Row of `idx` for a column, padded to width `m` (forward.py:244-266). Arrays start as zeros; the
padding of `top`/`bottom` is the dummy rail if there is one. -/
def padColumn (n m : ℕ) (nodes : List Node) : List PadEntry :=
  nodes.map (fun a => ⟨a.top, a.bottom, a.id, 1⟩) ++
    List.replicate (m - nodes.length) ⟨(dummyRail n nodes).getD 0, (dummyRail n nodes).getD 0, 0, 0⟩

/-- The widest column (forward.py:242). -/
def maxWidth (nodes : List Node) : ℕ :=
  ((List.range (numColumns nodes)).map fun k => (columnNodes nodes k).length).foldr max 0

/-- The masked elements of the JAX branch of `_parallel_transform` (forward.py:750-755). -/
def maskedElements (m : Elements) (mask : ℕ) : Elements where
  t11 := m.t11 * mask + (1 - mask)
  t12 := m.t12 * mask
  t21 := m.t21 * mask
  t22 := m.t22 * mask + (1 - mask)

/-- The index/value pairs of `v.at[hstack((top, bottom))].set(vstack(...))` (forward.py:756-759). -/
def jaxWrites (el : ℕ → Elements) (row : List PadEntry) (v : ℕ → ℂ) : List (ℕ × ℂ) :=
  row.map (fun e => (e.top, (maskedElements (el e.idx) e.mask).t11 * v e.top +
    (maskedElements (el e.idx) e.mask).t21 * v e.bottom)) ++
  row.map (fun e => (e.bottom, (maskedElements (el e.idx) e.mask).t12 * v e.top +
    (maskedElements (el e.idx) e.mask).t22 * v e.bottom))

/-- `v.at[idx].set(values)` in JAX: for repeated indices it is unspecified which value lands. -/
def IsScatter (v : ℕ → ℂ) (writes : List (ℕ × ℂ)) (w : ℕ → ℂ) : Prop :=
  ∀ r, (∃ x, (r, x) ∈ writes ∧ w r = x) ∨ ((∀ x, (r, x) ∉ writes) ∧ w r = v r)

/-- `lax.scan` over the padded columns (forward.py:216-219): `w` is a possible result. -/
inductive JaxScan (n : ℕ) (el : ℕ → Elements) (nodes : List Node) :
    List ℕ → (ℕ → ℂ) → (ℕ → ℂ) → Prop
  | nil (v) : JaxScan n el nodes [] v v
  | cons (k cols v u w) :
      IsScatter v (jaxWrites el (padColumn n (maxWidth nodes) (columnNodes nodes k)) v) u →
      JaxScan n el nodes cols u w → JaxScan n el nodes (k :: cols) v w

/-- `matrix_fn(use_jax=True, back=back)(params, inputs)` may return `w`. -/
def Mesh.JaxApply (n : ℕ) (M : Mesh) (P : Params) (back : Bool) (v w : ℕ → ℂ) : Prop :=
  if back then
    JaxScan n (M.elements P true) M.nodes (columnOrder M.nodes true) (gammaApply P.gammas v) w
  else
    ∃ u, JaxScan n (M.elements P false) M.nodes (columnOrder M.nodes false) v u ∧
      w = gammaApply P.gammas u

/-! ### Propagation -/

/-- `propagate_matrix_fn(back, column_cutoff, explicit=False, use_jax=False)` (forward.py:270-340),
as the list of snapshots. `cutoff = none` is the default; other cutoffs are integers. -/
noncomputable def Mesh.propagate (M : Mesh) (P : Params) (back : Bool) (cutoff : Option ℤ)
    (v : ℕ → ℂ) : List (ℕ → ℂ) :=
  let L : ℤ := numColumns M.nodes
  let c : ℤ := cutoff.getD (if back then -1 else L)
  let start := [v]
  let start := if back ∧ c = -1 then start ++ [gammaApply P.gammas v] else start
  let steps := (columnOrder M.nodes back).foldl
    (fun (acc : List (ℕ → ℂ)) (k : ℕ) =>
      if back ∧ L - c < (k : ℤ) then acc
      else if ¬ back ∧ c ≤ (k : ℤ) then acc
      else acc ++ [parallelTransform (M.elements P back) (columnNodes M.nodes k)
        (acc.getLast?.getD v)]) start
  if ¬ back ∧ c = L then steps ++ [gammaApply P.gammas (steps.getLast?.getD v)] else steps

/-- `_parallel_dc` (forward.py:710-729) for one coupler with error `e` and loss `l`. -/
noncomputable def dcElements (e l : ℝ) : Elements where
  t11 := Real.exp (Real.log 10 * l / 20) * Real.sin (Real.pi / 4 + e)
  t12 := Real.exp (Real.log 10 * l / 20) * I * Real.cos (Real.pi / 4 + e)
  t21 := I * Real.cos (Real.pi / 4 + e)
  t22 := Real.sin (Real.pi / 4 + e)

/-- `_parallel_multiply(..., use_jax=False)` (forward.py:768-778): phases on the top or bottom rail
of the nodes of a column; other styles raise `ValueError` (`none`). The in-place `v[idx] *= ...`
reads `v[idx]` first and then writes. -/
noncomputable def parallelMultiply (style : PhaseStyle) (phases : ℕ → ℝ) (nodes : List Node)
    (v : ℕ → ℂ) : Option (ℕ → ℂ) :=
  match style with
  | .top => some (scatter v (nodes.map fun a => (a.top, v a.top * exp (I * phases a.id))))
  | .bottom => some (scatter v (nodes.map fun a => (a.bottom, v a.bottom * exp (I * phases a.id))))
  | _ => none

/-- `_parallel_propagate` (forward.py:780-803), one column, forward: the four snapshots. -/
noncomputable def explicitColumn (M : Mesh) (P : Params) (nodes : List Node) (v : ℕ → ℂ) :
    Option (List (ℕ → ℂ)) := do
  let left := fun k => dcElements (M.errors.getD k (0, 0)).1 (M.losses.getD k (0, 0)).1
  let right := fun k => dcElements (M.errors.getD k (0, 0)).2 (M.losses.getD k (0, 0)).2
  let v1 ← parallelMultiply M.style P.phis nodes v
  let v2 := parallelTransform left nodes v1
  let v3 ← parallelMultiply M.style P.thetas nodes v2
  let v4 := parallelTransform right nodes v3
  return [v1, v2, v3, v4]

/-- The column loop of `propagate_matrix_fn(explicit=True, back=False)` (forward.py:322-330): all
snapshots so far and the current field. -/
noncomputable def explicitLoop (M : Mesh) (P : Params) :
    List ℕ → (ℕ → ℂ) → Option (List (ℕ → ℂ) × (ℕ → ℂ))
  | [], v => some ([], v)
  | k :: ks, v => do
    let snaps ← explicitColumn M P (columnNodes M.nodes k) v
    let (rest, out) ← explicitLoop M P ks (snaps.getLast?.getD v)
    return (snaps ++ rest, out)

/-- `mesh.propagate(inputs)` (forward.py:416-432) with default arguments: explicit, forward, all
columns. -/
noncomputable def Mesh.propagateExplicit (M : Mesh) (P : Params) (v : ℕ → ℂ) :
    Option (List (ℕ → ℂ)) := do
  let (snaps, out) ← explicitLoop M P (columnOrder M.nodes false) v
  return [v] ++ snaps ++ [gammaApply P.gammas out]

end Simphox
