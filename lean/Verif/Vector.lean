import Verif.Mesh

/-!
# Model of vector units and cascades (`/repo/simphox/circuit/vector.py`, `matrix.py`)

`ε` stands for `np.spacing(1)` (coupling.py:206). All couplers of a network have the same splitting
error `e` (left and right) and no loss: this is `vector_unit(..., bs_error_mean_std=(e, 0),
loss_mean_std=(0, 0))`; `e = 0` is the default. Random (variance) errors and losses are not modelled.
-/

namespace Simphox

open Matrix Complex

/-- `np.mod(phi, 2 * np.pi)` (vector.py:150). -/
noncomputable def modTwoPi (x : ℝ) : ℝ := x - 2 * Real.pi * ⌊x / (2 * Real.pi)⌋

/-- `arr[idx] = values` on an array read as a function: assignments in order, later ones win. -/
def assign {α : Type} (f : ℕ → α) (writes : List (ℕ × α)) : ℕ → α :=
  writes.foldl (fun g p => Function.update g p.1 p.2) f

/-- `ForwardMesh.parallel_nullify` (forward.py:474-500) for one node seeing `t` on its top and `b` on
its bottom rail: `(theta, phi)`. `none` is the `NotImplementedError` of style SYMMETRIC. -/
noncomputable def nullifyPhases (eps : ℝ) (style : PhaseStyle) (el er : ℝ) (t b : ℂ) :
    Option (ℝ × ℝ) :=
  let T := mziTerms el er
  let theta := transmissivityToPhase (directTransmissivity eps t b) T.cs T.sc
  let corr := arg (-(T.ss : ℂ) + T.cc * exp (-I * theta)) -
    arg (I * ((T.cs : ℂ) + exp (-I * theta) * T.sc))
  match style with
  | .symmetric => none
  | .bottom => some (theta, arg t - arg b + Real.pi + corr)
  | _ => some (theta, arg b - arg t + corr)

/-- State of the loop of `_program_vector_unit` (vector.py:122-150): `w r c` is `w[r, c]`. -/
structure NullState where
  w : ℕ → ℕ → ℂ
  thetas : ℕ → ℝ
  phis : ℕ → ℝ

/-- Body of the column loop (vector.py:126-150) for the nodes of one column, programmed from the
last of the matrix columns, number `c`. The diagnostics `pn`, `pnsn` are not modelled. -/
noncomputable def nullColumn (eps : ℝ) (style : PhaseStyle) (e : ℝ) (c : ℕ) (nodes : List Node)
    (st : NullState) : Option NullState := do
  -- the list of (node, theta, phi)
  let ph ← nodes.mapM fun a => (nullifyPhases eps style e e (st.w a.top c) (st.w a.bottom c))
  let np := nodes.zip ph
  let el := np.map fun p => (p.1, mziElements style false e e 0 0 p.2.1 p.2.2)
  some
    { w := fun r j => scatter (fun r => st.w r j)
        (el.map (fun p => (p.1.top, p.2.t11 * st.w p.1.top j + p.2.t21 * st.w p.1.bottom j)) ++
          el.map (fun p => (p.1.bottom, p.2.t12 * st.w p.1.top j + p.2.t22 * st.w p.1.bottom j))) r
      thetas := assign st.thetas (np.map fun p => (p.1.id, p.2.1))
      phis := assign st.phis (np.map fun p => (p.1.id, modTwoPi p.2.2)) }

/-- The loop `for nc in network.columns` (vector.py:126-150), columns given. -/
noncomputable def nullLoop (eps : ℝ) (style : PhaseStyle) (e : ℝ) (c : ℕ) (nodes : List Node) :
    List ℕ → NullState → Option NullState
  | [], st => some st
  | k :: ks, st => do
    let st' ← nullColumn eps style e c (columnNodes nodes k) st
    nullLoop eps style e c nodes ks st'

/-- `_program_vector_unit(v, network)` (vector.py:108-160) for a matrix `v` with `c + 1` columns and
`n` rows: the programmed parameters and the transformed matrix. `final_basis_vec * w[-1, -1]` is
zero except in the last position, and `angle(0) = 0` (vector.py:152-154). -/
noncomputable def programVectorUnit (eps : ℝ) (style : PhaseStyle) (e : ℝ) (n c : ℕ)
    (nodes : List Node) (v : ℕ → ℕ → ℂ) : Option (Params × (ℕ → ℕ → ℂ)) := do
  let st ← nullLoop eps style e c nodes (List.range (numColumns nodes))
    ⟨v, fun _ => 0, fun _ => 0⟩
  some (⟨st.thetas, st.phis,
    fun r => -arg ((if r = n - 1 then 1 else 0) * st.w (n - 1) c)⟩, st.w)

/-- The mesh of equal splitting errors `e` on the given nodes (`add_error_mean(e, 0)`,
forward.py:555-575). -/
def errorMesh (nodes : List Node) (e : ℝ) (style : PhaseStyle) : Mesh where
  nodes := nodes
  errors := nodes.map fun _ => (e, e)
  losses := nodes.map fun _ => (0, 0)
  style := style

/-- `vector_unit(v, balanced=balanced, phase_style=style, bs_error_mean_std=(e, 0))`
(vector.py:163-186) for a vector `v` of length `n`: mesh, parameters and the transformed vector. -/
noncomputable def vectorUnit (eps : ℝ) (style : PhaseStyle) (e : ℝ) (n : ℕ) (balanced : Bool)
    (v : ℕ → ℂ) : Option (Mesh × Params × (ℕ → ℂ)) := do
  let nodes := tree n n balanced
  let (P, w) ← programVectorUnit eps style e n 0 nodes fun r _ => v r
  some (errorMesh nodes e style, P, fun r => w r 0)

/-! ### `cascade` -/

/-- State of the loop of `cascade` (matrix.py:36-61). -/
structure CascadeState where
  /-- nodes of the subunits so far, in list order -/
  nodes : List Node
  thetas : List ℝ
  phis : List ℝ
  gammas : List ℝ
  numColumns : ℕ
  numNodes : ℕ
  w : ℕ → ℕ → ℂ

/-- The nodes of subunit `i` of an `n`-rail cascade (matrix.py:42-52): `vector_unit` builds
`tree(i + 1, n_rails=n)`, then `offset`, `offset_column` (forward.py:71-97). -/
def subunitNodes (n i : ℕ) (balanced : Bool) (numNodes numColumns : ℕ) : List Node :=
  (tree (i + 1) n balanced).map fun a =>
    { a with
      id := a.id + numNodes
      column := a.column + (if balanced then numColumns else 2 * (n - 1 - i)) }

/-- Body of the loop of `cascade` (matrix.py:40-60) at `i`. The slice `w[:i+1, :i+1]` is not cut
out: rows and columns beyond `i` are carried along and never read. -/
noncomputable def cascadeStep (eps : ℝ) (style : PhaseStyle) (e : ℝ) (n : ℕ) (balanced : Bool)
    (st : CascadeState) (i : ℕ) : Option CascadeState := do
  let (P, w) ← programVectorUnit eps style e (i + 1) i (tree (i + 1) n balanced) st.w
  some
    { nodes := st.nodes ++ subunitNodes n i balanced st.numNodes st.numColumns
      thetas := st.thetas ++ (List.range i).map P.thetas
      phis := st.phis ++ (List.range i).map P.phis
      gammas := P.gammas i :: st.gammas
      numColumns := st.numColumns + Simphox.numColumns (tree (i + 1) n balanced)
      numNodes := st.numNodes + (tree (i + 1) n balanced).length
      w := w }

/-- The loop of `cascade` over the values of `i`. -/
noncomputable def cascadeLoop (eps : ℝ) (style : PhaseStyle) (e : ℝ) (n : ℕ) (balanced : Bool) :
    List ℕ → CascadeState → Option CascadeState
  | [], st => some st
  | i :: is, st => do
    let st' ← cascadeStep eps style e n balanced st i
    cascadeLoop eps style e n balanced is st'

/-- `cascade(u, balanced, phase_style, error_mean_std=(e, 0))` (matrix.py:17-65) for a square `u`:
the mesh and its parameters. `i` runs over `n-1, ..., 1`; `ForwardMesh.aggregate` (forward.py:132-149)
builds the mesh with the default phase style TOP. -/
noncomputable def cascade (eps : ℝ) (style : PhaseStyle) (e : ℝ) (n : ℕ) (balanced : Bool)
    (u : Matrix (Fin n) (Fin n) ℂ) : Option (Mesh × Params) := do
  let w0 : ℕ → ℕ → ℂ := fun r c =>
    if h : r < n ∧ c < n then (starRingEnd ℂ) (u ⟨c, h.2⟩ ⟨r, h.1⟩) else 0
  let st ← cascadeLoop eps style e n balanced ((List.range' 1 (n - 1)).reverse)
    ⟨[], [], [], [], 0, 0, w0⟩
  let gammas := -arg (st.w 0 0) :: st.gammas
  some (errorMesh st.nodes e .top,
    ⟨fun k => st.thetas.getD k 0, fun k => st.phis.getD k 0, fun k => gammas.getD k 0⟩)

end Simphox
