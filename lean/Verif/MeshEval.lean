import Verif.MeshHeap
import Verif.Utils

/-! # Evaluating a mesh object: `columns`, `matrix_fn` with its side effects on the node objects

`mesh.columns` builds a fresh `ForwardMesh` for every column from the *same* node objects, so reading it
runs the constructor (which may renumber nodes) and looks at the nodes' current ids and columns, while the
number of columns, the errors and the phases come from the mesh object. -/

namespace Simphox

/-- `nodes_by_column[column]` (forward.py:163-165): the node objects of a column, in list order. -/
noncomputable def MHeap.columnRefs (H : MHeap) (m : MeshObj) (c : ℕ) : List ℕ :=
  m.refs.filter fun r => (H.node r).node.column = c

/-- The comprehension of `columns` (forward.py:166-167): one constructor call per column. The constructor
raises `ValueError` on an empty list (`_mzi_terms(self.all_errors)` on an empty array, forward.py:50). `rnd`
stands for the random phases the constructor draws for the column meshes, which nobody reads. -/
noncomputable def MHeap.columnsGo (style : PhaseStyle) (rnd : List ℝ) :
    List (List ℕ) → MHeap → Except PyError (List MeshObj × MHeap)
  | [], H => .ok ([], H)
  | rs :: rest, H =>
    if rs = [] then .error .valueError
    else
      match MHeap.columnsGo style rnd rest (H.construct rs style rnd rnd rnd).2 with
      | .error e => .error e
      | .ok (cs, H2) => .ok ((H.construct rs style rnd rnd rnd).1 :: cs, H2)

/-- `mesh.columns` (forward.py:151-167): `range(self.num_columns)` uses the value cached when the mesh was
built. -/
noncomputable def MHeap.columns (H : MHeap) (m : MeshObj) (rnd : List ℝ) : Except PyError (List MeshObj × MHeap) :=
  MHeap.columnsGo m.style rnd ((List.range m.numCols).map (H.columnRefs m)) H

/-- The nodes a column mesh applies: rails of its node objects, its `node_idxs` (forward.py:654-656). -/
noncomputable def MHeap.columnView (H : MHeap) (c : MeshObj) : List Node :=
  List.zipWith (fun r i => { (H.node r).node with id := i }) c.refs c.nodeIdxs

/-- The column loop of `matrix` in NumPy mode (forward.py:221-222). Indexing the phases of `N` nodes with a
larger node id raises `IndexError`. -/
noncomputable def MHeap.applyGo (H : MHeap) (el : ℕ → Elements) (N : ℕ) :
    List MeshObj → (ℕ → ℂ) → Except PyError (ℕ → ℂ)
  | [], v => .ok v
  | c :: cs, v =>
    if (c.nodeIdxs.any fun i => decide (N ≤ i)) = true then .error .indexError
    else MHeap.applyGo H el N cs (parallelTransform el (H.columnView c) v)

/-- The phases of a mesh object as functions (arrays are read inside their length only). -/
noncomputable def MHeap.paramsOf (H : MHeap) (m : MeshObj) : Params where
  thetas := fun k => (H.arr m.thetas).getD k 0
  phis := fun k => (H.arr m.phis).getD k 0
  gammas := fun k => (H.arr m.gammas).getD k 0

/-- The mesh as a value: current nodes, cached errors and losses. -/
noncomputable def MHeap.meshOf (H : MHeap) (m : MeshObj) : Mesh where
  nodes := (H.nodesOf m).map NodeObj.node
  errors := m.bsErrors
  losses := m.losses
  style := m.style

/-- The closure returned by `matrix_fn` (forward.py:197-228): the column meshes, the default arguments
(addresses of the copied phases, the errors and losses), and the captured style and direction. -/
structure MatFn where
  cols : List MeshObj
  back : Bool
  style : PhaseStyle
  errors : List (ℝ × ℝ)
  losses : List (ℝ × ℝ)
  thetas : ℕ
  phis : ℕ
  gammas : ℕ

/-- `mesh.matrix_fn(back=back)` in NumPy mode (forward.py:197-203): `columns` is read twice (once for the
loop, once inside `idx`, forward.py:238), then the default arguments are evaluated, `self.params` making
copies (forward.py:501-502). -/
noncomputable def MHeap.matrixFn (H : MHeap) (m : MeshObj) (rnd : List ℝ) (back : Bool) :
    Except PyError (MatFn × MHeap) :=
  match H.columns m rnd with
  | .error e => .error e
  | .ok (cs, H1) =>
    match H1.columns m rnd with
    | .error e => .error e
    | .ok (_, H2) =>
      .ok (⟨if back then cs.reverse else cs, back, m.style, m.bsErrors, m.losses,
        (H2.params m).1.1, (H2.params m).1.2.1, (H2.params m).1.2.2⟩, (H2.params m).2)

/-- The phases a closure uses when called without `params`. -/
noncomputable def MHeap.fnParams (H : MHeap) (f : MatFn) : Params where
  thetas := fun k => (H.arr f.thetas).getD k 0
  phis := fun k => (H.arr f.phis).getD k 0
  gammas := fun k => (H.arr f.gammas).getD k 0

/-- The matrix elements a closure uses (forward.py:207-210). -/
noncomputable def MHeap.fnElements (H : MHeap) (f : MatFn) : ℕ → Elements :=
  (⟨[], f.errors, f.losses, f.style⟩ : Mesh).elements (H.fnParams f) f.back

/-- Calling the closure on one complex input vector (forward.py:205-226). -/
noncomputable def MHeap.call (H : MHeap) (f : MatFn) (v : ℕ → ℂ) : Except PyError (ℕ → ℂ) :=
  if f.back then
    H.applyGo (H.fnElements f) (H.arr f.thetas).length f.cols (gammaApply (H.fnParams f).gammas v)
  else
    match H.applyGo (H.fnElements f) (H.arr f.thetas).length f.cols v with
    | .error e => .error e
    | .ok w => .ok (gammaApply (H.fnParams f).gammas w)

/-- `mesh.matrix_fn(back=back)(inputs=v)`, as `mesh.matrix(back=back)` does for every column of the
identity (forward.py:169-170). Result and the heap afterwards. -/
noncomputable def MHeap.matrixApply (H : MHeap) (m : MeshObj) (rnd : List ℝ) (back : Bool) (v : ℕ → ℂ) :
    Except PyError ((ℕ → ℂ) × MHeap) :=
  match H.matrixFn m rnd back with
  | .error e => .error e
  | .ok (f, H') =>
    match H'.call f v with
    | .error e => .error e
    | .ok w => .ok (w, H')

end Simphox
