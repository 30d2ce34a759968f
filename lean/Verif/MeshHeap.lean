import Verif.Mesh

/-!
# Object identity in `ForwardMesh` (`/repo/simphox/circuit/forward.py`)

Node objects and parameter arrays live in a heap; a mesh refers to them. This is what matters for
copies, `deepcopy`, in-place relabelling and sharing. Random initial phases are parameters.
-/

namespace Simphox

/-- A `CouplingNode` object (coupling.py:66-95) with its error and loss pairs. -/
structure NodeObj where
  node : Node
  err : ℝ × ℝ
  loss : ℝ × ℝ

noncomputable instance : Inhabited NodeObj := ⟨⟨default, (0, 0), (0, 0)⟩⟩

/-- All node objects and all NumPy arrays allocated so far. -/
structure MHeap where
  nodes : List NodeObj
  arrs : List (List ℝ)

/-- A `ForwardMesh` object (forward.py:40-65): references to nodes and arrays, and the values cached
by `__post_init__` (`node_idxs`, `column_by_node`, `bs_errors`, `losses`, `num_columns`). -/
structure MeshObj where
  refs : List ℕ
  style : PhaseStyle
  nodeIdxs : List ℕ
  columnByNode : List ℕ
  bsErrors : List (ℝ × ℝ)
  losses : List (ℝ × ℝ)
  numCols : ℕ
  thetas : ℕ
  phis : ℕ
  gammas : ℕ

noncomputable def MHeap.node (H : MHeap) (r : ℕ) : NodeObj := H.nodes.getD r default

/-- The array at an address. -/
def MHeap.arr (H : MHeap) (a : ℕ) : List ℝ := H.arrs.getD a []

/-- Mutate the node at `r`. -/
def MHeap.modifyNode (H : MHeap) (r : ℕ) (f : Node → Node) : MHeap :=
  { H with nodes := H.nodes.modify r fun o => { o with node := f o.node } }

/-- `for node in self.nodes: node.field = ...`. -/
def MHeap.modifyNodes (H : MHeap) (refs : List ℕ) (f : Node → Node) : MHeap :=
  refs.foldl (fun H r => H.modifyNode r f) H

/-- `array[i] = x`. -/
def MHeap.write (H : MHeap) (a i : ℕ) (x : ℝ) : MHeap :=
  { H with arrs := H.arrs.modify a fun l => l.set i x }

/-- Several writes in order. -/
def MHeap.writes (H : MHeap) (ws : List (ℕ × ℕ × ℝ)) : MHeap :=
  ws.foldl (fun H w => H.write w.1 w.2.1 w.2.2) H

/-- `for node, idx in zip(self.nodes, range): node.node_id = idx` (forward.py:54-55). -/
def MHeap.renumber (H : MHeap) (refs : List ℕ) : MHeap :=
  refs.zipIdx.foldl (fun H p => H.modifyNode p.1 fun a => { a with id := p.2 }) H

/-- `ForwardMesh(nodes, style)`: `__post_init__` (forward.py:43-65). `th`, `ph`, `ga` are the random
initial phases. Errors and losses are cached before, ids after the renumbering. -/
noncomputable def MHeap.construct (H : MHeap) (refs : List ℕ) (style : PhaseStyle) (th ph ga : List ℝ) :
    MeshObj × MHeap :=
  let H1 := if (refs.map fun r => (H.node r).node.id).sum = 0 then H.renumber refs else H
  let k := H1.arrs.length
  ({ refs := refs
     style := style
     nodeIdxs := refs.map fun r => (H1.node r).node.id
     columnByNode := refs.map fun r => (H1.node r).node.column
     bsErrors := refs.map fun r => (H.node r).err
     losses := refs.map fun r => (H.node r).loss
     numCols := numColumns (refs.map fun r => (H1.node r).node)
     thetas := k
     phis := k + 1
     gammas := k + 2 },
   { H1 with arrs := H1.arrs ++ [th, ph, ga] })

/-- `mesh.params` (forward.py:500-502): three fresh copies; returns their addresses. -/
def MHeap.params (H : MHeap) (m : MeshObj) : (ℕ × ℕ × ℕ) × MHeap :=
  let k := H.arrs.length
  ((k, k + 1, k + 2), { H with arrs := H.arrs ++ [H.arr m.thetas, H.arr m.phis, H.arr m.gammas] })

/-- `mesh.params = (a, b, c)` (forward.py:504-506): the arrays are stored, not copied. -/
def MeshObj.setParams (m : MeshObj) (p : ℕ × ℕ × ℕ) : MeshObj :=
  { m with thetas := p.1, phis := p.2.1, gammas := p.2.2 }

/-- The values of the three parameter arrays. -/
def MHeap.values (H : MHeap) (m : MeshObj) : List ℝ × List ℝ × List ℝ :=
  (H.arr m.thetas, H.arr m.phis, H.arr m.gammas)

/-- The node objects of a mesh, by value. -/
noncomputable def MHeap.nodesOf (H : MHeap) (m : MeshObj) : List NodeObj := m.refs.map H.node

/-- `add_error_mean` / `add_error_variance` (forward.py:555-601): `errs`, `losses` are the final
arrays of errors and losses (for the variance variant: old values plus random ones). Nodes are deep
copied (an object occurring twice in the list would stay shared; meshes never do this), the copies
get the new errors and losses, and a new mesh gets copies of the parameters. -/
noncomputable def MHeap.addError (H : MHeap) (m : MeshObj) (errs losses : List (ℝ × ℝ))
    (th ph ga : List ℝ) : MeshObj × MHeap :=
  let new := m.refs.zipIdx.map fun p =>
    { H.node p.1 with
      err := errs.getD p.2 (H.node p.1).err
      loss := losses.getD p.2 (H.node p.1).loss }
  let H1 : MHeap := { H with nodes := H.nodes ++ new }
  let (m1, H2) := H1.construct (List.range' H.nodes.length m.refs.length) m.style th ph ga
  let (p, H3) := H2.params m
  (m1.setParams p, H3)

/-- `ForwardMesh.aggregate(meshes)` (forward.py:132-149): a mesh on the same node objects, default
style. -/
noncomputable def MHeap.aggregate (H : MHeap) (ms : List MeshObj) (th ph ga : List ℝ) : MeshObj × MHeap :=
  H.construct (ms.flatMap MeshObj.refs) .top th ph ga

/-- Mutating operations on one mesh: `offset`, `offset_column`, `invert_columns` (forward.py:71-112)
and assignments into its phase arrays (e.g. `program_by_null_basis`, forward.py:469-472). -/
inductive MOp where
  | offset (k : ℕ)
  | offsetColumn (k : ℕ)
  | invertColumns
  | writeTheta (i : ℕ) (x : ℝ)
  | writePhi (i : ℕ) (x : ℝ)
  | writeGamma (i : ℕ) (x : ℝ)

/-- Effect of an operation on heap and mesh object. `invert_columns` uses the cached `num_columns` and
refreshes `column_by_node` only. (Columns are natural numbers: a column beyond `num_columns` would
become negative in Python and 0 here.) -/
noncomputable def MHeap.run (H : MHeap) (m : MeshObj) : MOp → MeshObj × MHeap
  | .offset k => (m, H.modifyNodes m.refs fun a => { a with id := a.id + k })
  | .offsetColumn k => (m, H.modifyNodes m.refs fun a => { a with column := a.column + k })
  | .invertColumns =>
    let H1 := H.modifyNodes m.refs fun a => { a with column := m.numCols - 1 - a.column }
    ({ m with columnByNode := m.refs.map fun r => (H1.node r).node.column }, H1)
  | .writeTheta i x => (m, H.write m.thetas i x)
  | .writePhi i x => (m, H.write m.phis i x)
  | .writeGamma i x => (m, H.write m.gammas i x)

/-- A sequence of operations. -/
noncomputable def MHeap.runs (H : MHeap) (m : MeshObj) : List MOp → MeshObj × MHeap
  | [] => (m, H)
  | op :: ops => (H.run m op).2.runs (H.run m op).1 ops

/-- References in range, parameter arrays in range. -/
structure MHeap.Valid (H : MHeap) (m : MeshObj) : Prop where
  refs : ∀ r ∈ m.refs, r < H.nodes.length
  thetas : m.thetas < H.arrs.length
  phis : m.phis < H.arrs.length
  gammas : m.gammas < H.arrs.length

end Simphox
