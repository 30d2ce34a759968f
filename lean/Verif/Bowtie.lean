import Verif.MatrixDecomp
import Verif.Vector
import Verif.Mesh

/-!
# The cosine-sine bowtie mesh (`/repo/simphox/circuit/matrix.py:188-246`)

`_bowtie` and `bowtie`. The results of `cs` (which calls LAPACK) are a parameter `cs`; `CsAt` says what is assumed of
one call. Two-dimensional arrays are functions of row and column together with their shape; an index out of range is an
`IndexError` and negative indices wrap, as in NumPy.
-/

namespace Simphox

open Matrix Complex

/-- `arr[i]` on an array with `rows` rows: the row it denotes, negative indices counting from the end. -/
def pyRow (rows : ℕ) (i : ℤ) : Except PyError ℕ :=
  if 0 ≤ i ∧ i < rows then .ok i.toNat
  else if -(rows : ℤ) ≤ i ∧ i < 0 then .ok (i + rows).toNat
  else .error .indexError

/-- The arrays `thetas` (shape `(2n-3, n)`) and `phis` (shape `(2n-1, n)`) of `bowtie` (matrix.py:230-231). -/
structure BowtieState where
  thetas : ℕ → ℕ → ℝ
  phis : ℕ → ℕ → ℝ

/-- `arr[row][col] = x`. -/
def set2 (a : ℕ → ℕ → ℝ) (row col : ℕ) (x : ℝ) : ℕ → ℕ → ℝ :=
  Function.update a row (Function.update (a row) col x)

/-- The number of positions of `thetas[layer][start:start + m * 2][::2]` on a row of length `N`. -/
def stridedCount (N m start : ℕ) : ℕ := (min N (start + 2 * m) - start + 1) / 2

/-- `thetas[layer][start:start + m * 2][::2] = theta` (matrix.py:210) with `m = theta.size`: NumPy broadcasts a single
value and otherwise needs as many values as positions. -/
def writeTheta (N : ℕ) {m : ℕ} (thetas : ℕ → ℕ → ℝ) (row start : ℕ) (theta : Fin m → ℝ) :
    Except PyError (ℕ → ℕ → ℝ) :=
  if stridedCount N m start = m then
    .ok ((List.finRange m).foldl (fun a k => set2 a row (start + 2 * k.val) (theta k)) thetas)
  else if m = 1 then .ok thetas
  else .error .valueError

/-- A node made by `_bowtie`: `top`, `bottom`, `column` (matrix.py:211-212). -/
structure BowtieNode where
  top : ℕ
  bottom : ℕ
  column : ℤ
deriving DecidableEq

/-- `_bowtie(u, n_rails, thetas, phis, start, layer)` (matrix.py:188-217), with `N = n_rails`; returns the mutated arrays
and the node list. `cs` on an empty matrix raises. -/
noncomputable def bowtieRec (cs : (n : ℕ) → Matrix (Fin n) (Fin n) ℂ → CsOut (n / 2) (n - n / 2)) (N : ℕ) (n : ℕ)
    (u : Matrix (Fin n) (Fin n) ℂ) (start : ℕ) (layer : ℤ) (s : BowtieState) :
    Except PyError (BowtieState × List BowtieNode) :=
  if h0 : n = 0 then .error .valueError
  else if h1 : n = 1 then do
    let r ← pyRow (2 * N - 1) layer
    if start < N then
      .ok ({ s with phis := set2 s.phis r start (s.phis r start + arg (u ⟨0, by omega⟩ ⟨0, by omega⟩)) }, [])
    else .error .indexError
  else do
    let o := cs n u
    let r ← pyRow (2 * N - 3) layer
    let th ← writeTheta N s.thetas r start o.theta
    let here := (List.range (n / 2)).map fun k => ⟨start + k, start + k + n / 2, layer⟩
    let (s1, a) ← bowtieRec cs N (n / 2) o.l0 start (layer - (n / 2 : ℕ)) { s with thetas := th }
    let (s2, b) ← bowtieRec cs N (n / 2) o.r0 start (layer + (n / 2 : ℕ)) s1
    let (s3, c) ← bowtieRec cs N (n - n / 2) o.l1 (start + n / 2) (layer - (n / 2 : ℕ)) s2
    let (s4, d) ← bowtieRec cs N (n - n / 2) o.r1 (start + n / 2) (layer + (n / 2 : ℕ)) s3
    return (s4, here ++ (a ++ (b ++ (c ++ d))))
termination_by n
decreasing_by all_goals omega

/-- `ForwardMesh(nodes)` numbers the nodes in list order because they all come with `node_id = 0`
(forward.py:52-55). The columns made by `_bowtie` are never negative (`bowtieLayout_column`). -/
def bowtieNodes (N : ℕ) (raw : List BowtieNode) : List Node :=
  raw.mapIdx fun i a => ⟨i, a.top, a.bottom, N, 1, 1, a.column.toNat⟩

/-- The arrays of the loop of `bowtie` (matrix.py:233-243). -/
structure BowtieLoop where
  theta : ℕ → ℝ
  phi : ℕ → ℝ
  phis : ℕ → ℕ → ℝ

/-- One turn of the loop of `bowtie` (matrix.py:237-243); `col_idx < len(columns)` always holds. The assignment to
`theta` needs as many nonzero entries in the row as the column has nodes (or exactly one). -/
noncomputable def bowtieColumn (N : ℕ) (nodes : List Node) (thetas : ℕ → ℕ → ℝ) (st : BowtieLoop) (k : ℕ) :
    Except PyError BowtieLoop := by
  classical exact
  let col := columnNodes nodes k
  let vals := ((List.range N).map (thetas k)).filter (fun x => x ≠ 0)
  let row := assign (st.phis k) (col.map fun a => (a.top, st.phis k a.bottom))
  let next := fun r => modTwoPi (st.phis (k + 1) r + row r)
  let rest : (ℕ → ℝ) → BowtieLoop := fun th =>
    { theta := th
      phi := assign st.phi (col.map fun a => (a.id, st.phis k a.top - st.phis k a.bottom))
      phis := Function.update (Function.update st.phis k row) (k + 1) next }
  if vals.length = col.length then .ok (rest (assign st.theta ((col.map Node.id).zip vals)))
  else if vals.length = 1 then .ok (rest (assign st.theta (col.map fun a => (a.id, vals.headD 0))))
  else .error .valueError

/-- `bowtie(u)` (matrix.py:220-246) for an `N × N` array `u`. `np.zeros((2 * n - 3, n))` raises for `n < 2`, and
`circuit.columns` raises when some column below `num_columns` has no node, because `ForwardMesh([])` raises. -/
noncomputable def bowtie (cs : (n : ℕ) → Matrix (Fin n) (Fin n) ℂ → CsOut (n / 2) (n - n / 2)) (N : ℕ)
    (u : Matrix (Fin N) (Fin N) ℂ) : Except PyError (Mesh × Params) :=
  if N < 2 then .error .valueError
  else do
    let (s, raw) ← bowtieRec cs N N u 0 ((N : ℤ) - 2) ⟨fun _ _ => 0, fun _ _ => 0⟩
    let nodes := bowtieNodes N raw
    if (List.range (numColumns nodes)).any (fun k => (columnNodes nodes k).isEmpty) then .error .valueError
    else do
      let out ← (List.range (numColumns nodes)).foldlM (bowtieColumn N nodes s.thetas)
        ⟨fun _ => 0, fun _ => 0, fun r => s.phis (r + 1)⟩
      return (idealMesh nodes .top,
        { thetas := fun k => out.theta k * 2, phis := out.phi, gammas := out.phis (2 * N - 3) })

/-- `mat[:m, :m]`, `mat[:m, m:]`, ... (matrix.py:143-148): the blocks of `mat` with `m = n // 2`. -/
def csSplit {n : ℕ} (u : Matrix (Fin n) (Fin n) ℂ) :
    Matrix (Fin (n / 2) ⊕ Fin (n - n / 2)) (Fin (n / 2) ⊕ Fin (n - n / 2)) ℂ :=
  let pos : Fin (n / 2) ⊕ Fin (n - n / 2) → Fin n :=
    Sum.elim (fun i => ⟨i.val, by omega⟩) (fun j => ⟨n / 2 + j.val, by omega⟩)
  Matrix.of fun a b => u (pos a) (pos b)

end Simphox
