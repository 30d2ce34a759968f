import Verif.Vector

/-! # Model of `hessian_vector_unit` (C105)

The Hessian of the programming error of a vector unit, computed from the powers recorded while the
unit programs itself (simphox/circuit/vector.py:120-160, 226-261). -/

namespace Simphox

open Complex

/-- A node together with `top_descendants` and `bot_descendants`
(simphox/circuit/coupling.py:93-94, 189-192). -/
structure DescNode where
  node : Node
  topDesc : List ℕ
  botDesc : List ℕ

/-- `_tree(..., balanced=True)` with the `set_descendants` calls
(simphox/circuit/vector.py:28-45; `treeBalanced` is the same function without them). -/
def treeBalancedDesc (indices : List ℕ) (nRails start column : ℕ) : List DescNode :=
  if _h : indices.length = 0 then []
  else
    let n := indices.length + 1
    let m := n / 2
    let top := indices.take (m - 1)
    let bottom := indices.drop m
    ⟨{ id := indices.getD (m - 1) 0, top := start + m - 1, bottom := start + n - 1, n := nRails,
       alpha := bottom.length + 1, beta := top.length + 1, column := column }, top, bottom⟩ ::
      (treeBalancedDesc top nRails start (column + 1) ++
        treeBalancedDesc bottom nRails (start + m) (column + 1))
termination_by indices.length
decreasing_by
  all_goals simp only [List.length_take, List.length_drop]; omega

/-- `_tree(..., balanced=False)` with the `set_descendants` calls
(simphox/circuit/vector.py:30-34). -/
def treeChainDesc (n nRails : ℕ) : List DescNode :=
  (List.range (n - 1)).reverse.map fun i =>
    ⟨chainNode n nRails i, (List.range (n - 1)).take i, []⟩

/-- The nodes of `tree(n)` with their descendants, before `invert_columns`
(simphox/circuit/vector.py:76-90). `invert_columns` changes only `column`
(simphox/circuit/forward.py:99-106), which the Hessian does not read. -/
def treeDesc (n : ℕ) (balanced : Bool) : List DescNode :=
  if balanced then treeBalancedDesc (List.range (n - 1)) n 0 0 else treeChainDesc n n

/-- The state of `_program_vector_unit` including the recorded powers `pn`, `pnsn`. -/
structure PowerState where
  null : NullState
  pn : ℕ → ℝ
  pnsn : ℕ → ℝ

/-- One pass of the loop of `_program_vector_unit` with the recording of the powers
(simphox/circuit/vector.py:126-152): `pnsn` is the power in the phase-shifted arm before the node,
`pn` the power in the bottom arm after it. -/
noncomputable def powerColumn (eps : ℝ) (style : PhaseStyle) (e : ℝ) (c : ℕ) (nodes : List Node)
    (ps : PowerState) : Option PowerState := do
  let st' ← nullColumn eps style e c nodes ps.null
  some
    { null := st'
      pnsn := assign ps.pnsn (nodes.map fun a =>
        (a.id, ‖ps.null.w (if style = .top then a.top else a.bottom) c‖ ^ 2))
      pn := assign ps.pn (nodes.map fun a => (a.id, ‖st'.w a.bottom c‖ ^ 2)) }

/-- The loop of `_program_vector_unit` with the powers (simphox/circuit/vector.py:126-152). -/
noncomputable def powerLoop (eps : ℝ) (style : PhaseStyle) (e : ℝ) (c : ℕ) (nodes : List Node) :
    List ℕ → PowerState → Option PowerState
  | [], ps => some ps
  | k :: ks, ps => do
    let ps' ← powerColumn eps style e c (columnNodes nodes k) ps
    powerLoop eps style e c nodes ks ps'

/-- The `mesh.pn`, `mesh.pnsn` of `vector_unit(v)` with ideal couplers and TOP phase style
(simphox/circuit/vector.py:163-190; they start as zeros, simphox/circuit/forward.py:63-64). -/
noncomputable def vectorUnitPowers (eps : ℝ) (n : ℕ) (balanced : Bool) (v : ℕ → ℂ) :
    Option ((ℕ → ℝ) × (ℕ → ℝ)) := do
  let nodes := tree n n balanced
  let ps ← powerLoop eps .top 0 0 nodes (List.range (numColumns nodes))
    ⟨⟨fun r _ => v r, fun _ => 0, fun _ => 0⟩, fun _ => 0, fun _ => 0⟩
  some (ps.pn, ps.pnsn)

/-- The four arrays of the loop of `hessian_vector_unit`. -/
structure HessState where
  tt : ℕ → ℕ → ℝ
  pp : ℕ → ℕ → ℝ
  tp : ℕ → ℕ → ℝ
  pt : ℕ → ℕ → ℝ

/-- `a[k][(idx,)] = f[(idx,)]`: write part of a row. -/
noncomputable def setRow (a : ℕ → ℕ → ℝ) (k : ℕ) (idx : List ℕ) (f : ℕ → ℝ) : ℕ → ℕ → ℝ :=
  fun r c => if r = k ∧ c ∈ idx then f c else a r c

/-- `a[..., k][(idx,)] = f[(idx,)]`: write part of a column. -/
noncomputable def setCol (a : ℕ → ℕ → ℝ) (k : ℕ) (idx : List ℕ) (f : ℕ → ℝ) : ℕ → ℕ → ℝ :=
  fun r c => if c = k ∧ r ∈ idx then f r else a r c

/-- `a[..., k] = a[k]`: copy row `k` to column `k`. -/
def mirrorRow (a : ℕ → ℕ → ℝ) (k : ℕ) : ℕ → ℕ → ℝ :=
  fun r c => if c = k then a k r else a r c

/-- One pass of the loop of `hessian_vector_unit` (simphox/circuit/vector.py:250-259). -/
noncomputable def hessStep (pn pnsn : ℕ → ℝ) (h : HessState) (d : DescNode) : HessState :=
  let nid := d.node.id
  { tt := mirrorRow (setRow (setRow h.tt nid d.topDesc fun k => pn k / 2)
      nid d.botDesc fun k => pn k / 2) nid
    pp := mirrorRow (setRow h.pp nid d.topDesc fun k => 2 * pnsn k) nid
    tp := setCol h.tp nid d.topDesc pn
    pt := setRow (setRow h.pt nid d.topDesc pnsn) nid d.botDesc pnsn }

/-- The matrices before the loop (simphox/circuit/vector.py:245-248). -/
noncomputable def hessInit (pn pnsn : ℕ → ℝ) : HessState where
  tt := fun r c => if r = c then pn r else 0
  pp := fun r c => if r = c then 2 * pnsn r else 0
  tp := fun _ _ => 0
  pt := fun r c => if r = c then pnsn r else 0

/-- `np.block([[tt, (tp + pt).T], [tp + pt, pp]])` with blocks of size `m`
(simphox/circuit/vector.py:260). -/
def hessBlock (m : ℕ) (h : HessState) : ℕ → ℕ → ℝ := fun r c =>
  if r < m then if c < m then h.tt r c else h.tp (c - m) r + h.pt (c - m) r
  else if c < m then h.tp (r - m) c + h.pt (r - m) c else h.pp (r - m) (c - m)

/-- The vector handed to `vector_unit`: `(v / norm(v)).conj()`
(simphox/circuit/vector.py:241-242, 208). -/
noncomputable def unitConj (n : ℕ) (v : ℕ → ℂ) : ℕ → ℂ :=
  fun r => (starRingEnd ℂ) (v r / (Real.sqrt (∑ i ∈ Finset.range n, ‖v i‖ ^ 2) : ℝ))

/-- `hessian_vector_unit(v, balanced)` for a vector of length `n`; `none` for the zero vector (nan)
(simphox/circuit/vector.py:226-261). `eps` is `np.spacing(1)`. -/
noncomputable def hessianVectorUnit (eps : ℝ) (n : ℕ) (balanced : Bool) (v : ℕ → ℂ) :
    Option (ℕ → ℕ → ℝ) := do
  if ∑ i ∈ Finset.range n, ‖v i‖ ^ 2 = 0 then none
  else
    let (pn, pnsn) ← vectorUnitPowers eps n balanced (unitConj n v)
    some (hessBlock (n - 1) ((treeDesc n balanced).foldl (hessStep pn pnsn) (hessInit pn pnsn)))

end Simphox
