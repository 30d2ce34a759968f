import Verif.MeshEvalProps
import Verif.MeshProps
import Mathlib.Data.List.GetD

/-! # Composing meshes (C182): `offset`, `offset_column`, `aggregate`

Two meshes are put in series the way the library itself does it for its cascades: relabel the ids and
columns of the second past those of the first, aggregate, and give the aggregate both sets of phases. -/

namespace Simphox

open Complex

/-- What `offset(N)` and `offset_column(c)` do to one node (forward.py:81-82, 95-96). -/
def relabelNode (N c : ℕ) (a : Node) : Node := { a with id := a.id + N, column := a.column + c }

theorem foldr_max_add (l : List ℕ) (c : ℕ) (h : l ≠ []) : (l.map (· + c)).foldr max 0 = l.foldr max 0 + c := by
  induction l with
  | nil => exact absurd rfl h
  | cons a l ih =>
    by_cases hl : l = []
    · subst hl; simp
    · simp only [List.map_cons, List.foldr_cons, ih hl]; omega

theorem foldr_max_append (l l' : List ℕ) : (l ++ l').foldr max 0 = max (l.foldr max 0) (l'.foldr max 0) := by
  induction l with
  | nil => simp
  | cons a l ih => simp only [List.cons_append, List.foldr_cons, ih, max_assoc]

theorem numColumns_series (A B : List Node) (N : ℕ) :
    numColumns (A ++ B.map (relabelNode N (numColumns A))) = numColumns A + numColumns B := by
  by_cases hB : B = []
  · subst hB; simp [numColumns]
  · have hne : A ++ B.map (relabelNode N (numColumns A)) ≠ [] := by simp [hB]
    have hm : (B.map (relabelNode N (numColumns A))).map Node.column = (B.map Node.column).map (· + numColumns A) := by
      simp [relabelNode, Function.comp_def]
    have e1 : numColumns (A ++ B.map (relabelNode N (numColumns A))) =
        max ((A.map Node.column).foldr max 0) ((B.map Node.column).foldr max 0 + numColumns A) + 1 := by
      rw [numColumns, if_neg hne, List.map_append, foldr_max_append, hm, foldr_max_add _ _ (by simpa using hB)]
    have e2 : numColumns B = (B.map Node.column).foldr max 0 + 1 := by rw [numColumns, if_neg hB]
    rw [e1, e2]
    by_cases hA : A = []
    · subst hA; simp [numColumns]
    · have e3 : numColumns A = (A.map Node.column).foldr max 0 + 1 := by rw [numColumns, if_neg hA]
      omega

theorem columnNodes_series_left (A B : List Node) (N k : ℕ) (hk : k < numColumns A) :
    columnNodes (A ++ B.map (relabelNode N (numColumns A))) k = columnNodes A k := by
  unfold columnNodes
  rw [List.filter_append]
  have : (B.map (relabelNode N (numColumns A))).filter (fun a => a.column = k) = [] := by
    rw [List.filter_eq_nil_iff]
    intro a ha
    obtain ⟨b, -, rfl⟩ := List.mem_map.1 ha
    have : (relabelNode N (numColumns A) b).column ≠ k := by simp only [relabelNode]; omega
    simpa using this
  rw [this, List.append_nil]

theorem columnNodes_series_right (A B : List Node) (N k : ℕ) :
    columnNodes (A ++ B.map (relabelNode N (numColumns A))) (numColumns A + k) =
      (columnNodes B k).map (relabelNode N (numColumns A)) := by
  unfold columnNodes
  rw [List.filter_append]
  have : A.filter (fun a => a.column = numColumns A + k) = [] := by
    rw [List.filter_eq_nil_iff]
    intro a ha
    have := column_lt_numColumns ha
    simp; omega
  rw [this, List.nil_append, List.filter_map]
  congr 1
  apply List.filter_congr
  intro a _
  simp [relabelNode, add_comm]

theorem parallelTransform_shift (el : ℕ → Elements) (N c : ℕ) (l : List Node) (v : ℕ → ℂ) :
    parallelTransform el (l.map (relabelNode N c)) v = parallelTransform (fun k => el (k + N)) l v := by
  simp [parallelTransform, columnWrites, relabelNode, Function.comp_def]

theorem columnsApply_congr {el el' : ℕ → Elements} {nodes nodes' : List Node} (cols : List ℕ)
    (h : ∀ k ∈ cols, ∀ v, parallelTransform el (columnNodes nodes k) v = parallelTransform el' (columnNodes nodes' k) v) :
    ∀ v, columnsApply el nodes cols v = columnsApply el' nodes' cols v := by
  unfold columnsApply
  induction cols with
  | nil => intro v; rfl
  | cons k ks ih =>
    intro v
    rw [List.foldl_cons, List.foldl_cons, h k (by simp), ih (fun j hj => h j (by simp [hj]))]

theorem columnsApply_split (el : ℕ → Elements) (nodes : List Node) (c c' : List ℕ) (v : ℕ → ℂ) :
    columnsApply el nodes (c ++ c') v = columnsApply el nodes c' (columnsApply el nodes c v) := by
  simp [columnsApply, List.foldl_append]

theorem columnsApply_right (el : ℕ → Elements) (A B : List Node) (N : ℕ) (cols : List ℕ) : ∀ v,
    columnsApply el (A ++ B.map (relabelNode N (numColumns A))) (cols.map (numColumns A + ·)) v =
      columnsApply (fun k => el (k + N)) B cols v := by
  unfold columnsApply
  induction cols with
  | nil => intro v; rfl
  | cons k ks ih =>
    intro v
    rw [List.map_cons, List.foldl_cons, List.foldl_cons, columnNodes_series_right, parallelTransform_shift, ih]

theorem parallelTransform_same {el el' : ℕ → Elements} {l : List Node} (h : ∀ a ∈ l, el a.id = el' a.id) (v : ℕ → ℂ) :
    parallelTransform el l v = parallelTransform el' l v := by
  unfold parallelTransform columnWrites
  have e1 : l.map (fun a => (a.top, (el a.id).t11 * v a.top + (el a.id).t21 * v a.bottom)) =
      l.map (fun a => (a.top, (el' a.id).t11 * v a.top + (el' a.id).t21 * v a.bottom)) :=
    List.map_congr_left fun a ha => by rw [h a ha]
  have e2 : l.map (fun a => (a.bottom, (el a.id).t12 * v a.top + (el a.id).t22 * v a.bottom)) =
      l.map (fun a => (a.bottom, (el' a.id).t12 * v a.top + (el' a.id).t22 * v a.bottom)) :=
    List.map_congr_left fun a ha => by rw [h a ha]
  rw [e1, e2]

/-- Two meshes in series as values: the nodes, errors and losses one after the other. -/
def Mesh.series (A B : Mesh) : Mesh where
  nodes := A.nodes ++ B.nodes.map (relabelNode A.nodes.length (numColumns A.nodes))
  errors := A.errors ++ B.errors
  losses := A.losses ++ B.losses
  style := A.style

/-- The phases without the output phases. -/
def Params.noGammas (P : Params) : Params := { P with gammas := fun _ => 0 }

theorem gammaApply_zero (v : ℕ → ℂ) : gammaApply (fun _ => 0) v = v := by
  funext r; simp [gammaApply]

theorem Mesh.series_apply (A B : Mesh) (PA PB P : Params) (hs : B.style = A.style)
    (hid : ∀ a ∈ A.nodes, a.id < A.nodes.length)
    (he : A.errors.length = A.nodes.length) (hl : A.losses.length = A.nodes.length)
    (hθA : ∀ k < A.nodes.length, P.thetas k = PA.thetas k) (hφA : ∀ k < A.nodes.length, P.phis k = PA.phis k)
    (hθB : ∀ k, P.thetas (k + A.nodes.length) = PB.thetas k) (hφB : ∀ k, P.phis (k + A.nodes.length) = PB.phis k)
    (back : Bool) (v : ℕ → ℂ) :
    (A.series B).apply P back v =
      if back then A.apply PA.noGammas true (B.apply PB.noGammas true (gammaApply P.gammas v))
      else gammaApply P.gammas (B.apply PB.noGammas false (A.apply PA.noGammas false v)) := by
  have hleft : ∀ b, ∀ cols : List ℕ, (∀ k ∈ cols, k < numColumns A.nodes) → ∀ v,
      columnsApply ((A.series B).elements P b) (A.series B).nodes cols v =
        columnsApply (A.elements PA.noGammas b) A.nodes cols v := by
    intro b cols hc
    apply columnsApply_congr
    intro k hk v
    change parallelTransform _ (columnNodes (A.nodes ++ B.nodes.map _) k) v = _
    rw [columnNodes_series_left _ _ _ _ (hc k hk)]
    apply parallelTransform_same
    intro a ha
    have hlt := hid a (mem_columnNodes.1 ha).1
    simp only [Mesh.elements, Mesh.series, Params.noGammas, hθA _ hlt, hφA _ hlt]
    rw [List.getD_append _ _ _ _ (by omega), List.getD_append _ _ _ _ (by omega)]
  have hright : ∀ b, ∀ cols : List ℕ, ∀ v,
      columnsApply ((A.series B).elements P b) (A.series B).nodes (cols.map (numColumns A.nodes + ·)) v =
        columnsApply (B.elements PB.noGammas b) B.nodes cols v := by
    intro b cols v
    change columnsApply _ (A.nodes ++ B.nodes.map _) _ v = _
    rw [columnsApply_right]
    apply columnsApply_congr
    intro k _ v
    apply parallelTransform_same
    intro a _
    simp only [Mesh.elements, Mesh.series, Params.noGammas, hθB, hφB, hs]
    rw [List.getD_append_right _ _ _ _ (by omega), List.getD_append_right _ _ _ _ (by omega), he, hl,
      Nat.add_sub_cancel]
  have hcols : List.range (numColumns (A.series B).nodes) =
      List.range (numColumns A.nodes) ++ (List.range (numColumns B.nodes)).map (numColumns A.nodes + ·) := by
    rw [← List.range_add]
    exact congrArg _ (numColumns_series _ _ _)
  cases back
  · simp only [Mesh.apply, Bool.false_eq_true, if_false, columnOrder]
    rw [hcols, columnsApply_split, hright, hleft _ _ (fun k hk => List.mem_range.1 hk)]
    simp only [Params.noGammas, gammaApply_zero]
  · simp only [Mesh.apply, if_true, columnOrder]
    rw [hcols, List.reverse_append, columnsApply_split, ← List.map_reverse, hright,
      hleft _ _ (fun k hk => List.mem_range.1 (List.mem_reverse.1 hk))]
    simp only [Params.noGammas, gammaApply_zero]

/-! ### The object level -/

/-- The call sequence: `b.offset(len(a.nodes)); b.offset_column(a.num_columns); ForwardMesh.aggregate([a, b])`,
then the phases of `a` followed by those of `b`, and given output phases. -/
noncomputable def MHeap.inSeries (H : MHeap) (a b : MeshObj) (ga : List ℝ) : MeshObj × MHeap :=
  let H1 := (H.run b (.offset a.refs.length)).2
  let H2 := (H1.run b (.offsetColumn a.numCols)).2
  H2.aggregate [a, b] (H.arr a.thetas ++ H.arr b.thetas) (H.arr a.phis ++ H.arr b.phis) ga

theorem node_modify_obj (H : MHeap) (refs : List ℕ) (hv : ∀ r ∈ refs, r < H.nodes.length) (hn : refs.Nodup)
    (f : Node → Node) (r : ℕ) (hr : r ∈ refs) :
    (H.modifyNodes refs f).node r = { H.node r with node := f (H.node r).node } := by
  have := MHeap.modifyNodes_mem refs f H hn r hr
  simp only [MHeap.node, List.getD_eq_getElem?_getD, this]
  simp [List.getElem?_eq_getElem (hv r hr)]

theorem numCols_zero {H : MHeap} {m : MeshObj} (h : H.Healthy m) : numColumns ((H.nodesOf m).map NodeObj.node) = m.numCols :=
  h.cols.symm

/-- A mesh object as `ForwardMesh(nodes)` with distinct ids leaves it, in the default phase style: usable, one
outer phase per node, cached errors and losses those of the nodes. -/
structure MHeap.Fresh (H : MHeap) (m : MeshObj) : Prop extends H.Healthy m where
  phis : (H.arr m.phis).length = m.refs.length
  errs : m.bsErrors = (H.nodesOf m).map NodeObj.err
  losses : m.losses = (H.nodesOf m).map NodeObj.loss
  style : m.style = .top

theorem inSeries_spec (H : MHeap) (a b : MeshObj) (ha : H.Fresh a) (hb : H.Fresh b)
    (hab : ∀ r ∈ a.refs, r ∉ b.refs) (ga : List ℝ) :
    let r := H.inSeries a b ga
    r.2.Fresh r.1 ∧ r.2.meshOf r.1 = (H.meshOf a).series (H.meshOf b) ∧
      r.2.values r.1 = (H.arr a.thetas ++ H.arr b.thetas, H.arr a.phis ++ H.arr b.phis, ga) := by
  intro r
  set f1 : Node → Node := fun x => { x with id := x.id + a.refs.length } with hf1
  set f2 : Node → Node := fun x => { x with column := x.column + a.numCols } with hf2
  obtain ⟨h1a, h1l, h1f⟩ := MHeap.modifyNodes_frame b.refs f1 H
  obtain ⟨h2a, h2l, h2f⟩ := MHeap.modifyNodes_frame b.refs f2 (H.modifyNodes b.refs f1)
  set H1 := H.modifyNodes b.refs f1 with hH1
  set H2 := H1.modifyNodes b.refs f2 with hH2
  have hr : r = H2.construct (a.refs ++ b.refs) .top (H.arr a.thetas ++ H.arr b.thetas) (H.arr a.phis ++ H.arr b.phis) ga := by
    show H.inSeries a b ga = _
    simp only [MHeap.inSeries, MHeap.aggregate, MHeap.run, List.flatMap_cons, List.flatMap_nil, List.append_nil]
    rfl
  have nA : ∀ s ∈ a.refs, H2.node s = H.node s := fun s hs =>
    MHeap.node_congr ((h2f s (hab s hs)).trans (h1f s (hab s hs)))
  have nB : ∀ s ∈ b.refs, H2.node s = { H.node s with node := relabelNode a.refs.length a.numCols (H.node s).node } := by
    intro s hs
    rw [hH2, node_modify_obj H1 b.refs (by rw [h1l]; exact hb.valid.refs) hb.nodup f2 s hs, hH1,
      node_modify_obj H b.refs hb.valid.refs hb.nodup f1 s hs]
    rfl
  have hvr : ∀ s ∈ a.refs ++ b.refs, s < H2.nodes.length := by
    intro s hs
    rw [h2l, h1l]
    rcases List.mem_append.1 hs with h | h
    · exact ha.valid.refs s h
    · exact hb.valid.refs s h
  have hnd : (a.refs ++ b.refs).Nodup :=
    List.nodup_append.2 ⟨ha.nodup, hb.nodup, fun x hx y hy e => hab x hx (e ▸ hy)⟩
  have idA : a.refs.map (fun s => (H2.node s).node.id) = a.refs.map fun s => (H.node s).node.id :=
    List.map_congr_left fun s hs => by rw [nA s hs]
  have idB : b.refs.map (fun s => (H2.node s).node.id) = b.refs.map fun s => (H.node s).node.id + a.refs.length :=
    List.map_congr_left fun s hs => by rw [nB s hs]; rfl
  have hid : ((a.refs ++ b.refs).map fun s => (H2.node s).node.id).Nodup := by
    rw [List.map_append, idA, idB, List.nodup_append]
    refine ⟨ha.ids, ?_, ?_⟩
    · have := hb.ids.map (f := (· + a.refs.length)) (fun x y h => by simpa using h)
      simpa [Function.comp_def] using this
    · intro x hx y hy e
      obtain ⟨s, hs, rfl⟩ := List.mem_map.1 hx
      obtain ⟨t, ht, rfl⟩ := List.mem_map.1 hy
      have := ha.ids_lt s hs
      omega
  obtain ⟨cn, ca⟩ := construct_nodes H2 (a.refs ++ b.refs) hvr hnd hid .top (H.arr a.thetas ++ H.arr b.thetas)
    (H.arr a.phis ++ H.arr b.phis) ga
  rw [← hr] at cn ca
  have rrefs : r.1.refs = a.refs ++ b.refs := by rw [hr]; rfl
  have rstyle : r.1.style = .top := by rw [hr]; rfl
  have rarr : r.1.thetas = H2.arrs.length ∧ r.1.phis = H2.arrs.length + 1 ∧ r.1.gammas = H2.arrs.length + 2 := by
    rw [hr]
    unfold MHeap.construct
    split_ifs
    · have hra : (H2.renumber (a.refs ++ b.refs)).arrs = H2.arrs := (MHeap.renumber_frame _ H2).1
      exact ⟨congrArg List.length hra, congrArg (fun l => List.length l + 1) hra,
        congrArg (fun l => List.length l + 2) hra⟩
    · exact ⟨rfl, rfl, rfl⟩
  have rnum : r.1.numCols = numColumns ((a.refs ++ b.refs).map fun s => (r.2.node s).node) := by rw [hr]; rfl
  have rerr : r.1.bsErrors = (a.refs ++ b.refs).map fun s => (H2.node s).err := by rw [hr]; rfl
  have rloss : r.1.losses = (a.refs ++ b.refs).map fun s => (H2.node s).loss := by rw [hr]; rfl
  have rnode : ∀ s, r.2.node s = H2.node s := fun s => node_of_nodes cn s
  have hval : r.2.values r.1 = (H.arr a.thetas ++ H.arr b.thetas, H.arr a.phis ++ H.arr b.phis, ga) := by
    simp [MHeap.values, MHeap.arr, rarr.1, rarr.2.1, rarr.2.2, ca, List.getD_eq_getElem?_getD]
  have hnodes : (r.2.nodesOf r.1).map NodeObj.node =
      (H.nodesOf a).map NodeObj.node ++ ((H.nodesOf b).map NodeObj.node).map
        (relabelNode a.refs.length a.numCols) := by
    simp only [MHeap.nodesOf, rrefs, List.map_append, List.map_map]
    congr 1
    · exact List.map_congr_left fun s hs => by simp only [Function.comp, rnode, nA s hs]
    · exact List.map_congr_left fun s hs => by simp only [Function.comp, rnode, nB s hs]
  have hlenA : (H.meshOf a).nodes.length = a.refs.length := by simp [MHeap.meshOf, MHeap.nodesOf]
  have hcolA : numColumns (H.meshOf a).nodes = a.numCols := ha.cols.symm
  have hmesh : r.2.meshOf r.1 = (H.meshOf a).series (H.meshOf b) := by
    have e1 : (r.2.meshOf r.1).nodes = ((H.meshOf a).series (H.meshOf b)).nodes := by
      show (r.2.nodesOf r.1).map NodeObj.node = (H.meshOf a).nodes ++ (H.meshOf b).nodes.map (relabelNode _ _)
      rw [hnodes, hlenA, hcolA]; rfl
    have e2 : (r.2.meshOf r.1).errors = ((H.meshOf a).series (H.meshOf b)).errors := by
      show r.1.bsErrors = a.bsErrors ++ b.bsErrors
      rw [rerr, ha.errs, hb.errs, List.map_append]
      simp only [MHeap.nodesOf, List.map_map]
      congr 1
      · exact List.map_congr_left fun s hs => by simp only [Function.comp, nA s hs]
      · exact List.map_congr_left fun s hs => by simp only [Function.comp, nB s hs]
    have e3 : (r.2.meshOf r.1).losses = ((H.meshOf a).series (H.meshOf b)).losses := by
      show r.1.losses = a.losses ++ b.losses
      rw [rloss, ha.losses, hb.losses, List.map_append]
      simp only [MHeap.nodesOf, List.map_map]
      congr 1
      · exact List.map_congr_left fun s hs => by simp only [Function.comp, nA s hs]
      · exact List.map_congr_left fun s hs => by simp only [Function.comp, nB s hs]
    have e4 : (r.2.meshOf r.1).style = ((H.meshOf a).series (H.meshOf b)).style := by
      show r.1.style = a.style
      rw [rstyle, ha.style]
    generalize r.2.meshOf r.1 = X at e1 e2 e3 e4
    generalize (H.meshOf a).series (H.meshOf b) = Y at e1 e2 e3 e4
    cases X; cases Y
    simp only at e1 e2 e3 e4
    subst e1 e2 e3 e4; rfl
  have hnumeq : r.1.numCols = a.numCols + b.numCols := by
    have : r.1.numCols = numColumns ((r.2.nodesOf r.1).map NodeObj.node) := by
      rw [rnum]; simp only [MHeap.nodesOf, rrefs, List.map_map]; rfl
    rw [this, hnodes, ha.cols, numColumns_series, ← hb.cols]
  refine ⟨⟨⟨⟨?_, ?_, ?_, ?_⟩, ?_, ?_, ?_, ?_, ?_, ?_⟩, ?_, ?_, ?_, rstyle⟩, hmesh, hval⟩
  · rw [rrefs, cn]; exact hvr
  · rw [rarr.1, ca]; simp
  · rw [rarr.2.1, ca]; simp
  · rw [rarr.2.2, ca]; simp
  · rw [rrefs]; exact hnd
  · rw [rrefs]; simp only [rnode]; exact hid
  · intro s hs
    rw [rrefs] at hs ⊢
    rw [rnode, List.length_append]
    rcases List.mem_append.1 hs with h | h
    · rw [nA s h]; have := ha.ids_lt s h; omega
    · rw [nB s h]; have := hb.ids_lt s h; simp only [relabelNode]; omega
  · have : r.2.arr r.1.thetas = H.arr a.thetas ++ H.arr b.thetas := congrArg Prod.fst hval
    rw [this, rrefs, List.length_append, List.length_append, ha.thetas, hb.thetas]
  · rw [rnum]; simp only [MHeap.nodesOf, rrefs, List.map_map]; rfl
  · intro c hc
    rw [hnumeq] at hc
    rw [rrefs]
    by_cases h : c < a.numCols
    · obtain ⟨s, hs, e⟩ := ha.full c h
      exact ⟨s, List.mem_append_left _ hs, by rw [rnode, nA s hs, e]⟩
    · obtain ⟨s, hs, e⟩ := hb.full (c - a.numCols) (by omega)
      refine ⟨s, List.mem_append_right _ hs, ?_⟩
      rw [rnode, nB s hs]; simp only [relabelNode, e]; omega
  · have : r.2.arr r.1.phis = H.arr a.phis ++ H.arr b.phis := congrArg (fun x => x.2.1) hval
    rw [this, rrefs, List.length_append, List.length_append, ha.phis, hb.phis]
  · rw [rerr]; simp only [MHeap.nodesOf, rrefs, List.map_map]
    exact List.map_congr_left fun s _ => by simp only [Function.comp, rnode]
  · rw [rloss]; simp only [MHeap.nodesOf, rrefs, List.map_map]
    exact List.map_congr_left fun s _ => by simp only [Function.comp, rnode]

/-- C182, two meshes in series. Take two freshly constructed meshes (any ids, errors and losses) with no node
object in common. After `b.offset(len(a.nodes))`, `b.offset_column(a.num_columns)`,
`c = ForwardMesh.aggregate([a, b])` and giving `c` the phases of `a` followed by those of `b`, and output phases
`ga`, the mesh `c` does what `a` and `b` did before, one after the other (each without its own output phases),
then `ga`; backward, it applies `ga`, then `b` backward, then `a` backward. `c` is itself as freshly constructed,
so more meshes can be put behind it. -/
theorem C182_series (H : MHeap) (a b : MeshObj) (ha : H.Fresh a) (hb : H.Fresh b)
    (hab : ∀ r ∈ a.refs, r ∉ b.refs) (ga rnd : List ℝ) (v : ℕ → ℂ) :
    let c := (H.inSeries a b ga).1
    let H' := (H.inSeries a b ga).2
    let fwd := fun (m : MeshObj) => (H.meshOf m).apply (H.paramsOf m).noGammas false
    let bwd := fun (m : MeshObj) => (H.meshOf m).apply (H.paramsOf m).noGammas true
    let phase := fun (w : ℕ → ℂ) (r : ℕ) => exp (I * (ga.getD r 0 : ℝ)) * w r
    H'.Fresh c ∧ (∃ H1, H'.matrixApply c rnd false v = .ok (phase (fwd b (fwd a v)), H1)) ∧
      ∃ H1, H'.matrixApply c rnd true v = .ok (bwd a (bwd b (phase v)), H1) := by
  obtain ⟨hh, hm, hval⟩ := inSeries_spec H a b ha hb hab ga
  have hth : (H.inSeries a b ga).2.arr (H.inSeries a b ga).1.thetas = H.arr a.thetas ++ H.arr b.thetas := congrArg Prod.fst hval
  have hph : (H.inSeries a b ga).2.arr (H.inSeries a b ga).1.phis = H.arr a.phis ++ H.arr b.phis :=
    congrArg (fun x => x.2.1) hval
  have hga : (H.inSeries a b ga).2.arr (H.inSeries a b ga).1.gammas = ga := congrArg (fun x => x.2.2) hval
  have hlenA : (H.meshOf a).nodes.length = a.refs.length := by simp [MHeap.meshOf, MHeap.nodesOf]
  have key : ∀ back w, ((H.inSeries a b ga).2.meshOf (H.inSeries a b ga).1).apply
      ((H.inSeries a b ga).2.paramsOf (H.inSeries a b ga).1) back w =
      if back then (H.meshOf a).apply (H.paramsOf a).noGammas true ((H.meshOf b).apply (H.paramsOf b).noGammas true (gammaApply ((H.inSeries a b ga).2.paramsOf (H.inSeries a b ga).1).gammas w))
      else gammaApply ((H.inSeries a b ga).2.paramsOf (H.inSeries a b ga).1).gammas ((H.meshOf b).apply (H.paramsOf b).noGammas false ((H.meshOf a).apply (H.paramsOf a).noGammas false w)) := fun back w => by
    rw [hm]
    exact Mesh.series_apply (H.meshOf a) (H.meshOf b) (H.paramsOf a) (H.paramsOf b)
      ((H.inSeries a b ga).2.paramsOf (H.inSeries a b ga).1) (hb.style.trans ha.style.symm)
      (by
        intro x hx
        simp only [MHeap.meshOf, MHeap.nodesOf, List.map_map, List.mem_map] at hx
        obtain ⟨s, hs, rfl⟩ := hx
        rw [hlenA]; exact ha.ids_lt s hs)
      (by simp [MHeap.meshOf, ha.errs]) (by simp [MHeap.meshOf, ha.losses])
      (by
        intro k hk
        simp only [MHeap.paramsOf, hth]
        rw [List.getD_append _ _ _ _ (by rw [ha.thetas, ← hlenA]; exact hk)])
      (by
        intro k hk
        simp only [MHeap.paramsOf, hph]
        rw [List.getD_append _ _ _ _ (by rw [ha.phis, ← hlenA]; exact hk)])
      (by
        intro k
        simp only [MHeap.paramsOf, hth, hlenA]
        rw [List.getD_append_right _ _ _ _ (by rw [ha.thetas]; omega), ha.thetas, Nat.add_sub_cancel])
      (by
        intro k
        simp only [MHeap.paramsOf, hph, hlenA]
        rw [List.getD_append_right _ _ _ _ (by rw [ha.phis]; omega), ha.phis, Nat.add_sub_cancel])
      back w
  refine ⟨hh, ?_, ?_⟩
  · obtain ⟨H1, e, -⟩ := C112_evaluation_pure_partial _ _ hh.toHealthy rnd false v
    refine ⟨H1, e.trans ?_⟩
    rw [key false v]
    simp only [Bool.false_eq_true, if_false, MHeap.paramsOf, hga]
    rfl
  · obtain ⟨H1, e, -⟩ := C112_evaluation_pure_partial _ _ hh.toHealthy rnd true v
    refine ⟨H1, e.trans ?_⟩
    rw [key true v]
    simp only [if_true, MHeap.paramsOf, hga]
    rfl

/-- C182, as matrices on `n` rails: the matrix of the series is the product of the two matrices, the later mesh
to the left, with the output phases last; backward, in the opposite order. -/
theorem C182_matrix {n : ℕ} (H : MHeap) (a b : MeshObj) (ha : H.Fresh a) (hb : H.Fresh b)
    (hab : ∀ r ∈ a.refs, r ∉ b.refs) (ga : List ℝ) (wa : (H.meshOf a).WellFormed n) (wb : (H.meshOf b).WellFormed n) :
    let c := (H.inSeries a b ga).1
    let H' := (H.inSeries a b ga).2
    let mat := fun (m : MeshObj) (back : Bool) => (H.meshOf m).matrix n (H.paramsOf m).noGammas back
    let phase : Matrix (Fin n) (Fin n) ℂ := Matrix.diagonal fun i => exp (I * (ga.getD i.val 0 : ℝ))
    (H'.meshOf c).matrix n (H'.paramsOf c) false = phase * mat b false * mat a false ∧
      (H'.meshOf c).matrix n (H'.paramsOf c) true = mat a true * mat b true * phase := by
  intro c H' mat phase
  have hv : ∀ back v, restrict n ((H'.meshOf c).apply (H'.paramsOf c) back v) =
      (if back then mat a true * mat b true * phase else phase * mat b false * mat a false).mulVec (restrict n v) := by
    intro back v
    obtain ⟨hf, ⟨H1, e1⟩, ⟨H2, e2⟩⟩ := C182_series H a b ha hb hab ga [] v
    obtain ⟨H3, e3, -⟩ := C112_evaluation_pure_partial _ _ hf.toHealthy [] back v
    cases back
    · rw [e1] at e3
      have := congrArg Prod.fst (Except.ok.inj e3)
      simp only at this
      rw [show (H'.meshOf c).apply (H'.paramsOf c) false v = _ from this.symm]
      simp only [Bool.false_eq_true, if_false]
      rw [← Matrix.mulVec_mulVec, ← Matrix.mulVec_mulVec, Mesh.matrix_mulVec wa, Mesh.matrix_mulVec wb]
      exact restrict_gamma n (fun r => ga.getD r 0) _
    · rw [e2] at e3
      have := congrArg Prod.fst (Except.ok.inj e3)
      simp only at this
      rw [show (H'.meshOf c).apply (H'.paramsOf c) true v = _ from this.symm]
      simp only [if_true]
      rw [← Matrix.mulVec_mulVec, ← Matrix.mulVec_mulVec, ← Mesh.matrix_mulVec wa, ← Mesh.matrix_mulVec wb]
      congr 2
      exact restrict_gamma n (fun r => ga.getD r 0) _
  have fin : ∀ back, (H'.meshOf c).matrix n (H'.paramsOf c) back =
      if back then mat a true * mat b true * phase else phase * mat b false * mat a false := by
    intro back
    ext i j
    have := congrFun (hv back (fun r => if r = j.val then 1 else 0)) i
    rw [restrict_basis, Matrix.mulVec_single_one] at this
    exact this
  exact ⟨fin false, fin true⟩

/-- Two fresh meshes on three rails: a two-node mesh and a one-node mesh. -/
noncomputable def pairHeap : MHeap :=
  ⟨[⟨⟨0, 0, 1, 3, 1, 1, 0⟩, (0, 0), (0, 0)⟩, ⟨⟨1, 1, 2, 3, 1, 1, 1⟩, (1, 0), (0, 0)⟩,
    ⟨⟨0, 0, 1, 3, 1, 1, 0⟩, (0, 0), (2, 0)⟩], [[1, 2], [3, 4], [0, 0, 0], [5], [6], [0, 0, 0]]⟩

/-- The first mesh of `pairHeap`. -/
noncomputable def pairA : MeshObj := ⟨[0, 1], .top, [0, 1], [0, 1], [(0, 0), (1, 0)], [(0, 0), (0, 0)], 2, 0, 1, 2⟩

/-- The second mesh of `pairHeap`. -/
noncomputable def pairB : MeshObj := ⟨[2], .top, [0], [0], [(0, 0)], [(2, 0)], 1, 3, 4, 5⟩

example : pairHeap.Fresh pairA ∧ pairHeap.Fresh pairB ∧ (∀ r ∈ pairA.refs, r ∉ pairB.refs) ∧
    (pairHeap.meshOf pairA).WellFormed 3 ∧ (pairHeap.meshOf pairB).WellFormed 3 := by
  refine ⟨⟨⟨⟨?_, ?_, ?_, ?_⟩, ?_, ?_, ?_, ?_, ?_, ?_⟩, ?_, ?_, ?_, rfl⟩,
    ⟨⟨⟨?_, ?_, ?_, ?_⟩, ?_, ?_, ?_, ?_, ?_, ?_⟩, ?_, ?_, ?_, rfl⟩, ?_, ⟨?_, ?_, ?_, ?_, ?_⟩, ⟨?_, ?_, ?_, ?_, ?_⟩⟩
  all_goals try (simp [pairHeap, pairA, pairB, MHeap.node, MHeap.arr, MHeap.nodesOf, numColumns, MHeap.meshOf, ColumnsDisjoint]; done)
  · intro c hc
    have hc2 : c < 2 := hc
    refine ⟨c, ?_, ?_⟩
    · simp [pairA]; omega
    · rcases (show c = 0 ∨ c = 1 by omega) with rfl | rfl <;> simp [pairHeap, MHeap.node]

end Simphox
