import Verif.MeshEval
import Verif.MeshHeapProps
import Verif.TreeLemmas
import Mathlib.Data.List.Perm.Subperm

/-! # Evaluating and relabelling mesh objects (C112, C113) -/

namespace Simphox

/-- A mesh object as the constructors of the library leave it: distinct node objects with distinct ids
`0 .. N-1`, one phase per node, an up to date number of columns, and no empty column. -/
structure MHeap.Healthy (H : MHeap) (m : MeshObj) : Prop where
  valid : H.Valid m
  nodup : m.refs.Nodup
  ids : (m.refs.map fun r => (H.node r).node.id).Nodup
  ids_lt : ∀ r ∈ m.refs, (H.node r).node.id < m.refs.length
  thetas : (H.arr m.thetas).length = m.refs.length
  cols : m.numCols = numColumns ((H.nodesOf m).map NodeObj.node)
  full : ∀ c < m.numCols, ∃ r ∈ m.refs, (H.node r).node.column = c

theorem node_of_nodes {H H' : MHeap} (h : H'.nodes = H.nodes) (r : ℕ) : H'.node r = H.node r := by
  unfold MHeap.node; rw [h]

/-- Reading the columns of meshes with distinct ids keeps all node objects and arrays. -/
theorem columnsGo_ok (style : PhaseStyle) (rnd : List ℝ) : ∀ (css : List (List ℕ)) (H : MHeap),
    (∀ rs ∈ css, rs ≠ [] ∧ rs.Nodup ∧ (∀ r ∈ rs, r < H.nodes.length) ∧
      (rs.map fun r => (H.node r).node.id).Nodup) →
    ∃ cs H', MHeap.columnsGo style rnd css H = .ok (cs, H') ∧ H'.nodes = H.nodes ∧
      (∃ extra, H'.arrs = H.arrs ++ extra) ∧ cs.map MeshObj.refs = css ∧
      ∀ c ∈ cs, c.nodeIdxs = c.refs.map fun r => (H.node r).node.id := by
  intro css
  induction css with
  | nil => intro H _; exact ⟨[], H, rfl, rfl, ⟨[], by simp⟩, rfl, by simp⟩
  | cons rs rest ih =>
    intro H h
    obtain ⟨h1, h2, h3, h4⟩ := h rs (by simp)
    obtain ⟨k1, k2⟩ := construct_nodes H rs h3 h2 h4 style rnd rnd rnd
    obtain ⟨cs, H', e, n, ⟨extra, ex⟩, r, ix⟩ := ih (H.construct rs style rnd rnd rnd).2 (by
      intro rs' hrs'
      obtain ⟨a, b, c, d⟩ := h rs' (by simp [hrs'])
      refine ⟨a, b, ?_, ?_⟩
      · rw [k1]; exact c
      · simp only [node_of_nodes k1]; exact d)
    refine ⟨_, H', by rw [MHeap.columnsGo, if_neg h1, e], n.trans k1, ⟨[rnd, rnd, rnd] ++ extra, ?_⟩, ?_, ?_⟩
    · rw [ex, k2, List.append_assoc]
    · rw [List.map_cons, r]; rfl
    · intro c hc
      rcases List.mem_cons.1 hc with rfl | hc
      · have : (H.construct rs style rnd rnd rnd).1.nodeIdxs =
            rs.map fun r => ((H.construct rs style rnd rnd rnd).2.node r).node.id := rfl
        rw [this]
        simp only [node_of_nodes k1]
        rfl
      · rw [ix c hc]
        simp only [node_of_nodes k1]

theorem columnRefs_props (H : MHeap) (m : MeshObj) (hv : ∀ r ∈ m.refs, r < H.nodes.length) (hn : m.refs.Nodup)
    (hid : (m.refs.map fun r => (H.node r).node.id).Nodup)
    (hfull : ∀ c < m.numCols, ∃ r ∈ m.refs, (H.node r).node.column = c) :
    ∀ rs ∈ (List.range m.numCols).map (H.columnRefs m), rs ≠ [] ∧ rs.Nodup ∧ (∀ r ∈ rs, r < H.nodes.length) ∧
      (rs.map fun r => (H.node r).node.id).Nodup := by
  intro rs hrs
  obtain ⟨c, hc, rfl⟩ := List.mem_map.1 hrs
  obtain ⟨r, hr, hrc⟩ := hfull c (List.mem_range.1 hc)
  refine ⟨?_, hn.filter _, fun s hs => hv s (List.mem_filter.1 hs).1, ?_⟩
  · intro e
    have : r ∈ H.columnRefs m c := List.mem_filter.2 ⟨hr, by simp [hrc]⟩
    rw [e] at this; simp at this
  · exact hid.sublist ((List.filter_sublist).map _)

theorem applyGo_ok (H : MHeap) (el : ℕ → Elements) (N : ℕ) : ∀ (cs : List MeshObj) (v : ℕ → ℂ),
    (∀ c ∈ cs, ∀ i ∈ c.nodeIdxs, i < N) →
    H.applyGo el N cs v = .ok (cs.foldl (fun v c => parallelTransform el (H.columnView c) v) v) := by
  intro cs
  induction cs with
  | nil => intro v _; rfl
  | cons c cs ih =>
    intro v h
    rw [MHeap.applyGo, if_neg, ih _ fun c' hc' => h c' (by simp [hc'])]
    · rfl
    · rw [List.any_eq_true]
      rintro ⟨i, hi, hN⟩
      have := h c (by simp) i hi
      simp at hN; omega

theorem applyGo_error (H : MHeap) (el : ℕ → Elements) (N : ℕ) : ∀ (cs : List MeshObj) (v : ℕ → ℂ),
    (∃ c ∈ cs, ∃ i ∈ c.nodeIdxs, N ≤ i) → H.applyGo el N cs v = .error .indexError := by
  intro cs
  induction cs with
  | nil => rintro v ⟨c, hc, _⟩; simp at hc
  | cons c cs ih =>
    rintro v ⟨c', hc', i, hi, hN⟩
    rw [MHeap.applyGo]
    split_ifs with hany
    · rfl
    · apply ih
      rcases List.mem_cons.1 hc' with rfl | hc'
      · exact absurd (List.any_eq_true.2 ⟨i, hi, by simp [hN]⟩) hany
      · exact ⟨c', hc', i, hi, hN⟩

theorem columnView_eq (H : MHeap) (c : MeshObj) (h : c.nodeIdxs = c.refs.map fun r => (H.node r).node.id) :
    H.columnView c = c.refs.map fun r => (H.node r).node := by
  unfold MHeap.columnView
  rw [h]
  generalize c.refs = l
  induction l with
  | nil => rfl
  | cons a l ih => rw [List.map_cons, List.zipWith_cons_cons, ih, List.map_cons]

theorem columnNodes_refs (H : MHeap) (m : MeshObj) (k : ℕ) :
    (H.columnRefs m k).map (fun r => (H.node r).node) = columnNodes ((H.nodesOf m).map NodeObj.node) k := by
  unfold MHeap.columnRefs columnNodes MHeap.nodesOf
  rw [List.map_map, List.filter_map]
  rfl

theorem foldl_columns (H : MHeap) (m : MeshObj) (el : ℕ → Elements) : ∀ (ks : List ℕ) (cs : List MeshObj) (v : ℕ → ℂ),
    cs.map MeshObj.refs = ks.map (H.columnRefs m) →
    (∀ c ∈ cs, c.nodeIdxs = c.refs.map fun r => (H.node r).node.id) →
    cs.foldl (fun v c => parallelTransform el (H.columnView c) v) v =
      columnsApply el ((H.nodesOf m).map NodeObj.node) ks v := by
  intro ks
  induction ks with
  | nil => intro cs v h _; rw [List.map_nil, List.map_eq_nil_iff] at h; subst h; rfl
  | cons k ks ih =>
    intro cs v h hx
    cases cs with
    | nil => simp at h
    | cons c cs =>
      rw [List.map_cons, List.map_cons, List.cons.injEq] at h
      rw [List.foldl_cons, columnView_eq H c (hx c (by simp)), h.1, columnNodes_refs,
        ih cs _ h.2 fun c hc => hx c (by simp [hc])]
      rfl

theorem arr_append {H H' : MHeap} {extra : List (List ℝ)} (h : H'.arrs = H.arrs ++ extra) (a : ℕ)
    (ha : a < H.arrs.length) : H'.arr a = H.arr a := by
  simp only [MHeap.arr, List.getD_eq_getElem?_getD, h, List.getElem?_append_left ha]

/-- The general evaluation lemma: distinct ids, no empty column. -/
theorem matrixFn_general (H : MHeap) (m : MeshObj) (rnd : List ℝ) (back : Bool)
    (hval : H.Valid m) (hn : m.refs.Nodup) (hid : (m.refs.map fun r => (H.node r).node.id).Nodup)
    (hfull : ∀ c < m.numCols, ∃ r ∈ m.refs, (H.node r).node.column = c) :
    ∃ (f : MatFn) (H' : MHeap), H.matrixFn m rnd back = .ok (f, H') ∧ H'.nodes = H.nodes ∧
      (∃ extra, H'.arrs = H.arrs ++ extra) ∧
      f.cols.map MeshObj.refs =
        (if back then (List.range m.numCols).reverse else List.range m.numCols).map (H.columnRefs m) ∧
      (∀ c ∈ f.cols, c.nodeIdxs = c.refs.map fun r => (H.node r).node.id) ∧
      f.back = back ∧ H'.fnParams f = H.paramsOf m ∧
      H'.fnElements f = (H.meshOf m).elements (H.paramsOf m) back ∧
      (H'.arr f.thetas).length = (H.arr m.thetas).length ∧
      (H.arrs.length ≤ f.thetas ∧ H.arrs.length ≤ f.phis ∧ H.arrs.length ≤ f.gammas) := by
  obtain ⟨cs, H1, e1, n1, ⟨x1, a1⟩, r1, i1⟩ := columnsGo_ok m.style rnd _ H
    (columnRefs_props H m hval.refs hn hid hfull)
  have hc1 : H1.columnRefs m = H.columnRefs m := by
    funext c; unfold MHeap.columnRefs; simp only [node_of_nodes n1]
  obtain ⟨cs2, H2, e2, n2, ⟨x2, a2⟩, r2, i2⟩ := columnsGo_ok m.style rnd
    ((List.range m.numCols).map (H1.columnRefs m)) H1 (by
      rw [hc1]
      intro rs hrs
      obtain ⟨p, q, r, s⟩ := columnRefs_props H m hval.refs hn hid hfull rs hrs
      refine ⟨p, q, by rw [n1]; exact r, ?_⟩
      simp only [node_of_nodes n1]; exact s)
  have n2' := n2.trans n1
  have a2' : H2.arrs = H.arrs ++ (x1 ++ x2) := by rw [a2, a1, List.append_assoc]
  have hk : ∀ (a b c : List ℝ), (⟨H2.nodes, H2.arrs ++ [a, b, c]⟩ : MHeap).arr H2.arrs.length = a ∧
      (⟨H2.nodes, H2.arrs ++ [a, b, c]⟩ : MHeap).arr (H2.arrs.length + 1) = b ∧
      (⟨H2.nodes, H2.arrs ++ [a, b, c]⟩ : MHeap).arr (H2.arrs.length + 2) = c := by
    intro a b c
    simp [MHeap.arr, List.getD_eq_getElem?_getD]
  obtain ⟨k1, k2, k3⟩ := hk (H2.arr m.thetas) (H2.arr m.phis) (H2.arr m.gammas)
  rw [arr_append a2' _ hval.thetas, arr_append a2' _ hval.phis, arr_append a2' _ hval.gammas] at k1 k2 k3
  have hlen : H.arrs.length ≤ H2.arrs.length := by rw [a2', List.length_append]; omega
  have hpar : (H2.params m).2 =
      ⟨H2.nodes, H2.arrs ++ [H.arr m.thetas, H.arr m.phis, H.arr m.gammas]⟩ := by
    unfold MHeap.params
    rw [arr_append a2' _ hval.thetas, arr_append a2' _ hval.phis, arr_append a2' _ hval.gammas]
  have hP : ∀ f : MatFn, f.thetas = H2.arrs.length → f.phis = H2.arrs.length + 1 → f.gammas = H2.arrs.length + 2 →
      (H2.params m).2.fnParams f = H.paramsOf m := by
    intro f h1 h2 h3
    unfold MHeap.fnParams MHeap.paramsOf
    rw [hpar, h1, h2, h3, k1, k2, k3]
  refine ⟨_, _, by
    unfold MHeap.matrixFn MHeap.columns
    rw [e1]
    simp only
    rw [e2], ?_, ⟨x1 ++ x2 ++ [H2.arr m.thetas, H2.arr m.phis, H2.arr m.gammas], ?_⟩, ?_, ?_, rfl,
    hP _ rfl rfl rfl, ?_, ?_, ?_⟩
  · exact n2'
  · show H2.arrs ++ [H2.arr m.thetas, H2.arr m.phis, H2.arr m.gammas] = _
    rw [a2', List.append_assoc]
  · cases back
    · exact r1
    · show cs.reverse.map _ = (List.range m.numCols).reverse.map _
      rw [List.map_reverse, r1, List.map_reverse]
  · cases back
    · exact i1
    · exact fun c hc => i1 c (List.mem_reverse.1 hc)
  · unfold MHeap.fnElements
    rw [hP _ rfl rfl rfl]
    rfl
  · show ((H2.params m).2.arr H2.arrs.length).length = _
    rw [hpar, k1]
  · exact ⟨hlen, le_trans hlen (Nat.le_add_right _ _), le_trans hlen (Nat.le_add_right _ _)⟩

/-- Calling a closure whose indices are in range. -/
theorem call_ok (H K : MHeap) (m : MeshObj) (f : MatFn) (v : ℕ → ℂ) (P : Params)
    (hview : ∀ c ∈ f.cols, ∀ (el : ℕ → Elements) (w : ℕ → ℂ),
      parallelTransform el (K.columnView c) w = parallelTransform el (H.columnView c) w)
    (hcols : f.cols.map MeshObj.refs =
        (columnOrder ((H.nodesOf m).map NodeObj.node) f.back).map (H.columnRefs m))
    (hix : ∀ c ∈ f.cols, c.nodeIdxs = c.refs.map fun r => (H.node r).node.id)
    (hlt : ∀ c ∈ f.cols, ∀ i ∈ c.nodeIdxs, i < (K.arr f.thetas).length)
    (hP : K.fnParams f = P) (hel : K.fnElements f = (H.meshOf m).elements P f.back) :
    K.call f v = .ok ((H.meshOf m).apply P f.back v) := by
  have fold : ∀ w, f.cols.foldl (fun v c => parallelTransform ((H.meshOf m).elements P f.back) (K.columnView c) v) w =
      columnsApply ((H.meshOf m).elements P f.back) ((H.nodesOf m).map NodeObj.node)
        (columnOrder ((H.nodesOf m).map NodeObj.node) f.back) w := by
    intro w
    rw [← foldl_columns H m _ _ f.cols w hcols hix]
    clear hcols hix hlt
    generalize f.cols = cs at hview
    induction cs generalizing w with
    | nil => rfl
    | cons c cs ih =>
      rw [List.foldl_cons, List.foldl_cons, hview c (by simp), ih _ (fun c hc => hview c (by simp [hc]))]
  unfold MHeap.call
  rw [hP, hel]
  cases hb : f.back with
  | false =>
    rw [hb] at fold
    simp only [Bool.false_eq_true, if_false]
    rw [applyGo_ok K _ _ f.cols v hlt]
    simp only [fold]
    simp [Mesh.apply, MHeap.meshOf]
  | true =>
    rw [hb] at fold
    simp only [if_true]
    rw [applyGo_ok K _ _ f.cols _ hlt]
    simp only [fold]
    simp [Mesh.apply, MHeap.meshOf]

/-- What `matrix_fn` returns on a healthy mesh. -/
theorem matrixFn_healthy (H : MHeap) (m : MeshObj) (h : H.Healthy m) (rnd : List ℝ) (back : Bool) :
    ∃ (f : MatFn) (H' : MHeap), H.matrixFn m rnd back = .ok (f, H') ∧ H'.nodes = H.nodes ∧
      (∃ extra, H'.arrs = H.arrs ++ extra) ∧ f.back = back ∧
      f.cols.map MeshObj.refs =
        (columnOrder ((H.nodesOf m).map NodeObj.node) f.back).map (H.columnRefs m) ∧
      (∀ c ∈ f.cols, c.nodeIdxs = c.refs.map fun r => (H.node r).node.id) ∧
      (∀ c ∈ f.cols, ∀ i ∈ c.nodeIdxs, i < (H'.arr f.thetas).length) ∧
      H'.fnParams f = H.paramsOf m ∧ H'.fnElements f = (H.meshOf m).elements (H.paramsOf m) f.back ∧
      (H.arrs.length ≤ f.thetas ∧ H.arrs.length ≤ f.phis ∧ H.arrs.length ≤ f.gammas) := by
  obtain ⟨f, H', e, n, ex, r, ix, hb, hP, hel, hl, hfresh⟩ :=
    matrixFn_general H m rnd back h.valid h.nodup h.ids h.full
  have hr : f.cols.map MeshObj.refs =
        (columnOrder ((H.nodesOf m).map NodeObj.node) f.back).map (H.columnRefs m) := by
    rw [r, hb, columnOrder, ← h.cols]
  refine ⟨f, H', e, n, ex, hb, hr, ix, ?_, hP, by rw [hel, hb], hfresh⟩
  intro c hc i hi
  rw [ix c hc] at hi
  obtain ⟨s, hs, rfl⟩ := List.mem_map.1 hi
  have : c.refs ∈ (columnOrder ((H.nodesOf m).map NodeObj.node) f.back).map (H.columnRefs m) := by
    rw [← hr]; exact List.mem_map_of_mem hc
  obtain ⟨k, -, hk⟩ := List.mem_map.1 this
  rw [← hk] at hs
  rw [hl, h.thetas]
  exact h.ids_lt s (List.mem_filter.1 hs).1

/-- C112 (partial): evaluating a mesh object (`mesh.matrix()`, `mesh.matrix_fn(back)(inputs=v)`) with
distinct node ids returns the value of the mesh (`Mesh.apply`) and leaves every node object and every
existing array as it was. Missing: meshes with repeated node ids, for which it is false (next theorem). -/
theorem C112_evaluation_pure_partial (H : MHeap) (m : MeshObj) (h : H.Healthy m) (rnd : List ℝ) (back : Bool)
    (v : ℕ → ℂ) :
    ∃ H', H.matrixApply m rnd back v = .ok ((H.meshOf m).apply (H.paramsOf m) back v, H') ∧
      H'.nodes = H.nodes ∧ ∀ a < H.arrs.length, H'.arr a = H.arr a := by
  obtain ⟨f, H', e, n, ⟨extra, ex⟩, hb, hr, ix, hlt, hP, hel, -⟩ := matrixFn_healthy H m h rnd back
  refine ⟨H', ?_, n, fun a ha => arr_append ex a ha⟩
  unfold MHeap.matrixApply
  rw [e]
  simp only
  rw [call_ok H H' m f v _ (fun c _ el w => by unfold MHeap.columnView; simp only [node_of_nodes n]) hr ix hlt hP hel]
  simp only [hb]

/-- Three nodes, two of them with the same id in column 0 (two subunits stacked side by side without
`offset`). -/
noncomputable def clashHeap : MHeap :=
  ⟨[⟨⟨0, 0, 1, 4, 1, 1, 0⟩, (0, 0), (0, 0)⟩, ⟨⟨0, 2, 3, 4, 1, 1, 0⟩, (0, 0), (0, 0)⟩,
    ⟨⟨1, 1, 2, 4, 1, 1, 1⟩, (0, 0), (0, 0)⟩], []⟩

/-- C112 is false when node ids repeat: building the mesh keeps the ids `0, 0, 1`, and merely reading
`mesh.columns` (as `matrix` does) renumbers the second node object. -/
theorem C112_reading_renumbers_counterexample :
    let m := (clashHeap.construct [0, 1, 2] .top [0, 0, 0] [0, 0, 0] [0, 0, 0, 0]).1
    let H := (clashHeap.construct [0, 1, 2] .top [0, 0, 0] [0, 0, 0] [0, 0, 0, 0]).2
    (H.node 1).node.id = 0 ∧ ∀ rnd, ∃ (cs : List MeshObj) (H' : MHeap), H.columns m rnd = .ok (cs, H') ∧ (H'.node 1).node.id = 1 := by
  intro m H
  have hs : ([0, 1, 2].map fun r => (clashHeap.node r).node.id).sum ≠ 0 := by
    simp [clashHeap, MHeap.node]
  have hH : H.nodes = clashHeap.nodes := by
    show (clashHeap.construct [0, 1, 2] .top [0, 0, 0] [0, 0, 0] [0, 0, 0, 0]).2.nodes = _
    unfold MHeap.construct
    rw [if_neg hs]
  refine ⟨by rw [node_of_nodes hH]; rfl, fun rnd => ?_⟩
  have hm : m.refs = [0, 1, 2] := rfl
  have hc : m.numCols = 2 := by
    have : m.numCols = numColumns ([0, 1, 2].map fun r => (H.node r).node) := rfl
    rw [this]
    simp only [node_of_nodes hH]
    simp [clashHeap, MHeap.node, numColumns]
  have h0 : H.columnRefs m 0 = [0, 1] := by
    unfold MHeap.columnRefs; rw [hm]; simp only [node_of_nodes hH]; simp [clashHeap, MHeap.node]
  have h1 : H.columnRefs m 1 = [2] := by
    unfold MHeap.columnRefs; rw [hm]; simp only [node_of_nodes hH]; simp [clashHeap, MHeap.node]
  unfold MHeap.columns
  rw [hc]
  simp only [List.range_succ, List.range_zero, List.nil_append, List.map_cons, List.map_nil,
    h0, h1, List.cons_append]
  refine ⟨_, _, by
    rw [MHeap.columnsGo, if_neg (by simp), MHeap.columnsGo, if_neg (by simp), MHeap.columnsGo], ?_⟩
  have hz : ([0, 1].map fun r => (H.node r).node.id).sum = 0 := by
    simp only [node_of_nodes hH]; simp [clashHeap, MHeap.node]
  have e1 : (H.construct [0, 1] m.style rnd rnd rnd).2.nodes = (H.renumber [0, 1]).nodes := by
    unfold MHeap.construct; rw [if_pos hz]
  have e1n : (H.construct [0, 1] m.style rnd rnd rnd).2.nodes =
      [⟨⟨0, 0, 1, 4, 1, 1, 0⟩, (0, 0), (0, 0)⟩, ⟨⟨1, 2, 3, 4, 1, 1, 0⟩, (0, 0), (0, 0)⟩,
        ⟨⟨1, 1, 2, 4, 1, 1, 1⟩, (0, 0), (0, 0)⟩] := by
    rw [e1]
    simp [MHeap.renumber, MHeap.modifyNode, hH, clashHeap, List.zipIdx]
  generalize (H.construct [0, 1] m.style rnd rnd rnd).2 = H1 at e1n ⊢
  have hs2 : ([2].map fun r => (H1.node r).node.id).sum ≠ 0 := by
    simp [MHeap.node, e1n]
  have e2 : (H1.construct [2] m.style rnd rnd rnd).2.nodes = H1.nodes := by
    unfold MHeap.construct; rw [if_neg hs2]
  rw [node_of_nodes e2]
  simp [MHeap.node, e1n]

/-! ### C113 -/

theorem node_modify (H : MHeap) (refs : List ℕ) (hv : ∀ r ∈ refs, r < H.nodes.length) (hn : refs.Nodup)
    (f : Node → Node) (r : ℕ) (hr : r ∈ refs) :
    ((H.modifyNodes refs f).node r).node = f (H.node r).node := by
  have := MHeap.modifyNodes_mem refs f H hn r hr
  simp only [MHeap.node, List.getD_eq_getElem?_getD, this]
  simp [List.getElem?_eq_getElem (hv r hr)]

theorem valid_modify (H : MHeap) (m : MeshObj) (hv : H.Valid m) (f : Node → Node) :
    (H.modifyNodes m.refs f).Valid m := by
  obtain ⟨a, b, -⟩ := MHeap.modifyNodes_frame m.refs f H
  exact ⟨by rw [b]; exact hv.refs, by rw [a]; exact hv.thetas, by rw [a]; exact hv.phis, by rw [a]; exact hv.gammas⟩

/-- C113 is false for `offset`: on every mesh, after `mesh.offset(k)` with `k > 0`, evaluating the mesh
raises `IndexError` (the phases are still indexed from 0). -/
theorem C113_offset_counterexample (H : MHeap) (m : MeshObj) (h : H.Healthy m) (hne : m.refs ≠ []) (k : ℕ)
    (hk : 0 < k) (rnd : List ℝ) (back : Bool) (v : ℕ → ℂ) :
    (H.run m (.offset k)).2.matrixApply (H.run m (.offset k)).1 rnd back v = .error .indexError := by
  show (H.modifyNodes m.refs fun a => { a with id := a.id + k }).matrixApply m rnd back v = _
  have hnode : ∀ r ∈ m.refs, ((H.modifyNodes m.refs fun a => { a with id := a.id + k }).node r).node =
      { (H.node r).node with id := (H.node r).node.id + k } := fun r hr =>
    node_modify H m.refs h.valid.refs h.nodup _ r hr
  have harr := (MHeap.modifyNodes_frame m.refs (fun a => { a with id := a.id + k }) H).1
  have hval := valid_modify H m h.valid fun a => { a with id := a.id + k }
  generalize (H.modifyNodes m.refs fun a => { a with id := a.id + k }) = K at hnode harr hval ⊢
  have hids : (m.refs.map fun r => (K.node r).node.id).Nodup := by
    have : (m.refs.map fun r => (K.node r).node.id) = (m.refs.map fun r => (H.node r).node.id).map (· + k) := by
      rw [List.map_map]
      apply List.map_congr_left
      intro r hr; rw [hnode r hr]; rfl
    rw [this]
    exact h.ids.map (fun a b hab => by simpa using hab)
  have hfull : ∀ c < m.numCols, ∃ r ∈ m.refs, (K.node r).node.column = c := by
    intro c hc
    obtain ⟨r, hr, e⟩ := h.full c hc
    exact ⟨r, hr, by rw [hnode r hr]; exact e⟩
  obtain ⟨f, H', e, n, -, r, ix, hb, -, -, hl, -⟩ := matrixFn_general K m rnd back hval h.nodup hids hfull
  have hbig : ∃ s ∈ m.refs, m.refs.length ≤ (K.node s).node.id := by
    by_contra hcon
    push Not at hcon
    have hsub : (m.refs.map fun r => (H.node r).node.id) ⊆ List.range (m.refs.length - k) := by
      intro i hi
      obtain ⟨s, hs, rfl⟩ := List.mem_map.1 hi
      have := hcon s hs
      rw [hnode s hs] at this
      simp only at this
      rw [List.mem_range]; omega
    have := (List.subperm_of_subset h.ids hsub).length_le
    rw [List.length_map, List.length_range] at this
    have : 0 < m.refs.length := List.length_pos_iff.2 hne
    omega
  obtain ⟨s, hs, hsN⟩ := hbig
  have hcol : (K.node s).node.column < m.numCols := by
    rw [hnode s hs, h.cols]
    show (H.node s).node.column < _
    apply column_lt_numColumns
    rw [List.mem_map]
    exact ⟨H.node s, List.mem_map_of_mem hs, rfl⟩
  have hin : K.columnRefs m (K.node s).node.column ∈ f.cols.map MeshObj.refs := by
    rw [r]
    apply List.mem_map_of_mem
    cases back
    · exact List.mem_range.2 hcol
    · exact List.mem_reverse.2 (List.mem_range.2 hcol)
  obtain ⟨c, hc, hcr⟩ := List.mem_map.1 hin
  have hN : (H'.arr f.thetas).length = m.refs.length := by
    rw [hl, ← h.thetas]; unfold MHeap.arr; rw [harr]
  have hbad : ∃ c ∈ f.cols, ∃ i ∈ c.nodeIdxs, (H'.arr f.thetas).length ≤ i := by
    refine ⟨c, hc, (K.node s).node.id, ?_, by rw [hN]; exact hsN⟩
    rw [ix c hc, hcr]
    exact List.mem_map_of_mem (List.mem_filter.2 ⟨hs, by simp⟩)
  unfold MHeap.matrixApply
  rw [e]
  have : H'.call f v = .error .indexError := by
    unfold MHeap.call
    split_ifs
    · exact applyGo_error _ _ _ _ _ hbad
    · rw [applyGo_error _ _ _ _ _ hbad]
  simp only [this]

/-- C113 is false for `offset_column`: on every mesh, after `mesh.offset_column(k)` with `k > 0`, evaluating
the mesh raises `ValueError` (column 0 is now empty). -/
theorem C113_offset_column_counterexample (H : MHeap) (m : MeshObj) (h : H.Healthy m) (hne : m.refs ≠ [])
    (k : ℕ) (hk : 0 < k) (rnd : List ℝ) (back : Bool) (v : ℕ → ℂ) :
    (H.run m (.offsetColumn k)).2.matrixApply (H.run m (.offsetColumn k)).1 rnd back v = .error .valueError := by
  show (H.modifyNodes m.refs fun a => { a with column := a.column + k }).matrixApply m rnd back v = _
  have hnode : ∀ r ∈ m.refs, ((H.modifyNodes m.refs fun a => { a with column := a.column + k }).node r).node =
      { (H.node r).node with column := (H.node r).node.column + k } := fun r hr =>
    node_modify H m.refs h.valid.refs h.nodup _ r hr
  generalize (H.modifyNodes m.refs fun a => { a with column := a.column + k }) = K at hnode ⊢
  have h0 : K.columnRefs m 0 = [] := by
    unfold MHeap.columnRefs
    rw [List.filter_eq_nil_iff]
    intro r hr
    rw [hnode r hr]
    simp; omega
  obtain ⟨s, hs⟩ := List.exists_mem_of_ne_nil _ hne
  have hpos : 0 < m.numCols := by
    have : (H.node s).node.column < m.numCols := by
      rw [h.cols]
      apply column_lt_numColumns
      rw [List.mem_map]
      exact ⟨H.node s, List.mem_map_of_mem hs, rfl⟩
    omega
  obtain ⟨c, hc⟩ := Nat.exists_eq_succ_of_ne_zero hpos.ne'
  have : K.columns m rnd = .error .valueError := by
    unfold MHeap.columns
    rw [hc, List.range_succ_eq_map, List.map_cons, h0, MHeap.columnsGo, if_pos rfl]
  unfold MHeap.matrixApply MHeap.matrixFn
  rw [this]

/-- C113 (partial): `invert_columns` keeps a mesh usable: it can be evaluated, with the value of the mesh
whose columns are in reverse order and whose phases, errors and losses are the same. -/
theorem C113_invert_partial (H : MHeap) (m : MeshObj) (h : H.Healthy m) (rnd : List ℝ) (back : Bool)
    (v : ℕ → ℂ) :
    (H.run m .invertColumns).2.Healthy (H.run m .invertColumns).1 ∧
    ∃ H', (H.run m .invertColumns).2.matrixApply (H.run m .invertColumns).1 rnd back v =
      .ok (({ H.meshOf m with nodes := invertColumns (H.meshOf m).nodes } : Mesh).apply (H.paramsOf m) back v, H') := by
  have hnode : ∀ r ∈ m.refs, ((H.modifyNodes m.refs fun a => { a with column := m.numCols - 1 - a.column }).node r).node =
      { (H.node r).node with column := m.numCols - 1 - (H.node r).node.column } := fun r hr =>
    node_modify H m.refs h.valid.refs h.nodup _ r hr
  have harr := (MHeap.modifyNodes_frame m.refs (fun a => { a with column := m.numCols - 1 - a.column }) H).1
  have hval := valid_modify H m h.valid fun a => { a with column := m.numCols - 1 - a.column }
  have hres : H.run m .invertColumns =
      ({ m with columnByNode := m.refs.map fun r => ((H.modifyNodes m.refs fun a =>
        { a with column := m.numCols - 1 - a.column }).node r).node.column },
        H.modifyNodes m.refs fun a => { a with column := m.numCols - 1 - a.column }) := rfl
  rw [hres]
  generalize (H.modifyNodes m.refs fun a => { a with column := m.numCols - 1 - a.column }) = K at hnode harr hval ⊢
  set m' : MeshObj := { m with columnByNode := m.refs.map fun r => (K.node r).node.column } with hm'
  have hclt : ∀ r ∈ m.refs, (H.node r).node.column < m.numCols := by
    intro r hr
    rw [h.cols]
    apply column_lt_numColumns
    rw [List.mem_map]
    exact ⟨H.node r, List.mem_map_of_mem hr, rfl⟩
  have hnodes : (K.nodesOf m').map NodeObj.node = invertColumns ((H.nodesOf m).map NodeObj.node) := by
    unfold invertColumns
    rw [← h.cols]
    simp only [List.map_map, MHeap.nodesOf]
    apply List.map_congr_left
    intro r hr
    exact hnode r hr
  have hfull : ∀ c < m.numCols, ∃ r ∈ m.refs, (K.node r).node.column = c := by
    intro c hc
    obtain ⟨r, hr, e⟩ := h.full (m.numCols - 1 - c) (by omega)
    refine ⟨r, hr, ?_⟩
    rw [hnode r hr]
    simp only
    omega
  have hH : K.Healthy m' := by
    refine ⟨⟨hval.refs, hval.thetas, hval.phis, hval.gammas⟩, h.nodup, ?_, ?_, ?_, ?_, hfull⟩
    · have : (m'.refs.map fun r => (K.node r).node.id) = m.refs.map fun r => (H.node r).node.id := by
        apply List.map_congr_left
        intro r hr
        rw [hnode r hr]
      rw [this]; exact h.ids
    · intro r hr
      have := h.ids_lt r hr
      rw [hnode r hr]; exact this
    · show (K.arr m.thetas).length = m.refs.length
      rw [← h.thetas]; unfold MHeap.arr; rw [harr]
    · show m.numCols = _
      rcases Nat.eq_zero_or_pos m.numCols with h0 | hpos
      · have : m.refs = [] := by
          by_contra hne
          obtain ⟨s, hs⟩ := List.exists_mem_of_ne_nil _ hne
          have := hclt s hs
          omega
        have e1 : (K.nodesOf m').map NodeObj.node = [] := by
          unfold MHeap.nodesOf
          show (m.refs.map K.node).map NodeObj.node = []
          rw [this]; rfl
        rw [e1, h0]; rfl
      · symm
        apply numColumns_eq_of
        · intro a ha
          simp only [List.mem_map, MHeap.nodesOf] at ha
          obtain ⟨o, ⟨r, hr, rfl⟩, rfl⟩ := ha
          rw [hnode r hr]
          simp only
          omega
        · obtain ⟨r, hr, e⟩ := hfull (m.numCols - 1) (by omega)
          exact ⟨(K.node r).node, List.mem_map.2 ⟨K.node r, List.mem_map_of_mem hr, rfl⟩, by rw [e]; omega⟩
  refine ⟨hH, ?_⟩
  obtain ⟨H', e, -⟩ := C112_evaluation_pure_partial K m' hH rnd back v
  refine ⟨H', ?_⟩
  rw [e]
  have h1 : K.meshOf m' = { H.meshOf m with nodes := invertColumns (H.meshOf m).nodes } := by
    unfold MHeap.meshOf
    rw [hnodes]
  have h2 : K.paramsOf m' = H.paramsOf m := by
    unfold MHeap.paramsOf MHeap.arr
    rw [harr]
  rw [h1, h2]

/-! ### C114 -/

theorem modifyNodes_rails (f : Node → Node) (hf : ∀ a, (f a).top = a.top ∧ (f a).bottom = a.bottom) :
    ∀ (refs : List ℕ) (H : MHeap) (s : ℕ), ((H.modifyNodes refs f).node s).node.top = (H.node s).node.top ∧
      ((H.modifyNodes refs f).node s).node.bottom = (H.node s).node.bottom := by
  intro refs
  induction refs with
  | nil => intro H s; exact ⟨rfl, rfl⟩
  | cons r refs ih =>
    intro H s
    obtain ⟨h1, h2⟩ := ih (H.modifyNode r f) s
    have h : ((H.modifyNode r f).node s).node.top = (H.node s).node.top ∧
        ((H.modifyNode r f).node s).node.bottom = (H.node s).node.bottom := by
      simp only [MHeap.node, List.getD_eq_getElem?_getD, H.modifyNode_nodes]
      split_ifs
      · cases H.nodes[s]? with
        | none => exact ⟨rfl, rfl⟩
        | some o => exact hf o.node
      · exact ⟨rfl, rfl⟩
    exact ⟨h1.trans h.1, h2.trans h.2⟩

theorem runs_keep (ops : List MOp) : ∀ (H : MHeap) (m : MeshObj),
    (∀ a, a ≠ m.thetas → a ≠ m.phis → a ≠ m.gammas → (H.runs m ops).2.arr a = H.arr a) ∧
    (∀ s, ((H.runs m ops).2.node s).node.top = (H.node s).node.top ∧
      ((H.runs m ops).2.node s).node.bottom = (H.node s).node.bottom) := by
  induction ops with
  | nil => intro H m; exact ⟨fun _ _ _ _ => rfl, fun _ => ⟨rfl, rfl⟩⟩
  | cons op ops ih =>
    intro H m
    obtain ⟨h1, h2⟩ := ih (H.run m op).2 (H.run m op).1
    have hm : (H.run m op).1.thetas = m.thetas ∧ (H.run m op).1.phis = m.phis ∧ (H.run m op).1.gammas = m.gammas := by
      cases op <;> exact ⟨rfl, rfl, rfl⟩
    rw [hm.1, hm.2.1, hm.2.2] at h1
    have key : (∀ a, a ≠ m.thetas → a ≠ m.phis → a ≠ m.gammas → (H.run m op).2.arr a = H.arr a) ∧
        (∀ s, ((H.run m op).2.node s).node.top = (H.node s).node.top ∧
          ((H.run m op).2.node s).node.bottom = (H.node s).node.bottom) := by
      have harr : ∀ f : Node → Node, ∀ a, (H.modifyNodes m.refs f).arr a = H.arr a := by
        intro f a; unfold MHeap.arr; rw [(MHeap.modifyNodes_frame m.refs f H).1]
      cases op with
      | offset k => exact ⟨fun a _ _ _ => harr _ a, fun s => modifyNodes_rails (fun a => { a with id := a.id + k }) (fun _ => ⟨rfl, rfl⟩) _ H s⟩
      | offsetColumn k => exact ⟨fun a _ _ _ => harr _ a, fun s => modifyNodes_rails (fun a => { a with column := a.column + k }) (fun _ => ⟨rfl, rfl⟩) _ H s⟩
      | invertColumns => exact ⟨fun a _ _ _ => harr _ a, fun s => modifyNodes_rails (fun a => { a with column := m.numCols - 1 - a.column }) (fun _ => ⟨rfl, rfl⟩) _ H s⟩
      | writeTheta i x => exact ⟨fun a h _ _ => by
          show (H.write m.thetas i x).arr a = _
          rw [H.write_arr, if_neg h], fun s => ⟨rfl, rfl⟩⟩
      | writePhi i x => exact ⟨fun a _ h _ => by
          show (H.write m.phis i x).arr a = _
          rw [H.write_arr, if_neg h], fun s => ⟨rfl, rfl⟩⟩
      | writeGamma i x => exact ⟨fun a _ _ h => by
          show (H.write m.gammas i x).arr a = _
          rw [H.write_arr, if_neg h], fun s => ⟨rfl, rfl⟩⟩
    refine ⟨fun a x y z => (h1 a x y z).trans (key.1 a x y z), fun s => ?_⟩
    exact ⟨(h2 s).1.trans (key.2 s).1, (h2 s).2.trans (key.2 s).2⟩

theorem parallelTransform_view (H K : MHeap) (c : MeshObj)
    (h : ∀ s, (K.node s).node.top = (H.node s).node.top ∧ (K.node s).node.bottom = (H.node s).node.bottom)
    (el : ℕ → Elements) (w : ℕ → ℂ) :
    parallelTransform el (K.columnView c) w = parallelTransform el (H.columnView c) w := by
  have e1 : ∀ (F : ℕ → ℕ → ℕ → ℕ × ℂ) (l l' : List ℕ),
      (List.zipWith (fun r i => { (K.node r).node with id := i }) l l').map (fun a => F a.top a.bottom a.id) =
      (List.zipWith (fun r i => { (H.node r).node with id := i }) l l').map (fun a => F a.top a.bottom a.id) := by
    intro F l
    induction l with
    | nil => intro l'; rfl
    | cons r l ih =>
      intro l'
      cases l' with
      | nil => rfl
      | cons i l' =>
        simp only [List.zipWith_cons_cons, List.map_cons, (h r).1, (h r).2]
        rw [ih l']
  unfold parallelTransform columnWrites MHeap.columnView
  rw [e1 (fun t b i => (t, (el i).t11 * w t + (el i).t21 * w b)),
    e1 (fun t b i => (b, (el i).t12 * w t + (el i).t22 * w b))]

/-- C114: a matrix function is a snapshot and `matrix()` is not. For every healthy mesh and every later
history of phase writes and relabellings of the mesh, the function returned earlier by
`mesh.matrix_fn(back)` still evaluates the mesh as it was when the function was built. -/
theorem C114_matrix_fn_snapshot (H : MHeap) (m : MeshObj) (h : H.Healthy m) (rnd : List ℝ) (back : Bool) :
    ∃ (f : MatFn) (H' : MHeap), H.matrixFn m rnd back = .ok (f, H') ∧ ∀ (ops : List MOp) (v : ℕ → ℂ),
      (H'.runs m ops).2.call f v = .ok ((H.meshOf m).apply (H.paramsOf m) back v) := by
  obtain ⟨f, H', e, n, -, hb, hr, ix, hlt, hP, hel, f1, f2, f3⟩ := matrixFn_healthy H m h rnd back
  refine ⟨f, H', e, fun ops v => ?_⟩
  obtain ⟨k1, k2⟩ := runs_keep ops H' m
  have ne : ∀ a, H.arrs.length ≤ a → a ≠ m.thetas ∧ a ≠ m.phis ∧ a ≠ m.gammas := by
    intro a ha
    have := h.valid.thetas; have := h.valid.phis; have := h.valid.gammas
    omega
  have a1 := k1 f.thetas (ne _ f1).1 (ne _ f1).2.1 (ne _ f1).2.2
  have a2 := k1 f.phis (ne _ f2).1 (ne _ f2).2.1 (ne _ f2).2.2
  have a3 := k1 f.gammas (ne _ f3).1 (ne _ f3).2.1 (ne _ f3).2.2
  have hP' : (H'.runs m ops).2.fnParams f = H'.fnParams f := by
    unfold MHeap.fnParams; rw [a1, a2, a3]
  rw [← hb, call_ok H (H'.runs m ops).2 m f v (H.paramsOf m) ?_ hr ix ?_ (hP'.trans hP) ?_]
  · intro c _ el w
    rw [parallelTransform_view H' _ c k2]
    exact parallelTransform_view H H' c (fun s => by rw [node_of_nodes n]; exact ⟨rfl, rfl⟩) el w
  · rw [a1]; exact hlt
  · unfold MHeap.fnElements; rw [hP']; exact hel

/-- C114, second half: `mesh.matrix()` called after any phase writes evaluates the mesh with the phases it
holds then. -/
theorem C114_matrix_is_current (H : MHeap) (m : MeshObj) (h : H.Healthy m) (i : ℕ) (x : ℝ) (rnd : List ℝ)
    (back : Bool) (v : ℕ → ℂ) (hne : m.thetas ≠ m.phis ∧ m.thetas ≠ m.gammas) (hi : i < m.refs.length) :
    ∃ H', (H.run m (.writeTheta i x)).2.matrixApply m rnd back v =
      .ok ((H.meshOf m).apply { H.paramsOf m with thetas := Function.update (H.paramsOf m).thetas i x } back v, H') := by
  have hl : (H.write m.thetas i x).arrs.length = H.arrs.length := by simp [MHeap.write]
  have harr : ∀ b, (H.write m.thetas i x).arr b = if b = m.thetas then (H.arr b).set i x else H.arr b :=
    fun b => H.write_arr _ _ _ b
  have hH : (H.write m.thetas i x).Healthy m := by
    refine ⟨⟨h.valid.refs, by rw [hl]; exact h.valid.thetas, by rw [hl]; exact h.valid.phis,
      by rw [hl]; exact h.valid.gammas⟩, h.nodup, h.ids, h.ids_lt, ?_, h.cols, h.full⟩
    rw [harr, if_pos rfl, List.length_set]; exact h.thetas
  obtain ⟨H', e, -⟩ := C112_evaluation_pure_partial _ m hH rnd back v
  refine ⟨H', ?_⟩
  show (H.write m.thetas i x).matrixApply m rnd back v = _
  rw [e]
  have hP : (H.write m.thetas i x).paramsOf m =
      { H.paramsOf m with thetas := Function.update (H.paramsOf m).thetas i x } := by
    unfold MHeap.paramsOf
    simp only [harr, if_neg hne.1.symm, if_neg hne.2.symm, if_true]
    congr 1
    funext k
    by_cases hk : k = i
    · subst hk
      rw [Function.update_self, List.getD_eq_getElem?_getD, List.getElem?_set_self (by rw [h.thetas]; exact hi)]
      rfl
    · rw [Function.update_of_ne hk, List.getD_eq_getElem?_getD, List.getD_eq_getElem?_getD,
        List.getElem?_set_ne (Ne.symm hk)]
  rw [hP]
  rfl

/-- The phase writes among the operations on a mesh. -/
def MOp.isWrite : MOp → Prop
  | .writeTheta _ _ | .writePhi _ _ | .writeGamma _ _ => True
  | _ => False

theorem healthy_write (H : MHeap) (m : MeshObj) (h : H.Healthy m) (a i : ℕ) (x : ℝ) : (H.write a i x).Healthy m := by
  have hl : (H.write a i x).arrs.length = H.arrs.length := by simp [MHeap.write]
  refine ⟨⟨h.valid.refs, by rw [hl]; exact h.valid.thetas, by rw [hl]; exact h.valid.phis,
      by rw [hl]; exact h.valid.gammas⟩, h.nodup, h.ids, h.ids_lt, ?_, h.cols, h.full⟩
  rw [H.write_arr]
  split_ifs
  · rw [List.length_set]; exact h.thetas
  · exact h.thetas

/-- C114, second half, for every history of phase writes: `mesh.matrix()` evaluates the mesh with the
phases its arrays hold at the time of the call. -/
theorem C114_matrix_after_writes (m : MeshObj) (ops : List MOp) (hops : ∀ op ∈ ops, op.isWrite) :
    ∀ (H : MHeap), H.Healthy m → ∀ (rnd : List ℝ) (back : Bool) (v : ℕ → ℂ),
      (H.runs m ops).1 = m ∧ ∃ H', (H.runs m ops).2.matrixApply m rnd back v =
        .ok ((H.meshOf m).apply ((H.runs m ops).2.paramsOf m) back v, H') := by
  induction ops with
  | nil =>
    intro H h rnd back v
    obtain ⟨H', e, -⟩ := C112_evaluation_pure_partial H m h rnd back v
    exact ⟨rfl, H', e⟩
  | cons op ops ih =>
    intro H h rnd back v
    have hw := hops op (by simp)
    have ih' := ih fun o ho => hops o (by simp [ho])
    cases op with
    | offset k => exact absurd hw (by simp [MOp.isWrite])
    | offsetColumn k => exact absurd hw (by simp [MOp.isWrite])
    | invertColumns => exact absurd hw (by simp [MOp.isWrite])
    | writeTheta i x => exact ih' (H.write m.thetas i x) (healthy_write H m h _ _ _) rnd back v
    | writePhi i x => exact ih' (H.write m.phis i x) (healthy_write H m h _ _ _) rnd back v
    | writeGamma i x => exact ih' (H.write m.gammas i x) (healthy_write H m h _ _ _) rnd back v

/-- A healthy mesh: two nodes in two columns. -/
noncomputable def healthyHeap : MHeap :=
  ⟨[⟨⟨0, 0, 1, 3, 1, 1, 0⟩, (0, 0), (0, 0)⟩, ⟨⟨1, 1, 2, 3, 1, 1, 1⟩, (0, 0), (0, 0)⟩], []⟩

example : (healthyHeap.construct [0, 1] .top [1, 2] [3, 4] [0, 0, 0]).2.Healthy
    (healthyHeap.construct [0, 1] .top [1, 2] [3, 4] [0, 0, 0]).1 := by
  have hs : ([0, 1].map fun r => (healthyHeap.node r).node.id).sum ≠ 0 := by
    simp [healthyHeap, MHeap.node]
  unfold MHeap.construct
  rw [if_neg hs]
  refine ⟨⟨?_, ?_, ?_, ?_⟩, ?_, ?_, ?_, ?_, rfl, ?_⟩
  · simp [healthyHeap]
  · simp [healthyHeap]
  · simp [healthyHeap]
  · simp [healthyHeap]
  · simp
  · simp [healthyHeap, MHeap.node]
  · simp [healthyHeap, MHeap.node]
  · simp [healthyHeap, MHeap.arr]
  · intro c hc
    have hc2 : c < 2 := by simpa [numColumns, healthyHeap, MHeap.node] using hc
    refine ⟨c, ?_, ?_⟩
    · simp; omega
    · rcases (show c = 0 ∨ c = 1 by omega) with rfl | rfl <;> simp [healthyHeap, MHeap.node]

end Simphox
