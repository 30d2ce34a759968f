import Verif.MeshEvalProps
import Verif.MeshProps
import Verif.RectExtras

/-! # `mesh.column_ordered` (C177, C178)

`column_ordered` aggregates the columns of a mesh: the same node objects, sorted by column. -/

namespace Simphox

/-- `mesh.column_ordered` (forward.py:546-553): `ForwardMesh.aggregate(self.columns)`. `rnd` are the random
phases of the column meshes, `th ph ga` those of the result. -/
noncomputable def MHeap.columnOrdered (H : MHeap) (m : MeshObj) (rnd th ph ga : List ℝ) :
    Except PyError (MeshObj × MHeap) :=
  match H.columns m rnd with
  | .error e => .error e
  | .ok (cs, H1) => .ok (H1.aggregate cs th ph ga)

theorem columnsGo_error (style : PhaseStyle) (rnd : List ℝ) : ∀ (css : List (List ℕ)) (H : MHeap), [] ∈ css →
    MHeap.columnsGo style rnd css H = .error .valueError := by
  intro css
  induction css with
  | nil => intro H h; simp at h
  | cons rs rest ih =>
    intro H h
    rw [MHeap.columnsGo]
    split_ifs with h1
    · rfl
    · rcases List.mem_cons.1 h with h | h
      · exact absurd h.symm h1
      · rw [ih _ h]

/-- Sorting a list by a key below `n`, stably. -/
theorem bucket_sorted {α : Type} (key : α → ℕ) (l : List α) (n : ℕ) :
    ((List.range n).flatMap fun k => l.filter fun a => key a = k).Pairwise fun a b => key a ≤ key b := by
  rw [List.pairwise_flatMap]
  constructor
  · intro k _
    apply List.Pairwise.imp_of_mem (R := fun _ _ => True) ?_ (List.pairwise_of_forall (by simp))
    intro a b ha hb _
    have h1 := (List.mem_filter.1 ha).2
    have h2 := (List.mem_filter.1 hb).2
    simp only [decide_eq_true_eq] at h1 h2
    omega
  · apply List.pairwise_lt_range.imp
    intro i j hij a ha b hb
    have h1 := (List.mem_filter.1 ha).2
    have h2 := (List.mem_filter.1 hb).2
    simp only [decide_eq_true_eq] at h1 h2
    omega

theorem bucket_filter {α : Type} (key : α → ℕ) (l : List α) (n : ℕ) (c : ℕ) (hc : c < n) :
    ((List.range n).flatMap fun k => l.filter fun a => key a = k).filter (fun a => key a = c) =
      l.filter fun a => key a = c := by
  have hf : ∀ k, (l.filter fun a => key a = k).filter (fun a => key a = c) =
      if k = c then l.filter fun a => key a = c else [] := by
    intro k
    split_ifs with h
    · subst h; rw [List.filter_filter]; simp
    · rw [List.filter_filter, List.filter_eq_nil_iff]
      intro a _; simp; omega
  induction n with
  | zero => omega
  | succ n ih =>
    rw [List.range_succ, List.flatMap_append, List.filter_append]
    by_cases h : c < n
    · rw [ih h]
      simp [hf, show n ≠ c by omega]
    · obtain rfl : n = c := by omega
      have : ((List.range n).flatMap fun k => l.filter fun a => key a = k).filter (fun a => key a = n) = [] := by
        rw [List.filter_eq_nil_iff]
        intro a ha
        obtain ⟨k, hk, h2⟩ := List.mem_flatMap.1 ha
        have := (List.mem_filter.1 h2).2
        simp only [decide_eq_true_eq] at this ⊢
        have := List.mem_range.1 hk
        omega
      rw [this]
      simp [hf]

theorem bucket_perm {α : Type} [DecidableEq α] (key : α → ℕ) (l : List α) (n : ℕ) (h : ∀ a ∈ l, key a < n) :
    ((List.range n).flatMap fun k => l.filter fun a => key a = k).Perm l := by
  rw [List.perm_iff_count]
  intro a
  by_cases ha : key a < n
  · have := bucket_filter key l n (key a) ha
    have c1 : ∀ l' : List α, (l'.filter fun b => key b = key a).count a = l'.count a := by
      intro l'; rw [List.count_filter]; simp
    rw [← c1, this, c1]
  · rw [List.count_eq_zero_of_not_mem fun hm => ha (h a hm), List.count_eq_zero]
    intro hm
    obtain ⟨k, hk, h2⟩ := List.mem_flatMap.1 hm
    exact ha (h a (List.mem_filter.1 h2).1)

/-- A sorted list equals its stable sort. -/
theorem bucket_of_sorted {α : Type} (key : α → ℕ) (l : List α) (n : ℕ) (h : ∀ a ∈ l, key a < n)
    (hs : l.Pairwise fun a b => key a ≤ key b) :
    ((List.range n).flatMap fun k => l.filter fun a => key a = k) = l := by
  have main : ∀ (n : ℕ), ((List.range n).flatMap fun k => l.filter fun a => key a = k) =
      l.filter fun a => key a < n := by
    intro n
    induction n with
    | zero => simp
    | succ n ih =>
      rw [List.range_succ, List.flatMap_append, ih]
      clear h ih
      simp only [List.flatMap_cons, List.flatMap_nil, List.append_nil]
      induction l with
      | nil => rfl
      | cons a l ihl =>
        rw [List.pairwise_cons] at hs
        have := ihl hs.2
        rcases Nat.lt_trichotomy (key a) n with h1 | h1 | h1
        · rw [List.filter_cons_of_pos (by simp [h1]), List.filter_cons_of_neg (by simp; omega),
            List.filter_cons_of_pos (by simp; omega), List.cons_append, this]
        · have e1 : (l.filter fun a => decide (key a < n)) = [] := by
            rw [List.filter_eq_nil_iff]
            intro b hb; have := hs.1 b hb; simp; omega
          rw [List.filter_cons_of_neg (by simp; omega), List.filter_cons_of_pos (by simp [h1]),
            List.filter_cons_of_pos (by simp; omega), ← this, e1]
          rfl
        · rw [List.filter_cons_of_neg (by simp; omega), List.filter_cons_of_neg (by simp; omega),
            List.filter_cons_of_neg (by simp; omega), this]
  rw [main, List.filter_eq_self]
  intro a ha
  simpa using h a ha

theorem col_lt {H : MHeap} {m : MeshObj} (h : H.Healthy m) (r : ℕ) (hr : r ∈ m.refs) :
    (H.node r).node.column < m.numCols := by
  rw [h.cols]
  apply column_lt_numColumns
  rw [List.mem_map]
  exact ⟨H.node r, List.mem_map_of_mem hr, rfl⟩

/-- What `column_ordered` computes on a healthy mesh. -/
theorem columnOrdered_ok (H : MHeap) (m : MeshObj) (h : H.Healthy m) (rnd th ph ga : List ℝ) :
    ∃ (m' : MeshObj) (H' : MHeap), H.columnOrdered m rnd th ph ga = .ok (m', H') ∧ H'.nodes = H.nodes ∧
      (∃ extra, H'.arrs = H.arrs ++ extra) ∧
      m'.refs = ((List.range m.numCols).flatMap fun c => m.refs.filter fun r => (H.node r).node.column = c) ∧
      m'.style = .top ∧ m'.bsErrors = m'.refs.map (fun r => (H.node r).err) ∧
      m'.losses = m'.refs.map (fun r => (H.node r).loss) ∧
      m'.numCols = numColumns (m'.refs.map fun r => (H.node r).node) ∧ H'.arr m'.thetas = th ∧
      m'.thetas < H'.arrs.length ∧ m'.phis < H'.arrs.length ∧ m'.gammas < H'.arrs.length := by
  obtain ⟨cs, H1, e1, n1, ⟨x1, a1⟩, r1, -⟩ := columnsGo_ok m.style rnd _ H
    (columnRefs_props H m h.valid.refs h.nodup h.ids h.full)
  have hrefs : cs.flatMap MeshObj.refs =
      ((List.range m.numCols).flatMap fun c => m.refs.filter fun r => (H.node r).node.column = c) := by
    rw [List.flatMap_def, r1, List.flatMap_def]
    rfl
  have hperm := bucket_perm (fun r => (H.node r).node.column) m.refs m.numCols (col_lt h)
  rw [← hrefs] at hperm
  obtain ⟨k1, k2⟩ := construct_nodes H1 (cs.flatMap MeshObj.refs)
    (fun r hr => by rw [n1]; exact h.valid.refs r (hperm.mem_iff.1 hr)) (hperm.nodup_iff.2 h.nodup)
    (by
      simp only [node_of_nodes n1]
      exact (hperm.map _).nodup_iff.2 h.ids) .top th ph ga
  refine ⟨(H1.aggregate cs th ph ga).1, (H1.aggregate cs th ph ga).2, by
    unfold MHeap.columnOrdered MHeap.columns
    rw [e1], k1.trans n1, ⟨x1 ++ [th, ph, ga], ?_⟩, hrefs, rfl, ?_, ?_, ?_, ?_, ?_, ?_, ?_⟩
  · show (H1.construct _ _ _ _ _).2.arrs = _
    rw [k2, a1, List.append_assoc]
  · show (cs.flatMap MeshObj.refs).map (fun r => (H1.node r).err) = _
    simp only [node_of_nodes n1]; rfl
  · show (cs.flatMap MeshObj.refs).map (fun r => (H1.node r).loss) = _
    simp only [node_of_nodes n1]; rfl
  · show numColumns ((cs.flatMap MeshObj.refs).map fun r => ((H1.construct _ .top th ph ga).2.node r).node) = _
    simp only [node_of_nodes k1, node_of_nodes n1]; rfl
  all_goals
    have ht : ∀ _j : ℕ, (H1.construct (cs.flatMap MeshObj.refs) .top th ph ga).1.thetas = H1.arrs.length ∧
      (H1.construct (cs.flatMap MeshObj.refs) .top th ph ga).1.phis = H1.arrs.length + 1 ∧
      (H1.construct (cs.flatMap MeshObj.refs) .top th ph ga).1.gammas = H1.arrs.length + 2 := by
      intro j
      unfold MHeap.construct
      split_ifs
      · have hra : (H1.renumber (cs.flatMap MeshObj.refs)).arrs = H1.arrs := (MHeap.renumber_frame _ H1).1
        exact ⟨congrArg List.length hra, congrArg (fun l => List.length l + 1) hra,
          congrArg (fun l => List.length l + 2) hra⟩
      · exact ⟨rfl, rfl, rfl⟩
    obtain ⟨t1, t2, t3⟩ := ht 0
    unfold MHeap.aggregate
  · rw [t1]
    simp [MHeap.arr, List.getD_eq_getElem?_getD, k2]
  · rw [t1, k2]; simp
  · rw [t2, k2]; simp
  · rw [t3, k2]; simp

/-- C177: `mesh.column_ordered` returns a usable mesh of the same node objects, each once, sorted by column
and, within a column, in the order of `mesh.nodes`; a mesh already in column order keeps its order. The mesh
itself is unchanged. (`th` are the random phases drawn for the new mesh, one per node.) -/
theorem C177_column_ordered (H : MHeap) (m : MeshObj) (h : H.Healthy m) (rnd th ph ga : List ℝ)
    (hth : th.length = m.refs.length) :
    ∃ (m' : MeshObj) (H' : MHeap), H.columnOrdered m rnd th ph ga = .ok (m', H') ∧ H'.Healthy m' ∧
      H'.observe m = H.observe m ∧ m'.refs.Perm m.refs ∧
      (m'.refs.map fun r => (H'.node r).node.column).Pairwise (· ≤ ·) ∧
      (∀ c, (m'.refs.filter fun r => (H'.node r).node.column = c) =
        m.refs.filter fun r => (H.node r).node.column = c) ∧
      ((m.refs.map fun r => (H.node r).node.column).Pairwise (· ≤ ·) → m'.refs = m.refs) := by
  obtain ⟨m', H', e, hn, ⟨x, ha⟩, hr, hs, hb, hl, hc, ht, t1, t2, t3⟩ := columnOrdered_ok H m h rnd th ph ga
  have hp : m'.refs.Perm m.refs := by
    rw [hr]; exact bucket_perm (fun r => (H.node r).node.column) m.refs m.numCols (col_lt h)
  have hcols : numColumns (m'.refs.map fun r => (H.node r).node) = m.numCols := by
    rw [numColumns_perm (hp.map _), h.cols]
    unfold MHeap.nodesOf
    rw [List.map_map]; rfl
  refine ⟨m', H', e, ⟨⟨fun r hr' => by rw [hn]; exact h.valid.refs r (hp.mem_iff.1 hr'), t1, t2, t3⟩,
    hp.nodup_iff.2 h.nodup, ?_, ?_, by rw [ht, hth, hp.length_eq], ?_, ?_⟩, ?_, hp, ?_, ?_, ?_⟩
  · simp only [node_of_nodes hn]
    exact (hp.map _).nodup_iff.2 h.ids
  · intro r hr'
    rw [node_of_nodes hn, hp.length_eq]
    exact h.ids_lt r (hp.mem_iff.1 hr')
  · rw [hc]
    unfold MHeap.nodesOf
    rw [List.map_map]
    simp only [Function.comp_def, node_of_nodes hn]
  · intro c hc'
    rw [hc, hcols] at hc'
    obtain ⟨r, hr', e'⟩ := h.full c hc'
    exact ⟨r, hp.mem_iff.2 hr', by rw [node_of_nodes hn]; exact e'⟩
  · unfold MHeap.observe MHeap.nodesOf MHeap.values
    rw [arr_append ha _ h.valid.thetas, arr_append ha _ h.valid.phis, arr_append ha _ h.valid.gammas]
    have : H'.node = H.node := funext (node_of_nodes hn)
    rw [this]
  · rw [List.pairwise_map]
    simp only [node_of_nodes hn]
    rw [hr]
    exact bucket_sorted (fun r => (H.node r).node.column) m.refs m.numCols
  · intro c
    simp only [node_of_nodes hn]
    by_cases hc' : c < m.numCols
    · rw [hr]; exact bucket_filter (fun r => (H.node r).node.column) m.refs m.numCols c hc'
    · have : ∀ l : List ℕ, (∀ r ∈ l, r ∈ m.refs) → (l.filter fun r => (H.node r).node.column = c) = [] := by
        intro l hl'
        rw [List.filter_eq_nil_iff]
        intro r hr' hcc
        have := col_lt h r (hl' r hr')
        simp only [decide_eq_true_eq] at hcc
        omega
      rw [this _ fun r hr' => hp.mem_iff.1 hr', this _ fun r hr' => hr']
  · intro hsort
    rw [hr]
    rw [List.pairwise_map] at hsort
    exact bucket_of_sorted (fun r => (H.node r).node.column) m.refs m.numCols (col_lt h) hsort

/-- C178 (partial): with the phases of the mesh assigned to it, `mesh.column_ordered` evaluates to the matrix of the mesh
(forwards and backwards), if the mesh has phase style TOP and all its nodes have the same coupler errors and
losses, or it is already in column order. Missing: other
meshes, for which it is false (see the counterexamples). -/
theorem C178_same_matrix_partial (H : MHeap) (m : MeshObj) (h : H.Healthy m) (rnd th ph ga : List ℝ)
    (hth : th.length = m.refs.length) (hstyle : m.style = .top)
    (herr : m.bsErrors = m.refs.map fun r => (H.node r).err) (hloss : m.losses = m.refs.map fun r => (H.node r).loss)
    (hu : (∀ r ∈ m.refs, ∀ s ∈ m.refs, (H.node r).err = (H.node s).err ∧ (H.node r).loss = (H.node s).loss) ∨
      (m.refs.map fun r => (H.node r).node.column).Pairwise (· ≤ ·)) :
    ∃ (m' : MeshObj) (H' : MHeap), H.columnOrdered m rnd th ph ga = .ok (m', H') ∧
      ∀ (rnd' : List ℝ) (back : Bool) (v : ℕ → ℂ),
        (∃ K, H.matrixApply m rnd' back v = .ok ((H.meshOf m).apply (H.paramsOf m) back v, K)) ∧
        ∃ K', H'.matrixApply (m'.setParams (m.thetas, m.phis, m.gammas)) rnd' back v =
          .ok ((H.meshOf m).apply (H.paramsOf m) back v, K') := by
  obtain ⟨m', H', e, hH, hobs, hp, hsort, hstab, hfix⟩ := C177_column_ordered H m h rnd th ph ga hth
  obtain ⟨m1, H1, e1, hn, ⟨x, ha⟩, hr, hs, hb, hl, hc, ht, t1, t2, t3⟩ := columnOrdered_ok H m h rnd th ph ga
  rw [e] at e1
  injection e1 with e1
  injection e1 with e1 e2
  subst e1 e2
  refine ⟨m', H', e, fun rnd' back v => ⟨?_, ?_⟩⟩
  · obtain ⟨K, hK, -⟩ := C112_evaluation_pure_partial H m h rnd' back v
    exact ⟨K, hK⟩
  · have hlen : H.arrs.length ≤ H'.arrs.length := by rw [ha, List.length_append]; omega
    have hH2 : H'.Healthy (m'.setParams (m.thetas, m.phis, m.gammas)) :=
      ⟨⟨hH.valid.refs, lt_of_lt_of_le h.valid.thetas hlen, lt_of_lt_of_le h.valid.phis hlen,
        lt_of_lt_of_le h.valid.gammas hlen⟩, hH.nodup, hH.ids, hH.ids_lt, by
          show (H'.arr m.thetas).length = m'.refs.length
          rw [arr_append ha _ h.valid.thetas, h.thetas, hp.length_eq], hH.cols, hH.full⟩
    obtain ⟨K, hK, -⟩ := C112_evaluation_pure_partial H' _ hH2 rnd' back v
    refine ⟨K, hK.trans ?_⟩
    have hP : H'.paramsOf (m'.setParams (m.thetas, m.phis, m.gammas)) = H.paramsOf m := by
      unfold MHeap.paramsOf MeshObj.setParams
      simp only [arr_append ha _ h.valid.thetas, arr_append ha _ h.valid.phis, arr_append ha _ h.valid.gammas]
    have hnode : H'.node = H.node := funext (node_of_nodes hn)
    have herrs : m'.bsErrors = m.bsErrors ∧ m'.losses = m.losses := by
      rcases hu with hu | hu
      · have key : ∀ {β : Type} (f : ℕ → β), (∀ r ∈ m.refs, ∀ s ∈ m.refs, f r = f s) → m'.refs.map f = m.refs.map f := by
          intro β f hf
          cases hm : m.refs with
          | nil =>
            rw [hm] at hp
            rw [hp.eq_nil]
          | cons r0 l =>
            rw [← hm]
            have h0 : r0 ∈ m.refs := by rw [hm]; simp
            have : ∀ l : List ℕ, (∀ r ∈ l, r ∈ m.refs) → l.map f = List.replicate l.length (f r0) := by
              intro l hl'
              rw [List.eq_replicate_iff]
              refine ⟨by simp, fun b hb' => ?_⟩
              obtain ⟨r, hr', rfl⟩ := List.mem_map.1 hb'
              exact hf r (hl' r hr') r0 h0
            rw [this _ fun r hr' => hp.mem_iff.1 hr', this _ fun r hr' => hr', hp.length_eq]
        rw [hb, hl, herr, hloss]
        exact ⟨key _ fun r hr' s hs' => (hu r hr' s hs').1, key _ fun r hr' s hs' => (hu r hr' s hs').2⟩
      · rw [hb, hl, herr, hloss, hfix hu]; exact ⟨rfl, rfl⟩
    have hcn : ∀ k, columnNodes ((H'.nodesOf m').map NodeObj.node) k = columnNodes ((H.nodesOf m).map NodeObj.node) k := by
      intro k
      rw [← columnNodes_refs, ← columnNodes_refs]
      unfold MHeap.columnRefs
      rw [hstab k, hnode]
    have hnc : numColumns ((H'.nodesOf m').map NodeObj.node) = numColumns ((H.nodesOf m).map NodeObj.node) := by
      apply numColumns_perm
      unfold MHeap.nodesOf
      rw [hnode]
      exact (hp.map _).map _
    have happly : (H'.meshOf (m'.setParams (m.thetas, m.phis, m.gammas))).apply (H.paramsOf m) back v =
        (H.meshOf m).apply (H.paramsOf m) back v := by
      have hel : ∀ b, (H'.meshOf (m'.setParams (m.thetas, m.phis, m.gammas))).elements (H.paramsOf m) b =
          (H.meshOf m).elements (H.paramsOf m) b := by
        intro b
        funext k
        unfold Mesh.elements
        show mziElements m'.style b (m'.bsErrors.getD k (0, 0)).1 (m'.bsErrors.getD k (0, 0)).2
          (m'.losses.getD k (0, 0)).1 (m'.losses.getD k (0, 0)).2 _ _ =
          mziElements m.style b (m.bsErrors.getD k (0, 0)).1 (m.bsErrors.getD k (0, 0)).2
          (m.losses.getD k (0, 0)).1 (m.losses.getD k (0, 0)).2 _ _
        rw [herrs.1, herrs.2, hs, hstyle]
      have hca : ∀ b (el : ℕ → Elements) (w : ℕ → ℂ),
          columnsApply el ((H'.nodesOf m').map NodeObj.node) (columnOrder ((H'.nodesOf m').map NodeObj.node) b) w =
          columnsApply el ((H.nodesOf m).map NodeObj.node) (columnOrder ((H.nodesOf m).map NodeObj.node) b) w := by
        intro b el w
        unfold columnsApply columnOrder
        rw [hnc]
        simp only [hcn]
      unfold Mesh.apply
      rw [hel, hel]
      have := hca
      cases back
      · simp only [Bool.false_eq_true, if_false]
        exact congrArg _ (hca false _ _)
      · simp only [if_true]
        exact hca true _ _
    rw [hP, happly]

/-- C177: if a column below `num_columns` is empty, `column_ordered` raises `ValueError`. -/
theorem C177_empty_column_raises (H : MHeap) (m : MeshObj) (rnd th ph ga : List ℝ) (c : ℕ) (hc : c < m.numCols)
    (he : ∀ r ∈ m.refs, (H.node r).node.column ≠ c) :
    H.columnOrdered m rnd th ph ga = .error .valueError := by
  unfold MHeap.columnOrdered MHeap.columns
  rw [columnsGo_error]
  rw [List.mem_map]
  refine ⟨c, List.mem_range.2 hc, ?_⟩
  unfold MHeap.columnRefs
  rw [List.filter_eq_nil_iff]
  intro r hr
  simp [he r hr]

/-- C177: the node list used for `rectangular_rows` (`columnOrdered`, C103) is the node list of
`mesh.column_ordered`. -/
theorem C177_node_list (H : MHeap) (m : MeshObj) (h : H.Healthy m) (rnd th ph ga : List ℝ) :
    ∃ (m' : MeshObj) (H' : MHeap), H.columnOrdered m rnd th ph ga = .ok (m', H') ∧
      columnOrdered ((H.nodesOf m).map NodeObj.node) = some ((H'.nodesOf m').map NodeObj.node) := by
  obtain ⟨m', H', e, hn, -, hr, -⟩ := columnOrdered_ok H m h rnd th ph ga
  refine ⟨m', H', e, ?_⟩
  unfold columnOrdered
  rw [if_pos]
  · congr 1
    have hnode : H'.node = H.node := funext (node_of_nodes hn)
    unfold MHeap.nodesOf
    rw [hnode, hr]
    unfold executionOrder
    have hcn := columnNodes_refs H m
    unfold MHeap.nodesOf at hcn
    have hcols := h.cols
    unfold MHeap.nodesOf at hcols
    rw [← hcols, List.map_flatMap, List.map_flatMap]
    apply List.flatMap_congr
    intro k _
    rw [← hcn k, List.map_map]
    rfl
  · intro c hc
    rw [List.mem_range, ← h.cols] at hc
    obtain ⟨r, hr', e'⟩ := h.full c hc
    apply List.ne_nil_of_mem (a := (H.node r).node)
    exact mem_columnNodes.2 ⟨List.mem_map_of_mem (f := NodeObj.node) (List.mem_map_of_mem hr'), e'⟩

/-! ### Findings -/

/-- A healthy mesh of one node in style BOTTOM, phases `theta = 0`, `phi = pi`. -/
noncomputable def bottomHeap : MHeap := ⟨[⟨⟨0, 0, 1, 2, 1, 1, 0⟩, (0, 0), (0, 0)⟩], [[0], [Real.pi], [0, 0]]⟩

/-- The mesh on `bottomHeap`. -/
def bottomObj : MeshObj := ⟨[0], .bottom, [0], [0], [(0, 0)], [(0, 0)], 1, 0, 1, 2⟩

theorem bottom_healthy : bottomHeap.Healthy bottomObj := by
  refine ⟨⟨?_, ?_, ?_, ?_⟩, ?_, ?_, ?_, ?_, ?_, ?_⟩ <;>
    simp [bottomHeap, bottomObj, MHeap.node, MHeap.arr, MHeap.nodesOf, numColumns]

theorem oneNode_entry (M : Mesh) (P : Params) (h : M.nodes = [⟨0, 0, 1, 2, 1, 1, 0⟩]) :
    M.matrix 2 P false 1 0 = Complex.exp (Complex.I * P.gammas 1) * (M.elements P false 0).t12 := by
  have hcol : numColumns [(⟨0, 0, 1, 2, 1, 1, 0⟩ : Node)] = 1 := by decide +kernel
  have hcn : columnNodes [(⟨0, 0, 1, 2, 1, 1, 0⟩ : Node)] 0 = [⟨0, 0, 1, 2, 1, 1, 0⟩] := by decide +kernel
  simp [Mesh.matrix, Mesh.apply, columnOrder, columnsApply, h, hcol, hcn, parallelTransform, scatter,
    columnWrites, gammaApply, Function.update]

theorem t12_bottom : (mziElements .bottom false 0 0 0 0 0 Real.pi).t12 = Complex.I := by
  have h2 : ((√2 : ℝ) : ℂ) * ((√2 : ℝ) : ℂ) = 2 := by
    rw [← Complex.ofReal_mul, Real.mul_self_sqrt (by norm_num)]; norm_num
  simp [mziElements, mziTerms]
  linear_combination (1 / 2 : ℂ) * h2

theorem t12_top : (mziElements .top false 0 0 0 0 0 Real.pi).t12 = -Complex.I := by
  have h2 : ((√2 : ℝ) : ℂ) * ((√2 : ℝ) : ℂ) = 2 := by
    rw [← Complex.ofReal_mul, Real.mul_self_sqrt (by norm_num)]; norm_num
  have he : Complex.exp (Complex.I * Real.pi) = -1 := by rw [mul_comm]; exact Complex.exp_pi_mul_I
  simp [mziElements, mziTerms, he]
  linear_combination (1 / 2 : ℂ) * h2

/-- C178 fails: `column_ordered` of every mesh has phase style TOP, whatever the style of the mesh; for a
one-node mesh in style BOTTOM with `theta = 0`, `phi = pi`, the light entering rail 0 leaves rail 1 with the
opposite sign. -/
theorem C178_style_counterexample (rnd th ph ga : List ℝ) :
    ∃ (m' : MeshObj) (H' : MHeap), bottomHeap.Healthy bottomObj ∧
      bottomHeap.columnOrdered bottomObj rnd th ph ga = .ok (m', H') ∧ m'.style = .top ∧ bottomObj.style = .bottom ∧
      H'.meshOf m' = { bottomHeap.meshOf bottomObj with style := .top } ∧
      (bottomHeap.meshOf bottomObj).matrix 2 (bottomHeap.paramsOf bottomObj) false 1 0 = Complex.I ∧
      (H'.meshOf m').matrix 2 (bottomHeap.paramsOf bottomObj) false 1 0 = -Complex.I := by
  obtain ⟨m', H', e, hn, -, hr, hs, hb, hl, -⟩ := columnOrdered_ok bottomHeap bottomObj bottom_healthy rnd th ph ga
  have hr' : m'.refs = [0] := by
    rw [hr]
    simp [bottomObj, bottomHeap, MHeap.node, List.range_succ]
  have hmesh : H'.meshOf m' = { bottomHeap.meshOf bottomObj with style := .top } := by
    unfold MHeap.meshOf MHeap.nodesOf
    have hnode : H'.node = bottomHeap.node := funext (node_of_nodes hn)
    rw [hnode, hs, hb, hl, hr']
    simp [bottomObj, bottomHeap, MHeap.node]
  refine ⟨m', H', bottom_healthy, e, hs, rfl, hmesh, ?_, ?_⟩
  · rw [oneNode_entry (bottomHeap.meshOf bottomObj) _ rfl]
    have : (bottomHeap.meshOf bottomObj).elements (bottomHeap.paramsOf bottomObj) false 0 =
        mziElements .bottom false 0 0 0 0 0 Real.pi := by
      simp [Mesh.elements, MHeap.meshOf, MHeap.paramsOf, MHeap.arr, bottomHeap, bottomObj]
    rw [this]
    have hg : (bottomHeap.paramsOf bottomObj).gammas 1 = 0 := by
      simp [MHeap.paramsOf, MHeap.arr, bottomHeap, bottomObj]
    rw [hg, t12_bottom]
    simp
  · rw [hmesh, oneNode_entry _ _ rfl]
    have : ({ bottomHeap.meshOf bottomObj with style := .top } : Mesh).elements (bottomHeap.paramsOf bottomObj) false 0 =
        mziElements .top false 0 0 0 0 0 Real.pi := by
      simp [Mesh.elements, MHeap.meshOf, MHeap.paramsOf, MHeap.arr, bottomHeap, bottomObj]
    rw [this]
    have hg : (bottomHeap.paramsOf bottomObj).gammas 1 = 0 := by
      simp [MHeap.paramsOf, MHeap.arr, bottomHeap, bottomObj]
    rw [hg, t12_top]
    simp

/-- A healthy mesh of two nodes listed against the column order, with a coupler error on the node on rails 0, 1. -/
noncomputable def errHeap : MHeap :=
  ⟨[⟨⟨0, 0, 1, 4, 1, 1, 1⟩, (Real.pi / 4, 0), (0, 0)⟩, ⟨⟨1, 2, 3, 4, 1, 1, 0⟩, (0, 0), (0, 0)⟩],
    [[0, 0], [0, 0], [0, 0, 0, 0]]⟩

/-- The mesh on `errHeap`. -/
noncomputable def errObj : MeshObj :=
  ⟨[0, 1], .top, [0, 1], [1, 0], [(Real.pi / 4, 0), (0, 0)], [(0, 0), (0, 0)], 2, 0, 1, 2⟩

theorem err_healthy : errHeap.Healthy errObj := by
  refine ⟨⟨?_, ?_, ?_, ?_⟩, ?_, ?_, ?_, ?_, ?_, ?_⟩
  all_goals try simp [errHeap, errObj, MHeap.node, MHeap.arr, MHeap.nodesOf, numColumns]
  intro c hc
  obtain rfl | rfl : c = 0 ∨ c = 1 := by omega
  · right; rfl
  · left; rfl

/-- C178 fails also in style TOP: `column_ordered` lists the coupler errors in the new order but keeps the node
ids, and errors are looked up by id. Here the error of the node on rails 0, 1 moves to the node on rails 2, 3:
the light passing straight through rail 1 is no longer blocked. -/
theorem C178_errors_counterexample (rnd th ph ga : List ℝ) :
    ∃ (m' : MeshObj) (H' : MHeap), errHeap.Healthy errObj ∧
      errHeap.columnOrdered errObj rnd th ph ga = .ok (m', H') ∧ m'.style = errObj.style ∧
      (errHeap.meshOf errObj).matrix 4 (errHeap.paramsOf errObj) false 1 1 =
        (mziElements .top false (Real.pi / 4) 0 0 0 0 0).t22 ∧
      (H'.meshOf m').matrix 4 (errHeap.paramsOf errObj) false 1 1 = (mziElements .top false 0 0 0 0 0 0).t22 ∧
      (mziElements .top false (Real.pi / 4) 0 0 0 0 0).t22 ≠ (mziElements .top false 0 0 0 0 0 0).t22 := by
  obtain ⟨m', H', e, hn, -, hr, hs, hb, hl, -⟩ := columnOrdered_ok errHeap errObj err_healthy rnd th ph ga
  have hr' : m'.refs = [1, 0] := by
    rw [hr]
    simp [errObj, errHeap, MHeap.node, List.range_succ]
  have hmesh : H'.meshOf m' = ⟨[⟨1, 2, 3, 4, 1, 1, 0⟩, ⟨0, 0, 1, 4, 1, 1, 1⟩], [(0, 0), (Real.pi / 4, 0)],
      [(0, 0), (0, 0)], .top⟩ := by
    unfold MHeap.meshOf MHeap.nodesOf
    have hnode : H'.node = errHeap.node := funext (node_of_nodes hn)
    rw [hnode, hs, hb, hl, hr']
    simp [errHeap, MHeap.node]
  have hmesh0 : errHeap.meshOf errObj = ⟨[⟨0, 0, 1, 4, 1, 1, 1⟩, ⟨1, 2, 3, 4, 1, 1, 0⟩], [(Real.pi / 4, 0), (0, 0)],
      [(0, 0), (0, 0)], .top⟩ := by
    simp [MHeap.meshOf, MHeap.nodesOf, errHeap, errObj, MHeap.node]
  have hP : errHeap.paramsOf errObj = ⟨fun k => [0, 0].getD k 0, fun k => [0, 0].getD k 0, fun k => [0, 0, 0, 0].getD k 0⟩ := rfl
  have hn1 : numColumns [(⟨0, 0, 1, 4, 1, 1, 1⟩ : Node), ⟨1, 2, 3, 4, 1, 1, 0⟩] = 2 := by decide +kernel
  have hn2 : numColumns [(⟨1, 2, 3, 4, 1, 1, 0⟩ : Node), ⟨0, 0, 1, 4, 1, 1, 1⟩] = 2 := by decide +kernel
  have c1 : columnNodes [(⟨0, 0, 1, 4, 1, 1, 1⟩ : Node), ⟨1, 2, 3, 4, 1, 1, 0⟩] 0 = [⟨1, 2, 3, 4, 1, 1, 0⟩] := by
    decide +kernel
  have c2 : columnNodes [(⟨0, 0, 1, 4, 1, 1, 1⟩ : Node), ⟨1, 2, 3, 4, 1, 1, 0⟩] 1 = [⟨0, 0, 1, 4, 1, 1, 1⟩] := by
    decide +kernel
  have c3 : columnNodes [(⟨1, 2, 3, 4, 1, 1, 0⟩ : Node), ⟨0, 0, 1, 4, 1, 1, 1⟩] 0 = [⟨1, 2, 3, 4, 1, 1, 0⟩] := by
    decide +kernel
  have c4 : columnNodes [(⟨1, 2, 3, 4, 1, 1, 0⟩ : Node), ⟨0, 0, 1, 4, 1, 1, 1⟩] 1 = [⟨0, 0, 1, 4, 1, 1, 1⟩] := by
    decide +kernel
  refine ⟨m', H', err_healthy, e, hs, ?_, ?_, ?_⟩
  · rw [hmesh0, hP]
    simp [Mesh.matrix, Mesh.apply, columnOrder, columnsApply, hn1, c1, c2, List.range_succ, parallelTransform, scatter,
      columnWrites, gammaApply, Mesh.elements, Function.update]
  · rw [hmesh, hP]
    simp [Mesh.matrix, Mesh.apply, columnOrder, columnsApply, hn2, c3, c4, List.range_succ, parallelTransform, scatter,
      columnWrites, gammaApply, Mesh.elements, Function.update]
  · have hpi : Real.pi / 4 + Real.pi / 4 = Real.pi / 2 := by ring
    simp [mziElements, mziTerms, hpi]

/-- The hypotheses of C177 and C178 are met by a mesh that is not in column order. -/
example : errHeap.Healthy errObj ∧ errObj.style = .top ∧ ¬ (errObj.refs.map fun r => (errHeap.node r).node.column).Pairwise (· ≤ ·) ∧
    errObj.bsErrors = errObj.refs.map (fun r => (errHeap.node r).err) := by
  refine ⟨err_healthy, rfl, ?_, ?_⟩ <;> simp [errHeap, errObj, MHeap.node]

end Simphox
