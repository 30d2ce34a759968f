import Verif.TreeLemmas

/-! # Execution order of the trees -/

namespace Simphox

theorem RailDisjoint.symm {a b : Node} (h : RailDisjoint a b) : RailDisjoint b a :=
  ⟨h.1.symm, h.2.2.1.symm, h.2.1.symm, h.2.2.2.symm⟩

/-- Any two different positions of the list in the same column touch disjoint rails. -/
def ColumnsDisjoint (nodes : List Node) : Prop :=
  nodes.Pairwise fun x y => x.column = y.column → RailDisjoint x y

instance (nodes : List Node) : Decidable (ColumnsDisjoint nodes) := by
  unfold ColumnsDisjoint; infer_instance

theorem ColumnsDisjoint.perm {l l' : List Node} (h : ColumnsDisjoint l) (p : l.Perm l') :
    ColumnsDisjoint l' := by
  refine List.Perm.pairwise p h ?_
  intro x y hxy he
  exact (hxy he.symm).symm

theorem ColumnsDisjoint.executionOrder {l : List Node} (h : ColumnsDisjoint l) :
    ColumnsDisjoint (executionOrder l) := h.perm (executionOrder_perm l).symm

theorem ColumnsDisjoint.column {l : List Node} (h : ColumnsDisjoint l) (k : ℕ) :
    (columnNodes l k).Pairwise RailDisjoint := by
  unfold columnNodes
  have := h.filter (p := fun a => decide (a.column = k))
  apply List.Pairwise.imp_of_mem ?_ this
  intro a b ha hb hab
  simp only [List.mem_filter, decide_eq_true_eq] at ha hb
  exact hab (ha.2.trans hb.2.symm)

theorem invertColumns_disjoint {l : List Node} (h : ColumnsDisjoint l) :
    ColumnsDisjoint (invertColumns l) := by
  unfold ColumnsDisjoint invertColumns
  rw [List.pairwise_map]
  apply List.Pairwise.imp_of_mem ?_ h
  intro a b ha hb hab he
  have h1 := column_lt_numColumns ha
  have h2 := column_lt_numColumns hb
  simp only at he
  have := hab (by omega)
  exact this

theorem tree_disjoint (n R : ℕ) (b : Bool) : ColumnsDisjoint (tree n R b) :=
  invertColumns_disjoint (preTree_disjoint n R b)

theorem mem_tree {n R : ℕ} (hn : 2 ≤ n) {b : Bool} {a : Node} : a ∈ tree n R b ↔
    ∃ x ∈ preTree n R b, a = { x with column := treeDepth n b - 1 - x.column } := by
  rw [tree_eq, mem_invertColumns, numColumns_preTree hn]

/-- After a node, no later node touches its top rail. -/
theorem tree_exec_dark {n R : ℕ} (hn : 2 ≤ n) (b : Bool) :
    (executionOrder (tree n R b)).Pairwise fun x y => x.top ≠ y.top ∧ x.top ≠ y.bottom := by
  have h1 := executionOrder_sorted (tree n R b)
  have h2 := (tree_disjoint n R b).executionOrder
  apply List.Pairwise.imp_of_mem ?_ (h1.and h2)
  intro x y hx hy ⟨hle, hd⟩
  by_cases he : x.column = y.column
  · exact ⟨(hd he).1, (hd he).2.1⟩
  · obtain ⟨x', hx', rfl⟩ := (mem_tree hn).1 (mem_executionOrder.1 hx)
    obtain ⟨y', hy', rfl⟩ := (mem_tree hn).1 (mem_executionOrder.1 hy)
    have := preTree_column_le hn b hx'
    have := preTree_column_le hn b hy'
    simp only at *
    exact preTree_dark b hx' hy' (by omega)

theorem tree_nodup (n R : ℕ) (b : Bool) : (tree n R b).Nodup := by
  apply List.Nodup.of_map Node.id
  have : (tree n R b).map Node.id = (preTree n R b).map Node.id := by
    rw [tree_eq, invertColumns, List.map_map]; rfl
  rw [this]
  exact (preTree_ids n R b).nodup_iff.2 List.nodup_range

/-! ### Merging counts -/

/-- Merge the count of the node's top rail into its bottom rail. -/
def mergeStep (w : ℕ → ℕ) (a : Node) : ℕ → ℕ := fun r =>
  if r = a.bottom then w a.top + w a.bottom else if r = a.top then 0 else w r

theorem mergeStep_sum {a : Node} (hne : a.top ≠ a.bottom) (s : Finset ℕ) (w : ℕ → ℕ)
    (h : (a.top ∈ s ∧ a.bottom ∈ s) ∨ (a.top ∉ s ∧ a.bottom ∉ s)) :
    ∑ r ∈ s, mergeStep w a r = ∑ r ∈ s, w r := by
  rcases h with ⟨h1, h2⟩ | ⟨h1, h2⟩
  · have hb : a.bottom ∈ s.erase a.top := Finset.mem_erase.2 ⟨hne.symm, h2⟩
    rw [← Finset.add_sum_erase s _ h1, ← Finset.add_sum_erase s _ h1,
      ← Finset.add_sum_erase _ _ hb, ← Finset.add_sum_erase _ _ hb]
    have : ∑ r ∈ (s.erase a.top).erase a.bottom, mergeStep w a r =
        ∑ r ∈ (s.erase a.top).erase a.bottom, w r := by
      apply Finset.sum_congr rfl
      intro r hr
      simp only [Finset.mem_erase] at hr
      simp [mergeStep, hr.1, hr.2.1]
    rw [this]
    simp [mergeStep, hne]
    omega
  · apply Finset.sum_congr rfl
    intro r hr
    have : r ≠ a.top := fun e => h1 (e ▸ hr)
    have : r ≠ a.bottom := fun e => h2 (e ▸ hr)
    simp [mergeStep, *]

theorem mergeSteps_sum (l : List Node) (s : Finset ℕ) (w : ℕ → ℕ)
    (hne : ∀ a ∈ l, a.top ≠ a.bottom)
    (h : ∀ a ∈ l, (a.top ∈ s ∧ a.bottom ∈ s) ∨ (a.top ∉ s ∧ a.bottom ∉ s)) :
    ∑ r ∈ s, l.foldl mergeStep w r = ∑ r ∈ s, w r := by
  induction l generalizing w with
  | nil => rfl
  | cons a l ih =>
    rw [List.foldl_cons, ih _ (fun b hb => hne b (by simp [hb])) (fun b hb => h b (by simp [hb])),
      mergeStep_sum (hne a (by simp)) s w (h a (by simp))]

theorem mergeSteps_untouched (l : List Node) (w : ℕ → ℕ) (r : ℕ)
    (h : ∀ a ∈ l, r ≠ a.top ∧ r ≠ a.bottom) : l.foldl mergeStep w r = w r := by
  induction l generalizing w with
  | nil => rfl
  | cons a l ih =>
    rw [List.foldl_cons, ih _ (fun b hb => h b (by simp [hb]))]
    have := h a (by simp)
    simp [mergeStep, this.1, this.2]

theorem mergeSteps_dark (l : List Node) (w : ℕ → ℕ)
    (hne : ∀ a ∈ l, a.top ≠ a.bottom)
    (hd : l.Pairwise fun x y => x.top ≠ y.top ∧ x.top ≠ y.bottom) {b : Node} (hb : b ∈ l) :
    l.foldl mergeStep w b.top = 0 := by
  obtain ⟨p1, p2, rfl⟩ := List.append_of_mem hb
  rw [List.foldl_append, List.foldl_cons, mergeSteps_untouched]
  · simp [mergeStep, hne b hb]
  · rw [List.pairwise_append, List.pairwise_cons] at hd
    exact hd.2.1.1

theorem mergeSteps_interval (l : List Node) (lo hi : ℕ) (hlh : lo ≤ hi)
    (hne : ∀ a ∈ l, a.top ≠ a.bottom)
    (hd : l.Pairwise fun x y => x.top ≠ y.top ∧ x.top ≠ y.bottom)
    (h : ∀ a ∈ l, (a.top ∈ Finset.Icc lo hi ∧ a.bottom ∈ Finset.Icc lo hi) ∨
      (a.top ∉ Finset.Icc lo hi ∧ a.bottom ∉ Finset.Icc lo hi))
    (hall : ∀ r, lo ≤ r → r < hi → ∃ b ∈ l, b.top = r) :
    l.foldl mergeStep (fun _ => 1) hi = hi + 1 - lo := by
  have hs := mergeSteps_sum l (Finset.Icc lo hi) (fun _ => 1) hne h
  rw [← Finset.add_sum_erase _ _ (Finset.mem_Icc.2 ⟨hlh, le_rfl⟩), Finset.sum_eq_zero] at hs
  · simpa using hs
  · intro r hr
    simp only [Finset.mem_erase, Finset.mem_Icc] at hr
    obtain ⟨b, hb, rfl⟩ := hall r (by omega) (by omega)
    exact mergeSteps_dark l _ hne hd hb

end Simphox
