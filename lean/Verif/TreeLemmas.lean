import Verif.Tree
import Mathlib.Algebra.BigOperators.Group.List.Basic
import Mathlib.Data.List.Count
import Mathlib.Algebra.Order.BigOperators.Group.Finset
import Mathlib.Order.Interval.Finset.Nat

/-! # Lemmas on execution order, column inversion and the trees -/

namespace Simphox

/-! ### Execution order -/

theorem column_lt_numColumns {nodes : List Node} {a : Node} (h : a ∈ nodes) :
    a.column < numColumns nodes := by
  have hne : nodes ≠ [] := List.ne_nil_of_mem h
  unfold numColumns
  rw [if_neg hne]
  have := le_foldr_max (l := nodes.map Node.column) (x := a.column) (List.mem_map_of_mem h)
  omega

theorem mem_columnNodes {nodes : List Node} {a : Node} {k : ℕ} :
    a ∈ columnNodes nodes k ↔ a ∈ nodes ∧ a.column = k := by
  simp [columnNodes]

theorem mem_executionOrder {nodes : List Node} {a : Node} :
    a ∈ executionOrder nodes ↔ a ∈ nodes := by
  simp only [executionOrder, List.mem_flatMap, List.mem_range, mem_columnNodes]
  constructor
  · rintro ⟨k, _, h, _⟩; exact h
  · intro h; exact ⟨a.column, column_lt_numColumns h, h, rfl⟩

theorem executionOrder_sorted (nodes : List Node) :
    (executionOrder nodes).Pairwise fun a b => a.column ≤ b.column := by
  unfold executionOrder
  rw [List.pairwise_flatMap]
  constructor
  · intro k _
    apply List.Pairwise.imp_of_mem (R := fun _ _ => True) ?_ (List.pairwise_of_forall (by simp))
    intro a b ha hb _
    rw [(mem_columnNodes.1 ha).2, (mem_columnNodes.1 hb).2]
  · apply List.pairwise_lt_range.imp
    intro i j hij a ha b hb
    rw [(mem_columnNodes.1 ha).2, (mem_columnNodes.1 hb).2]
    omega

theorem sum_range_ite (n c x : ℕ) :
    ((List.range n).map fun k => if k = c then x else 0).sum = if c < n then x else 0 := by
  induction n with
  | zero => simp
  | succ n ih =>
    rw [List.range_succ, List.map_append, List.sum_append, ih]
    by_cases h : c < n
    · simp [h, show c < n + 1 by omega, show n ≠ c by omega]
    · by_cases h2 : n = c
      · simp [h2]
      · simp [h, h2, show ¬ c < n + 1 by omega]

theorem executionOrder_perm (nodes : List Node) : (executionOrder nodes).Perm nodes := by
  rw [List.perm_iff_count]
  intro a
  unfold executionOrder
  rw [List.count_flatMap]
  by_cases ha : a ∈ nodes
  · have hlt := column_lt_numColumns ha
    have : (List.map (List.count a ∘ columnNodes nodes) (List.range (numColumns nodes))) =
        (List.map (fun k => if k = a.column then List.count a nodes else 0)
          (List.range (numColumns nodes))) := by
      apply List.map_congr_left
      intro k _
      simp only [Function.comp, columnNodes]
      split_ifs with h
      · rw [List.count_filter]; simp [h]
      · rw [List.count_eq_zero]; simp; intro _ h'; exact h h'.symm
    rw [this, sum_range_ite, if_pos hlt]
  · rw [List.count_eq_zero_of_not_mem ha]
    apply List.sum_eq_zero
    intro x hx
    simp only [List.mem_map] at hx
    obtain ⟨k, _, rfl⟩ := hx
    simp only [Function.comp]
    rw [List.count_eq_zero]
    intro h; exact ha (mem_columnNodes.1 h).1

/-! ### `invertColumns` -/

theorem mem_invertColumns {nodes : List Node} {a : Node} :
    a ∈ invertColumns nodes ↔
      ∃ b ∈ nodes, a = { b with column := numColumns nodes - 1 - b.column } := by
  simp [invertColumns, eq_comm]

theorem numColumns_eq_of {nodes : List Node} {d : ℕ} (h1 : ∀ a ∈ nodes, a.column < d)
    (h2 : ∃ a ∈ nodes, a.column + 1 = d) : numColumns nodes = d := by
  obtain ⟨a, ha, had⟩ := h2
  have := column_lt_numColumns ha
  have hne : nodes ≠ [] := List.ne_nil_of_mem ha
  have : (nodes.map Node.column).foldr max 0 ≤ d - 1 := by
    rw [foldr_max_le_iff]
    intro x hx
    obtain ⟨b, hb, rfl⟩ := List.mem_map.1 hx
    have := h1 b hb; omega
  unfold numColumns at *
  rw [if_neg hne] at *
  omega

theorem numColumns_invertColumns {nodes : List Node} (h : ∃ a ∈ nodes, a.column = 0) :
    numColumns (invertColumns nodes) = numColumns nodes := by
  obtain ⟨a, ha, ha0⟩ := h
  have hpos := column_lt_numColumns ha
  apply numColumns_eq_of
  · intro b hb
    obtain ⟨c, hc, rfl⟩ := mem_invertColumns.1 hb
    simp only; omega
  · refine ⟨_, mem_invertColumns.2 ⟨a, ha, rfl⟩, ?_⟩
    simp only; omega

/-! ### The chain -/

theorem mem_treeChain {n R : ℕ} {a : Node} : a ∈ treeChain n R ↔
    ∃ i < n - 1, a = chainNode n R i := by
  simp [treeChain, eq_comm]

theorem numColumns_treeChain {n R : ℕ} (hn : 2 ≤ n) : numColumns (treeChain n R) = n - 1 := by
  apply numColumns_eq_of
  · intro a ha; obtain ⟨i, hi, rfl⟩ := mem_treeChain.1 ha; simp only [chainNode]; omega
  · exact ⟨_, mem_treeChain.2 ⟨0, by omega, rfl⟩, by simp only [chainNode]; omega⟩

theorem numColumns_treeBalanced {n R : ℕ} (hn : 2 ≤ n) :
    numColumns (treeBalanced (List.range (n - 1)) R 0 0) = Nat.clog 2 n := by
  have e : (List.range (n - 1)).length + 1 = n := by simp; omega
  have hpos : 0 < Nat.clog 2 n := Nat.clog_pos (by norm_num) hn
  apply numColumns_eq_of
  · intro a ha
    have := treeBalanced_bounds R _ _ _ a ha
    rw [e] at this; omega
  · obtain ⟨a, ha, hk⟩ := treeBalanced_columns R (List.range (n - 1)) 0 0 (Nat.clog 2 n - 1)
      (by rw [e]; omega)
    exact ⟨a, ha, by omega⟩

/-- The tree before `invert_columns`. -/
def preTree (n R : ℕ) (balanced : Bool) : List Node :=
  if balanced then treeBalanced (List.range (n - 1)) R 0 0 else treeChain n R

theorem tree_eq (n R : ℕ) (b : Bool) : tree n R b = invertColumns (preTree n R b) := rfl

/-- depth of the tree -/
def treeDepth (n : ℕ) (balanced : Bool) : ℕ := if balanced then Nat.clog 2 n else n - 1

theorem numColumns_preTree {n R : ℕ} (hn : 2 ≤ n) (b : Bool) :
    numColumns (preTree n R b) = treeDepth n b := by
  cases b
  · simp [preTree, treeDepth, numColumns_treeChain hn]
  · simp [preTree, treeDepth, numColumns_treeBalanced hn]

theorem preTree_root {n R : ℕ} (hn : 2 ≤ n) (b : Bool) : ∃ a ∈ preTree n R b, a.column = 0 := by
  cases b
  · exact ⟨_, mem_treeChain.2 ⟨n - 2, by omega, rfl⟩, by simp [chainNode]⟩
  · have hpos : 0 < Nat.clog 2 n := Nat.clog_pos (by norm_num) hn
    have e : (List.range (n - 1)).length + 1 = n := by simp; omega
    obtain ⟨a, ha, hk⟩ := treeBalanced_columns R (List.range (n - 1)) 0 0 0 (by rw [e]; omega)
    exact ⟨a, ha, by omega⟩

theorem preTree_bounds {n R : ℕ} (b : Bool) {a : Node} (ha : a ∈ preTree n R b) :
    a.top < a.bottom ∧ a.bottom < n ∧ a.n = R := by
  cases b
  · obtain ⟨i, hi, rfl⟩ := mem_treeChain.1 ha; refine ⟨?_, ?_, rfl⟩ <;> simp only [chainNode] <;> omega
  · have := treeBalanced_bounds R _ _ _ a ha
    simp only [List.length_range] at this
    omega

theorem preTree_column_le {n R : ℕ} (hn : 2 ≤ n) (b : Bool) {a : Node} (ha : a ∈ preTree n R b) :
    a.column < treeDepth n b := by
  rw [← numColumns_preTree hn b (R := R)]; exact column_lt_numColumns ha

theorem preTree_disjoint (n R : ℕ) (b : Bool) :
    (preTree n R b).Pairwise fun x y => x.column = y.column → RailDisjoint x y := by
  cases b
  · simp only [preTree, treeChain, Bool.false_eq_true, if_false, List.pairwise_map,
      List.pairwise_reverse]
    apply List.Pairwise.imp_of_mem ?_ List.pairwise_lt_range
    intro i j hi hj hij he
    simp only [chainNode] at he
    rw [List.mem_range] at hi hj
    omega
  · exact treeBalanced_disjoint R _ _ _

theorem preTree_dark {n R : ℕ} (b : Bool) {x y : Node} (hx : x ∈ preTree n R b)
    (hy : y ∈ preTree n R b) (h : y.column < x.column) : x.top ≠ y.top ∧ x.top ≠ y.bottom := by
  cases b
  · obtain ⟨i, hi, rfl⟩ := mem_treeChain.1 hx
    obtain ⟨j, hj, rfl⟩ := mem_treeChain.1 hy
    simp only [chainNode] at h ⊢; omega
  · exact treeBalanced_dark R _ _ _ x hx y hy h

theorem preTree_ids (n R : ℕ) (b : Bool) :
    ((preTree n R b).map Node.id).Perm (List.range (n - 1)) := by
  cases b
  · simp only [preTree, treeChain, Bool.false_eq_true, if_false, List.map_map]
    have : (Node.id ∘ chainNode n R) = _root_.id := by
      funext i; rfl
    rw [this, List.map_id]
    exact List.reverse_perm _
  · exact treeBalanced_ids R _ _ _

theorem preTree_tops (n R : ℕ) (b : Bool) :
    ((preTree n R b).map Node.top).Perm (List.range (n - 1)) := by
  cases b
  · simp only [preTree, treeChain, Bool.false_eq_true, if_false, List.map_map]
    have : (Node.top ∘ chainNode n R) = _root_.id := by
      funext i; rfl
    rw [this, List.map_id]
    exact List.reverse_perm _
  · have := treeBalanced_tops R (List.range (n - 1)) 0 0
    simpa [List.range_eq_range', preTree] using this

theorem preTree_columns {n R : ℕ} (hn : 2 ≤ n) (b : Bool) {k : ℕ} (hk : k < treeDepth n b) :
    ∃ a ∈ preTree n R b, a.column = k := by
  cases b
  · simp only [treeDepth, Bool.false_eq_true, if_false] at hk
    exact ⟨_, mem_treeChain.2 ⟨n - 2 - k, by omega, rfl⟩, by simp only [chainNode]; omega⟩
  · have e : (List.range (n - 1)).length + 1 = n := by simp; omega
    obtain ⟨a, ha, h⟩ := treeBalanced_columns R (List.range (n - 1)) 0 0 k
      (by rw [e]; simpa [treeDepth] using hk)
    exact ⟨a, ha, by omega⟩

/-- In the balanced tree, the nodes below or beside `a` respect the two input intervals of `a`. -/
theorem treeBalanced_intervals (R : ℕ) : ∀ indices s c,
    ∀ a ∈ treeBalanced indices R s c,
      (a.beta ≤ a.top + 1 - s ∧ a.alpha = a.bottom - a.top ∧ s ≤ a.top) ∧
      (∀ b ∈ treeBalanced indices R s c, b ≠ a → a.column ≤ b.column →
        ((a.top + 1 - a.beta ≤ b.top ∧ b.bottom ≤ a.top) ∨
          (a.top < b.top ∧ b.bottom ≤ a.bottom) ∨
          (b.bottom < a.top + 1 - a.beta) ∨ (a.bottom < b.top))) ∧
      (∀ r, a.top + 1 - a.beta ≤ r → r < a.bottom → r ≠ a.top →
        ∃ b ∈ treeBalanced indices R s c, b.top = r ∧ a.column < b.column) := by
  apply tree_induction (P := fun indices s c => ∀ a ∈ treeBalanced indices R s c,
      (a.beta ≤ a.top + 1 - s ∧ a.alpha = a.bottom - a.top ∧ s ≤ a.top) ∧
      (∀ b ∈ treeBalanced indices R s c, b ≠ a → a.column ≤ b.column →
        ((a.top + 1 - a.beta ≤ b.top ∧ b.bottom ≤ a.top) ∨
          (a.top < b.top ∧ b.bottom ≤ a.bottom) ∨
          (b.bottom < a.top + 1 - a.beta) ∨ (a.bottom < b.top))) ∧
      (∀ r, a.top + 1 - a.beta ≤ r → r < a.bottom → r ≠ a.top →
        ∃ b ∈ treeBalanced indices R s c, b.top = r ∧ a.column < b.column))
  · intro s c; simp [treeBalanced_nil]
  · intro l s c h ih1 ih2
    have hl : l.length ≠ 0 := by simpa using h
    rw [treeBalanced_cons h]
    have B1 := treeBalanced_bounds R (l.take ((l.length + 1) / 2 - 1)) s (c + 1)
    have B2 := treeBalanced_bounds R (l.drop ((l.length + 1) / 2)) (s + (l.length + 1) / 2) (c + 1)
    have T1 := treeBalanced_tops R (l.take ((l.length + 1) / 2 - 1)) s (c + 1)
    have T2 := treeBalanced_tops R (l.drop ((l.length + 1) / 2)) (s + (l.length + 1) / 2) (c + 1)
    simp only [List.length_take, List.length_drop] at B1 B2 T1 T2
    simp only [List.mem_cons, List.mem_append]
    rintro a (rfl | ha | ha)
    · simp only [List.length_take, List.length_drop]
      refine ⟨by omega, ?_, ?_⟩
      · rintro b (rfl | hb | hb) hne hcol
        · exact absurd rfl hne
        · have := B1 b hb; left; omega
        · have := B2 b hb; right; left; omega
      · intro r hr1 hr2 hr3
        by_cases hlt : r < s + (l.length + 1) / 2 - 1
        · have : r ∈ (treeBalanced (l.take ((l.length + 1) / 2 - 1)) R s (c + 1)).map Node.top := by
            rw [T1.mem_iff, List.mem_range'_1]; omega
          obtain ⟨b, hb, rfl⟩ := List.mem_map.1 this
          exact ⟨b, Or.inr (Or.inl hb), rfl, by have := B1 b hb; omega⟩
        · have : r ∈ (treeBalanced (l.drop ((l.length + 1) / 2)) R
              (s + (l.length + 1) / 2) (c + 1)).map Node.top := by
            rw [T2.mem_iff, List.mem_range'_1]; omega
          obtain ⟨b, hb, rfl⟩ := List.mem_map.1 this
          exact ⟨b, Or.inr (Or.inr hb), rfl, by have := B2 b hb; omega⟩
    · obtain ⟨h1, h2, h3⟩ := ih1 a ha
      have Ba := B1 a ha
      refine ⟨by omega, ?_, ?_⟩
      · rintro b (rfl | hb | hb) hne hcol
        · simp only at hcol; omega
        · exact h2 b hb hne hcol
        · have := B2 b hb; right; right; right; omega
      · intro r hr1 hr2 hr3
        obtain ⟨b, hb, h⟩ := h3 r hr1 hr2 hr3
        exact ⟨b, Or.inr (Or.inl hb), h⟩
    · obtain ⟨h1, h2, h3⟩ := ih2 a ha
      have Ba := B2 a ha
      refine ⟨by omega, ?_, ?_⟩
      · rintro b (rfl | hb | hb) hne hcol
        · simp only at hcol; omega
        · have := B1 b hb; right; right; left; omega
        · exact h2 b hb hne hcol
      · intro r hr1 hr2 hr3
        obtain ⟨b, hb, h⟩ := h3 r hr1 hr2 hr3
        exact ⟨b, Or.inr (Or.inr hb), h⟩

end Simphox
