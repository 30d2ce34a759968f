import Verif.TreeExec

/-!
# Properties of the tree architectures (C01 – C05)

Vocabulary: `tree n n balanced` is the node list of the Python call
`tree(n, balanced=balanced)`; `executionOrder` the order in which light meets the nodes.
-/

namespace Simphox

/-! ### C01 -/

/-- C01: `tree(n)` has `n-1` nodes with ids `0..n-2` (in some order) and all couplings are between
two different rails `top < bottom < n`. -/
theorem C01_tree_wellformed (n : ℕ) (hn : 2 ≤ n) (balanced : Bool) :
    (tree n n balanced).length = n - 1 ∧
    ((tree n n balanced).map Node.id).Perm (List.range (n - 1)) ∧
    ∀ a ∈ tree n n balanced, a.top < a.bottom ∧ a.bottom < n ∧ a.n = n := by
  have hid : (tree n n balanced).map Node.id = (preTree n n balanced).map Node.id := by
    rw [tree_eq, invertColumns, List.map_map]; rfl
  have hp := preTree_ids n n balanced
  refine ⟨?_, ?_, ?_⟩
  · have := hp.length_eq
    rw [← hid] at this
    simpa using this
  · rw [hid]; exact hp
  · intro a ha
    obtain ⟨x, hx, rfl⟩ := (mem_tree hn).1 ha
    have := preTree_bounds balanced hx
    exact this

example : (tree 5 5 true).map (fun a => (a.id, a.top, a.bottom, a.column)) =
    [(1, 1, 4, 2), (0, 0, 1, 1), (2, 2, 4, 1), (3, 3, 4, 0)] := by
  simp [tree, treeBalanced, invertColumns, numColumns, List.range, List.range.loop]

/-! ### C02 -/

/-- C02: two different positions of `tree(n)` with the same column touch four different rails. -/
theorem C02_tree_columns_disjoint (n : ℕ) (balanced : Bool) (i j : ℕ)
    (hi : i < (tree n n balanced).length) (hj : j < (tree n n balanced).length) (hij : i ≠ j)
    (hc : (tree n n balanced)[i].column = (tree n n balanced)[j].column) :
    (tree n n balanced)[i].top ≠ (tree n n balanced)[j].top ∧
    (tree n n balanced)[i].top ≠ (tree n n balanced)[j].bottom ∧
    (tree n n balanced)[i].bottom ≠ (tree n n balanced)[j].top ∧
    (tree n n balanced)[i].bottom ≠ (tree n n balanced)[j].bottom := by
  have h := List.pairwise_iff_getElem.1 (tree_disjoint n n balanced)
  rcases Nat.lt_or_gt_of_ne hij with hlt | hlt
  · exact h i j hi hj hlt hc
  · exact (h j i hj hi hlt hc.symm).symm

/-! ### C03 -/

/-- C03: the number of columns is `⌈log₂ n⌉` (balanced) or `n - 1` (chain), columns are exactly
`0..num_columns-1`, none of them empty. -/
theorem C03_tree_depth (n : ℕ) (hn : 2 ≤ n) :
    numColumns (tree n n true) = Nat.clog 2 n ∧ numColumns (tree n n false) = n - 1 ∧
    ∀ balanced, ∀ k, (∃ a ∈ tree n n balanced, a.column = k) ↔
      k < numColumns (tree n n balanced) := by
  have key : ∀ b, numColumns (tree n n b) = treeDepth n b := fun b => by
    rw [tree_eq, numColumns_invertColumns (preTree_root hn b), numColumns_preTree hn]
  refine ⟨by rw [key]; rfl, by rw [key]; rfl, ?_⟩
  intro b k
  constructor
  · rintro ⟨a, ha, rfl⟩; exact column_lt_numColumns ha
  · intro hk
    rw [key] at hk
    obtain ⟨a, ha, hak⟩ := preTree_columns (R := n) hn b (k := treeDepth n b - 1 - k) (by omega)
    exact ⟨_, (mem_tree hn).2 ⟨a, ha, rfl⟩, by simp only; omega⟩

example : (2 : ℕ) ≤ 6 := by norm_num

/-! ### C04

Specification: give every input rail the count 1. When light passes a node, the node merges its top
rail into its bottom rail. `mergedBefore nodes pre r` is the number of inputs collected on rail `r`
just after the nodes `pre` were passed. -/

/-- Number of inputs merged into rail `r` after passing the nodes `pre` in this order. -/
def mergedCount (pre : List Node) (r : ℕ) : ℕ :=
  pre.foldl
    (fun w a => fun r => if r = a.bottom then w a.top + w a.bottom else if r = a.top then 0 else w r)
    (fun _ => 1) r

/-- C04 (balanced trees): when light reaches a node, `beta` inputs have been merged into its top
rail and `alpha` inputs into its bottom rail. -/
theorem C04_balanced_counts_partial (n : ℕ) (hn : 2 ≤ n) (pre post : List Node) (a : Node)
    (h : executionOrder (tree n n true) = pre ++ a :: post) :
    mergedCount pre a.top = a.beta ∧ mergedCount pre a.bottom = a.alpha := by
  have hmem : ∀ b, b ∈ pre ∨ b = a ∨ b ∈ post ↔ b ∈ tree n n true := by
    intro b; rw [← mem_executionOrder (nodes := tree n n _), h]; simp
  obtain ⟨a', ha', rfl⟩ := (mem_tree hn).1 ((hmem a).1 (Or.inr (Or.inl rfl)))
  have hda := preTree_column_le hn true ha'
  obtain ⟨h1, h2, h3⟩ := treeBalanced_intervals n (List.range (n - 1)) 0 0 a' ha'
  have hba := preTree_bounds true ha'
  have hsort := executionOrder_sorted (tree n n true)
  have hdark := tree_exec_dark (R := n) hn true
  have hnd : (executionOrder (tree n n true)).Nodup :=
    (executionOrder_perm _).nodup_iff.2 (tree_nodup n n true)
  rw [h] at hsort hdark hnd
  rw [List.pairwise_append, List.pairwise_cons] at hsort hdark
  have hpre : ∀ b ∈ pre, b.top ≠ b.bottom ∧
      ((a'.top + 1 - a'.beta ≤ b.top ∧ b.bottom ≤ a'.top ∧ b.top < b.bottom) ∨
        (a'.top < b.top ∧ b.bottom ≤ a'.bottom ∧ b.top < b.bottom) ∨
        (b.bottom < a'.top + 1 - a'.beta ∧ b.top < b.bottom) ∨
        (a'.bottom < b.top ∧ b.top < b.bottom)) := by
    intro b hb
    obtain ⟨b', hb', rfl⟩ := (mem_tree hn).1 ((hmem b).1 (Or.inl hb))
    have hdb := preTree_column_le hn true hb'
    have hbb := preTree_bounds true hb'
    have hc := hsort.2.2 _ hb _ List.mem_cons_self
    simp only at hc ⊢
    have hne : b' ≠ a' := by
      rintro rfl
      rw [List.nodup_append] at hnd
      exact hnd.2.2 _ hb _ List.mem_cons_self rfl
    have := h2 b' hb' hne (by omega)
    omega
  have hrail : ∀ r, a'.top + 1 - a'.beta ≤ r → r < a'.bottom → r ≠ a'.top →
      ∃ b ∈ pre, b.top = r := by
    intro r hr1 hr2 hr3
    obtain ⟨b', hb', hbt, hbc⟩ := h3 r hr1 hr2 hr3
    have hdb := preTree_column_le hn true hb'
    have hb := (hmem _).2 ((mem_tree (R := n) hn).2 ⟨b', hb', rfl⟩)
    rcases hb with hb | hb | hb
    · exact ⟨_, hb, hbt⟩
    · have := congrArg Node.column hb; simp only at this; omega
    · have := hsort.2.1.1 _ hb; simp only at this; omega
  have e : ∀ r, mergedCount pre r = pre.foldl mergeStep (fun _ => 1) r := fun _ => rfl
  simp only [e]
  constructor
  · rw [mergeSteps_interval pre (a'.top + 1 - a'.beta) a'.top (by have := treeBalanced_bounds n _ _ _ a' ha'; omega)
      (fun b hb => (hpre b hb).1) hdark.1]
    · have := treeBalanced_bounds n _ _ _ a' ha'; omega
    · intro b hb
      have := (hpre b hb).2
      simp only [Finset.mem_Icc]
      omega
    · intro r hr1 hr2; exact hrail r hr1 (by omega) (by omega)
  · rw [mergeSteps_interval pre (a'.top + 1) a'.bottom (by omega)
      (fun b hb => (hpre b hb).1) hdark.1]
    · omega
    · intro b hb
      have := (hpre b hb).2
      simp only [Finset.mem_Icc]
      omega
    · intro r hr1 hr2; exact hrail r (by omega) (by omega) (by omega)

/-- C04 fails for chains (`balanced=False`): in `tree(3, balanced=False)` light meets node 0
(rails 0, 1) first, which merges one input into its top rail, but the code records `beta = 2`. -/
theorem C04_chain_counterexample :
    ∃ pre a post, executionOrder (tree 3 3 false) = pre ++ a :: post ∧
      mergedCount pre a.top = 1 ∧ a.beta = 2 := by
  refine ⟨[], ⟨0, 0, 1, 3, 1, 2, 0⟩, [⟨1, 1, 2, 3, 1, 1, 1⟩], ?_, rfl, rfl⟩
  decide

/-- C04 for chains, exactly: node `i` has merged `i + 1` inputs into its top rail and one into its
bottom rail, while the code records `beta = n - i - 1`; so `beta` is right iff `2 i + 2 = n`. -/
theorem C04_chain_counts_partial (n : ℕ) (hn : 2 ≤ n) (pre post : List Node) (a : Node)
    (h : executionOrder (tree n n false) = pre ++ a :: post) :
    mergedCount pre a.top = a.top + 1 ∧ mergedCount pre a.bottom = a.alpha ∧
      a.beta = n - a.top - 1 := by
  have hmem : ∀ b, b ∈ pre ∨ b = a ∨ b ∈ post ↔ b ∈ tree n n false := by
    intro b; rw [← mem_executionOrder (nodes := tree n n _), h]; simp
  obtain ⟨a', ha', rfl⟩ := (mem_tree hn).1 ((hmem a).1 (Or.inr (Or.inl rfl)))
  have hsort := executionOrder_sorted (tree n n false)
  have hdark := tree_exec_dark (R := n) hn false
  have hnd : (executionOrder (tree n n false)).Nodup :=
    (executionOrder_perm _).nodup_iff.2 (tree_nodup n n false)
  rw [h] at hsort hdark hnd
  rw [List.pairwise_append, List.pairwise_cons] at hsort hdark
  obtain ⟨i, hi, rfl⟩ := mem_treeChain.1 ha'
  simp only [chainNode]
  have hpre : ∀ b ∈ pre, b.bottom = b.top + 1 ∧ b.top < i := by
    intro b hb
    obtain ⟨b', hb', rfl⟩ := (mem_tree hn).1 ((hmem b).1 (Or.inl hb))
    obtain ⟨j, hj, rfl⟩ := mem_treeChain.1 hb'
    have hc := hsort.2.2 _ hb _ List.mem_cons_self
    have hne : j ≠ i := by
      rintro rfl
      rw [List.nodup_append] at hnd
      exact hnd.2.2 _ hb _ List.mem_cons_self rfl
    simp only [chainNode, treeDepth, Bool.false_eq_true, if_false] at hc ⊢
    rw [show n - 1 - 1 - (n - 2 - j) = j by omega, show n - 1 - 1 - (n - 2 - i) = i by omega] at hc
    exact ⟨trivial, by omega⟩
  have hrail : ∀ r, r < i → ∃ b ∈ pre, b.top = r := by
    intro r hr
    have hb := (hmem _).2 ((mem_tree (R := n) hn).2
      ⟨_, mem_treeChain.2 ⟨r, by omega, rfl⟩, rfl⟩)
    rcases hb with hb | hb | hb
    · exact ⟨_, hb, rfl⟩
    · have := congrArg Node.top hb; simp only [chainNode] at this; omega
    · have := hsort.2.1.1 _ hb; simp only [chainNode, treeDepth] at this
      simp only [Bool.false_eq_true, if_false] at this; omega
  have e : ∀ r, mergedCount pre r = pre.foldl mergeStep (fun _ => 1) r := fun _ => rfl
  simp only [e]
  refine ⟨?_, ?_, trivial⟩
  · rw [mergeSteps_interval pre 0 i (by omega) (fun b hb => by have := hpre b hb; omega) hdark.1]
    · rfl
    · intro b hb
      have := hpre b hb
      simp only [Finset.mem_Icc]
      omega
    · intro r _ hr; exact hrail r hr
  · rw [mergeSteps_untouched]
    intro b hb; have := hpre b hb; omega

example : ∃ pre a post, executionOrder (tree 4 4 true) = pre ++ a :: post ∧ pre ≠ [] ∧ a.beta = 2 :=
  ⟨[⟨0, 0, 1, 4, 1, 1, 0⟩, ⟨2, 2, 3, 4, 1, 1, 0⟩], ⟨1, 1, 3, 4, 2, 2, 1⟩, [], by
    simp [executionOrder, columnNodes, tree, treeBalanced, invertColumns, numColumns, List.range,
      List.range.loop], by simp, rfl⟩

/-! ### C05 -/

/-- C05: every rail except the last is the top rail of exactly one node, and no node of a later
column touches it. -/
theorem C05_tree_dark_rails (n : ℕ) (hn : 2 ≤ n) (balanced : Bool) :
    (∀ r, r + 1 < n → ∃! a, a ∈ tree n n balanced ∧ a.top = r) ∧
    (∀ a ∈ tree n n balanced, a.top + 1 < n) ∧
    ∀ a ∈ tree n n balanced, ∀ b ∈ tree n n balanced, a.column < b.column →
      b.top ≠ a.top ∧ b.bottom ≠ a.top := by
  have htop : (tree n n balanced).map Node.top = (preTree n n balanced).map Node.top := by
    rw [tree_eq, invertColumns, List.map_map]; rfl
  have hp := preTree_tops n n balanced
  rw [← htop] at hp
  have hnd : ((tree n n balanced).map Node.top).Nodup := hp.nodup_iff.2 List.nodup_range
  refine ⟨?_, ?_, ?_⟩
  · intro r hr
    have : r ∈ (tree n n balanced).map Node.top := hp.mem_iff.2 (List.mem_range.2 (by omega))
    obtain ⟨a, ha, rfl⟩ := List.mem_map.1 this
    exact ⟨a, ⟨ha, rfl⟩, fun b hb => List.inj_on_of_nodup_map hnd hb.1 ha hb.2⟩
  · intro a ha
    have := hp.mem_iff.1 (List.mem_map_of_mem ha)
    rw [List.mem_range] at this; omega
  · intro a ha b hb hlt
    obtain ⟨x, hx, rfl⟩ := (mem_tree hn).1 ha
    obtain ⟨y, hy, rfl⟩ := (mem_tree hn).1 hb
    have := preTree_column_le hn balanced hx
    have := preTree_column_le hn balanced hy
    simp only at hlt ⊢
    have := preTree_dark balanced hx hy (by omega)
    exact ⟨this.1.symm, this.2.symm⟩

/-- C05, dynamic form: for any per-node action that changes only the node's two rails, once light
has passed node `a`, the value on rail `a.top` (e.g. the null field) is carried unchanged to the
output. -/
theorem C05_null_stays (n : ℕ) (hn : 2 ≤ n) (balanced : Bool) {V : Type}
    (act : Node → (ℕ → V) → (ℕ → V))
    (hact : ∀ a v r, r ≠ a.top → r ≠ a.bottom → act a v r = v r)
    (pre post : List Node) (a : Node) (v : ℕ → V)
    (h : executionOrder (tree n n balanced) = pre ++ a :: post) :
    (executionOrder (tree n n balanced)).foldl (fun v b => act b v) v a.top =
      (pre ++ [a]).foldl (fun v b => act b v) v a.top := by
  have hdark := tree_exec_dark (R := n) hn balanced
  rw [h] at hdark ⊢
  rw [List.pairwise_append, List.pairwise_cons] at hdark
  rw [show pre ++ a :: post = (pre ++ [a]) ++ post by simp, List.foldl_append]
  generalize (pre ++ [a]).foldl (fun v b => act b v) v = w
  have := hdark.2.1.1
  clear hdark h
  induction post generalizing w with
  | nil => rfl
  | cons b post ih =>
    rw [List.foldl_cons, ih]
    · exact hact b w a.top (this b (by simp)).1 (this b (by simp)).2
    · intro c hc; exact this c (by simp [hc])

example : (fun (a : Node) (v : ℕ → ℕ) (r : ℕ) => if r = a.top then 0 else v r)
    (⟨0, 0, 1, 2, 1, 1, 0⟩ : Node) (fun _ => 1) 1 = 1 := by simp

end Simphox
