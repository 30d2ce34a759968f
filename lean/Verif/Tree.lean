import Mathlib.Data.Nat.Log
import Mathlib.Data.List.Perm.Basic
import Mathlib.Data.List.Range
import Mathlib.Tactic.Linarith

/-!
# Model of the node lists of `ForwardMesh` and of the tree architectures

Source: `/repo/simphox/circuit/coupling.py`, `/repo/simphox/circuit/forward.py`,
`/repo/simphox/circuit/vector.py`.
-/

namespace Simphox

/-- `CouplingNode` (coupling.py:66-95): the integer fields. The real fields `bs_error` and `loss`
are kept beside the node list (see `Mesh` in `Verif.Mesh`), exactly as `ForwardMesh.__post_init__`
(forward.py:48-49) copies them into arrays. The derived fields `stride`, `top_descendants`,
`bot_descendants` (coupling.py:92-94) are not modelled. -/
structure Node where
  /-- `node_id` -/
  id : ℕ
  top : ℕ
  bottom : ℕ
  /-- number of rails `n` -/
  n : ℕ
  alpha : ℕ
  beta : ℕ
  column : ℕ
deriving DecidableEq, Repr, Inhabited

/-- `_tree` with `balanced=True` (vector.py:9-45). `indices` is the array of node ids,
`start` the first rail, `column` the column of the root. `np` slices `indices[:m-1]` and
`indices[m:]` are `take`/`drop`; `indices[m-1]` is in range because `1 ≤ m ≤ len(indices)`
(the default `0` of `getD` is never used). -/
def treeBalanced (indices : List ℕ) (nRails start column : ℕ) : List Node :=
  if _h : indices.length = 0 then []
  else
    let n := indices.length + 1
    let m := n / 2
    let top := indices.take (m - 1)
    let bottom := indices.drop m
    { id := indices.getD (m - 1) 0, top := start + m - 1, bottom := start + n - 1, n := nRails,
      alpha := bottom.length + 1, beta := top.length + 1, column := column } ::
      (treeBalanced top nRails start (column + 1) ++
        treeBalanced bottom nRails (start + m) (column + 1))
termination_by indices.length
decreasing_by
  all_goals simp only [List.length_take, List.length_drop]; omega

/-- The node with index `i` of the linear chain (vector.py:31-35). -/
def chainNode (n nRails i : ℕ) : Node where
  id := i
  top := i
  bottom := i + 1
  n := nRails
  alpha := 1
  beta := n - i - 1
  column := n - 2 - i

/-- `_tree` with `balanced=False` (vector.py:31-35): the linear chain, `i` from `n-2` down to `0`.
`start` and `column` are ignored by the code in this branch. -/
def treeChain (n nRails : ℕ) : List Node :=
  (List.range (n - 1)).reverse.map (chainNode n nRails)

/-- `self.num_columns` (forward.py:65): `np.max(column_by_node) + 1`, or 0 without nodes. -/
def numColumns (nodes : List Node) : ℕ :=
  if nodes = [] then 0 else (nodes.map Node.column).foldr max 0 + 1

/-- `ForwardMesh.invert_columns` (forward.py:99-112): `column := num_columns - 1 - column`. -/
def invertColumns (nodes : List Node) : List Node :=
  nodes.map fun a => { a with column := numColumns nodes - 1 - a.column }

/-- `tree` (vector.py:76-90) with `n_rails` given (the Python default is `n_rails = n`). -/
def tree (n nRails : ℕ) (balanced : Bool) : List Node :=
  invertColumns
    (if balanced then treeBalanced (List.range (n - 1)) nRails 0 0 else treeChain n nRails)

/-- `ForwardMesh.columns` (forward.py:151-167): the nodes of column `k`, in list order. -/
def columnNodes (nodes : List Node) (k : ℕ) : List Node :=
  nodes.filter fun a => a.column = k

/-- The order in which `matrix_fn` visits the nodes (forward.py:197, 221-222): column by column. -/
def executionOrder (nodes : List Node) : List Node :=
  (List.range (numColumns nodes)).flatMap (columnNodes nodes)

/-- Specification: two nodes touch four different rails. -/
def RailDisjoint (a b : Node) : Prop :=
  a.top ≠ b.top ∧ a.top ≠ b.bottom ∧ a.bottom ≠ b.top ∧ a.bottom ≠ b.bottom

instance (a b : Node) : Decidable (RailDisjoint a b) := by unfold RailDisjoint; infer_instance

/-! ### Lemmas about `treeBalanced` -/

theorem foldr_max_le_iff (l : List ℕ) (b : ℕ) : l.foldr max 0 ≤ b ↔ ∀ x ∈ l, x ≤ b := by
  induction l with
  | nil => simp
  | cons a l ih => simp [ih]

theorem le_foldr_max {l : List ℕ} {x : ℕ} (h : x ∈ l) : x ≤ l.foldr max 0 :=
  (foldr_max_le_iff l _).1 le_rfl x h

/-- One unfolding step of `treeBalanced`. -/
theorem treeBalanced_cons {indices : List ℕ} (h : indices ≠ []) (R s c : ℕ) :
    treeBalanced indices R s c =
      { id := indices.getD ((indices.length + 1) / 2 - 1) 0,
        top := s + (indices.length + 1) / 2 - 1, bottom := s + (indices.length + 1) - 1, n := R,
        alpha := (indices.drop ((indices.length + 1) / 2)).length + 1,
        beta := (indices.take ((indices.length + 1) / 2 - 1)).length + 1, column := c } ::
      (treeBalanced (indices.take ((indices.length + 1) / 2 - 1)) R s (c + 1) ++
        treeBalanced (indices.drop ((indices.length + 1) / 2)) R
          (s + (indices.length + 1) / 2) (c + 1)) := by
  have : indices.length ≠ 0 := by simpa using h
  rw [treeBalanced]
  simp [this]

theorem treeBalanced_nil (R s c : ℕ) : treeBalanced [] R s c = [] := by
  rw [treeBalanced]; simp

/-- Induction principle following the recursion of `treeBalanced`. -/
theorem tree_induction {P : List ℕ → ℕ → ℕ → Prop}
    (nil : ∀ s c, P [] s c)
    (step : ∀ indices s c, indices ≠ [] →
      P (indices.take ((indices.length + 1) / 2 - 1)) s (c + 1) →
      P (indices.drop ((indices.length + 1) / 2)) (s + (indices.length + 1) / 2) (c + 1) →
      P indices s c) :
    ∀ indices s c, P indices s c := by
  intro indices
  induction hk : indices.length using Nat.strong_induction_on generalizing indices with
  | _ k ih =>
    intro s c
    by_cases h : indices = []
    · subst h; exact nil s c
    · have hl : indices.length ≠ 0 := by simpa using h
      refine step indices s c h (ih _ ?_ _ rfl _ _) (ih _ ?_ _ rfl _ _)
      · simp only [List.length_take]; omega
      · simp only [List.length_drop]; omega

theorem split_at_mid (l : List ℕ) (h : l ≠ []) :
    l = l.take ((l.length + 1) / 2 - 1) ++
      l.getD ((l.length + 1) / 2 - 1) 0 :: l.drop ((l.length + 1) / 2) := by
  have hl : l.length ≠ 0 := by simpa using h
  have hm : (l.length + 1) / 2 - 1 < l.length := by omega
  have h2 : (l.length + 1) / 2 = (l.length + 1) / 2 - 1 + 1 := by omega
  rw [h2, Nat.add_sub_cancel]
  conv_lhs => rw [← List.take_append_drop ((l.length + 1) / 2 - 1) l]
  rw [List.drop_eq_getElem_cons hm]
  simp [List.getD_eq_getElem?_getD, hm]

theorem treeBalanced_ids (R : ℕ) : ∀ indices s c,
    ((treeBalanced indices R s c).map Node.id).Perm indices := by
  apply tree_induction
  · intro s c; simp [treeBalanced_nil]
  · intro l s c h ih1 ih2
    rw [treeBalanced_cons h]
    simp only [List.map_cons, List.map_append]
    conv_rhs => rw [split_at_mid l h]
    refine (List.Perm.trans ?_ List.perm_middle.symm)
    exact List.Perm.cons _ (ih1.append ih2)

theorem treeBalanced_length (R : ℕ) (indices : List ℕ) (s c : ℕ) :
    (treeBalanced indices R s c).length = indices.length := by
  simpa using (treeBalanced_ids R indices s c).length_eq

theorem treeBalanced_tops (R : ℕ) : ∀ indices s c,
    ((treeBalanced indices R s c).map Node.top).Perm (List.range' s indices.length) := by
  apply tree_induction
  · intro s c; simp [treeBalanced_nil]
  · intro l s c h ih1 ih2
    have hl : l.length ≠ 0 := by simpa using h
    rw [treeBalanced_cons h]
    simp only [List.map_cons, List.map_append]
    have e : List.range' s l.length =
        List.range' s ((l.length + 1) / 2 - 1) ++ (s + (l.length + 1) / 2 - 1) ::
          List.range' (s + (l.length + 1) / 2) (l.length - (l.length + 1) / 2) := by
      have h1 : s + (l.length + 1) / 2 - 1 = s + ((l.length + 1) / 2 - 1) := by omega
      have h2 : s + (l.length + 1) / 2 = s + ((l.length + 1) / 2 - 1) + 1 := by omega
      rw [h2, Nat.add_sub_cancel, ← List.range'_succ, List.range'_append_1]
      congr 1; omega
    rw [e]
    refine (List.Perm.trans ?_ List.perm_middle.symm)
    refine List.Perm.cons _ (List.Perm.append ?_ ?_)
    · have := ih1
      rwa [List.length_take, Nat.min_eq_left (by omega)] at this
    · have := ih2
      rwa [List.length_drop] at this

theorem clog_half {k : ℕ} (hk : 2 ≤ k) :
    Nat.clog 2 k = Nat.clog 2 (k - k / 2) + 1 := by
  rw [Nat.clog_of_two_le (by norm_num) hk]
  congr 2; omega

theorem clog_half' {k : ℕ} (hk : 2 ≤ k) :
    Nat.clog 2 (k / 2) + 1 ≤ Nat.clog 2 k := by
  rw [clog_half hk]
  have : Nat.clog 2 (k / 2) ≤ Nat.clog 2 (k - k / 2) := Nat.clog_mono_right 2 (by omega)
  omega

/-- Every node of `treeBalanced` lies in the rail interval and column interval of its subtree. -/
theorem treeBalanced_bounds (R : ℕ) : ∀ indices s c, ∀ a ∈ treeBalanced indices R s c,
    s ≤ a.top ∧ a.top < a.bottom ∧ a.bottom ≤ s + indices.length ∧ a.n = R ∧ c ≤ a.column ∧
      a.column < c + Nat.clog 2 (indices.length + 1) ∧
      a.alpha + a.beta ≤ indices.length + 1 ∧ 1 ≤ a.alpha ∧ 1 ≤ a.beta := by
  apply tree_induction (P := fun indices s c => ∀ a ∈ treeBalanced indices R s c,
    s ≤ a.top ∧ a.top < a.bottom ∧ a.bottom ≤ s + indices.length ∧ a.n = R ∧ c ≤ a.column ∧
      a.column < c + Nat.clog 2 (indices.length + 1) ∧
      a.alpha + a.beta ≤ indices.length + 1 ∧ 1 ≤ a.alpha ∧ 1 ≤ a.beta)
  · intro s c; simp [treeBalanced_nil]
  · intro l s c h ih1 ih2
    have hl : l.length ≠ 0 := by simpa using h
    have hc := clog_half (k := l.length + 1) (by omega)
    have hc' := clog_half' (k := l.length + 1) (by omega)
    rw [treeBalanced_cons h]
    simp only [List.mem_cons, List.mem_append]
    rintro a (rfl | ha | ha)
    · simp only [List.length_drop, List.length_take]
      refine ⟨?_, ?_, ?_, trivial, le_rfl, ?_, ?_, ?_, ?_⟩ <;> omega
    · have := ih1 a ha
      simp only [List.length_take] at this
      have e : min ((l.length + 1) / 2 - 1) l.length + 1 = (l.length + 1) / 2 := by omega
      rw [e] at this
      refine ⟨?_, ?_, ?_, this.2.2.2.1, ?_, ?_, ?_, ?_, ?_⟩ <;> omega
    · have := ih2 a ha
      simp only [List.length_drop] at this
      have e : l.length - (l.length + 1) / 2 + 1 = l.length + 1 - (l.length + 1) / 2 := by omega
      rw [e] at this
      refine ⟨?_, ?_, ?_, this.2.2.2.1, ?_, ?_, ?_, ?_, ?_⟩ <;> omega

/-- Nodes of one column of `treeBalanced` touch disjoint rails. -/
theorem treeBalanced_disjoint (R : ℕ) : ∀ indices s c,
    (treeBalanced indices R s c).Pairwise fun a b => a.column = b.column → RailDisjoint a b := by
  apply tree_induction
  · intro s c; simp [treeBalanced_nil]
  · intro l s c h ih1 ih2
    have hl : l.length ≠ 0 := by simpa using h
    rw [treeBalanced_cons h, List.pairwise_cons, List.pairwise_append]
    refine ⟨?_, ih1, ih2, ?_⟩
    · intro b hb he
      rcases List.mem_append.1 hb with hb | hb
      · have := treeBalanced_bounds R _ _ _ b hb; simp only at he; omega
      · have := treeBalanced_bounds R _ _ _ b hb; simp only at he; omega
    · intro a ha b hb _
      have h1 := treeBalanced_bounds R _ _ _ a ha
      have h2 := treeBalanced_bounds R _ _ _ b hb
      simp only [List.length_take, List.length_drop] at h1 h2
      refine ⟨?_, ?_, ?_, ?_⟩ <;> omega

/-- A node closer to the root never touches the top rail of a deeper node. -/
theorem treeBalanced_dark (R : ℕ) : ∀ indices s c,
    ∀ a ∈ treeBalanced indices R s c, ∀ b ∈ treeBalanced indices R s c,
      b.column < a.column → a.top ≠ b.top ∧ a.top ≠ b.bottom := by
  apply tree_induction (P := fun indices s c =>
    ∀ a ∈ treeBalanced indices R s c, ∀ b ∈ treeBalanced indices R s c,
      b.column < a.column → a.top ≠ b.top ∧ a.top ≠ b.bottom)
  · intro s c; simp [treeBalanced_nil]
  · intro l s c h ih1 ih2
    have hl : l.length ≠ 0 := by simpa using h
    rw [treeBalanced_cons h]
    simp only [List.mem_cons, List.mem_append]
    intro a ha b hb hlt
    have B1 := treeBalanced_bounds R (l.take ((l.length + 1) / 2 - 1)) s (c + 1)
    have B2 := treeBalanced_bounds R (l.drop ((l.length + 1) / 2)) (s + (l.length + 1) / 2) (c + 1)
    simp only [List.length_take, List.length_drop] at B1 B2
    rcases ha with rfl | ha | ha <;> rcases hb with rfl | hb | hb
    · simp at hlt
    · have := B1 b hb; simp only at hlt; omega
    · have := B2 b hb; simp only at hlt; omega
    · have := B1 a ha; simp only; omega
    · exact ih1 a ha b hb hlt
    · have := B1 a ha; have := B2 b hb; omega
    · have := B2 a ha; simp only; omega
    · have := B2 a ha; have := B1 b hb; omega
    · exact ih2 a ha b hb hlt

/-- All columns of `treeBalanced` between the root column and the depth are inhabited. -/
theorem treeBalanced_columns (R : ℕ) : ∀ indices s c, ∀ k < Nat.clog 2 (indices.length + 1),
    ∃ a ∈ treeBalanced indices R s c, a.column = c + k := by
  apply tree_induction (P := fun indices s c => ∀ k < Nat.clog 2 (indices.length + 1),
    ∃ a ∈ treeBalanced indices R s c, a.column = c + k)
  · intro s c k hk; simp at hk
  · intro l s c h ih1 ih2 k hk
    have hl : l.length ≠ 0 := by simpa using h
    rw [treeBalanced_cons h]
    rcases k with _ | k
    · exact ⟨_, List.mem_cons_self, rfl⟩
    · have hc := clog_half (k := l.length + 1) (by omega)
      simp only [List.length_drop] at ih2
      have e : l.length - (l.length + 1) / 2 + 1 = l.length + 1 - (l.length + 1) / 2 := by omega
      rw [e] at ih2
      obtain ⟨a, ha, hk'⟩ := ih2 k (by omega)
      exact ⟨a, by simp [ha], by omega⟩

end Simphox
