import Verif.VectorProps

/-! # The node lists of cascades, and reordering of nodes on disjoint rails -/

namespace Simphox

open Matrix Complex

/-! ### Reordering -/

theorem nodeAct_comm {m m' : Elements} {a b : Node} (h : RailDisjoint a b) (v : ℕ → ℂ) :
    nodeAct m a.top a.bottom (nodeAct m' b.top b.bottom v) =
      nodeAct m' b.top b.bottom (nodeAct m a.top a.bottom v) := by
  obtain ⟨h1, h2, h3, h4⟩ := h
  funext r
  simp only [nodeAct]
  by_cases r1 : r = a.top
  · subst r1; simp [h1, h2, h3, h4]
  · by_cases r2 : r = a.bottom
    · subst r2; simp [h1, h2, h3, h4, r1]
    · by_cases r3 : r = b.top
      · subst r3; simp [h1.symm, h2.symm, h3.symm, h4.symm, Ne.symm h1, Ne.symm h2, Ne.symm h3, Ne.symm h4]
      · by_cases r4 : r = b.bottom
        · subst r4; simp [Ne.symm h1, Ne.symm h2, Ne.symm h3, Ne.symm h4]
        · simp [r1, r2, r3, r4]

theorem seqApply_append (el : ℕ → Elements) (l l' : List Node) (v : ℕ → ℂ) :
    seqApply el (l ++ l') v = seqApply el l' (seqApply el l v) := by
  simp [seqApply, List.foldl_append]

theorem seqApply_cons (el : ℕ → Elements) (a : Node) (l : List Node) (v : ℕ → ℂ) :
    seqApply el (a :: l) v = seqApply el l (nodeAct (el a.id) a.top a.bottom v) := rfl

theorem seqApply_move (el : ℕ → Elements) (a : Node) (p : List Node) (h : ∀ b ∈ p, RailDisjoint a b) (v : ℕ → ℂ) :
    seqApply el p (nodeAct (el a.id) a.top a.bottom v) = nodeAct (el a.id) a.top a.bottom (seqApply el p v) := by
  induction p generalizing v with
  | nil => rfl
  | cons b p ih =>
    rw [seqApply_cons, seqApply_cons, ← ih (fun c hc => h c (by simp [hc])), nodeAct_comm (h b (by simp))]

/-- Two orders of the same nodes in which nodes sharing a rail occur in increasing columns act alike. -/
theorem seqApply_reorder (el : ℕ → Elements) (l l' : List Node) (hp : l.Perm l')
    (h : l.Pairwise fun a b => RailDisjoint a b ∨ a.column < b.column)
    (h' : l'.Pairwise fun a b => RailDisjoint a b ∨ a.column < b.column) (v : ℕ → ℂ) :
    seqApply el l v = seqApply el l' v := by
  induction l generalizing l' v with
  | nil => rw [List.Perm.nil_eq hp]
  | cons a l ih =>
    obtain ⟨p, q, rfl⟩ := List.append_of_mem (hp.mem_iff.1 (List.mem_cons_self : a ∈ a :: l))
    have hp2 : l.Perm (p ++ q) := List.Perm.cons_inv (hp.trans List.perm_middle)
    have hrd : ∀ b ∈ p, RailDisjoint a b := by
      intro b hb
      have h1 := (List.pairwise_cons.1 h).1 b (hp2.mem_iff.2 (by simp [hb]))
      have h2 := (List.pairwise_append.1 h').2.2 b hb a (by simp)
      rcases h1 with h1 | h1
      · exact h1
      · rcases h2 with h2 | h2
        · exact h2.symm
        · omega
    rw [seqApply_cons, ih (p ++ q) hp2 (List.pairwise_cons.1 h).2, seqApply_append, seqApply_move el a p hrd,
      seqApply_append, seqApply_cons]
    rw [List.pairwise_append, List.pairwise_cons] at h'
    rw [List.pairwise_append]
    exact ⟨h'.1, h'.2.1.2, fun x hx y hy => h'.2.2 x hx y (by simp [hy])⟩

/-- The column order of a mesh is such an order. -/
theorem executionOrder_ordered {nodes : List Node} (hd : ColumnsDisjoint nodes) :
    (executionOrder nodes).Pairwise fun a b => RailDisjoint a b ∨ a.column < b.column := by
  refine List.Pairwise.imp ?_ ((executionOrder_sorted nodes).and hd.executionOrder)
  rintro a b ⟨h1, h2⟩
  rcases Nat.lt_or_ge a.column b.column with h | h
  · exact Or.inr h
  · exact Or.inl (h2 (by omega))

/-! ### The subunits of a cascade -/

/-- Node of a subunit after `offset(N).offset_column(C)`. -/
def shiftNode (N C : ℕ) (a : Node) : Node := { a with id := a.id + N, column := a.column + C }

/-- Column offset of subunit `i` (matrix.py:52). -/
def colOffset (n i : ℕ) (balanced : Bool) (C : ℕ) : ℕ := if balanced then C else 2 * (n - 1 - i)

theorem subunitNodes_eq (n i : ℕ) (b : Bool) (N C : ℕ) :
    subunitNodes n i b N C = (tree (i + 1) n b).map (shiftNode N (colOffset n i b C)) := rfl

/-- The values `k, ..., 1` of the loop variable of `cascade`. -/
def downTo (k : ℕ) : List ℕ := (List.range' 1 k).reverse

theorem downTo_succ (k : ℕ) : downTo (k + 1) = (k + 1) :: downTo k := by
  simp [downTo, List.range'_concat, Nat.add_comm]

/-- All subunits `k, ..., 1`, in list order, when `N` nodes and `C` columns precede them. -/
def parts (n : ℕ) (b : Bool) : ℕ → ℕ → ℕ → List Node
  | 0, _, _ => []
  | k + 1, N, C => subunitNodes n (k + 1) b N C ++
      parts n b k (N + (k + 1)) (C + numColumns (tree (k + 2) n b))

/-- The same nodes, each subunit in its own execution order. -/
def execParts (n : ℕ) (b : Bool) : ℕ → ℕ → ℕ → List Node
  | 0, _, _ => []
  | k + 1, N, C => (executionOrder (tree (k + 2) n b)).map (shiftNode N (colOffset n (k + 1) b C)) ++
      execParts n b k (N + (k + 1)) (C + numColumns (tree (k + 2) n b))

theorem execParts_perm (n : ℕ) (b : Bool) : ∀ k N C, (execParts n b k N C).Perm (parts n b k N C)
  | 0, _, _ => List.Perm.refl _
  | k + 1, N, C => by
    rw [execParts, parts, subunitNodes_eq]
    exact ((executionOrder_perm _).map _).append (execParts_perm n b k _ _)

/-- Triangular numbers. -/
def tri : ℕ → ℕ
  | 0 => 0
  | k + 1 => tri k + (k + 1)

theorem tri_eq (n : ℕ) : 2 * tri (n - 1) = n * (n - 1) := by
  have : ∀ k, 2 * tri k = (k + 1) * k := by
    intro k
    induction k with
    | zero => rfl
    | succ k ih => rw [tri, Nat.mul_add, ih]; ring
  rcases n with _ | n
  · rfl
  · exact this n

theorem parts_ids (n : ℕ) (b : Bool) : ∀ k N C, ((parts n b k N C).map Node.id).Perm (List.range' N (tri k))
  | 0, N, C => by simp [parts, tri]
  | k + 1, N, C => by
    rw [parts, List.map_append, subunitNodes_eq, List.map_map]
    have h1 : ((tree (k + 1 + 1) n b).map (Node.id ∘ shiftNode N (colOffset n (k + 1) b C))).Perm
        (List.range' N (k + 1)) := by
      have e : (Node.id ∘ shiftNode N (colOffset n (k + 1) b C)) = (· + N) ∘ Node.id := rfl
      rw [e, ← List.map_map]
      refine ((tree_ids (k + 1 + 1) n b).map _).trans ?_
      rw [Nat.add_sub_cancel]
      have : (List.range (k + 1)).map (· + N) = List.range' N (k + 1) := by
        rw [List.range_eq_range', show (fun x => x + N) = (fun x => N + x) from funext fun x => Nat.add_comm _ _,
          List.map_add_range']
        simp
      rw [this]
    have h2 := parts_ids n b k (N + (k + 1)) (C + numColumns (tree (k + 2) n b))
    have e : List.range' N (tri (k + 1)) = List.range' N (k + 1) ++ List.range' (N + (k + 1)) (tri k) := by
      rw [List.range'_append_1, tri, Nat.add_comm]
    rw [e]
    exact h1.append h2

theorem parts_length (n : ℕ) (b : Bool) (k N C : ℕ) : (parts n b k N C).length = tri k := by
  simpa using (parts_ids n b k N C).length_eq

theorem mem_parts {n : ℕ} {b : Bool} : ∀ {k N C : ℕ} {a : Node}, a ∈ parts n b k N C →
    ∃ i N' C', 1 ≤ i ∧ i ≤ k ∧ C ≤ C' ∧ ∃ x ∈ tree (i + 1) n b, a = shiftNode N' (colOffset n i b C') x
  | 0, _, _, _, h => by simp [parts] at h
  | k + 1, N, C, a, h => by
    rw [parts, List.mem_append, subunitNodes_eq, List.mem_map] at h
    rcases h with ⟨x, hx, rfl⟩ | h
    · exact ⟨k + 1, N, C, by omega, le_rfl, le_rfl, x, hx, rfl⟩
    · obtain ⟨i, N', C', h1, h2, h3, x, hx, rfl⟩ := mem_parts h
      exact ⟨i, N', C', h1, by omega, by omega, x, hx, rfl⟩

theorem parts_rails {n : ℕ} {b : Bool} {k N C : ℕ} {a : Node} (h : a ∈ parts n b k N C) :
    a.top < a.bottom ∧ a.bottom ≤ k := by
  obtain ⟨i, N', C', h1, h2, _, x, hx, rfl⟩ := mem_parts h
  have := tree_rails (by omega) b hx
  exact ⟨this.1, by simp only [shiftNode]; omega⟩

/-- In the chain, column and top rail coincide. -/
theorem tree_chain_node {m R : ℕ} (hm : 2 ≤ m) {x : Node} (hx : x ∈ tree m R false) :
    x.column = x.top ∧ x.bottom = x.top + 1 ∧ x.top + 1 < m := by
  obtain ⟨y, hy, rfl⟩ := (mem_tree hm).1 hx
  obtain ⟨i, hi, rfl⟩ := mem_treeChain.1 hy
  simp only [chainNode, treeDepth, Bool.false_eq_true, if_false]
  exact ⟨by omega, trivial, by omega⟩

/-- Nodes sharing a rail occur in increasing columns. -/
theorem execParts_ordered (n : ℕ) (b : Bool) : ∀ k N C, k + 1 ≤ n →
    (execParts n b k N C).Pairwise fun x y => RailDisjoint x y ∨ x.column < y.column
  | 0, _, _, _ => List.Pairwise.nil
  | k + 1, N, C, hk => by
    rw [execParts, List.pairwise_append]
    refine ⟨?_, execParts_ordered n b k _ _ (by omega), ?_⟩
    · rw [List.pairwise_map]
      refine List.Pairwise.imp ?_ (executionOrder_ordered (tree_disjoint (k + 2) n b))
      rintro x y (h | h)
      · exact Or.inl h
      · exact Or.inr (by simp only [shiftNode]; omega)
    · intro x hx y hy
      obtain ⟨x', hx', rfl⟩ := List.mem_map.1 hx
      have hy' := (execParts_perm n b k _ _).mem_iff.1 hy
      obtain ⟨i, N', C', h1, h2, h3, y', hyt, rfl⟩ := mem_parts hy'
      have hxt := mem_executionOrder.1 hx'
      cases b
      · have e1 := tree_chain_node (m := k + 2) (by omega) hxt
        have e2 := tree_chain_node (m := i + 1) (by omega) hyt
        by_cases hd : RailDisjoint (shiftNode N (colOffset n (k + 1) false C) x')
            (shiftNode N' (colOffset n i false C') y')
        · exact Or.inl hd
        · right
          simp only [RailDisjoint, shiftNode, colOffset, Bool.false_eq_true, if_false] at hd ⊢
          omega
      · right
        have := column_lt_numColumns hxt
        simp only [shiftNode, colOffset, if_true]
        omega

theorem ordered_columnsDisjoint {l l' : List Node} (hp : l.Perm l')
    (h : l.Pairwise fun x y => RailDisjoint x y ∨ x.column < y.column) : ColumnsDisjoint l' := by
  refine ColumnsDisjoint.perm (l := l) ?_ hp
  refine List.Pairwise.imp ?_ h
  rintro x y (h | h) he
  · exact h
  · omega

theorem parts_disjoint (n : ℕ) (b : Bool) (k N C : ℕ) (hk : k + 1 ≤ n) : ColumnsDisjoint (parts n b k N C) :=
  ordered_columnsDisjoint (execParts_perm n b k N C) (execParts_ordered n b k N C hk)

/-- The column order of the aggregated mesh acts as the subunits one after the other. -/
theorem seqApply_parts (el : ℕ → Elements) (n : ℕ) (b : Bool) (k N C : ℕ) (hk : k + 1 ≤ n) (v : ℕ → ℂ) :
    seqApply el (executionOrder (parts n b k N C)) v = seqApply el (execParts n b k N C) v := by
  apply seqApply_reorder
  · exact (executionOrder_perm _).trans (execParts_perm n b k N C).symm
  · exact executionOrder_ordered (parts_disjoint n b k N C hk)
  · exact execParts_ordered n b k N C hk

end Simphox
