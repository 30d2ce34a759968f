import Verif.Hessian
import Verif.HessianCalc

/-! # The tree of a vector unit as a binary tree (for C105) -/

namespace Simphox

open Complex

/-- Position, column and descendants of a node. -/
@[ext] structure Sk where
  id : ℕ
  top : ℕ
  bottom : ℕ
  column : ℕ
  td : List ℕ
  bd : List ℕ

def DescNode.sk (d : DescNode) : Sk :=
  ⟨d.node.id, d.node.top, d.node.bottom, d.node.column, d.topDesc, d.botDesc⟩

/-- The nodes of a binary tree on the rails from `s`, root in column `c`. -/
def BT.skel : BT → ℕ → ℕ → List Sk
  | .leaf, _, _ => []
  | .node l r, s, c =>
    ⟨s + l.size - 1, s + l.size - 1, s + (l.size + r.size) - 1, c,
      List.range' s (l.size - 1), List.range' (s + l.size) (r.size - 1)⟩ ::
      (l.skel s (c + 1) ++ r.skel (s + l.size) (c + 1))

def shapeB (n : ℕ) : BT :=
  if h : n ≤ 1 then .leaf else .node (shapeB (n / 2)) (shapeB (n - n / 2))
termination_by n
decreasing_by all_goals omega

def shapeC : ℕ → BT
  | 0 => .leaf
  | k + 1 => .node (shapeC k) .leaf

/-- The binary tree of `tree(n, balanced)`. -/
def shape (n : ℕ) (balanced : Bool) : BT := if balanced then shapeB n else shapeC (n - 1)

theorem shapeB_size (n : ℕ) (hn : 1 ≤ n) : (shapeB n).size = n := by
  induction n using Nat.strong_induction_on with
  | _ n ih =>
    rw [shapeB]
    split_ifs with h
    · simp only [BT.size]; omega
    · simp only [BT.size]
      rw [ih (n / 2) (by omega) (by omega), ih (n - n / 2) (by omega) (by omega)]
      omega

theorem shapeC_size (k : ℕ) : (shapeC k).size = k + 1 := by
  induction k with
  | zero => rfl
  | succ k ih => simp [shapeC, BT.size, ih]

theorem shape_size (n : ℕ) (hn : 1 ≤ n) (b : Bool) : (shape n b).size = n := by
  cases b
  · simp only [shape, Bool.false_eq_true, if_false, shapeC_size]; omega
  · simp only [shape, if_true, shapeB_size n hn]

theorem treeBalancedDesc_nil (R s c : ℕ) : treeBalancedDesc [] R s c = [] := by
  rw [treeBalancedDesc]; simp

theorem treeBalancedDesc_node (R : ℕ) (l : List ℕ) (s c : ℕ) :
    (treeBalancedDesc l R s c).map DescNode.node = treeBalanced l R s c := by
  induction hk : l.length using Nat.strong_induction_on generalizing l s c with
  | _ k ih =>
    rw [treeBalancedDesc, treeBalanced]
    split_ifs with h
    · rfl
    · simp only [List.map_cons, List.map_append]
      rw [ih _ (by simp only [List.length_take]; omega) _ s (c + 1) rfl,
        ih _ (by simp only [List.length_drop]; omega) _ (s + (l.length + 1) / 2) (c + 1) rfl]

theorem treeDesc_node (n : ℕ) (b : Bool) : (treeDesc n b).map DescNode.node = preTree n n b := by
  cases b
  · simp only [treeDesc, Bool.false_eq_true, if_false, preTree, treeChainDesc, treeChain, List.map_map]
    rfl
  · simp only [treeDesc, if_true, preTree]
    exact treeBalancedDesc_node _ _ _ _

theorem treeBalancedDesc_sk (R : ℕ) (n : ℕ) (hn : 1 ≤ n) (s c : ℕ) :
    (treeBalancedDesc (List.range' s (n - 1)) R s c).map DescNode.sk = (shapeB n).skel s c := by
  induction n using Nat.strong_induction_on generalizing s c with
  | _ n ih =>
    rw [shapeB]
    split_ifs with h
    · have : n - 1 = 0 := by omega
      simp [this, treeBalancedDesc_nil, BT.skel]
    · rw [treeBalancedDesc]
      have hl : (List.range' s (n - 1)).length = n - 1 := by simp
      have h1 : n - 1 + 1 = n := by omega
      have h0 : ¬ (n - 1 = 0) := by omega
      simp only [hl, h0, dif_neg, not_false_iff, h1, BT.skel, List.map_cons, List.map_append]
      have ht : (List.range' s (n - 1)).take (n / 2 - 1) = List.range' s (n / 2 - 1) := by
        rw [List.range'_eq_map_range, List.range'_eq_map_range, ← List.map_take, List.take_range]; congr 2; omega
      have hd : (List.range' s (n - 1)).drop (n / 2) = List.range' (s + n / 2) (n - n / 2 - 1) := by
        rw [List.drop_range']; congr 1 <;> omega
      rw [ht, hd, ih (n / 2) (by omega) (by omega) s (c + 1),
        ih (n - n / 2) (by omega) (by omega) (s + n / 2) (c + 1)]
      have s1 := shapeB_size (n / 2) (by omega)
      have s2 := shapeB_size (n - n / 2) (by omega)
      rw [s1, s2]
      congr 1
      simp only [DescNode.sk]
      ext1
      · simp only [List.getD_eq_getElem?_getD]
        rw [List.getElem?_range' (by omega)]
        simp; omega
      all_goals simp only
      all_goals omega

theorem shapeC_skel (k c : ℕ) : (shapeC k).skel 0 c =
    (List.range k).reverse.map fun i => ⟨i, i, i + 1, c + k - 1 - i, List.range i, []⟩ := by
  induction k generalizing c with
  | zero => rfl
  | succ k ih =>
    simp only [shapeC, BT.skel, ih, shapeC_size, BT.size, List.range_succ, List.reverse_append, List.reverse_cons,
      List.reverse_nil, List.nil_append, List.cons_append, List.map_cons, List.append_nil]
    congr 1
    · ext1 <;> simp only [List.range_eq_range', Nat.add_sub_cancel, Nat.sub_self, List.range'_zero] <;> omega
    · apply List.map_congr_left
      intro i hi
      simp only [List.mem_reverse, List.mem_range] at hi
      ext1 <;> simp only
      omega

theorem treeDesc_sk (n : ℕ) (hn : 1 ≤ n) (b : Bool) :
    (treeDesc n b).map DescNode.sk = (shape n b).skel 0 0 := by
  cases b
  · simp only [treeDesc, Bool.false_eq_true, if_false, shape, shapeC_skel, treeChainDesc, List.map_map]
    apply List.map_congr_left
    intro i hi
    simp only [List.mem_reverse, List.mem_range] at hi
    simp only [Function.comp, DescNode.sk, chainNode]
    ext1 <;> simp only [List.take_range]
    · omega
    · congr 1; omega
  · simp only [treeDesc, if_true, shape, List.range_eq_range']
    exact treeBalancedDesc_sk n n hn 0 0

theorem skel_bounds (t : BT) (s c : ℕ) : ∀ x ∈ t.skel s c,
    x.id = x.top ∧ s ≤ x.top ∧ x.top < x.bottom ∧ x.bottom < s + t.size ∧ c ≤ x.column ∧
      (∀ k ∈ x.td, s ≤ k ∧ k < x.id) ∧ ∀ k ∈ x.bd, x.id < k ∧ k < x.bottom := by
  induction t generalizing s c with
  | leaf => simp [BT.skel]
  | node l r h1 h2 =>
    have := l.size_pos
    have := r.size_pos
    simp only [BT.skel, List.mem_cons, List.mem_append, BT.size]
    rintro x (rfl | hx | hx)
    · simp only [List.mem_range'_1]
      refine ⟨trivial, by omega, by omega, by omega, le_refl _, ?_, ?_⟩
      · intro k hk; omega
      · intro k hk; omega
    · obtain ⟨a1, a2, a3, a4, a5, a6, a7⟩ := h1 s (c + 1) x hx
      exact ⟨a1, a2, a3, by omega, by omega, a6, a7⟩
    · obtain ⟨a1, a2, a3, a4, a5, a6, a7⟩ := h2 (s + l.size) (c + 1) x hx
      exact ⟨a1, by omega, a3, by omega, by omega, fun k hk => ⟨by have := a6 k hk; omega, (a6 k hk).2⟩, a7⟩

/-- The node list `nodes` (columns counted from the leaves, `D` in all) contains the tree `t`, and
nothing else that is on its rails in its columns. -/
structure SubAt (nodes : List Node) (D : ℕ) (t : BT) (s c : ℕ) : Prop where
  sub : ∀ x ∈ t.skel s c, ∃ a ∈ nodes, a.id = x.id ∧ a.top = x.top ∧ a.bottom = x.bottom ∧
    a.column + x.column + 1 = D
  only : ∀ a ∈ nodes, a.column + c < D →
    (s ≤ a.top ∧ a.top < s + t.size ∨ s ≤ a.bottom ∧ a.bottom < s + t.size) →
    ∃ x ∈ t.skel s c, a.top = x.top ∧ a.bottom = x.bottom ∧ a.column + x.column + 1 = D

theorem SubAt.left {nodes : List Node} {D : ℕ} {l r : BT} {s c : ℕ} (h : SubAt nodes D (.node l r) s c) :
    SubAt nodes D l s (c + 1) := by
  have := l.size_pos
  have := r.size_pos
  refine ⟨fun x hx => h.sub x (by simp [BT.skel, hx]), ?_⟩
  intro a ha hc hr
  obtain ⟨x, hx, h1, h2, h3⟩ := h.only a ha (by omega) (by simp only [BT.size]; omega)
  simp only [BT.skel, List.mem_cons, List.mem_append] at hx
  rcases hx with rfl | hx | hx
  · simp only at h3; omega
  · exact ⟨x, hx, h1, h2, h3⟩
  · have := skel_bounds r (s + l.size) (c + 1) x hx
    omega

theorem SubAt.right {nodes : List Node} {D : ℕ} {l r : BT} {s c : ℕ} (h : SubAt nodes D (.node l r) s c) :
    SubAt nodes D r (s + l.size) (c + 1) := by
  have := l.size_pos
  have := r.size_pos
  refine ⟨fun x hx => h.sub x (by simp [BT.skel, hx]), ?_⟩
  intro a ha hc hr
  obtain ⟨x, hx, h1, h2, h3⟩ := h.only a ha (by omega) (by simp only [BT.size]; omega)
  simp only [BT.skel, List.mem_cons, List.mem_append] at hx
  rcases hx with rfl | hx | hx
  · simp only at h3; omega
  · have := skel_bounds l s (c + 1) x hx
    omega
  · exact ⟨x, hx, h1, h2, h3⟩

/-- Along a run of the columns, the last rail of a subtree carries its amplitude when the subtree is done. -/
theorem trace_amp {el : ℕ → Elements} {nodes : List Node} {D : ℕ} {P : Params} {v : ℕ → ℂ}
    (hel : ∀ a ∈ nodes, (el a.id).t12 = cl P a.id ∧ (el a.id).t22 = cr P a.id)
    (W : ℕ → ℕ → ℂ) (h0 : W 0 = v)
    (hW : ∀ K < D, ColumnResult el (columnNodes nodes K) (W K) (W (K + 1)))
    (t : BT) (s c : ℕ) (hc : c ≤ D) (h : SubAt nodes D t s c) :
    W (D - c) (s + t.size - 1) = amp P v t s := by
  induction t generalizing s c with
  | leaf =>
    have key : ∀ K, K ≤ D - c → W K s = v s := by
      intro K
      induction K with
      | zero => intro _; rw [h0]
      | succ K ih =>
        intro hK
        rw [(hW K (by omega)).other s, ih (by omega)]
        intro a ha
        obtain ⟨ha, hak⟩ := mem_columnNodes.1 ha
        by_contra hcon
        have : s = a.top ∨ s = a.bottom := by
          by_contra h; push Not at h; exact hcon h
        obtain ⟨x, hx, _⟩ := h.only a ha (by omega) (by simp only [BT.size]; omega)
        simp [BT.skel] at hx
    simp only [BT.size, Nat.add_sub_cancel, amp]
    exact key _ (le_refl _)
  | node l r h1 h2 =>
    have := l.size_pos
    have := r.size_pos
    obtain ⟨a, ha, e1, e2, e3, e4⟩ := h.sub _ (by simp only [BT.skel]; exact List.mem_cons_self)
    simp only at e1 e2 e3 e4
    have a1 := h1 s (c + 1) (by omega) h.left
    have a2 := h2 (s + l.size) (c + 1) (by omega) h.right
    have hk : D - c = a.column + 1 := by omega
    have hk' : D - (c + 1) = a.column := by omega
    rw [hk'] at a1 a2
    have R := (hW a.column (by omega)).bottom a (mem_columnNodes.2 ⟨ha, rfl⟩)
    have b3 : s + (BT.node l r).size - 1 = a.bottom := by rw [e3]; rfl
    have b2 : s + l.size + r.size - 1 = a.bottom := by rw [e3]; omega
    rw [b2] at a2
    rw [← e2] at a1
    rw [hk, b3, R, a1, a2, (hel a ha).1, (hel a ha).2, e1, amp]

/-- A run in which every node leaves its top rail dark. -/
theorem trace_nulled {el : ℕ → Elements} {nodes : List Node} {D : ℕ} {P : Params} {v : ℕ → ℂ} {pn pnsn : ℕ → ℝ}
    (hel : ∀ a ∈ nodes, (el a.id).t12 = cl P a.id ∧ (el a.id).t22 = cr P a.id)
    (hinv : ∀ a ∈ nodes, ∀ x y : ℂ, (el a.id).t11 * x + (el a.id).t21 * y = 0 →
      x = (starRingEnd ℂ) (cl P a.id) * ((el a.id).t12 * x + (el a.id).t22 * y) ∧
      y = (starRingEnd ℂ) (cr P a.id) * ((el a.id).t12 * x + (el a.id).t22 * y))
    (W : ℕ → ℕ → ℂ) (h0 : W 0 = v)
    (hW : ∀ K < D, ColumnResult el (columnNodes nodes K) (W K) (W (K + 1)))
    (hdark : ∀ a ∈ nodes, W (a.column + 1) a.top = 0)
    (hpn : ∀ a ∈ nodes, pn a.id = ‖W (a.column + 1) a.bottom‖ ^ 2)
    (hpnsn : ∀ a ∈ nodes, pnsn a.id = ‖W a.column a.top‖ ^ 2)
    (t : BT) (s c : ℕ) (hc : c ≤ D) (h : SubAt nodes D t s c) : Nulled P v pn pnsn t s := by
  induction t generalizing s c with
  | leaf => trivial
  | node l r h1 h2 =>
    have := l.size_pos
    have := r.size_pos
    obtain ⟨a, ha, e1, e2, e3, e4⟩ := h.sub _ (by simp only [BT.skel]; exact List.mem_cons_self)
    simp only at e1 e2 e3 e4
    have a0 := trace_amp hel W h0 hW _ s c hc h
    have a1 := trace_amp hel W h0 hW _ s (c + 1) (by omega) h.left
    have a2 := trace_amp hel W h0 hW _ (s + l.size) (c + 1) (by omega) h.right
    have hk : D - c = a.column + 1 := by omega
    have hk' : D - (c + 1) = a.column := by omega
    have b3 : s + (BT.node l r).size - 1 = a.bottom := by rw [e3]; rfl
    have b2 : s + l.size + r.size - 1 = a.bottom := by rw [e3]; omega
    rw [hk', b2] at a2
    rw [hk', ← e2] at a1
    rw [hk, b3] at a0
    have C := hW a.column (by omega)
    have hmem : a ∈ columnNodes nodes a.column := mem_columnNodes.2 ⟨ha, rfl⟩
    have Rt := C.top a hmem
    have Rb := C.bottom a hmem
    rw [hdark a ha] at Rt
    obtain ⟨i1, i2⟩ := hinv a ha _ _ Rt.symm
    rw [← Rb, a0, a1, e1] at i1
    rw [← Rb, a0, a2, e1] at i2
    refine ⟨i1, i2, ?_, ?_, h1 s (c + 1) (by omega) h.left, h2 _ (c + 1) (by omega) h.right⟩
    · rw [← e1, hpn a ha, a0]
    · rw [← e1, hpnsn a ha, a1]

theorem tree_subAt {n : ℕ} (hn : 2 ≤ n) (b : Bool) :
    SubAt (tree n n b) (numColumns (tree n n b)) (shape n b) 0 0 := by
  have hsk := treeDesc_sk n (by omega) b
  have hnd := treeDesc_node n b
  have hnum : numColumns (tree n n b) = numColumns (preTree n n b) := by
    rw [tree_eq]; exact numColumns_invertColumns (preTree_root hn b)
  constructor
  · intro x hx
    rw [← hsk] at hx
    obtain ⟨d, hd, rfl⟩ := List.mem_map.1 hx
    have hp : d.node ∈ preTree n n b := by rw [← hnd]; exact List.mem_map_of_mem hd
    have hlt := column_lt_numColumns hp
    refine ⟨{ d.node with column := numColumns (preTree n n b) - 1 - d.node.column }, ?_, rfl, rfl, rfl, ?_⟩
    · rw [tree_eq, invertColumns]; exact List.mem_map.2 ⟨d.node, hp, rfl⟩
    · rw [hnum]; simp only [DescNode.sk]; omega
  · intro a ha _ _
    rw [tree_eq, invertColumns] at ha
    obtain ⟨p, hp, rfl⟩ := List.mem_map.1 ha
    have hlt := column_lt_numColumns hp
    rw [← hnd] at hp
    obtain ⟨d, hd, rfl⟩ := List.mem_map.1 hp
    refine ⟨d.sk, by rw [← hsk]; exact List.mem_map_of_mem hd, rfl, rfl, ?_⟩
    rw [hnum]; simp only [DescNode.sk]; omega

end Simphox
