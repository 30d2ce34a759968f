import Verif.MeshLemmas

/-! # Lemmas on the padded JAX path and on permutations -/

namespace Simphox

open Matrix Complex

theorem dummyRail_some {n : ℕ} {nodes : List Node} {d : ℕ} (h : dummyRail n nodes = some d) :
    d < n ∧ ∀ a ∈ nodes, d ≠ a.top ∧ d ≠ a.bottom := by
  unfold dummyRail at h
  have hm := List.mem_of_mem_head? h
  simp only [List.mem_filter, List.mem_range, List.mem_append, List.mem_map, decide_eq_true_eq,
    not_or, not_exists, not_and] at hm
  exact ⟨hm.1, fun a ha => ⟨fun e => hm.2.1 a ha e.symm, fun e => hm.2.2 a ha e.symm⟩⟩

theorem rails_nodup {nodes : List Node} (h : GoodColumn nodes) :
    (nodes.map Node.top ++ nodes.map Node.bottom).Nodup := by
  rw [List.nodup_append]
  refine ⟨?_, ?_, ?_⟩
  · rw [List.Nodup, List.pairwise_map]; exact h.pw.imp fun h => h.1
  · rw [List.Nodup, List.pairwise_map]; exact h.pw.imp fun h => h.2.2.2
  · intro x hx y hy
    obtain ⟨a, ha, rfl⟩ := List.mem_map.1 hx
    obtain ⟨b, hb, rfl⟩ := List.mem_map.1 hy
    intro e
    have := h.eq_of ha hb (Or.inr (Or.inl e))
    subst this
    exact h.ne a ha e

theorem two_mul_length_le {n : ℕ} {nodes : List Node} (h : GoodColumn nodes)
    (hr : ∀ a ∈ nodes, a.top < n ∧ a.bottom < n) : 2 * nodes.length ≤ n := by
  have hs : (nodes.map Node.top ++ nodes.map Node.bottom) ⊆ List.range n := by
    intro x hx
    rw [List.mem_range]
    rcases List.mem_append.1 hx with hx | hx <;> obtain ⟨a, ha, rfl⟩ := List.mem_map.1 hx
    · exact (hr a ha).1
    · exact (hr a ha).2
  have := ((rails_nodup h).subperm hs).length_le
  simp at this
  omega

theorem le_two_mul_length_of_none {n : ℕ} {nodes : List Node} (h : dummyRail n nodes = none) :
    n ≤ 2 * nodes.length := by
  unfold dummyRail at h
  rw [List.head?_eq_none_iff, List.filter_eq_nil_iff] at h
  have hs : List.range n ⊆ (nodes.map Node.top ++ nodes.map Node.bottom) := by
    intro x hx
    have := h x hx
    simpa only [decide_eq_true_eq, not_not] using this
  have := (List.nodup_range.subperm hs).length_le
  simp at this
  omega

theorem pad_none {n : ℕ} {M : Mesh} (hM : M.WellFormed n) (k : ℕ)
    (h : dummyRail n (columnNodes M.nodes k) = none) :
    maxWidth M.nodes - (columnNodes M.nodes k).length = 0 := by
  have h1 := le_two_mul_length_of_none h
  have : maxWidth M.nodes ≤ (columnNodes M.nodes k).length := by
    unfold maxWidth
    rw [foldr_max_le_iff]
    intro x hx
    obtain ⟨j, _, rfl⟩ := List.mem_map.1 hx
    have := two_mul_length_le (hM.goodColumn j) (n := n) (fun a ha => by
      have := hM.rails a (mem_columnNodes.1 ha).1; exact ⟨this.1, this.2.1⟩)
    omega
  omega

theorem mem_padColumn {n m : ℕ} {nodes : List Node} {e : PadEntry}
    (h : e ∈ padColumn n m nodes) :
    (∃ a ∈ nodes, e = ⟨a.top, a.bottom, a.id, 1⟩) ∨
      (0 < m - nodes.length ∧
        e = ⟨(dummyRail n nodes).getD 0, (dummyRail n nodes).getD 0, 0, 0⟩) := by
  unfold padColumn at h
  rcases List.mem_append.1 h with h | h
  · obtain ⟨a, ha, rfl⟩ := List.mem_map.1 h; exact Or.inl ⟨a, ha, rfl⟩
  · rw [List.mem_replicate] at h; exact Or.inr ⟨by omega, h.2⟩

theorem jaxWrites_mem {n : ℕ} {M : Mesh} (hM : M.WellFormed n) (k : ℕ) {el : ℕ → Elements}
    {v : ℕ → ℂ} {r : ℕ} {x : ℂ}
    (h : (r, x) ∈ jaxWrites el (padColumn n (maxWidth M.nodes) (columnNodes M.nodes k)) v) :
    (r, x) ∈ columnWrites el (columnNodes M.nodes k) v ∨
      ((∀ a ∈ columnNodes M.nodes k, r ≠ a.top ∧ r ≠ a.bottom) ∧ x = v r) := by
  unfold jaxWrites at h
  have hd : ∀ d, 0 < maxWidth M.nodes - (columnNodes M.nodes k).length →
      d = (dummyRail n (columnNodes M.nodes k)).getD 0 →
      ∀ a ∈ columnNodes M.nodes k, d ≠ a.top ∧ d ≠ a.bottom := by
    intro d hpos hd
    cases hdr : dummyRail n (columnNodes M.nodes k) with
    | none => have := pad_none hM k hdr; omega
    | some d' =>
      rw [hdr] at hd; simp at hd; subst hd
      exact (dummyRail_some hdr).2
  rcases List.mem_append.1 h with h | h
  · obtain ⟨e, he, h⟩ := List.mem_map.1 h
    rcases mem_padColumn he with ⟨a, ha, rfl⟩ | ⟨hpos, rfl⟩
    · left
      simp only [maskedElements, Nat.cast_one, mul_one, sub_self, add_zero] at h
      rw [← h]
      exact List.mem_append_left _ (List.mem_map.2 ⟨a, ha, rfl⟩)
    · right
      simp only [maskedElements, Nat.cast_zero, mul_zero, sub_zero, zero_add, one_mul, zero_mul,
        add_zero, Prod.mk.injEq] at h
      rw [← h.2, ← h.1]
      exact ⟨hd _ hpos rfl, rfl⟩
  · obtain ⟨e, he, h⟩ := List.mem_map.1 h
    rcases mem_padColumn he with ⟨a, ha, rfl⟩ | ⟨hpos, rfl⟩
    · left
      simp only [maskedElements, Nat.cast_one, mul_one, sub_self, add_zero] at h
      rw [← h]
      exact List.mem_append_right _ (List.mem_map.2 ⟨a, ha, rfl⟩)
    · right
      simp only [maskedElements, Nat.cast_zero, mul_zero, sub_zero, zero_add, one_mul, zero_mul,
        Prod.mk.injEq] at h
      rw [← h.2, ← h.1]
      exact ⟨hd _ hpos rfl, rfl⟩

theorem columnWrites_sub_jax {n m : ℕ} {nodes : List Node} {el : ℕ → Elements} {v : ℕ → ℂ}
    {p : ℕ × ℂ} (h : p ∈ columnWrites el nodes v) : p ∈ jaxWrites el (padColumn n m nodes) v := by
  unfold columnWrites at h
  unfold jaxWrites padColumn
  rcases List.mem_append.1 h with h | h <;> obtain ⟨a, ha, rfl⟩ := List.mem_map.1 h
  · apply List.mem_append_left
    refine List.mem_map.2 ⟨⟨a.top, a.bottom, a.id, 1⟩,
      List.mem_append_left _ (List.mem_map.2 ⟨a, ha, rfl⟩), ?_⟩
    simp [maskedElements]
  · apply List.mem_append_right
    refine List.mem_map.2 ⟨⟨a.top, a.bottom, a.id, 1⟩,
      List.mem_append_left _ (List.mem_map.2 ⟨a, ha, rfl⟩), ?_⟩
    simp [maskedElements]

theorem jaxColumn {n : ℕ} {M : Mesh} (hM : M.WellFormed n) (k : ℕ) {el : ℕ → Elements}
    {v u : ℕ → ℂ}
    (h : IsScatter v (jaxWrites el (padColumn n (maxWidth M.nodes) (columnNodes M.nodes k)) v) u) :
    u = parallelTransform el (columnNodes M.nodes k) v := by
  have hg := hM.goodColumn k
  refine ColumnResult.unique (nodes := columnNodes M.nodes k) (el := el) (v := v) ⟨?_, ?_, ?_⟩
    (parallelTransform_result hg v)
  · intro a ha
    have hm : (a.top, (el a.id).t11 * v a.top + (el a.id).t21 * v a.bottom) ∈
        columnWrites el (columnNodes M.nodes k) v :=
      List.mem_append_left _ (List.mem_map_of_mem ha)
    rcases h a.top with ⟨x, hx, hu⟩ | ⟨hno, _⟩
    · rw [hu]
      rcases jaxWrites_mem hM k hx with hx | ⟨hx, _⟩
      · exact columnWrites_unique hg v hm hx
      · exact absurd rfl (hx a ha).1
    · exact absurd (columnWrites_sub_jax hm) (hno _)
  · intro a ha
    have hm : (a.bottom, (el a.id).t12 * v a.top + (el a.id).t22 * v a.bottom) ∈
        columnWrites el (columnNodes M.nodes k) v :=
      List.mem_append_right _ (List.mem_map_of_mem ha)
    rcases h a.bottom with ⟨x, hx, hu⟩ | ⟨hno, _⟩
    · rw [hu]
      rcases jaxWrites_mem hM k hx with hx | ⟨hx, _⟩
      · exact columnWrites_unique hg v hm hx
      · exact absurd rfl (hx a ha).2
    · exact absurd (columnWrites_sub_jax hm) (hno _)
  · intro r hr
    rcases h r with ⟨x, hx, hu⟩ | ⟨_, hu⟩
    · rw [hu]
      rcases jaxWrites_mem hM k hx with hx | ⟨_, hx⟩
      · exfalso
        simp only [columnWrites, List.mem_append, List.mem_map, Prod.mk.injEq] at hx
        rcases hx with ⟨a, ha, h1, _⟩ | ⟨a, ha, h1, _⟩
        · exact (hr a ha).1 h1.symm
        · exact (hr a ha).2 h1.symm
      · exact hx
    · exact hu

theorem jaxScan_eq {n : ℕ} {M : Mesh} (hM : M.WellFormed n) {el : ℕ → Elements} {cols : List ℕ}
    {v w : ℕ → ℂ} (h : JaxScan n el M.nodes cols v w) : w = columnsApply el M.nodes cols v := by
  induction h with
  | nil v => rfl
  | cons k cols v u w hs _ ih =>
    rw [ih, jaxColumn hM k hs]; rfl

theorem scatter_isScatter (v : ℕ → ℂ) (writes : List (ℕ × ℂ)) :
    IsScatter v writes (scatter v writes) := by
  intro r
  induction writes using List.reverseRecOn with
  | nil => right; simp [scatter]
  | append_singleton l p ih =>
    have e : scatter v (l ++ [p]) = Function.update (scatter v l) p.1 p.2 := by
      simp [scatter, List.foldl_append]
    rw [e]
    by_cases hp : r = p.1
    · left; subst hp; exact ⟨p.2, by simp, by simp⟩
    · rw [Function.update_of_ne hp]
      rcases ih with ⟨x, hx, hw⟩ | ⟨hno, hw⟩
      · left; exact ⟨x, by simp [hx], hw⟩
      · right
        refine ⟨?_, hw⟩
        intro x hx
        rcases List.mem_append.1 hx with hx | hx
        · exact hno x hx
        · simp at hx; exact hp (by rw [← hx])

theorem jaxScan_exists (n : ℕ) (el : ℕ → Elements) (nodes : List Node) (cols : List ℕ)
    (v : ℕ → ℂ) : ∃ w, JaxScan n el nodes cols v w := by
  induction cols generalizing v with
  | nil => exact ⟨v, .nil v⟩
  | cons k cols ih =>
    obtain ⟨w, hw⟩ := ih (scatter v
      (jaxWrites el (padColumn n (maxWidth nodes) (columnNodes nodes k)) v))
    exact ⟨w, .cons k cols v _ w (scatter_isScatter _ _) hw⟩

/-! ### Permutations -/

theorem numColumns_perm {l l' : List Node} (p : l.Perm l') : numColumns l = numColumns l' := by
  have h : ∀ {l l' : List Node}, l.Perm l' → numColumns l ≤ numColumns l' := by
    intro l l' p
    by_cases hl : l = []
    · subst hl; simp [numColumns]
    · have : (l.map Node.column).foldr max 0 + 1 ≤ numColumns l' := by
        have : (l.map Node.column).foldr max 0 ≤ numColumns l' - 1 := by
          rw [foldr_max_le_iff]
          intro x hx
          obtain ⟨a, ha, rfl⟩ := List.mem_map.1 hx
          have := column_lt_numColumns (p.mem_iff.1 ha)
          omega
        obtain ⟨a, ha⟩ := List.exists_mem_of_ne_nil l hl
        have := column_lt_numColumns (p.mem_iff.1 ha)
        omega
      unfold numColumns at *
      rw [if_neg hl]
      exact this
  exact le_antisymm (h p) (h p.symm)

theorem columnNodes_perm {l l' : List Node} (p : l.Perm l') (k : ℕ) :
    (columnNodes l k).Perm (columnNodes l' k) := p.filter _

theorem columnsApply_perm {el : ℕ → Elements} {l l' : List Node} (p : l.Perm l')
    (h : ∀ k, GoodColumn (columnNodes l k)) (cols : List ℕ) (v : ℕ → ℂ) :
    columnsApply el l cols v = columnsApply el l' cols v := by
  unfold columnsApply
  induction cols generalizing v with
  | nil => rfl
  | cons k ks ih =>
    rw [List.foldl_cons, List.foldl_cons, ih, parallelTransform_perm (h k) (columnNodes_perm p k)]

/-- Extension by zero. -/
def extend {n : ℕ} (w : Fin n → ℂ) : ℕ → ℂ := fun r => if h : r < n then w ⟨r, h⟩ else 0

theorem restrict_extend {n : ℕ} (w : Fin n → ℂ) : restrict n (extend w) = w := by
  funext i; simp [restrict, extend]

theorem blockProduct_eq_of_seq {n : ℕ} {el : ℕ → Elements} {l l' : List Node}
    (hl : ∀ a ∈ l, a.top < n ∧ a.bottom < n ∧ a.top ≠ a.bottom)
    (hl' : ∀ a ∈ l', a.top < n ∧ a.bottom < n ∧ a.top ≠ a.bottom)
    (h : ∀ v, seqApply el l v = seqApply el l' v) :
    blockProduct n el l = blockProduct n el l' := by
  apply mulVec_ext
  intro w
  rw [← restrict_extend w]
  unfold blockProduct
  rw [← restrict_seqApply l hl, ← restrict_seqApply l' hl', h]

theorem seqApply_flatMap_perm {el : ℕ → Elements} {f g : ℕ → List Node}
    (hf : ∀ k, GoodColumn (f k)) (p : ∀ k, (f k).Perm (g k)) (cols : List ℕ) (v : ℕ → ℂ) :
    seqApply el (cols.flatMap f) v = seqApply el (cols.flatMap g) v := by
  induction cols generalizing v with
  | nil => rfl
  | cons k ks ih =>
    simp only [List.flatMap_cons, seqApply, List.foldl_append] at ih ⊢
    have e : List.foldl (fun v a => nodeAct (el a.id) a.top a.bottom v) v (f k) =
        List.foldl (fun v a => nodeAct (el a.id) a.top a.bottom v) v (g k) := by
      have h1 := parallelTransform_eq_seq (el := el) (hf k) v
      have h2 := parallelTransform_eq_seq (el := el) ((hf k).perm (p k)) v
      rw [parallelTransform_perm (hf k) (p k)] at h1
      exact h1.symm.trans h2
    rw [e, ih]

theorem blockProduct_transpose {n : ℕ} {el el' : ℕ → Elements} (l : List Node)
    (hl : ∀ a ∈ l, a.top ≠ a.bottom) (h : ∀ a ∈ l, (el' a.id).mat = (el a.id).matᵀ) :
    (blockProduct n el l)ᵀ = blockProduct n el' l.reverse := by
  unfold blockProduct
  rw [Matrix.transpose_list_prod]
  congr 1
  simp only [List.map_reverse, List.reverse_reverse, List.map_map]
  apply List.map_congr_left
  intro a ha
  simp only [Function.comp]
  rw [embed2_transpose n (hl a ha), h a ha]

end Simphox
