import Verif.Mesh
import Verif.CouplingLemmas

/-! # Lemmas: parallel columns are sequential, meshes are matrix products -/

namespace Simphox

open Matrix Complex

/-- Action of one 2x2 block on rails `t`, `b`. -/
def nodeAct (m : Elements) (t b : ℕ) (v : ℕ → ℂ) : ℕ → ℂ := fun r =>
  if r = t then m.t11 * v t + m.t21 * v b
  else if r = b then m.t12 * v t + m.t22 * v b
  else v r

/-- Nodes one after the other. -/
def seqApply (el : ℕ → Elements) (nodes : List Node) (v : ℕ → ℂ) : ℕ → ℂ :=
  nodes.foldl (fun v a => nodeAct (el a.id) a.top a.bottom v) v

theorem scatter_not_mem (writes : List (ℕ × ℂ)) (v : ℕ → ℂ) (r : ℕ)
    (h : ∀ p ∈ writes, p.1 ≠ r) : scatter v writes r = v r := by
  unfold scatter
  induction writes generalizing v with
  | nil => rfl
  | cons p l ih =>
    rw [List.foldl_cons, ih _ (fun q hq => h q (by simp [hq]))]
    exact Function.update_of_ne (h p (by simp)).symm _ _

theorem scatter_mem (writes : List (ℕ × ℂ)) (v : ℕ → ℂ) (r : ℕ) (x : ℂ)
    (hmem : (r, x) ∈ writes) (huniq : ∀ y, (r, y) ∈ writes → y = x) :
    scatter v writes r = x := by
  induction writes using List.reverseRecOn generalizing v with
  | nil => simp at hmem
  | append_singleton l p ih =>
    unfold scatter
    rw [List.foldl_append, List.foldl_cons, List.foldl_nil]
    by_cases hp : p.1 = r
    · subst hp
      rw [Function.update_self]
      exact huniq p.2 (by simp)
    · rw [Function.update_of_ne (Ne.symm hp)]
      apply ih
      · rcases List.mem_append.1 hmem with h | h
        · exact h
        · simp at h; exact absurd (by rw [← h]) hp
      · intro y hy; exact huniq y (by simp [hy])

/-- Pointwise description of a column's result. -/
structure ColumnResult (el : ℕ → Elements) (nodes : List Node) (v w : ℕ → ℂ) : Prop where
  top : ∀ a ∈ nodes, w a.top = (el a.id).t11 * v a.top + (el a.id).t21 * v a.bottom
  bottom : ∀ a ∈ nodes, w a.bottom = (el a.id).t12 * v a.top + (el a.id).t22 * v a.bottom
  other : ∀ r, (∀ a ∈ nodes, r ≠ a.top ∧ r ≠ a.bottom) → w r = v r

theorem ColumnResult.unique {el : ℕ → Elements} {nodes : List Node} {v w w' : ℕ → ℂ}
    (h : ColumnResult el nodes v w) (h' : ColumnResult el nodes v w') : w = w' := by
  funext r
  by_cases hr : ∀ a ∈ nodes, r ≠ a.top ∧ r ≠ a.bottom
  · rw [h.other r hr, h'.other r hr]
  · push Not at hr
    obtain ⟨a, ha, hab⟩ := hr
    by_cases ht : r = a.top
    · subst ht; rw [h.top a ha, h'.top a ha]
    · rw [hab ht, h.bottom a ha, h'.bottom a ha]

/-- The nodes of one column: rails are different within each node and between nodes. -/
structure GoodColumn (nodes : List Node) : Prop where
  ne : ∀ a ∈ nodes, a.top ≠ a.bottom
  pw : nodes.Pairwise RailDisjoint

theorem GoodColumn.eq_of {nodes : List Node} (h : GoodColumn nodes) {a b : Node} (ha : a ∈ nodes)
    (hb : b ∈ nodes) (hr : a.top = b.top ∨ a.top = b.bottom ∨ a.bottom = b.top ∨
      a.bottom = b.bottom) : a = b := by
  by_contra hne
  have hsymm : Std.Symm RailDisjoint := ⟨fun x y h => h.symm⟩
  have := h.pw.forall ha hb hne
  obtain ⟨h1, h2, h3, h4⟩ := this
  tauto

theorem GoodColumn.perm {l l' : List Node} (h : GoodColumn l) (p : l.Perm l') : GoodColumn l' :=
  ⟨fun a ha => h.ne a (p.mem_iff.2 ha), List.Perm.pairwise p h.pw (fun h => h.symm)⟩

theorem columnWrites_unique {el : ℕ → Elements} {nodes : List Node} (h : GoodColumn nodes)
    (v : ℕ → ℂ) {r : ℕ} {x y : ℂ} (hx : (r, x) ∈ columnWrites el nodes v)
    (hy : (r, y) ∈ columnWrites el nodes v) : y = x := by
  simp only [columnWrites, List.mem_append, List.mem_map, Prod.mk.injEq] at hx hy
  rcases hx with ⟨a, ha, h1, rfl⟩ | ⟨a, ha, h1, rfl⟩ <;>
    rcases hy with ⟨b, hb, h2, rfl⟩ | ⟨b, hb, h2, rfl⟩ <;> subst h1
  · rw [h.eq_of hb ha (Or.inl h2)]
  · have := h.eq_of hb ha (Or.inr (Or.inr (Or.inl h2)))
    subst this; exact absurd h2.symm (h.ne b ha)
  · have := h.eq_of hb ha (Or.inr (Or.inl h2))
    subst this; exact absurd h2 (h.ne b ha)
  · rw [h.eq_of hb ha (Or.inr (Or.inr (Or.inr h2)))]

theorem parallelTransform_result {el : ℕ → Elements} {nodes : List Node} (h : GoodColumn nodes)
    (v : ℕ → ℂ) : ColumnResult el nodes v (parallelTransform el nodes v) where
  top a ha := by
    have hm : (a.top, (el a.id).t11 * v a.top + (el a.id).t21 * v a.bottom) ∈
        columnWrites el nodes v := List.mem_append_left _ (List.mem_map_of_mem ha)
    exact scatter_mem _ _ _ _ hm (fun y hy => columnWrites_unique h v hm hy)
  bottom a ha := by
    have hm : (a.bottom, (el a.id).t12 * v a.top + (el a.id).t22 * v a.bottom) ∈
        columnWrites el nodes v := List.mem_append_right _ (List.mem_map_of_mem ha)
    exact scatter_mem _ _ _ _ hm (fun y hy => columnWrites_unique h v hm hy)
  other r hr := by
    apply scatter_not_mem
    intro p hp
    simp only [columnWrites, List.mem_append, List.mem_map] at hp
    rcases hp with ⟨a, ha, rfl⟩ | ⟨a, ha, rfl⟩
    · exact (hr a ha).1.symm
    · exact (hr a ha).2.symm

theorem seqApply_result {el : ℕ → Elements} {nodes : List Node} (h : GoodColumn nodes)
    (v : ℕ → ℂ) : ColumnResult el nodes v (seqApply el nodes v) := by
  unfold seqApply
  induction nodes generalizing v with
  | nil => exact ⟨by simp, by simp, by simp⟩
  | cons a l ih =>
    have hl : GoodColumn l := ⟨fun b hb => h.ne b (by simp [hb]), (List.pairwise_cons.1 h.pw).2⟩
    have hd := (List.pairwise_cons.1 h.pw).1
    have hne := h.ne a (by simp)
    have R := ih hl (nodeAct (el a.id) a.top a.bottom v)
    rw [List.foldl_cons]
    have hat : ∀ b ∈ l, a.top ≠ b.top ∧ a.top ≠ b.bottom := fun b hb => ⟨(hd b hb).1, (hd b hb).2.1⟩
    have hab : ∀ b ∈ l, a.bottom ≠ b.top ∧ a.bottom ≠ b.bottom :=
      fun b hb => ⟨(hd b hb).2.2.1, (hd b hb).2.2.2⟩
    refine ⟨?_, ?_, ?_⟩
    · intro b hb
      rcases List.mem_cons.1 hb with rfl | hb
      · rw [R.other _ hat]; simp [nodeAct]
      · rw [R.top b hb]
        have := hat b hb; have := hab b hb
        simp [nodeAct, (hat b hb).1.symm, (hat b hb).2.symm, (hab b hb).1.symm, (hab b hb).2.symm]
    · intro b hb
      rcases List.mem_cons.1 hb with rfl | hb
      · rw [R.other _ hab]; simp [nodeAct, hne.symm]
      · rw [R.bottom b hb]
        simp [nodeAct, (hat b hb).1.symm, (hat b hb).2.symm, (hab b hb).1.symm, (hab b hb).2.symm]
    · intro r hr
      rw [R.other r (fun b hb => hr b (by simp [hb]))]
      have := hr a (by simp)
      simp [nodeAct, this.1, this.2]

theorem parallelTransform_eq_seq {el : ℕ → Elements} {nodes : List Node} (h : GoodColumn nodes)
    (v : ℕ → ℂ) : parallelTransform el nodes v = seqApply el nodes v :=
  (parallelTransform_result h v).unique (seqApply_result h v)

theorem parallelTransform_perm {el : ℕ → Elements} {l l' : List Node} (h : GoodColumn l)
    (p : l.Perm l') (v : ℕ → ℂ) : parallelTransform el l v = parallelTransform el l' v := by
  have h1 := parallelTransform_result (el := el) h v
  have h2 := parallelTransform_result (el := el) (h.perm p) v
  exact h1.unique ⟨fun a ha => h2.top a (p.mem_iff.1 ha), fun a ha => h2.bottom a (p.mem_iff.1 ha),
    fun r hr => h2.other r (fun a ha => hr a (p.mem_iff.2 ha))⟩

theorem Mesh.WellFormed.goodColumn {n : ℕ} {M : Mesh} (h : M.WellFormed n) (k : ℕ) :
    GoodColumn (columnNodes M.nodes k) :=
  ⟨fun a ha => (h.rails a (mem_columnNodes.1 ha).1).2.2, h.disjoint.column k⟩

/-- The nodes in the order visited. -/
def visitOrder (nodes : List Node) (back : Bool) : List Node :=
  (columnOrder nodes back).flatMap (columnNodes nodes)

theorem visitOrder_false (nodes : List Node) : visitOrder nodes false = executionOrder nodes := rfl

theorem mem_visitOrder {nodes : List Node} {back : Bool} {a : Node} :
    a ∈ visitOrder nodes back ↔ a ∈ nodes := by
  cases back
  · rw [visitOrder_false, mem_executionOrder]
  · simp only [visitOrder, columnOrder, if_true, List.mem_flatMap, List.mem_reverse,
      List.mem_range, mem_columnNodes]
    constructor
    · rintro ⟨k, _, h, _⟩; exact h
    · intro h; exact ⟨a.column, column_lt_numColumns h, h, rfl⟩

theorem columnsApply_eq_seq {el : ℕ → Elements} {nodes : List Node}
    (h : ∀ k, GoodColumn (columnNodes nodes k)) (cols : List ℕ) (v : ℕ → ℂ) :
    columnsApply el nodes cols v = seqApply el (cols.flatMap (columnNodes nodes)) v := by
  unfold columnsApply seqApply
  induction cols generalizing v with
  | nil => rfl
  | cons k ks ih =>
    rw [List.foldl_cons, ih, List.flatMap_cons, List.foldl_append, parallelTransform_eq_seq (h k)]
    rfl

/-! ### Restriction to `n` rails -/

/-- The first `n` rails of a field. -/
def restrict (n : ℕ) (v : ℕ → ℂ) : Fin n → ℂ := fun i => v i.val

theorem restrict_nodeAct {n : ℕ} (m : Elements) {t b : ℕ} (ht : t < n) (hb : b < n) (hne : t ≠ b)
    (v : ℕ → ℂ) :
    restrict n (nodeAct m t b v) = (embed2 n t b m.mat).mulVec (restrict n v) := by
  funext a
  rw [embed2_mulVec ht hb hne]
  simp only [restrict, nodeAct, Elements.mat, Matrix.of_apply, cons_val', cons_val_zero,
    cons_val_one, empty_val', cons_val_fin_one, Fin.isValue]

theorem restrict_seqApply {n : ℕ} {el : ℕ → Elements} (nodes : List Node)
    (h : ∀ a ∈ nodes, a.top < n ∧ a.bottom < n ∧ a.top ≠ a.bottom) (v : ℕ → ℂ) :
    restrict n (seqApply el nodes v) =
      ((nodes.map fun a => embed2 n a.top a.bottom (el a.id).mat).reverse.prod).mulVec
        (restrict n v) := by
  unfold seqApply
  induction nodes generalizing v with
  | nil => simp
  | cons a l ih =>
    have ha := h a (by simp)
    rw [List.foldl_cons, ih (fun b hb => h b (by simp [hb])), restrict_nodeAct _ ha.1 ha.2.1 ha.2.2,
      mulVec_mulVec]
    simp

theorem restrict_gamma (n : ℕ) (g : ℕ → ℝ) (v : ℕ → ℂ) :
    restrict n (gammaApply g v) =
      (diagonal fun i : Fin n => exp (I * g i.val)).mulVec (restrict n v) := by
  funext a; rw [mulVec_diagonal]; rfl

/-- Product of the embedded node blocks in visiting order (first visited node rightmost). -/
noncomputable def blockProduct (n : ℕ) (el : ℕ → Elements) (nodes : List Node) :
    Matrix (Fin n) (Fin n) ℂ :=
  (nodes.map fun a => embed2 n a.top a.bottom (el a.id).mat).reverse.prod

theorem Mesh.restrict_apply {n : ℕ} {M : Mesh} (h : M.WellFormed n) (P : Params) (back : Bool)
    (v : ℕ → ℂ) :
    restrict n (M.apply P back v) =
      (if back then blockProduct n (M.elements P true) (visitOrder M.nodes true) *
          (diagonal fun i : Fin n => exp (I * P.gammas i.val))
        else (diagonal fun i : Fin n => exp (I * P.gammas i.val)) *
          blockProduct n (M.elements P false) (visitOrder M.nodes false)).mulVec (restrict n v) := by
  have hr : ∀ back, ∀ a ∈ visitOrder M.nodes back, a.top < n ∧ a.bottom < n ∧ a.top ≠ a.bottom :=
    fun back a ha => h.rails a (mem_visitOrder.1 ha)
  cases back
  · simp only [Mesh.apply, Bool.false_eq_true, if_false]
    rw [restrict_gamma, columnsApply_eq_seq h.goodColumn,
      show (columnOrder M.nodes false).flatMap (columnNodes M.nodes) = visitOrder M.nodes false from rfl]
    rw [restrict_seqApply _ (hr false), mulVec_mulVec]
    rfl
  · simp only [Mesh.apply, if_true]
    rw [columnsApply_eq_seq h.goodColumn,
      show (columnOrder M.nodes true).flatMap (columnNodes M.nodes) = visitOrder M.nodes true from rfl]
    rw [restrict_seqApply _ (hr true), restrict_gamma, mulVec_mulVec]
    rfl

theorem restrict_basis (n : ℕ) (j : Fin n) :
    restrict n (fun r => if r = j.val then 1 else 0) = Pi.single j 1 := by
  funext i
  simp only [restrict, Pi.single_apply, Fin.ext_iff]

theorem Mesh.matrix_eq {n : ℕ} {M : Mesh} (h : M.WellFormed n) (P : Params) (back : Bool) :
    M.matrix n P back =
      if back then blockProduct n (M.elements P true) (visitOrder M.nodes true) *
          (diagonal fun i : Fin n => exp (I * P.gammas i.val))
        else (diagonal fun i : Fin n => exp (I * P.gammas i.val)) *
          blockProduct n (M.elements P false) (visitOrder M.nodes false) := by
  ext i j
  have := congrFun (Mesh.restrict_apply h P back (fun r => if r = j.val then 1 else 0)) i
  rw [restrict_basis, mulVec_single_one] at this
  exact this

/-- The matrix acts on every input vector as the mesh does. -/
theorem Mesh.matrix_mulVec {n : ℕ} {M : Mesh} (h : M.WellFormed n) (P : Params) (back : Bool)
    (v : ℕ → ℂ) : (M.matrix n P back).mulVec (restrict n v) = restrict n (M.apply P back v) := by
  rw [Mesh.matrix_eq h, Mesh.restrict_apply h]

theorem norm_exp_I (x : ℝ) : ‖exp (I * x)‖ = 1 := by rw [mul_comm, norm_exp_ofReal_mul_I]

theorem gamma_unitary (n : ℕ) (g : ℕ → ℝ) :
    (diagonal fun i : Fin n => exp (I * g i.val)) ∈ unitaryGroup (Fin n) ℂ :=
  diagonal_unitary fun _ => norm_exp_I _

theorem blockProduct_unitary {n : ℕ} {el : ℕ → Elements} {nodes : List Node}
    (hr : ∀ a ∈ nodes, a.top < n ∧ a.bottom < n ∧ a.top ≠ a.bottom)
    (hel : ∀ a ∈ nodes, (el a.id).mat ∈ unitaryGroup (Fin 2) ℂ) :
    blockProduct n el nodes ∈ unitaryGroup (Fin n) ℂ := by
  apply list_prod_mem
  intro A hA
  simp only [List.mem_reverse, List.mem_map] at hA
  obtain ⟨a, ha, rfl⟩ := hA
  have := hr a ha
  exact embed2_unitary this.1 this.2.1 this.2.2 (hel a ha)

theorem blockProduct_passive {n : ℕ} {el : ℕ → Elements} {nodes : List Node}
    (hr : ∀ a ∈ nodes, a.top < n ∧ a.bottom < n ∧ a.top ≠ a.bottom)
    (hel : ∀ a ∈ nodes, Passive (el a.id).mat) :
    Passive (blockProduct n el nodes) := by
  unfold blockProduct
  have : ∀ l : List (Matrix (Fin n) (Fin n) ℂ), (∀ A ∈ l, Passive A) → Passive l.prod := by
    intro l hl
    induction l with
    | nil => exact Passive.one
    | cons A l ih =>
      rw [List.prod_cons]
      exact (hl A (by simp)).mul (ih fun B hB => hl B (by simp [hB]))
  apply this
  intro A hA
  simp only [List.mem_reverse, List.mem_map] at hA
  obtain ⟨a, ha, rfl⟩ := hA
  have := hr a ha
  exact embed2_passive this.1 this.2.1 this.2.2 (hel a ha)

theorem Mesh.Lossless.getD {M : Mesh} (h : M.Lossless) (k : ℕ) : M.losses.getD k (0, 0) = (0, 0) := by
  by_cases hk : k < M.losses.length
  · simpa [List.getD_eq_getElem?_getD, hk] using h _ (List.getElem_mem hk)
  · simp [List.getD_eq_getElem?_getD, hk]

theorem Mesh.elements_unitary {M : Mesh} (h : M.Lossless) (P : Params) (back : Bool) (k : ℕ) :
    (M.elements P back k).mat ∈ unitaryGroup (Fin 2) ℂ := by
  unfold Mesh.elements
  rw [h.getD]
  exact mziElements_unitary _ _ _ _ _ _

end Simphox
