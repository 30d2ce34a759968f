import Verif.VectorErrors

/-!
# Which vectors a vector unit with imperfect couplers can route (C174)

`vector_unit(v, bs_error_mean_std=...)` (vector.py:163-186) for a vector `v` and arbitrary splitting errors,
one per node. A criterion in terms of the input alone: light from the rails of a node's top subtree must not
be more than the fraction `cos² 2x` of the light of all the rails below the node, `x` being the node's error.
-/

namespace Simphox

open Matrix Complex

/-! ### Specification -/

/-- First rail of the top subtree of `a`: the tree merges consecutive rails, `beta` of them into the top rail
of a node of the balanced tree (vector.py:43-49); in the linear chain all rails from 0 on (vector.py:36-39). -/
def firstInput (balanced : Bool) (a : Node) : ℕ := if balanced then a.top + 1 - a.beta else 0

/-- Power of `v` on the rails from `lo` to `hi`. -/
noncomputable def railPower (v : ℕ → ℂ) (lo hi : ℕ) : ℝ := ∑ r ∈ Finset.Icc lo hi, ‖v r‖ ^ 2

/-- The share of the power below `a` that arrives on its top rail is at most `cos² 2x`. -/
def ShareFits (balanced : Bool) (x : ℝ) (v : ℕ → ℂ) (a : Node) : Prop :=
  railPower v (firstInput balanced a) a.top ≤ Real.cos (2 * x) ^ 2 * railPower v (firstInput balanced a) a.bottom

/-! ### Power bookkeeping -/

theorem pair_power {m : Elements} (hm : m.mat ∈ unitaryGroup (Fin 2) ℂ) (x y : ℂ) :
    ‖m.t11 * x + m.t21 * y‖ ^ 2 + ‖m.t12 * x + m.t22 * y‖ ^ 2 = ‖x‖ ^ 2 + ‖y‖ ^ 2 := by
  have := unitary_power hm ![x, y]
  simpa [Fin.sum_univ_two, Elements.mat, Matrix.mulVec, dotProduct] using this

theorem nodeAct_power_on {m : Elements} (hm : m.mat ∈ unitaryGroup (Fin 2) ℂ) {t b : ℕ} (hne : t ≠ b) (S : Finset ℕ)
    (hS : t ∈ S ↔ b ∈ S) (v : ℕ → ℂ) : ∑ r ∈ S, ‖nodeAct m t b v r‖ ^ 2 = ∑ r ∈ S, ‖v r‖ ^ 2 := by
  by_cases ht : t ∈ S
  · have hb := hS.1 ht
    have hb' : b ∈ S.erase t := Finset.mem_erase.2 ⟨hne.symm, hb⟩
    rw [← Finset.add_sum_erase S _ ht, ← Finset.add_sum_erase (S.erase t) _ hb',
      ← Finset.add_sum_erase S (fun r => ‖v r‖ ^ 2) ht, ← Finset.add_sum_erase (S.erase t) (fun r => ‖v r‖ ^ 2) hb',
      ← add_assoc, ← add_assoc]
    congr 1
    · simp only [nodeAct, if_true, hne.symm, if_false]
      exact pair_power hm _ _
    · apply Finset.sum_congr rfl
      intro r hr
      simp only [Finset.mem_erase] at hr
      simp [nodeAct, hr.1, hr.2.1]
  · have hb : b ∉ S := fun h => ht (hS.2 h)
    apply Finset.sum_congr rfl
    intro r hr
    have h1 : r ≠ t := fun h => ht (h ▸ hr)
    have h2 : r ≠ b := fun h => hb (h ▸ hr)
    simp [nodeAct, h1, h2]

theorem seqApply_power_on {el : ℕ → Elements} (l : List Node) (hel : ∀ a ∈ l, (el a.id).mat ∈ unitaryGroup (Fin 2) ℂ)
    (hne : ∀ a ∈ l, a.top ≠ a.bottom) (S : Finset ℕ) (hS : ∀ a ∈ l, a.top ∈ S ↔ a.bottom ∈ S) (v : ℕ → ℂ) :
    ∑ r ∈ S, ‖seqApply el l v r‖ ^ 2 = ∑ r ∈ S, ‖v r‖ ^ 2 := by
  induction l generalizing v with
  | nil => rfl
  | cons a l ih =>
    have : seqApply el (a :: l) v = seqApply el l (nodeAct (el a.id) a.top a.bottom v) := rfl
    rw [this, ih (fun b hb => hel b (by simp [hb])) (fun b hb => hne b (by simp [hb])) (fun b hb => hS b (by simp [hb])),
      nodeAct_power_on (hel a (by simp)) (hne a (by simp)) S (hS a (by simp))]

/-- The input intervals of the nodes are nested: see `laminar_tree`. -/
structure Laminar (nodes : List Node) (lo : Node → ℕ) : Prop where
  le : ∀ a ∈ nodes, lo a ≤ a.top ∧ a.top < a.bottom
  nest : ∀ a ∈ nodes, ∀ b ∈ nodes, b.column < a.column → (lo a ≤ b.top ∧ b.bottom ≤ a.top) ∨
    (a.top < b.top ∧ b.bottom ≤ a.bottom) ∨ b.bottom < lo a ∨ a.bottom < b.top
  fill : ∀ a ∈ nodes, ∀ r, lo a ≤ r → r < a.bottom → r ≠ a.top → ∃ b ∈ nodes, b.top = r ∧ b.column < a.column
  good : ∀ k, GoodColumn (columnNodes nodes k)
  dark : ∀ a ∈ nodes, ∀ b ∈ nodes, a.column < b.column → b.top ≠ a.top ∧ b.bottom ≠ a.top

theorem laminar_tree {n R : ℕ} (hn : 2 ≤ n) (balanced : Bool) : Laminar (tree n R balanced) (firstInput balanced) := by
  refine ⟨?_, ?_, ?_, tree_goodColumn hn balanced, tree_dark hn balanced⟩
  · intro a ha
    refine ⟨?_, (tree_rails hn balanced ha).1⟩
    cases balanced
    · simp [firstInput]
    · obtain ⟨x, hx, rfl⟩ := (mem_tree hn).1 ha
      obtain ⟨h1, -, -⟩ := treeBalanced_intervals R (List.range (n - 1)) 0 0 x hx
      have hb := treeBalanced_bounds R _ _ _ x hx
      simp only [firstInput, if_true]
      omega
  · intro a ha b hb hlt
    obtain ⟨x, hx, rfl⟩ := (mem_tree hn).1 ha
    obtain ⟨y, hy, rfl⟩ := (mem_tree hn).1 hb
    have h1 := preTree_column_le hn balanced hx
    have h2 := preTree_column_le hn balanced hy
    simp only at hlt
    have hne : y ≠ x := by rintro rfl; omega
    cases balanced
    · obtain ⟨i, hi, rfl⟩ := mem_treeChain.1 hx
      obtain ⟨j, hj, rfl⟩ := mem_treeChain.1 hy
      simp only [chainNode, firstInput, Bool.false_eq_true, if_false] at *
      omega
    · obtain ⟨-, h3, -⟩ := treeBalanced_intervals R (List.range (n - 1)) 0 0 x hx
      simp only [firstInput, if_true]
      exact h3 y hy hne (by omega)
  · intro a ha r h1 h2 h3
    obtain ⟨x, hx, rfl⟩ := (mem_tree hn).1 ha
    have h4 := preTree_column_le hn balanced hx
    have h5 := preTree_bounds balanced hx
    cases balanced
    · obtain ⟨i, hi, rfl⟩ := mem_treeChain.1 hx
      simp only [chainNode, firstInput, treeDepth, Bool.false_eq_true, if_false] at *
      refine ⟨_, (mem_tree hn).2 ⟨_, mem_treeChain.2 ⟨r, by omega, rfl⟩, rfl⟩, rfl, ?_⟩
      simp only [chainNode, treeDepth, Bool.false_eq_true, if_false]
      omega
    · obtain ⟨-, -, h6⟩ := treeBalanced_intervals R (List.range (n - 1)) 0 0 x hx
      simp only [firstInput, if_true] at h1 h2 h3
      obtain ⟨b, hb, hbr, hbc⟩ := h6 r h1 h2 h3
      refine ⟨_, (mem_tree hn).2 ⟨b, hb, rfl⟩, hbr, ?_⟩
      have := preTree_column_le hn true hb
      simp only at this h4 ⊢
      omega

theorem columnsApply_power_on {el : ℕ → Elements} {nodes : List Node} {lo : Node → ℕ} (L : Laminar nodes lo)
    (hel : ∀ a ∈ nodes, (el a.id).mat ∈ unitaryGroup (Fin 2) ℂ) (K : ℕ) (S : Finset ℕ)
    (hS : ∀ b ∈ nodes, b.column < K → (b.top ∈ S ↔ b.bottom ∈ S)) (v : ℕ → ℂ) :
    ∑ r ∈ S, ‖columnsApply el nodes (List.range K) v r‖ ^ 2 = ∑ r ∈ S, ‖v r‖ ^ 2 := by
  rw [columnsApply_eq_seq L.good]
  have hm : ∀ a ∈ (List.range K).flatMap (columnNodes nodes), a ∈ nodes ∧ a.column < K := by
    intro a ha
    obtain ⟨k, hk, ha⟩ := List.mem_flatMap.1 ha
    obtain ⟨h1, h2⟩ := mem_columnNodes.1 ha
    rw [List.mem_range] at hk
    exact ⟨h1, by omega⟩
  exact seqApply_power_on _ (fun a ha => hel a (hm a ha).1) (fun a ha => by have := L.le a (hm a ha).1; omega) S
    (fun a ha => hS a (hm a ha).1 (hm a ha).2) v

/-- What enters a node when everything before it is dark. -/
theorem entering_power {el : ℕ → Elements} {nodes : List Node} {lo : Node → ℕ} (L : Laminar nodes lo)
    (hel : ∀ a ∈ nodes, (el a.id).mat ∈ unitaryGroup (Fin 2) ℂ) (v : ℕ → ℂ) {a : Node} (ha : a ∈ nodes)
    (hd : ∀ b ∈ nodes, b.column < a.column → columnsApply el nodes (List.range a.column) v b.top = 0) :
    ‖columnsApply el nodes (List.range a.column) v a.top‖ ^ 2 = railPower v (lo a) a.top ∧
    ‖columnsApply el nodes (List.range a.column) v a.top‖ ^ 2 + ‖columnsApply el nodes (List.range a.column) v a.bottom‖ ^ 2 =
      railPower v (lo a) a.bottom := by
  obtain ⟨l1, l2⟩ := L.le a ha
  set x := columnsApply el nodes (List.range a.column) v with hx
  have hzero : ∀ r, lo a ≤ r → r < a.bottom → r ≠ a.top → x r = 0 := by
    intro r h1 h2 h3
    obtain ⟨b, hb, rfl, hc⟩ := L.fill a ha r h1 h2 h3
    exact hd b hb hc
  constructor
  · have := columnsApply_power_on L hel a.column (Finset.Icc (lo a) a.top) (by
      intro b hb hc
      have h1 := L.nest a ha b hb hc
      have h2 := L.le b hb
      simp only [Finset.mem_Icc]
      omega) v
    rw [← hx, Finset.sum_eq_single a.top] at this
    · exact this
    · intro r hr hne
      rw [Finset.mem_Icc] at hr
      rw [hzero r hr.1 (by omega) hne]; simp
    · intro h
      exact absurd (Finset.mem_Icc.2 ⟨l1, le_rfl⟩) h
  · have := columnsApply_power_on L hel a.column (Finset.Icc (lo a) a.bottom) (by
      intro b hb hc
      have h1 := L.nest a ha b hb hc
      have h2 := L.le b hb
      simp only [Finset.mem_Icc]
      omega) v
    rw [← hx, Finset.sum_eq_add (a := a.top) (b := a.bottom) (by omega)] at this
    · exact this
    · intro r hr hne
      rw [Finset.mem_Icc] at hr
      rw [hzero r hr.1 (by omega) hne.1]; simp
    · intro h
      exact absurd (Finset.mem_Icc.2 ⟨l1, l2.le⟩) h
    · intro h
      exact absurd (Finset.mem_Icc.2 ⟨by omega, le_rfl⟩) h

theorem columnsApply_top_after {el : ℕ → Elements} {nodes : List Node} {lo : Node → ℕ} (L : Laminar nodes lo)
    (v : ℕ → ℂ) {a : Node} (ha : a ∈ nodes) {K : ℕ} (hK : a.column < K) :
    columnsApply el nodes (List.range K) v a.top = columnsApply el nodes (List.range (a.column + 1)) v a.top := by
  induction K with
  | zero => omega
  | succ K ih =>
    rcases Nat.lt_succ_iff_lt_or_eq.1 hK with h | rfl
    · rw [← ih h]
      have : columnsApply el nodes (List.range (K + 1)) v =
          parallelTransform el (columnNodes nodes K) (columnsApply el nodes (List.range K) v) := by
        simp [columnsApply, List.range_succ]
      rw [this]
      apply (parallelTransform_result (L.good K) _).other
      intro b hb
      obtain ⟨hb, hbk⟩ := mem_columnNodes.1 hb
      have := L.dark a ha b hb (by omega)
      exact ⟨this.1.symm, this.2.symm⟩
    · rfl

theorem columnsApply_top_at {el : ℕ → Elements} {nodes : List Node} {lo : Node → ℕ} (L : Laminar nodes lo)
    (v : ℕ → ℂ) {a : Node} (ha : a ∈ nodes) :
    columnsApply el nodes (List.range (a.column + 1)) v a.top =
      (el a.id).t11 * columnsApply el nodes (List.range a.column) v a.top +
        (el a.id).t21 * columnsApply el nodes (List.range a.column) v a.bottom := by
  have : columnsApply el nodes (List.range (a.column + 1)) v =
      parallelTransform el (columnNodes nodes a.column) (columnsApply el nodes (List.range a.column) v) := by
    simp [columnsApply, List.range_succ]
  rw [this]
  exact (parallelTransform_result (L.good a.column) _).top a (mem_columnNodes.2 ⟨ha, rfl⟩)

theorem row_norm {m : Elements} (hm : m.mat ∈ unitaryGroup (Fin 2) ℂ) : ‖m.t11‖ ^ 2 + ‖m.t21‖ ^ 2 = 1 := by
  have h := congrFun (congrFun (mem_unitaryGroup_iff.1 hm) 0) 0
  simp only [Matrix.mul_apply, Fin.sum_univ_two, star_eq_conjTranspose, conjTranspose_apply, Elements.mat, Matrix.of_apply,
    cons_val_zero, cons_val_one, cons_val', cons_val_fin_one, RCLike.star_def, mul_conj, Matrix.one_apply_eq, Fin.isValue] at h
  have h' : normSq m.t11 + normSq m.t21 = 1 := by exact_mod_cast h
  rwa [normSq_eq_norm_sq, normSq_eq_norm_sq] at h'

/-- A node can only null what is at most the fraction `cos² 2x` of the power entering it. -/
theorem nulled_share {style : PhaseStyle} (hs : style = .top ∨ style = .bottom) (x theta phi : ℝ) (t b : ℂ)
    (h : (mziElements style false x x 0 0 theta phi).t11 * t + (mziElements style false x x 0 0 theta phi).t21 * b = 0) :
    ‖t‖ ^ 2 ≤ Real.cos (2 * x) ^ 2 * (‖t‖ ^ 2 + ‖b‖ ^ 2) := by
  set m := mziElements style false x x 0 0 theta phi with hm
  have h1 := row_norm (mziElements_unitary style false x x theta phi)
  rw [← hm] at h1
  have h2 : ‖m.t11‖ * ‖t‖ = ‖m.t21‖ * ‖b‖ := by
    rw [← norm_mul, ← norm_mul, eq_neg_of_add_eq_zero_left h, norm_neg]
  have h3 : ‖m.t11‖ ^ 2 * ‖t‖ ^ 2 = ‖m.t21‖ ^ 2 * ‖b‖ ^ 2 := by
    rw [← mul_pow, h2, mul_pow]
  have h4 : ‖t‖ ^ 2 = ‖m.t21‖ ^ 2 * (‖t‖ ^ 2 + ‖b‖ ^ 2) := by
    have : ‖m.t11‖ ^ 2 = 1 - ‖m.t21‖ ^ 2 := by linarith
    rw [this] at h3
    linarith
  have h5 : ‖m.t21‖ ^ 2 ≤ Real.cos (2 * x) ^ 2 := by
    rw [hm, elements_norm_t21 hs, norm_ampB_sq, ← four_cs_sq]
    nlinarith [Real.cos_le_one theta, sq_nonneg (mziTerms x x).cs]
  calc ‖t‖ ^ 2 = ‖m.t21‖ ^ 2 * (‖t‖ ^ 2 + ‖b‖ ^ 2) := h4
    _ ≤ _ := mul_le_mul_of_nonneg_right h5 (by positivity)

/-! ### The mesh and its programming -/

/-- The mesh of `vector_unit` with the splitting errors `errs` (in list order), without losses. -/
def vectorErrMesh (n : ℕ) (balanced : Bool) (errs : List ℝ) (style : PhaseStyle) : Mesh :=
  ⟨tree n n balanced, errs.map fun x => (x, x), (tree n n balanced).map fun _ => (0, 0), style⟩

theorem vectorErrMesh_elements {n : ℕ} (balanced : Bool) {errs : List ℝ} (hlen : errs.length = n - 1)
    (style : PhaseStyle) (P : Params) {k : ℕ} (hk : k < n - 1) :
    (vectorErrMesh n balanced errs style).elements P false k =
      mziElements style false (errs.getD k 0) (errs.getD k 0) 0 0 (P.thetas k) (P.phis k) := by
  simp [vectorErrMesh, Mesh.elements, List.getD_eq_getElem?_getD, hlen, hk, tree_length]

theorem tree_id_lt {n : ℕ} {balanced : Bool} {a : Node} (ha : a ∈ tree n n balanced) : a.id < n - 1 := by
  have : a.id ∈ (tree n n balanced).map Node.id := List.mem_map_of_mem ha
  rwa [(tree_ids n n balanced).mem_iff, List.mem_range] at this

/-- Dark outputs force every node to null its top rail. -/
theorem shares_of_dark {style : PhaseStyle} (hs : style = .top ∨ style = .bottom) {n : ℕ} (hn : 2 ≤ n) (balanced : Bool)
    {errs : List ℝ} (hlen : errs.length = n - 1) (v : ℕ → ℂ) (P : Params)
    (hd : ∀ r : Fin n, r.val + 1 < n → (((vectorErrMesh n balanced errs style).matrix n P false).mulVec (restrict n v)) r = 0) :
    ∀ a ∈ tree n n balanced, ShareFits balanced (errs.getD a.id 0) v a := by
  have L := laminar_tree (R := n) hn balanced
  set el := (vectorErrMesh n balanced errs style).elements P false with hel
  have hE : ∀ a ∈ tree n n balanced, el a.id = mziElements style false (errs.getD a.id 0) (errs.getD a.id 0) 0 0
      (P.thetas a.id) (P.phis a.id) := fun a ha => vectorErrMesh_elements balanced hlen style P (tree_id_lt ha)
  have hU : ∀ a ∈ tree n n balanced, (el a.id).mat ∈ unitaryGroup (Fin 2) ℂ := by
    intro a ha; rw [hE a ha]; exact mziElements_unitary _ _ _ _ _ _
  have hout : ∀ a ∈ tree n n balanced, columnsApply el (tree n n balanced) (List.range (a.column + 1)) v a.top = 0 := by
    intro a ha
    have hr := tree_rails hn balanced ha
    have h1 := hd ⟨a.top, by omega⟩ (by simp only; omega)
    rw [Mesh.matrix_mulVec (M := vectorErrMesh n balanced errs style) (errMesh_wellFormed hn balanced errs hlen style)] at h1
    have h2 : exp (I * P.gammas a.top) *
        columnsApply el (tree n n balanced) (List.range (numColumns (tree n n balanced))) v a.top = 0 := h1
    rw [mul_eq_zero, or_iff_right (exp_ne_zero _)] at h2
    rw [← columnsApply_top_after L v ha (column_lt_numColumns ha)]
    exact h2
  intro a ha
  have hdk : ∀ b ∈ tree n n balanced, b.column < a.column →
      columnsApply el (tree n n balanced) (List.range a.column) v b.top = 0 := by
    intro b hb hc
    rw [columnsApply_top_after L v hb hc]
    exact hout b hb
  obtain ⟨h1, h2⟩ := entering_power L hU v ha hdk
  have h3 := hout a ha
  rw [columnsApply_top_at L v ha, hE a ha] at h3
  have h4 := nulled_share hs _ _ _ _ _ h3
  rwa [h2, h1] at h4

theorem reach_run_dark {style : PhaseStyle} (hs : style = .top ∨ style = .bottom) {nodes : List Node} {lo : Node → ℕ}
    (L : Laminar nodes lo) (hid : (nodes.map Node.id).Nodup) (f : ℕ → ℝ) (he : ∀ a ∈ nodes, Real.cos (2 * f a.id) ≠ 0)
    (v : ℕ → ℂ)
    (hshare : ∀ a ∈ nodes, railPower v (lo a) a.top ≤ Real.cos (2 * f a.id) ^ 2 * railPower v (lo a) a.bottom) (K : ℕ) :
    ∀ st, nullLoopErr 0 style (fun a => f a.id) f 0 nodes (List.range K) ⟨fun r _ => v r, fun _ => 0, fun _ => 0⟩ = some st →
      (∀ a ∈ nodes, a.column < K → st.w a.top 0 = 0) ∧
      ∀ a ∈ nodes, a.column = K → directTransmissivity 0 (st.w a.top 0) (st.w a.bottom 0) ≤ Real.cos (2 * f a.id) ^ 2 := by
  have key : ∀ K st, nullLoopErr 0 style (fun a => f a.id) f 0 nodes (List.range K) ⟨fun r _ => v r, fun _ => 0, fun _ => 0⟩ = some st →
      (∀ a ∈ nodes, a.column < K → st.w a.top 0 = 0) →
      ∀ a ∈ nodes, a.column = K → directTransmissivity 0 (st.w a.top 0) (st.w a.bottom 0) ≤ Real.cos (2 * f a.id) ^ 2 := by
    intro K st hst hd a ha hK
    obtain ⟨st', h1, -, hw⟩ := nullLoopErr_spec hs 0 f 0 nodes hid (List.range K) List.nodup_range
      ⟨fun r _ => v r, fun _ => 0, fun _ => 0⟩
    rw [hst] at h1
    obtain rfl := Option.some.inj h1
    have hw0 : ∀ r, st.w r 0 = columnsApply (storedElementsErr style f st) nodes (List.range K) v r := fun r => congrFun (hw 0) r
    subst hK
    obtain ⟨h2, h3⟩ := entering_power (el := storedElementsErr style f st) L
      (fun b _ => mziElements_unitary _ _ _ _ _ _) v ha (by
        intro b hb hc; rw [← hw0]; exact hd b hb hc)
    rw [← hw0] at h2
    rw [← hw0, ← hw0] at h3
    have := hshare a ha
    rw [← h2, ← h3] at this
    unfold directTransmissivity
    rw [add_zero]
    exact div_le_of_le_mul₀ (by positivity) (by positivity) this
  induction K with
  | zero => exact fun st hst => ⟨fun a _ h => by omega, key 0 st hst fun a _ h => by omega⟩
  | succ K ih =>
    intro st hst
    have hdk : ∀ a ∈ nodes, a.column < K + 1 → st.w a.top 0 = 0 := by
      intro a ha hK
      rw [List.range_succ, nullLoopErr_append] at hst
      obtain ⟨st0, h0, h1⟩ := Option.bind_eq_some_iff.1 hst
      simp only [nullLoopErr, Option.bind_eq_bind, Option.bind_eq_some_iff, Option.some.injEq] at h1
      obtain ⟨st1, h1, rfl⟩ := h1
      obtain ⟨ihd, ihr⟩ := ih st0 h0
      have hidk : ((columnNodes nodes K).map Node.id).Nodup :=
        List.Nodup.sublist (List.Sublist.map _ List.filter_sublist) hid
      obtain ⟨st1', h1', _, hn, hw⟩ := nullColumnErr_spec hs 0 f 0 (columnNodes nodes K) hidk st0
      rw [h1'] at h1
      obtain rfl := Option.some.inj h1
      have hw' : st1'.w a.top 0 = _ := congrFun (hw 0) a.top
      have R := parallelTransform_result (el := storedElementsErr style f st1') (L.good K) (fun r => st0.w r 0)
      rcases Nat.lt_succ_iff_lt_or_eq.1 hK with hlt | heq
      · rw [hw', R.other]
        · exact ihd a ha hlt
        · intro b hb
          obtain ⟨hb', hbk⟩ := mem_columnNodes.1 hb
          have := L.dark a ha b hb' (by omega)
          exact ⟨this.1.symm, this.2.symm⟩
      · have hac : a ∈ columnNodes nodes K := mem_columnNodes.2 ⟨ha, heq⟩
        rw [hw', R.top a hac]
        have hph := hn a hac
        have hsel : storedElementsErr style f st1' a.id = mziElements style false (f a.id) (f a.id) 0 0
            (nodePhases 0 style (f a.id) 0 st0.w a).1 (nodePhases 0 style (f a.id) 0 st0.w a).2 := by
          unfold storedElementsErr
          rw [hph.1, hph.2, mziElements_modTwoPi style hs]; rfl
        rw [hsel]
        have hs' : style ≠ .symmetric := by rcases hs with rfl | rfl <;> simp
        have := nullify_residual style hs le_rfl (f a.id) (he a ha) _ _ (ihr a ha heq)
          (nodePhases_some hs' 0 (f a.id) 0 st0.w a)
        rw [Real.sqrt_zero] at this
        exact norm_le_zero_iff.1 this
    exact ⟨hdk, key _ st hst hdk⟩

theorem exact_of_routes {n : ℕ} {v out : Fin n → ℂ} (h : RoutesToLast n 0 v out) :
    out = fun r => if r.val + 1 = n then (Real.sqrt (∑ i, ‖v i‖ ^ 2) : ℂ) else 0 := by
  funext r
  by_cases hr : r.val + 1 = n
  · rw [if_pos hr]
    have hre := h.last_real r hr
    have h2 := h.last_le r hr
    have h3 := h.last_ge r hr
    simp only [mul_zero, sub_zero] at h3
    have : (out r).re = Real.sqrt (∑ i, ‖v i‖ ^ 2) := by
      rw [le_antisymm h3 h2, Real.sqrt_sq hre.2]
    apply Complex.ext
    · rw [this, ofReal_re]
    · rw [hre.1, ofReal_im]
  · rw [if_neg hr]
    have := h.dark r (by have := r.isLt; omega)
    rw [Real.sqrt_zero] at this
    exact norm_le_zero_iff.1 this

theorem errs_cos {n : ℕ} {balanced : Bool} {errs : List ℝ} (hlen : errs.length = n - 1)
    (hx : ∀ x ∈ errs, Real.cos (2 * x) ≠ 0) {a : Node} (ha : a ∈ tree n n balanced) : Real.cos (2 * errs.getD a.id 0) ≠ 0 := by
  apply hx
  have := tree_id_lt ha
  rw [List.getD_eq_getElem?_getD, List.getElem?_eq_getElem (by omega), Option.getD_some]
  exact List.getElem_mem _

/-- The programming run with matching tables, for a vector whose shares fit. -/
theorem run_routes {style : PhaseStyle} (hs : style = .top ∨ style = .bottom) {n : ℕ} (hn : 2 ≤ n) (balanced : Bool)
    {errs : List ℝ} (hlen : errs.length = n - 1) (hx : ∀ x ∈ errs, Real.cos (2 * x) ≠ 0) (v : ℕ → ℂ)
    (hsh : ∀ a ∈ tree n n balanced, ShareFits balanced (errs.getD a.id 0) v a) :
    ∃ st, nullLoopErr 0 style (fun a => errs.getD a.id 0) (fun k => errs.getD k 0) 0 (tree n n balanced)
        (List.range (numColumns (tree n n balanced))) ⟨fun r _ => v r, fun _ => 0, fun _ => 0⟩ = some st ∧
      ((vectorErrMesh n balanced errs style).matrix n
        ⟨st.thetas, st.phis, fun r => -arg ((if r = n - 1 then 1 else 0) * st.w (n - 1) 0)⟩ false).mulVec (restrict n v) =
        fun r => if r.val + 1 = n then (Real.sqrt (∑ i, ‖restrict n v i‖ ^ 2) : ℂ) else 0 := by
  have hid : ((tree n n balanced).map Node.id).Nodup := (tree_ids n n balanced).nodup_iff.2 List.nodup_range
  have L := laminar_tree (R := n) hn balanced
  obtain ⟨st, h1, h2, h3⟩ := nullLoopErr_spec hs 0 (fun k => errs.getD k 0) 0 (tree n n balanced) hid
    (List.range (numColumns (tree n n balanced))) List.nodup_range ⟨fun r _ => v r, fun _ => 0, fun _ => 0⟩
  refine ⟨st, h1, exact_of_routes ?_⟩
  have hwf : (vectorErrMesh n balanced errs style).WellFormed n := errMesh_wellFormed hn balanced errs hlen style
  have hout : ((vectorErrMesh n balanced errs style).matrix n
      ⟨st.thetas, st.phis, fun r => -arg ((if r = n - 1 then 1 else 0) * st.w (n - 1) 0)⟩ false).mulVec (restrict n v) =
      restrict n (gammaApply (fun r => -arg ((if r = n - 1 then 1 else 0) * st.w (n - 1) 0)) fun r => st.w r 0) := by
    rw [Mesh.matrix_mulVec hwf]
    simp only [Mesh.apply, Bool.false_eq_true, if_false]
    rw [columnsApply_eq_seq hwf.goodColumn, h3 0, columnsApply_eq_seq (fun k => tree_goodColumn hn balanced k)]
    congr 2
    refine seqApply_congr _ ?_ v
    intro a ha
    exact vectorErrMesh_elements balanced hlen style _ (tree_id_lt (mem_executionOrder.1 ha))
  apply routes_of_dark hn le_rfl _ _ (unitary_power (C06_lossless_unitary n _ hwf (errMesh_lossless _ _ _) _ false) _)
    ‖st.w (n - 1) 0‖ (norm_nonneg _)
  · intro r hr
    rw [hout]
    have : r.val = n - 1 := by omega
    simp only [restrict, gammaApply, this, if_true, one_mul]
    exact exp_neg_arg_mul _
  · intro r hr
    rw [hout]
    simp only [restrict, gammaApply, norm_mul, norm_exp_I, one_mul]
    have : r.val ∈ (tree n n balanced).map Node.top := (tree_tops n n balanced).mem_iff.2 (List.mem_range.2 (by omega))
    obtain ⟨a, ha, ha'⟩ := List.mem_map.1 this
    rw [← ha', (reach_run_dark hs L hid (fun k => errs.getD k 0) (fun a ha => errs_cos hlen hx ha) v hsh _ st h1).1 a ha
      (column_lt_numColumns ha)]
    simp

theorem errorMesh_eq (n : ℕ) (balanced : Bool) (e : ℝ) (style : PhaseStyle) :
    errorMesh (tree n n balanced) e style = vectorErrMesh n balanced (List.replicate (n - 1) e) style := by
  unfold errorMesh vectorErrMesh
  congr 1
  rw [List.map_replicate, ← tree_length n n balanced, List.map_const']

/-! ### C174 -/

/-- C174: for every vector, every list of splitting errors without fully unbalanced couplers (`cos 2x ≠ 0`), the
following are the same: some setting of the phases makes the unit's mesh send all of `v` to the last rail; and at every
node the share of the power on the top side fits, a condition on `v` and the errors alone. -/
theorem C174_routable_iff (style : PhaseStyle) (hs : style = .top ∨ style = .bottom) (n : ℕ) (hn : 2 ≤ n) (balanced : Bool)
    (errs : List ℝ) (hlen : errs.length = n - 1) (hx : ∀ x ∈ errs, Real.cos (2 * x) ≠ 0) (v : ℕ → ℂ) :
    (∃ P : Params, ∀ r : Fin n, r.val + 1 < n →
      (((vectorErrMesh n balanced errs style).matrix n P false).mulVec (restrict n v)) r = 0) ↔
    ∀ a ∈ tree n n balanced, ShareFits balanced (errs.getD a.id 0) v a := by
  constructor
  · rintro ⟨P, hP⟩
    exact shares_of_dark hs hn balanced hlen v P hP
  · intro h
    obtain ⟨st, -, h2⟩ := run_routes hs hn balanced hlen hx v h
    exact ⟨_, fun r hr => by rw [h2]; exact if_neg (by omega)⟩

/-- C174: `vector_unit` finds such a setting whenever there is one (the regulariser `np.spacing(1)` taken as 0), provided
the errors are stored in the order of the node ids: if any phases send all of `v` to the last rail, then the programmed
unit outputs exactly `‖v‖` on the last rail and nothing elsewhere. -/
theorem C174_programs_if_possible (style : PhaseStyle) (hs : style = .top ∨ style = .bottom) (n : ℕ) (hn : 2 ≤ n)
    (balanced : Bool) (errs : List ℝ) (hlen : errs.length = n - 1) (hx : ∀ x ∈ errs, Real.cos (2 * x) ≠ 0)
    (hmatch : TableMatches (tree n n balanced) errs) (v : ℕ → ℂ) (P : Params)
    (hP : ∀ r : Fin n, r.val + 1 < n →
      (((vectorErrMesh n balanced errs style).matrix n P false).mulVec (restrict n v)) r = 0) :
    ∃ P' w, vectorUnitErr 0 style errs n balanced v = some (vectorErrMesh n balanced errs style, P', w) ∧
      ((vectorErrMesh n balanced errs style).matrix n P' false).mulVec (restrict n v) =
        fun r => if r.val + 1 = n then (Real.sqrt (∑ i, ‖restrict n v i‖ ^ 2) : ℂ) else 0 := by
  obtain ⟨st, h1, h2⟩ := run_routes hs hn balanced hlen hx v (shares_of_dark hs hn balanced hlen v P hP)
  refine ⟨_, fun r => st.w r 0, ?_, h2⟩
  simp only [vectorUnitErr]
  rw [nullLoopErr_congr 0 style _ (fun a => errs.getD a.id 0) _ 0 _ hmatch, h1]
  rfl

/-- C174, equal errors, either layout: whenever some phases route `v`, the programmed ones do. -/
theorem C174_equal_errors (style : PhaseStyle) (hs : style = .top ∨ style = .bottom) (n : ℕ) (hn : 2 ≤ n) (balanced : Bool)
    (e : ℝ) (he : Real.cos (2 * e) ≠ 0) (v : ℕ → ℂ) (P : Params)
    (hP : ∀ r : Fin n, r.val + 1 < n →
      (((errorMesh (tree n n balanced) e style).matrix n P false).mulVec (restrict n v)) r = 0) :
    ∃ P' w, vectorUnit 0 style e n balanced v = some (errorMesh (tree n n balanced) e style, P', w) ∧
      ((errorMesh (tree n n balanced) e style).matrix n P' false).mulVec (restrict n v) =
        fun r => if r.val + 1 = n then (Real.sqrt (∑ i, ‖restrict n v i‖ ^ 2) : ℂ) else 0 := by
  rw [errorMesh_eq] at hP ⊢
  rw [← C167_equal_errors]
  exact C174_programs_if_possible style hs n hn balanced _ (by simp) (fun x hx => by
    rw [List.eq_of_mem_replicate hx]; exact he) (tableMatches_replicate n hn balanced e) v P hP

/-- C174, equal errors `e` everywhere (`bs_error_mean_std=(e, 0)`), linear chain: the unit routes `v` exactly iff every
rail after the first carries at least the fraction `sin² 2e` of the power on the rails up to it. -/
theorem C174_chain_criterion (style : PhaseStyle) (hs : style = .top ∨ style = .bottom) (n : ℕ) (hn : 2 ≤ n) (e : ℝ)
    (he : Real.cos (2 * e) ≠ 0) (v : ℕ → ℂ) :
    (∃ M P w, vectorUnit 0 style e n false v = some (M, P, w) ∧ (M.matrix n P false).mulVec (restrict n v) =
      fun r => if r.val + 1 = n then (Real.sqrt (∑ i, ‖restrict n v i‖ ^ 2) : ℂ) else 0) ↔
    ∀ r, 1 ≤ r → r < n → Real.sin (2 * e) ^ 2 * ∑ j ∈ Finset.range (r + 1), ‖v j‖ ^ 2 ≤ ‖v r‖ ^ 2 := by
  have hM : errorMesh (tree n n false) e style = vectorErrMesh n false (List.replicate (n - 1) e) style :=
    errorMesh_eq n false e style
  have hget : ∀ a ∈ tree n n false, (List.replicate (n - 1) e).getD a.id 0 = e := by
    intro a ha
    have := tree_id_lt ha
    simp [List.getD_eq_getElem?_getD, this]
  have hiff : (∃ M P w, vectorUnit 0 style e n false v = some (M, P, w) ∧ (M.matrix n P false).mulVec (restrict n v) =
      fun r => if r.val + 1 = n then (Real.sqrt (∑ i, ‖restrict n v i‖ ^ 2) : ℂ) else 0) ↔
      ∀ a ∈ tree n n false, ShareFits false e v a := by
    have h0 := C174_routable_iff style hs n hn false (List.replicate (n - 1) e) (by simp)
      (fun x hx => by rw [List.eq_of_mem_replicate hx]; exact he) v
    rw [forall₂_congr (fun a ha => by rw [hget a ha])] at h0
    rw [← h0]
    constructor
    · rintro ⟨M, P, w, h1, h2⟩
      have : M = errorMesh (tree n n false) e style := by
        simp only [vectorUnit, Option.bind_eq_bind, Option.bind_eq_some_iff, Option.some.injEq, Prod.mk.injEq] at h1
        obtain ⟨x, -, h, -⟩ := h1
        exact h.symm
      rw [this, hM] at h2
      exact ⟨P, fun r hr => by rw [h2]; exact if_neg (by omega)⟩
    · rintro ⟨P, hP⟩
      rw [← hM] at hP
      obtain ⟨P', w, h1, h2⟩ := C174_equal_errors style hs n hn false e he v P hP
      exact ⟨_, P', w, h1, h2⟩
  have hnode : ∀ r, ShareFits false e v (⟨r, r, r + 1, n, 1, n - r - 1, r⟩ : Node) ↔
      Real.sin (2 * e) ^ 2 * ∑ j ∈ Finset.range (r + 1 + 1), ‖v j‖ ^ 2 ≤ ‖v (r + 1)‖ ^ 2 := by
    intro r
    have hI : ∀ q, Finset.Icc 0 q = Finset.range (q + 1) := by
      intro q; ext x; simp only [Finset.mem_Icc, Finset.mem_range]; omega
    simp only [ShareFits, railPower, firstInput, Bool.false_eq_true, if_false, hI]
    rw [Finset.sum_range_succ _ (r + 1), Real.sin_sq]
    set A := ∑ j ∈ Finset.range (r + 1), ‖v j‖ ^ 2
    constructor <;> intro h <;> linarith
  have hshare : ∀ a : Node, ∀ r, a.top = r → a.bottom = r + 1 →
      (ShareFits false e v a ↔ ShareFits false e v (⟨r, r, r + 1, n, 1, n - r - 1, r⟩ : Node)) := by
    rintro a r rfl h
    simp only [ShareFits, firstInput, Bool.false_eq_true, if_false, h]
  rw [hiff]
  constructor
  · intro h r h1 h2
    obtain ⟨q, rfl⟩ : ∃ q, r = q + 1 := ⟨r - 1, by omega⟩
    rw [← hnode]
    refine (hshare _ q rfl rfl).1 (h _ ((mem_tree hn).2 ⟨chainNode n n q, mem_treeChain.2 ⟨q, by omega, rfl⟩, rfl⟩))
  · intro h a ha
    obtain ⟨x, hx, rfl⟩ := (mem_tree hn).1 ha
    obtain ⟨i, hi, rfl⟩ := mem_treeChain.1 hx
    exact (hshare _ i rfl rfl).2 ((hnode i).2 (h (i + 1) (by omega) (by omega)))

/-- Non-vacuity and failure side: with equal errors `e = π/12` (`sin² 2e = 1/4`) the chain routes `(1, 1, 1)` exactly but
no phases route `(1, 0, 1)`. -/
example : (∃ M P w, vectorUnit 0 .top (Real.pi / 12) 3 false (fun _ => 1) = some (M, P, w) ∧
      (M.matrix 3 P false).mulVec (restrict 3 fun _ => 1) =
        fun r => if r.val + 1 = 3 then (Real.sqrt (∑ i, ‖restrict 3 (fun _ => (1 : ℂ)) i‖ ^ 2) : ℂ) else 0) ∧
    ¬ ∃ P : Params, ∀ r : Fin 3, r.val + 1 < 3 → (((vectorErrMesh 3 false [Real.pi / 12, Real.pi / 12] .top).matrix 3 P
      false).mulVec (restrict 3 fun r => if r = 1 then 0 else 1)) r = 0 := by
  have hs2 : Real.sin (2 * (Real.pi / 12)) = 1 / 2 := by
    rw [show 2 * (Real.pi / 12) = Real.pi / 6 by ring, Real.sin_pi_div_six]
  have hc2 : Real.cos (2 * (Real.pi / 12)) ^ 2 = 3 / 4 := by rw [Real.cos_sq', hs2]; norm_num
  have hc : Real.cos (2 * (Real.pi / 12)) ≠ 0 := fun h => by rw [h] at hc2; norm_num at hc2
  constructor
  · rw [C174_chain_criterion .top (Or.inl rfl) 3 (by norm_num) _ hc]
    intro r h1 h2
    rw [hs2]
    obtain rfl | rfl : r = 1 ∨ r = 2 := by omega
    · simp; norm_num
    · simp; norm_num
  · rw [C174_routable_iff .top (Or.inl rfl) 3 (by norm_num) false _ rfl (by simp [hc])]
    intro h
    have h0 := h chainNode0 (by rw [chain3]; simp)
    have hI : Finset.Icc 0 1 = {0, 1} := by decide
    simp [ShareFits, railPower, firstInput, chainNode0, hI, hc2] at h0
    norm_num at h0

end Simphox
