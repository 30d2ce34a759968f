import Verif.MeshProps

/-! # When is a mesh reciprocal? (exact condition for C08) -/

namespace Simphox

open Matrix Complex

theorem cs_sub_sc (el er : ℝ) : (mziTerms el er).cs - (mziTerms el er).sc = Real.sin (el - er) := by
  have : el - er = (Real.pi / 4 + el) - (Real.pi / 4 + er) := by ring
  rw [this, Real.sin_sub]
  simp only [mziTerms]
  ring

theorem embed2_inj {n i j : ℕ} (hi : i < n) (hj : j < n) (hij : i ≠ j) {m m' : Matrix (Fin 2) (Fin 2) ℂ}
    (h : embed2 n i j m = embed2 n i j m') : m = m' := by
  have e : ∀ (a b : Fin n), embed2 n i j m a b = embed2 n i j m' a b := fun a b => by rw [h]
  have h00 := e ⟨i, hi⟩ ⟨i, hi⟩
  have h01 := e ⟨i, hi⟩ ⟨j, hj⟩
  have h10 := e ⟨j, hj⟩ ⟨i, hi⟩
  have h11 := e ⟨j, hj⟩ ⟨j, hj⟩
  simp only [embed2, of_apply, hij, hij.symm, if_true, if_false, and_true, and_false, and_self] at h00 h01 h10 h11
  ext a b
  fin_cases a <;> fin_cases b
  · exact h00
  · exact h01
  · exact h10
  · exact h11

/-- Two products of blocks that agree except at one node agree at that node. -/
theorem blockProduct_isolate {n : ℕ} {el el' : ℕ → Elements} {L : List Node} {a : Node} (ha : a ∈ L)
    (hid : (L.map Node.id).Nodup) (hel : ∀ b ∈ L, b.id ≠ a.id → el b.id = el' b.id)
    (hu : ∀ b ∈ L, IsUnit (embed2 n b.top b.bottom (el b.id).mat))
    (h : blockProduct n el L = blockProduct n el' L) :
    embed2 n a.top a.bottom (el a.id).mat = embed2 n a.top a.bottom (el' a.id).mat := by
  obtain ⟨A, B, rfl⟩ := List.append_of_mem ha
  have hA : ∀ b ∈ A, b.id ≠ a.id := by
    intro b hb e
    rw [List.map_append, List.map_cons, List.nodup_append] at hid
    exact hid.2.2 b.id (List.mem_map_of_mem hb) a.id (by simp) e
  have hB : ∀ b ∈ B, b.id ≠ a.id := by
    intro b hb e
    rw [List.map_append, List.map_cons, List.nodup_append] at hid
    have := (List.nodup_cons.1 hid.2.1).1
    exact this (by rw [← e]; exact List.mem_map_of_mem hb)
  have same : ∀ l : List Node, (∀ b ∈ l, b ∈ A ++ a :: B ∧ b.id ≠ a.id) → blockProduct n el l = blockProduct n el' l := by
    intro l hl
    unfold blockProduct
    congr 2
    apply List.map_congr_left
    intro b hb
    rw [hel b (hl b hb).1 (hl b hb).2]
  have unit : ∀ l : List Node, (∀ b ∈ l, b ∈ A ++ a :: B) → IsUnit (blockProduct n el l) := by
    intro l hl
    have key : ∀ l : List (Matrix (Fin n) (Fin n) ℂ), (∀ x ∈ l, IsUnit x) → IsUnit l.prod := by
      intro l
      induction l with
      | nil => intro _; simp
      | cons x l ih =>
        intro hx
        rw [List.prod_cons]
        exact (hx x (by simp)).mul (ih fun y hy => hx y (by simp [hy]))
    unfold blockProduct
    apply key
    intro x hx
    rw [List.mem_reverse, List.mem_map] at hx
    obtain ⟨b, hb, rfl⟩ := hx
    exact hu b (hl b hb)
  have split : ∀ e : ℕ → Elements, blockProduct n e (A ++ a :: B) =
      blockProduct n e B * (embed2 n a.top a.bottom (e a.id).mat * blockProduct n e A) := by
    intro e
    simp [blockProduct]
  rw [split, split, same A fun b hb => ⟨by simp [hb], hA b hb⟩, same B fun b hb => ⟨by simp [hb], hB b hb⟩] at h
  have uA := unit A fun b hb => by simp [hb]
  have uB := unit B fun b hb => by simp [hb]
  rw [same A fun b hb => ⟨by simp [hb], hA b hb⟩] at uA
  rw [same B fun b hb => ⟨by simp [hb], hB b hb⟩] at uB
  exact uA.mul_right_cancel (uB.mul_left_cancel h)

/-- The elements whose matrix is the transpose. -/
def Elements.swap (m : Elements) : Elements := ⟨m.t11, m.t21, m.t12, m.t22⟩

theorem Elements.swap_mat (m : Elements) : m.swap.mat = m.matᵀ := by
  ext i j; fin_cases i <;> fin_cases j <;> rfl

/-- Reciprocity of the mesh in terms of products over one order. -/
theorem reciprocal_iff_product (n : ℕ) (M : Mesh) (hM : M.WellFormed n) (P : Params) :
    M.matrix n P true = (M.matrix n P false)ᵀ ↔
      blockProduct n (M.elements P true) (visitOrder M.nodes true) =
        blockProduct n (fun k => (M.elements P false k).swap) (visitOrder M.nodes true) := by
  have hr : ∀ b, ∀ a ∈ visitOrder M.nodes b, a.top < n ∧ a.bottom < n ∧ a.top ≠ a.bottom :=
    fun b a ha => hM.rails a (mem_visitOrder.1 ha)
  rw [Mesh.matrix_eq hM, Mesh.matrix_eq hM]
  simp only [if_true, Bool.false_eq_true, if_false, transpose_mul, diagonal_transpose]
  rw [blockProduct_transpose (el' := fun k => (M.elements P false k).swap) _ (fun a ha => (hr _ a ha).2.2)
    (fun a _ => Elements.swap_mat _)]
  have hrev : blockProduct n (fun k => (M.elements P false k).swap) (visitOrder M.nodes false).reverse =
      blockProduct n (fun k => (M.elements P false k).swap) (visitOrder M.nodes true) := by
    symm
    apply blockProduct_eq_of_seq (hr true)
    · intro a ha; exact hr false a (List.mem_reverse.1 ha)
    · intro v
      have : (visitOrder M.nodes false).reverse =
          (columnOrder M.nodes true).flatMap (fun k => (columnNodes M.nodes k).reverse) := by
        simp only [visitOrder, columnOrder, if_true, Bool.false_eq_true, if_false, List.reverse_flatMap]
        rfl
      rw [this]
      exact seqApply_flatMap_perm hM.goodColumn (fun k => (List.reverse_perm _).symm) _ v
  rw [hrev]
  constructor
  · intro h
    have hu : IsUnit (diagonal fun i : Fin n => exp (I * P.gammas i.val)) := by
      rw [Matrix.isUnit_iff_isUnit_det, det_diagonal, isUnit_iff_ne_zero, Finset.prod_ne_zero_iff]
      intro i _; exact exp_ne_zero _
    exact hu.mul_right_cancel h
  · intro h; rw [h]

/-- At `theta = phi = 0` every lossless node is reciprocal. -/
theorem node_reciprocal_zero (s : PhaseStyle) (el er : ℝ) :
    mziElements s true el er 0 0 0 0 = (mziElements s false el er 0 0 0 0).swap := by
  cases s <;> simp [mziElements, Elements.swap, add_comm]

/-- Nodes with `sin (el - er) = 0` are reciprocal in every style but DIFFERENTIAL, also with losses. -/
theorem node_reciprocal {s : PhaseStyle} (hs : s ≠ .differential) {el er : ℝ} (h : Real.sin (el - er) = 0)
    (ll lr theta phi : ℝ) :
    mziElements s true el er ll lr theta phi = (mziElements s false el er ll lr theta phi).swap := by
  have hc : (mziTerms el er).cs = (mziTerms el er).sc := by
    have := cs_sub_sc el er; linarith
  cases s with
  | differential => exact absurd rfl hs
  | _ => simp [mziElements, Elements.swap, hc]

/-- A lossless node that is reciprocal at `theta = π` (`phi = 0` and `phi = π`) has `sin (el - er) = 0` and is not
DIFFERENTIAL. -/
theorem node_reciprocal_only {s : PhaseStyle} {el er : ℝ}
    (h0 : (mziElements s true el er 0 0 Real.pi 0).mat = (mziElements s false el er 0 0 Real.pi 0).swap.mat)
    (h1 : (mziElements s true el er 0 0 Real.pi Real.pi).mat = (mziElements s false el er 0 0 Real.pi Real.pi).swap.mat) :
    s ≠ .differential ∧ Real.sin (el - er) = 0 := by
  have he : exp (I * (Real.pi : ℂ)) = -1 := by rw [mul_comm]; exact exp_pi_mul_I
  have h2 : (mziElements s true el er 0 0 Real.pi 0).t12 = (mziElements s false el er 0 0 Real.pi 0).t21 :=
    congrFun (congrFun h0 1) 0
  have hsin : Real.sin (el - er) = 0 := by
    rw [← cs_sub_sc]
    have key : ∀ z : ℂ, z ≠ 0 → I * (((mziTerms el er).cs : ℂ) + (mziTerms el er).sc * (-1)) * z =
        I * (((mziTerms el er).sc : ℂ) + (mziTerms el er).cs * (-1)) * z →
        (mziTerms el er).cs - (mziTerms el er).sc = 0 := by
      intro z hz h
      have := mul_left_cancel₀ I_ne_zero (mul_right_cancel₀ hz h)
      have h3 : (mziTerms el er).cs + (mziTerms el er).sc * (-1) = (mziTerms el er).sc + (mziTerms el er).cs * (-1) := by
        exact_mod_cast this
      linarith
    have key' : ∀ z : ℂ, z ≠ 0 → I * (((mziTerms el er).cs : ℂ) * (-1) + (mziTerms el er).sc) * z =
        I * (((mziTerms el er).sc : ℂ) * (-1) + (mziTerms el er).cs) * z →
        (mziTerms el er).cs - (mziTerms el er).sc = 0 := by
      intro z hz h
      apply key z hz
      linear_combination -h
    cases s with
    | top =>
      apply key 1 one_ne_zero
      simpa [mziElements, he] using h2
    | bottom =>
      apply key' 1 one_ne_zero
      simpa [mziElements, he] using h2
    | symmetric =>
      apply key (exp (I * ((0 : ℝ) - Real.pi / 2) + ((Real.log 10 * 0 / 20 : ℝ) : ℂ))) (exp_ne_zero _)
      simpa [mziElements, he] using h2
    | differential =>
      apply key (exp (I * (-Real.pi / 2))) (exp_ne_zero _)
      simpa [mziElements, he] using h2
  refine ⟨?_, hsin⟩
  rintro rfl
  have h3 : (mziElements .differential true el er 0 0 Real.pi Real.pi).t11 =
      (mziElements .differential false el er 0 0 Real.pi Real.pi).t11 := congrFun (congrFun h1 0) 0
  have e1 : ((-(Real.pi : ℂ) - Real.pi) / 2 + Real.pi) = 0 := by ring
  have e2 : I * ((-(Real.pi : ℂ) - Real.pi) / 2) = -(I * Real.pi) := by ring
  have e3 : exp (-(I * (Real.pi : ℂ))) = -1 := by rw [exp_neg, he]; norm_num
  simp [mziElements, he, e1, e2, e3] at h3
  have h4 : (mziTerms el er).ss + (mziTerms el er).cc = 0 := by
    have : ((mziTerms el er).ss : ℂ) + (mziTerms el er).cc = 0 := by linear_combination (-1/2 : ℂ) * h3
    exact_mod_cast this
  have h5 : (mziTerms el er).ss + (mziTerms el er).cc = Real.cos (el - er) := by
    have : el - er = (Real.pi / 4 + el) - (Real.pi / 4 + er) := by ring
    rw [this, Real.cos_sub]
    simp only [mziTerms]
    ring
  have := Real.sin_sq_add_cos_sq (el - er)
  rw [hsin, ← h5, h4] at this
  norm_num at this

/-- C08, exactly: a lossless mesh whose nodes have their own phases (distinct ids) satisfies
`matrix(back=True) = matrix().T` at all phases iff its style is not DIFFERENTIAL and for every node the errors of
its two couplers differ by a multiple of `π` (or it has no nodes). -/
theorem C08_iff_partial (n : ℕ) (M : Mesh) (hM : M.WellFormed n) (hl : M.Lossless) (hid : (M.nodes.map Node.id).Nodup) :
    (∀ P, M.matrix n P true = (M.matrix n P false)ᵀ) ↔
      ∀ a ∈ M.nodes, M.style ≠ .differential ∧
        Real.sin ((M.errors.getD a.id (0, 0)).1 - (M.errors.getD a.id (0, 0)).2) = 0 := by
  have hel : ∀ P b k, M.elements P b k = mziElements M.style b (M.errors.getD k (0, 0)).1 (M.errors.getD k (0, 0)).2 0 0
      (P.thetas k) (P.phis k) := by
    intro P b k
    unfold Mesh.elements
    rw [hl.getD]
  constructor
  · intro h a ha
    have hperm : ((visitOrder M.nodes true).map Node.id).Nodup := by
      have hp : (visitOrder M.nodes true).Perm M.nodes := by
        refine List.Perm.trans ?_ (executionOrder_perm M.nodes)
        unfold visitOrder executionOrder columnOrder
        simp only [if_true]
        exact (List.reverse_perm _).flatMap_right _
      exact (hp.map _).nodup_iff.2 hid
    have main : ∀ phi : ℝ,
        (mziElements M.style true (M.errors.getD a.id (0, 0)).1 (M.errors.getD a.id (0, 0)).2 0 0 Real.pi phi).mat =
        (mziElements M.style false (M.errors.getD a.id (0, 0)).1 (M.errors.getD a.id (0, 0)).2 0 0 Real.pi phi).swap.mat := by
      intro phi
      have h1 := h ⟨fun k => if k = a.id then Real.pi else 0, fun k => if k = a.id then phi else 0, fun _ => 0⟩
      rw [reciprocal_iff_product n M hM] at h1
      have h2 := blockProduct_isolate (a := a) (mem_visitOrder.2 ha) hperm ?_ ?_ h1
      · have := embed2_inj (hM.rails a ha).1 (hM.rails a ha).2.1 (hM.rails a ha).2.2 h2
        rw [hel, hel] at this
        simpa using this
      · intro b hb hba
        rw [hel, hel]
        simp only [if_neg hba]
        exact node_reciprocal_zero _ _ _
      · intro b hb
        have hb' := mem_visitOrder.1 hb
        have := embed2_unitary (hM.rails b hb').1 (hM.rails b hb').2.1 (hM.rails b hb').2.2
          (Mesh.elements_unitary hl ⟨fun k => if k = a.id then Real.pi else 0, fun k => if k = a.id then phi else 0, fun _ => 0⟩ true b.id)
        rw [mem_unitaryGroup_iff] at this
        rw [Matrix.isUnit_iff_isUnit_det]
        exact Matrix.isUnit_det_of_right_inverse this
    exact node_reciprocal_only (main 0) (main Real.pi)
  · intro h P
    rw [reciprocal_iff_product n M hM]
    unfold blockProduct
    congr 2
    apply List.map_congr_left
    intro a ha
    obtain ⟨h1, h2⟩ := h a (mem_visitOrder.1 ha)
    unfold Mesh.elements
    rw [node_reciprocal h1 h2]

/-- Both sides occur: an ideal mesh is reciprocal, one with a single coupler error of `π / 4` is not. -/
example : (∀ P, (idealMesh (tree 4 4 true) .top).matrix 4 P true = ((idealMesh (tree 4 4 true) .top).matrix 4 P false)ᵀ) ∧
    ¬ ∀ P, (singleMesh .top (Real.pi / 4, 0) (0, 0)).matrix 2 P true =
      ((singleMesh .top (Real.pi / 4, 0) (0, 0)).matrix 2 P false)ᵀ := by
  constructor
  · intro P
    refine C08_reciprocity_partial 4 _ (tree_wellFormed 4 (by norm_num) _ _) (by simp [idealMesh]) ?_ P
    intro p hp
    simp only [idealMesh, List.mem_map] at hp
    obtain ⟨_, _, rfl⟩ := hp; rfl
  · intro h
    exact C08_unequal_errors_counterexample (h _)

end Simphox
