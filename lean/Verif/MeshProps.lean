import Verif.MeshExplicit
import Verif.CouplingProps
import Verif.TreeProps

/-!
# Properties of meshes (C06 – C13, C81)

`M.matrix n P back` is `mesh.matrix(params, back)`, `M.apply P back v` is
`mesh.matrix_fn(back=back)(params, v)`.
-/

namespace Simphox

open Matrix Complex

/-- Every tree is a well-formed mesh: the hypotheses of the theorems below are met by
`tree(n, balanced, phase_style)` for every `n ≥ 2`. -/
theorem tree_wellFormed (n : ℕ) (hn : 2 ≤ n) (balanced : Bool) (style : PhaseStyle) :
    (idealMesh (tree n n balanced) style).WellFormed n := by
  have hw := C01_tree_wellformed n hn balanced
  refine ⟨by simp [idealMesh], by simp [idealMesh], ?_, ?_, tree_disjoint n n balanced⟩
  · intro a ha
    have : a.id ∈ (tree n n balanced).map Node.id := List.mem_map_of_mem ha
    rw [hw.2.1.mem_iff, List.mem_range] at this
    show a.id < (tree n n balanced).length
    omega
  · intro a ha
    have := hw.2.2 a ha
    omega

theorem idealMesh_lossless (nodes : List Node) (style : PhaseStyle) :
    (idealMesh nodes style).Lossless := by
  intro p hp
  simp only [idealMesh, List.mem_map] at hp
  obtain ⟨_, _, rfl⟩ := hp
  rfl

/-- One node on two rails with the given errors and losses. -/
def singleMesh (style : PhaseStyle) (err loss : ℝ × ℝ) : Mesh where
  nodes := [⟨0, 0, 1, 2, 1, 1, 0⟩]
  errors := [err]
  losses := [loss]
  style := style

theorem singleMesh_wellFormed (style : PhaseStyle) (err loss : ℝ × ℝ) :
    (singleMesh style err loss).WellFormed 2 := by
  refine ⟨rfl, rfl, ?_, ?_, ?_⟩ <;> simp [singleMesh, ColumnsDisjoint]

/-- Parameters of a one-node mesh without output phases. -/
def singleParams (theta phi : ℝ) : Params where
  thetas := fun _ => theta
  phis := fun _ => phi
  gammas := fun _ => 0

theorem embed2_two (m : Matrix (Fin 2) (Fin 2) ℂ) : embed2 2 0 1 m = m := by
  ext i j; fin_cases i <;> fin_cases j <;> simp [embed2]

theorem singleMesh_matrix (style : PhaseStyle) (err loss : ℝ × ℝ) (theta phi : ℝ) (back : Bool) :
    (singleMesh style err loss).matrix 2 (singleParams theta phi) back =
      (mziElements style back err.1 err.2 loss.1 loss.2 theta phi).mat := by
  rw [Mesh.matrix_eq (singleMesh_wellFormed style err loss)]
  have h1 : ∀ b, visitOrder (singleMesh style err loss).nodes b = [⟨0, 0, 1, 2, 1, 1, 0⟩] := by
    intro b; cases b <;> rfl
  have h2 : (diagonal fun i : Fin 2 => exp (I * (((singleParams theta phi).gammas i.val : ℝ) : ℂ)))
      = 1 := by simp [singleParams]
  rw [h1, h1, h2]
  cases back <;> simp [blockProduct, embed2_two, Mesh.elements, singleMesh, singleParams]

/-! ### C06 -/

/-- C06: a lossless mesh is unitary, in every phase style, forward and back, for all phases and all
left/right coupler errors. -/
theorem C06_lossless_unitary (n : ℕ) (M : Mesh) (hM : M.WellFormed n) (hl : M.Lossless)
    (P : Params) (back : Bool) : M.matrix n P back ∈ unitaryGroup (Fin n) ℂ := by
  rw [Mesh.matrix_eq hM]
  have hr : ∀ b, ∀ a ∈ visitOrder M.nodes b, a.top < n ∧ a.bottom < n ∧ a.top ≠ a.bottom :=
    fun b a ha => hM.rails a (mem_visitOrder.1 ha)
  cases back
  · exact mul_mem (gamma_unitary n _)
      (blockProduct_unitary (hr _) fun a _ => Mesh.elements_unitary hl P false _)
  · exact mul_mem (blockProduct_unitary (hr _) fun a _ => Mesh.elements_unitary hl P true _)
      (gamma_unitary n _)

example : (idealMesh (tree 7 7 true) .differential).WellFormed 7 ∧
    (idealMesh (tree 7 7 true) .differential).Lossless :=
  ⟨tree_wellFormed 7 (by norm_num) _ _, idealMesh_lossless _ _⟩

/-! ### C07 -/

/-- C07: if every loss is `≤ 0` (the code's sign convention: negative dB attenuates), the output
power of every input is at most its input power. -/
theorem C07_lossy_passive (n : ℕ) (M : Mesh) (hM : M.WellFormed n)
    (hl : ∀ p ∈ M.losses, p.1 ≤ 0 ∧ p.2 ≤ 0) (P : Params) (back : Bool) (v : Fin n → ℂ) :
    ∑ i, ‖(M.matrix n P back).mulVec v i‖ ^ 2 ≤ ∑ i, ‖v i‖ ^ 2 := by
  rw [Mesh.matrix_eq hM]
  have hr : ∀ b, ∀ a ∈ visitOrder M.nodes b, a.top < n ∧ a.bottom < n ∧ a.top ≠ a.bottom :=
    fun b a ha => hM.rails a (mem_visitOrder.1 ha)
  have hel : ∀ b k, Passive (M.elements P b k).mat := by
    intro b k
    have : (M.losses.getD k (0, 0)).1 ≤ 0 ∧ (M.losses.getD k (0, 0)).2 ≤ 0 := by
      by_cases hk : k < M.losses.length
      · simpa [List.getD_eq_getElem?_getD, hk] using hl _ (List.getElem_mem hk)
      · simp [List.getD_eq_getElem?_getD, hk]
    exact mziElements_passive _ _ _ _ this.1 this.2 _ _
  cases back
  · exact (unitary_passive (gamma_unitary n _)).mul
      (blockProduct_passive (hr _) fun a _ => hel _ _) v
  · exact (blockProduct_passive (hr _) fun a _ => hel _ _).mul
      (unitary_passive (gamma_unitary n _)) v

/-- C07, converse: a positive "loss in dB" amplifies. With `loss = (20, 0)` at `theta = 0` the
ideal single MZI turns unit power at its top input into more than unit power. -/
theorem C07_positive_loss_amplifies :
    ∃ v : Fin 2 → ℂ, ∑ i, ‖v i‖ ^ 2 <
      ∑ i, ‖((singleMesh .top (0, 0) (0, 20)).matrix 2 (singleParams 0 0) false).mulVec v i‖ ^ 2 := by
  refine ⟨![1, 0], ?_⟩
  rw [singleMesh_matrix, mziElements_factor]
  have h1 : mziOuter .top false 20 0 0 = diag2 10 1 := by
    have : shifter 0 20 = 10 := by
      rw [shifter_eq]; simp [Real.exp_log]
    simp [mziOuter, this]
  simp only [outerLast, Bool.false_and, Bool.false_eq_true, if_false]
  rw [h1, ← mulVec_mulVec, unitary_power (mziCore_unitary .top 0 0 0)]
  simp [Fin.sum_univ_two, diag2, mulVec, dotProduct]

example : (singleMesh .top (0, 0) (-3, -1)).WellFormed 2 ∧
    ∀ p ∈ (singleMesh .top (0, 0) (-3, -1)).losses, p.1 ≤ 0 ∧ p.2 ≤ 0 :=
  ⟨singleMesh_wellFormed _ _ _, by simp [singleMesh]⟩

/-! ### C08 -/

theorem coupler_transpose (x : ℝ) : (coupler x)ᵀ = coupler x := by
  ext i j; fin_cases i <;> fin_cases j <;> simp [coupler]

theorem diag2_transpose (a b : ℂ) : (diag2 a b)ᵀ = diag2 a b := by
  ext i j; fin_cases i <;> fin_cases j <;> simp [diag2]

theorem mziElements_back (style : PhaseStyle) (hs : style ≠ .differential) (e ll lr theta phi : ℝ) :
    (mziElements style true e e ll lr theta phi).mat =
      (mziElements style false e e ll lr theta phi).matᵀ := by
  have hc : ∀ s, (mziCore s e e ll theta)ᵀ = mziCore s e e ll theta := by
    intro s
    unfold mziCore
    rw [transpose_mul, transpose_mul, coupler_transpose, ← Matrix.mul_assoc]
    cases s <;> rw [diag2_transpose]
  rw [mziElements_factor, mziElements_factor]
  cases style
  · simp only [outerLast, mziOuter, Bool.true_and, Bool.false_and, beq_self_eq_true, Bool.true_or,
      if_true, Bool.false_eq_true, if_false, transpose_mul, hc, diag2_transpose]
  · simp only [outerLast, mziOuter, Bool.true_and, Bool.false_and, beq_self_eq_true, Bool.or_true,
      if_true, Bool.false_eq_true, if_false, transpose_mul, hc, diag2_transpose]
  · have hd : outerLast .symmetric true = false := rfl
    have hd' : outerLast .symmetric false = false := rfl
    simp only [hd, hd', Bool.false_eq_true, if_false, transpose_mul, hc, mziOuter, diag2_transpose]
    rw [mziCore_top _ (by simp)]
    simp only [mul_diag2, diag2_mul]
    apply mk2_ext <;> ring
  · exact absurd rfl hs

/-- C08: for every style except DIFFERENTIAL, if every node's two couplers have the same error, the
backward matrix is the transpose of the forward matrix, for all phases and all losses. -/
theorem C08_reciprocity_partial (n : ℕ) (M : Mesh) (hM : M.WellFormed n)
    (hs : M.style ≠ .differential) (he : ∀ p ∈ M.errors, p.1 = p.2) (P : Params) :
    M.matrix n P true = (M.matrix n P false)ᵀ := by
  have hr : ∀ b, ∀ a ∈ visitOrder M.nodes b, a.top < n ∧ a.bottom < n ∧ a.top ≠ a.bottom :=
    fun b a ha => hM.rails a (mem_visitOrder.1 ha)
  rw [Mesh.matrix_eq hM, Mesh.matrix_eq hM]
  simp only [if_true, Bool.false_eq_true, if_false, transpose_mul, diagonal_transpose]
  congr 1
  have hel : ∀ k, (M.elements P true k).mat = (M.elements P false k).matᵀ := by
    intro k
    have : (M.errors.getD k (0, 0)).1 = (M.errors.getD k (0, 0)).2 := by
      by_cases hk : k < M.errors.length
      · simpa [List.getD_eq_getElem?_getD, hk] using he _ (List.getElem_mem hk)
      · simp [List.getD_eq_getElem?_getD, hk]
    unfold Mesh.elements
    rw [this]
    exact mziElements_back _ hs _ _ _ _ _
  rw [blockProduct_transpose (el' := M.elements P true) _ (fun a ha => (hr _ a ha).2.2)
    (fun a _ => hel a.id)]
  apply blockProduct_eq_of_seq (hr true)
  · intro a ha; exact hr false a (List.mem_reverse.1 ha)
  · intro v
    have : (visitOrder M.nodes false).reverse =
        (columnOrder M.nodes true).flatMap (fun k => (columnNodes M.nodes k).reverse) := by
      simp only [visitOrder, columnOrder, if_true, Bool.false_eq_true, if_false, List.reverse_flatMap]
      rfl
    rw [this]
    exact seqApply_flatMap_perm hM.goodColumn (fun k => (List.reverse_perm _).symm) _ v

/-- C08 fails when the left and right couplers differ: one lossless TOP node with left error `π/4`,
right error 0 at `theta = π`. -/
theorem C08_unequal_errors_counterexample :
    (singleMesh .top (Real.pi / 4, 0) (0, 0)).matrix 2 (singleParams Real.pi 0) true ≠
      ((singleMesh .top (Real.pi / 4, 0) (0, 0)).matrix 2 (singleParams Real.pi 0) false)ᵀ := by
  intro h
  rw [singleMesh_matrix, singleMesh_matrix] at h
  have h1 := congrFun (congrFun h 0) 1
  have hpi : Real.pi / 4 + Real.pi / 4 = Real.pi / 2 := by ring
  have he : exp (I * (Real.pi : ℂ)) = -1 := by rw [mul_comm]; exact exp_pi_mul_I
  simp [Elements.mat, mziElements, mziTerms, hpi, he] at h1
  have h2 := congrArg im h1
  simp at h2
  have : 0 < Real.sqrt 2 := by positivity
  linarith

/-- C08 fails for the DIFFERENTIAL style, even without errors and loss (`theta = phi = π`). -/
theorem C08_differential_counterexample :
    (singleMesh .differential (0, 0) (0, 0)).matrix 2 (singleParams Real.pi Real.pi) true ≠
      ((singleMesh .differential (0, 0) (0, 0)).matrix 2 (singleParams Real.pi Real.pi) false)ᵀ := by
  intro h
  rw [singleMesh_matrix, singleMesh_matrix] at h
  have h1 := congrFun (congrFun h 0) 0
  have he : exp (I * (Real.pi : ℂ)) = -1 := by rw [mul_comm]; exact exp_pi_mul_I
  have he2 : exp (-(I * (Real.pi : ℂ))) = -1 := by rw [exp_neg, he]; norm_num
  have hs : ((-(Real.pi : ℂ) - Real.pi) / 2) = -Real.pi := by ring
  have h2 : (Real.sqrt 2 / 2 : ℂ) * (Real.sqrt 2 / 2) = 1 / 2 := by
    have : ((Real.sqrt 2 : ℝ) : ℂ) * Real.sqrt 2 = 2 := by
      rw [← ofReal_mul, Real.mul_self_sqrt (by norm_num)]; norm_num
    linear_combination this / 4
  simp [Elements.mat, mziElements, mziTerms, he, he2, hs, h2] at h1
  norm_num at h1

example : (idealMesh (tree 5 5 false) .bottom).style ≠ .differential ∧
    ∀ p ∈ (idealMesh (tree 5 5 false) .bottom).errors, p.1 = p.2 := by
  refine ⟨by simp [idealMesh], ?_⟩
  intro p hp
  simp only [idealMesh, List.mem_map] at hp
  obtain ⟨_, _, rfl⟩ := hp
  rfl

/-! ### C09 and C81 -/

theorem mziElements_top_eq (el er theta phi : ℝ) :
    (mziElements .top false el er 0 0 theta phi).mat = mziNodeMatrix el er 0 0 theta phi := by
  have h2 : ∀ x : ℝ, shifter x 0 = exp (I * x) := by intro x; rw [shifter_eq]; simp
  rw [mziElements_factor]
  simp only [outerLast, Bool.false_and, Bool.false_eq_true, if_false, mziCore, mziOuter,
    mziNodeMatrix, dcMatrix_lossless, h2]
  simp [phaseMatrix, diag2]

theorem loss2insertion_shifter (l : ℝ) : (loss2insertion l : ℂ) = shifter 0 l := by
  have h : loss2insertion l = Real.exp (Real.log 10 * l / 20) := by
    rw [loss2insertion, show Real.log 10 * l / 10 = Real.log 10 * l / 20 + Real.log 10 * l / 20 by ring, Real.exp_add,
      Real.sqrt_mul_self (Real.exp_pos _).le]
  rw [h, shifter_eq]
  simp

theorem shifter_split (x l : ℝ) : shifter x l = exp (I * x) * shifter 0 l := by
  simp only [shifter]
  rw [← Complex.exp_add]
  simp

/-- A node with a loss on its left coupler only is what the mesh applies. -/
theorem mziElements_top_left_loss (el er ll theta phi : ℝ) :
    (mziElements .top false el er ll 0 theta phi).mat = mziNodeMatrix el er ll 0 theta phi := by
  have h2 : ∀ x : ℝ, shifter x 0 = exp (I * x) := by intro x; rw [shifter_eq]; simp
  have hd : dcMatrix el ll = diag2 (shifter 0 ll) 1 * coupler (Real.pi / 4 + el) := by
    rw [coupler, diag2_mul, dcMatrix, loss2insertion_shifter]
    apply mk2_ext <;> ring
  rw [mziElements_factor]
  simp only [outerLast, Bool.false_and, Bool.false_eq_true, if_false, mziCore, mziOuter,
    mziNodeMatrix, dcMatrix_lossless, h2, hd, shifter_split theta ll]
  have hp : ∀ x : ℝ, phaseMatrix x = diag2 (exp (I * x)) 1 := by
    intro x; simp [phaseMatrix, diag2]
  rw [hp, hp, show diag2 (exp (I * theta) * shifter 0 ll) 1 = diag2 (exp (I * theta)) 1 * diag2 (shifter 0 ll) 1 by
    simp [diag2]]
  simp only [Matrix.mul_assoc]

/-- C09: the matrix of a TOP mesh is the output phases times the embedded
`mzi_node_matrix(theta, phi)` of its nodes, in the order light meets them (first node rightmost), for all
coupler errors and left-coupler losses, as long as no right coupler is lossy — provided the node with id `k`
has the same coupler errors and losses as the `k`-th node of the list (true when
ids are list positions, or when all errors agree; see C81). -/
theorem C09_matrix_product_partial (n : ℕ) (M : Mesh) (hM : M.WellFormed n) (hs : M.style = .top)
    (hl : ∀ p ∈ M.losses, p.2 = 0) (P : Params)
    (hown : ∀ p (hp : p < M.nodes.length),
      M.errors.getD M.nodes[p].id (0, 0) = M.errors.getD p (0, 0) ∧
      M.losses.getD M.nodes[p].id (0, 0) = M.losses.getD p (0, 0)) :
    ∃ err loss : Node → ℝ × ℝ,
      (∀ p (hp : p < M.nodes.length), err M.nodes[p] = M.errors.getD p (0, 0) ∧
        loss M.nodes[p] = M.losses.getD p (0, 0)) ∧
      M.matrix n P false = (diagonal fun i : Fin n => exp (I * P.gammas i.val)) *
        (((executionOrder M.nodes).map fun a => embed2 n a.top a.bottom
          (mziNodeMatrix (err a).1 (err a).2 (loss a).1 (loss a).2 (P.thetas a.id) (P.phis a.id))).reverse).prod := by
  refine ⟨fun a => M.errors.getD a.id (0, 0), fun a => M.losses.getD a.id (0, 0), hown, ?_⟩
  rw [Mesh.matrix_eq hM]
  simp only [Bool.false_eq_true, if_false, visitOrder_false, blockProduct]
  congr 3
  apply List.map_congr_left
  intro a _
  have h0 : (M.losses.getD a.id (0, 0)).2 = 0 := by
    by_cases hk : a.id < M.losses.length
    · simp only [List.getD_eq_getElem?_getD, List.getElem?_eq_getElem hk, Option.getD_some]
      exact hl _ (List.getElem_mem hk)
    · simp only [List.getD_eq_getElem?_getD, List.getElem?_eq_none (not_lt.1 hk), Option.getD_none]
  unfold Mesh.elements
  rw [hs, h0, mziElements_top_left_loss]

/-- C09 fails as soon as a right coupler is lossy: the mesh attenuates the top *input* of the node where
`mzi_node_matrix` attenuates its top *output*. One node with ideal splitting, both phases zero and any
right loss other than 0 dB. -/
theorem C09_right_loss_counterexample (ll lr : ℝ) (h : lr ≠ 0) :
    (singleMesh .top (0, 0) (ll, lr)).matrix 2 (singleParams 0 0) false ≠
      embed2 2 0 1 (mziNodeMatrix 0 0 ll lr 0 0) := by
  intro heq
  rw [singleMesh_matrix] at heq
  have h1 := congrFun (congrFun heq 0) 1
  have hs : ∀ l : ℝ, loss2insertion l = Real.exp (Real.log 10 * l / 20) := by
    intro l
    rw [loss2insertion, show Real.log 10 * l / 10 = Real.log 10 * l / 20 + Real.log 10 * l / 20 by ring, Real.exp_add,
      Real.sqrt_mul_self (Real.exp_pos _).le]
  have h2 : (Real.sqrt 2 : ℂ) * Real.sqrt 2 = 2 := by
    rw [← Complex.ofReal_mul, Real.mul_self_sqrt (by norm_num)]; norm_num
  have hA := Real.exp_pos (Real.log 10 * ll / 20)
  simp only [Elements.mat, mziElements, mziTerms, embed2, mziNodeMatrix, dcMatrix, phaseMatrix, hs] at h1
  simp [Matrix.mul_apply, Fin.sum_univ_two] at h1
  have e : ∀ l : ℝ, exp ((Real.log 10 : ℂ) * l / 20) = (Real.exp (Real.log 10 * l / 20) : ℝ) := by
    intro l; push_cast; ring_nf
  rw [e, e] at h1
  have h3 : (Real.exp (Real.log 10 * ll / 20) + 1) * (Real.exp (Real.log 10 * lr / 20) - 1) = 0 := by
    have : (((Real.exp (Real.log 10 * ll / 20) + 1) * (Real.exp (Real.log 10 * lr / 20) - 1) : ℝ) : ℂ) * I = 0 := by
      push_cast
      push_cast at h1
      linear_combination -2 * h1 + (-I / 2 + I / 2 * exp (Real.log 10 * lr / 20) - I / 2 * exp (Real.log 10 * ll / 20) +
        I / 2 * exp (Real.log 10 * lr / 20) * exp (Real.log 10 * ll / 20)) * -h2
    rw [mul_eq_zero] at this
    rcases this with h | h
    · exact_mod_cast h
    · exact absurd h I_ne_zero
  rcases mul_eq_zero.1 h3 with h4 | h4
  · linarith
  · have h5 : Real.exp (Real.log 10 * lr / 20) = 1 := by linarith
    rw [Real.exp_eq_one_iff] at h5
    have : Real.log 10 ≠ 0 := (Real.log_pos (by norm_num)).ne'
    apply h
    have h6 : Real.log 10 * lr = 0 := by linarith
    exact (mul_eq_zero.1 h6).resolve_left this

/-- C81 fails: coupler errors are read at the node's *id* in an array built in *list order*. In this
mesh (two disjoint lossless nodes, list order 1, 0) only the node on rails 0, 1 (id 1) has an error,
yet the mesh applies the error on rails 2, 3: rail 1 of the computed matrix is the error-free one and
rail 3 is the one with the error (all phases zero). -/
theorem C81_errors_follow_list_order_counterexample :
    let M : Mesh := ⟨[⟨1, 0, 1, 4, 1, 1, 0⟩, ⟨0, 2, 3, 4, 1, 1, 0⟩],
      [(Real.pi / 4, 0), (0, 0)], [(0, 0), (0, 0)], .top⟩
    M.WellFormed 4 ∧
    M.matrix 4 (singleParams 0 0) false 1 1 = (mziElements .top false 0 0 0 0 0 0).t22 ∧
    M.matrix 4 (singleParams 0 0) false 3 3 =
      (mziElements .top false (Real.pi / 4) 0 0 0 0 0).t22 ∧
    (mziElements .top false 0 0 0 0 0 0).t22 ≠
      (mziElements .top false (Real.pi / 4) 0 0 0 0 0).t22 := by
  refine ⟨⟨rfl, rfl, by simp, by simp, ?_⟩, ?_, ?_, ?_⟩
  · simp [ColumnsDisjoint, RailDisjoint]
  · have hn : numColumns [(⟨1, 0, 1, 4, 1, 1, 0⟩ : Node), ⟨0, 2, 3, 4, 1, 1, 0⟩] = 1 := by decide +kernel
    have hc : columnNodes [(⟨1, 0, 1, 4, 1, 1, 0⟩ : Node), ⟨0, 2, 3, 4, 1, 1, 0⟩] 0 =
      [⟨1, 0, 1, 4, 1, 1, 0⟩, ⟨0, 2, 3, 4, 1, 1, 0⟩] := by decide +kernel
    simp [Mesh.matrix, Mesh.apply, columnOrder, columnsApply, hn, hc, parallelTransform, scatter,
      columnWrites, gammaApply, singleParams, Mesh.elements, Function.update]
  · have hn : numColumns [(⟨1, 0, 1, 4, 1, 1, 0⟩ : Node), ⟨0, 2, 3, 4, 1, 1, 0⟩] = 1 := by decide +kernel
    have hc : columnNodes [(⟨1, 0, 1, 4, 1, 1, 0⟩ : Node), ⟨0, 2, 3, 4, 1, 1, 0⟩] 0 =
      [⟨1, 0, 1, 4, 1, 1, 0⟩, ⟨0, 2, 3, 4, 1, 1, 0⟩] := by decide +kernel
    simp [Mesh.matrix, Mesh.apply, columnOrder, columnsApply, hn, hc, parallelTransform, scatter,
      columnWrites, gammaApply, singleParams, Mesh.elements, Function.update]
  · have hpi : Real.pi / 4 + Real.pi / 4 = Real.pi / 2 := by ring
    simp [mziElements, mziTerms, hpi]

/-- C81: when ids are list positions, every node uses its own phases, errors and losses: for every phase
style, every errors and losses, the matrix (forward or reversed) is the output phases and the product, in
the order light meets the nodes, of one 2×2 block per node, and the block of the `p`-th node of the list is
the one computed from the `p`-th coupler errors and losses and the `p`-th `theta` and `phi`. -/
theorem C81_errors_own_partial (n : ℕ) (M : Mesh) (hM : M.WellFormed n) (P : Params)
    (hid : ∀ p (hp : p < M.nodes.length), M.nodes[p].id = p) :
    ∃ block : Bool → Node → Matrix (Fin 2) (Fin 2) ℂ,
      (∀ back p (hp : p < M.nodes.length), block back M.nodes[p] =
        (mziElements M.style back (M.errors.getD p (0, 0)).1 (M.errors.getD p (0, 0)).2
          (M.losses.getD p (0, 0)).1 (M.losses.getD p (0, 0)).2 (P.thetas p) (P.phis p)).mat) ∧
      M.matrix n P false = (diagonal fun i : Fin n => exp (I * P.gammas i.val)) *
        (((executionOrder M.nodes).map fun a => embed2 n a.top a.bottom (block false a)).reverse).prod ∧
      M.matrix n P true =
        (((visitOrder M.nodes true).map fun a => embed2 n a.top a.bottom (block true a)).reverse).prod *
        (diagonal fun i : Fin n => exp (I * P.gammas i.val)) := by
  refine ⟨fun back a => (M.elements P back a.id).mat, ?_, ?_, ?_⟩
  · intro back p hp
    simp only [hid p hp]; rfl
  · rw [Mesh.matrix_eq hM]
    simp only [Bool.false_eq_true, if_false, visitOrder_false, blockProduct]
  · rw [Mesh.matrix_eq hM]
    simp only [if_true, blockProduct]

example : ∀ p (hp : p < (idealMesh (tree 4 4 true) .top).nodes.length),
    (idealMesh (tree 4 4 true) .top).errors.getD (idealMesh (tree 4 4 true) .top).nodes[p].id (0, 0) =
      (idealMesh (tree 4 4 true) .top).errors.getD p (0, 0) := by
  have h : ∀ k, (idealMesh (tree 4 4 true) .top).errors.getD k (0, 0) = (0, 0) := by
    intro k
    simp only [idealMesh, List.getD_eq_getElem?_getD, List.getElem?_map]
    cases (tree 4 4 true)[k]? <;> rfl
  intro p hp; rw [h, h]

/-! ### C10 -/

/-- C10: permuting the node list (with the same parameter, error and loss arrays) does not change the
matrix; and the field equals what one gets by applying the nodes one at a time, column after column,
in any order inside the columns. -/
theorem C10_column_order_irrelevant (n : ℕ) (M : Mesh) (hM : M.WellFormed n) (nodes' : List Node)
    (p : M.nodes.Perm nodes') (P : Params) (back : Bool) :
    ({ M with nodes := nodes' } : Mesh).matrix n P back = M.matrix n P back ∧
    ∀ order : ℕ → List Node, (∀ k, (order k).Perm (columnNodes M.nodes k)) →
      ∀ v, M.apply P false v = gammaApply P.gammas
        (((List.range (numColumns M.nodes)).flatMap order).foldl
          (fun v a => fun r =>
            if r = a.top then
              (M.elements P false a.id).t11 * v a.top + (M.elements P false a.id).t21 * v a.bottom
            else if r = a.bottom then
              (M.elements P false a.id).t12 * v a.top + (M.elements P false a.id).t22 * v a.bottom
            else v r) v) := by
  constructor
  · have h : ∀ v, ({ M with nodes := nodes' } : Mesh).apply P back v = M.apply P back v := by
      intro v
      have hc : ∀ b, columnOrder nodes' b = columnOrder M.nodes b := by
        intro b; unfold columnOrder; rw [numColumns_perm p]
      cases back
      · simp only [Mesh.apply, Bool.false_eq_true, if_false, hc]
        rw [columnsApply_perm p hM.goodColumn]; rfl
      · simp only [Mesh.apply, if_true, hc]
        rw [columnsApply_perm p hM.goodColumn]; rfl
    ext i j
    simp only [Mesh.matrix, Matrix.of_apply, h]
  · intro order ho v
    simp only [Mesh.apply, Bool.false_eq_true, if_false]
    rw [columnsApply_eq_seq hM.goodColumn]
    have := seqApply_flatMap_perm (el := M.elements P false) hM.goodColumn
      (fun k => (ho k).symm) (columnOrder M.nodes false) v
    rw [this]
    rfl

/-! ### C11 -/

/-- C11: whatever value JAX chooses for repeated indices, the padded and masked JAX path returns
exactly the NumPy path's output, forward and back; and it does return something. -/
theorem C11_jax_eq_numpy (n : ℕ) (M : Mesh) (hM : M.WellFormed n) (P : Params) (back : Bool)
    (v : ℕ → ℂ) :
    (∀ w, M.JaxApply n P back v w → w = M.apply P back v) ∧ ∃ w, M.JaxApply n P back v w := by
  cases back
  · constructor
    · rintro w ⟨u, hu, rfl⟩
      rw [jaxScan_eq hM hu]; rfl
    · obtain ⟨u, hu⟩ := jaxScan_exists n (M.elements P false) M.nodes (columnOrder M.nodes false) v
      exact ⟨_, u, hu, rfl⟩
  · constructor
    · intro w hw
      have hw : JaxScan n (M.elements P true) M.nodes (columnOrder M.nodes true)
        (gammaApply P.gammas v) w := hw
      rw [jaxScan_eq hM hw]; rfl
    · obtain ⟨u, hu⟩ := jaxScan_exists n (M.elements P true) M.nodes (columnOrder M.nodes true)
        (gammaApply P.gammas v)
      exact ⟨u, hu⟩

/-- A column that needs padding, and its padded row. -/
example : padColumn 5 2 [⟨3, 0, 1, 5, 1, 1, 0⟩] = [⟨0, 1, 3, 1⟩, ⟨2, 2, 0, 0⟩] := by decide

/-! ### C12 -/

/-- C12, exact form: the last snapshot of `propagate` (explicit couplers) is the output of the mesh
with all coupler errors *negated* and the two losses of every node *swapped* (TOP with any losses,
BOTTOM without loss); there are `4 L + 2` snapshots. -/
theorem C12_explicit_output_partial (n : ℕ) (M : Mesh) (hM : M.WellFormed n) (P : Params)
    (hs : M.style = .top ∨ (M.style = .bottom ∧ M.Lossless)) (v : ℕ → ℂ) :
    ∃ snaps, M.propagateExplicit P v = some snaps ∧ snaps.length = 4 * numColumns M.nodes + 2 ∧
      snaps.head? = some v ∧
      snaps.getLast? = some (({ M with
        errors := M.errors.map fun p => (-p.1, -p.2)
        losses := M.losses.map fun p => (p.2, p.1) } : Mesh).apply P false v) := by
  obtain ⟨snaps, h1, h2⟩ := explicitLoop_out hM P hs (columnOrder M.nodes false) v
  refine ⟨[v] ++ snaps ++ [gammaApply P.gammas
    (columnsApply (M.explicitMesh.elements P false) M.nodes (columnOrder M.nodes false) v)],
    ?_, ?_, ?_, ?_⟩
  · simp only [Mesh.propagateExplicit, h1, Option.bind_eq_bind, Option.bind_some]; rfl
  · simp [h2, columnOrder]
  · simp
  · rw [List.getLast?_append]
    simp only [List.getLast?_singleton, Option.some_or]
    rfl

/-- C12 for ideal meshes: without errors and loss (TOP or BOTTOM), the last snapshot of `propagate`
is `mesh.matrix() @ inputs`. -/
theorem C12_explicit_ideal (n : ℕ) (M : Mesh) (hM : M.WellFormed n) (P : Params)
    (hs : M.style = .top ∨ M.style = .bottom) (he : ∀ p ∈ M.errors, p = (0, 0))
    (hl : M.Lossless) (v : ℕ → ℂ) :
    ∃ snaps out, M.propagateExplicit P v = some snaps ∧ snaps.getLast? = some out ∧
      restrict n out = (M.matrix n P false).mulVec (restrict n v) := by
  have hs' : M.style = .top ∨ (M.style = .bottom ∧ M.Lossless) := hs.imp id fun h => ⟨h, hl⟩
  obtain ⟨snaps, h1, _, _, h4⟩ := C12_explicit_output_partial n M hM P hs' v
  refine ⟨snaps, _, h1, h4, ?_⟩
  rw [Mesh.matrix_mulVec hM]
  congr 2
  have e1 : (M.errors.map fun p => (-p.1, -p.2)) = M.errors := by
    conv_rhs => rw [← List.map_id M.errors]
    apply List.map_congr_left
    intro p hp
    rw [he p hp]; simp
  have e2 : (M.losses.map fun p => (p.2, p.1)) = M.losses := by
    conv_rhs => rw [← List.map_id M.losses]
    apply List.map_congr_left
    intro p hp
    rw [hl p hp]; simp
  rw [e1, e2]

/-- C12 fails with coupler errors: one lossless TOP node with left error `π/4` at `theta = phi = 0`:
the mesh keeps amplitude `√2/2` (with sign −) of the top input in the top rail, `propagate` has it
with sign +. -/
theorem C12_errors_counterexample :
    ∃ snaps out, (singleMesh .top (Real.pi / 4, 0) (0, 0)).propagateExplicit (singleParams 0 0)
        (fun r => if r = 0 then 1 else 0) = some snaps ∧ snaps.getLast? = some out ∧
      out 0 ≠ (singleMesh .top (Real.pi / 4, 0) (0, 0)).apply (singleParams 0 0) false
        (fun r => if r = 0 then 1 else 0) 0 := by
  obtain ⟨snaps, h1, _, _, h4⟩ := C12_explicit_output_partial 2
    (singleMesh .top (Real.pi / 4, 0) (0, 0)) (singleMesh_wellFormed _ _ _) (singleParams 0 0)
    (Or.inl rfl) (fun r => if r = 0 then 1 else 0)
  refine ⟨snaps, _, h1, h4, ?_⟩
  have k1 : ∀ err : ℝ × ℝ, (singleMesh .top err (0, 0)).apply (singleParams 0 0) false
      (fun r => if r = 0 then 1 else 0) 0 =
      (singleMesh .top err (0, 0)).matrix 2 (singleParams 0 0) false 0 0 := fun _ => rfl
  have k2 : ({ singleMesh .top (Real.pi / 4, 0) (0, 0) with
      errors := (singleMesh .top (Real.pi / 4, 0) (0, 0)).errors.map fun p => (-p.1, -p.2)
      losses := (singleMesh .top (Real.pi / 4, 0) (0, 0)).losses.map fun p => (p.2, p.1) } : Mesh) =
      singleMesh .top (-(Real.pi / 4), 0) (0, 0) := by
    simp [singleMesh]
  rw [k2, k1, k1, singleMesh_matrix, singleMesh_matrix]
  have hpi : Real.pi / 4 + Real.pi / 4 = Real.pi / 2 := by ring
  simp [Elements.mat, mziElements, mziTerms, hpi]
  intro h
  have h2 := congrArg re h
  have : 0 < Real.sqrt 2 := by positivity
  simp at h2
  linarith

/-! ### C13 -/

/-- Field after the first `k` columns. -/
noncomputable def fieldAfter (M : Mesh) (P : Params) (k : ℕ) (v : ℕ → ℂ) : ℕ → ℂ :=
  (List.range k).foldl
    (fun v j => parallelTransform (M.elements P false) (columnNodes M.nodes j) v) v

theorem scanl_eq_map {α β : Type} (f : β → α → β) (l : List α) (b : β) :
    l.scanl f b = (List.range (l.length + 1)).map fun k => (l.take k).foldl f b := by
  induction l generalizing b with
  | nil => simp
  | cons a l ih =>
    rw [List.scanl_cons, ih, List.length_cons, List.range_succ_eq_map (n := l.length + 1)]
    simp [List.map_map, Function.comp_def]

theorem filter_range_lt (L c : ℕ) (hc : c ≤ L) :
    (List.range L).filter (fun k : ℕ => !decide ((c : ℤ) ≤ (k : ℤ))) = List.range c := by
  induction L with
  | zero => simp [show c = 0 by omega]
  | succ L ih =>
    rw [List.range_succ, List.filter_append]
    by_cases h : c ≤ L
    · rw [ih h]; simp [h]
    · have : c = L + 1 := by omega
      subst this
      rw [List.filter_eq_self.2 (by simp; omega), List.range_succ]; simp

theorem take_range (c k : ℕ) (h : k ≤ c) : (List.range c).take k = List.range k := by
  rw [List.take_range, Nat.min_eq_left h]

theorem propagate_forward (M : Mesh) (P : Params) (c : ℕ) (hc : c ≤ numColumns M.nodes)
    (v : ℕ → ℂ) :
    M.propagate P false (some c) v =
      (List.range (c + 1)).map (fun k => fieldAfter M P k v) ++
        if c = numColumns M.nodes then [M.apply P false v] else [] := by
  have key := propagate_loop
    (fun k v => parallelTransform (M.elements P false) (columnNodes M.nodes k) v)
    (fun k : ℕ => decide ((c : ℤ) ≤ (k : ℤ))) (List.range (numColumns M.nodes)) v v []
  rw [filter_range_lt _ _ hc, scanl_eq_map] at key
  simp only [List.nil_append, decide_eq_true_eq, List.length_range] at key
  have e : (List.range (c + 1)).map (fun k => List.foldl
      (fun v k => parallelTransform (M.elements P false) (columnNodes M.nodes k) v) v
      (List.take k (List.range c))) = (List.range (c + 1)).map (fun k => fieldAfter M P k v) := by
    apply List.map_congr_left
    intro k hk
    rw [take_range c k (by have := List.mem_range.1 hk; omega)]; rfl
  rw [e] at key
  simp only [Mesh.propagate, Option.getD_some, Bool.false_eq_true, false_and, if_false, not_false_eq_true,
    true_and, columnOrder]
  rw [key]
  by_cases h : c = numColumns M.nodes
  · subst h
    simp only [if_true]
    rw [List.range_succ, List.map_append]
    simp [Mesh.apply, fieldAfter, columnsApply, columnOrder]
  · have : ¬ ((c : ℤ) = (numColumns M.nodes : ℤ)) := by omega
    simp [h, this]

/-- C13: with cutoff `c < L` the snapshots are the fields after `0, 1, ..., c` columns (columns
`0..c-1` are applied); with the default cutoff they are the fields after `0, ..., L` columns,
followed by the output `mesh.matrix() @ inputs`. Backwards, the last snapshot with default cutoff is
`mesh.matrix(back=True) @ inputs`. -/
theorem C13_implicit_snapshots (n : ℕ) (M : Mesh) (hM : M.WellFormed n) (P : Params) (v : ℕ → ℂ) :
    (∀ c, c < numColumns M.nodes → M.propagate P false (some (c : ℤ)) v =
      (List.range (c + 1)).map fun k => fieldAfter M P k v) ∧
    (∃ out, M.propagate P false none v =
        ((List.range (numColumns M.nodes + 1)).map fun k => fieldAfter M P k v) ++ [out] ∧
      restrict n out = (M.matrix n P false).mulVec (restrict n v)) ∧
    (∃ out, (M.propagate P true none v).getLast? = some out ∧
      restrict n out = (M.matrix n P true).mulVec (restrict n v)) := by
  refine ⟨?_, ⟨M.apply P false v, ?_, ?_⟩, ⟨M.apply P true v, ?_, ?_⟩⟩
  · intro c hc
    rw [propagate_forward M P c hc.le]
    simp [Nat.ne_of_lt hc]
  · have h := propagate_forward M P (numColumns M.nodes) le_rfl v
    simp only [if_true] at h
    rw [← h]
    simp [Mesh.propagate]
  · rw [Mesh.matrix_mulVec hM]
  · have key := propagate_loop
      (fun k v => parallelTransform (M.elements P true) (columnNodes M.nodes k) v)
      (fun k : ℕ => decide ((numColumns M.nodes : ℤ) - -1 < (k : ℤ))) (columnOrder M.nodes true) v
      (gammaApply P.gammas v) [v]
    have hf : (columnOrder M.nodes true).filter
        (fun k : ℕ => !decide ((numColumns M.nodes : ℤ) - -1 < (k : ℤ))) = columnOrder M.nodes true := by
      rw [List.filter_eq_self]
      intro k hk
      simp only [columnOrder, if_true, List.mem_reverse, List.mem_range] at hk
      simp; omega
    rw [hf, scanl_eq_map] at key
    simp only [decide_eq_true_eq] at key
    simp only [Mesh.propagate, Option.getD_none, if_true, true_and, not_true_eq_false, false_and,
      if_false]
    rw [key, List.range_succ, List.map_append, ← List.append_assoc, List.map_singleton,
      List.getLast?_concat, List.take_length]
    simp [Mesh.apply, columnsApply]
  · rw [Mesh.matrix_mulVec hM]

example : ∃ c, c < numColumns (idealMesh (tree 5 5 true) .top).nodes :=
  ⟨1, by
    have := (C03_tree_depth 5 (by norm_num)).1
    show 1 < numColumns (tree 5 5 true)
    rw [this]; decide⟩

end Simphox
