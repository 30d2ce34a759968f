import Verif.InSituGrad

/-! # In-situ backpropagation: C19, C20, C95, C96, C97 -/

namespace Simphox

open Complex

/-! ### C20 -/

theorem localize_flatMap (nodes : List Node) (f : ℕ → ℕ → ℝ) :
    ((List.range (numColumns nodes)).flatMap fun i =>
      (columnNodes nodes i).map fun a => f i a.top) =
      (executionOrder nodes).map fun a => f a.column a.top := by
  unfold executionOrder
  rw [List.map_flatMap, List.flatMap_def, List.flatMap_def]
  congr 1
  apply List.map_congr_left
  intro i _
  apply List.map_congr_left
  intro a ha
  rw [(mem_columnNodes.1 ha).2]

/-- What is returned: the powers at the top rails of the nodes, just before their internal and
external phase shifters, in column order. -/
theorem C20_localize_order_partial (nodes : List Node) (T : ℕ) (pow : ℕ → ℕ → ℝ) :
    phaseShiftLocalize nodes T pow =
      ((executionOrder nodes).map (fun a => pow (4 * a.column + 2) a.top),
       (executionOrder nodes).map (fun a => pow (4 * a.column) a.top), pow (T - 1)) := by
  unfold phaseShiftLocalize
  rw [localize_flatMap nodes (fun i r => pow (4 * i + 2) r),
    localize_flatMap nodes (fun i r => pow (4 * i) r)]

/-- C20 for meshes whose ids number the nodes column by column: position `k` holds the power at the
top rail of node `k`. -/
theorem C20_parameter_order_partial (nodes : List Node) (T : ℕ) (pow : ℕ → ℕ → ℝ)
    (hid : (executionOrder nodes).map Node.id = List.range nodes.length) (a : Node)
    (ha : a ∈ nodes) :
    (phaseShiftLocalize nodes T pow).1[a.id]? = some (pow (4 * a.column + 2) a.top) ∧
    (phaseShiftLocalize nodes T pow).2.1[a.id]? = some (pow (4 * a.column) a.top) := by
  rw [C20_localize_order_partial]
  obtain ⟨i, hi, hia⟩ := List.getElem_of_mem (mem_executionOrder.2 ha)
  have h1 : ((executionOrder nodes).map Node.id)[i]? = some a.id := by
    rw [List.getElem?_map, List.getElem?_eq_getElem hi, hia]; rfl
  have hi' : i < nodes.length := by
    have := congrArg List.length hid
    simp at this; omega
  rw [hid, List.getElem?_range hi'] at h1
  have h2 : i = a.id := by simpa using h1
  subst h2
  simp only [List.getElem?_map, List.getElem?_eq_getElem hi, hia]
  exact ⟨rfl, rfl⟩

/-- C20 fails for `tree(4)`: its nodes are numbered depth first, so position 1 of the returned
vector belongs to node 2. -/
theorem C20_tree_counterexample : ∃ a ∈ tree 4 4 true, ∃ pow : ℕ → ℕ → ℝ,
    (phaseShiftLocalize (tree 4 4 true) 10 pow).1[a.id]? ≠
      some (pow (4 * a.column + 2) a.top) := by
  have h1 : (executionOrder (tree 4 4 true)).map (fun a => (a.id, a.column, a.top)) =
      [(0, 0, 0), (2, 0, 2), (1, 1, 1)] := by decide +kernel
  have h2 : ∃ a ∈ tree 4 4 true, a.id = 1 ∧ a.column = 1 ∧ a.top = 1 := by decide +kernel
  obtain ⟨a, ha, hi, hc, ht⟩ := h2
  refine ⟨a, ha, fun _ r => r, ?_⟩
  rw [C20_localize_order_partial, hi, hc, ht]
  have h3 : (executionOrder (tree 4 4 true)).map (fun a => ((a.top : ℕ) : ℝ)) =
      [(0, 0, 0), (2, 0, 2), (1, 1, 1)].map (fun p : ℕ × ℕ × ℕ => ((p.2.2 : ℕ) : ℝ)) := by
    rw [← h1, List.map_map]; rfl
  simp only [h3]
  norm_num

/-- C20 fails for the BOTTOM style, whose phase shifters are on the bottom rails: the powers at the
top rails are returned all the same. -/
theorem C20_bottom_counterexample : ∃ a ∈ (singleMesh .bottom (0, 0) (0, 0)).nodes,
    ∃ pow : ℕ → ℕ → ℝ, (phaseShiftLocalize (singleMesh .bottom (0, 0) (0, 0)).nodes 6 pow).1[a.id]? ≠
      some (pow (4 * a.column + 2) a.bottom) := by
  refine ⟨⟨0, 0, 1, 2, 1, 1, 0⟩, by simp [singleMesh], fun _ r => r, ?_⟩
  have : (phaseShiftLocalize (singleMesh .bottom (0, 0) (0, 0)).nodes 6 fun _ r => (r : ℝ)).1 =
      [((0 : ℕ) : ℝ)] := rfl
  rw [this]; simp

example : ∃ nodes : List Node, nodes.length = 3 ∧
    (executionOrder nodes).map Node.id = List.range nodes.length :=
  ⟨[⟨0, 0, 1, 2, 1, 1, 0⟩, ⟨1, 2, 3, 2, 1, 1, 0⟩, ⟨2, 1, 2, 2, 1, 1, 1⟩], rfl, by decide +kernel⟩

/-! ### C19 -/

section
variable {n : ℕ} {M : Mesh} (hM : M.WellFormed n) (hs : M.style = .top) (he : M.Errorless)
  (hl : M.Lossless)
include hM hs he hl

theorem pow_eq {E : InSituEngine} {P : Params} (hE : E.Runs n M P) (analog : Bool)
    {inorm gnorm : ℝ} (hi : inorm ≠ 0) (hg : gnorm ≠ 0) (X G : ℕ → ℂ) (t r : ℕ)
    (ht : t ≤ (meshSteps P M.nodes).length) :
    gradPower E analog (fun r => X r / inorm) (fun r => G r / gnorm) t r / 2 * (inorm * gnorm) =
      (I * runSteps ((meshSteps P M.nodes).take t) X r *
        runSteps ((meshSteps P M.nodes).drop t).reverse G r).re := by
  rw [gradPower_eq hM hs he hl hE analog _ _ t r ht]
  have h1 : (fun r => X r / (inorm : ℂ)) = fun r => (inorm : ℂ)⁻¹ * X r := by funext r; ring
  have h2 : (fun r => G r / (gnorm : ℂ)) = fun r => (gnorm : ℂ)⁻¹ * G r := by funext r; ring
  rw [h1, h2, runSteps_smul fun s h => meshSteps_sym hM P s (List.mem_of_mem_take h),
    runSteps_smul fun s h => meshSteps_sym hM P s
      (List.mem_of_mem_drop (List.mem_reverse.1 h))]
  simp only
  generalize runSteps ((meshSteps P M.nodes).take t) X r = a
  generalize runSteps ((meshSteps P M.nodes).drop t).reverse G r = b
  have : I * ((inorm : ℂ)⁻¹ * a) * ((gnorm : ℂ)⁻¹ * b) =
      ((inorm⁻¹ * gnorm⁻¹ : ℝ) : ℂ) * (I * a * b) := by push_cast; ring
  rw [this, re_ofReal_mul]
  field_simp

omit hM hs he hl in
theorem meshSteps_length (P : Params) : (meshSteps P M.nodes).length = 4 * numColumns M.nodes + 1 := by
  simp [meshSteps, colsSteps_length]

theorem theta_derivative (hid : (M.nodes.map Node.id).Nodup) (P : Params) {K : ℕ}
    (X G : Fin K → ℕ → ℂ) {a : Node} (ha : a ∈ M.nodes) :
    HasDerivAt (fun x => vjpObjective n M { P with thetas := Function.update P.thetas a.id x } X G)
      (∑ c, (I * runSteps ((meshSteps P M.nodes).take (4 * a.column + 2)) (X c) a.top *
        runSteps ((meshSteps P M.nodes).drop (4 * a.column + 2)).reverse (G c) a.top).re)
      (P.thetas a.id) := by
  have huniq : ∀ b ∈ M.nodes, b.id = a.id → b = a := fun b hb e =>
    List.inj_on_of_nodup_map hid hb ha e
  obtain ⟨post, hpost, hne⟩ := range_split (column_lt_numColumns ha)
  set k := a.column with hk
  have hcol : ∀ j, j ≠ k → ∀ b ∈ columnNodes M.nodes j, b.id ≠ a.id := by
    intro j hj b hb e
    have := huniq b (mem_columnNodes.1 hb).1 e
    subst this
    exact hj (mem_columnNodes.1 hb).2.symm
  have hS : ∀ x, meshSteps { P with thetas := Function.update P.thetas a.id x } M.nodes =
      (colsSteps P M.nodes (List.range k) ++ [phaseStep P.phis (columnNodes M.nodes k),
        dcStep (columnNodes M.nodes k)]) ++
      phaseStep (Function.update P.thetas a.id x) (columnNodes M.nodes k) ::
      (dcStep (columnNodes M.nodes k) :: colsSteps P M.nodes post ++ [gammaApply P.gammas]) := by
    intro x
    unfold meshSteps
    rw [hpost, colsSteps_append]
    have e1 : colsSteps { P with thetas := Function.update P.thetas a.id x } M.nodes (k :: post) =
        columnSteps { P with thetas := Function.update P.thetas a.id x } (columnNodes M.nodes k) ++
        colsSteps { P with thetas := Function.update P.thetas a.id x } M.nodes post := by
      simp [colsSteps]
    have e2 : ∀ cols : List ℕ, (∀ j ∈ cols, j ≠ k) →
        colsSteps { P with thetas := Function.update P.thetas a.id x } M.nodes cols =
        colsSteps P M.nodes cols := by
      intro cols hc
      apply colsSteps_congr
      intro j hj b hb
      exact ⟨Function.update_of_ne (hcol j (hc j hj) b hb) _ _, rfl⟩
    rw [e1, e2 post hne, e2 (List.range k) (fun j hj => by have := List.mem_range.1 hj; omega)]
    simp [columnSteps]
  have hS0 := hS (P.thetas a.id)
  rw [Function.update_eq_self] at hS0
  have hgood := hM.goodColumn k
  have hak : a ∈ columnNodes M.nodes k := mem_columnNodes.2 ⟨ha, rfl⟩
  have hsym := meshSteps_sym hM P
  rw [hS0] at hsym
  simp only [vjpObjective_eq hM hs he hl, hS]
  have hlen : (colsSteps P M.nodes (List.range k) ++ [phaseStep P.phis (columnNodes M.nodes k),
        dcStep (columnNodes M.nodes k)]).length = 4 * k + 2 := by
    simp [colsSteps_length]
  have key : ∀ c, HasDerivAt _ _ _ := fun c => phase_derivative hgood P.thetas hak
    (fun b hb e => huniq b (mem_columnNodes.1 hb).1 e) (hM.rails a ha).1
    (colsSteps P M.nodes (List.range k) ++ [phaseStep P.phis (columnNodes M.nodes k),
        dcStep (columnNodes M.nodes k)])
    (dcStep (columnNodes M.nodes k) :: colsSteps P M.nodes post ++ [gammaApply P.gammas])
    (fun s hs => hsym s (List.mem_append_right _ (List.mem_cons_of_mem _ hs))) (X c) (G c)
  have := HasDerivAt.fun_sum (u := Finset.univ) fun c _ => key c
  have hS1 : meshSteps P M.nodes = _ := hS0
  rw [hS1, List.take_left' hlen, List.drop_left' hlen]
  exact this

theorem phi_derivative (hid : (M.nodes.map Node.id).Nodup) (P : Params) {K : ℕ}
    (X G : Fin K → ℕ → ℂ) {a : Node} (ha : a ∈ M.nodes) :
    HasDerivAt (fun x => vjpObjective n M { P with phis := Function.update P.phis a.id x } X G)
      (∑ c, (I * runSteps ((meshSteps P M.nodes).take (4 * a.column)) (X c) a.top *
        runSteps ((meshSteps P M.nodes).drop (4 * a.column)).reverse (G c) a.top).re)
      (P.phis a.id) := by
  have huniq : ∀ b ∈ M.nodes, b.id = a.id → b = a := fun b hb e =>
    List.inj_on_of_nodup_map hid hb ha e
  obtain ⟨post, hpost, hne⟩ := range_split (column_lt_numColumns ha)
  set k := a.column with hk
  have hcol : ∀ j, j ≠ k → ∀ b ∈ columnNodes M.nodes j, b.id ≠ a.id := by
    intro j hj b hb e
    have := huniq b (mem_columnNodes.1 hb).1 e
    subst this
    exact hj (mem_columnNodes.1 hb).2.symm
  have hS : ∀ x, meshSteps { P with phis := Function.update P.phis a.id x } M.nodes =
      colsSteps P M.nodes (List.range k) ++
      phaseStep (Function.update P.phis a.id x) (columnNodes M.nodes k) ::
      (dcStep (columnNodes M.nodes k) :: phaseStep P.thetas (columnNodes M.nodes k) ::
        dcStep (columnNodes M.nodes k) :: colsSteps P M.nodes post ++ [gammaApply P.gammas]) := by
    intro x
    unfold meshSteps
    rw [hpost, colsSteps_append]
    have e1 : colsSteps { P with phis := Function.update P.phis a.id x } M.nodes (k :: post) =
        columnSteps { P with phis := Function.update P.phis a.id x } (columnNodes M.nodes k) ++
        colsSteps { P with phis := Function.update P.phis a.id x } M.nodes post := by
      simp [colsSteps]
    have e2 : ∀ cols : List ℕ, (∀ j ∈ cols, j ≠ k) →
        colsSteps { P with phis := Function.update P.phis a.id x } M.nodes cols =
        colsSteps P M.nodes cols := by
      intro cols hc
      apply colsSteps_congr
      intro j hj b hb
      exact ⟨rfl, Function.update_of_ne (hcol j (hc j hj) b hb) _ _⟩
    rw [e1, e2 post hne, e2 (List.range k) (fun j hj => by have := List.mem_range.1 hj; omega)]
    simp [columnSteps]
  have hS0 := hS (P.phis a.id)
  rw [Function.update_eq_self] at hS0
  have hgood := hM.goodColumn k
  have hak : a ∈ columnNodes M.nodes k := mem_columnNodes.2 ⟨ha, rfl⟩
  have hsym := meshSteps_sym hM P
  rw [hS0] at hsym
  simp only [vjpObjective_eq hM hs he hl, hS]
  have hlen : (colsSteps P M.nodes (List.range k)).length = 4 * k := by
    simp [colsSteps_length]
  have key : ∀ c, HasDerivAt _ _ _ := fun c => phase_derivative hgood P.phis hak
    (fun b hb e => huniq b (mem_columnNodes.1 hb).1 e) (hM.rails a ha).1
    (colsSteps P M.nodes (List.range k))
    (dcStep (columnNodes M.nodes k) :: phaseStep P.thetas (columnNodes M.nodes k) ::
        dcStep (columnNodes M.nodes k) :: colsSteps P M.nodes post ++ [gammaApply P.gammas])
    (fun s hs => hsym s (List.mem_append_right _ (List.mem_cons_of_mem _ hs))) (X c) (G c)
  have := HasDerivAt.fun_sum (u := Finset.univ) fun c _ => key c
  have hS1 : meshSteps P M.nodes = _ := hS0
  rw [hS1, List.take_left' hlen, List.drop_left' hlen]
  exact this

theorem gamma_derivative (P : Params) {K : ℕ} (X G : Fin K → ℕ → ℂ) {r : ℕ} (hr : r < n) :
    HasDerivAt (fun x => vjpObjective n M { P with gammas := Function.update P.gammas r x } X G)
      (∑ c, (I * runSteps (meshSteps P M.nodes) (X c) r * G c r).re) (P.gammas r) := by
  have hS : ∀ γ, meshSteps { P with gammas := γ } M.nodes =
      colsSteps P M.nodes (List.range (numColumns M.nodes)) ++ [gammaApply γ] := fun γ => rfl
  simp only [vjpObjective_eq hM hs he hl, hS]
  apply HasDerivAt.fun_sum
  intro c _
  simp only [runSteps_append, runSteps_cons, runSteps_nil]
  have hS1 : runSteps (meshSteps P M.nodes) (X c) = gammaApply P.gammas
      (runSteps (colsSteps P M.nodes (List.range (numColumns M.nodes))) (X c)) := by
    rw [meshSteps, runSteps_append]; rfl
  try rw [hS1]
  generalize runSteps (colsSteps P M.nodes (List.range (numColumns M.nodes))) (X c) = F
  have h1 : ∀ x, (∑ s ∈ Finset.range n, G c s *
      gammaApply (Function.update P.gammas r x) F s).re =
      (exp (I * x) * (F r * G c r)).re +
        (∑ s ∈ (Finset.range n).erase r, G c s * gammaApply P.gammas F s).re := by
    intro x
    rw [← Finset.add_sum_erase _ _ (Finset.mem_range.2 hr), add_re]
    congr 2
    · simp only [gammaApply, Function.update_self]; ring
    · apply Finset.sum_congr rfl
      intro s hs
      simp only [gammaApply, Function.update_of_ne (Finset.mem_erase.1 hs).1]
  simp only [h1]
  have h2 := (hasDerivAt_re_exp (F r * G c r) (P.gammas r)).add_const
    (∑ s ∈ (Finset.range n).erase r, G c s * gammaApply P.gammas F s).re
  have h3 : I * gammaApply P.gammas F r * G c r =
      I * (exp (I * P.gammas r) * (F r * G c r)) := by simp only [gammaApply]; ring
  rw [h3]
  exact h2

theorem inSituBwdWith_eq (hid : (M.nodes.map Node.id).Nodup) (P : Params) (E : InSituEngine)
    (hE : E.Runs n M P) (analog : Bool) {inorm gnorm : ℝ} (hi : inorm ≠ 0) (hg : gnorm ≠ 0) {K : ℕ}
    (X G : Fin K → ℕ → ℂ) :
    ∃ res, inSituBwdWith E analog M.nodes inorm gnorm X G = some res ∧
      List.Forall₂ (fun a d => HasDerivAt (fun x =>
          vjpObjective n M { P with thetas := Function.update P.thetas a.id x } X G) d
          (P.thetas a.id)) (executionOrder M.nodes) res.thetas ∧
      List.Forall₂ (fun a d => HasDerivAt (fun x =>
          vjpObjective n M { P with phis := Function.update P.phis a.id x } X G) d
          (P.phis a.id)) (executionOrder M.nodes) res.phis ∧
      (∀ r < n, HasDerivAt (fun x =>
          vjpObjective n M { P with gammas := Function.update P.gammas r x } X G) (res.gammas r)
          (P.gammas r)) ∧
      ∀ c, ∀ i : Fin n, res.inputs c i =
        ((M.matrix n P false).transpose.mulVec fun j => G c j / gnorm) i := by
  unfold inSituBwdWith
  rw [if_neg (by simp [hi, hg])]
  refine ⟨_, rfl, ?_, ?_, ?_, ?_⟩
  · simp only [C20_localize_order_partial]
    rw [List.forall₂_map_right_iff, List.forall₂_same]
    intro a ha
    have ha := mem_executionOrder.1 ha
    have hc := column_lt_numColumns ha
    have := theta_derivative hM hs he hl hid P X G ha
    convert this using 2 with c
    exact pow_eq hM hs he hl hE analog hi hg _ _ _ _
      (by rw [meshSteps_length]; omega)
  · simp only [C20_localize_order_partial]
    rw [List.forall₂_map_right_iff, List.forall₂_same]
    intro a ha
    have ha := mem_executionOrder.1 ha
    have hc := column_lt_numColumns ha
    have := phi_derivative hM hs he hl hid P X G ha
    convert this using 2 with c
    exact pow_eq hM hs he hl hE analog hi hg _ _ _ _
      (by rw [meshSteps_length]; omega)
  · intro r hr
    have := gamma_derivative hM hs he hl P X G hr
    convert this using 1
    have hT : (E.fprop 0).length - 1 = (meshSteps P M.nodes).length := by
      rw [fprop_eq hM hs he hl hE]; simp [snapsOf_length]
    simp only [phaseShiftLocalize, hT]
    apply Finset.sum_congr rfl
    intro c _
    rw [pow_eq hM hs he hl hE analog hi hg _ _ _ _ le_rfl]
    simp
  · intro c i
    simp only
    rw [adjointInputs_eq hM hs he hl hE, ← apply_back_steps hM hs he hl,
      ← C08_reciprocity_partial n M hM (by rw [hs]; simp) (fun p hp => by rw [he p hp]) P]
    exact (congrFun (Mesh.matrix_mulVec hM P true fun r => G c r / gnorm) i).symm
end

theorem foldr_max_nonneg (l : List ℝ) : 0 ≤ l.foldr max 0 := by
  induction l with
  | nil => simp
  | cons a l ih => exact le_max_of_le_right ih

theorem le_foldr_max_real {l : List ℝ} {x : ℝ} (h : x ∈ l) : x ≤ l.foldr max 0 := by
  induction l with
  | nil => simp at h
  | cons a l ih =>
    rcases List.mem_cons.1 h with rfl | h
    · exact le_max_left _ _
    · exact (ih h).trans (le_max_right _ _)

theorem maxRowNorm_ne_zero {n K : ℕ} {X : Fin K → ℕ → ℂ} (h : ∃ c, ∃ r < n, X c r ≠ 0) :
    maxRowNorm n X ≠ 0 := by
  obtain ⟨c, r, hr, hx⟩ := h
  have h1 : Real.sqrt (∑ c, ‖X c r‖ ^ 2) ≤ maxRowNorm n X :=
    le_foldr_max_real (List.mem_map.2 ⟨r, List.mem_range.2 hr, rfl⟩)
  have h2 : 0 < ∑ c, ‖X c r‖ ^ 2 :=
    Finset.sum_pos' (fun _ _ => by positivity) ⟨c, Finset.mem_univ _, by positivity⟩
  have := Real.sqrt_pos.2 h2
  linarith

theorem maxRowNorm_zero {n K : ℕ} {X : Fin K → ℕ → ℂ} (h : ∀ c, ∀ r < n, X c r = 0) :
    maxRowNorm n X = 0 := by
  apply le_antisymm _ (foldr_max_nonneg _)
  have : ∀ l : List ℝ, (∀ x ∈ l, x = 0) → l.foldr max 0 ≤ 0 := by
    intro l
    induction l with
    | nil => simp
    | cons a l ih =>
      intro hl
      exact max_le (hl a (by simp)).le (ih fun x hx => hl x (by simp [hx]))
  apply this
  intro x hx
  obtain ⟨r, hr, rfl⟩ := List.mem_map.1 hx
  have : ∀ c, ‖X c r‖ ^ 2 = 0 := fun c => by rw [h c r (List.mem_range.1 hr)]; simp
  simp [this]

theorem vecNorm_ne_zero {n : ℕ} {x : ℕ → ℂ} (h : ∃ r < n, x r ≠ 0) : vecNorm n x ≠ 0 := by
  obtain ⟨r, hr, hx⟩ := h
  have h1 : ‖x r‖ ^ 2 ≤ ((List.range n).map fun r => ‖x r‖ ^ 2).sum :=
    List.single_le_sum (fun y hy => by
      obtain ⟨s, _, rfl⟩ := List.mem_map.1 hy; positivity) _
      (List.mem_map.2 ⟨r, List.mem_range.2 hr, rfl⟩)
  have h2 : 0 < ‖x r‖ ^ 2 := by positivity
  exact (Real.sqrt_pos.2 (h2.trans_le h1)).ne'

/-- C19 for inputs of shape `(n, K)`, in both modes and whatever JAX's scatter did with repeated
indices: on a TOP mesh without errors and loss, the cotangents are the derivatives of
`Re Σ g · (mesh @ x)` with respect to every node's phases — listed in column order (see C20) — and
every output phase, provided neither the inputs nor the cotangent vanish. -/
theorem C19_gradient_partial (n : ℕ) (M : Mesh) (hM : M.WellFormed n) (hs : M.style = .top)
    (he : ∀ p ∈ M.errors, p = (0, 0)) (hl : M.Lossless) (hid : (M.nodes.map Node.id).Nodup)
    (P : Params) (E : InSituEngine) (hE : E.Runs n M P) (analog : Bool) {K : ℕ}
    (X G : Fin K → ℕ → ℂ) (hX : ∃ c, ∃ r < n, X c r ≠ 0) (hG : ∃ c, ∃ r < n, G c r ≠ 0) :
    ∃ res, inSituBwd E analog n M.nodes X G = some res ∧
      List.Forall₂ (fun a d => HasDerivAt (fun x =>
          vjpObjective n M { P with thetas := Function.update P.thetas a.id x } X G) d
          (P.thetas a.id)) (executionOrder M.nodes) res.thetas ∧
      List.Forall₂ (fun a d => HasDerivAt (fun x =>
          vjpObjective n M { P with phis := Function.update P.phis a.id x } X G) d
          (P.phis a.id)) (executionOrder M.nodes) res.phis ∧
      ∀ r < n, HasDerivAt (fun x =>
          vjpObjective n M { P with gammas := Function.update P.gammas r x } X G) (res.gammas r)
          (P.gammas r) := by
  obtain ⟨res, h1, h2, h3, h4, _⟩ := inSituBwdWith_eq hM hs he hl hid P E hE analog
    (maxRowNorm_ne_zero hX) (maxRowNorm_ne_zero hG) X G
  exact ⟨res, h1, h2, h3, h4⟩

/-- The same for an input vector of shape `(n,)`. -/
theorem C19_vector_gradient_partial (n : ℕ) (M : Mesh) (hM : M.WellFormed n) (hs : M.style = .top)
    (he : ∀ p ∈ M.errors, p = (0, 0)) (hl : M.Lossless) (hid : (M.nodes.map Node.id).Nodup)
    (P : Params) (E : InSituEngine) (hE : E.Runs n M P) (analog : Bool)
    (x g : ℕ → ℂ) (hx : ∃ r < n, x r ≠ 0) (hg : ∃ r < n, g r ≠ 0) :
    ∃ res, inSituBwdVec E analog n M.nodes x g = some res ∧
      List.Forall₂ (fun a d => HasDerivAt (fun y =>
          vjpObjective (K := 1) n M { P with thetas := Function.update P.thetas a.id y }
            (fun _ => x) (fun _ => g)) d (P.thetas a.id)) (executionOrder M.nodes) res.thetas ∧
      List.Forall₂ (fun a d => HasDerivAt (fun y =>
          vjpObjective (K := 1) n M { P with phis := Function.update P.phis a.id y }
            (fun _ => x) (fun _ => g)) d (P.phis a.id)) (executionOrder M.nodes) res.phis ∧
      ∀ r < n, HasDerivAt (fun y =>
          vjpObjective (K := 1) n M { P with gammas := Function.update P.gammas r y }
            (fun _ => x) (fun _ => g)) (res.gammas r) (P.gammas r) := by
  obtain ⟨res, h1, h2, h3, h4, _⟩ := inSituBwdWith_eq (K := 1) hM hs he hl hid P E hE analog
    (vecNorm_ne_zero hx) (maxRowNorm_ne_zero (K := 1) (X := fun _ => g) ⟨0, hg⟩)
    (fun _ => x) (fun _ => g)
  exact ⟨res, h1, h2, h3, h4⟩

theorem forall₂_position {R : Node → ℝ → Prop} {l : List Node} {d : List ℝ}
    (h : List.Forall₂ R l d) {N : ℕ} (hid : l.map Node.id = List.range N) (k : ℕ) (hk : k < N) :
    ∃ a ∈ l, a.id = k ∧ R a (d.getD k 0) := by
  have hlen : l.length = N := by simpa using congrArg List.length hid
  have hk' : k < l.length := by omega
  refine ⟨l[k], List.getElem_mem hk', ?_, ?_⟩
  · have : (l.map Node.id)[k]? = some k := by rw [hid, List.getElem?_range hk]
    rw [List.getElem?_map, List.getElem?_eq_getElem hk'] at this
    simpa using this
  · have h2 := h.length_eq
    have := h.get hk' (by omega)
    simpa [List.getD_eq_getElem?_getD, List.getElem?_eq_getElem (show k < d.length by omega)]
      using this

/-- C19 in parameter order, for meshes whose ids number the nodes column by column. -/
theorem C19_ordered_gradient_partial (n : ℕ) (M : Mesh) (hM : M.WellFormed n) (hs : M.style = .top)
    (he : ∀ p ∈ M.errors, p = (0, 0)) (hl : M.Lossless)
    (hid : (executionOrder M.nodes).map Node.id = List.range M.nodes.length)
    (P : Params) (E : InSituEngine) (hE : E.Runs n M P) (analog : Bool) {K : ℕ}
    (X G : Fin K → ℕ → ℂ) (hX : ∃ c, ∃ r < n, X c r ≠ 0) (hG : ∃ c, ∃ r < n, G c r ≠ 0) :
    ∃ res, inSituBwd E analog n M.nodes X G = some res ∧
      ∀ k < M.nodes.length,
        HasDerivAt (fun x =>
          vjpObjective n M { P with thetas := Function.update P.thetas k x } X G)
          (res.thetas.getD k 0) (P.thetas k) ∧
        HasDerivAt (fun x =>
          vjpObjective n M { P with phis := Function.update P.phis k x } X G)
          (res.phis.getD k 0) (P.phis k) := by
  have hnd : (M.nodes.map Node.id).Nodup := by
    have := (executionOrder_perm M.nodes).map Node.id
    rw [← this.nodup_iff, hid]
    exact List.nodup_range
  obtain ⟨res, h1, h2, h3, _⟩ := C19_gradient_partial n M hM hs he hl hnd P E hE analog X G hX hG
  refine ⟨res, h1, fun k hk => ?_⟩
  obtain ⟨a, _, hak, hd⟩ := forall₂_position h2 hid k hk
  obtain ⟨b, _, hbk, hd'⟩ := forall₂_position h3 hid k hk
  subst hak
  rw [hbk] at hd'
  exact ⟨hd, hd'⟩

/-- C19 fails for a zero cotangent: the true gradient is 0, the code divides by the zero norm and
returns NaN. -/
theorem C19_zero_cotangent_counterexample (E : InSituEngine) (analog : Bool) (n : ℕ)
    (nodes : List Node) {K : ℕ} (X : Fin K → ℕ → ℂ) :
    inSituBwd E analog n nodes X (fun _ _ => 0) = none ∧
      ∀ (M : Mesh) (P : Params), vjpObjective n M P X (fun _ _ => 0) = 0 := by
  constructor
  · unfold inSituBwd inSituBwdWith
    rw [if_pos (Or.inr (maxRowNorm_zero fun _ _ _ => rfl))]
  · intro M P; simp [vjpObjective]

/-- The hypotheses of C19 are met by a mesh with three nodes on four rails. -/
example : ∃ (M : Mesh) (P : Params) (E : InSituEngine), M.WellFormed 4 ∧ M.style = .top ∧
    (∀ p ∈ M.errors, p = (0, 0)) ∧ M.Lossless ∧
    (executionOrder M.nodes).map Node.id = List.range M.nodes.length ∧ E.Runs 4 M P ∧
    M.nodes.length = 3 := by
  let M := idealMesh [⟨0, 0, 1, 2, 1, 1, 0⟩, ⟨1, 2, 3, 2, 1, 1, 0⟩, ⟨2, 1, 2, 2, 1, 1, 1⟩] .top
  obtain ⟨E, hE⟩ := inSituEngine_exists 4 M ⟨fun _ => 1, fun _ => 2, fun _ => 3⟩ (Or.inl rfl)
  refine ⟨M, _, E, ⟨rfl, rfl, ?_, ?_, ?_⟩, rfl, ?_, ?_, by decide +kernel, hE, rfl⟩
  · simp [M, idealMesh]
  · simp [M, idealMesh]
  · unfold ColumnsDisjoint; simp [M, idealMesh, RailDisjoint]
  · simp [M, idealMesh]
  · simp [Mesh.Lossless, M, idealMesh]

/-! ### C95 -/

/-- C95, exact form: the cotangent returned for the inputs is `mesh.matrix()ᵀ @ g` *divided by* the
largest row norm of `g`. -/
theorem C95_input_cotangent_partial (n : ℕ) (M : Mesh) (hM : M.WellFormed n) (hs : M.style = .top)
    (he : ∀ p ∈ M.errors, p = (0, 0)) (hl : M.Lossless) (hid : (M.nodes.map Node.id).Nodup)
    (P : Params) (E : InSituEngine) (hE : E.Runs n M P) (analog : Bool) {K : ℕ}
    (X G : Fin K → ℕ → ℂ) (hX : ∃ c, ∃ r < n, X c r ≠ 0) (hG : ∃ c, ∃ r < n, G c r ≠ 0) :
    ∃ res, inSituBwd E analog n M.nodes X G = some res ∧
      ∀ c, ∀ i : Fin n, res.inputs c i =
        ((M.matrix n P false).transpose.mulVec fun j => G c j) i / maxRowNorm n G := by
  obtain ⟨res, h1, _, _, _, h5⟩ := inSituBwdWith_eq hM hs he hl hid P E hE analog
    (maxRowNorm_ne_zero hX) (maxRowNorm_ne_zero hG) X G
  refine ⟨res, h1, fun c i => ?_⟩
  rw [h5]
  simp only [Matrix.mulVec, dotProduct, div_eq_mul_inv, Finset.sum_mul, mul_assoc]

/-- C95 holds when the largest row norm of the cotangent is 1. -/
theorem C95_unit_cotangent_partial (n : ℕ) (M : Mesh) (hM : M.WellFormed n) (hs : M.style = .top)
    (he : ∀ p ∈ M.errors, p = (0, 0)) (hl : M.Lossless) (hid : (M.nodes.map Node.id).Nodup)
    (P : Params) (E : InSituEngine) (hE : E.Runs n M P) (analog : Bool) {K : ℕ}
    (X G : Fin K → ℕ → ℂ) (hX : ∃ c, ∃ r < n, X c r ≠ 0) (hG : maxRowNorm n G = 1) :
    ∃ res, inSituBwd E analog n M.nodes X G = some res ∧
      ∀ c, ∀ i : Fin n, res.inputs c i =
        ((M.matrix n P false).transpose.mulVec fun j => G c j) i := by
  have hG' : ∃ c, ∃ r < n, G c r ≠ 0 := by
    by_contra hno
    have : maxRowNorm n G = 0 := maxRowNorm_zero fun c r hr => by
      by_contra h; exact hno ⟨c, r, hr, h⟩
    rw [this] at hG
    norm_num at hG
  obtain ⟨res, h1, h2⟩ := C95_input_cotangent_partial n M hM hs he hl hid P E hE analog X G hX hG'
  refine ⟨res, h1, fun c i => ?_⟩
  rw [h2, hG]; simp

theorem singleMesh_runs_exists (P : Params) :
    ∃ E : InSituEngine, E.Runs 2 (singleMesh .top (0, 0) (0, 0)) P :=
  inSituEngine_exists 2 _ P (Or.inl rfl)

/-- C95 fails: one TOP node at `theta = phi = π` (the identity on the top rail) with two inputs and
cotangent 2 on the top rail returns 1 there, not 2. -/
theorem C95_norm_counterexample :
    ∃ E : InSituEngine, E.Runs 2 (singleMesh .top (0, 0) (0, 0)) (singleParams Real.pi Real.pi) ∧
    ∃ (X G : Fin 2 → ℕ → ℂ) (res : InSituResult 2),
      inSituBwd E true 2 (singleMesh .top (0, 0) (0, 0)).nodes X G = some res ∧
      ((((singleMesh .top (0, 0) (0, 0)).matrix 2 (singleParams Real.pi Real.pi)
        false).transpose.mulVec fun j => G 0 j) 0 = 2) ∧ res.inputs 0 0 = 1 := by
  obtain ⟨E, hE⟩ := singleMesh_runs_exists (singleParams Real.pi Real.pi)
  have hM : maxRowNorm (K := 2) 2 (fun c r => if c = 0 ∧ r = 0 then 2 else 0) = 2 := by
    simp [maxRowNorm, List.range_succ]
  obtain ⟨res, h1, h2⟩ := C95_input_cotangent_partial 2 (singleMesh .top (0, 0) (0, 0))
    (singleMesh_wellFormed _ _ _) rfl (by simp [singleMesh]) (by simp [Mesh.Lossless, singleMesh])
    (by simp [singleMesh]) (singleParams Real.pi Real.pi) E hE true (K := 2)
    (fun _ _ => 1) (fun c r => if c = 0 ∧ r = 0 then 2 else 0) ⟨0, 0, by norm_num, by simp⟩
    ⟨0, 0, by norm_num, by simp⟩
  have h3 : (((singleMesh .top (0, 0) (0, 0)).matrix 2 (singleParams Real.pi Real.pi)
        false).transpose.mulVec fun j => (fun (c : Fin 2) (r : ℕ) =>
          if c = 0 ∧ r = 0 then (2 : ℂ) else 0) 0 j) 0 = 2 := by
    rw [singleMesh_matrix]
    have he : exp (I * (Real.pi : ℂ)) = -1 := by rw [mul_comm]; exact exp_pi_mul_I
    have h2 : (Real.sqrt 2 / 2 : ℂ) * (Real.sqrt 2 / 2) = 1 / 2 := by
      have : ((Real.sqrt 2 : ℝ) : ℂ) * Real.sqrt 2 = 2 := by
        rw [← ofReal_mul, Real.mul_self_sqrt (by norm_num)]; norm_num
      linear_combination this / 4
    simp [Matrix.mulVec, dotProduct, Fin.sum_univ_two, Elements.mat, mziElements, mziTerms, he, h2]
    norm_num
  refine ⟨E, hE, _, _, res, h1, h3, ?_⟩
  have := h2 0 0
  rw [h3, hM] at this
  simpa using this

/-! ### C96 -/

/-- C96: explicit propagation in JAX (padded columns, masked phases, scatters with repeated indices)
returns exactly the snapshots of the NumPy version, forward and backward; for TOP and BOTTOM it
always returns. -/
theorem C96_jax_explicit (n : ℕ) (M : Mesh) (hM : M.WellFormed n)
    (hs : M.style = .top ∨ M.style = .bottom) (P : Params) (v : ℕ → ℂ) (snaps : List (ℕ → ℂ)) :
    (M.JaxPropagate n P false v snaps ↔ M.propagateExplicit P v = some snaps) ∧
    (M.JaxPropagate n P true v snaps ↔ M.propagateExplicitBack P v = some snaps) := by
  refine ⟨⟨jaxPropagate_eq hM P, fun h => ?_⟩, ⟨jaxPropagateBack_eq hM P, fun h => ?_⟩⟩
  · obtain ⟨s, h2⟩ := jaxPropagate_exists n M P false hs v
    have := jaxPropagate_eq hM P h2
    rw [h] at this
    cases this
    exact h2
  · obtain ⟨s, h2⟩ := jaxPropagate_exists n M P true hs v
    have := jaxPropagateBack_eq hM P h2
    rw [h] at this
    cases this
    exact h2

/-- Other styles raise in both versions as soon as there is a column. -/
theorem C96_other_styles (n : ℕ) (M : Mesh) (hs : M.style ≠ .top) (hs' : M.style ≠ .bottom)
    (hne : M.nodes ≠ []) (P : Params) (v : ℕ → ℂ) (snaps : List (ℕ → ℂ)) :
    ¬ M.JaxPropagate n P false v snaps ∧ M.propagateExplicit P v = none := by
  have hL : ∃ L, numColumns M.nodes = L + 1 := by
    obtain ⟨a, ha⟩ := List.exists_mem_of_ne_nil _ hne
    have := column_lt_numColumns ha
    exact ⟨numColumns M.nodes - 1, by omega⟩
  obtain ⟨L, hL⟩ := hL
  have hc : ∃ ks, columnOrder M.nodes false = 0 :: ks :=
    ⟨(List.range L).map Nat.succ, by
      simp only [columnOrder, Bool.false_eq_true, if_false, hL, List.range_succ_eq_map]⟩
  obtain ⟨ks, hc⟩ := hc
  constructor
  · intro h
    simp only [Mesh.JaxPropagate, Bool.false_eq_true, if_false, hc] at h
    obtain ⟨s, w, h, _⟩ := h
    cases h with
    | cons _ _ _ v1 v2 v3 v4 _ _ hcol _ =>
      simp only [JaxExplicitColumn, Bool.false_eq_true, if_false] at hcol
      obtain ⟨⟨wr, hw, _⟩, _⟩ := hcol
      cases hst : M.style <;> simp_all [jaxMultiplyWrites]
  · simp only [Mesh.propagateExplicit, hc, explicitLoop, explicitColumn]
    cases hst : M.style <;> simp_all [parallelMultiply]

/-! ### C97 -/

theorem single_transform (el : ℕ → Elements) (v : ℕ → ℂ) :
    parallelTransform el [⟨0, 0, 1, 2, 1, 1, 0⟩] v =
      fun r => if r = 0 then (el 0).t11 * v 0 + (el 0).t21 * v 1
        else if r = 1 then (el 0).t12 * v 0 + (el 0).t22 * v 1 else v r := by
  funext r
  simp only [parallelTransform, columnWrites, scatter, List.map_cons, List.map_nil,
    List.cons_append, List.nil_append, List.foldl_cons, List.foldl_nil]
  by_cases h0 : r = 0
  · subst h0; simp
  · by_cases h1 : r = 1
    · subst h1; simp
    · simp [Function.update_of_ne, h0, h1]

theorem single_steps : meshSteps (singleParams 0 0) (singleMesh .top (0, 0) (0, 0)).nodes =
    [phaseStep (fun _ => 0) [⟨0, 0, 1, 2, 1, 1, 0⟩], dcStep [⟨0, 0, 1, 2, 1, 1, 0⟩],
      phaseStep (fun _ => 0) [⟨0, 0, 1, 2, 1, 1, 0⟩], dcStep [⟨0, 0, 1, 2, 1, 1, 0⟩],
      gammaApply fun _ => 0] := rfl

theorem single_phaseStep (v : ℕ → ℂ) :
    phaseStep (fun _ => 0) [⟨0, 0, 1, 2, 1, 1, 0⟩] v = v := by
  rw [phaseStep, single_transform]
  funext r
  simp only [phaseEl]
  split_ifs with h h
  · subst h; simp
  · subst h; simp
  · rfl

theorem single_dcStep (v : ℕ → ℂ) : dcStep [⟨0, 0, 1, 2, 1, 1, 0⟩] v =
    fun r => if r = 0 then (Real.sqrt 2 / 2 : ℂ) * (v 0 + I * v 1)
      else if r = 1 then (Real.sqrt 2 / 2 : ℂ) * (I * v 0 + v 1) else v r := by
  rw [dcStep, single_transform]
  funext r
  have h1 : (Real.cos (Real.pi / 4) : ℂ) = Real.sqrt 2 / 2 := by rw [Real.cos_pi_div_four]; simp
  have h2 : (Real.sin (Real.pi / 4) : ℂ) = Real.sqrt 2 / 2 := by rw [Real.sin_pi_div_four]; simp
  simp only [dcElements, mul_zero, zero_div, Real.exp_zero, ofReal_one, one_mul, add_zero, h1, h2]
  split_ifs
  · ring
  · ring
  · rfl

theorem sqrt_half_sq : (Real.sqrt 2 / 2 : ℂ) * (Real.sqrt 2 / 2) = 1 / 2 := by
  have : ((Real.sqrt 2 : ℝ) : ℂ) * Real.sqrt 2 = 2 := by
    rw [← ofReal_mul, Real.mul_self_sqrt (by norm_num)]; norm_num
  linear_combination this / 4

/-- C97 fails: one TOP node at `theta = phi = 0`, input and cotangent both `(1, 0)`: as a vector of
shape `(2,)` the cotangent of `theta` is 0, as a column of shape `(2, 1)` it is `-1/2`. -/
theorem C97_column_counterexample :
    ∃ E : InSituEngine, E.Runs 2 (singleMesh .top (0, 0) (0, 0)) (singleParams 0 0) ∧
    ∃ (x g : ℕ → ℂ) (res : InSituResult 1),
      inSituBwdVec E true 2 (singleMesh .top (0, 0) (0, 0)).nodes x g = some res ∧
      res.thetas = [0] ∧
      inSituBwdColumnThetas E 2 (singleMesh .top (0, 0) (0, 0)).nodes x g = some [-1 / 2] := by
  obtain ⟨E, hE⟩ := singleMesh_runs_exists (singleParams 0 0)
  have hM := singleMesh_wellFormed .top (0, 0) (0, 0)
  have hs : (singleMesh .top (0, 0) (0, 0)).style = .top := rfl
  have he : (singleMesh .top (0, 0) (0, 0)).Errorless := by simp [Mesh.Errorless, singleMesh]
  have hl : (singleMesh .top (0, 0) (0, 0)).Lossless := by simp [Mesh.Lossless, singleMesh]
  let g : ℕ → ℂ := fun r => if r = 0 then 1 else 0
  have hn1 : vecNorm 2 g = 1 := by simp [vecNorm, g, List.range_succ]
  have hn2 : maxRowNorm (K := 1) 2 (fun _ => g) = 1 := by
    simp [maxRowNorm, g, List.range_succ]
  have hfp : ∀ v : ℕ → ℂ, (E.fprop v).getD 2 0 0 = (Real.sqrt 2 / 2 : ℂ) * (v 0 + I * v 1) := by
    intro v
    rw [fprop_get hM hs he hl hE v 2 (by rw [single_steps]; simp), single_steps]
    simp only [List.take_succ_cons, List.take_zero, runSteps_cons, runSteps_nil, single_phaseStep,
      single_dcStep, if_true]
  have hw : adjointInputs E true g = fun r => if r = 1 then I else 0 := by
    rw [adjointInputs_eq hM hs he hl hE, single_steps]
    simp only [List.reverse_cons, List.reverse_nil, List.nil_append, List.cons_append,
      runSteps_cons, runSteps_nil, single_phaseStep, single_dcStep]
    have hγ : gammaApply (fun _ => 0) g = g := by funext r; simp [gammaApply]
    rw [hγ]
    have h2 := sqrt_half_sq
    funext r
    by_cases h0 : r = 0
    · subst h0
      simp only [if_true, g, one_ne_zero, if_false, zero_ne_one]
      linear_combination h2 * (1 + I * I) + (1/2) * I_mul_I
    · by_cases h1 : r = 1
      · subst h1
        simp only [if_true, g, one_ne_zero, if_false, zero_ne_one]
        linear_combination h2 * (2 * I)
      · simp [h0, h1, g]
  have hg1 : (fun r => g r / ((1 : ℝ) : ℂ)) = g := by funext r; simp
  have hex : executionOrder (singleMesh .top (0, 0) (0, 0)).nodes =
      [⟨0, 0, 1, 2, 1, 1, 0⟩] := rfl
  have h1 : ∃ res, inSituBwdVec E true 2 (singleMesh .top (0, 0) (0, 0)).nodes g g = some res ∧
      res.thetas = [0] := by
    unfold inSituBwdVec inSituBwdWith
    rw [if_neg (by rw [hn1, hn2]; norm_num)]
    refine ⟨_, rfl, ?_⟩
    simp only [C20_localize_order_partial, hn1, hn2, hg1, hex, List.map_cons, List.map_nil]
    simp only [gradPower, hfp, hw, norm_mul, mul_pow]
    simp [g, ← normSq_eq_norm_sq, normSq_apply]
  obtain ⟨res, h1, h2⟩ := h1
  refine ⟨E, hE, g, g, res, h1, h2, ?_⟩
  unfold inSituBwdColumnThetas
  simp only [hn2, hg1]
  rw [if_neg (by norm_num)]
  simp only [C20_localize_order_partial, hex, List.map_cons, List.map_nil, hfp, hw,
    Fin.sum_univ_two]
  simp only [norm_mul, mul_pow]
  have hsq : (|Real.sqrt 2| / 2) ^ 2 = 1 / 2 := by
    rw [div_pow, sq_abs, Real.sq_sqrt (by norm_num)]
    norm_num
  simp [g, ← normSq_eq_norm_sq, normSq_apply]
  rw [hsq]
  norm_num

end Simphox
