import Verif.MeshJax

/-! # Lemmas on `propagate` -/

namespace Simphox

open Matrix Complex

/-- A diagonal "node": phases on the top and bottom rails. -/
def phaseEl (x y : ℂ) : Elements := ⟨x, 0, 0, y⟩

theorem scatter_top_eq {nodes : List Node} (h : GoodColumn nodes) (f : ℕ → ℂ) (v : ℕ → ℂ) :
    scatter v (nodes.map fun a => (a.top, v a.top * f a.id)) =
      parallelTransform (fun k => phaseEl (f k) 1) nodes v := by
  refine ColumnResult.unique (nodes := nodes) (el := fun k => phaseEl (f k) 1) (v := v)
    ⟨?_, ?_, ?_⟩ (parallelTransform_result h v)
  · intro a ha
    rw [scatter_mem (x := v a.top * f a.id)]
    · simp [phaseEl, mul_comm]
    · exact List.mem_map.2 ⟨a, ha, rfl⟩
    · intro y hy
      obtain ⟨b, hb, hbe⟩ := List.mem_map.1 hy
      simp only [Prod.mk.injEq] at hbe
      have := h.eq_of hb ha (Or.inl hbe.1)
      subst this
      exact hbe.2.symm
  · intro a ha
    rw [scatter_not_mem]
    · simp [phaseEl]
    · intro p hp
      obtain ⟨b, hb, rfl⟩ := List.mem_map.1 hp
      intro e
      have := h.eq_of hb ha (Or.inr (Or.inl e))
      subst this; exact h.ne _ ha e
  · intro r hr
    apply scatter_not_mem
    intro p hp
    obtain ⟨b, hb, rfl⟩ := List.mem_map.1 hp
    exact (hr b hb).1.symm

theorem scatter_bottom_eq {nodes : List Node} (h : GoodColumn nodes) (f : ℕ → ℂ) (v : ℕ → ℂ) :
    scatter v (nodes.map fun a => (a.bottom, v a.bottom * f a.id)) =
      parallelTransform (fun k => phaseEl 1 (f k)) nodes v := by
  refine ColumnResult.unique (nodes := nodes) (el := fun k => phaseEl 1 (f k)) (v := v)
    ⟨?_, ?_, ?_⟩ (parallelTransform_result h v)
  · intro a ha
    rw [scatter_not_mem]
    · simp [phaseEl]
    · intro p hp
      obtain ⟨b, hb, rfl⟩ := List.mem_map.1 hp
      intro e
      have := h.eq_of hb ha (Or.inr (Or.inr (Or.inl e)))
      subst this; exact h.ne _ ha e.symm
  · intro a ha
    rw [scatter_mem (x := v a.bottom * f a.id)]
    · simp [phaseEl, mul_comm]
    · exact List.mem_map.2 ⟨a, ha, rfl⟩
    · intro y hy
      obtain ⟨b, hb, hbe⟩ := List.mem_map.1 hy
      simp only [Prod.mk.injEq] at hbe
      have := h.eq_of hb ha (Or.inr (Or.inr (Or.inr hbe.1)))
      subst this
      exact hbe.2.symm
  · intro r hr
    apply scatter_not_mem
    intro p hp
    obtain ⟨b, hb, rfl⟩ := List.mem_map.1 hp
    exact (hr b hb).2.symm

/-- Composition of blocks: first `m`, then `m'`. -/
def Elements.comp (m' m : Elements) : Elements where
  t11 := m'.t11 * m.t11 + m'.t21 * m.t12
  t21 := m'.t11 * m.t21 + m'.t21 * m.t22
  t12 := m'.t12 * m.t11 + m'.t22 * m.t12
  t22 := m'.t12 * m.t21 + m'.t22 * m.t22

theorem parallelTransform_comp {nodes : List Node} (h : GoodColumn nodes) (el el' : ℕ → Elements)
    (v : ℕ → ℂ) :
    parallelTransform el' nodes (parallelTransform el nodes v) =
      parallelTransform (fun k => (el' k).comp (el k)) nodes v := by
  have h1 := parallelTransform_result (el := el) h v
  have h2 := parallelTransform_result (el := el') h (parallelTransform el nodes v)
  refine ColumnResult.unique (nodes := nodes) (el := fun k => (el' k).comp (el k)) (v := v)
    ⟨?_, ?_, ?_⟩ (parallelTransform_result h v)
  · intro a ha
    rw [h2.top a ha, h1.top a ha, h1.bottom a ha]; simp only [Elements.comp]; ring
  · intro a ha
    rw [h2.bottom a ha, h1.top a ha, h1.bottom a ha]; simp only [Elements.comp]; ring
  · intro r hr
    rw [h2.other r hr, h1.other r hr]

theorem Elements.comp_mat (m' m : Elements) : (m'.comp m).mat = m'.mat * m.mat := by
  simp [Elements.mat, Elements.comp, Matrix.mul_fin_two]

theorem Elements.mat_injective {m m' : Elements} (h : m.mat = m'.mat) : m = m' := by
  have h1 := congrFun (congrFun h 0) 0
  have h2 := congrFun (congrFun h 0) 1
  have h3 := congrFun (congrFun h 1) 0
  have h4 := congrFun (congrFun h 1) 1
  simp [Elements.mat] at h1 h2 h3 h4
  cases m; cases m'; simp_all

/-- The coupler used by `propagate` is the mesh's coupler with the opposite error, and its loss sits
on the *input* top rail. -/
theorem dcElements_mat (e l : ℝ) :
    (dcElements e l).mat = coupler (Real.pi / 4 - e) *
      diag2 ((Real.exp (Real.log 10 * l / 20) : ℝ) : ℂ) 1 := by
  have h1 : Real.sin (Real.pi / 4 + e) = Real.cos (Real.pi / 4 - e) := by
    rw [← Real.cos_pi_div_two_sub]; congr 1; ring
  have h2 : Real.cos (Real.pi / 4 + e) = Real.sin (Real.pi / 4 - e) := by
    rw [← Real.sin_pi_div_two_sub]; congr 1; ring
  simp only [Elements.mat, dcElements, coupler, mul_diag2, h1, h2]
  apply mk2_ext <;> ring

theorem diag2_mul_diag2 (a b c d : ℂ) : diag2 a b * diag2 c d = diag2 (a * c) (b * d) := by
  simp [diag2, Matrix.mul_fin_two]

theorem phaseEl_mat (x y : ℂ) : (phaseEl x y).mat = diag2 x y := by
  simp [phaseEl, Elements.mat, diag2]

theorem shifter_eq (x l : ℝ) :
    shifter x l = ((Real.exp (Real.log 10 * l / 20) : ℝ) : ℂ) * exp (I * x) := by
  unfold shifter; rw [exp_add, ofReal_exp, mul_comm]

theorem explicit_top_mat (el er ll lr theta phi : ℝ) :
    (dcElements er lr).mat * (phaseEl (exp (I * theta)) 1).mat * (dcElements el ll).mat *
      (phaseEl (exp (I * phi)) 1).mat =
    (mziElements .top false (-el) (-er) lr ll theta phi).mat := by
  rw [mziElements_factor, dcElements_mat, dcElements_mat, phaseEl_mat, phaseEl_mat]
  simp only [outerLast, Bool.false_and, Bool.false_eq_true, if_false, mziCore, mziOuter]
  rw [Matrix.mul_assoc (coupler _) (diag2 _ _) (diag2 _ _), diag2_mul_diag2,
    Matrix.mul_assoc _ _ (diag2 (exp (I * phi)) 1),
    Matrix.mul_assoc (coupler _) (diag2 _ _) (diag2 (exp (I * phi)) 1),
    diag2_mul_diag2, ← shifter_eq, ← shifter_eq, mul_one, ← sub_eq_add_neg, ← sub_eq_add_neg,
    ← Matrix.mul_assoc]

theorem explicit_bottom_mat (el er theta phi : ℝ) :
    (dcElements er 0).mat * (phaseEl 1 (exp (I * theta))).mat * (dcElements el 0).mat *
      (phaseEl 1 (exp (I * phi))).mat =
    (mziElements .bottom false (-el) (-er) 0 0 theta phi).mat := by
  have h1 : ∀ e : ℝ, (dcElements e 0).mat = coupler (Real.pi / 4 - e) := by
    intro e
    rw [dcElements_mat]
    simp [diag2, coupler, Matrix.mul_fin_two]
  have h2 : ∀ x : ℝ, exp (I * x) = shifter x 0 := by intro x; rw [shifter_eq]; simp
  rw [mziElements_factor, h1, h1, phaseEl_mat, phaseEl_mat]
  simp only [outerLast, Bool.false_and, Bool.false_eq_true, if_false, mziCore, mziOuter]
  rw [h2, h2, ← sub_eq_add_neg, ← sub_eq_add_neg]

/-- The mesh `propagate(explicit=True)` really simulates. -/
noncomputable def Mesh.explicitMesh (M : Mesh) : Mesh where
  nodes := M.nodes
  errors := M.errors.map fun p => (-p.1, -p.2)
  losses := M.losses.map fun p => (p.2, p.1)
  style := M.style

theorem getD_map_zero {α : Type} (l : List α) (f : α → α) (d : α) (hf : f d = d) (k : ℕ) :
    (l.map f).getD k d = f (l.getD k d) := by
  simp only [List.getD_eq_getElem?_getD, List.getElem?_map]
  cases l[k]? <;> simp [hf]

theorem explicitMesh_elements (M : Mesh) (P : Params) (back : Bool) (k : ℕ) :
    M.explicitMesh.elements P back k =
      mziElements M.style back (-(M.errors.getD k (0, 0)).1) (-(M.errors.getD k (0, 0)).2)
        (M.losses.getD k (0, 0)).2 (M.losses.getD k (0, 0)).1 (P.thetas k) (P.phis k) := by
  unfold Mesh.elements Mesh.explicitMesh
  simp only
  rw [getD_map_zero _ _ _ (by simp), getD_map_zero _ _ _ (by simp)]

theorem exists_snaps {x y : ℕ → ℂ} (a b c : ℕ → ℂ) (h : x = y) :
    ∃ s1 s2 s3, (pure [a, b, c, x] : Option (List (ℕ → ℂ))) = some [s1, s2, s3, y] :=
  ⟨a, b, c, by rw [h]; rfl⟩

theorem explicitColumn_last {n : ℕ} {M : Mesh} (hM : M.WellFormed n) (P : Params)
    (hs : M.style = .top ∨ (M.style = .bottom ∧ M.Lossless)) (k : ℕ) (v : ℕ → ℂ) :
    ∃ s1 s2 s3, explicitColumn M P (columnNodes M.nodes k) v = some [s1, s2, s3,
      parallelTransform (M.explicitMesh.elements P false) (columnNodes M.nodes k) v] := by
  have hg := hM.goodColumn k
  rcases hs with hs | ⟨hs, hl⟩
  · simp only [explicitColumn, parallelMultiply, hs, Option.bind_eq_bind, Option.bind_some]
    rw [scatter_top_eq hg (fun k => exp (I * P.phis k))]
    rw [scatter_top_eq hg (fun k => exp (I * P.thetas k))]
    refine exists_snaps _ _ _ ?_
    rw [parallelTransform_comp hg, parallelTransform_comp hg, parallelTransform_comp hg]
    congr 1
    funext k
    apply Elements.mat_injective
    rw [Elements.comp_mat, Elements.comp_mat, Elements.comp_mat, explicitMesh_elements, hs,
      ← explicit_top_mat, Matrix.mul_assoc, Matrix.mul_assoc]
  · simp only [explicitColumn, parallelMultiply, hs, Option.bind_eq_bind, Option.bind_some]
    rw [scatter_bottom_eq hg (fun k => exp (I * P.phis k))]
    rw [scatter_bottom_eq hg (fun k => exp (I * P.thetas k))]
    refine exists_snaps _ _ _ ?_
    rw [parallelTransform_comp hg, parallelTransform_comp hg, parallelTransform_comp hg]
    congr 1
    funext k
    apply Elements.mat_injective
    rw [Elements.comp_mat, Elements.comp_mat, Elements.comp_mat, explicitMesh_elements, hs, hl.getD,
      ← explicit_bottom_mat, Matrix.mul_assoc, Matrix.mul_assoc]

theorem explicitLoop_out {n : ℕ} {M : Mesh} (hM : M.WellFormed n) (P : Params)
    (hs : M.style = .top ∨ (M.style = .bottom ∧ M.Lossless)) (cols : List ℕ) (v : ℕ → ℂ) :
    ∃ snaps, explicitLoop M P cols v =
      some (snaps, columnsApply (M.explicitMesh.elements P false) M.nodes cols v) ∧
      snaps.length = 4 * cols.length := by
  induction cols generalizing v with
  | nil => exact ⟨[], rfl, rfl⟩
  | cons k ks ih =>
    obtain ⟨s1, s2, s3, hk⟩ := explicitColumn_last hM P hs k v
    obtain ⟨snaps, hsn, hlen⟩ := ih
      (parallelTransform (M.explicitMesh.elements P false) (columnNodes M.nodes k) v)
    refine ⟨[s1, s2, s3,
      parallelTransform (M.explicitMesh.elements P false) (columnNodes M.nodes k) v] ++ snaps,
      ?_, ?_⟩
    · simp only [explicitLoop, hk, Option.bind_eq_bind, Option.bind_some]
      simp only [List.getLast?_cons_cons, List.getLast?_singleton, Option.getD_some, hsn,
        Option.bind_some]
      rfl
    · simp [hlen]; omega

/-! ### Implicit snapshots -/

theorem propagate_loop (f : ℕ → (ℕ → ℂ) → ℕ → ℂ) (skip : ℕ → Bool) (cols : List ℕ) (v0 v : ℕ → ℂ)
    (acc : List (ℕ → ℂ)) :
    cols.foldl (fun (acc : List (ℕ → ℂ)) k =>
        if skip k then acc else acc ++ [f k (acc.getLast?.getD v0)]) (acc ++ [v]) =
      acc ++ ((cols.filter fun k => !skip k).scanl (fun v k => f k v) v) := by
  induction cols generalizing acc v with
  | nil => simp
  | cons k ks ih =>
    rw [List.foldl_cons]
    by_cases h : skip k
    · simp only [h, if_true]
      rw [ih]; simp [h]
    · simp only [h]
      simp only [List.getLast?_append, List.getLast?_singleton, Option.some_or, Option.getD_some]
      rw [if_neg (by simp), ih]
      simp [h]

end Simphox
