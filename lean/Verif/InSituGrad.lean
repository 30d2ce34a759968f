import Verif.InSituLemmas
import Verif.MeshProps
import Mathlib.Analysis.SpecialFunctions.Trigonometric.Deriv

/-! # The measured powers are the derivatives -/

namespace Simphox

open Complex Matrix

section
variable {n : ℕ} {M : Mesh} (hM : M.WellFormed n) (hs : M.style = .top) (he : M.Errorless)
  (hl : M.Lossless)
include hM hs he hl

theorem columnSteps_back (P : Params) (k : ℕ) (v : ℕ → ℂ) :
    runSteps (columnSteps P (columnNodes M.nodes k)).reverse v =
      parallelTransform (M.elements P true) (columnNodes M.nodes k) v := by
  have hg := hM.goodColumn k
  simp only [columnSteps, List.reverse_cons, List.reverse_nil, List.nil_append, List.cons_append,
    runSteps_cons, runSteps_nil, phaseStep, dcStep]
  rw [parallelTransform_comp hg, parallelTransform_comp hg, parallelTransform_comp hg]
  congr 1
  funext j
  apply Elements.mat_injective
  have hsy : ∀ m : Elements, m.t12 = m.t21 → m.matᵀ = m.mat := by
    intro m hm
    ext i j; fin_cases i <;> fin_cases j <;> simp [Elements.mat, hm]
  have h1 := hsy _ (phaseEl_symBlock (P.phis j)).symm
  have h2 := hsy _ (phaseEl_symBlock (P.thetas j)).symm
  have h3 := hsy _ dcElements_symBlock.symm
  have := congrArg Matrix.transpose (explicit_top_mat 0 0 0 0 (P.thetas j) (P.phis j))
  rw [Matrix.transpose_mul, Matrix.transpose_mul, Matrix.transpose_mul, h1, h2, h3] at this
  rw [Elements.comp_mat, Elements.comp_mat, Elements.comp_mat, Matrix.mul_assoc, Matrix.mul_assoc, this]
  unfold Mesh.elements
  rw [he.getD, hl.getD, hs, mziElements_back _ (by simp)]
  simp

theorem apply_back_steps (P : Params) (v : ℕ → ℂ) :
    M.apply P true v = runSteps (meshSteps P M.nodes).reverse v := by
  have key : ∀ (cols : List ℕ) (v : ℕ → ℂ), columnsApply (M.elements P true) M.nodes cols v =
      runSteps (colsSteps P M.nodes cols.reverse).reverse v := by
    intro cols
    induction cols with
    | nil => intro v; rfl
    | cons k ks ih =>
      intro v
      have e : (colsSteps P M.nodes (k :: ks).reverse).reverse =
          (columnSteps P (columnNodes M.nodes k)).reverse ++
            (colsSteps P M.nodes ks.reverse).reverse := by simp [colsSteps]
      rw [e, runSteps_append, columnSteps_back hM hs he hl, ← ih]
      rfl
  simp only [Mesh.apply, if_true, meshSteps, List.reverse_append, key, columnOrder,
    List.reverse_reverse]
  rfl

section
variable {E : InSituEngine} {P : Params} (hE : E.Runs n M P)
include hE

theorem fprop_eq (v : ℕ → ℂ) : E.fprop v = v :: snapsOf (meshSteps P M.nodes) v := by
  have := jaxPropagate_eq hM P (hE.fprop v)
  rw [propagateExplicit_steps hM hs he hl] at this
  simpa using this.symm

theorem bprop_eq (v : ℕ → ℂ) : E.bprop v = v :: snapsOf (meshSteps P M.nodes).reverse v := by
  have := jaxPropagateBack_eq hM P (hE.bprop v)
  rw [propagateExplicitBack_steps hM hs he hl] at this
  simpa using this.symm

theorem bapply_eq (v : ℕ → ℂ) : E.bapply v = runSteps (meshSteps P M.nodes).reverse v := by
  have := hE.bapply v
  simp only [Mesh.JaxApply, if_true] at this
  rw [jaxScan_eq hM this, ← apply_back_steps hM hs he hl]
  rfl

theorem fprop_get (v : ℕ → ℂ) (t : ℕ) (ht : t ≤ (meshSteps P M.nodes).length) :
    (E.fprop v).getD t 0 = runSteps ((meshSteps P M.nodes).take t) v := by
  rw [fprop_eq hM hs he hl hE, List.getD_eq_getElem?_getD, snapsOf_get _ _ _ ht]
  rfl

theorem bprop_get (v : ℕ → ℂ) (t : ℕ) (ht : t ≤ (meshSteps P M.nodes).length) :
    (E.bprop v).reverse.getD t 0 = runSteps ((meshSteps P M.nodes).drop t).reverse v := by
  set S := meshSteps P M.nodes with hS
  have hlen : (E.bprop v).length = S.length + 1 := by
    rw [bprop_eq hM hs he hl hE]; simp [snapsOf_length, ← hS]
  rw [List.getD_eq_getElem?_getD, List.getElem?_reverse (by omega), hlen,
    bprop_eq hM hs he hl hE, ← hS]
  have : S.length + 1 - 1 - t = S.length - t := by omega
  rw [this, snapsOf_get _ _ _ (by rw [List.length_reverse]; omega), List.take_reverse]
  have : S.length - (S.length - t) = t := by omega
  rw [this]
  rfl

theorem adjointInputs_eq (analog : Bool) (g : ℕ → ℂ) :
    adjointInputs E analog g = runSteps (meshSteps P M.nodes).reverse g := by
  unfold adjointInputs
  cases analog
  · simp only [Bool.false_eq_true, if_false]
    have := bprop_get hM hs he hl hE g 0 (Nat.zero_le _)
    simp only [List.drop_zero] at this
    rw [← this]
    cases (E.bprop g).reverse <;> rfl
  · simp only [if_true]
    funext r
    rw [bapply_eq hM hs he hl hE, ioPass, mul_comm I, norm_mul_exp_arg_mul_I]

/-- The measured power is twice the product of forward and backward fields. -/
theorem gradPower_eq (analog : Bool) (x g : ℕ → ℂ) (t r : ℕ)
    (ht : t ≤ (meshSteps P M.nodes).length) :
    gradPower E analog x g t r =
      2 * (I * runSteps ((meshSteps P M.nodes).take t) x r *
        runSteps ((meshSteps P M.nodes).drop t).reverse g r).re := by
  set S := meshSteps P M.nodes with hS
  have hsy : ∀ s ∈ S.take t, SymStep n s := fun s h => meshSteps_sym hM P s (List.mem_of_mem_take h)
  have hw := adjointInputs_eq hM hs he hl hE analog g
  have hret : runSteps (S.take t) (fun r => starRingEnd ℂ (adjointInputs E analog g r)) r =
      starRingEnd ℂ (runSteps (S.drop t).reverse g r) := by
    rw [hw, ← hS]
    conv_lhs => rw [← List.take_append_drop t S, List.reverse_append, List.take_append_drop t S]
    have : (fun r => starRingEnd ℂ
        (runSteps ((S.drop t).reverse ++ (S.take t).reverse) g r)) =
        fun r => starRingEnd ℂ (runSteps (S.take t).reverse (runSteps (S.drop t).reverse g) r) := by
      rw [runSteps_append]
    rw [this, runSteps_retrace hsy]
  have hcomb : ∀ c : ℂ, (E.fprop fun r => x r + c * starRingEnd ℂ (adjointInputs E analog g r)).getD
      t 0 r = runSteps (S.take t) x r + c * starRingEnd ℂ (runSteps (S.drop t).reverse g r) := by
    intro c
    rw [fprop_get hM hs he hl hE _ t ht, ← hS, runSteps_add hsy, runSteps_smul hsy]
    change _ + c * runSteps _ _ r = _
    rw [hret]
  have hsub : (fun r => x r - I * starRingEnd ℂ (adjointInputs E analog g r)) =
      fun r => x r + (-I) * starRingEnd ℂ (adjointInputs E analog g r) := by
    funext r; ring
  unfold gradPower
  simp only [hsub, hcomb]
  rw [fprop_get hM hs he hl hE _ t ht, bprop_get hM hs he hl hE _ t ht, ← hS]
  generalize runSteps (S.take t) x r = a
  generalize runSteps (S.drop t).reverse g r = b
  cases analog
  · simp only [Bool.false_eq_true, if_false, ← normSq_eq_norm_sq, normSq_apply]
    simp
    ring
  · simp only [if_true, ← normSq_eq_norm_sq, normSq_apply]
    simp
    ring

end
end

/-! ### Derivatives -/

theorem hasDerivAt_re_exp (z : ℂ) (x : ℝ) :
    HasDerivAt (fun x : ℝ => (exp (I * x) * z).re) ((I * (exp (I * x) * z)).re) x := by
  have e : ∀ x : ℝ, exp (I * x) = Real.cos x + Real.sin x * I := by
    intro x; rw [mul_comm, exp_mul_I, ofReal_cos, ofReal_sin]
  have h1 : (fun x : ℝ => (exp (I * x) * z).re) =
      fun x : ℝ => Real.cos x * z.re - Real.sin x * z.im := by
    funext x; rw [e]; simp [-ofReal_cos, -ofReal_sin]
  rw [h1, e]
  have := ((Real.hasDerivAt_cos x).mul_const z.re).sub ((Real.hasDerivAt_sin x).mul_const z.im)
  have h2 : (I * ((Real.cos x + Real.sin x * I) * z)).re =
      -Real.sin x * z.re - Real.cos x * z.im := by
    simp [-ofReal_cos, -ofReal_sin]; ring
  rw [h2]
  exact this

theorem parallelTransform_congr {el el' : ℕ → Elements} {nodes : List Node}
    (h : ∀ a ∈ nodes, el a.id = el' a.id) :
    parallelTransform el nodes = parallelTransform el' nodes := by
  funext v
  unfold parallelTransform columnWrites
  congr 2
  · apply List.map_congr_left; intro a ha; rw [h a ha]
  · apply List.map_congr_left; intro a ha; rw [h a ha]

theorem phaseStep_congr {p p' : ℕ → ℝ} {nodes : List Node} (h : ∀ a ∈ nodes, p a.id = p' a.id) :
    phaseStep p nodes = phaseStep p' nodes :=
  parallelTransform_congr fun a ha => by rw [h a ha]

/-- Changing the phase of one node changes one entry. -/
theorem phaseStep_update {nodes : List Node} (hg : GoodColumn nodes) (p : ℕ → ℝ) {a : Node}
    (ha : a ∈ nodes) (hid : ∀ b ∈ nodes, b.id = a.id → b = a) (x : ℝ) (F : ℕ → ℂ) :
    phaseStep (Function.update p a.id x) nodes F =
      Function.update (phaseStep p nodes F) a.top (exp (I * x) * F a.top) := by
  have h0 := parallelTransform_result (el := fun k => phaseEl (exp (I * p k)) 1) hg F
  refine (parallelTransform_result hg F).unique ⟨?_, ?_, ?_⟩
  · intro b hb
    by_cases hba : b = a
    · subst hba; simp [phaseEl]
    · have h1 : b.top ≠ a.top := fun e => hba (hg.eq_of hb ha (Or.inl e))
      have h2 : b.id ≠ a.id := fun e => hba (hid b hb e)
      rw [Function.update_of_ne h1, phaseStep, h0.top b hb]
      simp [phaseEl, Function.update_of_ne h2]
  · intro b hb
    have h1 : b.bottom ≠ a.top := fun e => by
      have := hg.eq_of hb ha (Or.inr (Or.inr (Or.inl e)))
      subst this; exact hg.ne b hb e.symm
    rw [Function.update_of_ne h1, phaseStep, h0.bottom b hb]
    simp [phaseEl]
  · intro r hr
    rw [Function.update_of_ne (hr a ha).1, phaseStep, h0.other r hr]

theorem phaseStep_top {nodes : List Node} (hg : GoodColumn nodes) (p : ℕ → ℝ) {a : Node}
    (ha : a ∈ nodes) (F : ℕ → ℂ) : phaseStep p nodes F a.top = exp (I * p a.id) * F a.top := by
  rw [phaseStep, (parallelTransform_result hg F).top a ha]; simp [phaseEl]

/-- Derivative of `Re Σ G · out` with respect to one phase. -/
theorem phase_derivative {n : ℕ} {nodes : List Node} (hg : GoodColumn nodes) (p : ℕ → ℝ) {a : Node}
    (ha : a ∈ nodes) (hid : ∀ b ∈ nodes, b.id = a.id → b = a) (han : a.top < n)
    (A C : List ((ℕ → ℂ) → ℕ → ℂ)) (hC : ∀ s ∈ C, SymStep n s) (X G : ℕ → ℂ) :
    HasDerivAt (fun x => (∑ r ∈ Finset.range n, G r *
        runSteps (A ++ phaseStep (Function.update p a.id x) nodes :: C) X r).re)
      (I * runSteps A X a.top * runSteps (phaseStep p nodes :: C).reverse G a.top).re
      (p a.id) := by
  set F := runSteps A X
  set B := runSteps C.reverse G
  have h1 : ∀ x, (∑ r ∈ Finset.range n, G r *
        runSteps (A ++ phaseStep (Function.update p a.id x) nodes :: C) X r).re =
      (exp (I * x) * (B a.top * F a.top)).re +
      (∑ r ∈ (Finset.range n).erase a.top, B r * phaseStep p nodes F r).re := by
    intro x
    simp only [runSteps_append, runSteps_cons]
    rw [runSteps_symm hC, phaseStep_update hg p ha hid,
      ← Finset.add_sum_erase _ _ (Finset.mem_range.2 han), add_re]
    congr 2
    · simp only [Function.update_self]
      change B a.top * (exp (I * x) * F a.top) = _
      ring
    · apply Finset.sum_congr rfl
      intro r hr
      rw [Function.update_of_ne (Finset.mem_erase.1 hr).1]
  simp only [h1]
  have h2 := (hasDerivAt_re_exp (B a.top * F a.top) (p a.id)).add_const
    (∑ r ∈ (Finset.range n).erase a.top, B r * phaseStep p nodes F r).re
  have h3 : I * F a.top * runSteps (phaseStep p nodes :: C).reverse G a.top =
      I * (exp (I * p a.id) * (B a.top * F a.top)) := by
    rw [List.reverse_cons, runSteps_append, runSteps_cons, runSteps_nil, phaseStep_top hg p ha]
    change I * F a.top * (exp (I * p a.id) * B a.top) = _
    ring
  rw [h3]
  exact h2

/-! ### The objective -/

/-- Specification: `Re Σ g · (mesh.matrix() @ x)`, summed over the columns of the input. Its
derivatives with respect to the phases are what a vector-Jacobian product with cotangent `G` must
return (JAX's convention for complex cotangents). -/
noncomputable def vjpObjective (n : ℕ) (M : Mesh) (P : Params) {K : ℕ} (X G : Fin K → ℕ → ℂ) : ℝ :=
  ∑ c, (∑ i : Fin n, G c i * (M.matrix n P false).mulVec (fun j => X c j) i).re

theorem vjpObjective_eq {n : ℕ} {M : Mesh} (hM : M.WellFormed n) (hs : M.style = .top)
    (he : M.Errorless) (hl : M.Lossless) (P : Params) {K : ℕ} (X G : Fin K → ℕ → ℂ) :
    vjpObjective n M P X G =
      ∑ c, (∑ r ∈ Finset.range n, G c r * runSteps (meshSteps P M.nodes) (X c) r).re := by
  unfold vjpObjective
  apply Finset.sum_congr rfl
  intro c _
  have : (fun j : Fin n => X c j) = restrict n (X c) := rfl
  rw [this, Mesh.matrix_mulVec hM, apply_steps hM hs he hl,
    ← Fin.sum_univ_eq_sum_range (fun r => G c r * runSteps (meshSteps P M.nodes) (X c) r)]
  rfl

theorem colsSteps_append (P : Params) (nodes : List Node) (a b : List ℕ) :
    colsSteps P nodes (a ++ b) = colsSteps P nodes a ++ colsSteps P nodes b := by
  simp [colsSteps]

theorem colsSteps_length (P : Params) (nodes : List Node) (cols : List ℕ) :
    (colsSteps P nodes cols).length = 4 * cols.length := by
  induction cols with
  | nil => rfl
  | cons k ks ih =>
    have : colsSteps P nodes (k :: ks) =
        columnSteps P (columnNodes nodes k) ++ colsSteps P nodes ks := by simp [colsSteps]
    rw [this, List.length_append, ih]; simp [columnSteps]; omega

theorem range_split {k L : ℕ} (h : k < L) : ∃ post : List ℕ,
    List.range L = List.range k ++ k :: post ∧ ∀ j ∈ post, j ≠ k := by
  refine ⟨(List.range (L - k - 1)).map (fun i => k + 1 + i), ?_, ?_⟩
  · have : L = k + (1 + (L - k - 1)) := by omega
    conv_lhs => rw [this, List.range_add, List.range_add]
    simp [Function.comp_def, Nat.add_assoc]
  · intro j hj
    obtain ⟨i, _, rfl⟩ := List.mem_map.1 hj
    omega

/-- Columns without the node are unaffected by its phases. -/
theorem colsSteps_congr {P P' : Params} {nodes : List Node} {cols : List ℕ}
    (h : ∀ k ∈ cols, ∀ a ∈ columnNodes nodes k, P.thetas a.id = P'.thetas a.id ∧
      P.phis a.id = P'.phis a.id) : colsSteps P nodes cols = colsSteps P' nodes cols := by
  unfold colsSteps
  rw [List.flatMap_def, List.flatMap_def]
  congr 1
  apply List.map_congr_left
  intro k hk
  unfold columnSteps
  rw [phaseStep_congr fun a ha => (h k hk a ha).1, phaseStep_congr fun a ha => (h k hk a ha).2]

end Simphox
