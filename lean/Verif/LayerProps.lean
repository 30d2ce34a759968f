import Verif.Layer
import Verif.MeshProps
import Verif.MeshHeapProps
import Verif.MeshExtrasProps
import Verif.HessianRun

/-! # `InSituBackpropLayer` (C122) -/

namespace Simphox

open Complex Matrix

theorem ioPass_id (z : ℂ) : ioPass z = z := by
  rw [ioPass, mul_comm I]; exact norm_mul_exp_arg_mul_I z

/-- C122, forward pass: with any trainable parameters the layer multiplies every row of the batch by
the mesh's matrix and then applies the activation; it always returns something. -/
theorem C122_forward (n : ℕ) (M : Mesh) (hM : M.WellFormed n) (P : Params) {K : ℕ} {β : Type}
    (act : (Fin K → Fin n → ℂ) → β) (X : Fin K → Fin n → ℂ) (Y : β) :
    LayerCall n M P act X Y ↔ Y = act fun c => (M.matrix n P false).mulVec (X c) := by
  have e : ∀ cols : Fin n → ℕ → ℂ,
      (∀ j : Fin n, M.JaxApply n P false (fun r => if r = j.val then 1 else 0) (cols j)) →
      (fun (c : Fin K) (i : Fin n) => ∑ j, ioPass (cols j i) * X c j) = fun c => (M.matrix n P false).mulVec (X c) := by
    intro cols h
    funext c i
    simp only [mulVec, dotProduct, Mesh.matrix, of_apply, ioPass_id]
    refine Finset.sum_congr rfl fun j _ => ?_
    rw [(C11_jax_eq_numpy n M hM P false _).1 _ (h j)]
  constructor
  · rintro ⟨cols, h, rfl⟩
    rw [e cols h]
  · rintro rfl
    choose cols h using fun j : Fin n =>
      (C11_jax_eq_numpy n M hM P false (fun r => if r = j.val then 1 else 0)).2
    exact ⟨cols, h, by rw [e cols h]⟩

theorem zeroGammas_facts (H : MHeap) (m : MeshObj) (hv : H.Valid m) :
    (H.zeroGammas m).2.Valid (H.zeroGammas m).1 ∧
    (H.zeroGammas m).2.nodesOf (H.zeroGammas m).1 = H.nodesOf m ∧
    (H.zeroGammas m).2.values (H.zeroGammas m).1 =
      (H.arr m.thetas, H.arr m.phis, (H.arr m.gammas).map fun _ => 0) := by
  have old : ∀ a < H.arrs.length, (H.zeroGammas m).2.arr a = H.arr a := by
    intro a ha
    simp only [MHeap.zeroGammas, MHeap.arr, List.getD_eq_getElem?_getD]
    rw [List.getElem?_append_left ha]
  refine ⟨⟨hv.refs, ?_, ?_, ?_⟩, rfl, ?_⟩
  · have := hv.thetas; simp [MHeap.zeroGammas]; omega
  · have := hv.phis; simp [MHeap.zeroGammas]; omega
  · simp [MHeap.zeroGammas]
  · simp only [MHeap.values]
    show ((H.zeroGammas m).2.arr m.thetas, (H.zeroGammas m).2.arr m.phis, (H.zeroGammas m).2.arr H.arrs.length) = _
    rw [old _ hv.thetas, old _ hv.phis]
    simp [MHeap.zeroGammas, MHeap.arr, List.getD_eq_getElem?_getD]

/-- What a mesh object shows: nodes, errors, losses, style and phases. -/
noncomputable def MHeap.view (H : MHeap) (m : MeshObj) : Mesh × List ℝ × List ℝ × List ℝ := (H.meshOf m, H.values m)

theorem layer_core (H : MHeap) (m : MeshObj) (hv : H.Valid m) (hrn : m.refs.Nodup)
    (hid : (m.refs.map fun r => (H.node r).node.id).Nodup) (hbe : m.bsErrors.length = m.refs.length)
    (hlo : m.losses.length = m.refs.length) (de dl : List (ℝ × ℝ)) (hde : de.length = m.refs.length)
    (hdl : dl.length = m.refs.length) (th ph ga : List ℝ) :
    let v := addErrorVariance m.bsErrors m.losses 0 0 true de dl
    let r := H.addError m v.1 v.2 th ph ga
    r.2.view r.1 = H.view m ∧ r.2.view m = H.view m ∧
      (∀ ops, (r.2.runs r.1 ops).2.view m = H.view m) ∧ ∀ ops, (r.2.runs m ops).2.view r.1 = H.view m := by
  intro v r
  have hv12 : v = (m.bsErrors, m.losses) := by
    obtain ⟨-, -, -, -, h1, h2⟩ := C118_variance m.bsErrors m.losses 0 0 true de dl (by omega) (by omega)
    exact Prod.ext (h1 rfl) (h2 rfl)
  obtain ⟨c1, c2, c3, c4, c5, c6, c7, c8⟩ := C22_add_error_independent H m hv hrn hid v.1 v.2 th ph ga
  have hobs : ∀ (K : MHeap) (a b : MeshObj) (J : MHeap), K.observe a = J.observe a → K.view a = J.view a := by
    intro K a b J h
    simp only [MHeap.observe, Prod.mk.injEq] at h
    simp only [MHeap.view, MHeap.meshOf, h.2.1, MHeap.values] at h ⊢
    simp only [h.2.2]
  have hr1 : r.2.view r.1 = H.view m := by
    simp only [MHeap.view, MHeap.meshOf]
    rw [c4, c2, c3, (c5 (by rw [hv12]; exact hbe)).2, (c6 (by rw [hv12]; exact hlo)).2, hv12]
  refine ⟨hr1, hobs _ _ m _ c1, fun ops => hobs _ _ m _ (c7 ops), fun ops => ?_⟩
  rw [← hr1]
  exact hobs _ _ m _ (c8 ops)

/-- C122 with `set_gammas_zero=False` and no loss variation: the layer's mesh is an independent copy
of the caller's mesh with the same phases, and the caller's mesh is what it was. -/
theorem C122_copy_partial (H : MHeap) (m : MeshObj) (hv : H.Valid m) (hrn : m.refs.Nodup)
    (hid : (m.refs.map fun r => (H.node r).node.id).Nodup) (hbe : m.bsErrors.length = m.refs.length)
    (hlo : m.losses.length = m.refs.length) (de dl : List (ℝ × ℝ)) (hde : de.length = m.refs.length)
    (hdl : dl.length = m.refs.length) (th ph ga : List ℝ) :
    let r := H.makeLayer m false 0 de dl th ph ga
    let caller := r.1
    let layer := r.2.1
    let H' := r.2.2
    caller = m ∧ H'.view m = H.view m ∧ H'.view layer = H.view m ∧
      (∀ ops, (H'.runs layer ops).2.view m = H.view m) ∧ ∀ ops, (H'.runs m ops).2.view layer = H.view m := by
  obtain ⟨h1, h2, h3, h4⟩ := layer_core H m hv hrn hid hbe hlo de dl hde hdl th ph ga
  exact ⟨rfl, h2, h1, h3, h4⟩

/-- C122 as built by default: the layer is a copy of the mesh with zero output phases, and so is the
caller's own mesh afterwards. -/
theorem C122_default_partial (H : MHeap) (m : MeshObj) (hv : H.Valid m) (hrn : m.refs.Nodup)
    (hid : (m.refs.map fun r => (H.node r).node.id).Nodup) (hbe : m.bsErrors.length = m.refs.length)
    (hlo : m.losses.length = m.refs.length) (de dl : List (ℝ × ℝ)) (hde : de.length = m.refs.length)
    (hdl : dl.length = m.refs.length) (th ph ga : List ℝ) :
    let r := H.makeLayer m true 0 de dl th ph ga
    let caller := r.1
    let layer := r.2.1
    let H' := r.2.2
    H'.view layer = (H.meshOf m, H.arr m.thetas, H.arr m.phis, (H.arr m.gammas).map fun _ => 0) ∧
    H'.view caller = (H.meshOf m, H.arr m.thetas, H.arr m.phis, (H.arr m.gammas).map fun _ => 0) := by
  obtain ⟨z1, z2, z3⟩ := zeroGammas_facts H m hv
  obtain ⟨h1, h2, -, -⟩ := layer_core (H.zeroGammas m).2 (H.zeroGammas m).1 z1 hrn hid hbe hlo de dl hde hdl th ph ga
  have e : (H.zeroGammas m).2.view (H.zeroGammas m).1 =
      (H.meshOf m, H.arr m.thetas, H.arr m.phis, (H.arr m.gammas).map fun _ => 0) := by
    simp only [MHeap.view, z3]
    simp only [MHeap.meshOf, z2]
    rfl
  exact ⟨h1.trans e, h2.trans e⟩

/-- C122 fails by default: constructing a layer changes the mesh that was passed in. Every output that
had a phase `gamma` with `exp(i gamma) ≠ 1` and is reached by some light is different afterwards. -/
theorem C122_caller_counterexample (H : MHeap) (m : MeshObj) (hv : H.Valid m) (hrn : m.refs.Nodup)
    (hid : (m.refs.map fun r => (H.node r).node.id).Nodup) (hbe : m.bsErrors.length = m.refs.length)
    (hlo : m.losses.length = m.refs.length) (de dl : List (ℝ × ℝ)) (hde : de.length = m.refs.length)
    (hdl : dl.length = m.refs.length) (th ph ga : List ℝ) (v : ℕ → ℂ) (i : ℕ)
    (hi : exp (I * (H.paramsOf m).gammas i) ≠ 1) (hne : (H.meshOf m).apply (H.paramsOf m) false v i ≠ 0) :
    let r := H.makeLayer m true 0 de dl th ph ga
    let caller := r.1
    let H' := r.2.2
    (H'.meshOf caller).apply (H'.paramsOf caller) false v i ≠ (H.meshOf m).apply (H.paramsOf m) false v i := by
  intro r caller H'
  obtain ⟨-, h⟩ := C122_default_partial H m hv hrn hid hbe hlo de dl hde hdl th ph ga
  have h : H'.view caller = (H.meshOf m, H.arr m.thetas, H.arr m.phis, (H.arr m.gammas).map fun _ => 0) := h
  simp only [MHeap.view, MHeap.values, Prod.mk.injEq] at h
  obtain ⟨e1, e2, e3, e4⟩ := h
  have hP : H'.paramsOf caller = { H.paramsOf m with gammas := fun _ => 0 } := by
    simp only [MHeap.paramsOf, e2, e3, e4]
    congr 1
    funext k
    simp only [List.getD_eq_getElem?_getD, List.getElem?_map]
    cases (H.arr m.gammas)[k]? <;> simp
  rw [e1, hP]
  have key : (H.meshOf m).apply (H.paramsOf m) false v i = exp (I * (H.paramsOf m).gammas i) *
      (H.meshOf m).apply { H.paramsOf m with gammas := fun _ => 0 } false v i := by
    simp [Mesh.apply, gammaApply]
    rfl
  intro h
  rw [h] at key
  exact hi (mul_right_cancel₀ hne (by rw [one_mul]; exact key.symm))

/-- Non-vacuity: a mesh with one node on rails 0 and 1, `theta = pi`, `gammas = (pi, pi)`. -/
noncomputable def layerHeap : MHeap :=
  ⟨[⟨⟨0, 0, 1, 2, 1, 1, 0⟩, (0, 0), (0, 0)⟩], [[Real.pi], [0], [Real.pi, Real.pi]]⟩

noncomputable def layerMesh : MeshObj :=
  ⟨[0], .top, [0], [0], [(0, 0)], [(0, 0)], 1, 0, 1, 2⟩

example : layerHeap.Valid layerMesh ∧ layerMesh.refs.Nodup ∧
    (layerMesh.refs.map fun r => (layerHeap.node r).node.id).Nodup ∧
    layerMesh.bsErrors.length = layerMesh.refs.length ∧ layerMesh.losses.length = layerMesh.refs.length ∧
    exp (I * (layerHeap.paramsOf layerMesh).gammas 1) ≠ 1 ∧
    (layerHeap.meshOf layerMesh).apply (layerHeap.paramsOf layerMesh) false (fun r => if r = 1 then 1 else 0) 1 ≠ 0 ∧
    (layerHeap.meshOf layerMesh).WellFormed 2 := by
  have hw : (layerHeap.meshOf layerMesh).WellFormed 2 := by
    have hn : (layerHeap.meshOf layerMesh).nodes = [⟨0, 0, 1, 2, 1, 1, 0⟩] := rfl
    refine ⟨rfl, rfl, ?_, ?_, ?_⟩
    · rw [hn]; simp
    · rw [hn]; simp
    · rw [hn]; simp [ColumnsDisjoint]
  have hx : exp (I * (layerHeap.paramsOf layerMesh).gammas 1) ≠ 1 := by
    have : (layerHeap.paramsOf layerMesh).gammas 1 = Real.pi := by simp [MHeap.paramsOf, layerHeap, layerMesh, MHeap.arr]
    rw [this, mul_comm, exp_pi_mul_I]; norm_num
  refine ⟨⟨?_, ?_, ?_, ?_⟩, ?_, ?_, rfl, rfl, hx, ?_, hw⟩
  · simp [layerMesh, layerHeap]
  · simp [layerMesh, layerHeap]
  · simp [layerMesh, layerHeap]
  · simp [layerMesh, layerHeap]
  · simp [layerMesh]
  · simp [layerMesh]
  · have e : (layerHeap.meshOf layerMesh).apply (layerHeap.paramsOf layerMesh) false (fun r => if r = 1 then 1 else 0) 1 =
        exp (I * (layerHeap.paramsOf layerMesh).gammas 1) *
          (singleMesh .top (0, 0) (0, 0)).matrix 2 (singleParams Real.pi 0) false 1 1 := by
      have hP : (layerHeap.paramsOf layerMesh).thetas 0 = Real.pi ∧ (layerHeap.paramsOf layerMesh).phis 0 = 0 := by
        simp [MHeap.paramsOf, layerHeap, layerMesh, MHeap.arr]
      have hel : (layerHeap.meshOf layerMesh).elements (layerHeap.paramsOf layerMesh) false 0 =
          (singleMesh .top (0, 0) (0, 0)).elements (singleParams Real.pi 0) false 0 := by
        simp only [Mesh.elements, hP.1, hP.2]
        rfl
      have hn : (layerHeap.meshOf layerMesh).nodes = [⟨0, 0, 1, 2, 1, 1, 0⟩] := rfl
      have hc : columnsApply ((layerHeap.meshOf layerMesh).elements (layerHeap.paramsOf layerMesh) false)
          (layerHeap.meshOf layerMesh).nodes (columnOrder (layerHeap.meshOf layerMesh).nodes false)
            (fun r => if r = 1 then 1 else 0) =
          columnsApply ((singleMesh .top (0, 0) (0, 0)).elements (singleParams Real.pi 0) false)
          (singleMesh .top (0, 0) (0, 0)).nodes (columnOrder (singleMesh .top (0, 0) (0, 0)).nodes false)
            (fun r => if r = 1 then 1 else 0) := by
        show parallelTransform _ [⟨0, 0, 1, 2, 1, 1, 0⟩] _ = parallelTransform _ [⟨0, 0, 1, 2, 1, 1, 0⟩] _
        funext r
        simp only [parallelTransform, columnWrites, hel, List.map]
      simp only [Mesh.apply, Mesh.matrix, of_apply, Bool.false_eq_true, if_false, gammaApply]
      rw [hc]
      simp [singleParams]
    rw [e]
    refine mul_ne_zero (exp_ne_zero _) ?_
    rw [singleMesh_matrix]
    have := (top_elements (singleParams Real.pi 0) 0).2
    show (mziElements .top false 0 0 0 0 Real.pi 0).t22 ≠ 0
    simp only [singleParams] at this
    rw [this, cr]
    show (1 - exp (I * (Real.pi : ℂ))) / 2 ≠ 0
    rw [mul_comm, exp_pi_mul_I]
    norm_num

end Simphox
