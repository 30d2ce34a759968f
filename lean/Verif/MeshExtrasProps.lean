import Verif.MeshExtras

/-! # parallel_mzi, phases, add_error_mean, add_error_variance (C116-C118) -/

namespace Simphox

open Matrix Complex

/-! ### C116 -/

theorem mesh_goodColumn {n : ℕ} {M : Mesh} (hM : M.WellFormed n) (h1 : ∀ a ∈ M.nodes, a.column = 0) :
    GoodColumn M.nodes := by
  refine ⟨fun a ha => (hM.rails a ha).2.2, ?_⟩
  have hd := hM.disjoint
  unfold ColumnsDisjoint at hd
  exact hd.imp_of_mem fun {a b} ha hb hab => hab ((h1 a ha).trans (h1 b hb).symm)

theorem singleColumn_apply {M : Mesh} (hne : M.nodes ≠ []) (h1 : ∀ a ∈ M.nodes, a.column = 0)
    (P : Params) (v : ℕ → ℂ) :
    M.apply P false v = gammaApply P.gammas (parallelTransform (M.elements P false) M.nodes v) := by
  have hn : numColumns M.nodes = 1 := by
    obtain ⟨a, ha⟩ := List.exists_mem_of_ne_nil _ hne
    refine numColumns_eq_of (fun b hb => ?_) ⟨a, ha, ?_⟩
    · rw [h1 b hb]; exact Nat.zero_lt_one
    · rw [h1 a ha]
  have hc : columnNodes M.nodes 0 = M.nodes := by
    unfold columnNodes
    exact List.filter_eq_self.2 fun a ha => by simpa using h1 a ha
  simp [Mesh.apply, columnOrder, columnsApply, hn, hc]

/-- C116, given parameters: for a mesh of one column, `parallel_transform` with the elements of
`parallel_mzi(thetas, phis)`, followed by the output phases, is what the mesh does with these
parameters, for every style, error, loss and input; with `phase_style=s` it is what the mesh of
style `s` does. -/
theorem C116_given_partial (n : ℕ) (M : Mesh) (_hM : M.WellFormed n) (hne : M.nodes ≠ [])
    (h1 : ∀ a ∈ M.nodes, a.column = 0) (P Q : Params) (v : ℕ → ℂ) :
    gammaApply Q.gammas (M.parallelTransform v (M.parallelMzi P (some Q.thetas) (some Q.phis) none false)) =
      M.apply Q false v ∧
    ∀ s : PhaseStyle, gammaApply Q.gammas
        (M.parallelTransform v (M.parallelMzi P (some Q.thetas) (some Q.phis) (some s) false)) =
      Mesh.apply { M with style := s } Q false v := by
  refine ⟨by rw [singleColumn_apply hne h1]; rfl, fun s => ?_⟩
  rw [singleColumn_apply (M := { M with style := s }) hne h1]; rfl

/-- Neither both elements fed by the top input vanish: a node passes some of its top input on. -/
theorem topInput_ne_zero (el er ll lr theta phi : ℝ) :
    (mziElements .top false el er ll lr theta phi).t11 ≠ 0 ∨
      (mziElements .top false el er ll lr theta phi).t12 ≠ 0 := by
  by_contra hcon
  push Not at hcon
  obtain ⟨ha, hb⟩ := hcon
  simp only [mziElements, mziTerms, mul_eq_zero, exp_ne_zero, or_false, I_ne_zero, false_or] at ha hb
  set x : ℂ := exp (I * theta + ((Real.log 10 * ll / 20 : ℝ) : ℂ)) with hx
  have hx0 : x ≠ 0 := exp_ne_zero _
  push_cast at ha hb
  set a : ℂ := (Real.pi : ℂ) / 4 + er
  set b : ℂ := (Real.pi : ℂ) / 4 + el
  have h1 : cos b * x = 0 := by
    have := Complex.sin_sq_add_cos_sq a
    linear_combination cos a * ha + sin a * hb - cos b * x * this
  have h2 : sin b = 0 := by
    have := Complex.sin_sq_add_cos_sq a
    linear_combination - sin a * ha + cos a * hb - sin b * this
  have h3 : cos b = 0 := by simpa [hx0] using h1
  have := Complex.sin_sq_add_cos_sq b
  rw [h2, h3] at this
  norm_num at this

/-- C116, defaults: `parallel_mzi()` is the programmed mesh if and only if every `phi` equals its
`theta` up to `2π`: the default of `phis` is the array of thetas (TOP meshes of one column). -/
theorem C116_default_iff_partial (n : ℕ) (M : Mesh) (hM : M.WellFormed n) (hs : M.style = .top)
    (hne : M.nodes ≠ []) (h1 : ∀ a ∈ M.nodes, a.column = 0) (P : Params) :
    (∀ v, gammaApply P.gammas (M.parallelTransform v (M.parallelMzi P none none none false)) =
      M.apply P false v) ↔
    ∀ a ∈ M.nodes, exp (I * P.phis a.id) = exp (I * P.thetas a.id) := by
  have hg := mesh_goodColumn hM h1
  have key : ∀ k, (M.parallelMzi P none none none false k).t21 = (M.elements P false k).t21 ∧
      (M.parallelMzi P none none none false k).t22 = (M.elements P false k).t22 ∧
      exp (I * P.phis k) * (M.parallelMzi P none none none false k).t11 =
        exp (I * P.thetas k) * (M.elements P false k).t11 ∧
      exp (I * P.phis k) * (M.parallelMzi P none none none false k).t12 =
        exp (I * P.thetas k) * (M.elements P false k).t12 := by
    intro k
    simp only [Mesh.parallelMzi, Mesh.elements, mziElements, hs, Option.getD_none]
    refine ⟨by simp, trivial, ?_, ?_⟩
    · simp only [exp_add]; ring
    · simp only [Bool.false_eq_true, if_false, sub_zero, mul_one, exp_add]; ring
  have cancel : ∀ w w' : ℕ → ℂ, gammaApply P.gammas w = gammaApply P.gammas w' → w = w' := by
    intro w w' h
    funext r
    have := congrFun h r
    simpa [gammaApply, exp_ne_zero] using this
  constructor
  · intro h a ha
    have hpt : ∀ v, parallelTransform (M.parallelMzi P none none none false) M.nodes v =
        parallelTransform (M.elements P false) M.nodes v := by
      intro v
      have := h v
      rw [singleColumn_apply hne h1] at this
      exact cancel _ _ this
    have hv := hpt (fun r => if r = a.top then 1 else 0)
    have e1 := congrFun hv a.top
    have e2 := congrFun hv a.bottom
    rw [(parallelTransform_result hg _).top a ha, (parallelTransform_result hg _).top a ha] at e1
    rw [(parallelTransform_result hg _).bottom a ha, (parallelTransform_result hg _).bottom a ha] at e2
    have hab := (hg.ne a ha).symm
    simp only [if_true, hab, if_false, mul_zero, add_zero, mul_one] at e1 e2
    obtain ⟨_, _, k1, k2⟩ := key a.id
    have hnz := topInput_ne_zero (M.errors.getD a.id (0, 0)).1 (M.errors.getD a.id (0, 0)).2
      (M.losses.getD a.id (0, 0)).1 (M.losses.getD a.id (0, 0)).2 (P.thetas a.id) (P.phis a.id)
    have hel : M.elements P false a.id = mziElements .top false (M.errors.getD a.id (0, 0)).1
      (M.errors.getD a.id (0, 0)).2 (M.losses.getD a.id (0, 0)).1 (M.losses.getD a.id (0, 0)).2
      (P.thetas a.id) (P.phis a.id) := by rw [Mesh.elements, hs]
    rw [← hel] at hnz
    rcases hnz with hz | hz
    · rw [e1] at k1
      exact mul_right_cancel₀ hz k1
    · rw [e2] at k2
      exact mul_right_cancel₀ hz k2
  · intro h v
    rw [singleColumn_apply hne h1]
    congr 1
    have hr := parallelTransform_result (el := M.elements P false) hg v
    refine (parallelTransform_result (el := M.parallelMzi P none none none false) hg v).unique ?_ |>.trans rfl
    have heq : ∀ a ∈ M.nodes, M.parallelMzi P none none none false a.id = M.elements P false a.id := by
      intro a ha
      obtain ⟨k3, k4, k1, k2⟩ := key a.id
      have hx := h a ha
      rw [hx] at k1 k2
      have k1' := mul_left_cancel₀ (exp_ne_zero _) k1
      have k2' := mul_left_cancel₀ (exp_ne_zero _) k2
      cases hE : M.parallelMzi P none none none false a.id
      cases hE' : M.elements P false a.id
      simp_all
    exact ⟨fun a ha => by rw [heq a ha]; exact hr.top a ha,
      fun a ha => by rw [heq a ha]; exact hr.bottom a ha, hr.other⟩

/-- C116 fails: the single ideal MZI programmed to `theta = 0`, `phi = π`. `parallel_mzi()` sends
the top input to the bottom output with the opposite sign. -/
theorem C116_default_counterexample :
    let M := singleMesh .top (0, 0) (0, 0)
    let P := singleParams 0 Real.pi
    M.WellFormed 2 ∧ (M.parallelMzi P none none none false 0).t12 = I ∧
      M.matrix 2 P false 1 0 = -I ∧ M.parallelMzi P (some P.thetas) (some P.phis) none false 0 ≠
        M.parallelMzi P none none none false 0 := by
  intro M P
  have hs : (Real.sqrt 2 : ℂ) ^ 2 = 2 := by
    rw [← ofReal_pow, Real.sq_sqrt (by norm_num)]; norm_num
  have h1 : (M.parallelMzi P none none none false 0).t12 = I := by
    simp [M, P, Mesh.parallelMzi, singleMesh, singleParams, mziElements, mziTerms]
    linear_combination (1 / 2) * hs
  have h2 : (M.parallelMzi P (some P.thetas) (some P.phis) none false 0).t12 = -I := by
    simp [M, P, Mesh.parallelMzi, singleMesh, singleParams, mziElements, mziTerms,
      mul_comm I, Complex.exp_pi_mul_I]
    linear_combination (1 / 2) * hs
  refine ⟨singleMesh_wellFormed _ _ _, h1, ?_, ?_⟩
  · rw [singleMesh_matrix]
    exact h2
  · intro h
    rw [h] at h2
    rw [h1] at h2
    have := congrArg Complex.im h2
    norm_num at this

/-! ### C117 -/

/-- The entries of a NumPy value, a scalar standing for all of them. -/
def NumArg.entry : NumArg → ℕ → ℝ
  | .scalar e, _ => e
  | .array l, i => l.getD i 0

/-- C117, scalar errors: `phases(error)` returns arrays of the sizes of the parameters; entry `i` of
the thetas and of the phis is shifted by the same amount, `error` itself or `error` times one draw,
the output phases only with `gamma_error`. In particular `phases()` (error 0) returns the
parameters. -/
theorem C117_scalar_partial (thetas phis gammas : List ℝ) (e : ℝ) (constant gammaError : Bool)
    (drawT drawG : List ℝ) (hp : phis.length = thetas.length) (hT : drawT.length = thetas.length)
    (hG : drawG.length = gammas.length) :
    ∃ t p g : List ℝ, phasesOf thetas phis gammas (.scalar e) constant gammaError drawT drawG =
        .ok (.array t, .array p, .array g) ∧
      t.length = thetas.length ∧ p.length = phis.length ∧ g.length = gammas.length ∧
      (∀ i, i < thetas.length →
        t.getD i 0 = thetas.getD i 0 + (if constant then e else e * drawT.getD i 0) ∧
        p.getD i 0 = phis.getD i 0 + (if constant then e else e * drawT.getD i 0)) ∧
      (∀ i, i < gammas.length → g.getD i 0 = gammas.getD i 0 +
        (if gammaError then (if constant then e else e * drawG.getD i 0) else 0)) ∧
      (e = 0 → t = thetas ∧ p = phis ∧ g = gammas) := by
  have hz : ∀ l d : List ℝ, d.length = l.length →
      List.zipWith (· + ·) l (d.map fun y => (0 : ℝ) * y) = l := by
    intro l d h
    apply List.ext_getElem <;> simp [h]
  have hz' : ∀ l d : List ℝ, ∀ c : ℝ, d.length = l.length →
      List.zipWith (· + ·) l ((d.map fun y => (0 : ℝ) * y).map fun x => x * c) = l := by
    intro l d c h
    apply List.ext_getElem <;> simp [h]
  cases constant
  · refine ⟨List.zipWith (· + ·) thetas (drawT.map fun y => e * y),
      List.zipWith (· + ·) phis (drawT.map fun y => e * y),
      List.zipWith (· + ·) gammas ((drawG.map fun y => e * y).map fun x => x * (if gammaError then 1 else 0)),
      ?_, ?_, ?_, ?_, ?_, ?_, ?_⟩
    · simp [phasesOf, npBin, hp, hT, hG]
    · simp [hT]
    · simp [hT, hp]
    · simp [hG]
    · intro i hi
      simp [List.getD_eq_getElem?_getD, hi, hp, hT]
    · intro i hi
      cases gammaError <;> simp [List.getD_eq_getElem?_getD, hi, hG]
    · rintro rfl
      exact ⟨hz _ _ hT, hz _ _ (by rw [hT, hp]), hz' _ _ _ hG⟩
  · refine ⟨thetas.map fun x => x + e, phis.map fun x => x + e,
      gammas.map fun x => x + e * (if gammaError then 1 else 0), ?_, ?_, ?_, ?_, ?_, ?_, ?_⟩
    · simp [phasesOf, npBin]
    · simp
    · simp
    · simp
    · intro i hi
      simp [List.getD_eq_getElem?_getD, hi, hp]
    · intro i hi
      cases gammaError <;> simp [List.getD_eq_getElem?_getD, hi]
    · rintro rfl
      simp

/-- C117 fails for arrays, the annotated type of `error`: if the mesh has at least two nodes, at
least two rails and their numbers differ, every array that is not of length one raises `ValueError`,
whatever the flags and draws: the same array must fit the thetas and the gammas. -/
theorem C117_array_counterexample (thetas phis gammas l : List ℝ) (constant gammaError : Bool)
    (drawT drawG : List ℝ) (hp : phis.length = thetas.length) (hT : drawT.length = thetas.length)
    (hG : drawG.length = gammas.length) (ht : 2 ≤ thetas.length) (hg : 2 ≤ gammas.length)
    (hne : thetas.length ≠ gammas.length) (hl : l.length ≠ 1) :
    phasesOf thetas phis gammas (.array l) constant gammaError drawT drawG = .error .valueError := by
  have ht1 : thetas.length ≠ 1 := by omega
  have hg1 : gammas.length ≠ 1 := by omega
  cases constant
  · by_cases h1 : l.length = thetas.length
    · have h2 : l.length ≠ gammas.length := by omega
      simp [phasesOf, npBin, hT, hG, h1, hne, ht1, hg1]
    · simp [phasesOf, npBin, hT, h1, hl, ht1]
  · by_cases h1 : l.length = thetas.length
    · have h2 : ¬ gammas.length = thetas.length := by omega
      simp [phasesOf, npBin, h1, hp, h2, ht1, hg1]
    · have h2 : ¬ thetas.length = l.length := by omega
      simp [phasesOf, npBin, hp, h2, hl, ht1]

/-- C117 in particular fails on every tree mesh with three or more inputs: `n - 1` nodes, `n` rails,
one error per node. -/
theorem C117_tree_counterexample (n : ℕ) (hn : 3 ≤ n) (balanced : Bool) (phis l : List ℝ)
    (thetas gammas drawT drawG : List ℝ) (constant gammaError : Bool)
    (ht : thetas.length = (tree n n balanced).length) (hp : phis.length = (tree n n balanced).length)
    (hT : drawT.length = (tree n n balanced).length) (hg : gammas.length = n) (hG : drawG.length = n)
    (hl : l.length = (tree n n balanced).length) :
    phasesOf thetas phis gammas (.array l) constant gammaError drawT drawG = .error .valueError := by
  have hlen : (tree n n balanced).length = n - 1 := (C01_tree_wellformed n (by omega) balanced).1
  exact C117_array_counterexample thetas phis gammas l constant gammaError drawT drawG (by omega) (by omega)
    (by omega) (by omega) (by omega) (by omega) (by omega)

/-! ### C118 -/

theorem assignErrors_rows : ∀ (tuples : List (List ℝ × List ℝ)) (es ls : List (List ℝ)),
    es.length = tuples.length → ls.length = tuples.length →
    assignErrors tuples (es.map .inr) (ls.map .inr) = .ok (es.zip ls)
  | [], [], [], _, _ => by simp [assignErrors]
  | _ :: ts, e :: es, l :: ls, h1, h2 => by
    simp [assignErrors, assignErrors_rows ts es ls (by simpa using h1) (by simpa using h2)]
  | [], _ :: _, _, h1, _ => by simp at h1
  | [], [], _ :: _, _, h2 => by simp at h2
  | _ :: _, [], _, h1, _ => by simp at h1
  | _ :: _, _ :: _, [], _, h2 => by simp at h2

theorem errorPairs_two (rows : List (List ℝ)) (h : ∀ r ∈ rows, r.length = 2) :
    errorPairs rows = .ok (rows.map fun r => (r.getD 0 0, r.getD 1 0)) := by
  unfold errorPairs
  split_ifs with h1
  · cases rows with
    | nil => simp
    | cons r rs =>
      have a := h r (by simp)
      have b := h1 r (by simp)
      omega
  · rfl

/-- The mesh with other errors and losses: what `add_error_mean` and `add_error_variance` return,
nodes, style and parameters being copies (C22). -/
def Mesh.withErrors (M : Mesh) (errs losses : List (ℝ × ℝ)) : Mesh := { M with errors := errs, losses := losses }

/-- The tuples of a mesh whose nodes hold pairs. -/
def Mesh.tuples (M : Mesh) : List (List ℝ × List ℝ) :=
  List.zipWith (fun e l => ([e.1, e.2], [l.1, l.2])) M.errors M.losses

/-- C118, numbers: `add_error_mean(error, loss_db)` gives both couplers of every node exactly
`error` and both arms exactly `loss_db`, whatever the node had before; the result is well formed. -/
theorem C118_scalar_partial (n : ℕ) (M : Mesh) (hM : M.WellFormed n) (e l : ℝ) (right : Option ErrArg) :
    addErrorMean M.tuples (.scalar e) (.scalar l) right =
      .ok (List.replicate M.nodes.length (e, e), List.replicate M.nodes.length (l, l)) ∧
    (M.withErrors (List.replicate M.nodes.length (e, e))
      (List.replicate M.nodes.length (l, l))).WellFormed n := by
  refine ⟨?_, ⟨by simp [Mesh.withErrors], by simp [Mesh.withErrors], hM.ids, hM.rails, hM.disjoint⟩⟩
  have hlen : M.tuples.length = M.nodes.length := by
    simp [Mesh.tuples, hM.errors_length, hM.losses_length]
  have hw : ∀ p ∈ M.tuples, p.1.length = 2 ∧ p.2.length = 2 := by
    intro p hp
    simp only [Mesh.tuples] at hp
    obtain ⟨i, hi, rfl⟩ := List.getElem_of_mem hp
    simp
  have h1 : (ErrArg.scalar e).items (M.tuples.map Prod.fst) =
      (List.replicate M.tuples.length [e, e]).map .inr := by
    simp only [ErrArg.items, List.map_map]
    apply List.ext_getElem (by simp)
    intro i hi hi'
    have hi2 : i < M.tuples.length := by simpa using hi
    have := (hw M.tuples[i] (List.getElem_mem hi2)).1
    simp only [List.getElem_map, Function.comp, List.getElem_replicate]
    congr 1
    obtain ⟨a, b, hab⟩ := List.length_eq_two.1 this
    rw [hab]; rfl
  have h2 : (ErrArg.scalar l).items (M.tuples.map Prod.snd) =
      (List.replicate M.tuples.length [l, l]).map .inr := by
    simp only [ErrArg.items, List.map_map]
    apply List.ext_getElem (by simp)
    intro i hi hi'
    have hi2 : i < M.tuples.length := by simpa using hi
    have := (hw M.tuples[i] (List.getElem_mem hi2)).2
    simp only [List.getElem_map, Function.comp, List.getElem_replicate]
    congr 1
    obtain ⟨a, b, hab⟩ := List.length_eq_two.1 this
    rw [hab]; rfl
  unfold addErrorMean
  rw [h1, h2, assignErrors_rows _ _ _ (by simp) (by simp)]
  simp only [List.zip_replicate', List.map_replicate]
  rw [errorPairs_two _ (by simp), errorPairs_two _ (by simp)]
  simp [hlen]

/-- C118, matrices: arrays with one row of two numbers per node are taken as they are. -/
theorem C118_rows_partial (n : ℕ) (M : Mesh) (hM : M.WellFormed n) (es ls : List (ℝ × ℝ))
    (he : es.length = M.nodes.length) (hl : ls.length = M.nodes.length) (right : Option ErrArg) :
    addErrorMean M.tuples (.rows (es.map fun p => [p.1, p.2])) (.rows (ls.map fun p => [p.1, p.2])) right =
      .ok (es, ls) := by
  have hlen : M.tuples.length = M.nodes.length := by
    simp [Mesh.tuples, hM.errors_length, hM.losses_length]
  unfold addErrorMean
  simp only [ErrArg.items]
  rw [assignErrors_rows _ _ _ (by simp [he, hlen]) (by simp [hl, hlen])]
  simp only
  have hz : ∀ (a b : List (List ℝ)), a.length = b.length → (a.zip b).map Prod.fst = a ∧ (a.zip b).map Prod.snd = b :=
    fun a b h => ⟨List.map_fst_zip (by omega), List.map_snd_zip (by omega)⟩
  rw [(hz _ _ (by simp [he, hl])).1, (hz _ _ (by simp [he, hl])).2,
    errorPairs_two _ (by rintro r hr; obtain ⟨p, _, rfl⟩ := List.mem_map.1 hr; rfl),
    errorPairs_two _ (by rintro r hr; obtain ⟨p, _, rfl⟩ := List.mem_map.1 hr; rfl)]
  simp [Function.comp_def]

/-- C118 fails for `error_right`: the argument has no effect on any call, so on every non-empty mesh
and for every requested right error different from `error` the right couplers get `error`. -/
theorem C118_error_right_counterexample (n : ℕ) (M : Mesh) (hM : M.WellFormed n) (hne : M.nodes ≠ [])
    (e l er : ℝ) (hr : er ≠ e) :
    0 < M.nodes.length ∧ ∃ errs losses, addErrorMean M.tuples (.scalar e) (.scalar l) (some (.scalar er)) = .ok (errs, losses) ∧
      addErrorMean M.tuples (.scalar e) (.scalar l) none = .ok (errs, losses) ∧
      ∀ i, i < M.nodes.length → (errs.getD i (0, 0)).2 ≠ er ∧ (errs.getD i (0, 0)).2 = e := by
  refine ⟨List.length_pos_of_ne_nil hne, _, _, (C118_scalar_partial n M hM e l _).1, (C118_scalar_partial n M hM e l _).1, ?_⟩
  intro i hi
  simp [List.getD_eq_getElem?_getD, hi, hr.symm]

/-- C118 fails for one error per node: a one-dimensional array raises `TypeError` on every non-empty
mesh, whatever the loss is. -/
theorem C118_vector_counterexample (M : Mesh) (e : ℝ) (es : List ℝ) (l : ℝ) (right : Option ErrArg)
    (hne : M.tuples ≠ []) :
    addErrorMean M.tuples (.vec (e :: es)) (.scalar l) right = .error .typeError := by
  unfold addErrorMean
  cases hT : M.tuples with
  | nil => exact absurd hT hne
  | cons p ps => simp [ErrArg.items, assignErrors]

/-- C118, short arrays: rows beyond those given keep their old errors. -/
theorem C118_short_partial (e0 l0 e1 l1 : ℝ × ℝ) (e : ℝ × ℝ) (right : Option ErrArg) (l : ℝ) :
    addErrorMean [([e0.1, e0.2], [l0.1, l0.2]), ([e1.1, e1.2], [l1.1, l1.2])] (.rows [[e.1, e.2]])
      (.scalar l) right = .ok ([e, e1], [(l, l), l1]) := by
  simp [addErrorMean, ErrArg.items, assignErrors, errorPairs]

/-- C118, variance: every node's errors and losses are moved by the standard deviation times the
draw, both couplers by the same amount with `equal_splitter_error`; with zero deviations the mesh is
the same. -/
theorem C118_variance (errs losses : List (ℝ × ℝ)) (std lstd : ℝ) (equal : Bool) (de dl : List (ℝ × ℝ))
    (h1 : de.length = errs.length) (h2 : dl.length = losses.length) :
    let r := addErrorVariance errs losses std lstd equal de dl
    r.1.length = errs.length ∧ r.2.length = losses.length ∧
    (∀ i, i < errs.length →
      (r.1.getD i (0, 0)).1 - (errs.getD i (0, 0)).1 = std * (de.getD i (0, 0)).1 ∧
      (r.1.getD i (0, 0)).2 - (errs.getD i (0, 0)).2 =
        std * (if equal then (de.getD i (0, 0)).1 else (de.getD i (0, 0)).2)) ∧
    (∀ i, i < losses.length →
      (r.2.getD i (0, 0)).1 - (losses.getD i (0, 0)).1 = lstd * (dl.getD i (0, 0)).1 ∧
      (r.2.getD i (0, 0)).2 - (losses.getD i (0, 0)).2 = lstd * (dl.getD i (0, 0)).2) ∧
    (std = 0 → r.1 = errs) ∧ (lstd = 0 → r.2 = losses) := by
  intro r
  refine ⟨by simp [r, addErrorVariance, h1], by simp [r, addErrorVariance, h2], ?_, ?_, ?_, ?_⟩
  · intro i hi
    cases equal <;> simp [r, addErrorVariance, List.getD_eq_getElem?_getD, hi, h1]
  · intro i hi
    simp [r, addErrorVariance, List.getD_eq_getElem?_getD, hi, h2]
  · rintro rfl
    apply List.ext_getElem
    · simp [r, addErrorVariance, h1]
    · intro i hi hi'
      cases equal <;> simp [r, addErrorVariance]
  · rintro rfl
    apply List.ext_getElem
    · simp [r, addErrorVariance, h2]
    · intro i hi hi'
      simp [r, addErrorVariance]

/-- The hypotheses of C116 and C118 hold for the single MZI, those of C117 for a tree on three
rails. -/
example : (singleMesh .top (0, 0) (0, 0)).WellFormed 2 ∧ (singleMesh .top (0, 0) (0, 0)).nodes ≠ [] ∧
    (∀ a ∈ (singleMesh .top (0, 0) (0, 0)).nodes, a.column = 0) ∧
    (singleMesh .top (0, 0) (0, 0)).tuples ≠ [] ∧
    phasesOf [0, 0] [0, 0] [0, 0, 0] (.array [1, 1]) true false [0, 0] [0, 0, 0] = .error .valueError ∧
    phasesOf [1, 2] [3, 4] [0, 0, 0] (.scalar 1) true false [0, 0] [0, 0, 0] =
      .ok (.array [1 + 1, 2 + 1], .array [3 + 1, 4 + 1], .array [0 + 1 * 0, 0 + 1 * 0, 0 + 1 * 0]) :=
  ⟨singleMesh_wellFormed _ _ _, by simp [singleMesh], by simp [singleMesh], by simp [singleMesh, Mesh.tuples],
    C117_array_counterexample _ _ _ _ _ _ _ _ rfl rfl rfl (by simp) (by simp) (by simp) (by simp),
    by simp [phasesOf, npBin]⟩

end Simphox
