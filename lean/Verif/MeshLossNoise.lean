import Verif.MeshNoise
import Verif.MeshLoss

/-!
# The mean of a mesh with random losses (C201)
-/

namespace Simphox

open Complex MeasureTheory ProbabilityTheory

/-- The elements of a node (coupling.py:172-219, as in `mziElements`) with the two loss factors as arguments. -/
noncomputable def mziOfFactors (style : PhaseStyle) (back : Bool) (T : MziTerms) (theta phi : ℝ) (a b : ℂ) : Elements :=
  let t : ℂ := exp (I * theta) * a
  let p : ℂ := exp (I * phi) * b
  let cc : ℂ := T.cc
  let cs : ℂ := T.cs
  let sc : ℂ := T.sc
  let ss : ℂ := T.ss
  match style with
  | .top =>
    { t11 := (-ss + cc * t) * p
      t12 := I * (cs + sc * t) * (if back then 1 else p)
      t21 := I * (sc + cs * t) * (if back then p else 1)
      t22 := cc - ss * t }
  | .bottom =>
    { t11 := -ss * t + cc
      t12 := I * (cs * t + sc) * (if back then p else 1)
      t21 := I * (sc * t + cs) * (if back then 1 else p)
      t22 := (cc * t - ss) * p }
  | .symmetric =>
    { t11 := (-ss + cc * t) * (exp (I * (phi - theta / 2)) * b)
      t12 := I * (cs + sc * t) * (exp (I * (phi - theta / 2)) * b)
      t21 := I * (sc + cs * t) * (exp (I * (phi - theta / 2)) * b)
      t22 := (cc - ss * t) * (exp (I * (phi - theta / 2)) * b) }
  | .differential =>
    { t11 := (-ss + cc * t) * (exp (I * ((-phi - theta) / 2 + phi * (if back then 1 else 0))) * b)
      t12 := I * (cs + sc * t) * (exp (I * ((-phi - theta) / 2 + phi * (if back then 1 else 0))) * b)
      t21 := I * (sc + cs * t) * (exp (I * ((phi - theta) / 2 - phi * (if back then 1 else 0))) * b)
      t22 := (cc - ss * t) * (exp (I * ((phi - theta) / 2 - phi * (if back then 1 else 0))) * b) }

theorem mziOfFactors_eq (style : PhaseStyle) (back : Bool) (T : MziTerms) (ll lr theta phi : ℝ) :
    mziOfTerms style back T ll lr theta phi =
      mziOfFactors style back T theta phi (Real.exp (Real.log 10 * ll / 20) : ℝ) (Real.exp (Real.log 10 * lr / 20) : ℝ) := by
  cases style <;> cases back <;> simp [mziOfTerms, mziOfFactors, exp_add]

theorem elements_ext {A B : Elements} (h1 : A.t11 = B.t11) (h2 : A.t12 = B.t12) (h3 : A.t21 = B.t21) (h4 : A.t22 = B.t22) : A = B := by
  cases A; cases B; simp_all

/-- Every element is a polynomial of degree at most one in each loss factor. -/
theorem mziOfFactors_bilinear (style : PhaseStyle) (back : Bool) (T : MziTerms) (theta phi : ℝ) : ∃ F G H K : Fin 4 → ℂ, ∀ a b : ℂ,
    mziOfFactors style back T theta phi a b = ⟨F 0 + F 1 * a + F 2 * b + F 3 * (a * b), G 0 + G 1 * a + G 2 * b + G 3 * (a * b),
      H 0 + H 1 * a + H 2 * b + H 3 * (a * b), K 0 + K 1 * a + K 2 * b + K 3 * (a * b)⟩ := by
  let Q := fun a b => mziOfFactors style back T theta phi a b
  let W : (Elements → ℂ) → Fin 4 → ℂ := fun f => ![f (Q 0 0), f (Q 1 0) - f (Q 0 0), f (Q 0 1) - f (Q 0 0), f (Q 1 1) - f (Q 1 0) - f (Q 0 1) + f (Q 0 0)]
  refine ⟨W Elements.t11, W Elements.t12, W Elements.t21, W Elements.t22, fun a b => ?_⟩
  apply elements_ext <;> cases style <;> cases back <;> simp [W, Q, mziOfFactors] <;> ring

/-- The mean of the loss factor of an arm whose loss in dB is normal with mean `l` and deviation `tau`. -/
theorem gauss_factor (l τ : ℝ) : Integrable (fun z => Real.exp (Real.log 10 * (l + τ * z) / 20)) (gaussianReal 0 1) ∧
    ∫ z, Real.exp (Real.log 10 * (l + τ * z) / 20) ∂(gaussianReal 0 1) = Real.exp (Real.log 10 * (l + τ ^ 2 * Real.log 10 / 40) / 20) := by
  have e : ∀ z : ℝ, Real.exp (Real.log 10 * (l + τ * z) / 20) = Real.exp (Real.log 10 * l / 20) * Real.exp (Real.log 10 * τ / 20 * z) := by
    intro z; rw [← Real.exp_add]; congr 1; ring
  simp only [e]
  refine ⟨(integrable_exp_mul_gaussianReal _).const_mul _, ?_⟩
  rw [integral_const_mul]
  have h := congrFun (mgf_id_gaussianReal (μ := 0) (v := 1)) (Real.log 10 * τ / 20)
  simp only [mgf, id] at h
  rw [h, ← Real.exp_add]
  congr 1
  push_cast
  ring

/-- The mesh `mesh.add_error_variance(0, tau)` (forward.py:589-600), as the network layer calls it (forward.py:831), after the draws `y k` for the
losses of node `k` and `de` for the couplers, which are multiplied by zero. -/
noncomputable def lossyMesh (M : Mesh) (τ : ℝ) (equal : Bool) (de : List (ℝ × ℝ)) (y : ℕ → ℝ × ℝ) : Mesh :=
  M.withErrors (addErrorVariance M.errors M.losses 0 τ equal de ((List.range M.nodes.length).map y)).1
    (addErrorVariance M.errors M.losses 0 τ equal de ((List.range M.nodes.length).map y)).2

/-- The mesh with `d` added to both losses (in dB) of every node. -/
def shiftLosses (M : Mesh) (d : ℝ) : Mesh := { M with losses := M.losses.map fun l => (l.1 + d, l.2 + d) }

theorem shiftLosses_wf {n : ℕ} {M : Mesh} (hM : M.WellFormed n) (d : ℝ) : (shiftLosses M d).WellFormed n :=
  ⟨hM.errors_length, by simp [shiftLosses, hM.losses_length], hM.ids, hM.rails, hM.disjoint⟩

theorem lossyMesh_elements {n : ℕ} {M : Mesh} (hM : M.WellFormed n) (P : Params) (τ : ℝ) (equal back : Bool) (de : List (ℝ × ℝ))
    (hde : de.length = M.nodes.length) (y : ℕ → ℝ × ℝ) (k : ℕ) (hk : k < M.nodes.length) :
    (lossyMesh M τ equal de y).elements P back k = mziOfFactors M.style back (mziTerms (M.errors.getD k (0, 0)).1 (M.errors.getD k (0, 0)).2)
      (P.thetas k) (P.phis k) (Real.exp (Real.log 10 * ((M.losses.getD k (0, 0)).1 + τ * (y k).1) / 20) : ℝ)
      (Real.exp (Real.log 10 * ((M.losses.getD k (0, 0)).2 + τ * (y k).2) / 20) : ℝ) := by
  have hc := C118_variance M.errors M.losses 0 τ equal de ((List.range M.nodes.length).map y) (by rw [hde, hM.errors_length]) (by simp [hM.losses_length])
  obtain ⟨-, -, -, h4, h5, -⟩ := hc
  have h4 := h4 k (by rw [hM.losses_length]; exact hk)
  have hy : (((List.range M.nodes.length).map y).getD k (0, 0)) = y k := by
    simp [List.getD_eq_getElem?_getD, hk]
  rw [hy] at h4
  have e1 := eq_add_of_sub_eq h4.1
  have e2 := eq_add_of_sub_eq h4.2
  unfold Mesh.elements lossyMesh Mesh.withErrors
  simp only [h5 rfl, e1, e2]
  rw [mziElements_of_terms, mziOfFactors_eq, add_comm (τ * _), add_comm (τ * _)]

theorem shiftLosses_elements {n : ℕ} {M : Mesh} (hM : M.WellFormed n) (P : Params) (d : ℝ) (back : Bool) (k : ℕ) (hk : k < M.nodes.length) :
    (shiftLosses M d).elements P back k = mziOfFactors M.style back (mziTerms (M.errors.getD k (0, 0)).1 (M.errors.getD k (0, 0)).2)
      (P.thetas k) (P.phis k) (Real.exp (Real.log 10 * ((M.losses.getD k (0, 0)).1 + d) / 20) : ℝ)
      (Real.exp (Real.log 10 * ((M.losses.getD k (0, 0)).2 + d) / 20) : ℝ) := by
  have hl : ((shiftLosses M d).losses.getD k (0, 0)) = ((M.losses.getD k (0, 0)).1 + d, (M.losses.getD k (0, 0)).2 + d) := by
    have : k < M.losses.length := by rw [hM.losses_length]; exact hk
    simp [shiftLosses, List.getD_eq_getElem?_getD, this]
  unfold Mesh.elements
  rw [hl, mziElements_of_terms, mziOfFactors_eq]
  rfl

/-- C201: random losses, drawn by `add_error_variance(0, tau)`. If the pairs of draws of the nodes are independent, each a pair of independent standard
normal numbers, the mean output of the perturbed mesh is exactly the output of the same mesh with `tau^2 ln(10) / 40` dB of gain added in both arms of every
node. All styles, errors and losses already present, phases, both directions, every input. -/
theorem C201_loss_noise {Ω : Type} [MeasurableSpace Ω] (Pr : Measure Ω) [IsProbabilityMeasure Pr] (n : ℕ) (M : Mesh) (hM : M.WellFormed n)
    (hid : (M.nodes.map Node.id).Nodup) (P : Params) (τ : ℝ) (equal : Bool) (y : ℕ → Ω → ℝ × ℝ) (hy : ∀ k, Measurable (y k))
    (hlaw : ∀ k, Pr.map (y k) = (gaussianReal 0 1).prod (gaussianReal 0 1)) (hind : iIndepFun y Pr) (de : List (ℝ × ℝ))
    (hde : de.length = M.nodes.length) (back : Bool) (v : ℕ → ℂ) (r : ℕ) :
    Integrable (fun ω => (lossyMesh M τ equal de fun k => y k ω).apply P back v r) Pr ∧
    ∫ ω, (lossyMesh M τ equal de fun k => y k ω).apply P back v r ∂Pr = (shiftLosses M (τ ^ 2 * Real.log 10 / 40)).apply P back v r := by
  let A : ℕ → ℝ → ℝ := fun k z => Real.exp (Real.log 10 * ((M.losses.getD k (0, 0)).1 + τ * z) / 20)
  let B : ℕ → ℝ → ℝ := fun k z => Real.exp (Real.log 10 * ((M.losses.getD k (0, 0)).2 + τ * z) / 20)
  let a' : ℕ → ℝ := fun k => Real.exp (Real.log 10 * ((M.losses.getD k (0, 0)).1 + τ ^ 2 * Real.log 10 / 40) / 20)
  let b' : ℕ → ℝ := fun k => Real.exp (Real.log 10 * ((M.losses.getD k (0, 0)).2 + τ ^ 2 * Real.log 10 / 40) / 20)
  let E : ℕ → ℂ → ℂ → Elements := fun k => mziOfFactors M.style back (mziTerms (M.errors.getD k (0, 0)).1 (M.errors.getD k (0, 0)).2) (P.thetas k) (P.phis k)
  let X : ℕ → ℝ × ℝ → Elements := fun k z => E k (A k z.1 : ℝ) (B k z.2 : ℝ)
  have cA : ∀ k, Continuous (A k) := fun k => by simp only [A]; fun_prop
  have cB : ∀ k, Continuous (B k) := fun k => by simp only [B]; fun_prop
  have hA : ∀ k, Integrable (A k) (gaussianReal 0 1) ∧ ∫ z, A k z ∂(gaussianReal 0 1) = a' k := fun k => gauss_factor _ τ
  have hB : ∀ k, Integrable (B k) (gaussianReal 0 1) ∧ ∫ z, B k z ∂(gaussianReal 0 1) = b' k := fun k => gauss_factor _ τ
  have one : Integrable (fun _ : ℝ => (1 : ℝ)) (gaussianReal 0 1) := integrable_const _
  have pull : ∀ k (f g : ℝ → ℝ) (p q : ℝ), Continuous f → Continuous g → Integrable f (gaussianReal 0 1) → Integrable g (gaussianReal 0 1) →
      ∫ z, f z ∂(gaussianReal 0 1) = p → ∫ z, g z ∂(gaussianReal 0 1) = q →
      Integrable (fun ω => f (y k ω).1 * g (y k ω).2) Pr ∧ ∫ ω, f (y k ω).1 * g (y k ω).2 ∂Pr = p * q := by
    intro k f g p q cf cg hf hg ef eg
    have i1 : Integrable (fun z : ℝ × ℝ => f z.1 * g z.2) (Pr.map (y k)) := by rw [hlaw k]; exact hf.mul_prod hg
    refine ⟨i1.comp_measurable (hy k), ?_⟩
    have h := integral_map (μ := Pr) (hy k).aemeasurable (f := fun z : ℝ × ℝ => f z.1 * g z.2) i1.aestronglyMeasurable
    rw [← h, hlaw k, integral_prod_mul, ef, eg]
  have i1 : ∀ k, Integrable (fun ω => (A k (y k ω).1 : ℂ)) Pr ∧ ∫ ω, (A k (y k ω).1 : ℂ) ∂Pr = a' k := by
    intro k
    have h := pull k (A k) (fun _ => 1) (a' k) 1 (cA k) continuous_const (hA k).1 one (hA k).2 (by simp)
    simp only [mul_one] at h
    exact ⟨h.1.ofReal, by rw [integral_complex_ofReal, h.2]⟩
  have i2 : ∀ k, Integrable (fun ω => (B k (y k ω).2 : ℂ)) Pr ∧ ∫ ω, (B k (y k ω).2 : ℂ) ∂Pr = b' k := by
    intro k
    have h := pull k (fun _ => 1) (B k) 1 (b' k) continuous_const (cB k) one (hB k).1 (by simp) (hB k).2
    simp only [one_mul] at h
    exact ⟨h.1.ofReal, by rw [integral_complex_ofReal, h.2]⟩
  have i3 : ∀ k, Integrable (fun ω => (A k (y k ω).1 : ℂ) * (B k (y k ω).2 : ℂ)) Pr ∧
      ∫ ω, (A k (y k ω).1 : ℂ) * (B k (y k ω).2 : ℂ) ∂Pr = a' k * b' k := by
    intro k
    have h := pull k (A k) (B k) (a' k) (b' k) (cA k) (cB k) (hA k).1 (hB k).1 (hA k).2 (hB k).2
    have e : ∀ ω, (A k (y k ω).1 : ℂ) * (B k (y k ω).2 : ℂ) = ((A k (y k ω).1 * B k (y k ω).2 : ℝ) : ℂ) := fun ω => by push_cast; rfl
    simp only [e]
    exact ⟨h.1.ofReal, by rw [integral_complex_ofReal, h.2]; push_cast; rfl⟩
  have hmean : ∀ k, IntElements Pr (fun ω => X k (y k ω)) ∧ meanElements Pr (fun ω => X k (y k ω)) = E k (a' k : ℝ) (b' k : ℝ) := by
    intro k
    obtain ⟨F, G, H, K, hF⟩ := mziOfFactors_bilinear M.style back (mziTerms (M.errors.getD k (0, 0)).1 (M.errors.getD k (0, 0)).2) (P.thetas k) (P.phis k)
    have lin : ∀ c : Fin 4 → ℂ, Integrable (fun ω => c 0 + c 1 * (A k (y k ω).1 : ℂ) + c 2 * (B k (y k ω).2 : ℂ) +
          c 3 * ((A k (y k ω).1 : ℂ) * (B k (y k ω).2 : ℂ))) Pr ∧
        ∫ ω, c 0 + c 1 * (A k (y k ω).1 : ℂ) + c 2 * (B k (y k ω).2 : ℂ) + c 3 * ((A k (y k ω).1 : ℂ) * (B k (y k ω).2 : ℂ)) ∂Pr =
          c 0 + c 1 * (a' k : ℂ) + c 2 * (b' k : ℂ) + c 3 * ((a' k : ℂ) * (b' k : ℂ)) := by
      intro c
      have j0 : Integrable (fun _ : Ω => c 0) Pr := integrable_const _
      have j1 : Integrable (fun ω => c 1 * (A k (y k ω).1 : ℂ)) Pr := (i1 k).1.const_mul _
      have j2 : Integrable (fun ω => c 2 * (B k (y k ω).2 : ℂ)) Pr := (i2 k).1.const_mul _
      have j3 : Integrable (fun ω => c 3 * ((A k (y k ω).1 : ℂ) * (B k (y k ω).2 : ℂ))) Pr := (i3 k).1.const_mul _
      have j01 : Integrable (fun ω => c 0 + c 1 * (A k (y k ω).1 : ℂ)) Pr := j0.add j1
      have j012 : Integrable (fun ω => c 0 + c 1 * (A k (y k ω).1 : ℂ) + c 2 * (B k (y k ω).2 : ℂ)) Pr := j01.add j2
      refine ⟨j012.add j3, ?_⟩
      rw [integral_add j012 j3, integral_add j01 j2, integral_add j0 j1, integral_const_mul, integral_const_mul, integral_const_mul,
        (i1 k).2, (i2 k).2, (i3 k).2]
      simp
    simp only [X, E, hF]
    refine ⟨⟨(lin F).1, (lin G).1, (lin H).1, (lin K).1⟩, ?_⟩
    unfold meanElements
    simp only [(lin F).2, (lin G).2, (lin H).2, (lin K).2]
  have hX : ∀ k, MeasElements (X k) := by
    intro k
    obtain ⟨F, G, H, K, hF⟩ := mziOfFactors_bilinear M.style back (mziTerms (M.errors.getD k (0, 0)).1 (M.errors.getD k (0, 0)).2) (P.thetas k) (P.phis k)
    have mA : Measurable fun z : ℝ × ℝ => (A k z.1 : ℂ) := (continuous_ofReal.comp ((cA k).comp continuous_fst)).measurable
    have mB : Measurable fun z : ℝ × ℝ => (B k z.2 : ℂ) := (continuous_ofReal.comp ((cB k).comp continuous_snd)).measurable
    have m : ∀ c : Fin 4 → ℂ, Measurable fun z : ℝ × ℝ => c 0 + c 1 * (A k z.1 : ℂ) + c 2 * (B k z.2 : ℂ) + c 3 * ((A k z.1 : ℂ) * (B k z.2 : ℂ)) :=
      fun c => ((measurable_const.add (measurable_const.mul mA)).add (measurable_const.mul mB)).add (measurable_const.mul (mA.mul mB))
    simp only [X, E, hF]
    exact ⟨m F, m G, m H, m K⟩
  have h := fun u q => mean_columnsApply hy hind hX hM (fun a _ => (hmean a.id).1) hid back u q
  have hme : (fun k => meanElements Pr fun ω => X k (y k ω)) = fun k => E k (a' k : ℝ) (b' k : ℝ) := funext fun k => (hmean k).2
  simp only [hme] at h
  have hel : ∀ ω u, columnsApply ((lossyMesh M τ equal de fun k => y k ω).elements P back) M.nodes (columnOrder M.nodes back) u =
      columnsApply (fun k => X k (y k ω)) M.nodes (columnOrder M.nodes back) u := by
    intro ω u
    rw [columnsApply_eq_seq hM.goodColumn, columnsApply_eq_seq hM.goodColumn]
    refine seqApply_congr _ (fun a ha => ?_) u
    exact lossyMesh_elements hM P τ equal back de hde _ a.id (hM.ids a (mem_visitOrder.1 ha))
  have hsh : ∀ u, columnsApply ((shiftLosses M (τ ^ 2 * Real.log 10 / 40)).elements P back) M.nodes (columnOrder M.nodes back) u =
      columnsApply (fun k => E k (a' k : ℝ) (b' k : ℝ)) M.nodes (columnOrder M.nodes back) u := by
    intro u
    rw [columnsApply_eq_seq hM.goodColumn, columnsApply_eq_seq hM.goodColumn]
    refine seqApply_congr _ (fun a ha => ?_) u
    exact shiftLosses_elements hM P _ back a.id (hM.ids a (mem_visitOrder.1 ha))
  cases back
  · show Integrable (fun ω => gammaApply P.gammas (columnsApply ((lossyMesh M τ equal de fun k => y k ω).elements P false) M.nodes
        (columnOrder M.nodes false) v) r) Pr ∧ ∫ ω, gammaApply P.gammas (columnsApply ((lossyMesh M τ equal de fun k => y k ω).elements P false) M.nodes
        (columnOrder M.nodes false) v) r ∂Pr = gammaApply P.gammas (columnsApply ((shiftLosses M (τ ^ 2 * Real.log 10 / 40)).elements P false) M.nodes
        (columnOrder M.nodes false) v) r
    simp only [hel, hsh, gammaApply]
    exact ⟨(h v r).1.const_mul _, by rw [integral_const_mul, (h v r).2]⟩
  · show Integrable (fun ω => columnsApply ((lossyMesh M τ equal de fun k => y k ω).elements P true) M.nodes
        (columnOrder M.nodes true) (gammaApply P.gammas v) r) Pr ∧ ∫ ω, columnsApply ((lossyMesh M τ equal de fun k => y k ω).elements P true) M.nodes
        (columnOrder M.nodes true) (gammaApply P.gammas v) r ∂Pr = columnsApply ((shiftLosses M (τ ^ 2 * Real.log 10 / 40)).elements P true) M.nodes
        (columnOrder M.nodes true) (gammaApply P.gammas v) r
    simp only [hel, hsh]
    exact h _ r

/-! ### Random losses amplify -/

theorem mziElements_gain (style : PhaseStyle) (back : Bool) (el er : ℝ) {ll lr : ℝ} (hl : 0 ≤ ll) (hr : 0 ≤ lr) (theta phi : ℝ) :
    Keeps 1 (mziElements style back el er ll lr theta phi).mat := by
  have h : ∀ {l : ℝ}, 0 ≤ l → 1 ≤ afterDb (-l) := fun {l} h => by
    rw [← afterDb_zero]; exact afterDb_anti (by linarith)
  have h1 := h hl
  have h2 := h hr
  have hcore : Keeps 1 (mziCore style el er ll theta) := by
    unfold mziCore
    have hd : Keeps 1 (match style with
      | .bottom => diag2 1 (shifter theta ll)
      | _ => diag2 (shifter theta ll) 1) := by
      cases style <;> apply diag2_keeps <;> simp [shifter_afterDb, h1]
    have := ((unitary_keeps (coupler_unitary (Real.pi / 4 + er))).mul zero_le_one hd).mul
      (by norm_num) (unitary_keeps (coupler_unitary (Real.pi / 4 + el)))
    rw [one_mul, mul_one] at this
    exact this
  have houter : Keeps 1 (mziOuter style back lr theta phi) := by
    cases style <;> cases back <;> apply diag2_keeps <;> simp [shifter_afterDb, h2]
  rw [mziElements_factor]
  split_ifs
  · have := houter.mul zero_le_one hcore
    rwa [one_mul] at this
  · have := hcore.mul zero_le_one houter
    rwa [one_mul] at this

/-- A mesh without negative entries in its losses loses no power. -/
theorem mesh_gain (n : ℕ) (M : Mesh) (hM : M.WellFormed n) (hpos : ∀ p ∈ M.losses, 0 ≤ p.1 ∧ 0 ≤ p.2) (P : Params) (back : Bool) (v : ℕ → ℂ) :
    ∑ r ∈ Finset.range n, ‖v r‖ ^ 2 ≤ ∑ r ∈ Finset.range n, ‖M.apply P back v r‖ ^ 2 := by
  have hel : ∀ b, ∀ a ∈ M.nodes, Keeps (afterDb 0) (M.elements P b a.id).mat := by
    intro b a ha
    have : 0 ≤ (M.losses.getD a.id (0, 0)).1 ∧ 0 ≤ (M.losses.getD a.id (0, 0)).2 := by
      by_cases hk : a.id < M.losses.length
      · simpa [List.getD_eq_getElem?_getD, hk] using hpos _ (List.getElem_mem hk)
      · simp [List.getD_eq_getElem?_getD, hk]
    rw [afterDb_zero]
    exact mziElements_gain _ _ _ _ this.1 this.2 _ _
  have hgam : ∀ w : ℕ → ℂ, ∑ r ∈ Finset.range n, ‖gammaApply P.gammas w r‖ ^ 2 = ∑ r ∈ Finset.range n, ‖w r‖ ^ 2 := by
    intro w
    refine Finset.sum_congr rfl fun r _ => ?_
    rw [gammaApply, norm_mul, norm_exp_I, one_mul]
  have key : ∀ b u, ∑ r ∈ Finset.range n, ‖u r‖ ^ 2 ≤ ∑ r ∈ Finset.range n, ‖columnsApply (M.elements P b) M.nodes (columnOrder M.nodes b) u r‖ ^ 2 := by
    intro b u
    have h := columns_keep hM (fun _ => 0) (fun _ => le_rfl) (hel b) (columnOrder M.nodes b) u
    have e : ((columnOrder M.nodes b).map fun _ => (0 : ℝ)).sum = 0 := by simp
    rw [e, afterDb_zero, one_mul] at h
    exact h
  cases back
  · show _ ≤ ∑ r ∈ Finset.range n, ‖gammaApply P.gammas (columnsApply (M.elements P false) M.nodes (columnOrder M.nodes false) v) r‖ ^ 2
    rw [hgam]
    exact key false v
  · show _ ≤ ∑ r ∈ Finset.range n, ‖columnsApply (M.elements P true) M.nodes (columnOrder M.nodes true) (gammaApply P.gammas v) r‖ ^ 2
    rw [← hgam v]
    exact key true _

/-- C201, the consequence: on a mesh without loss, "random loss" is gain on average. The mean output carries at least the power of the input. -/
theorem C201_gain {Ω : Type} [MeasurableSpace Ω] (Pr : Measure Ω) [IsProbabilityMeasure Pr] (n : ℕ) (M : Mesh) (hM : M.WellFormed n)
    (hloss : M.Lossless) (hid : (M.nodes.map Node.id).Nodup) (P : Params) (τ : ℝ) (equal : Bool) (y : ℕ → Ω → ℝ × ℝ) (hy : ∀ k, Measurable (y k))
    (hlaw : ∀ k, Pr.map (y k) = (gaussianReal 0 1).prod (gaussianReal 0 1)) (hind : iIndepFun y Pr) (de : List (ℝ × ℝ))
    (hde : de.length = M.nodes.length) (back : Bool) (v : ℕ → ℂ) :
    ∑ r ∈ Finset.range n, ‖v r‖ ^ 2 ≤
      ∑ r ∈ Finset.range n, ‖∫ ω, (lossyMesh M τ equal de fun k => y k ω).apply P back v r ∂Pr‖ ^ 2 := by
  simp only [(C201_loss_noise Pr n M hM hid P τ equal y hy hlaw hind de hde back v _).2]
  refine mesh_gain n _ (shiftLosses_wf hM _) ?_ P back v
  intro p hp
  obtain ⟨l, hl, rfl⟩ := List.mem_map.1 hp
  have h0 : 0 ≤ τ ^ 2 * Real.log 10 / 40 := by
    have := Real.log_nonneg (by norm_num : (1 : ℝ) ≤ 10)
    positivity
  rw [hloss l hl]
  simpa using h0

/-- C201 on one node in the bar state: with the mean gain factor `g = 10^(tau^2 ln(10) / 800)` of an arm, the mean field is `(1 + g) g / 2` times the
input, more than the input unless `tau = 0`. -/
theorem C201_case {Ω : Type} [MeasurableSpace Ω] (Pr : Measure Ω) [IsProbabilityMeasure Pr] (τ : ℝ) (y : ℕ → Ω → ℝ × ℝ) (hy : ∀ k, Measurable (y k))
    (hlaw : ∀ k, Pr.map (y k) = (gaussianReal 0 1).prod (gaussianReal 0 1)) (hind : iIndepFun y Pr) :
    ∫ ω, (lossyMesh (idealMesh [⟨0, 0, 1, 2, 1, 1, 0⟩] .top) τ true [(0, 0)] fun k => y k ω).apply
      ⟨fun _ => Real.pi, fun _ => 0, fun _ => 0⟩ false (fun r => if r = 0 then 1 else 0) 0 ∂Pr =
      -((1 + Real.exp (Real.log 10 * (τ ^ 2 * Real.log 10 / 40) / 20)) / 2 * Real.exp (Real.log 10 * (τ ^ 2 * Real.log 10 / 40) / 20) : ℝ) := by
  have hM : (idealMesh [⟨0, 0, 1, 2, 1, 1, 0⟩] .top).WellFormed 2 := by
    refine ⟨rfl, rfl, ?_, ?_, ?_⟩
    · simp [idealMesh]
    · simp [idealMesh]
    · simp [idealMesh, ColumnsDisjoint]
  rw [(C201_loss_noise Pr 2 _ hM (by simp [idealMesh]) _ τ true y hy hlaw hind [(0, 0)] rfl false _ 0).2]
  have hc : columnOrder (idealMesh [⟨0, 0, 1, 2, 1, 1, 0⟩] .top).nodes false = [0] := by decide
  have hn : columnNodes (idealMesh [⟨0, 0, 1, 2, 1, 1, 0⟩] .top).nodes 0 = [⟨0, 0, 1, 2, 1, 1, 0⟩] := by decide
  show gammaApply _ (columnsApply ((shiftLosses (idealMesh [⟨0, 0, 1, 2, 1, 1, 0⟩] .top) (τ ^ 2 * Real.log 10 / 40)).elements _ false)
    (idealMesh [⟨0, 0, 1, 2, 1, 1, 0⟩] .top).nodes (columnOrder (idealMesh [⟨0, 0, 1, 2, 1, 1, 0⟩] .top).nodes false) _) 0 = _
  rw [hc]
  simp only [gammaApply, columnsApply, List.foldl_cons, List.foldl_nil, hn, parallelTransform, columnWrites, scatter, List.map_cons, List.map_nil,
    List.cons_append, List.nil_append]
  rw [shiftLosses_elements hM _ _ _ 0 (by simp [idealMesh])]
  obtain ⟨g, hg⟩ : ∃ g : ℝ, Real.exp (Real.log 10 * (τ ^ 2 * Real.log 10 / 40) / 20) = g := ⟨_, rfl⟩
  have h2 : ((Real.sqrt 2 : ℝ) : ℂ) * (Real.sqrt 2 : ℝ) = 2 := by rw [← ofReal_mul, Real.mul_self_sqrt (by norm_num)]; norm_num
  have hp : exp (I * Real.pi) = -1 := by rw [mul_comm]; exact exp_pi_mul_I
  simp only [mziOfFactors, mziTerms, idealMesh, List.map_cons, List.map_nil, List.getD_cons_zero, add_zero, zero_add, Real.cos_pi_div_four,
    Real.sin_pi_div_four, mul_zero, ofReal_zero, exp_zero, hp, hg, Function.update_apply]
  push_cast
  simp
  linear_combination (-(1 + g) * g / 4 : ℂ) * h2

end Simphox
