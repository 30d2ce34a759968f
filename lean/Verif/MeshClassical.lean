import Verif.MeshNoise
import Verif.RandomTreeProps

/-!
# Power transport through a freshly built mesh (C200)

`ForwardMesh.__post_init__` draws the external phases uniformly from `[0, 2 pi)` (forward.py:61). Averaged over them, light behaves
like particles that take each arm of a node with its transmissivity.
-/

namespace Simphox

open Complex MeasureTheory ProbabilityTheory ComplexConjugate

/-- The power transmissivities of a node, as elements acting on powers. -/
noncomputable def powerElements (m : Elements) : Elements where
  t11 := ‖m.t11‖ ^ 2
  t12 := ‖m.t12‖ ^ 2
  t21 := ‖m.t21‖ ^ 2
  t22 := ‖m.t22‖ ^ 2

section General
variable {Ω β : Type} [MeasurableSpace Ω] [MeasurableSpace β] {Pr : Measure Ω}

/-- Depends on the draws of the nodes in `S` only, and is bounded. -/
def BddOn (D : ℕ → Ω → β) (S : Finset ℕ) (f : Ω → ℂ) : Prop := DependsOn D S f ∧ ∃ C, ∀ ω, ‖f ω‖ ≤ C

theorem BddOn.mul {D : ℕ → Ω → β} {S : Finset ℕ} {f g : Ω → ℂ} (hf : BddOn D S f) (hg : BddOn D S g) : BddOn D S fun ω => f ω * g ω := by
  obtain ⟨df, A, hA⟩ := hf
  obtain ⟨dg, B, hB⟩ := hg
  refine ⟨df.mul dg, A * B, fun ω => ?_⟩
  rw [norm_mul]
  exact mul_le_mul (hA ω) (hB ω) (norm_nonneg _) ((norm_nonneg _).trans (hA ω))

theorem BddOn.add {D : ℕ → Ω → β} {S : Finset ℕ} {f g : Ω → ℂ} (hf : BddOn D S f) (hg : BddOn D S g) : BddOn D S fun ω => f ω + g ω := by
  obtain ⟨df, A, hA⟩ := hf
  obtain ⟨dg, B, hB⟩ := hg
  exact ⟨df.add dg, A + B, fun ω => (norm_add_le _ _).trans (add_le_add (hA ω) (hB ω))⟩

theorem BddOn.conj {D : ℕ → Ω → β} {S : Finset ℕ} {f : Ω → ℂ} (hf : BddOn D S f) : BddOn D S fun ω => conj (f ω) := by
  obtain ⟨⟨G, hG, hf⟩, A, hA⟩ := hf
  refine ⟨⟨fun x => (starRingEnd ℂ) (G x), Complex.continuous_conj.measurable.comp hG, fun ω => ?_⟩, A, fun ω => ?_⟩
  · show (starRingEnd ℂ) (f ω) = (starRingEnd ℂ) (G fun i => D i ω)
    rw [hf]
  · rw [RCLike.norm_conj]; exact hA ω

theorem BddOn.mono {D : ℕ → Ω → β} {S T : Finset ℕ} {f : Ω → ℂ} (hf : BddOn D S f) (h : S ⊆ T) : BddOn D T f := ⟨hf.1.mono h, hf.2⟩

theorem BddOn.integrable [IsProbabilityMeasure Pr] {D : ℕ → Ω → β} (hD : ∀ k, Measurable (D k)) {S : Finset ℕ} {f : Ω → ℂ} (hf : BddOn D S f) :
    Integrable f Pr := by
  obtain ⟨⟨G, hG, hf⟩, A, hA⟩ := hf
  rw [show f = fun ω => G fun i : S => D i ω from funext hf] at hA ⊢
  exact Integrable.of_bound (hG.comp (measurable_pi_lambda _ fun i => hD i)).aestronglyMeasurable A (Filter.Eventually.of_forall hA)

theorem BddOn.single (D : ℕ → Ω → β) {S : Finset ℕ} {k : ℕ} (hk : k ∈ S) {x : β → ℂ} (hx : Measurable x) (hb : ∃ C, ∀ z, ‖x z‖ ≤ C) :
    BddOn D S fun ω => x (D k ω) := by
  obtain ⟨A, hA⟩ := hb
  exact ⟨DependsOn.single D hk hx, A, fun ω => hA _⟩

/-- What a random external phase does: the elements are bounded, `p` are their mean powers, and the interference terms average out. -/
structure Dephased (Pr : Measure Ω) (X : β → Elements) (p : Elements) (D : Ω → β) : Prop where
  m11 : Measurable fun x => (X x).t11
  m12 : Measurable fun x => (X x).t12
  m21 : Measurable fun x => (X x).t21
  m22 : Measurable fun x => (X x).t22
  b11 : ∃ C, ∀ x, ‖(X x).t11‖ ≤ C
  b12 : ∃ C, ∀ x, ‖(X x).t12‖ ≤ C
  b21 : ∃ C, ∀ x, ‖(X x).t21‖ ≤ C
  b22 : ∃ C, ∀ x, ‖(X x).t22‖ ≤ C
  p11 : ∫ ω, (X (D ω)).t11 * conj (X (D ω)).t11 ∂Pr = p.t11
  p12 : ∫ ω, (X (D ω)).t12 * conj (X (D ω)).t12 ∂Pr = p.t12
  p21 : ∫ ω, (X (D ω)).t21 * conj (X (D ω)).t21 ∂Pr = p.t21
  p22 : ∫ ω, (X (D ω)).t22 * conj (X (D ω)).t22 ∂Pr = p.t22
  top : ∫ ω, (X (D ω)).t11 * conj (X (D ω)).t21 ∂Pr = 0
  bottom : ∫ ω, (X (D ω)).t12 * conj (X (D ω)).t22 ∂Pr = 0

theorem mean_power_seq [IsProbabilityMeasure Pr] {D : ℕ → Ω → β} (hD : ∀ k, Measurable (D k)) (hind : iIndepFun D Pr) {X : ℕ → β → Elements}
    {p : ℕ → Elements} (L : List Node) (hX : ∀ a ∈ L, Dephased Pr (X a.id) (p a.id) (D a.id)) (hnd : (L.map Node.id).Nodup) (v : ℕ → ℂ) :
    ∀ r, BddOn D (L.map Node.id).toFinset (fun ω => seqApply (fun k => X k (D k ω)) L v r) ∧
      ∫ ω, seqApply (fun k => X k (D k ω)) L v r * conj (seqApply (fun k => X k (D k ω)) L v r) ∂Pr =
        seqApply p L (fun q => v q * conj (v q)) r := by
  induction L using List.reverseRecOn with
  | nil =>
    intro r
    refine ⟨⟨DependsOn.const _ _ _, ‖v r‖, fun _ => le_rfl⟩, ?_⟩
    simp [seqApply]
  | append_singleton L a ih =>
    rw [List.map_append, List.nodup_append] at hnd
    obtain ⟨hn1, -, hn2⟩ := hnd
    have IH := ih (fun b hb => hX b (by simp [hb])) hn1
    have hXa := hX a (by simp)
    have hdis : Disjoint {a.id} (L.map Node.id).toFinset := by
      rw [Finset.disjoint_singleton_left, List.mem_toFinset]
      intro h
      exact hn2 _ h a.id (by simp) rfl
    have hsub : (L.map Node.id).toFinset ⊆ ((L ++ [a]).map Node.id).toFinset := by
      intro x; simp; tauto
    have hmem : a.id ∈ ((L ++ [a]).map Node.id).toFinset := by simp
    -- mean power of a superposition of the two inputs of the node
    have key : ∀ (x y : β → ℂ) (px py : ℂ) (_ : Measurable x) (_ : Measurable y) (_ : ∃ C, ∀ z, ‖x z‖ ≤ C) (_ : ∃ C, ∀ z, ‖y z‖ ≤ C)
        (_ : ∫ ω, x (D a.id ω) * conj (x (D a.id ω)) ∂Pr = px) (_ : ∫ ω, y (D a.id ω) * conj (y (D a.id ω)) ∂Pr = py)
        (_ : ∫ ω, x (D a.id ω) * conj (y (D a.id ω)) ∂Pr = 0),
        BddOn D ((L ++ [a]).map Node.id).toFinset (fun ω => x (D a.id ω) * seqApply (fun k => X k (D k ω)) L v a.top +
          y (D a.id ω) * seqApply (fun k => X k (D k ω)) L v a.bottom) ∧
        ∫ ω, (x (D a.id ω) * seqApply (fun k => X k (D k ω)) L v a.top + y (D a.id ω) * seqApply (fun k => X k (D k ω)) L v a.bottom) *
          conj (x (D a.id ω) * seqApply (fun k => X k (D k ω)) L v a.top + y (D a.id ω) * seqApply (fun k => X k (D k ω)) L v a.bottom) ∂Pr =
          px * seqApply p L (fun q => v q * conj (v q)) a.top + py * seqApply p L (fun q => v q * conj (v q)) a.bottom := by
      intro x y px py mx my hx hy hpx hpy h0
      obtain ⟨bt, et⟩ := IH a.top
      obtain ⟨bb, eb⟩ := IH a.bottom
      have X1 := BddOn.single D hmem mx hx
      have Y1 := BddOn.single D hmem my hy
      refine ⟨(X1.mul (bt.mono hsub)).add (Y1.mul (bb.mono hsub)), ?_⟩
      generalize hwt : (fun ω => seqApply (fun k => X k (D k ω)) L v a.top) = wt at bt et
      generalize hwb : (fun ω => seqApply (fun k => X k (D k ω)) L v a.bottom) = wb at bb eb
      have ewt : ∀ ω, seqApply (fun k => X k (D k ω)) L v a.top = wt ω := fun ω => congrFun hwt ω
      have ewb : ∀ ω, seqApply (fun k => X k (D k ω)) L v a.bottom = wb ω := fun ω => congrFun hwb ω
      simp only [ewt, ewb] at et eb ⊢
      have X0 := BddOn.single D (Finset.mem_singleton_self a.id) mx hx
      have Y0 := BddOn.single D (Finset.mem_singleton_self a.id) my hy
      -- the interference terms
      have hin : IndepFun (fun ω => x (D a.id ω) * conj (y (D a.id ω))) (fun ω => wt ω * conj (wb ω)) Pr :=
        (X0.mul Y0.conj).1.indep (bt.mul bb.conj).1 hdis hD hind
      have z1 : ∫ ω, (x (D a.id ω) * conj (y (D a.id ω))) * (wt ω * conj (wb ω)) ∂Pr = 0 := by
        rw [hin.integral_fun_mul_eq_mul_integral ((X0.mul Y0.conj).integrable hD).aestronglyMeasurable
          ((bt.mul bb.conj).integrable hD).aestronglyMeasurable, h0, zero_mul]
      have z2 : ∫ ω, conj ((x (D a.id ω) * conj (y (D a.id ω))) * (wt ω * conj (wb ω))) ∂Pr = 0 := by
        rw [integral_conj, z1, map_zero]
      have prod : ∀ (x : β → ℂ) (w : Ω → ℂ) (px m : ℂ) (_ : BddOn D {a.id} fun ω => x (D a.id ω)) (_ : BddOn D (L.map Node.id).toFinset w)
          (_ : ∫ ω, x (D a.id ω) * conj (x (D a.id ω)) ∂Pr = px) (_ : ∫ ω, w ω * conj (w ω) ∂Pr = m),
          Integrable (fun ω => (x (D a.id ω) * conj (x (D a.id ω))) * (w ω * conj (w ω))) Pr ∧
            ∫ ω, (x (D a.id ω) * conj (x (D a.id ω))) * (w ω * conj (w ω)) ∂Pr = px * m := by
        intro x w px m hx hw hp hm
        have hin : IndepFun (fun ω => x (D a.id ω) * conj (x (D a.id ω))) (fun ω => w ω * conj (w ω)) Pr :=
          (hx.mul hx.conj).1.indep (hw.mul hw.conj).1 hdis hD hind
        refine ⟨hin.integrable_mul ((hx.mul hx.conj).integrable hD) ((hw.mul hw.conj).integrable hD), ?_⟩
        rw [hin.integral_fun_mul_eq_mul_integral ((hx.mul hx.conj).integrable hD).aestronglyMeasurable
          ((hw.mul hw.conj).integrable hD).aestronglyMeasurable, hp, hm]
      obtain ⟨i1, v1⟩ := prod x wt px _ X0 bt hpx et
      obtain ⟨i2, v2⟩ := prod y wb py _ Y0 bb hpy eb
      have B3 := (X1.mul Y1.conj).mul ((bt.mul bb.conj).mono hsub)
      have i3 : Integrable (fun ω => (x (D a.id ω) * conj (y (D a.id ω))) * (wt ω * conj (wb ω))) Pr := B3.integrable hD
      have i4 : Integrable (fun ω => conj ((x (D a.id ω) * conj (y (D a.id ω))) * (wt ω * conj (wb ω)))) Pr := B3.conj.integrable hD
      have e : ∀ ω, (x (D a.id ω) * wt ω + y (D a.id ω) * wb ω) * conj (x (D a.id ω) * wt ω + y (D a.id ω) * wb ω) =
          ((x (D a.id ω) * conj (x (D a.id ω))) * (wt ω * conj (wt ω)) + (y (D a.id ω) * conj (y (D a.id ω))) * (wb ω * conj (wb ω))) + ((x (D a.id ω) * conj (y (D a.id ω))) * (wt ω * conj (wb ω)) +
            conj ((x (D a.id ω) * conj (y (D a.id ω))) * (wt ω * conj (wb ω)))) := by
        intro ω
        simp only [map_add, map_mul, Complex.conj_conj]
        ring
      simp only [e]
      have s1 : ∫ ω, (((x (D a.id ω) * conj (x (D a.id ω))) * (wt ω * conj (wt ω)) + (y (D a.id ω) * conj (y (D a.id ω))) * (wb ω * conj (wb ω))) + ((x (D a.id ω) * conj (y (D a.id ω))) * (wt ω * conj (wb ω)) +
            conj ((x (D a.id ω) * conj (y (D a.id ω))) * (wt ω * conj (wb ω))))) ∂Pr =
          ∫ ω, ((x (D a.id ω) * conj (x (D a.id ω))) * (wt ω * conj (wt ω)) + (y (D a.id ω) * conj (y (D a.id ω))) * (wb ω * conj (wb ω))) ∂Pr + ∫ ω, ((x (D a.id ω) * conj (y (D a.id ω))) * (wt ω * conj (wb ω)) +
            conj ((x (D a.id ω) * conj (y (D a.id ω))) * (wt ω * conj (wb ω)))) ∂Pr := integral_add (i1.add i2) (i3.add i4)
      rw [s1, integral_add i1 i2, integral_add i3 i4, z1, z2, v1, v2]
      ring
    intro r
    simp only [seq_append_apply]
    have e0 : ∀ (el : ℕ → Elements) (w : ℕ → ℂ), seqApply el [a] w = nodeAct (el a.id) a.top a.bottom w := fun _ _ => rfl
    simp only [e0, nodeAct]
    by_cases h1 : r = a.top
    · simp only [h1, if_true]
      exact key _ _ _ _ hXa.m11 hXa.m21 hXa.b11 hXa.b21 hXa.p11 hXa.p21 hXa.top
    · by_cases h2 : r = a.bottom
      · simp only [h1, if_false]
        simp only [h2, if_true]
        exact key _ _ _ _ hXa.m12 hXa.m22 hXa.b12 hXa.b22 hXa.p12 hXa.p22 hXa.bottom
      · simp only [h1, h2, if_false]
        exact ⟨(IH r).1.mono hsub, (IH r).2⟩

end General

/-- The elements as functions of the external phase: powers do not change, and in the styles other than SYMMETRIC the relative phase of the two inputs is `phi`. -/
theorem dephase_elements (style : PhaseStyle) (hs : style ≠ .symmetric) (el er ll lr theta phi : ℝ) :
    let X := fun x => mziElements style false el er ll lr theta x
    (X phi).t11 * conj (X phi).t11 = ‖(X 0).t11‖ ^ 2 ∧ (X phi).t12 * conj (X phi).t12 = ‖(X 0).t12‖ ^ 2 ∧
    (X phi).t21 * conj (X phi).t21 = ‖(X 0).t21‖ ^ 2 ∧ (X phi).t22 * conj (X phi).t22 = ‖(X 0).t22‖ ^ 2 ∧
    (X phi).t11 * conj (X phi).t21 = (if style = .top then exp (I * phi) else conj (exp (I * phi))) * ((X 0).t11 * conj (X 0).t21) ∧
    (X phi).t12 * conj (X phi).t22 = (if style = .top then exp (I * phi) else conj (exp (I * phi))) * ((X 0).t12 * conj (X 0).t22) := by
  intro X
  have hn : ∀ z : ℂ, (‖z‖ : ℂ) ^ 2 = z * conj z := fun z => (Complex.mul_conj' z).symm
  simp only [hn]
  have hu : ∀ y : ℝ, exp (I * y) * conj (exp (I * y)) = 1 := by
    intro y
    rw [Complex.mul_conj, Complex.normSq_eq_norm_sq, norm_exp_I]; norm_num
  suffices h : ∃ g h : ℂ, g * conj g = 1 ∧ h * conj h = 1 ∧ g * conj h = (if style = .top then exp (I * phi) else conj (exp (I * phi))) ∧
      (X phi).t11 = g * (X 0).t11 ∧ (X phi).t12 = g * (X 0).t12 ∧ (X phi).t21 = h * (X 0).t21 ∧ (X phi).t22 = h * (X 0).t22 by
    obtain ⟨g, h, hg, hh, hgh, e1, e2, e3, e4⟩ := h
    rw [e1, e2, e3, e4]
    simp only [map_mul]
    refine ⟨?_, ?_, ?_, ?_, ?_, ?_⟩
    · linear_combination ((X 0).t11 * conj (X 0).t11) * hg
    · linear_combination ((X 0).t12 * conj (X 0).t12) * hg
    · linear_combination ((X 0).t21 * conj (X 0).t21) * hh
    · linear_combination ((X 0).t22 * conj (X 0).t22) * hh
    · linear_combination ((X 0).t11 * conj (X 0).t21) * hgh
    · linear_combination ((X 0).t12 * conj (X 0).t22) * hgh
  have split : ∀ x y : ℂ, exp (x + y) = exp x * exp y := exp_add
  cases style with
  | symmetric => exact absurd rfl hs
  | top =>
    refine ⟨exp (I * phi), 1, hu _, by simp, by simp, ?_, ?_, ?_, ?_⟩ <;> simp [X, mziElements, split] <;> ring
  | bottom =>
    refine ⟨1, exp (I * phi), by simp, hu _, by simp, ?_, ?_, ?_, ?_⟩ <;> simp [X, mziElements, split] <;> ring
  | differential =>
    have h2 : exp (I * ((-phi / 2 : ℝ) : ℂ)) * conj (exp (I * ((phi / 2 : ℝ) : ℂ))) = conj (exp (I * phi)) := by
      rw [← exp_conj, ← exp_conj, ← exp_add]
      congr 1
      rw [map_mul, map_mul, conj_I, conj_ofReal, conj_ofReal]
      push_cast
      ring
    have e1 : ∀ B : ℂ, exp (I * ((-phi - theta) / 2 + phi * 0) + B) = exp (I * ((-phi / 2 : ℝ) : ℂ)) * exp (I * ((-(0 : ℝ) - theta) / 2 + (0 : ℝ) * 0) + B) := by
      intro B; rw [← exp_add]; congr 1; push_cast; ring
    have e2 : ∀ B : ℂ, exp (I * ((phi - theta) / 2 - phi * 0) + B) = exp (I * ((phi / 2 : ℝ) : ℂ)) * exp (I * (((0 : ℝ) - theta) / 2 - (0 : ℝ) * 0) + B) := by
      intro B; rw [← exp_add]; congr 1; push_cast; ring
    refine ⟨exp (I * ((-phi / 2 : ℝ) : ℂ)), exp (I * ((phi / 2 : ℝ) : ℂ)), hu _, hu _, by simpa using h2, ?_, ?_, ?_, ?_⟩ <;>
      simp only [X, mziElements, Bool.false_eq_true, if_false] <;> first | rw [e1]; ring | rw [e2]; ring

/-- C200: in a freshly built mesh, of style TOP, BOTTOM or DIFFERENTIAL, with any thetas, losses and coupler errors, the mean over the random
external phases of the power leaving rail `r` is that of particles which take the arms of each node at random, with its transmissivities: interference
averages out. -/
theorem C200_classical {Ω : Type} [MeasurableSpace Ω] (Pr : Measure Ω) [IsProbabilityMeasure Pr] (n : ℕ) (M : Mesh) (hM : M.WellFormed n)
    (hs : M.style ≠ .symmetric) (hid : (M.nodes.map Node.id).Nodup) (thetas gammas : ℕ → ℝ) (u : ℕ → Ω → ℝ) (hu : ∀ k, Measurable (u k))
    (hlaw : ∀ k, Pr.map (u k) = uniform01) (hind : iIndepFun u Pr) (v : ℕ → ℂ) (r : ℕ) :
    ((∫ ω, ‖M.apply ⟨thetas, fun k => 2 * Real.pi * u k ω, gammas⟩ false v r‖ ^ 2 ∂Pr : ℝ) : ℂ) =
      columnsApply (fun k => powerElements (M.elements ⟨thetas, fun _ => 0, gammas⟩ false k)) M.nodes (List.range (numColumns M.nodes))
        (fun q => ((‖v q‖ ^ 2 : ℝ) : ℂ)) r := by
  have hz : ∀ k, ∫ ω, exp (I * ((2 * Real.pi * u k ω : ℝ) : ℂ)) ∂Pr = 0 := by
    intro k
    have h := uniform_phase 1 0
    simp only [pow_one, pow_zero, mul_one, one_ne_zero, if_false] at h
    rw [← hlaw k, integral_map (hu k).aemeasurable (by fun_prop)] at h
    exact h
  let X : ℕ → ℝ → Elements := fun k x => mziElements M.style false (M.errors.getD k (0, 0)).1 (M.errors.getD k (0, 0)).2
    (M.losses.getD k (0, 0)).1 (M.losses.getD k (0, 0)).2 (thetas k) (2 * Real.pi * x)
  have hX : ∀ k, Dephased Pr (X k) (powerElements (M.elements ⟨thetas, fun _ => 0, gammas⟩ false k)) (u k) := by
    intro k
    have hb := phase_bdd M.style false (M.errors.getD k (0, 0)).1 (M.errors.getD k (0, 0)).2
      (M.losses.getD k (0, 0)).1 (M.losses.getD k (0, 0)).2 (thetas k) 0 0 (2 * Real.pi)
    simp only [zero_mul, add_zero, zero_add] at hb
    have hd := fun x : ℝ => dephase_elements M.style hs (M.errors.getD k (0, 0)).1 (M.errors.getD k (0, 0)).2
      (M.losses.getD k (0, 0)).1 (M.losses.getD k (0, 0)).2 (thetas k) (2 * Real.pi * x)
    have cast : ∀ z : ℂ, ((‖z‖ ^ 2 : ℝ) : ℂ) = (‖z‖ : ℂ) ^ 2 := fun z => by push_cast; rfl
    have hzc : ∫ ω, conj (exp (I * ((2 * Real.pi * u k ω : ℝ) : ℂ))) ∂Pr = 0 := by rw [integral_conj, hz, map_zero]
    have c0 : ∀ c : ℂ, (∫ ω, exp (I * ((2 * Real.pi * u k ω : ℝ) : ℂ)) * c ∂Pr = 0) ∧
        ∫ ω, conj (exp (I * ((2 * Real.pi * u k ω : ℝ) : ℂ))) * c ∂Pr = 0 := by
      intro c
      constructor
      · rw [integral_mul_const, hz, zero_mul]
      · rw [integral_mul_const, hzc, zero_mul]
    have const : ∀ (f : ℝ → ℂ) (c : ℂ), (∀ x, f x = c) → ∫ ω, f (u k ω) ∂Pr = c := by
      intro f c h
      simp [h]
    refine ⟨hb.1.1.measurable, hb.2.1.1.measurable, hb.2.2.1.1.measurable, hb.2.2.2.1.measurable, hb.1.2, hb.2.1.2, hb.2.2.1.2, hb.2.2.2.2,
      const (fun x => (X k x).t11 * conj (X k x).t11) _ fun x => (hd x).1, const (fun x => (X k x).t12 * conj (X k x).t12) _ fun x => (hd x).2.1,
      const (fun x => (X k x).t21 * conj (X k x).t21) _ fun x => (hd x).2.2.1, const (fun x => (X k x).t22 * conj (X k x).t22) _ fun x => (hd x).2.2.2.1, ?_, ?_⟩
    · have e : ∀ ω, (X k (u k ω)).t11 * conj (X k (u k ω)).t21 = _ := fun ω => (hd (u k ω)).2.2.2.2.1
      simp only [e]
      by_cases ht : M.style = .top
      · simp only [ht, if_true]; exact (c0 _).1
      · simp only [ht, if_false]; exact (c0 _).2
    · have e : ∀ ω, (X k (u k ω)).t12 * conj (X k (u k ω)).t22 = _ := fun ω => (hd (u k ω)).2.2.2.2.2
      simp only [e]
      by_cases ht : M.style = .top
      · simp only [ht, if_true]; exact (c0 _).1
      · simp only [ht, if_false]; exact (c0 _).2
  have hid' : ((visitOrder M.nodes false).map Node.id).Nodup := (((visitOrder_perm M.nodes false).map Node.id).nodup_iff).2 hid
  have h := (mean_power_seq (X := X) (p := fun k => powerElements (M.elements ⟨thetas, fun _ => 0, gammas⟩ false k)) hu hind (visitOrder M.nodes false) (fun a _ => hX a.id) hid' v r).2
  have hap : ∀ ω, ‖M.apply ⟨thetas, fun k => 2 * Real.pi * u k ω, gammas⟩ false v r‖ ^ 2 =
      ‖seqApply (fun k => X k (u k ω)) (visitOrder M.nodes false) v r‖ ^ 2 := by
    intro ω
    show ‖exp (I * gammas r) * columnsApply _ M.nodes (columnOrder M.nodes false) v r‖ ^ 2 = _
    rw [norm_mul, norm_exp_I, one_mul, columnsApply_eq_seq hM.goodColumn]
    rfl
  simp only [hap]
  rw [← integral_complex_ofReal]
  have hcv : ∀ ω, ((‖seqApply (fun k => X k (u k ω)) (visitOrder M.nodes false) v r‖ ^ 2 : ℝ) : ℂ) =
      seqApply (fun k => X k (u k ω)) (visitOrder M.nodes false) v r * conj (seqApply (fun k => X k (u k ω)) (visitOrder M.nodes false) v r) := by
    intro ω; rw [Complex.mul_conj']; push_cast; rfl
  simp only [hcv]
  rw [h, columnsApply_eq_seq hM.goodColumn]
  congr 1
  funext q
  rw [Complex.mul_conj']; push_cast; rfl

theorem single_apply (style : PhaseStyle) (v : ℕ → ℂ) (el : ℕ → Elements) :
    columnsApply el (idealMesh [⟨0, 0, 1, 2, 1, 1, 0⟩] style).nodes (List.range (numColumns (idealMesh [⟨0, 0, 1, 2, 1, 1, 0⟩] style).nodes)) v 0 =
      (el 0).t11 * v 0 + (el 0).t21 * v 1 := by
  have hc : List.range (numColumns (idealMesh [⟨0, 0, 1, 2, 1, 1, 0⟩] style).nodes) = [0] := rfl
  have hn : columnNodes (idealMesh [⟨0, 0, 1, 2, 1, 1, 0⟩] style).nodes 0 = [⟨0, 0, 1, 2, 1, 1, 0⟩] := rfl
  rw [hc]
  simp [columnsApply, hn, parallelTransform, columnWrites, scatter, Function.update_apply]

theorem half_node (phi : ℝ) :
    ‖(mziElements .symmetric false 0 0 0 0 (Real.pi / 2) phi).t11‖ ^ 2 = 1 / 2 ∧ ‖(mziElements .symmetric false 0 0 0 0 (Real.pi / 2) phi).t21‖ ^ 2 = 1 / 2 ∧
    ‖(mziElements .symmetric false 0 0 0 0 (Real.pi / 2) phi).t11 + (mziElements .symmetric false 0 0 0 0 (Real.pi / 2) phi).t21‖ ^ 2 = 2 := by
  have hI : exp (I * ((Real.pi : ℂ) / 2)) = I := by rw [mul_comm]; exact exp_pi_div_two_mul_I
  have hT : (mziTerms 0 0).cc = 1 / 2 ∧ (mziTerms 0 0).cs = 1 / 2 ∧ (mziTerms 0 0).sc = 1 / 2 ∧ (mziTerms 0 0).ss = 1 / 2 := by
    have h := Real.mul_self_sqrt (show (0 : ℝ) ≤ 2 by norm_num)
    simp only [mziTerms, add_zero, Real.cos_pi_div_four, Real.sin_pi_div_four]
    refine ⟨?_, ?_, ?_, ?_⟩ <;> linarith
  have n1 : ‖(-1 / 2 + I / 2 : ℂ)‖ ^ 2 = 1 / 2 := by
    rw [← Complex.normSq_eq_norm_sq, Complex.normSq_apply]; simp; norm_num
  have n2 : ‖(-1 + I : ℂ)‖ ^ 2 = 2 := by
    rw [← Complex.normSq_eq_norm_sq, Complex.normSq_apply]; simp; norm_num
  have a1 : (-(1 / 2 : ℂ) + 1 / 2 * I) = -1 / 2 + I / 2 := by ring
  have a2 : I * (1 / 2 + 1 / 2 * I) = -1 / 2 + I / 2 := by linear_combination (1 / 2 : ℂ) * I_mul_I
  have hg : ‖exp (I * ((phi : ℂ) - (Real.pi : ℂ) / 2 / 2))‖ = 1 := by
    rw [show (phi : ℂ) - (Real.pi : ℂ) / 2 / 2 = ((phi - Real.pi / 2 / 2 : ℝ) : ℂ) by push_cast; ring, norm_exp_I]
  have e1 : (mziElements .symmetric false 0 0 0 0 (Real.pi / 2) phi).t11 = (-1 / 2 + I / 2) * exp (I * ((phi : ℂ) - (Real.pi : ℂ) / 2 / 2)) := by
    simp only [mziElements, hT, mul_zero, zero_div, ofReal_zero, add_zero, ofReal_div, ofReal_one, ofReal_ofNat, hI]
    rw [a1]
  have e2 : (mziElements .symmetric false 0 0 0 0 (Real.pi / 2) phi).t21 = (-1 / 2 + I / 2) * exp (I * ((phi : ℂ) - (Real.pi : ℂ) / 2 / 2)) := by
    simp only [mziElements, hT, mul_zero, zero_div, ofReal_zero, add_zero, ofReal_div, ofReal_one, ofReal_ofNat, hI]
    rw [a2]
  rw [e1, e2]
  refine ⟨?_, ?_, ?_⟩
  · rw [norm_mul, hg, mul_one, n1]
  · rw [norm_mul, hg, mul_one, n1]
  · rw [show (-1 / 2 + I / 2) * exp (I * ((phi : ℂ) - (Real.pi : ℂ) / 2 / 2)) + (-1 / 2 + I / 2) * exp (I * ((phi : ℂ) - (Real.pi : ℂ) / 2 / 2)) =
      (-1 + I) * exp (I * ((phi : ℂ) - (Real.pi : ℂ) / 2 / 2)) by ring, norm_mul, hg, mul_one, n2]

/-- C200, why the style SYMMETRIC is left out: there the external phase is common to both arms, and light does interfere. One 50:50 node, one unit of
power on each input: the upper output carries two units for every external phase, not the classical one unit. -/
theorem C200_symmetric (phis gammas : ℕ → ℝ) :
    let M := idealMesh [⟨0, 0, 1, 2, 1, 1, 0⟩] .symmetric
    ‖M.apply ⟨fun _ => Real.pi / 2, phis, gammas⟩ false (fun _ => 1) 0‖ ^ 2 = 2 ∧
    columnsApply (fun k => powerElements (M.elements ⟨fun _ => Real.pi / 2, fun _ => 0, gammas⟩ false k)) M.nodes (List.range (numColumns M.nodes))
      (fun _ => ((‖(1 : ℂ)‖ ^ 2 : ℝ) : ℂ)) 0 = 1 := by
  intro M
  have hel : ∀ P : Params, M.elements P false 0 = mziElements .symmetric false 0 0 0 0 (P.thetas 0) (P.phis 0) := fun P => by
    simp [M, Mesh.elements, idealMesh]
  constructor
  · show ‖exp (I * gammas 0) * columnsApply _ M.nodes (List.range (numColumns M.nodes)) (fun _ => 1) 0‖ ^ 2 = 2
    rw [norm_mul, norm_exp_I, one_mul, single_apply, hel, mul_one, mul_one]
    exact (half_node _).2.2
  · rw [single_apply]
    simp only [powerElements]
    rw [hel]
    have h := half_node 0
    simp only [norm_one, one_pow, ofReal_one, mul_one, ← ofReal_pow]
    rw [h.1, h.2.1, ← ofReal_add]
    norm_num

end Simphox
