import Verif.MeshExtrasProps
import Verif.ButterflyProps
import Verif.InSituNoiseProps
import Verif.VectorProps
import Mathlib.Probability.Independence.Integration
import Mathlib.Probability.Distributions.Gaussian.Real

/-!
# The mean of a mesh whose nodes have independent random errors (C198, C199)

The field at the output is a sum of products of at most one element per node. If the nodes are perturbed
independently, its mean is the output of the mesh of the mean elements.
-/

namespace Simphox

open Complex MeasureTheory ProbabilityTheory

section General

variable {Ω β : Type} [MeasurableSpace Ω] [MeasurableSpace β] {Pr : Measure Ω}

/-- The value depends on the draws of the nodes in `S` only. -/
def DependsOn (D : ℕ → Ω → β) (S : Finset ℕ) (f : Ω → ℂ) : Prop :=
  ∃ G : (S → β) → ℂ, Measurable G ∧ ∀ ω, f ω = G fun i => D i ω

theorem DependsOn.const (D : ℕ → Ω → β) (S : Finset ℕ) (c : ℂ) : DependsOn D S fun _ => c :=
  ⟨fun _ => c, measurable_const, fun _ => rfl⟩

theorem DependsOn.mono {D : ℕ → Ω → β} {S T : Finset ℕ} {f : Ω → ℂ} (h : DependsOn D S f) (hST : S ⊆ T) : DependsOn D T f := by
  obtain ⟨G, hG, hf⟩ := h
  refine ⟨fun x => G fun i => x ⟨i, hST i.2⟩, hG.comp ?_, hf⟩
  exact measurable_pi_lambda _ fun i => measurable_pi_apply _

theorem DependsOn.add {D : ℕ → Ω → β} {S : Finset ℕ} {f g : Ω → ℂ} (hf : DependsOn D S f) (hg : DependsOn D S g) :
    DependsOn D S fun ω => f ω + g ω := by
  obtain ⟨F, hF, hf⟩ := hf
  obtain ⟨G, hG, hg⟩ := hg
  exact ⟨fun x => F x + G x, hF.add hG, fun ω => by
    show _ = _
    simp only [hf, hg]⟩

theorem DependsOn.mul {D : ℕ → Ω → β} {S : Finset ℕ} {f g : Ω → ℂ} (hf : DependsOn D S f) (hg : DependsOn D S g) :
    DependsOn D S fun ω => f ω * g ω := by
  obtain ⟨F, hF, hf⟩ := hf
  obtain ⟨G, hG, hg⟩ := hg
  exact ⟨fun x => F x * G x, hF.mul hG, fun ω => by
    show _ = _
    simp only [hf, hg]⟩

theorem DependsOn.single (D : ℕ → Ω → β) {S : Finset ℕ} {k : ℕ} (hk : k ∈ S) {x : β → ℂ} (hx : Measurable x) :
    DependsOn D S fun ω => x (D k ω) :=
  ⟨fun y => x (y ⟨k, hk⟩), hx.comp (measurable_pi_apply _), fun _ => rfl⟩

theorem DependsOn.indep {D : ℕ → Ω → β} {S T : Finset ℕ} {f g : Ω → ℂ} (hf : DependsOn D S f) (hg : DependsOn D T g)
    (hST : Disjoint S T) (hD : ∀ k, Measurable (D k)) (hind : iIndepFun D Pr) : IndepFun f g Pr := by
  obtain ⟨F, hF, hf⟩ := hf
  obtain ⟨G, hG, hg⟩ := hg
  have h := (hind.indepFun_finset S T hST hD).comp hF hG
  rw [show f = F ∘ fun ω (i : S) => D i ω from funext hf, show g = G ∘ fun ω (i : T) => D i ω from funext hg]
  exact h

/-- The elements with the mean of every entry. -/
noncomputable def meanElements (Pr : Measure Ω) (X : Ω → Elements) : Elements where
  t11 := ∫ ω, (X ω).t11 ∂Pr
  t12 := ∫ ω, (X ω).t12 ∂Pr
  t21 := ∫ ω, (X ω).t21 ∂Pr
  t22 := ∫ ω, (X ω).t22 ∂Pr

/-- The entries are measurable functions of the draw. -/
structure MeasElements (X : β → Elements) : Prop where
  t11 : Measurable fun x => (X x).t11
  t12 : Measurable fun x => (X x).t12
  t21 : Measurable fun x => (X x).t21
  t22 : Measurable fun x => (X x).t22

/-- The entries have means. -/
structure IntElements (Pr : Measure Ω) (X : Ω → Elements) : Prop where
  t11 : Integrable (fun ω => (X ω).t11) Pr
  t12 : Integrable (fun ω => (X ω).t12) Pr
  t21 : Integrable (fun ω => (X ω).t21) Pr
  t22 : Integrable (fun ω => (X ω).t22) Pr

theorem seq_append_apply (el : ℕ → Elements) (l l' : List Node) (v : ℕ → ℂ) :
    seqApply el (l ++ l') v = seqApply el l' (seqApply el l v) := by
  unfold seqApply; rw [List.foldl_append]

theorem mean_seqApply [IsProbabilityMeasure Pr] {D : ℕ → Ω → β} (hD : ∀ k, Measurable (D k)) (hind : iIndepFun D Pr) {X : ℕ → β → Elements}
    (hX : ∀ k, MeasElements (X k)) (L : List Node) (hI : ∀ a ∈ L, IntElements Pr fun ω => X a.id (D a.id ω))
    (hnd : (L.map Node.id).Nodup) (v : ℕ → ℂ) :
    ∀ r, DependsOn D (L.map Node.id).toFinset (fun ω => seqApply (fun k => X k (D k ω)) L v r) ∧
      Integrable (fun ω => seqApply (fun k => X k (D k ω)) L v r) Pr ∧
      ∫ ω, seqApply (fun k => X k (D k ω)) L v r ∂Pr = seqApply (fun k => meanElements Pr fun ω => X k (D k ω)) L v r := by
  induction L using List.reverseRecOn with
  | nil =>
    intro r
    refine ⟨DependsOn.const _ _ _, integrable_const _, ?_⟩
    simp [seqApply]
  | append_singleton L a ih =>
    rw [List.map_append, List.nodup_append] at hnd
    obtain ⟨hn1, -, hn2⟩ := hnd
    have IH := ih (fun b hb => hI b (by simp [hb])) hn1
    have hIa := hI a (by simp)
    have hdis : Disjoint {a.id} (L.map Node.id).toFinset := by
      rw [Finset.disjoint_singleton_left, List.mem_toFinset]
      intro h
      exact hn2 _ h a.id (by simp) rfl
    have hsub : (L.map Node.id).toFinset ⊆ ((L ++ [a]).map Node.id).toFinset := by
      intro x; simp; tauto
    have hmem : a.id ∈ ((L ++ [a]).map Node.id).toFinset := by simp
    have key : ∀ (x : β → ℂ) (_ : Measurable x) (_ : Integrable (fun ω => x (D a.id ω)) Pr) (q : ℕ),
        DependsOn D ((L ++ [a]).map Node.id).toFinset (fun ω => x (D a.id ω) * seqApply (fun k => X k (D k ω)) L v q) ∧
        Integrable (fun ω => x (D a.id ω) * seqApply (fun k => X k (D k ω)) L v q) Pr ∧
        ∫ ω, x (D a.id ω) * seqApply (fun k => X k (D k ω)) L v q ∂Pr =
          (∫ ω, x (D a.id ω) ∂Pr) * seqApply (fun k => meanElements Pr fun ω => X k (D k ω)) L v q := by
      intro x hx hxi q
      obtain ⟨d1, i1, e1⟩ := IH q
      have hin : IndepFun (fun ω => x (D a.id ω)) (fun ω => seqApply (fun k => X k (D k ω)) L v q) Pr :=
        (DependsOn.single D (Finset.mem_singleton_self _) hx).indep d1 hdis hD hind
      refine ⟨(DependsOn.single D hmem hx).mul (d1.mono hsub), hin.integrable_mul hxi i1, ?_⟩
      rw [hin.integral_fun_mul_eq_mul_integral hxi.aestronglyMeasurable i1.aestronglyMeasurable, e1]
    intro r
    simp only [seq_append_apply]
    have e0 : ∀ (el : ℕ → Elements) (w : ℕ → ℂ), seqApply el [a] w = nodeAct (el a.id) a.top a.bottom w := fun _ _ => rfl
    simp only [e0, nodeAct]
    by_cases h1 : r = a.top
    · simp only [h1, if_true]
      obtain ⟨da, ia, ea⟩ := key _ (hX a.id).t11 hIa.t11 a.top
      obtain ⟨db, ib, eb⟩ := key _ (hX a.id).t21 hIa.t21 a.bottom
      refine ⟨da.add db, ia.add ib, ?_⟩
      rw [integral_add ia ib, ea, eb]; rfl
    · by_cases h2 : r = a.bottom
      · simp only [h1, if_false]
        simp only [h2, if_true]
        obtain ⟨da, ia, ea⟩ := key _ (hX a.id).t12 hIa.t12 a.top
        obtain ⟨db, ib, eb⟩ := key _ (hX a.id).t22 hIa.t22 a.bottom
        refine ⟨da.add db, ia.add ib, ?_⟩
        rw [integral_add ia ib, ea, eb]; rfl
      · simp only [h1, h2, if_false]
        obtain ⟨d1, i1, e1⟩ := IH r
        exact ⟨d1.mono hsub, i1, e1⟩

theorem visitOrder_perm (nodes : List Node) (back : Bool) : (visitOrder nodes back).Perm nodes := by
  cases back
  · exact executionOrder_perm nodes
  · refine List.Perm.trans ?_ (executionOrder_perm nodes)
    simp only [visitOrder, executionOrder, columnOrder, if_true]
    exact List.Perm.flatMap_right _ (List.reverse_perm _)

theorem mean_columnsApply [IsProbabilityMeasure Pr] {D : ℕ → Ω → β} (hD : ∀ k, Measurable (D k)) (hind : iIndepFun D Pr) {X : ℕ → β → Elements}
    (hX : ∀ k, MeasElements (X k)) {n : ℕ} {M : Mesh} (hM : M.WellFormed n) (hI : ∀ a ∈ M.nodes, IntElements Pr fun ω => X a.id (D a.id ω))
    (hnd : (M.nodes.map Node.id).Nodup) (back : Bool) (v : ℕ → ℂ) (r : ℕ) :
    Integrable (fun ω => columnsApply (fun k => X k (D k ω)) M.nodes (columnOrder M.nodes back) v r) Pr ∧
    ∫ ω, columnsApply (fun k => X k (D k ω)) M.nodes (columnOrder M.nodes back) v r ∂Pr =
      columnsApply (fun k => meanElements Pr fun ω => X k (D k ω)) M.nodes (columnOrder M.nodes back) v r := by
  simp only [columnsApply_eq_seq hM.goodColumn]
  have h := (mean_seqApply hD hind hX (visitOrder M.nodes back) (fun a ha => hI a (mem_visitOrder.1 ha))
    ((((visitOrder_perm M.nodes back).map Node.id).nodup_iff).2 hnd) v r).2
  exact h

end General

/-! ### Phase noise -/

/-- A bounded continuous function of the draw. -/
def Bdd {β : Type} [TopologicalSpace β] (f : β → ℂ) : Prop := Continuous f ∧ ∃ C, ∀ x, ‖f x‖ ≤ C

section
variable {β : Type} [TopologicalSpace β]

theorem Bdd.const (c : ℂ) : Bdd fun _ : β => c := ⟨continuous_const, ‖c‖, fun _ => le_rfl⟩

theorem Bdd.add {f g : β → ℂ} (hf : Bdd f) (hg : Bdd g) : Bdd fun x => f x + g x := by
  obtain ⟨cf, A, hA⟩ := hf
  obtain ⟨cg, B, hB⟩ := hg
  exact ⟨cf.add cg, A + B, fun x => (norm_add_le _ _).trans (add_le_add (hA x) (hB x))⟩

theorem Bdd.mul {f g : β → ℂ} (hf : Bdd f) (hg : Bdd g) : Bdd fun x => f x * g x := by
  obtain ⟨cf, A, hA⟩ := hf
  obtain ⟨cg, B, hB⟩ := hg
  refine ⟨cf.mul cg, A * B, fun x => ?_⟩
  rw [norm_mul]
  exact mul_le_mul (hA x) (hB x) (norm_nonneg _) ((norm_nonneg _).trans (hA x))

theorem Bdd.neg {f : β → ℂ} (hf : Bdd f) : Bdd fun x => -f x := by
  obtain ⟨cf, A, hA⟩ := hf
  exact ⟨cf.neg, A, fun x => by rw [norm_neg]; exact hA x⟩

theorem Bdd.sub {f g : β → ℂ} (hf : Bdd f) (hg : Bdd g) : Bdd fun x => f x - g x := by
  simpa only [sub_eq_add_neg] using hf.add hg.neg

theorem Bdd.cexp {h : β → ℂ} (hc : Continuous h) (c : ℝ) (hre : ∀ x, (h x).re ≤ c) : Bdd fun x => exp (h x) := by
  refine ⟨Complex.continuous_exp.comp hc, Real.exp c, fun x => ?_⟩
  rw [Complex.norm_exp]
  exact Real.exp_le_exp.2 (hre x)

theorem Bdd.integrable [MeasurableSpace β] [OpensMeasurableSpace β] {Ω : Type} [MeasurableSpace Ω] {Pr : Measure Ω} [IsProbabilityMeasure Pr] {f : β → ℂ} (hf : Bdd f) {d : Ω → β}
    (hd : Measurable d) : Integrable (fun ω => f (d ω)) Pr := by
  obtain ⟨cf, A, hA⟩ := hf
  exact Integrable.of_bound (cf.measurable.comp hd).aestronglyMeasurable A (Filter.Eventually.of_forall fun ω => hA _)

theorem Bdd.real {f : β → ℝ} (hc : Continuous f) (c : ℝ) (hre : ∀ x, |f x| ≤ c) : Bdd fun x => (f x : ℂ) := by
  refine ⟨continuous_ofReal.comp hc, c, fun x => ?_⟩
  rw [Complex.norm_real]
  exact hre x

end

/-- The elements are bounded functions of the noise. -/
theorem phase_bdd (style : PhaseStyle) (back : Bool) (el er ll lr theta phi σ τ : ℝ) :
    (Bdd fun x => (mziElements style back el er ll lr (theta + σ * x) (phi + τ * x)).t11) ∧
    (Bdd fun x => (mziElements style back el er ll lr (theta + σ * x) (phi + τ * x)).t12) ∧
    (Bdd fun x => (mziElements style back el er ll lr (theta + σ * x) (phi + τ * x)).t21) ∧
    (Bdd fun x => (mziElements style back el er ll lr (theta + σ * x) (phi + τ * x)).t22) := by
  have h1 : Real.log 10 * ll / 20 ≤ |Real.log 10 * ll / 20| + |Real.log 10 * lr / 20| :=
    (le_abs_self _).trans (le_add_of_nonneg_right (abs_nonneg _))
  have h2 : Real.log 10 * lr / 20 ≤ |Real.log 10 * ll / 20| + |Real.log 10 * lr / 20| :=
    (le_abs_self _).trans (le_add_of_nonneg_left (abs_nonneg _))
  have h0 : 0 ≤ |Real.log 10 * ll / 20| + |Real.log 10 * lr / 20| := by positivity
  generalize hA : Real.log 10 * ll / 20 = A at *
  generalize hB : Real.log 10 * lr / 20 = B at *
  cases style <;> cases back <;> dsimp only [mziElements] <;> rw [hA, hB] <;> refine ⟨?_, ?_, ?_, ?_⟩
  all_goals
    repeat first
      | exact Bdd.const _
      | apply Bdd.mul
      | apply Bdd.add
      | apply Bdd.sub
      | apply Bdd.neg
      | exact Bdd.cexp (by fun_prop) (|A| + |B|) fun x => by simp <;> assumption

/-- The parameters `mesh.phases(error=sigma)` with the default flags (forward.py:520-522): `randn` is drawn once per node and shifts
theta and phi of the node alike; the output phases stay (`gamma_error = False`). See `phasesOf` and C117 for the lists. -/
def noisyParams (P : Params) (σ : ℝ) (d : ℕ → ℝ) : Params where
  thetas k := P.thetas k + σ * d k
  phis k := P.phis k + σ * d k
  gammas := P.gammas

theorem noisy_elements (M : Mesh) (P : Params) (σ : ℝ) (back : Bool) (d : ℕ → ℝ) (k : ℕ) :
    M.elements (noisyParams P σ d) back k = mziElements M.style back (M.errors.getD k (0, 0)).1 (M.errors.getD k (0, 0)).2
      (M.losses.getD k (0, 0)).1 (M.losses.getD k (0, 0)).2 (P.thetas k + σ * d k) (P.phis k + σ * d k) := rfl

/-- C198: if the phase errors of the nodes are independent, of any distribution, then the mean output of the mesh is the output
of the mesh in which every node has its mean elements. -/
theorem C198_mean_field {Ω : Type} [MeasurableSpace Ω] (Pr : Measure Ω) [IsProbabilityMeasure Pr] (n : ℕ) (M : Mesh) (hM : M.WellFormed n)
    (hid : (M.nodes.map Node.id).Nodup) (P : Params) (σ : ℝ) (d : ℕ → Ω → ℝ) (hd : ∀ k, Measurable (d k)) (hind : iIndepFun d Pr)
    (back : Bool) (v : ℕ → ℂ) (r : ℕ) :
    Integrable (fun ω => M.apply (noisyParams P σ fun k => d k ω) back v r) Pr ∧
    ∫ ω, M.apply (noisyParams P σ fun k => d k ω) back v r ∂Pr =
      if back then columnsApply (fun k => meanElements Pr fun ω => M.elements (noisyParams P σ fun k => d k ω) back k) M.nodes
        (columnOrder M.nodes back) (gammaApply P.gammas v) r
      else gammaApply P.gammas (columnsApply (fun k => meanElements Pr fun ω => M.elements (noisyParams P σ fun k => d k ω) back k) M.nodes
        (columnOrder M.nodes back) v) r := by
  have hB := fun k => phase_bdd M.style back (M.errors.getD k (0, 0)).1 (M.errors.getD k (0, 0)).2
      (M.losses.getD k (0, 0)).1 (M.losses.getD k (0, 0)).2 (P.thetas k) (P.phis k) σ σ
  have h := fun u q => mean_columnsApply hd hind (X := fun k x => mziElements M.style back (M.errors.getD k (0, 0)).1 (M.errors.getD k (0, 0)).2
      (M.losses.getD k (0, 0)).1 (M.losses.getD k (0, 0)).2 (P.thetas k + σ * x) (P.phis k + σ * x))
    (fun k => ⟨(hB k).1.1.measurable, (hB k).2.1.1.measurable, (hB k).2.2.1.1.measurable, (hB k).2.2.2.1.measurable⟩) hM
    (fun a _ => ⟨(hB a.id).1.integrable (hd _), (hB a.id).2.1.integrable (hd _), (hB a.id).2.2.1.integrable (hd _),
      (hB a.id).2.2.2.integrable (hd _)⟩) hid back u q
  cases back
  · obtain ⟨i, e⟩ := h v r
    refine ⟨i.const_mul (exp (I * P.gammas r)), ?_⟩
    show ∫ ω, exp (I * P.gammas r) * _ ∂Pr = exp (I * P.gammas r) * _
    rw [integral_const_mul]
    exact congrArg _ e
  · exact h (gammaApply P.gammas v) r

/-- The elements of a node in the style TOP, whose terms with the phase `phi` or `theta` alone are attenuated by `exp(-sigma^2/2)`, those
with `theta + phi` by `exp(-2 sigma^2)`. -/
noncomputable def washedTop (σ el er ll lr theta phi : ℝ) : Elements :=
  let c := fun x : ℝ => (Real.cos (Real.pi / 4 + x) : ℂ)
  let s := fun x : ℝ => (Real.sin (Real.pi / 4 + x) : ℂ)
  let once : ℂ := Real.exp (-σ ^ 2 / 2)
  let twice : ℂ := Real.exp (-(2 * σ) ^ 2 / 2)
  let t : ℂ := exp (I * theta) * Real.exp (Real.log 10 * ll / 20)
  let p : ℂ := exp (I * phi) * Real.exp (Real.log 10 * lr / 20)
  { t11 := -(s er * s el) * (once * p) + c er * c el * (twice * (t * p))
    t12 := I * (c er * s el * (once * p) + s er * c el * (twice * (t * p)))
    t21 := I * (s er * c el + c er * s el * (once * t))
    t22 := c er * c el - s er * s el * (once * t) }

theorem gauss_phase {Ω : Type} [MeasurableSpace Ω] {Pr : Measure Ω} {d : Ω → ℝ} (hd : Measurable d) (hlaw : Pr.map d = gaussianReal 0 1) (a s : ℝ) :
    ∫ ω, exp (I * ((a + s * d ω : ℝ) : ℂ)) ∂Pr = exp (I * a) * Real.exp (-s ^ 2 / 2) := by
  have h := gauss_cexp (-s)
  rw [← hlaw, integral_map hd.aemeasurable (by fun_prop)] at h
  rw [show (-s) ^ 2 = s ^ 2 by ring] at h
  rw [← h, ← integral_const_mul]
  congr 1
  funext ω
  rw [← exp_add]
  congr 1
  push_cast
  ring

theorem mean_washedTop {Ω : Type} [MeasurableSpace Ω] {Pr : Measure Ω} [IsProbabilityMeasure Pr] {d : Ω → ℝ} (hd : Measurable d)
    (hlaw : Pr.map d = gaussianReal 0 1) (σ el er ll lr theta phi : ℝ) :
    meanElements Pr (fun ω => mziElements .top false el er ll lr (theta + σ * d ω) (phi + σ * d ω)) = washedTop σ el er ll lr theta phi := by
  have hA : Integrable (fun ω => exp (I * ((theta + σ * d ω : ℝ) : ℂ))) Pr :=
    (Bdd.cexp (h := fun x : ℝ => I * ((theta + σ * x : ℝ) : ℂ)) (by fun_prop) 0 fun x => by simp).integrable hd
  have hB : Integrable (fun ω => exp (I * ((phi + σ * d ω : ℝ) : ℂ))) Pr :=
    (Bdd.cexp (h := fun x : ℝ => I * ((phi + σ * x : ℝ) : ℂ)) (by fun_prop) 0 fun x => by simp).integrable hd
  have hC : Integrable (fun ω => exp (I * ((theta + phi + 2 * σ * d ω : ℝ) : ℂ))) Pr :=
    (Bdd.cexp (h := fun x : ℝ => I * ((theta + phi + 2 * σ * x : ℝ) : ℂ)) (by fun_prop) 0 fun x => by simp).integrable hd
  have eA := gauss_phase hd hlaw theta σ
  have eB := gauss_phase hd hlaw phi σ
  have eC := gauss_phase hd hlaw (theta + phi) (2 * σ)
  have eC' : exp (I * ((theta + phi : ℝ) : ℂ)) = exp (I * theta) * exp (I * phi) := by rw [← exp_add]; congr 1; push_cast; ring
  have split : ∀ x y : ℝ, exp (I * x + y) = exp (I * x) * Real.exp y := fun x y => by rw [exp_add, ofReal_exp]
  have prod : ∀ ω, exp (I * ((theta + σ * d ω : ℝ) : ℂ)) * exp (I * ((phi + σ * d ω : ℝ) : ℂ)) =
      exp (I * ((theta + phi + 2 * σ * d ω : ℝ) : ℂ)) := fun ω => by rw [← exp_add]; congr 1; push_cast; ring
  have lin : ∀ (F : Ω → ℂ) (a b p : ℂ) (f g : Ω → ℂ), Integrable f Pr → Integrable g Pr → (∀ ω, F ω = p + (a * f ω + b * g ω)) →
      ∫ ω, F ω ∂Pr = p + (a * ∫ ω, f ω ∂Pr + b * ∫ ω, g ω ∂Pr) := by
    intro F a b p f g hf hg hF
    simp only [hF]
    have h1 := hf.const_mul a
    have h2 := hg.const_mul b
    have h4 : ∫ ω, p + (a * f ω + b * g ω) ∂Pr = ∫ _, p ∂Pr + ∫ ω, (a * f ω + b * g ω) ∂Pr :=
      integral_add (integrable_const _) (h1.add h2)
    rw [h4, integral_add h1 h2, integral_const_mul, integral_const_mul]
    simp
  have key : ∀ A B : Elements, A.t11 = B.t11 → A.t12 = B.t12 → A.t21 = B.t21 → A.t22 = B.t22 → A = B := by
    intro A B h1 h2 h3 h4
    cases A; cases B; simp_all
  apply key
  · dsimp only [meanElements, washedTop]
    rw [lin _ (-(Real.sin (Real.pi / 4 + er) * Real.sin (Real.pi / 4 + el)) * Real.exp (Real.log 10 * lr / 20))
      (Real.cos (Real.pi / 4 + er) * Real.cos (Real.pi / 4 + el) * Real.exp (Real.log 10 * ll / 20) * Real.exp (Real.log 10 * lr / 20)) 0 _ _ hB hC fun ω => ?_, eB, eC, eC']
    · ring
    · rw [← prod ω]
      dsimp only [mziElements, mziTerms]
      rw [split, split]
      simp only [ofReal_mul, ofReal_neg]
      ring
  · dsimp only [meanElements, washedTop]
    rw [lin _ (I * Real.cos (Real.pi / 4 + er) * Real.sin (Real.pi / 4 + el) * Real.exp (Real.log 10 * lr / 20))
      (I * Real.sin (Real.pi / 4 + er) * Real.cos (Real.pi / 4 + el) * Real.exp (Real.log 10 * ll / 20) * Real.exp (Real.log 10 * lr / 20)) 0 _ _ hB hC fun ω => ?_, eB, eC, eC']
    · ring
    · rw [← prod ω]
      dsimp only [mziElements, mziTerms]
      simp only [Bool.false_eq_true, if_false, sub_zero, mul_one]
      rw [split, split]
      simp only [ofReal_mul, ofReal_neg]
      ring
  · dsimp only [meanElements, washedTop]
    rw [lin _ (I * Real.cos (Real.pi / 4 + er) * Real.sin (Real.pi / 4 + el) * Real.exp (Real.log 10 * ll / 20)) 0
      (I * Real.sin (Real.pi / 4 + er) * Real.cos (Real.pi / 4 + el)) _ _ hA hB fun ω => ?_, eA]
    · ring
    · dsimp only [mziElements, mziTerms]
      simp only [Bool.false_eq_true, if_false, mul_zero, exp_zero]
      rw [split]
      simp only [ofReal_mul, ofReal_neg]
      ring
  · dsimp only [meanElements, washedTop]
    rw [lin _ (-(Real.sin (Real.pi / 4 + er) * Real.sin (Real.pi / 4 + el)) * Real.exp (Real.log 10 * ll / 20)) 0
      (Real.cos (Real.pi / 4 + er) * Real.cos (Real.pi / 4 + el)) _ _ hA hB fun ω => ?_, eA]
    · ring
    · dsimp only [mziElements, mziTerms]
      rw [split]
      simp only [ofReal_mul, ofReal_neg]
      ring

/-- C198 for normally distributed errors, the ones `phases` draws, and the default style: the mean output is that of the mesh whose
interference terms are washed out by the factors `exp(-sigma^2/2)` and `exp(-2 sigma^2)`. -/
theorem C198_gaussian {Ω : Type} [MeasurableSpace Ω] (Pr : Measure Ω) [IsProbabilityMeasure Pr] (n : ℕ) (M : Mesh) (hM : M.WellFormed n)
    (hid : (M.nodes.map Node.id).Nodup) (hs : M.style = .top) (P : Params) (σ : ℝ) (d : ℕ → Ω → ℝ) (hd : ∀ k, Measurable (d k))
    (hlaw : ∀ k, Pr.map (d k) = gaussianReal 0 1) (hind : iIndepFun d Pr) (v : ℕ → ℂ) (r : ℕ) :
    ∫ ω, M.apply (noisyParams P σ fun k => d k ω) false v r ∂Pr =
      gammaApply P.gammas (columnsApply (fun k => washedTop σ (M.errors.getD k (0, 0)).1 (M.errors.getD k (0, 0)).2
        (M.losses.getD k (0, 0)).1 (M.losses.getD k (0, 0)).2 (P.thetas k) (P.phis k)) M.nodes (columnOrder M.nodes false) v) r := by
  rw [(C198_mean_field Pr n M hM hid P σ d hd hind false v r).2]
  simp only [Bool.false_eq_true, if_false, noisy_elements, hs]
  simp only [mean_washedTop (hd _) (hlaw _)]

/-- Independent standard normal draws exist. -/
theorem normal_draws_exist : ∃ (Ω : Type) (_ : MeasurableSpace Ω) (Pr : Measure Ω) (_ : IsProbabilityMeasure Pr)
    (d : ℕ → Ω → ℝ), (∀ k, Measurable (d k)) ∧ (∀ k, Pr.map (d k) = gaussianReal 0 1) ∧ iIndepFun d Pr :=
  ⟨ℕ → ℝ, inferInstance, Measure.infinitePi fun _ => gaussianReal 0 1, inferInstance, fun i ω => ω i,
    fun i => measurable_pi_apply i, fun i => Measure.infinitePi_map_eval _ i,
    iIndepFun_infinitePi (X := fun _ x => x) fun _ => measurable_id⟩

/-- A case of C198: the coupler in the bar state (theta = pi, phi = 0) loses the mean factor seen in the second line: the field on the upper rail becomes
`-(exp(-sigma^2/2) + exp(-2 sigma^2)) / 2`. -/
theorem C198_case {Ω : Type} [MeasurableSpace Ω] (Pr : Measure Ω) [IsProbabilityMeasure Pr] (σ : ℝ) (d : ℕ → Ω → ℝ) (hd : ∀ k, Measurable (d k))
    (hlaw : ∀ k, Pr.map (d k) = gaussianReal 0 1) (hind : iIndepFun d Pr) :
    ∫ ω, (idealMesh [⟨0, 0, 1, 2, 1, 1, 0⟩] .top).apply (noisyParams ⟨fun _ => Real.pi, fun _ => 0, fun _ => 0⟩ σ fun k => d k ω) false
      (fun r => if r = 0 then 1 else 0) 0 ∂Pr = -((Real.exp (-σ ^ 2 / 2) + Real.exp (-(2 * σ) ^ 2 / 2)) / 2 : ℝ) := by
  have hM : (idealMesh [⟨0, 0, 1, 2, 1, 1, 0⟩] .top).WellFormed 2 := by
    refine ⟨rfl, rfl, ?_, ?_, ?_⟩
    · simp [idealMesh]
    · simp [idealMesh]
    · simp [idealMesh, ColumnsDisjoint]
  rw [C198_gaussian Pr 2 _ hM (by simp [idealMesh]) rfl _ σ d hd hlaw hind]
  have hc : columnOrder (idealMesh [⟨0, 0, 1, 2, 1, 1, 0⟩] .top).nodes false = [0] := by decide
  rw [hc]
  have hn : columnNodes (idealMesh [⟨0, 0, 1, 2, 1, 1, 0⟩] .top).nodes 0 = [⟨0, 0, 1, 2, 1, 1, 0⟩] := by decide
  simp only [gammaApply, columnsApply, List.foldl_cons, List.foldl_nil, hn, parallelTransform, columnWrites, scatter, List.map_cons, List.map_nil,
    List.cons_append, List.nil_append]
  have h2 : ((Real.sqrt 2 : ℝ) : ℂ) * (Real.sqrt 2 : ℝ) = 2 := by rw [← ofReal_mul, Real.mul_self_sqrt (by norm_num)]; norm_num
  have hp : exp (I * Real.pi) = -1 := by rw [mul_comm]; exact exp_pi_mul_I
  simp only [washedTop, idealMesh, List.map_cons, List.map_nil, List.getD_cons_zero, add_zero, Real.cos_pi_div_four, Real.sin_pi_div_four, mul_zero,
    zero_div, Real.exp_zero, ofReal_zero, ofReal_one, exp_zero, mul_one, hp, Function.update_apply]
  push_cast
  simp
  linear_combination (-(exp (-σ ^ 2 / 2) + exp (-(2 * σ) ^ 2 / 2)) / 4 : ℂ) * h2

/-! ### Errors of the couplers -/

/-- The coupler terms of a node, means over `add_error_variance(sigma)` (forward.py:590-592): both couplers off by the same draw, or by two
independent draws. -/
noncomputable def noisyTerms (equal : Bool) (σ el er : ℝ) : MziTerms :=
  if equal then
    { cc := (Real.cos (er - el) - Real.exp (-(2 * σ) ^ 2 / 2) * Real.sin (er + el)) / 2
      cs := (Real.exp (-(2 * σ) ^ 2 / 2) * Real.cos (er + el) - Real.sin (er - el)) / 2
      sc := (Real.exp (-(2 * σ) ^ 2 / 2) * Real.cos (er + el) + Real.sin (er - el)) / 2
      ss := (Real.cos (er - el) + Real.exp (-(2 * σ) ^ 2 / 2) * Real.sin (er + el)) / 2 }
  else
    { cc := Real.exp (-σ ^ 2) * (Real.cos (Real.pi / 4 + er) * Real.cos (Real.pi / 4 + el))
      cs := Real.exp (-σ ^ 2) * (Real.cos (Real.pi / 4 + er) * Real.sin (Real.pi / 4 + el))
      sc := Real.exp (-σ ^ 2) * (Real.sin (Real.pi / 4 + er) * Real.cos (Real.pi / 4 + el))
      ss := Real.exp (-σ ^ 2) * (Real.sin (Real.pi / 4 + er) * Real.sin (Real.pi / 4 + el)) }

/-- The elements of a node from its coupler terms (coupling.py:172-219, as in `mziElements`). -/
noncomputable def mziOfTerms (style : PhaseStyle) (back : Bool) (T : MziTerms) (ll lr theta phi : ℝ) : Elements :=
  let il : ℝ := Real.log 10 * ll / 20
  let ir : ℝ := Real.log 10 * lr / 20
  let b : ℂ := if back then 1 else 0
  let cc : ℂ := T.cc
  let cs : ℂ := T.cs
  let sc : ℂ := T.sc
  let ss : ℂ := T.ss
  match style with
  | .top =>
    { t11 := (-ss + cc * exp (I * theta + il)) * exp (I * phi + ir)
      t12 := I * (cs + sc * exp (I * theta + il)) * exp ((I * phi + ir) * (1 - b))
      t21 := I * (sc + cs * exp (I * theta + il)) * exp ((I * phi + ir) * b)
      t22 := cc - ss * exp (I * theta + il) }
  | .bottom =>
    { t11 := -ss * exp (I * theta + il) + cc
      t12 := I * (cs * exp (I * theta + il) + sc) * exp ((I * phi + ir) * b)
      t21 := I * (sc * exp (I * theta + il) + cs) * exp ((I * phi + ir) * (1 - b))
      t22 := (cc * exp (I * theta + il) - ss) * exp (I * phi + ir) }
  | .symmetric =>
    { t11 := (-ss + cc * exp (I * theta + il)) * exp (I * (phi - theta / 2) + ir)
      t12 := I * (cs + sc * exp (I * theta + il)) * exp (I * (phi - theta / 2) + ir)
      t21 := I * (sc + cs * exp (I * theta + il)) * exp (I * (phi - theta / 2) + ir)
      t22 := (cc - ss * exp (I * theta + il)) * exp (I * (phi - theta / 2) + ir) }
  | .differential =>
    { t11 := (-ss + cc * exp (I * theta + il)) * exp (I * ((-phi - theta) / 2 + phi * b) + ir)
      t12 := I * (cs + sc * exp (I * theta + il)) * exp (I * ((-phi - theta) / 2 + phi * b) + ir)
      t21 := I * (sc + cs * exp (I * theta + il)) * exp (I * ((phi - theta) / 2 - phi * b) + ir)
      t22 := (cc - ss * exp (I * theta + il)) * exp (I * ((phi - theta) / 2 - phi * b) + ir) }

theorem mziElements_of_terms (style : PhaseStyle) (back : Bool) (el er ll lr theta phi : ℝ) :
    mziElements style back el er ll lr theta phi = mziOfTerms style back (mziTerms el er) ll lr theta phi := by
  cases style <;> rfl

/-- The elements are linear in the terms. -/
theorem mziOfTerms_linear (style : PhaseStyle) (back : Bool) (ll lr theta phi : ℝ) : ∃ F : Fin 8 → ℂ, ∀ T : MziTerms,
    mziOfTerms style back T ll lr theta phi =
      ⟨F 0 * T.cc + F 1 * T.ss, F 2 * T.cs + F 3 * T.sc, F 4 * T.cs + F 5 * T.sc, F 6 * T.cc + F 7 * T.ss⟩ := by
  let G := fun T => mziOfTerms style back T ll lr theta phi
  refine ⟨![(G ⟨1, 0, 0, 0⟩).t11, (G ⟨0, 0, 0, 1⟩).t11, (G ⟨0, 1, 0, 0⟩).t12, (G ⟨0, 0, 1, 0⟩).t12, (G ⟨0, 1, 0, 0⟩).t21,
    (G ⟨0, 0, 1, 0⟩).t21, (G ⟨1, 0, 0, 0⟩).t22, (G ⟨0, 0, 0, 1⟩).t22], fun T => ?_⟩
  have e : ∀ A B : Elements, A.t11 = B.t11 → A.t12 = B.t12 → A.t21 = B.t21 → A.t22 = B.t22 → A = B := by
    intro A B h1 h2 h3 h4
    cases A; cases B; simp_all
  apply e <;> cases style <;> simp [G, mziOfTerms] <;> ring

/-- The elements of mean terms are the mean elements. -/
theorem mean_mziOfTerms {Ω : Type} [MeasurableSpace Ω] {Pr : Measure Ω} (style : PhaseStyle) (back : Bool) (ll lr theta phi : ℝ) (T : Ω → MziTerms)
    (T' : MziTerms) (h1 : Integrable (fun ω => (T ω).cc) Pr) (h2 : Integrable (fun ω => (T ω).cs) Pr) (h3 : Integrable (fun ω => (T ω).sc) Pr)
    (h4 : Integrable (fun ω => (T ω).ss) Pr) (e1 : ∫ ω, (T ω).cc ∂Pr = T'.cc) (e2 : ∫ ω, (T ω).cs ∂Pr = T'.cs)
    (e3 : ∫ ω, (T ω).sc ∂Pr = T'.sc) (e4 : ∫ ω, (T ω).ss ∂Pr = T'.ss) :
    IntElements Pr (fun ω => mziOfTerms style back (T ω) ll lr theta phi) ∧
    meanElements Pr (fun ω => mziOfTerms style back (T ω) ll lr theta phi) = mziOfTerms style back T' ll lr theta phi := by
  obtain ⟨F, hF⟩ := mziOfTerms_linear style back ll lr theta phi
  have lin : ∀ (a b : ℂ) (f g : Ω → ℝ) (x y : ℝ), Integrable f Pr → Integrable g Pr → ∫ ω, f ω ∂Pr = x → ∫ ω, g ω ∂Pr = y →
      Integrable (fun ω => a * f ω + b * g ω) Pr ∧ ∫ ω, (a * f ω + b * g ω : ℂ) ∂Pr = a * x + b * y := by
    intro a b f g x y hf hg hx hy
    have i1 : Integrable (fun ω => a * (f ω : ℂ)) Pr := hf.ofReal.const_mul a
    have i2 : Integrable (fun ω => b * (g ω : ℂ)) Pr := hg.ofReal.const_mul b
    refine ⟨i1.add i2, ?_⟩
    rw [integral_add i1 i2, integral_const_mul, integral_const_mul, integral_complex_ofReal, integral_complex_ofReal, hx, hy]
  simp only [hF]
  refine ⟨⟨(lin _ _ _ _ _ _ h1 h4 e1 e4).1, (lin _ _ _ _ _ _ h2 h3 e2 e3).1, (lin _ _ _ _ _ _ h2 h3 e2 e3).1, (lin _ _ _ _ _ _ h1 h4 e1 e4).1⟩, ?_⟩
  unfold meanElements
  simp only [(lin _ _ _ _ _ _ h1 h4 e1 e4).2, (lin _ _ _ _ _ _ h2 h3 e2 e3).2]

theorem gauss_cos (a s : ℝ) : ∫ z, Real.cos (a + s * z) ∂(gaussianReal 0 1) = Real.exp (-s ^ 2 / 2) * Real.cos a ∧
    ∫ z, Real.sin (a + s * z) ∂(gaussianReal 0 1) = Real.exp (-s ^ 2 / 2) * Real.sin a := by
  have h := gauss_phase (Pr := gaussianReal 0 1) (d := fun z => z) measurable_id (by simp) a s
  have hi : Integrable (fun z : ℝ => exp (I * ((a + s * z : ℝ) : ℂ))) (gaussianReal 0 1) :=
    (Bdd.cexp (h := fun x : ℝ => I * ((a + s * x : ℝ) : ℂ)) (by fun_prop) 0 fun x => by simp).integrable (d := fun z => z) measurable_id
  have hr := integral_re (𝕜 := ℂ) hi
  have hm := integral_im (𝕜 := ℂ) hi
  rw [h] at hr hm
  have er : ∀ x : ℝ, (exp (I * x)).re = Real.cos x := fun x => by rw [mul_comm, exp_ofReal_mul_I_re]
  have ei : ∀ x : ℝ, (exp (I * x)).im = Real.sin x := fun x => by rw [mul_comm, exp_ofReal_mul_I_im]
  simp only [RCLike.re_to_complex, RCLike.im_to_complex, er, ei, re_mul_ofReal, im_mul_ofReal] at hr hm
  exact ⟨hr.trans (mul_comm _ _), hm.trans (mul_comm _ _)⟩

theorem gauss_cos_integrable (a s : ℝ) : Integrable (fun z => Real.cos (a + s * z)) (gaussianReal 0 1) ∧
    Integrable (fun z => Real.sin (a + s * z)) (gaussianReal 0 1) := by
  constructor
  · exact Integrable.of_bound (by fun_prop) 1 (Filter.Eventually.of_forall fun z => by rw [Real.norm_eq_abs]; exact Real.abs_cos_le_one _)
  · exact Integrable.of_bound (by fun_prop) 1 (Filter.Eventually.of_forall fun z => by rw [Real.norm_eq_abs]; exact Real.abs_sin_le_one _)

/-- The coupler terms with the draw `x` of a node. -/
noncomputable def drawnTerms (equal : Bool) (σ el er : ℝ) (x : ℝ × ℝ) : MziTerms :=
  mziTerms (el + σ * x.1) (er + if equal then σ * x.1 else σ * x.2)

theorem terms_cont (equal : Bool) (σ el er : ℝ) : (Continuous fun x => (drawnTerms equal σ el er x).cc) ∧
    (Continuous fun x => (drawnTerms equal σ el er x).cs) ∧ (Continuous fun x => (drawnTerms equal σ el er x).sc) ∧
    Continuous fun x => (drawnTerms equal σ el er x).ss := by
  cases equal <;> simp only [drawnTerms, mziTerms, if_true, if_false, Bool.false_eq_true] <;> exact ⟨by fun_prop, by fun_prop, by fun_prop, by fun_prop⟩

theorem terms_bound (equal : Bool) (σ el er : ℝ) (x : ℝ × ℝ) : |(drawnTerms equal σ el er x).cc| ≤ 1 ∧
    |(drawnTerms equal σ el er x).cs| ≤ 1 ∧ |(drawnTerms equal σ el er x).sc| ≤ 1 ∧ |(drawnTerms equal σ el er x).ss| ≤ 1 := by
  have h : ∀ a b : ℝ, |a| ≤ 1 → |b| ≤ 1 → |a * b| ≤ 1 := fun a b ha hb => by
    rw [abs_mul]; exact mul_le_one₀ ha (abs_nonneg _) hb
  have c := Real.abs_cos_le_one
  have s := Real.abs_sin_le_one
  exact ⟨h _ _ (c _) (c _), h _ _ (c _) (s _), h _ _ (s _) (c _), h _ _ (s _) (s _)⟩

theorem terms_mean (equal : Bool) (σ el er : ℝ) :
    ∫ x, (drawnTerms equal σ el er x).cc ∂((gaussianReal 0 1).prod (gaussianReal 0 1)) = (noisyTerms equal σ el er).cc ∧
    ∫ x, (drawnTerms equal σ el er x).cs ∂((gaussianReal 0 1).prod (gaussianReal 0 1)) = (noisyTerms equal σ el er).cs ∧
    ∫ x, (drawnTerms equal σ el er x).sc ∂((gaussianReal 0 1).prod (gaussianReal 0 1)) = (noisyTerms equal σ el er).sc ∧
    ∫ x, (drawnTerms equal σ el er x).ss ∂((gaussianReal 0 1).prod (gaussianReal 0 1)) = (noisyTerms equal σ el er).ss := by
  cases equal
  · simp only [drawnTerms, noisyTerms, mziTerms, if_false, Bool.false_eq_true]
    have hw : Real.exp (-σ ^ 2) = Real.exp (-σ ^ 2 / 2) * Real.exp (-σ ^ 2 / 2) := by rw [← Real.exp_add]; congr 1; ring
    have C := fun e : ℝ => (gauss_cos (Real.pi / 4 + e) σ).1
    have S := fun e : ℝ => (gauss_cos (Real.pi / 4 + e) σ).2
    have sw : ∀ f g : ℝ → ℝ, ∫ x : ℝ × ℝ, g x.2 * f x.1 ∂((gaussianReal 0 1).prod (gaussianReal 0 1)) =
        (∫ z, f z ∂(gaussianReal 0 1)) * ∫ z, g z ∂(gaussianReal 0 1) := by
      intro f g
      rw [← integral_prod_mul]
      congr 1
      funext x
      exact mul_comm _ _
    simp only [← add_assoc]
    refine ⟨?_, ?_, ?_, ?_⟩
    · rw [sw (fun z => Real.cos (Real.pi / 4 + el + σ * z)) (fun z => Real.cos (Real.pi / 4 + er + σ * z)), C, C, hw]; ring
    · rw [sw (fun z => Real.sin (Real.pi / 4 + el + σ * z)) (fun z => Real.cos (Real.pi / 4 + er + σ * z)), C, S, hw]; ring
    · rw [sw (fun z => Real.cos (Real.pi / 4 + el + σ * z)) (fun z => Real.sin (Real.pi / 4 + er + σ * z)), C, S, hw]; ring
    · rw [sw (fun z => Real.sin (Real.pi / 4 + el + σ * z)) (fun z => Real.sin (Real.pi / 4 + er + σ * z)), S, S, hw]; ring
  · simp only [drawnTerms, noisyTerms, mziTerms, if_true]
    have fst : ∀ f : ℝ → ℝ, ∫ x : ℝ × ℝ, f x.1 ∂((gaussianReal 0 1).prod (gaussianReal 0 1)) = ∫ z, f z ∂(gaussianReal 0 1) := by
      intro f
      have := integral_prod_mul (μ := gaussianReal 0 1) (ν := gaussianReal 0 1) f (fun _ => (1 : ℝ))
      simpa using this
    have half : ∀ (p q s : ℝ) (f : ℝ → ℝ), Integrable f (gaussianReal 0 1) → ∫ z, f z ∂(gaussianReal 0 1) = q →
        ∫ z, (p + s * f z) / 2 ∂(gaussianReal 0 1) = (p + s * q) / 2 := by
      intro p q s f hf hq
      rw [integral_div, integral_add (integrable_const _) (hf.const_mul _), integral_const_mul, hq]
      simp
    have C := gauss_cos (er + el) (2 * σ)
    have Ci := gauss_cos_integrable (er + el) (2 * σ)
    have t1 : ∀ z : ℝ, Real.cos (Real.pi / 4 + (er + σ * z)) * Real.cos (Real.pi / 4 + (el + σ * z)) =
        (Real.cos (er - el) + (-1) * Real.sin (er + el + 2 * σ * z)) / 2 := by
      intro z
      have h1 := Real.cos_add (Real.pi / 4 + (er + σ * z)) (Real.pi / 4 + (el + σ * z))
      have h2 := Real.cos_sub (Real.pi / 4 + (er + σ * z)) (Real.pi / 4 + (el + σ * z))
      rw [show Real.pi / 4 + (er + σ * z) + (Real.pi / 4 + (el + σ * z)) = (er + el + 2 * σ * z) + Real.pi / 2 by ring, Real.cos_add_pi_div_two] at h1
      rw [show Real.pi / 4 + (er + σ * z) - (Real.pi / 4 + (el + σ * z)) = er - el by ring] at h2
      linarith
    have t4 : ∀ z : ℝ, Real.sin (Real.pi / 4 + (er + σ * z)) * Real.sin (Real.pi / 4 + (el + σ * z)) =
        (Real.cos (er - el) + 1 * Real.sin (er + el + 2 * σ * z)) / 2 := by
      intro z
      have h1 := Real.cos_add (Real.pi / 4 + (er + σ * z)) (Real.pi / 4 + (el + σ * z))
      have h2 := Real.cos_sub (Real.pi / 4 + (er + σ * z)) (Real.pi / 4 + (el + σ * z))
      rw [show Real.pi / 4 + (er + σ * z) + (Real.pi / 4 + (el + σ * z)) = (er + el + 2 * σ * z) + Real.pi / 2 by ring, Real.cos_add_pi_div_two] at h1
      rw [show Real.pi / 4 + (er + σ * z) - (Real.pi / 4 + (el + σ * z)) = er - el by ring] at h2
      linarith
    have t2 : ∀ z : ℝ, Real.cos (Real.pi / 4 + (er + σ * z)) * Real.sin (Real.pi / 4 + (el + σ * z)) =
        (-Real.sin (er - el) + 1 * Real.cos (er + el + 2 * σ * z)) / 2 := by
      intro z
      have h1 := Real.sin_add (Real.pi / 4 + (er + σ * z)) (Real.pi / 4 + (el + σ * z))
      have h2 := Real.sin_sub (Real.pi / 4 + (er + σ * z)) (Real.pi / 4 + (el + σ * z))
      rw [show Real.pi / 4 + (er + σ * z) + (Real.pi / 4 + (el + σ * z)) = (er + el + 2 * σ * z) + Real.pi / 2 by ring, Real.sin_add_pi_div_two] at h1
      rw [show Real.pi / 4 + (er + σ * z) - (Real.pi / 4 + (el + σ * z)) = er - el by ring] at h2
      linarith
    have t3 : ∀ z : ℝ, Real.sin (Real.pi / 4 + (er + σ * z)) * Real.cos (Real.pi / 4 + (el + σ * z)) =
        (Real.sin (er - el) + 1 * Real.cos (er + el + 2 * σ * z)) / 2 := by
      intro z
      have h1 := Real.sin_add (Real.pi / 4 + (er + σ * z)) (Real.pi / 4 + (el + σ * z))
      have h2 := Real.sin_sub (Real.pi / 4 + (er + σ * z)) (Real.pi / 4 + (el + σ * z))
      rw [show Real.pi / 4 + (er + σ * z) + (Real.pi / 4 + (el + σ * z)) = (er + el + 2 * σ * z) + Real.pi / 2 by ring, Real.sin_add_pi_div_two] at h1
      rw [show Real.pi / 4 + (er + σ * z) - (Real.pi / 4 + (el + σ * z)) = er - el by ring] at h2
      linarith
    simp only [t1, t2, t3, t4]
    refine ⟨?_, ?_, ?_, ?_⟩
    · rw [fst fun z => (Real.cos (er - el) + (-1) * Real.sin (er + el + 2 * σ * z)) / 2, half _ _ _ _ Ci.2 C.2]; ring
    · rw [fst fun z => (-Real.sin (er - el) + 1 * Real.cos (er + el + 2 * σ * z)) / 2, half _ _ _ _ Ci.1 C.1]; ring
    · rw [fst fun z => (Real.sin (er - el) + 1 * Real.cos (er + el + 2 * σ * z)) / 2, half _ _ _ _ Ci.1 C.1]; ring
    · rw [fst fun z => (Real.cos (er - el) + 1 * Real.sin (er + el + 2 * σ * z)) / 2, half _ _ _ _ Ci.2 C.2]; ring

/-- The mesh `mesh.add_error_variance(sigma, 0, equal)` (forward.py:589-600) after the draws `x k` for the couplers of node `k` and `dl` for the losses,
with the phases kept (`addErrorVariance`, C118). -/
noncomputable def noisyMesh (M : Mesh) (σ : ℝ) (equal : Bool) (x : ℕ → ℝ × ℝ) (dl : List (ℝ × ℝ)) : Mesh :=
  M.withErrors (addErrorVariance M.errors M.losses σ 0 equal ((List.range M.nodes.length).map x) dl).1
    (addErrorVariance M.errors M.losses σ 0 equal ((List.range M.nodes.length).map x) dl).2

theorem noisyMesh_elements {n : ℕ} {M : Mesh} (hM : M.WellFormed n) (P : Params) (σ : ℝ) (equal back : Bool) (x : ℕ → ℝ × ℝ) (dl : List (ℝ × ℝ))
    (hdl : dl.length = M.nodes.length) (k : ℕ) (hk : k < M.nodes.length) :
    (noisyMesh M σ equal x dl).elements P back k = mziOfTerms M.style back (drawnTerms equal σ (M.errors.getD k (0, 0)).1 (M.errors.getD k (0, 0)).2 (x k))
      (M.losses.getD k (0, 0)).1 (M.losses.getD k (0, 0)).2 (P.thetas k) (P.phis k) := by
  have hc := C118_variance M.errors M.losses σ 0 equal ((List.range M.nodes.length).map x) dl (by simp [hM.errors_length]) (by rw [hdl, hM.losses_length])
  obtain ⟨-, -, h3, -, -, h6⟩ := hc
  have h3 := h3 k (by rw [hM.errors_length]; exact hk)
  have hx : (((List.range M.nodes.length).map x).getD k (0, 0)) = x k := by
    simp [List.getD_eq_getElem?_getD, hk]
  rw [hx] at h3
  have e1 := eq_add_of_sub_eq h3.1
  have e2 := eq_add_of_sub_eq h3.2
  unfold Mesh.elements noisyMesh Mesh.withErrors
  simp only [h6 rfl, e1, e2]
  rw [mziElements_of_terms]
  unfold drawnTerms
  congr 2
  · ring
  · cases equal <;> simp <;> ring

/-- C199: random errors of the couplers, drawn by `add_error_variance`. If the pairs of draws of the nodes are independent, each a pair of independent
standard normal numbers, the mean output of the perturbed mesh is the output of the mesh built from the mean coupler terms. All styles, losses, errors already
present, both directions. -/
theorem C199_coupler_noise {Ω : Type} [MeasurableSpace Ω] (Pr : Measure Ω) [IsProbabilityMeasure Pr] (n : ℕ) (M : Mesh) (hM : M.WellFormed n)
    (hid : (M.nodes.map Node.id).Nodup) (P : Params) (σ : ℝ) (equal : Bool) (x : ℕ → Ω → ℝ × ℝ) (hx : ∀ k, Measurable (x k))
    (hlaw : ∀ k, Pr.map (x k) = (gaussianReal 0 1).prod (gaussianReal 0 1)) (hind : iIndepFun x Pr) (dl : List (ℝ × ℝ))
    (hdl : dl.length = M.nodes.length) (back : Bool) (v : ℕ → ℂ) (r : ℕ) :
    let mean := fun k => mziOfTerms M.style back (noisyTerms equal σ (M.errors.getD k (0, 0)).1 (M.errors.getD k (0, 0)).2)
      (M.losses.getD k (0, 0)).1 (M.losses.getD k (0, 0)).2 (P.thetas k) (P.phis k)
    ∫ ω, (noisyMesh M σ equal (fun k => x k ω) dl).apply P back v r ∂Pr =
      if back then columnsApply mean M.nodes (columnOrder M.nodes back) (gammaApply P.gammas v) r
      else gammaApply P.gammas (columnsApply mean M.nodes (columnOrder M.nodes back) v) r := by
  intro mean
  let X : ℕ → ℝ × ℝ → Elements := fun k y => mziOfTerms M.style back (drawnTerms equal σ (M.errors.getD k (0, 0)).1 (M.errors.getD k (0, 0)).2 y)
      (M.losses.getD k (0, 0)).1 (M.losses.getD k (0, 0)).2 (P.thetas k) (P.phis k)
  have hi : ∀ k (f : ℝ × ℝ → ℝ), Continuous f → (∀ y, |f y| ≤ 1) → Integrable (fun ω => f (x k ω)) Pr := fun k f hf hb =>
    Integrable.of_bound (hf.measurable.comp (hx k)).aestronglyMeasurable 1 (Filter.Eventually.of_forall fun ω => by
      rw [Real.norm_eq_abs]; exact hb _)
  have hmean : ∀ k, IntElements Pr (fun ω => X k (x k ω)) ∧ meanElements Pr (fun ω => X k (x k ω)) = mean k := by
    intro k
    have hc := terms_cont equal σ (M.errors.getD k (0, 0)).1 (M.errors.getD k (0, 0)).2
    have hb := terms_bound equal σ (M.errors.getD k (0, 0)).1 (M.errors.getD k (0, 0)).2
    have hm := terms_mean equal σ (M.errors.getD k (0, 0)).1 (M.errors.getD k (0, 0)).2
    have tr : ∀ f : ℝ × ℝ → ℝ, Continuous f → ∫ ω, f (x k ω) ∂Pr = ∫ y, f y ∂((gaussianReal 0 1).prod (gaussianReal 0 1)) := by
      intro f hf
      rw [← hlaw k, integral_map (hx k).aemeasurable hf.measurable.aestronglyMeasurable]
    exact mean_mziOfTerms M.style back _ _ _ _ (fun ω => drawnTerms equal σ _ _ (x k ω)) _
      (hi k _ hc.1 fun y => (hb y).1) (hi k _ hc.2.1 fun y => (hb y).2.1) (hi k _ hc.2.2.1 fun y => (hb y).2.2.1) (hi k _ hc.2.2.2 fun y => (hb y).2.2.2)
      ((tr _ hc.1).trans hm.1) ((tr _ hc.2.1).trans hm.2.1) ((tr _ hc.2.2.1).trans hm.2.2.1) ((tr _ hc.2.2.2).trans hm.2.2.2)
  have hX : ∀ k, MeasElements (X k) := by
    intro k
    obtain ⟨F, hF⟩ := mziOfTerms_linear M.style back (M.losses.getD k (0, 0)).1 (M.losses.getD k (0, 0)).2 (P.thetas k) (P.phis k)
    have hc := terms_cont equal σ (M.errors.getD k (0, 0)).1 (M.errors.getD k (0, 0)).2
    have m1 := continuous_ofReal.comp hc.1
    have m2 := continuous_ofReal.comp hc.2.1
    have m3 := continuous_ofReal.comp hc.2.2.1
    have m4 := continuous_ofReal.comp hc.2.2.2
    simp only [X, hF]
    exact ⟨((continuous_const.mul m1).add (continuous_const.mul m4)).measurable, ((continuous_const.mul m2).add (continuous_const.mul m3)).measurable,
      ((continuous_const.mul m2).add (continuous_const.mul m3)).measurable, ((continuous_const.mul m1).add (continuous_const.mul m4)).measurable⟩
  have h := fun u q => mean_columnsApply hx hind hX hM (fun a _ => (hmean a.id).1) hid back u q
  have hme : (fun k => meanElements Pr fun ω => X k (x k ω)) = mean := funext fun k => (hmean k).2
  simp only [hme] at h
  have hel : ∀ ω u, columnsApply ((noisyMesh M σ equal (fun k => x k ω) dl).elements P back) M.nodes (columnOrder M.nodes back) u =
      columnsApply (fun k => X k (x k ω)) M.nodes (columnOrder M.nodes back) u := by
    intro ω u
    rw [columnsApply_eq_seq hM.goodColumn, columnsApply_eq_seq hM.goodColumn]
    refine seqApply_congr _ (fun a ha => ?_) u
    have ha' : a ∈ M.nodes := mem_visitOrder.1 ha
    exact noisyMesh_elements hM P σ equal back _ dl hdl a.id (hM.ids a ha')
  cases back
  · show ∫ ω, gammaApply P.gammas (columnsApply ((noisyMesh M σ equal (fun k => x k ω) dl).elements P false) M.nodes (columnOrder M.nodes false) v) r ∂Pr = _
    simp only [hel, gammaApply, Bool.false_eq_true, if_false]
    rw [integral_const_mul, (h v r).2]
  · show ∫ ω, (columnsApply ((noisyMesh M σ equal (fun k => x k ω) dl).elements P true) M.nodes (columnOrder M.nodes true) (gammaApply P.gammas v)) r ∂Pr = _
    simp only [hel, if_true]
    exact (h _ r).2

/-- Such draws exist. -/
theorem normal_pairs_exist : ∃ (Ω : Type) (_ : MeasurableSpace Ω) (Pr : Measure Ω) (_ : IsProbabilityMeasure Pr)
    (x : ℕ → Ω → ℝ × ℝ), (∀ k, Measurable (x k)) ∧ (∀ k, Pr.map (x k) = (gaussianReal 0 1).prod (gaussianReal 0 1)) ∧ iIndepFun x Pr :=
  ⟨ℕ → ℝ × ℝ, inferInstance, Measure.infinitePi fun _ => (gaussianReal 0 1).prod (gaussianReal 0 1), inferInstance, fun i ω => ω i,
    fun i => measurable_pi_apply i, fun i => Measure.infinitePi_map_eval _ i,
    iIndepFun_infinitePi (X := fun _ x => x) fun _ => measurable_id⟩

/-- Scaling the elements of a mesh in which every rail passes a node in each of the columns. -/
theorem columnsApply_scale (el : ℕ → Elements) (nodes : List Node) (hg : ∀ k, GoodColumn (columnNodes nodes k)) (n : ℕ)
    (hr : ∀ a ∈ nodes, a.top < n ∧ a.bottom < n) (w : ℂ) (cols : List ℕ)
    (hcov : ∀ c ∈ cols, ∀ r < n, ∃ a ∈ columnNodes nodes c, r = a.top ∨ r = a.bottom) (v u : ℕ → ℂ) (s : ℂ) (hv : ∀ r < n, v r = s * u r) :
    ∀ r < n, columnsApply (fun k => ⟨w * (el k).t11, w * (el k).t12, w * (el k).t21, w * (el k).t22⟩) nodes cols v r =
      w ^ cols.length * s * columnsApply el nodes cols u r := by
  unfold columnsApply
  induction cols generalizing v u s with
  | nil => intro r h; simpa using hv r h
  | cons c cs ih =>
    intro r h
    rw [List.foldl_cons, List.foldl_cons, ih (fun c' hc' => hcov c' (by simp [hc'])) _ (parallelTransform el (columnNodes nodes c) u) (w * s) ?_ r h]
    · rw [List.length_cons, pow_succ]; ring
    · intro q hq
      obtain ⟨a, ha, hq'⟩ := hcov c (by simp) q hq
      have ra := hr a (mem_columnNodes.1 ha).1
      have R1 := parallelTransform_result (el := fun k => ⟨w * (el k).t11, w * (el k).t12, w * (el k).t21, w * (el k).t22⟩) (hg c) v
      have R2 := parallelTransform_result (el := el) (hg c) u
      rcases hq' with rfl | rfl
      · rw [R1.top a ha, R2.top a ha, hv _ ra.1, hv _ ra.2]; ring
      · rw [R1.bottom a ha, R2.bottom a ha, hv _ ra.1, hv _ ra.2]; ring

/-- C199 for the butterfly mesh with independent errors on the two couplers: the mean matrix is the matrix of the unperturbed mesh, attenuated by
`exp(-sigma^2)` per column. -/
theorem C199_butterfly {Ω : Type} [MeasurableSpace Ω] (Pr : Measure Ω) [IsProbabilityMeasure Pr] (m : ℕ) (hm : 1 ≤ m) (M : Mesh)
    (hM : M.WellFormed (2 ^ m)) (hn : M.nodes = butterfly (2 ^ m) (2 ^ m)) (P : Params) (σ : ℝ) (x : ℕ → Ω → ℝ × ℝ) (hx : ∀ k, Measurable (x k))
    (hlaw : ∀ k, Pr.map (x k) = (gaussianReal 0 1).prod (gaussianReal 0 1)) (hind : iIndepFun x Pr) (dl : List (ℝ × ℝ))
    (hdl : dl.length = M.nodes.length) (i j : Fin (2 ^ m)) :
    ∫ ω, (noisyMesh M σ false (fun k => x k ω) dl).matrix (2 ^ m) P false i j ∂Pr = Real.exp (-(m * σ ^ 2)) * M.matrix (2 ^ m) P false i j := by
  obtain ⟨-, hids, hcols, -, hu⟩ := C24_butterfly m hm
  have hid : (M.nodes.map Node.id).Nodup := by rw [hn, hids]; exact List.nodup_range
  show ∫ ω, (noisyMesh M σ false (fun k => x k ω) dl).apply P false (fun r => if r = j.val then 1 else 0) i.val ∂Pr = _
  rw [C199_coupler_noise Pr _ M hM hid P σ false x hx hlaw hind dl hdl]
  simp only [Bool.false_eq_true, if_false]
  have hel : (fun k => mziOfTerms M.style false (noisyTerms false σ (M.errors.getD k (0, 0)).1 (M.errors.getD k (0, 0)).2)
      (M.losses.getD k (0, 0)).1 (M.losses.getD k (0, 0)).2 (P.thetas k) (P.phis k)) = fun k =>
      ⟨(Real.exp (-σ ^ 2) : ℂ) * (M.elements P false k).t11, Real.exp (-σ ^ 2) * (M.elements P false k).t12,
        Real.exp (-σ ^ 2) * (M.elements P false k).t21, Real.exp (-σ ^ 2) * (M.elements P false k).t22⟩ := by
    funext k
    unfold Mesh.elements
    rw [mziElements_of_terms]
    obtain ⟨F, hF⟩ := mziOfTerms_linear M.style false (M.losses.getD k (0, 0)).1 (M.losses.getD k (0, 0)).2 (P.thetas k) (P.phis k)
    rw [hF, hF]
    simp only [noisyTerms, mziTerms, Bool.false_eq_true, if_false, ofReal_mul, Elements.mk.injEq]
    refine ⟨?_, ?_, ?_, ?_⟩ <;> ring
  rw [hel]
  have hs := columnsApply_scale (M.elements P false) M.nodes hM.goodColumn (2 ^ m) (fun a ha => ⟨(hM.rails a ha).1, (hM.rails a ha).2.1⟩)
    (Real.exp (-σ ^ 2)) (columnOrder M.nodes false) (by
      intro c hc r hr
      have hc' : c < m := by
        simp only [columnOrder, Bool.false_eq_true, if_false, List.mem_range, hn, hcols] at hc
        exact hc
      obtain ⟨a, ⟨ha, hac, har⟩, -⟩ := hu c hc' r hr
      exact ⟨a, mem_columnNodes.2 ⟨hn ▸ ha, hac⟩, har⟩) (fun r => if r = j.val then 1 else 0) (fun r => if r = j.val then 1 else 0) 1
    (fun r _ => (one_mul _).symm) i.val i.isLt
  have hlen : (columnOrder M.nodes false).length = m := by simp [columnOrder, hn, hcols]
  rw [hlen, mul_one, ← ofReal_pow, ← Real.exp_nat_mul, show (m : ℝ) * -σ ^ 2 = -(m * σ ^ 2) by ring] at hs
  show exp (I * P.gammas i.val) * _ = _
  rw [hs]
  show _ = _ * (exp (I * P.gammas i.val) * _)
  ring

end Simphox
