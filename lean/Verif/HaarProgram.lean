import Verif.LineIdent
import Verif.HaarRectangular
import Mathlib.MeasureTheory.Constructions.Polish.Basic

/-!
# Programming a Haar-random matrix (C209)

`triangular(n)` (matrix.py:66) programs `unitary_group.rvs(n)`. Settings of the triangular and the rectangular mesh are determined by their matrices (C176,
C208), and a random setting as drawn by `rand_theta`/`rand_phi`/`rand_gamma` makes them Haar-random (C206, C207); so the phases found for a Haar-random
matrix have the law of the random setting (`law_of_program`). No measurability of the programs is used: the settings of a measurable set have a measurable
set of matrices (Lusin–Souslin).
-/

namespace Simphox

open Matrix Complex MeasureTheory ProbabilityTheory Set

instance (n : ℕ) : MeasurableSpace.CountablySeparated (Matrix (Fin n) (Fin n) ℂ) :=
  inferInstanceAs (MeasurableSpace.CountablySeparated (Fin n → Fin n → ℂ))

/-- A program that returns the setting behind a matrix, applied to a Haar-random matrix, gives settings with the law of every random setting that makes the
matrix Haar-random. The program need not be measurable: settings are determined by their matrices. -/
theorem law_of_program {Ω Ω' S : Type} [MeasurableSpace Ω] [MeasurableSpace Ω'] [MeasurableSpace S] [StandardBorelSpace S] {Pr : Measure Ω}
    [IsProbabilityMeasure Pr] {Pr' : Measure Ω'} [IsProbabilityMeasure Pr'] {n : ℕ} {U : Ω → Matrix (Fin n) (Fin n) ℂ} (hU : HaarRandom Pr U)
    (mat : S → Matrix (Fin n) (Fin n) ℂ) (hm : Measurable mat) {G : Set S} (hG : MeasurableSet G) (prog : Matrix (Fin n) (Fin n) ℂ → S)
    (hprog : ∀ s ∈ G, prog (mat s) = s) {X : Ω' → S} (hX : AEMeasurable X Pr') (hXG : ∀ᵐ ω ∂Pr', X ω ∈ G) {V : Ω' → Matrix (Fin n) (Fin n) ℂ}
    (hV : HaarRandom Pr' V) (hVX : ∀ᵐ ω ∂Pr', V ω = mat (X ω)) {B : Set S} (hB : MeasurableSet B) :
    Pr {ω | prog (U ω) ∈ B} = Pr' {ω | X ω ∈ B} := by
  have hinj : InjOn mat G := fun a ha b hb h => by rw [← hprog a ha, h, hprog b hb]
  have key : ∀ C : Set S, MeasurableSet C → NullMeasurableSet {ω | U ω ∈ mat '' (C ∩ G)} Pr ∧ Pr {ω | U ω ∈ mat '' (C ∩ G)} = Pr' {ω | X ω ∈ C} := by
    intro C hC
    have hI : MeasurableSet (mat '' (C ∩ G)) := (hC.inter hG).image_of_measurable_injOn hm (hinj.mono inter_subset_right)
    refine ⟨hU.measurable.nullMeasurable hI, ?_⟩
    rw [hU.law_unique hV _ hI]
    refine measure_congr ?_
    filter_upwards [hXG, hVX] with ω h1 h2
    refine propext ?_
    show V ω ∈ mat '' (C ∩ G) ↔ X ω ∈ C
    rw [h2]
    constructor
    · rintro ⟨s, ⟨hs, hsG⟩, he⟩
      rw [← hinj hsG h1 he]
      exact hs
    · exact fun h => ⟨_, ⟨h, h1⟩, rfl⟩
  obtain ⟨-, b1⟩ := key B hB
  obtain ⟨c0, c1⟩ := key Bᶜ hB.compl
  refine le_antisymm ?_ ?_
  · have h1 : {ω | prog (U ω) ∈ B} ⊆ {ω | U ω ∈ mat '' (Bᶜ ∩ G)}ᶜ := by
      rintro ω hω ⟨s, ⟨hs, hsG⟩, he⟩
      refine hs ?_
      rw [← hprog s hsG, he]
      exact hω
    have h2 : NullMeasurableSet {ω | X ω ∈ B} Pr' := hX.nullMeasurable hB
    calc Pr {ω | prog (U ω) ∈ B} ≤ Pr {ω | U ω ∈ mat '' (Bᶜ ∩ G)}ᶜ := measure_mono h1
      _ = 1 - Pr {ω | U ω ∈ mat '' (Bᶜ ∩ G)} := prob_compl_eq_one_sub₀ c0
      _ = 1 - Pr' {ω | X ω ∈ B}ᶜ := by rw [c1]; rfl
      _ = Pr' {ω | X ω ∈ B} := by
        rw [prob_compl_eq_one_sub₀ h2, ENNReal.sub_sub_cancel (by simp) prob_le_one]
  · rw [← b1]
    refine measure_mono ?_
    rintro ω ⟨s, ⟨hs, hsG⟩, he⟩
    show prog (U ω) ∈ B
    rw [← he, hprog s hsG]
    exact hs

/-! ### Settings of a mesh -/

/-- The numbers of a setting: theta and phi of every node, the output phases. -/
abbrev Setting (N n : ℕ) := (Fin N → ℝ × ℝ) × (Fin n → ℝ)

/-- The numbers in the parameters of a mesh with `N` nodes. -/
def settingOf (N n : ℕ) (P : Params) : Setting N n := (fun k => (P.thetas k, P.phis k), fun r => P.gammas r)

/-- Parameters with given numbers. -/
noncomputable def paramsOf {N n : ℕ} (s : Setting N n) : Params where
  thetas := fun k => (padFin (0, 0) s.1 k).1
  phis := fun k => (padFin (0, 0) s.1 k).2
  gammas := padFin 0 s.2

theorem settingOf_paramsOf {N n : ℕ} (s : Setting N n) : settingOf N n (paramsOf s) = s := by
  unfold settingOf paramsOf padFin
  refine Prod.ext (funext fun k => ?_) (funext fun r => ?_)
  · simp
  · simp

theorem measurable_elements (i j : Fin 2) : Measurable fun x : ℝ × ℝ => (mziElements .top false 0 0 0 0 x.1 x.2).mat i j := by
  have cont : (Continuous fun y : ℝ × ℝ => (mziElements .top false 0 0 0 0 y.1 y.2).t11) ∧ (Continuous fun y : ℝ × ℝ => (mziElements .top false 0 0 0 0 y.1 y.2).t12) ∧
      (Continuous fun y : ℝ × ℝ => (mziElements .top false 0 0 0 0 y.1 y.2).t21) ∧ (Continuous fun y : ℝ × ℝ => (mziElements .top false 0 0 0 0 y.1 y.2).t22) := by
    simp only [mziElements]; refine ⟨?_, ?_, ?_, ?_⟩ <;> fun_prop
  obtain ⟨c1, c2, c3, c4⟩ := cont
  rcases (show i = 0 ∨ i = 1 by omega) with rfl | rfl <;> rcases (show j = 0 ∨ j = 1 by omega) with rfl | rfl
  exacts [c1.measurable, c3.measurable, c2.measurable, c4.measurable]

theorem measurable_pad {N : ℕ} {E : Type} [MeasurableSpace E] (d : E) (k : ℕ) : Measurable fun f : Fin N → E => padFin d f k := by
  unfold padFin
  split_ifs with h
  · exact measurable_pi_apply _
  · exact measurable_const

theorem measurable_setting {N n : ℕ} {nodes : List Node} (hM : (idealMesh nodes .top).WellFormed n) :
    Measurable fun s : Setting N n => (idealMesh nodes .top).matrix n (paramsOf s) false := by
  have e : ∀ s : Setting N n, (idealMesh nodes .top).matrix n (paramsOf s) false = (diagonal fun i : Fin n => exp (I * ((paramsOf s).gammas i.val : ℝ))) *
      blockProduct n (fun k => mziElements .top false 0 0 0 0 ((paramsOf s).thetas k) ((paramsOf s).phis k)) (executionOrder nodes) := by
    intro s
    rw [Mesh.matrix_eq hM, if_neg (by decide), visitOrder_false]
    congr 2
    funext k
    rw [ideal_elements]
  simp only [e]
  refine measurable_mat_mul (measurable_diagonal fun i => ?_) ?_
  · have : Measurable fun s : Setting N n => (padFin 0 s.2 i.val : ℝ) := (measurable_pad (0 : ℝ) i.val).comp measurable_snd
    have h2 : Measurable fun x : ℝ => exp (I * (x : ℂ)) := by fun_prop
    exact h2.comp this
  · induction executionOrder nodes with
    | nil => exact measurable_const
    | cons a L ih =>
      have e : (fun s : Setting N n => blockProduct n (fun k => mziElements .top false 0 0 0 0 ((paramsOf s).thetas k) ((paramsOf s).phis k)) (a :: L)) =
          fun s => blockProduct n (fun k => mziElements .top false 0 0 0 0 ((paramsOf s).thetas k) ((paramsOf s).phis k)) L *
            embed2 n a.top a.bottom (mziElements .top false 0 0 0 0 ((paramsOf s).thetas a.id) ((paramsOf s).phis a.id)).mat := by
        funext s
        simp [blockProduct]
      rw [e]
      refine measurable_mat_mul ih (measurable_embed2 fun i j => ?_)
      have hp : Measurable fun s : Setting N n => padFin ((0 : ℝ), (0 : ℝ)) s.1 a.id := (measurable_pad _ _).comp measurable_fst
      exact (measurable_elements i j).comp hp

theorem ae_draw {Ω : Type} [MeasurableSpace Ω] {Pr : Measure Ω} {D : Fin 3 × ℕ → Ω → ℝ} (hD : UniformDraws Pr D) {p : ℝ → Prop} (i : Fin 3 × ℕ)
    (h : ∀ᵐ u ∂uniform01, p u) : ∀ᵐ ω ∂Pr, p (D i ω) := by
  rw [← hD.law i] at h
  exact ae_of_ae_map (hD.meas i).aemeasurable h

theorem ae_theta {a b : ℝ} (ha : 0 < a) (hb : 0 < b) {inv : ℝ → ℝ} (h : IsBetaincinv a b inv) :
    AEMeasurable (randTheta inv 0 0) uniform01 ∧ ∀ᵐ u ∂uniform01, 0 < randTheta inv 0 0 u ∧ randTheta inv 0 0 u < Real.pi := by
  have h1 : randTheta inv 0 0 = idealPhase ∘ inv := by
    funext u; exact randTheta_ideal inv u
  have hm : AEMeasurable (randTheta inv 0 0) uniform01 := by
    rw [h1]; exact measurable_idealPhase.comp_aemeasurable h.aemeasurable
  refine ⟨hm, ?_⟩
  refine ae_of_ae_map (p := fun t => 0 < t ∧ t < Real.pi) hm ?_
  rw [(C119_rand_theta_law a b ha hb inv h).1]
  have h2 : ∀ᵐ t ∂(volume.restrict (Ioo 0 Real.pi)), 0 < t ∧ t < Real.pi := ae_restrict_mem measurableSet_Ioo
  exact (withDensity_absolutelyContinuous _ _).ae_le h2

/-- Programming a Haar-random matrix, for a mesh that is Haar-random in random settings. -/
theorem mesh_program_law {Ω Ω' : Type} [MeasurableSpace Ω] [MeasurableSpace Ω'] {Pr : Measure Ω} [IsProbabilityMeasure Pr] {Pr' : Measure Ω'}
    [IsProbabilityMeasure Pr'] {n N : ℕ} {U : Ω → Matrix (Fin n) (Fin n) ℂ} (hU : HaarRandom Pr U) {nodes : List Node}
    (hM : (idealMesh nodes .top).WellFormed n) (hN : nodes.length = N) (hget : ∀ k < N, nodes.getD k default ∈ nodes)
    (hpos : ∀ a ∈ nodes, 1 ≤ a.alpha ∧ 1 ≤ a.beta) {wrap : ℝ → ℝ} (hw : Measurable wrap) {GE : Set ℝ} (hGE : MeasurableSet GE)
    (hwrap : ∀ u ∈ Ico (0 : ℝ) 1, wrap (2 * Real.pi * u) ∈ GE ∧ exp (I * (wrap (2 * Real.pi * u) : ℝ)) = exp (I * ((2 * Real.pi * u : ℝ) : ℂ)))
    (prog : Matrix (Fin n) (Fin n) ℂ → Setting N n)
    (hprog : ∀ P : Params, GenericPhases nodes P → (∀ r < n, P.gammas r ∈ GE) → prog ((idealMesh nodes .top).matrix n P false) = settingOf N n P)
    {binv : ℕ → ℕ → ℝ → ℝ} (hb : IsBetaincinvFamily binv) {D : Fin 3 × ℕ → Ω' → ℝ} (hD : UniformDraws Pr' D)
    (hH : HaarRandom Pr' fun ω => (idealMesh nodes .top).matrix n (freshParams binv nodes (fun k => (D (0, k) ω, D (1, k) ω)) (fun r => D (2, r) ω)) false)
    {B : Set (Setting N n)} (hB : MeasurableSet B) :
    Pr {ω | prog (U ω) ∈ B} = Pr' {ω | ((fun k : Fin N => (randTheta (binv (nodes.getD k default).beta (nodes.getD k default).alpha) 0 0 (D (0, k) ω),
      2 * Real.pi * D (1, k) ω), fun r : Fin n => wrap (2 * Real.pi * D (2, r) ω)) : Setting N n) ∈ B} := by
  have hth : ∀ k : Fin N, AEMeasurable (fun ω => randTheta (binv (nodes.getD k default).beta (nodes.getD k default).alpha) 0 0 (D (0, k) ω)) Pr' ∧
      ∀ᵐ ω ∂Pr', 0 < randTheta (binv (nodes.getD k default).beta (nodes.getD k default).alpha) 0 0 (D (0, k) ω) ∧
        randTheta (binv (nodes.getD k default).beta (nodes.getD k default).alpha) 0 0 (D (0, k) ω) < Real.pi := by
    intro k
    obtain ⟨p1, p2⟩ := hpos _ (hget k k.2)
    have h := ae_theta (by exact_mod_cast p2) (by exact_mod_cast p1) (hb _ _ p2 p1)
    refine ⟨?_, ae_draw hD (0, k.val) h.2⟩
    have h1 := h.1
    rw [← hD.law (0, k.val)] at h1
    exact h1.comp_measurable (hD.meas _)
  have hu : ∀ i, ∀ᵐ ω ∂Pr', D i ω ∈ Ico (0 : ℝ) 1 := fun i => ae_draw hD i (ae_restrict_mem measurableSet_Ico)
  refine law_of_program hU (fun s => (idealMesh nodes .top).matrix n (paramsOf s) false) (measurable_setting hM)
    (G := {s | (∀ k, (0 < (s.1 k).1 ∧ (s.1 k).1 < Real.pi) ∧ (0 ≤ (s.1 k).2 ∧ (s.1 k).2 < 2 * Real.pi)) ∧ ∀ r, s.2 r ∈ GE}) ?_ prog ?_ ?_ ?_ hH ?_ hB
  · have m1 : ∀ k : Fin N, Measurable fun s : Setting N n => (s.1 k).1 := fun k => by fun_prop
    have m2 : ∀ k : Fin N, Measurable fun s : Setting N n => (s.1 k).2 := fun k => by fun_prop
    have m3 : ∀ r : Fin n, Measurable fun s : Setting N n => s.2 r := fun r => by fun_prop
    have : {s : Setting N n | (∀ k, (0 < (s.1 k).1 ∧ (s.1 k).1 < Real.pi) ∧ (0 ≤ (s.1 k).2 ∧ (s.1 k).2 < 2 * Real.pi)) ∧ ∀ r, s.2 r ∈ GE} =
        (⋂ k, (fun s : Setting N n => (s.1 k).1) ⁻¹' Ioo 0 Real.pi ∩ (fun s : Setting N n => (s.1 k).2) ⁻¹' Ico 0 (2 * Real.pi)) ∩
          ⋂ r, (fun s : Setting N n => s.2 r) ⁻¹' GE := by
      ext s
      simp only [mem_inter_iff, mem_iInter, mem_preimage, mem_Ioo, mem_Ico]
      rfl
    rw [this]
    exact (MeasurableSet.iInter fun k => (m1 k measurableSet_Ioo).inter (m2 k measurableSet_Ico)).inter (MeasurableSet.iInter fun r => m3 r hGE)
  · intro s hs
    have h := hprog (paramsOf s) (fun a ha => by
      have hk : a.id < N := hN ▸ hM.ids a ha
      have := hs.1 ⟨a.id, hk⟩
      simpa only [paramsOf, padFin, dif_pos hk] using this) (fun r hr => by
      have := hs.2 ⟨r, hr⟩
      simpa only [paramsOf, padFin, dif_pos hr] using this)
    rw [settingOf_paramsOf] at h
    exact h
  · refine AEMeasurable.prodMk (aemeasurable_pi_iff.2 fun k => (hth k).1.prodMk ?_) (aemeasurable_pi_iff.2 fun r => ?_)
    · exact ((hD.meas (1, k.val)).const_mul _).aemeasurable
    · exact (hw.comp ((hD.meas (2, r.val)).const_mul _)).aemeasurable
  · have h1 := ae_all_iff.2 fun k => (hth k).2
    have h2 := ae_all_iff.2 hu
    filter_upwards [h1, h2] with ω w1 w2
    have hp := Real.pi_pos
    refine ⟨fun k => ⟨w1 k, ?_, ?_⟩, fun r => (hwrap _ (w2 (2, r.val))).1⟩
    · have := (w2 (1, k.val)).1
      positivity
    · have := (w2 (1, k.val)).2
      nlinarith
  · have h2 := ae_all_iff.2 hu
    filter_upwards [h2] with ω w2
    rw [Mesh.matrix_eq hM, Mesh.matrix_eq hM, if_neg (by decide), if_neg (by decide), visitOrder_false]
    congr 1
    · congr 1
      funext r
      simp only [freshParams, paramsOf, padFin, dif_pos r.isLt]
      exact (hwrap _ (w2 (2, r.val))).2.symm
    · show blockProduct n _ (executionOrder nodes) = blockProduct n _ (executionOrder nodes)
      unfold blockProduct
      congr 2
      refine List.map_congr_left fun a ha => ?_
      have hk : a.id < N := hN ▸ hM.ids a ((executionOrder_perm nodes).mem_iff.1 ha)
      rw [ideal_elements, ideal_elements]
      simp only [freshParams, paramsOf, padFin, dif_pos hk]


/-! ### Explicit laws -/

/-- Specification: the law of the internal phase of a node with sensitivity index `b`, of density `b cos(t/2)^(2b-1) sin(t/2)` between 0 and π. -/
noncomputable def thetaLaw (b : ℕ) : Measure ℝ :=
  (volume.restrict (Ioo 0 Real.pi)).withDensity fun t => ENNReal.ofReal (b * Real.cos (t / 2) ^ (2 * b - 1) * Real.sin (t / 2))

/-- Specification: a uniform phase between `lo` and `lo + 2π`. -/
noncomputable def turnLaw (lo : ℝ) : Measure ℝ := ENNReal.ofReal (1 / (2 * Real.pi)) • volume.restrict (Ico lo (lo + 2 * Real.pi))

theorem beta_one {b : ℝ} (hb : 0 < b) : beta b 1 = 1 / b := by
  unfold beta
  rw [Real.Gamma_one, Real.Gamma_add_one hb.ne']
  have := Real.Gamma_pos_of_pos hb
  field_simp

theorem randTheta_law {b : ℕ} (hb : 1 ≤ b) {inv : ℝ → ℝ} (h : IsBetaincinv b 1 inv) : Measure.map (randTheta inv 0 0) uniform01 = thetaLaw b := by
  have hb0 : (0 : ℝ) < b := by exact_mod_cast hb
  rw [(C119_rand_theta_law b 1 hb0 one_pos inv h).1]
  unfold thetaLaw
  refine withDensity_congr_ae ?_
  filter_upwards [ae_restrict_mem measurableSet_Ioo] with t ht
  congr 1
  have hc : 0 < Real.cos (t / 2) := Real.cos_pos_of_mem_Ioo ⟨by linarith [ht.1, Real.pi_pos], by linarith [ht.2]⟩
  have hp := Real.pi_pos
  have e1 : (Real.cos (t / 2) ^ 2) ^ ((b : ℝ) - 1) = Real.cos (t / 2) ^ (2 * (b - 1)) := by
    rw [show ((b : ℝ) - 1) = ((b - 1 : ℕ) : ℝ) by push_cast [hb]; ring, Real.rpow_natCast, ← pow_mul]
  unfold betaPhase betaPdf
  rw [e1, sub_self, Real.rpow_zero, beta_one hb0, show 2 * b - 1 = 2 * (b - 1) + 1 by omega, pow_succ]
  field_simp

theorem uniform_law : Measure.map (fun u => 2 * Real.pi * u) uniform01 = turnLaw 0 := by
  have hp := Real.pi_pos
  have h1 : (fun u : ℝ => 2 * Real.pi * u) ⁻¹' Ico 0 (0 + 2 * Real.pi) = Ico 0 1 := by
    ext u
    simp only [mem_preimage, mem_Ico, zero_add]
    constructor
    · rintro ⟨a, b⟩
      exact ⟨by by_contra h; push Not at h; nlinarith, by by_contra h; push Not at h; nlinarith⟩
    · rintro ⟨a, b⟩
      exact ⟨by positivity, by nlinarith⟩
  unfold uniform01 turnLaw
  rw [← h1, ← Measure.restrict_map (by fun_prop) measurableSet_Ico, Real.map_volume_mul_left (by positivity), Measure.restrict_smul, one_div,
    abs_of_pos (by positivity)]

/-- Phases of one turn, between `-π` and `π`. -/
noncomputable def wrapPi (x : ℝ) : ℝ := if x < Real.pi then x else x - 2 * Real.pi

theorem measurable_wrapPi : Measurable wrapPi := Measurable.ite measurableSet_Iio measurable_id (measurable_id.sub_const _)

theorem wrap_law : Measure.map (fun u => wrapPi (2 * Real.pi * u)) uniform01 = turnLaw (-Real.pi) := by
  have hp := Real.pi_pos
  have h0 : Measure.map (fun u => wrapPi (2 * Real.pi * u)) uniform01 = Measure.map wrapPi (Measure.map (fun u => 2 * Real.pi * u) uniform01) := by
    rw [Measure.map_map measurable_wrapPi (by fun_prop)]; rfl
  rw [h0, uniform_law]
  ext F hF
  rw [Measure.map_apply measurable_wrapPi hF]
  unfold turnLaw
  rw [Measure.smul_apply, Measure.smul_apply, Measure.restrict_apply (measurable_wrapPi hF), Measure.restrict_apply hF]
  congr 1
  rw [show -Real.pi + 2 * Real.pi = Real.pi by ring, zero_add]
  have e1 : wrapPi ⁻¹' F ∩ Ico 0 (2 * Real.pi) = (F ∩ Ico 0 Real.pi) ∪ (fun x => x + -(2 * Real.pi)) ⁻¹' (F ∩ Ico (-Real.pi) 0) := by
    ext x
    simp only [mem_inter_iff, mem_preimage, mem_union, mem_Ico, wrapPi]
    split_ifs with h
    · constructor
      · rintro ⟨a, b, c⟩; exact Or.inl ⟨a, b, h⟩
      · rintro (⟨a, b, c⟩ | ⟨a, b, c⟩)
        · exact ⟨a, b, by linarith⟩
        · exfalso; linarith
    · constructor
      · rintro ⟨a, b, c⟩; exact Or.inr ⟨by rw [← sub_eq_add_neg]; exact a, by linarith, by linarith⟩
      · rintro (⟨a, b, c⟩ | ⟨a, b, c⟩)
        · exact absurd c h
        · exact ⟨by rw [sub_eq_add_neg]; exact a, by linarith, by linarith⟩
  have e2 : F ∩ Ico (-Real.pi) Real.pi = (F ∩ Ico 0 Real.pi) ∪ (F ∩ Ico (-Real.pi) 0) := by
    ext x
    simp only [mem_inter_iff, mem_union, mem_Ico]
    constructor
    · rintro ⟨a, b, c⟩
      rcases lt_or_ge x 0 with h | h
      · exact Or.inr ⟨a, b, h⟩
      · exact Or.inl ⟨a, h, c⟩
    · rintro (⟨a, b, c⟩ | ⟨a, b, c⟩)
      · exact ⟨a, by linarith, c⟩
      · exact ⟨a, b, by linarith⟩
  have m2 : MeasurableSet (F ∩ Ico (-Real.pi) 0) := hF.inter measurableSet_Ico
  have m1 : MeasurableSet ((fun x => x + -(2 * Real.pi)) ⁻¹' (F ∩ Ico (-Real.pi) 0)) := (measurable_add_const _) m2
  rw [e1, e2, measure_union ?_ m1, measure_union ?_ m2, measure_preimage_add_right]
  · rw [Set.disjoint_left]
    rintro x ⟨-, a, -⟩ ⟨-, -, b⟩
    exact absurd b (not_lt.2 a)
  · rw [Set.disjoint_left]
    rintro x ⟨-, -, a⟩ ⟨-, b, -⟩
    linarith

/-- A `betaincinv` that is measurable on the whole line. -/
theorem exists_measurable_betaincinv : ∃ binv : ℕ → ℕ → ℝ → ℝ, IsBetaincinvFamily binv ∧ ∀ a b, 1 ≤ a → 1 ≤ b → Measurable (binv a b) := by
  have h : ∀ a b : ℕ, ∃ inv : ℝ → ℝ, 1 ≤ a → 1 ≤ b → IsBetaincinv a b inv ∧ Measurable inv := by
    intro a b
    by_cases h1 : 1 ≤ a ∧ 1 ≤ b
    · obtain ⟨inv, hi⟩ := exists_betaincinv a b (by exact_mod_cast h1.1) (by exact_mod_cast h1.2)
      have hc : ∀ u ∈ Icc (0 : ℝ) 1, max 0 (min u 1) = u := fun u hu => by rw [min_eq_left hu.2, max_eq_right hu.1]
      have hr : ∀ u : ℝ, max 0 (min u 1) ∈ Icc (0 : ℝ) 1 := fun u => ⟨le_max_left _ _, max_le (by norm_num) (min_le_right _ _)⟩
      refine ⟨fun u => inv (max 0 (min u 1)), fun _ _ => ⟨fun u hu => ?_, ?_⟩⟩
      · simp only [hc u hu]; exact hi u hu
      · refine Monotone.measurable fun u v huv => ?_
        exact hi.strictMonoOn.monotoneOn (hr u) (hr v) (max_le_max le_rfl (min_le_min_right 1 huv))
    · exact ⟨fun _ => 0, fun h2 h3 => absurd ⟨h2, h3⟩ h1⟩
  choose binv hb using h
  exact ⟨binv, fun a b h1 h2 => (hb a b h1 h2).1, fun a b h1 h2 => (hb a b h1 h2).2⟩

theorem draws_rect {Ω : Type} [MeasurableSpace Ω] {Pr : Measure Ω} {D : Fin 3 × ℕ → Ω → ℝ} (hD : UniformDraws Pr D) (N n : ℕ) (S0 S1 S2 : ℕ → Set ℝ)
    (h0 : ∀ k < N, MeasurableSet (S0 k)) (h1 : ∀ k, MeasurableSet (S1 k)) (h2 : ∀ r, MeasurableSet (S2 r)) :
    Pr {ω | (∀ k : Fin N, D (0, k) ω ∈ S0 k ∧ D (1, k) ω ∈ S1 k) ∧ ∀ r : Fin n, D (2, r) ω ∈ S2 r} =
      (∏ k ∈ Finset.range N, (uniform01 (S0 k) * uniform01 (S1 k))) * ∏ r ∈ Finset.range n, uniform01 (S2 r) := by
  classical
  let S : Fin 3 × ℕ → Set ℝ := fun i => if i.1 = 0 then S0 i.2 else if i.1 = 1 then S1 i.2 else S2 i.2
  let T : Finset (Fin 3 × ℕ) := (({0, 1} : Finset (Fin 3)) ×ˢ Finset.range N) ∪ (({2} : Finset (Fin 3)) ×ˢ Finset.range n)
  have memT : ∀ c k, (c, k) ∈ T ↔ ((c = 0 ∨ c = 1) ∧ k < N) ∨ (c = 2 ∧ k < n) := by
    intro c k
    simp only [T, Finset.mem_union, Finset.mem_product, Finset.mem_insert, Finset.mem_singleton, Finset.mem_range]
  have hSm : ∀ i ∈ T, MeasurableSet (S i) := by
    rintro ⟨c, k⟩ hi
    rcases (memT c k).1 hi with ⟨rfl | rfl, hk⟩ | ⟨rfl, hk⟩
    · exact h0 k hk
    · exact h1 k
    · exact h2 k
  have hset : {ω | (∀ k : Fin N, D (0, k) ω ∈ S0 k ∧ D (1, k) ω ∈ S1 k) ∧ ∀ r : Fin n, D (2, r) ω ∈ S2 r} = ⋂ i ∈ T, D i ⁻¹' S i := by
    ext ω
    simp only [mem_iInter, mem_preimage]
    constructor
    · rintro ⟨h1, h2⟩ ⟨c, k⟩ hi
      rcases (memT c k).1 hi with ⟨rfl | rfl, hk⟩ | ⟨rfl, hk⟩
      · exact (h1 ⟨k, hk⟩).1
      · exact (h1 ⟨k, hk⟩).2
      · exact h2 ⟨k, hk⟩
    · intro h
      exact ⟨fun k => ⟨h (0, k) ((memT _ _).2 (Or.inl ⟨Or.inl rfl, k.2⟩)), h (1, k) ((memT _ _).2 (Or.inl ⟨Or.inr rfl, k.2⟩))⟩,
        fun r => h (2, r) ((memT _ _).2 (Or.inr ⟨rfl, r.2⟩))⟩
  have lawS : ∀ i ∈ T, Pr (D i ⁻¹' S i) = uniform01 (S i) := by
    intro i hi
    rw [← Measure.map_apply (hD.meas i) (hSm i hi), hD.law i]
  rw [hset, hD.indep.measure_inter_preimage_eq_mul T hSm, Finset.prod_congr rfl lawS, Finset.prod_union, Finset.prod_product, Finset.prod_product,
    Finset.prod_singleton, Finset.prod_pair (by decide), ← Finset.prod_mul_distrib]
  · rfl
  · rw [Finset.disjoint_left]
    rintro ⟨c, k⟩ h1 h2
    simp only [Finset.mem_product, Finset.mem_insert, Finset.mem_singleton, Finset.mem_range] at h1 h2
    rw [h2.1] at h1
    rcases h1.1 with h | h <;> exact absurd h (by decide)

theorem measurable_rect {N n : ℕ} {A F G : ℕ → Set ℝ} (hA : ∀ k, MeasurableSet (A k)) (hF : ∀ k, MeasurableSet (F k)) (hG : ∀ k, MeasurableSet (G k)) :
    MeasurableSet {s : Setting N n | (∀ k : Fin N, (s.1 k).1 ∈ A k ∧ (s.1 k).2 ∈ F k) ∧ ∀ r : Fin n, s.2 r ∈ G r} := by
  have m1 : ∀ k : Fin N, Measurable fun s : Setting N n => (s.1 k).1 := fun k => by fun_prop
  have m2 : ∀ k : Fin N, Measurable fun s : Setting N n => (s.1 k).2 := fun k => by fun_prop
  have m3 : ∀ r : Fin n, Measurable fun s : Setting N n => s.2 r := fun r => by fun_prop
  have : {s : Setting N n | (∀ k : Fin N, (s.1 k).1 ∈ A k ∧ (s.1 k).2 ∈ F k) ∧ ∀ r : Fin n, s.2 r ∈ G r} =
      (⋂ k : Fin N, (fun s : Setting N n => (s.1 k).1) ⁻¹' A k ∩ (fun s : Setting N n => (s.1 k).2) ⁻¹' F k) ∩
        ⋂ r : Fin n, (fun s : Setting N n => s.2 r) ⁻¹' G r := by
    ext s
    simp only [mem_inter_iff, mem_iInter, mem_preimage]
    rfl
  rw [this]
  exact (MeasurableSet.iInter fun k => (m1 k (hA k)).inter (m2 k (hF k))).inter (MeasurableSet.iInter fun r => m3 r (hG r))

/-- The phases of a programmed Haar-random matrix are independent with explicit laws. -/
theorem mesh_program_explicit {Ω Ω' : Type} [MeasurableSpace Ω] [MeasurableSpace Ω'] {Pr : Measure Ω} [IsProbabilityMeasure Pr] {Pr' : Measure Ω'}
    [IsProbabilityMeasure Pr'] {n N : ℕ}
    {U : Ω → Matrix (Fin n) (Fin n) ℂ} (hU : HaarRandom Pr U) {nodes : List Node}
    (hM : (idealMesh nodes .top).WellFormed n) (hN : nodes.length = N)
    (hpos : ∀ a ∈ nodes, a.alpha = 1 ∧ 1 ≤ a.beta) {wrap : ℝ → ℝ} (hw : Measurable wrap) (lo : ℝ)
    (hwrap : ∀ u ∈ Ico (0 : ℝ) 1, wrap (2 * Real.pi * u) ∈ Ico lo (lo + 2 * Real.pi) ∧
      exp (I * (wrap (2 * Real.pi * u) : ℝ)) = exp (I * ((2 * Real.pi * u : ℝ) : ℂ)))
    (hlaw : Measure.map (fun u => wrap (2 * Real.pi * u)) uniform01 = turnLaw lo) (prog : Matrix (Fin n) (Fin n) ℂ → Setting N n)
    (hprog : ∀ P : Params, GenericPhases nodes P → (∀ r < n, P.gammas r ∈ Ico lo (lo + 2 * Real.pi)) →
      prog ((idealMesh nodes .top).matrix n P false) = settingOf N n P)
    {binv : ℕ → ℕ → ℝ → ℝ} (hb : IsBetaincinvFamily binv) (hbm : ∀ a b, 1 ≤ a → 1 ≤ b → Measurable (binv a b)) {D : Fin 3 × ℕ → Ω' → ℝ}
    (hD : UniformDraws Pr' D)
    (hH : HaarRandom Pr' fun ω => (idealMesh nodes .top).matrix n (freshParams binv nodes (fun k => (D (0, k) ω, D (1, k) ω)) (fun r => D (2, r) ω)) false)
    (A F G : ℕ → Set ℝ) (hA : ∀ k, MeasurableSet (A k)) (hF : ∀ k, MeasurableSet (F k)) (hG : ∀ k, MeasurableSet (G k)) :
    Pr {ω | (∀ k : Fin N, ((prog (U ω)).1 k).1 ∈ A k ∧ ((prog (U ω)).1 k).2 ∈ F k) ∧ ∀ r : Fin n, (prog (U ω)).2 r ∈ G r} =
      (∏ k ∈ Finset.range N, (thetaLaw (nodes.getD k default).beta (A k) * turnLaw 0 (F k))) * ∏ r ∈ Finset.range n, turnLaw lo (G r) := by
  have hget : ∀ k < N, nodes.getD k default ∈ nodes := by
    intro k hk
    rw [List.getD_eq_getElem?_getD, List.getElem?_eq_getElem (hN.symm ▸ hk)]
    exact List.getElem_mem _
  have h := mesh_program_law hU hM hN hget (fun a ha => ⟨(hpos a ha).1.ge, (hpos a ha).2⟩) hw measurableSet_Ico hwrap prog hprog hb hD hH
    (measurable_rect hA hF hG)
  have hth : ∀ k < N, Measurable (randTheta (binv (nodes.getD k default).beta (nodes.getD k default).alpha) 0 0) ∧
      Measure.map (randTheta (binv (nodes.getD k default).beta (nodes.getD k default).alpha) 0 0) uniform01 = thetaLaw (nodes.getD k default).beta := by
    intro k hk
    obtain ⟨p1, p2⟩ := hpos _ (hget k hk)
    constructor
    · have : randTheta (binv (nodes.getD k default).beta (nodes.getD k default).alpha) 0 0 =
          idealPhase ∘ binv (nodes.getD k default).beta (nodes.getD k default).alpha := by
        funext u; exact randTheta_ideal _ u
      rw [this]
      exact measurable_idealPhase.comp (hbm _ _ p2 p1.ge)
    · refine randTheta_law p2 ?_
      have := hb _ _ p2 p1.ge
      rw [p1] at this ⊢
      simpa using this
  have mlin : Measurable fun u : ℝ => 2 * Real.pi * u := by fun_prop
  have mwr : Measurable fun u : ℝ => wrap (2 * Real.pi * u) := hw.comp mlin
  have h2 := draws_rect hD N n (fun k => randTheta (binv (nodes.getD k default).beta (nodes.getD k default).alpha) 0 0 ⁻¹' A k)
    (fun k => (fun u : ℝ => 2 * Real.pi * u) ⁻¹' F k) (fun r => (fun u : ℝ => wrap (2 * Real.pi * u)) ⁻¹' G r)
    (fun k hk => (hth k hk).1 (hA k)) (fun k => mlin (hF k)) (fun r => mwr (hG r))
  refine (h.trans h2).trans ?_
  congr 1
  · refine Finset.prod_congr rfl fun k hk => ?_
    have hk' := Finset.mem_range.1 hk
    rw [← (hth k hk').2, Measure.map_apply (hth k hk').1 (hA k), ← uniform_law, Measure.map_apply mlin (hF k)]
  · refine Finset.prod_congr rfl fun r _ => ?_
    rw [← hlaw, Measure.map_apply mwr (hG r)]


theorem ids_of_perm {nodes : List Node} {N : ℕ} (h : (nodes.map Node.id).Perm (List.range N)) : ∀ k < N, ∃ a ∈ nodes, a.id = k := by
  intro k hk
  obtain ⟨a, ha, e⟩ := List.mem_map.1 (h.mem_iff.2 (List.mem_range.2 hk))
  exact ⟨a, ha, e⟩

/-- C209: `rectangular` applied to a Haar-random unitary matrix: all phases are independent; theta of a node with index `beta` has the density
`beta cos(t/2)^(2 beta - 1) sin(t/2)` on (0, π), every phi and every output phase is uniform. -/
theorem C209_rectangular {Ω : Type} [MeasurableSpace Ω] (Pr : Measure Ω) [IsProbabilityMeasure Pr] (n : ℕ) (hn : 2 ≤ n)
    (U : Ω → Matrix (Fin n) (Fin n) ℂ) (hU : HaarRandom Pr U) (nodes : List Node) (u0 : Matrix (Fin n) (Fin n) ℂ)
    (hnodes : nodes = (rectangular n u0).1.nodes) (A F G : ℕ → Set ℝ) (hA : ∀ k, MeasurableSet (A k)) (hF : ∀ k, MeasurableSet (F k))
    (hG : ∀ k, MeasurableSet (G k)) :
    Pr {ω | (∀ k < nodes.length, (rectangular n (U ω)).2.thetas k ∈ A k ∧ (rectangular n (U ω)).2.phis k ∈ F k) ∧
      ∀ r < n, (rectangular n (U ω)).2.gammas r ∈ G r} =
      (∏ k ∈ Finset.range nodes.length, (thetaLaw (nodes.getD k default).beta (A k) * turnLaw 0 (F k))) * ∏ r ∈ Finset.range n, turnLaw 0 (G r) := by
  obtain ⟨binv, hb, hbm⟩ := exists_measurable_betaincinv
  have hU01 : IsProbabilityMeasure uniform01 := ⟨by simp [uniform01]⟩
  have hD : UniformDraws (Measure.infinitePi fun _ : Fin 3 × ℕ => uniform01) (fun i ω => ω i) :=
    ⟨fun i => measurable_pi_apply i, fun i => Measure.infinitePi_map_eval _ i, iIndepFun_infinitePi (X := fun _ x => x) fun _ => measurable_id⟩
  subst hnodes
  have hids := ids_of_perm (nodes := rectNodes n n) (N := (rectNodes n n).length) (by rw [rectNodes_ids])
  have hpos : ∀ a ∈ rectNodes n n, a.alpha = 1 ∧ 1 ≤ a.beta := by
    intro a ha
    obtain ⟨L, L', e⟩ := List.append_of_mem ((executionOrder_perm (rectNodes n n)).mem_iff.2 ha)
    exact ⟨rectNodes_alpha n n a ha, ((C205_distance n u0).1 L a L' e).2⟩
  have hH := C207_rectangular _ n (by omega) u0 binv hb _ hD
  have hprog : ∀ P : Params, GenericPhases (rectNodes n n) P → (∀ r < n, P.gammas r ∈ Ico (0 : ℝ) (0 + 2 * Real.pi)) →
      settingOf (rectNodes n n).length n (rectangular n ((idealMesh (rectNodes n n) .top).matrix n P false)).2 = settingOf (rectNodes n n).length n P := by
    intro P hP hg
    obtain ⟨-, h1, h2⟩ := C208_rectangular n hn u0 _ rfl P hP
    refine Prod.ext (funext fun k => ?_) (funext fun r => ?_)
    · obtain ⟨a, ha, e⟩ := hids k.val k.isLt
      have := h1 a ha
      rw [e] at this
      exact Prod.ext this.1 this.2
    · have := hg r.val r.isLt
      rw [zero_add] at this
      exact (h2 r.val r.isLt).2 this.1 this.2
  have h := mesh_program_explicit hU (nodes := rectNodes n n) (rectangular_wellFormed n u0) rfl hpos measurable_id 0 (fun u hu => ⟨⟨by
      have := hu.1
      have := Real.pi_pos
      simp only [id]; positivity, by
      have := hu.2
      have := Real.pi_pos
      simp only [id]; nlinarith⟩, rfl⟩) uniform_law (fun V => settingOf (rectNodes n n).length n (rectangular n V).2) hprog hb hbm hD hH A F G hA hF hG
  refine Eq.trans (congrArg Pr ?_) h
  ext ω
  constructor
  · rintro ⟨h1, h2⟩
    exact ⟨fun k => h1 k.val k.isLt, fun r => h2 r.val r.isLt⟩
  · rintro ⟨h1, h2⟩
    exact ⟨fun k hk => h1 ⟨k, hk⟩, fun r hr => h2 ⟨r, hr⟩⟩

/-- C209: the same for `triangular` applied to a Haar-random unitary matrix (as in `triangular(n)`); the output phases are uniform between -π and π. -/
theorem C209_triangular {Ω : Type} [MeasurableSpace Ω] (Pr : Measure Ω) [IsProbabilityMeasure Pr] (n : ℕ) (hn : 2 ≤ n)
    (U : Ω → Matrix (Fin n) (Fin n) ℂ) (hU : HaarRandom Pr U) (u0 : Matrix (Fin n) (Fin n) ℂ) (M : Mesh) (P0 : Params)
    (h0 : cascade 0 .top 0 n false u0 = some (M, P0)) (A F G : ℕ → Set ℝ) (hA : ∀ k, MeasurableSet (A k)) (hF : ∀ k, MeasurableSet (F k))
    (hG : ∀ k, MeasurableSet (G k)) :
    Pr {ω | ∃ P, cascade 0 .top 0 n false (U ω) = some (M, P) ∧ (∀ k < M.nodes.length, P.thetas k ∈ A k ∧ P.phis k ∈ F k) ∧ ∀ r < n, P.gammas r ∈ G r} =
      (∏ k ∈ Finset.range M.nodes.length, (thetaLaw (M.nodes.getD k default).beta (A k) * turnLaw 0 (F k))) *
        ∏ r ∈ Finset.range n, turnLaw (-Real.pi) (G r) := by
  obtain ⟨binv, hb, hbm⟩ := exists_measurable_betaincinv
  have hU01 : IsProbabilityMeasure uniform01 := ⟨by simp [uniform01]⟩
  have hD : UniformDraws (Measure.infinitePi fun _ : Fin 3 × ℕ => uniform01) (fun i ω => ω i) :=
    ⟨fun i => measurable_pi_apply i, fun i => Measure.infinitePi_map_eval _ i, iIndepFun_infinitePi (X := fun _ x => x) fun _ => measurable_id⟩
  have h0' := h0
  obtain rfl := cascade_mesh hn h0
  set nodes := parts n false (n - 1) 0 0 with hnodes
  have hlen : nodes.length = tri (n - 1) := by
    have := (parts_ids n false (n - 1) 0 0).length_eq
    simpa using this
  have hids : ∀ k < nodes.length, ∃ a ∈ nodes, a.id = k := by
    rw [hlen]
    refine ids_of_perm ?_
    have := parts_ids n false (n - 1) 0 0
    rwa [← List.range_eq_range'] at this
  have hpos : ∀ a ∈ nodes, a.alpha = 1 ∧ 1 ≤ a.beta := by
    intro a ha
    obtain ⟨k, N, C, h1, h2, -, x, hx, rfl⟩ := mem_parts ha
    rw [chain_tree_eq _ _ (by omega), List.mem_reverse] at hx
    obtain ⟨j, hj, rfl⟩ := List.mem_map.1 hx
    have := List.mem_range.1 hj
    refine ⟨rfl, ?_⟩
    show 1 ≤ k + 1 - j - 1
    omega
  obtain ⟨M', P', e', hH⟩ := C206_triangular (Measure.infinitePi fun _ : Fin 3 × ℕ => uniform01) 0 le_rfl n hn 1 (one_mem _) binv hb _ hD
  obtain rfl := cascade_mesh hn e'
  obtain ⟨P1, -, hwf, -⟩ := cascade_spec (Or.inl rfl) (le_refl (0 : ℝ)) n hn false (1 : Matrix (Fin n) (Fin n) ℂ) (one_mem _)
  let prog : Matrix (Fin n) (Fin n) ℂ → Setting nodes.length n := fun V => ((cascade 0 .top 0 n false V).map fun x => settingOf nodes.length n x.2).getD 0
  have hpi := Real.pi_pos
  have hprog : ∀ P : Params, GenericPhases nodes P → (∀ r < n, P.gammas r ∈ Ico (-Real.pi) (-Real.pi + 2 * Real.pi)) →
      prog ((idealMesh nodes .top).matrix n P false) = settingOf nodes.length n P := by
    intro P hP hg
    obtain ⟨P', c1, h1, h2⟩ := C176_cascade_recovers 0 (by simp) n hn false u0 _ P0 h0' P hP
    have e : prog ((idealMesh nodes .top).matrix n P false) = settingOf nodes.length n P' := by
      show ((cascade 0 .top 0 n false ((errorMesh nodes 0 .top).matrix n P false)).map fun x => settingOf nodes.length n x.2).getD 0 = _
      rw [c1]; rfl
    rw [e]
    refine Prod.ext (funext fun k => ?_) (funext fun r => ?_)
    · obtain ⟨a, ha, e⟩ := hids k.val k.isLt
      have := h1 a ha
      rw [e] at this
      exact Prod.ext this.1 this.2
    · have := hg r.val r.isLt
      exact (h2 r.val r.isLt).2 this.1 (by linarith [this.2])
  have h := mesh_program_explicit hU (nodes := nodes) hwf rfl hpos measurable_wrapPi (-Real.pi) (fun u hu => by
      have h1 := hu.1
      have h2 := hu.2
      unfold wrapPi
      split_ifs with hc
      · exact ⟨⟨by nlinarith, by linarith⟩, rfl⟩
      · refine ⟨⟨by linarith, by nlinarith⟩, ?_⟩
        rw [Complex.exp_eq_exp_iff_exists_int]
        exact ⟨-1, by push_cast; ring⟩) wrap_law prog hprog hb hbm hD hH A F G hA hF hG
  refine Eq.trans (congrArg Pr ?_) h
  ext ω
  obtain ⟨P2, e2, -⟩ := cascade_spec (Or.inl rfl) (le_refl (0 : ℝ)) n hn false (U ω) (hU.unitary ω)
  have e3 : prog (U ω) = settingOf nodes.length n P2 := by
    show ((cascade 0 .top 0 n false (U ω)).map fun x => settingOf nodes.length n x.2).getD 0 = _
    rw [e2]; rfl
  have e4 := cascade_mesh hn e2
  show (∃ P, _) ↔ (_ ∧ _)
  rw [e3]
  constructor
  · rintro ⟨P, e5, h1, h2⟩
    rw [e2] at e5
    obtain rfl : P2 = P := (Prod.mk.inj (Option.some.inj e5)).2
    exact ⟨fun k => h1 k.val k.isLt, fun r => h2 r.val r.isLt⟩
  · rintro ⟨h1, h2⟩
    exact ⟨P2, by rw [e2, e4], fun k hk => h1 ⟨k, hk⟩, fun r hr => h2 ⟨r, hr⟩⟩

/-- C209: the distribution function of theta. -/
theorem C209_theta_cdf (b : ℕ) (hb : 1 ≤ b) (t : ℝ) (h0 : 0 ≤ t) (h1 : t ≤ Real.pi) :
    thetaLaw b (Iic t) = ENNReal.ofReal (1 - Real.cos (t / 2) ^ (2 * b)) := by
  have hs : MeasurableSet (Iic t) := measurableSet_Iic
  have hset : (Iic t ∩ Ioo 0 Real.pi : Set ℝ) =ᵐ[volume] (Ioc 0 t : Set ℝ) := by
    rcases h1.lt_or_eq with h | h
    · have : Iic t ∩ Ioo 0 Real.pi = Ioc 0 t := by
        ext x; simp only [mem_inter_iff, mem_Iic, mem_Ioo, mem_Ioc]
        exact ⟨fun h => ⟨h.2.1, h.1⟩, fun h => ⟨h.2, h.1, by linarith [h.2]⟩⟩
      rw [this]
      exact Filter.EventuallyEq.rfl
    · have : Iic t ∩ Ioo 0 Real.pi = Ioo 0 t := by
        ext x; simp only [mem_inter_iff, mem_Iic, mem_Ioo, h]
        exact ⟨fun h => h.2, fun h => ⟨h.2.le, h⟩⟩
      rw [this]
      exact Ioo_ae_eq_Ioc
  have hcont : Continuous fun x : ℝ => b * Real.cos (x / 2) ^ (2 * b - 1) * Real.sin (x / 2) := by fun_prop
  unfold thetaLaw
  rw [withDensity_apply _ hs, Measure.restrict_restrict hs, Measure.restrict_congr_set hset, ← ofReal_integral_eq_lintegral_ofReal]
  · congr 1
    rw [← intervalIntegral.integral_of_le h0]
    have := intervalIntegral.integral_eq_sub_of_hasDerivAt (a := 0) (b := t) (f := fun x => -Real.cos (x / 2) ^ (2 * b))
      (f' := fun x => b * Real.cos (x / 2) ^ (2 * b - 1) * Real.sin (x / 2)) (fun x _ => by
        have h := (((Real.hasDerivAt_cos (x / 2)).comp x ((hasDerivAt_id x).div_const 2)).pow (2 * b)).neg
        refine h.congr_deriv ?_
        simp only [Function.comp, id]
        push_cast
        ring) (hcont.intervalIntegrable _ _)
    rw [this]
    simp
    ring
  · exact (hcont.integrableOn_Icc (a := 0) (b := t)).mono_set Ioc_subset_Icc_self
  · filter_upwards [ae_restrict_mem measurableSet_Ioc] with x hx
    have hc : 0 ≤ Real.cos (x / 2) := Real.cos_nonneg_of_mem_Icc ⟨by linarith [hx.1, Real.pi_pos], by linarith [hx.2]⟩
    have hsn : 0 ≤ Real.sin (x / 2) := Real.sin_nonneg_of_nonneg_of_le_pi (by linarith [hx.1]) (by linarith [hx.2])
    show 0 ≤ (b : ℝ) * Real.cos (x / 2) ^ (2 * b - 1) * Real.sin (x / 2)
    positivity

/-- C209, the hypotheses can be met: there is a Haar-random matrix on five rails, and in its rectangular mesh all ten thetas are at most π/2 with probability
`∏ (1 - 2^(-beta))` over the ten indices. -/
theorem C209_case : ∃ (Ω : Type) (_ : MeasurableSpace Ω) (Pr : Measure Ω) (U : Ω → Matrix (Fin 5) (Fin 5) ℂ), IsProbabilityMeasure Pr ∧ HaarRandom Pr U ∧
    Pr {ω | ∀ k < 10, (rectangular 5 (U ω)).2.thetas k ∈ Iic (Real.pi / 2)} =
      ∏ k ∈ Finset.range 10, ENNReal.ofReal (1 - (1 / 2) ^ ((rectNodes 5 5).getD k default).beta) := by
  obtain ⟨binv, Ω, mΩ, Pr, D, hb, hD, hH⟩ := C207_case
  have hPr : IsProbabilityMeasure Pr := by
    constructor
    have h := hD.law (0, 0)
    have h2 : (Pr.map (D (0, 0))) univ = 1 := by rw [h]; simp [uniform01]
    rwa [Measure.map_apply (hD.meas _) MeasurableSet.univ, preimage_univ] at h2
  refine ⟨Ω, mΩ, Pr, _, hPr, hH, ?_⟩
  have hlen : (rectNodes 5 5).length = 10 := by decide +kernel
  have hbeta : ∀ k < 10, 1 ≤ ((rectNodes 5 5).getD k default).beta := by decide +kernel
  have h := C209_rectangular Pr 5 (by norm_num) _ hH (rectNodes 5 5) 1 rfl (fun _ => Iic (Real.pi / 2)) (fun _ => univ) (fun _ => univ)
    (fun _ => measurableSet_Iic) (fun _ => MeasurableSet.univ) (fun _ => MeasurableSet.univ)
  rw [hlen] at h
  have hturn : turnLaw 0 univ = 1 := by
    rw [← uniform_law, Measure.map_apply (by fun_prop) MeasurableSet.univ]; simp [uniform01]
  simp only [mem_univ, and_true, implies_true, hturn, mul_one, Finset.prod_const_one] at h
  refine h.trans (Finset.prod_congr rfl fun k hk => ?_)
  have hp := Real.pi_pos
  rw [C209_theta_cdf _ (hbeta k (Finset.mem_range.1 hk)) _ (by linarith) (by linarith)]
  congr 2
  rw [show Real.pi / 2 / 2 = Real.pi / 4 by ring, Real.cos_pi_div_four, pow_mul, div_pow, Real.sq_sqrt (by norm_num)]
  norm_num

end Simphox
