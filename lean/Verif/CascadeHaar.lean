import Verif.RandomVector
import Verif.Embedded

/-!
# `tree_cascade` of a Haar-random matrix (C211)

`tree_cascade` (matrix.py:88-104) programs a cascade of balanced trees. A balanced cascade whose phases are drawn from the laws of their nodes (`splitLaw` with the
numbers of inputs of the node) is Haar-random, and conversely the phases of the cascade of a Haar-random matrix have these laws.
-/

namespace Simphox

open Matrix Complex MeasureTheory ProbabilityTheory Set

local notation "conj" => starRingEnd ℂ

/-! ### The draws of one unit -/

theorem draws_line {Ω : Type} [MeasurableSpace Ω] {Pr : Measure Ω} [IsProbabilityMeasure Pr] {D : Fin 3 × ℕ → Ω → ℝ} (hD : UniformDraws Pr D) (t : Fin 3) (N k : ℕ) :
    Pr.map (fun ω (i : Fin k) => D (t, N + i) ω) = Measure.pi fun _ : Fin k => uniform01 := by
  have h := hD.indep.precomp (g := fun i : Fin k => (t, N + i.val)) (fun a b h => by
    simp only [Prod.mk.injEq, true_and] at h
    exact Fin.ext (by omega))
  have := (iIndepFun_iff_map_fun_eq_pi_map fun i : Fin k => (hD.meas (t, N + i.val)).aemeasurable).1 h
  rw [this]
  congr 1
  funext i
  exact hD.law _

theorem draws_fresh {Ω : Type} [MeasurableSpace Ω] {Pr : Measure Ω} [IsProbabilityMeasure Pr] {D : Fin 3 × ℕ → Ω → ℝ} (hD : UniformDraws Pr D) (N k m : ℕ) :
    Pr.map (fun ω => ((fun i : Fin k => (D (0, N + i) ω, D (1, N + i) ω)), fun r : Fin m => D (2, r) ω)) = freshDraws k m := by
  have hU01 : IsProbabilityMeasure uniform01 := ⟨by simp [uniform01]⟩
  have m0 : ∀ (t : Fin 3) (N k : ℕ), Measurable fun (x : Fin 3 × ℕ → ℝ) (i : Fin k) => x (t, N + i) := fun t N k =>
    measurable_pi_iff.2 fun i => measurable_pi_apply _
  have mD : ∀ (t : Fin 3) (N k : ℕ), Measurable fun ω (i : Fin k) => D (t, N + i) ω := fun t N k => measurable_pi_iff.2 fun i => hD.meas _
  have i1 : IndepFun (fun ω (i : Fin k) => D (0, N + i) ω) (fun ω (i : Fin k) => D (1, N + i) ω) Pr := by
    refine hD.split (m0 0 N k) (m0 1 N k) ({0} ×ˢ (Finset.range k).image fun i => N + i) ({1} ×ˢ (Finset.range k).image fun i => N + i) ?_
      (fun x y h => funext fun i => h _ (by simp)) (fun x y h => funext fun i => h _ (by simp))
    rw [Finset.disjoint_left]
    rintro ⟨a, b⟩ h1 h2
    simp only [Finset.mem_product, Finset.mem_singleton] at h1 h2
    rw [h1.1] at h2
    exact absurd h2.1 (by decide)
  have l1 : Pr.map (fun ω => ((fun i : Fin k => D (0, N + i) ω), fun i : Fin k => D (1, N + i) ω)) =
      (Measure.pi fun _ : Fin k => uniform01).prod (Measure.pi fun _ : Fin k => uniform01) := by
    rw [(indepFun_iff_map_prod_eq_prod_map_map (mD 0 N k).aemeasurable (mD 1 N k).aemeasurable).1 i1, draws_line hD, draws_line hD]
  have mp : Measurable fun ω (i : Fin k) => (D (0, N + i) ω, D (1, N + i) ω) := measurable_pi_iff.2 fun i => (hD.meas _).prodMk (hD.meas _)
  have l2 : Pr.map (fun ω (i : Fin k) => (D (0, N + i) ω, D (1, N + i) ω)) = Measure.pi fun _ : Fin k => uniform01.prod uniform01 := by
    have h := (measurePreserving_arrowProdEquivProdArrow ℝ ℝ (Fin k) (fun _ => uniform01) (fun _ => uniform01)).symm
    rw [← h.map_eq, ← l1, Measure.map_map (MeasurableEquiv.measurable _) ((mD 0 N k).prodMk (mD 1 N k))]
    rfl
  have i2 : IndepFun (fun ω (i : Fin k) => (D (0, N + i) ω, D (1, N + i) ω)) (fun ω (r : Fin m) => D (2, r) ω) Pr := by
    refine hD.split (f := fun x (i : Fin k) => (x (0, N + i), x (1, N + i))) (g := fun x (r : Fin m) => x (2, r))
      (measurable_pi_iff.2 fun i => measurable_draw _) (measurable_pi_iff.2 fun r => measurable_pi_apply _)
      (({0, 1} : Finset (Fin 3)) ×ˢ (Finset.range k).image fun i => N + i) ({2} ×ˢ Finset.range m) ?_
      (fun x y h => funext fun i => Prod.ext (h _ (by simp)) (h _ (by simp))) (fun x y h => funext fun i => h _ (by simp))
    rw [Finset.disjoint_left]
    rintro ⟨a, b⟩ h1 h2
    simp only [Finset.mem_product, Finset.mem_singleton, Finset.mem_insert] at h1 h2
    rw [h2.1] at h1
    exact absurd h1.1 (by decide)
  have l3 := draws_line hD 2 0 m
  simp only [Nat.zero_add] at l3
  rw [(indepFun_iff_map_prod_eq_prod_map_map mp.aemeasurable (measurable_pi_iff.2 fun r => hD.meas _).aemeasurable).1 i2, l2, l3]
  rfl

/-! ### One unit -/

/-- The elements of node `q` (forward.py:659-707) when `rand_theta` and the constructor turn its draws into phases (forward.py:60-61, 123-130). -/
noncomputable def cascEl (inv : ℕ → ℝ → ℝ) (x : Fin 3 × ℕ → ℝ) (q : ℕ) : Elements :=
  mziElements .top false 0 0 0 0 (randTheta (inv q) 0 0 (x (0, q))) (2 * Real.pi * x (1, q))

/-- The product of the nodes of one unit of the cascade (vector.py:34-46): the balanced tree on the first `k + 1` rails with ids from `N`. -/
noncomputable def unitMat (n : ℕ) (el : ℕ → Elements) (N k : ℕ) : Matrix (Fin n) (Fin n) ℂ :=
  blockProduct n (fun i => el (i + N)) (executionOrder (tree (k + 1) n true))

/-- With the output phase of rail `k`. -/
noncomputable def phasedUnit (n : ℕ) (inv : ℕ → ℝ → ℝ) (k N : ℕ) (x : Fin 3 × ℕ → ℝ) : Matrix (Fin n) (Fin n) ℂ :=
  railPhase n k (2 * Real.pi * x (2, k)) * unitMat n (cascEl inv x) N k

theorem unit_rails {n k : ℕ} {a : Node} (ha : a ∈ tree (k + 1) n true) : a.top < k + 1 ∧ a.bottom < k + 1 ∧ a.top ≠ a.bottom := by
  by_cases hk : k = 0
  · subst hk
    have h := tree_length 1 n true
    rw [List.length_eq_zero_iff.1 h] at ha
    exact absurd ha List.not_mem_nil
  · have := tree_rails (show 2 ≤ k + 1 by omega) true ha
    omega

theorem unit_id_lt {n k : ℕ} {a : Node} (ha : a ∈ tree (k + 1) n true) : a.id < k := by
  have h := (tree_ids (k + 1) n true).mem_iff.1 (List.mem_map_of_mem (f := Node.id) ha)
  simpa using h

theorem unit_mulVec {n : ℕ} (el : ℕ → Elements) (N k : ℕ) (hk : k < n) (c : Fin n → ℂ) :
    unitMat n el N k *ᵥ c = restrict n (seqApply (fun i => el (i + N)) (executionOrder (tree (k + 1) n true)) (extVec c)) := by
  have h := restrict_seqApply (n := n) (el := fun i => el (i + N)) (executionOrder (tree (k + 1) n true)) (fun a ha => by
    have := unit_rails ((executionOrder_perm _).mem_iff.1 ha)
    omega) (extVec c)
  have hc : restrict n (extVec c) = c := by
    funext q
    simp [restrict, extVec]
  rw [h, hc]
  rfl

theorem unitMat_head {n : ℕ} {el : ℕ → Elements} (N k : ℕ) (hk : k < n) (hel : ∀ q, (el q).mat ∈ unitaryGroup (Fin 2) ℂ) :
    unitMat n el N k ∈ HeadUnitary n (k + 1) := by
  refine head_of_rows (blockProduct_unitary (fun a ha => ?_) fun a _ => hel _) fun i j hj => ?_
  · have := unit_rails ((executionOrder_perm _).mem_iff.1 ha)
    omega
  · have h := congrFun (unit_mulVec el N k hk (Pi.single i 1)) j
    rw [Matrix.mulVec_single_one] at h
    rw [show unitMat n el N k j i = (unitMat n el N k).col i j from rfl, h]
    show seqApply _ _ _ j.val = _
    rw [seqApply_other _ _ _ fun a ha => by
      have := unit_rails ((executionOrder_perm _).mem_iff.1 ha)
      omega]
    simp [extVec, Pi.single_apply, eq_comm]

theorem phasedUnit_head {n : ℕ} (inv : ℕ → ℝ → ℝ) (k N : ℕ) (hk : k < n) (x : Fin 3 × ℕ → ℝ) : phasedUnit n inv k N x ∈ HeadUnitary n (k + 1) :=
  HeadUnitary.mul (railPhase_head _ _ _) (unitMat_head N k hk fun _ => mziElements_unitary _ _ _ _ _ _)

/-- The draws of the unit. -/
def unitDraws (k N : ℕ) (x : Fin 3 × ℕ → ℝ) : (Fin (k + 1 - 1) → ℝ × ℝ) × (Fin (k + 1) → ℝ) :=
  (fun i => (x (0, N + i), x (1, N + i)), fun r => x (2, r))

/-- The last rail of the unit. -/
theorem phasedUnit_row {n : ℕ} (inv : ℕ → ℝ → ℝ) (k N : ℕ) (hk1 : 1 ≤ k) (hk : k < n) (x : Fin 3 × ℕ → ℝ) (c : Fin n → ℂ) :
    (phasedUnit n inv k N x *ᵥ c) ⟨k, hk⟩ = ∑ i : Fin (k + 1), drawnRow (fun q => inv (N + q)) (k + 1) true (unitDraws k N x) i * extVec c i := by
  set P := drawnParams (fun q => inv (N + q)) (padFin (0, 0) (unitDraws k N x).1) (padFin 0 (unitDraws k N x).2) with hP
  have hwf := tree_wellFormed (k + 1) (by omega) true .top
  have h1 : ∑ i : Fin (k + 1), drawnRow (fun q => inv (N + q)) (k + 1) true (unitDraws k N x) i * extVec c i =
      ((errorMesh (tree (k + 1) (k + 1) true) 0 .top).matrix (k + 1) P false *ᵥ restrict (k + 1) (extVec c)) ⟨k, by omega⟩ := rfl
  have h2 : ((errorMesh (tree (k + 1) (k + 1) true) 0 .top).matrix (k + 1) P false *ᵥ restrict (k + 1) (extVec c)) =
      restrict (k + 1) ((errorMesh (tree (k + 1) (k + 1) true) 0 .top).apply P false (extVec c)) := Mesh.matrix_mulVec hwf _ _ _
  have h3 : ∀ w : Fin n → ℂ, (railPhase n k (2 * Real.pi * x (2, k)) *ᵥ w) ⟨k, hk⟩ = exp (I * ((2 * Real.pi * x (2, k) : ℝ) : ℂ)) * w ⟨k, hk⟩ := by
    intro w
    rw [railPhase, mulVec_diagonal]
    simp only [if_true]
  rw [h1, h2, phasedUnit, ← mulVec_mulVec, h3, unit_mulVec _ _ _ hk]
  show _ * seqApply _ _ _ k = (errorMesh (tree (k + 1) (k + 1) true) 0 .top).apply P false (extVec c) k
  rw [embedded_apply (by omega) le_rfl, tree_setRails (k + 1) (k + 1) n, executionOrder_setRails, seqApply_setRails]
  simp only [gammaApply]
  congr 1
  · rw [hP]
    simp [drawnParams, padFin, unitDraws]
  · refine congrFun (seqApply_congr _ (fun a ha => ?_) _) k
    have hid : a.id < k := unit_id_lt ((executionOrder_perm _).mem_iff.1 ha)
    rw [hP]
    simp only [cascEl, programmedElements, drawnParams, padFin, unitDraws]
    rw [dif_pos (show a.id < k + 1 - 1 by omega), Nat.add_comm a.id N]

theorem measurable_cascEl {inv : ℕ → ℝ → ℝ} (hm : ∀ q, Measurable (randTheta (inv q) 0 0)) (q : ℕ) (i j : Fin 2) :
    Measurable fun x => (cascEl inv x q).mat i j := by
  have h1 : Measurable fun x : Fin 3 × ℕ → ℝ => (randTheta (inv q) 0 0 (x (0, q)), 2 * Real.pi * x (1, q)) :=
    ((hm q).comp (measurable_pi_apply (0, q))).prodMk ((measurable_pi_apply (1, q)).const_mul _)
  have h2 := (measurable_elements i j).comp h1
  simp only [Function.comp_def] at h2
  exact h2

theorem measurable_phasedUnit {n : ℕ} {inv : ℕ → ℝ → ℝ} (hm : ∀ q, Measurable (randTheta (inv q) 0 0)) (k N : ℕ) :
    Measurable fun x => phasedUnit n inv k N x := by
  refine measurable_mat_mul (measurable_mat fun i j => ?_) ?_
  · simp only [railPhase, diagonal_apply]
    split_ifs
    · have h1 : Measurable fun t : ℝ => exp (I * ((2 * Real.pi * t : ℝ) : ℂ)) := by fun_prop
      exact h1.comp (measurable_pi_apply _)
    · exact measurable_const
    · exact measurable_const
  · unfold unitMat
    induction executionOrder (tree (k + 1) n true) with
    | nil => exact measurable_const
    | cons a L ih =>
      have e : (fun x => blockProduct n (fun i => cascEl inv x (i + N)) (a :: L)) =
          fun x => blockProduct n (fun i => cascEl inv x (i + N)) L * embed2 n a.top a.bottom (cascEl inv x (a.id + N)).mat := by
        funext x
        simp [blockProduct]
      rw [e]
      exact measurable_mat_mul ih (measurable_embed2 fun i j => measurable_cascEl hm _ i j)

theorem phasedUnit_dep {n : ℕ} (inv : ℕ → ℝ → ℝ) (k N : ℕ) (x y : Fin 3 × ℕ → ℝ)
    (h : ∀ i < k, x (0, N + i) = y (0, N + i) ∧ x (1, N + i) = y (1, N + i)) (h2 : x (2, k) = y (2, k)) : phasedUnit n inv k N x = phasedUnit n inv k N y := by
  rw [phasedUnit, phasedUnit, h2]
  congr 1
  unfold unitMat blockProduct
  congr 2
  refine List.map_congr_left fun a ha => ?_
  have hid : a.id < k := unit_id_lt ((executionOrder_perm _).mem_iff.1 ha)
  obtain ⟨e1, e2⟩ := h a.id hid
  simp only [cascEl]
  rw [Nat.add_comm a.id N, e1, e2]

/-- The indices of the nodes of the unit, by id. -/
def UnitFair (bt al : ℕ → ℕ) (k N : ℕ) : Prop := ∀ a ∈ tree (k + 1) (k + 1) true, bt (N + a.id) = a.beta ∧ al (N + a.id) = a.alpha

/-- The law of the random row does not change. -/
theorem phasedUnit_law {Ω : Type} [MeasurableSpace Ω] {Pr : Measure Ω} [IsProbabilityMeasure Pr] {D : Fin 3 × ℕ → Ω → ℝ} (hD : UniformDraws Pr D)
    {n : ℕ} {binv : ℕ → ℕ → ℝ → ℝ} (hb : IsBetaincinvFamily binv) {bt al : ℕ → ℕ} (hm : ∀ q, Measurable (randTheta (binv (bt q) (al q)) 0 0))
    (k N : ℕ) (hk : k < n) (hf : UnitFair bt al k N) {g : Matrix (Fin n) (Fin n) ℂ} (hg : g ∈ HeadUnitary n (k + 1)) :
    Pr.map (fun ω => (phasedUnit n (fun q => binv (bt q) (al q)) k N (fun i => D i ω) * g) ⟨k, hk⟩) =
      Pr.map (fun ω => phasedUnit n (fun q => binv (bt q) (al q)) k N (fun i => D i ω) ⟨k, hk⟩) := by
  set inv : ℕ → ℝ → ℝ := fun q => binv (bt q) (al q) with hinv
  by_cases hk0 : k = 0
  · subst hk0
    have e : ∀ x, phasedUnit n inv 0 N x = phasedChain n (fun _ _ => mziElements .top false 0 0 0 0 0 0) 0 N x := by
      intro x
      have h := List.length_eq_zero_iff.1 (tree_length 1 n true)
      have h1 : unitMat n (cascEl inv x) N 0 = 1 := by
        unfold unitMat
        rw [h]
        rfl
      rw [phasedUnit, h1]
      rfl
    simp only [e]
    exact phasedChain_law hD _ N 0 hk (fun i hi => absurd hi (Nat.not_lt_zero i)) hg
  · have hk1 : 1 ≤ k := Nat.one_le_iff_ne_zero.2 hk0
    have mV : Measurable fun ω => phasedUnit n inv k N (fun i => D i ω) := hD.comp _ (measurable_phasedUnit hm k N)
    have hH : ∀ ω, phasedUnit n inv k N (fun i => D i ω) ∈ HeadUnitary n (k + 1) := fun ω => phasedUnit_head inv k N hk _
    have n2 : 2 ≤ k + 1 := by omega
    have hU01 : IsProbabilityMeasure uniform01 := ⟨by simp [uniform01]⟩
    have hprob : IsProbabilityMeasure (freshDraws (k + 1 - 1) (k + 1)) := by
      unfold freshDraws; infer_instance
    let inv' : ℕ → ℝ → ℝ := fun q => binv (bt (N + q)) (al (N + q))
    have hfair : Fair (fun q => bt (N + q)) (fun q => al (N + q)) (shape (k + 1) true) 0 := tree_fair n2 true _ _ fun a ha => by
      obtain ⟨h1, h2⟩ := inputs_eq n2 ha
      rw [h1, h2]
      exact hf a ha
    have hpos : ∀ i < k + 1 - 1, 1 ≤ bt (N + i) ∧ 1 ≤ al (N + i) := by
      intro i hi
      obtain ⟨a, ha, rfl⟩ := ids_of_perm (tree_ids (k + 1) (k + 1) true) i hi
      obtain ⟨h1, h2⟩ := inputs_eq n2 ha
      obtain ⟨p1, p2⟩ := inputs_pos n2 ha
      rw [h1] at p1
      rw [h2] at p2
      obtain ⟨q1, q2⟩ := hf a ha
      rw [q1, q2]
      exact ⟨p1, p2⟩
    have hmom : HaarMoments (freshDraws (k + 1 - 1) (k + 1)) (k + 1) (drawnRow inv' (k + 1) true) := drawn_haar n2 hb true _ _ hpos hfair
    have hrowY : ∀ w, star (drawnRow inv' (k + 1) true w) = tipVec (k + 1) true (paramsOf (drawnSetting inv' (k + 1) (fun _ u => 2 * Real.pi * u) w)) := by
      intro w
      have e1 : star (drawnRow inv' (k + 1) true w) = tipVec (k + 1) true (drawnParams inv' (padFin (0, 0) w.1) (padFin 0 w.2)) := rfl
      rw [e1]
      refine tipVec_congr n2 true (fun q hq => ?_) ?_
      · simp only [drawnParams, paramsOf, drawnSetting, padFin, dif_pos hq]
        exact ⟨trivial, trivial⟩
      · simp only [drawnParams, paramsOf, drawnSetting, padFin, dif_pos (show k + 1 - 1 < k + 1 by omega)]
    have mst : Measurable fun v : Fin (k + 1) → ℂ => star v := measurable_pi_iff.2 fun i => Complex.continuous_conj.measurable.comp (measurable_pi_apply i)
    have mVv : Measurable fun w => star (drawnRow inv' (k + 1) true w) := by
      simp only [hrowY]
      exact (measurable_tipVec n2 true).comp (measurable_drawnSetting (fun q _ => hm (N + q)) fun _ => by fun_prop)
    have mrow : Measurable (drawnRow inv' (k + 1) true) := by
      have := mst.comp mVv
      have e : (fun v : Fin (k + 1) → ℂ => star v) ∘ (fun w => star (drawnRow inv' (k + 1) true w)) = drawnRow inv' (k + 1) true := by
        funext w; exact star_star _
      rwa [e] at this
    have hbd : ∀ w i, ‖drawnRow inv' (k + 1) true w i‖ ≤ 1 := by
      intro w i
      have h := tipVec_norm n2 true (paramsOf (drawnSetting inv' (k + 1) (fun _ u => 2 * Real.pi * u) w))
      rw [← hrowY] at h
      simp only [Pi.star_apply, norm_star] at h
      have h1 : ‖drawnRow inv' (k + 1) true w i‖ ^ 2 ≤ 1 := by
        rw [← h]
        exact Finset.single_le_sum (f := fun i => ‖drawnRow inv' (k + 1) true w i‖ ^ 2) (fun _ _ => by positivity) (Finset.mem_univ i)
      nlinarith [norm_nonneg (drawnRow inv' (k + 1) true w i)]
    have hfresh : Pr.map (fun ω => unitDraws k N fun i => D i ω) = freshDraws (k + 1 - 1) (k + 1) := draws_fresh hD N k (k + 1)
    have mun : Measurable fun ω => unitDraws k N fun i => D i ω :=
      (measurable_pi_iff.2 fun i => (hD.meas _).prodMk (hD.meas _)).prodMk (measurable_pi_iff.2 fun r => hD.meas _)
    have hval : ∀ (c : Fin n → ℂ) (p q : ℕ), ∫ ω, ((phasedUnit n inv k N (fun i => D i ω) *ᵥ c) ⟨k, hk⟩) ^ p *
        conj ((phasedUnit n inv k N (fun i => D i ω) *ᵥ c) ⟨k, hk⟩) ^ q ∂Pr =
        if p = q then ((k + 1 - 1).factorial * p.factorial : ℂ) / ((k + 1 - 1 + p).factorial : ℂ) *
          (∑ i ∈ Finset.range (k + 1), extVec c i * conj (extVec c i)) ^ p else 0 := by
      intro c p q
      have mf : Measurable fun w => (∑ i : Fin (k + 1), drawnRow inv' (k + 1) true w i * extVec c i) := by
        have h : Measurable fun w => ∑ i : Fin (k + 1), drawnRow inv' (k + 1) true w i * extVec c i :=
          Finset.measurable_sum _ fun i _ => (measurable_pi_iff.1 mrow i).mul_const _
        exact h
      have mf2 : Measurable fun w => (∑ i : Fin (k + 1), drawnRow inv' (k + 1) true w i * extVec c i) ^ p *
          conj (∑ i : Fin (k + 1), drawnRow inv' (k + 1) true w i * extVec c i) ^ q :=
        (mf.pow_const p).mul ((Complex.continuous_conj.measurable.comp mf).pow_const q)
      have h := hmom.form mrow hbd (fun i : Fin (k + 1) => extVec c i) p q
      rw [← hfresh, integral_map mun.aemeasurable mf2.aestronglyMeasurable] at h
      simp only [phasedUnit_row inv k N hk1 hk]
      rw [Finset.sum_range fun i => extVec c i * conj (extVec c i)]
      exact h
    refine law_of_moments Pr (fun ω => (phasedUnit n inv k N (fun i => D i ω) * g) ⟨k, hk⟩) (fun ω => phasedUnit n inv k N (fun i => D i ω) ⟨k, hk⟩)
      (measurable_pi_iff.2 fun j => measurable_entry (measurable_mat_mul mV measurable_const) _ j)
      (measurable_pi_iff.2 fun j => measurable_entry mV _ j) 1 (fun ω i => entry_norm_bound_of_unitary (mul_mem (hH ω).1 hg.1) ⟨k, hk⟩ i)
      (fun ω i => entry_norm_bound_of_unitary (hH ω).1 ⟨k, hk⟩ i) fun c p q => ?_
    have e : ∀ (M : Matrix (Fin n) (Fin n) ℂ), ∑ i, M ⟨k, hk⟩ i * c i = (M *ᵥ c) ⟨k, hk⟩ := fun M => rfl
    simp only [e, ← mulVec_mulVec]
    rw [hval, hval, head_power hk hg]

/-! ### The cascade -/

/-- The units with fewer than `k` nodes, the largest one acting first. -/
noncomputable def randomCasc (n : ℕ) (inv : ℕ → ℝ → ℝ) : ℕ → ℕ → (Fin 3 × ℕ → ℝ) → Matrix (Fin n) (Fin n) ℂ
  | 0, _, _ => 1
  | k + 1, N, x => randomCasc n inv k (N + k) x * phasedUnit n inv k N x

def CascFair (bt al : ℕ → ℕ) : ℕ → ℕ → Prop
  | 0, _ => True
  | k + 1, N => UnitFair bt al k N ∧ CascFair bt al k (N + k)

theorem randomCasc_head {n : ℕ} {inv : ℕ → ℝ → ℝ} : ∀ (k N : ℕ), k ≤ n → ∀ x, randomCasc n inv k N x ∈ HeadUnitary n k
  | 0, _, _, _ => head_of_rows (one_mem _) fun i l _ => by rw [randomCasc, Matrix.one_apply]; simp only [eq_comm]
  | k + 1, N, hk, x => HeadUnitary.mul (HeadUnitary.mono (Nat.le_succ k) (randomCasc_head k (N + k) (by omega) x)) (phasedUnit_head inv k N (by omega) x)

theorem measurable_randomCasc {n : ℕ} {inv : ℕ → ℝ → ℝ} (hm : ∀ q, Measurable (randTheta (inv q) 0 0)) : ∀ (k N : ℕ),
    Measurable fun x => randomCasc n inv k N x
  | 0, _ => measurable_const
  | k + 1, N => measurable_mat_mul (measurable_randomCasc hm k (N + k)) (measurable_phasedUnit hm k N)

theorem randomCasc_dep {n : ℕ} (inv : ℕ → ℝ → ℝ) : ∀ (k N : ℕ) (x y : Fin 3 × ℕ → ℝ),
    (∀ i < headCount k, x (0, N + i) = y (0, N + i) ∧ x (1, N + i) = y (1, N + i)) → (∀ r < k, x (2, r) = y (2, r)) → randomCasc n inv k N x = randomCasc n inv k N y
  | 0, _, _, _, _, _ => rfl
  | k + 1, N, x, y, h, h2 => by
    rw [randomCasc, randomCasc, randomCasc_dep inv k (N + k) x y (fun i hi => by rw [Nat.add_assoc]; exact h (k + i) (by rw [headCount]; omega))
      fun r hr => h2 r (by omega), phasedUnit_dep inv k N x y (fun i hi => h i (by rw [headCount]; omega)) (h2 k (by omega))]

/-- The units together are right invariant. -/
theorem randomCasc_inv {Ω : Type} [MeasurableSpace Ω] {Pr : Measure Ω} [IsProbabilityMeasure Pr] {D : Fin 3 × ℕ → Ω → ℝ} (hD : UniformDraws Pr D)
    {n : ℕ} {binv : ℕ → ℕ → ℝ → ℝ} (hb : IsBetaincinvFamily binv) {bt al : ℕ → ℕ} (hm : ∀ q, Measurable (randTheta (binv (bt q) (al q)) 0 0)) :
    ∀ (k N : ℕ), k ≤ n → CascFair bt al k N → RightInv Pr n k fun ω => randomCasc n (fun q => binv (bt q) (al q)) k N fun i => D i ω
  | 0, N, _, _ => by
    intro f h hh
    have e : h = 1 := by
      ext i j
      rw [(hh.2 i j (Nat.zero_le _)).1, Matrix.one_apply]
    rw [e]
    simp only [mul_one]
  | k + 1, N, hk, hX => by
    have hW := measurable_randomCasc (n := n) hm k (N + k)
    have hV := measurable_phasedUnit (n := n) hm k N
    refine RightInv.step Pr (by omega) (hD.comp _ hW) (hD.comp _ hV) ?_ (randomCasc_inv hD hb hm k (N + k) (by omega) hX.2)
      (fun ω => phasedUnit_head _ k N (by omega) _) (fun h hh => phasedUnit_law hD hb hm k N (by omega) hX.1 hh)
    refine hD.split hW hV (({0, 1} : Finset (Fin 3)) ×ˢ ((Finset.range (headCount k)).image fun i => N + k + i) ∪ {2} ×ˢ Finset.range k)
      (({0, 1} : Finset (Fin 3)) ×ˢ ((Finset.range k).image fun i => N + i) ∪ {(2, k)}) ?_ (fun x y hxy => ?_) fun x y hxy => ?_
    · rw [Finset.disjoint_left]
      rintro ⟨a, b⟩ h1 h2
      simp only [Finset.mem_union, Finset.mem_product, Finset.mem_insert, Finset.mem_singleton, Finset.mem_image, Finset.mem_range, Prod.mk.injEq] at h1 h2
      rcases h1 with ⟨h1, i, hi, e⟩ | ⟨h1, hi⟩
      · rcases h2 with ⟨-, l, hl, e'⟩ | ⟨h2, -⟩
        · omega
        · rw [h2] at h1; rcases h1 with h1 | h1 <;> exact absurd h1 (by decide)
      · rcases h2 with ⟨h2, -⟩ | ⟨-, h2⟩
        · rw [h1] at h2; rcases h2 with h2 | h2 <;> exact absurd h2 (by decide)
        · omega
    · refine randomCasc_dep _ k (N + k) x y (fun i hi => ⟨hxy _ ?_, hxy _ ?_⟩) fun r hr => hxy _ ?_
      · simp [hi]
      · simp [hi]
      · simp [hr]
    · refine phasedUnit_dep _ k N x y (fun i hi => ⟨hxy _ ?_, hxy _ ?_⟩) (hxy _ ?_)
      · simp [hi]
      · simp [hi]
      · simp

theorem blockProduct_shift (n : ℕ) (el : ℕ → Elements) (N c : ℕ) (L : List Node) :
    blockProduct n el (L.map (shiftNode N c)) = blockProduct n (fun i => el (i + N)) L := by
  simp [blockProduct, shiftNode, Function.comp_def]

/-- The matrix of the cascade, unit by unit. -/
theorem cascade_random (n : ℕ) (inv : ℕ → ℝ → ℝ) (x : Fin 3 × ℕ → ℝ) : ∀ (k N C : ℕ), k + 1 ≤ n →
    (diagonal fun i : Fin n => if i.val ≤ k then exp (I * ((2 * Real.pi * x (2, i.val) : ℝ) : ℂ)) else 1) * blockProduct n (cascEl inv x) (execParts n true k N C) =
      randomCasc n inv (k + 1) N x
  | 0, N, C, hk => by
    have h1 : unitMat n (cascEl inv x) N 0 = 1 := by
      unfold unitMat
      rw [List.length_eq_zero_iff.1 (tree_length 1 n true)]
      rfl
    rw [execParts, randomCasc, randomCasc, phasedUnit, h1, blockProduct, List.map_nil, List.reverse_nil, List.prod_nil, mul_one, mul_one, one_mul, railPhase]
    congr 1
    funext i
    by_cases hi : i.val = 0
    · rw [if_pos (by omega), if_pos hi, hi]
    · rw [if_neg (by omega), if_neg hi]
  | k + 1, N, C, hk => by
    have ih := cascade_random n inv x k (N + (k + 1)) (C + numColumns (tree (k + 2) n true)) (by omega)
    have hd : (diagonal fun i : Fin n => if i.val ≤ k + 1 then exp (I * ((2 * Real.pi * x (2, i.val) : ℝ) : ℂ)) else 1) =
        railPhase n (k + 1) (2 * Real.pi * x (2, k + 1)) * diagonal fun i : Fin n => if i.val ≤ k then exp (I * ((2 * Real.pi * x (2, i.val) : ℝ) : ℂ)) else 1 := by
      rw [railPhase, diagonal_mul_diagonal]
      congr 1
      funext i
      by_cases h1 : i.val = k + 1
      · rw [if_pos (by omega), if_pos h1, if_neg (by omega), mul_one, h1]
      · rw [if_neg h1, one_mul]
        by_cases h2 : i.val ≤ k
        · rw [if_pos (by omega), if_pos h2]
        · rw [if_neg (by omega), if_neg h2]
    rw [execParts, blockProduct_append, blockProduct_shift, ← mul_assoc, hd, mul_assoc (railPhase _ _ _), ih,
      railPhase_comm _ (randomCasc_head (k + 1) (N + (k + 1)) (by omega) x), mul_assoc]
    rfl

theorem parts_fair (n : ℕ) (bt al : ℕ → ℕ) : ∀ k N C, (∀ a ∈ parts n true k N C, bt a.id = a.beta ∧ al a.id = a.alpha) → CascFair bt al (k + 1) N
  | 0, N, C, _ => by
    refine ⟨fun a ha => ?_, trivial⟩
    rw [List.length_eq_zero_iff.1 (tree_length 1 1 true)] at ha
    exact absurd ha List.not_mem_nil
  | k + 1, N, C, h => by
    refine ⟨fun a ha => ?_, ?_⟩
    · have h1 : setRails n a ∈ tree (k + 2) n true := by
        rw [tree_setRails (k + 2) (k + 2) n]
        exact List.mem_map_of_mem ha
      have h2 := h (shiftNode N (colOffset n (k + 1) true C) (setRails n a)) (by
        rw [parts, subunitNodes_eq]
        exact List.mem_append_left _ (List.mem_map_of_mem h1))
      rw [Nat.add_comm N]
      exact h2
    · exact parts_fair n bt al k (N + (k + 1)) (C + numColumns (tree (k + 2) n true)) fun a ha => h a (by
        rw [parts]
        exact List.mem_append_right _ ha)

/-! ### Laws of settings -/

/-- A law of settings is determined by the probabilities of rectangles. -/
theorem rect_det {N n : ℕ} (μ ν : Fin N → Measure ℝ) (ρ : Fin n → Measure ℝ) [∀ k, IsProbabilityMeasure (μ k)] [∀ k, IsProbabilityMeasure (ν k)]
    [∀ r, IsProbabilityMeasure (ρ r)] {κ : Measure (Setting N n)}
    (h : ∀ (A F : Fin N → Set ℝ) (G : Fin n → Set ℝ), (∀ k, MeasurableSet (A k)) → (∀ k, MeasurableSet (F k)) → (∀ r, MeasurableSet (G r)) →
      κ {s | (∀ k, (s.1 k).1 ∈ A k ∧ (s.1 k).2 ∈ F k) ∧ ∀ r, s.2 r ∈ G r} = (∏ k, μ k (A k) * ν k (F k)) * ∏ r, ρ r (G r)) :
    κ = (Measure.pi fun k => (μ k).prod (ν k)).prod (Measure.pi ρ) := by
  have key : ∀ κ : Measure (Setting N n), (∀ (A F : Fin N → Set ℝ) (G : Fin n → Set ℝ), (∀ k, MeasurableSet (A k)) → (∀ k, MeasurableSet (F k)) →
      (∀ r, MeasurableSet (G r)) → κ {s | (∀ k, (s.1 k).1 ∈ A k ∧ (s.1 k).2 ∈ F k) ∧ ∀ r, s.2 r ∈ G r} = (∏ k, μ k (A k) * ν k (F k)) * ∏ r, ρ r (G r)) →
      κ = (Measure.pi (Sum.elim (Sum.elim μ ν) ρ)).map fun y => ((fun k => (y (.inl (.inl k)), y (.inl (.inr k))), fun r => y (.inr r)) : Setting N n) := by
    intro κ h
    let enc : Setting N n → ((Fin N ⊕ Fin N) ⊕ Fin n → ℝ) := fun s => Sum.elim (Sum.elim (fun k => (s.1 k).1) fun k => (s.1 k).2) s.2
    have menc : Measurable enc := by
      refine measurable_pi_iff.2 fun i => ?_
      rcases i with (k | k) | r
      · show Measurable fun s : Setting N n => (s.1 k).1
        fun_prop
      · show Measurable fun s : Setting N n => (s.1 k).2
        fun_prop
      · show Measurable fun s : Setting N n => s.2 r
        fun_prop
    have mdec : Measurable fun y : (Fin N ⊕ Fin N) ⊕ Fin n → ℝ => ((fun k => (y (.inl (.inl k)), y (.inl (.inr k))), fun r => y (.inr r)) : Setting N n) := by
      fun_prop
    have ip : ∀ i, IsProbabilityMeasure (Sum.elim (Sum.elim μ ν) ρ i) := by
      rintro ((k | k) | r)
      · show IsProbabilityMeasure (μ k); infer_instance
      · show IsProbabilityMeasure (ν k); infer_instance
      · show IsProbabilityMeasure (ρ r); infer_instance
    have e : Measure.pi (Sum.elim (Sum.elim μ ν) ρ) = κ.map enc := by
      refine Measure.pi_eq fun s hs => ?_
      rw [Measure.map_apply menc (MeasurableSet.univ_pi hs)]
      have e1 : enc ⁻¹' (univ.pi s) = {t | (∀ k, (t.1 k).1 ∈ s (.inl (.inl k)) ∧ (t.1 k).2 ∈ s (.inl (.inr k))) ∧ ∀ r, t.2 r ∈ s (.inr r)} := by
        ext t
        simp only [mem_preimage, mem_univ_pi, Sum.forall, enc, Sum.elim_inl, Sum.elim_inr, forall_and]
        rfl
      rw [e1, h (fun k => s (.inl (.inl k))) (fun k => s (.inl (.inr k))) (fun r => s (.inr r)) (fun k => hs _) (fun k => hs _) (fun r => hs _),
        Fintype.prod_sum_type, Fintype.prod_sum_type, Finset.prod_mul_distrib]
      rfl
    rw [e, Measure.map_map mdec menc]
    exact Measure.map_id.symm
  rw [key κ h]
  refine (key _ fun A F G hA hF hG => ?_).symm
  have e : {s : Setting N n | (∀ k, (s.1 k).1 ∈ A k ∧ (s.1 k).2 ∈ F k) ∧ ∀ r, s.2 r ∈ G r} = (univ.pi fun k => A k ×ˢ F k) ×ˢ univ.pi G := by
    ext s
    simp only [mem_prod, mem_univ_pi]
    rfl
  rw [e, Measure.prod_prod, Measure.pi_pi, Measure.pi_pi]
  simp only [Measure.prod_prod]

theorem node_of_id {nodes : List Node} (h : (nodes.map Node.id).Nodup) {a : Node} (ha : a ∈ nodes) : nodeAt nodes a.id = a := by
  unfold nodeAt
  cases h2 : nodes.find? fun b => b.id == a.id with
  | none =>
    have := List.find?_eq_none.1 h2 a ha
    simp at this
  | some b =>
    have h1 := List.find?_some h2
    have h3 := List.mem_of_find?_eq_some h2
    exact List.inj_on_of_nodup_map h h3 ha (by simpa using h1)

/-- Specification: the phases of a setting of a balanced cascade are independent, theta of every node has the law of a Haar-random matrix for the numbers of inputs
`beta` and `alpha` of the node, and the other phases are uniform. -/
structure NaturalPhases {Ω : Type} [MeasurableSpace Ω] (Pr : Measure Ω) (nodes : List Node) (n : ℕ) (P : Ω → Params) : Prop where
  thetas : ∀ a ∈ nodes, Measurable fun ω => (P ω).thetas a.id
  phis : ∀ a ∈ nodes, Measurable fun ω => (P ω).phis a.id
  gammas : ∀ r < n, Measurable fun ω => (P ω).gammas r
  law : ∀ A F G : ℕ → Set ℝ, (∀ k, MeasurableSet (A k)) → (∀ k, MeasurableSet (F k)) → (∀ k, MeasurableSet (G k)) →
    Pr {ω | (∀ a ∈ nodes, (P ω).thetas a.id ∈ A a.id ∧ (P ω).phis a.id ∈ F a.id) ∧ ∀ r < n, (P ω).gammas r ∈ G r} =
      (nodes.map fun a => splitLaw a.beta a.alpha (A a.id) * turnLaw 0 (F a.id)).prod * ∏ r ∈ Finset.range n, turnLaw (-Real.pi) (G r)

/-- The law of these settings. -/
noncomputable def naturalLaw (nodes : List Node) (N n : ℕ) : Measure (Setting N n) :=
  (Measure.pi fun k : Fin N => (splitLaw (nodeAt nodes k).beta (nodeAt nodes k).alpha).prod (turnLaw 0)).prod (Measure.pi fun _ : Fin n => turnLaw (-Real.pi))

theorem turnLaw_prob : IsProbabilityMeasure (turnLaw 0) ∧ IsProbabilityMeasure (turnLaw (-Real.pi)) := by
  have hU01 : IsProbabilityMeasure uniform01 := ⟨by simp [uniform01]⟩
  have mlin : Measurable fun u : ℝ => 2 * Real.pi * u := by fun_prop
  refine ⟨?_, ?_⟩
  · rw [← uniform_law]
    exact Measure.isProbabilityMeasure_map mlin.aemeasurable
  · rw [← wrap_law]
    exact Measure.isProbabilityMeasure_map (measurable_wrapPi.comp mlin).aemeasurable

theorem splitLaw_prob {a b : ℕ} (ha : 1 ≤ a) (hb : 1 ≤ b) : IsProbabilityMeasure (splitLaw b a) := by
  obtain ⟨binv, hbi, hbm⟩ := exists_measurable_betaincinv
  have hU01 : IsProbabilityMeasure uniform01 := ⟨by simp [uniform01]⟩
  rw [← randTheta_split ha hb (hbi b a hb ha)]
  refine Measure.isProbabilityMeasure_map ?_
  have : randTheta (binv b a) 0 0 = idealPhase ∘ binv b a := by
    funext u; exact randTheta_ideal _ u
  rw [this]
  exact (measurable_idealPhase.comp (hbm b a hb ha)).aemeasurable

theorem natural_prod {nodes : List Node} {N : ℕ} (hids : (nodes.map Node.id).Perm (List.range N)) (A F : ℕ → Set ℝ) :
    (nodes.map fun a => splitLaw a.beta a.alpha (A a.id) * turnLaw 0 (F a.id)).prod =
      ∏ k : Fin N, splitLaw (nodeAt nodes k).beta (nodeAt nodes k).alpha (A k) * turnLaw 0 (F k) := by
  have hnd : (nodes.map Node.id).Nodup := hids.nodup_iff.2 List.nodup_range
  have e1 : (nodes.map fun a => splitLaw a.beta a.alpha (A a.id) * turnLaw 0 (F a.id)) =
      (nodes.map Node.id).map fun k => splitLaw (nodeAt nodes k).beta (nodeAt nodes k).alpha (A k) * turnLaw 0 (F k) := by
    rw [List.map_map]
    refine List.map_congr_left fun a ha => ?_
    simp only [Function.comp]
    rw [node_of_id hnd ha]
  rw [e1, (hids.map _).prod_eq]
  exact (prod_fin_range N (fun k => splitLaw (nodeAt nodes k).beta (nodeAt nodes k).alpha (A k) * turnLaw 0 (F k)) _ fun _ => rfl).symm

/-- Rectangles of settings. -/
theorem natural_rect {nodes : List Node} {N n : ℕ} (hids : (nodes.map Node.id).Perm (List.range N)) (hpos : ∀ a ∈ nodes, 1 ≤ a.alpha ∧ 1 ≤ a.beta)
    (A F G : ℕ → Set ℝ) :
    naturalLaw nodes N n {s | (∀ k : Fin N, (s.1 k).1 ∈ A k ∧ (s.1 k).2 ∈ F k) ∧ ∀ r : Fin n, s.2 r ∈ G r} =
      (nodes.map fun a => splitLaw a.beta a.alpha (A a.id) * turnLaw 0 (F a.id)).prod * ∏ r ∈ Finset.range n, turnLaw (-Real.pi) (G r) := by
  obtain ⟨t0, t1⟩ := turnLaw_prob
  have hnd : (nodes.map Node.id).Nodup := hids.nodup_iff.2 List.nodup_range
  have hp : ∀ k : Fin N, IsProbabilityMeasure (splitLaw (nodeAt nodes k).beta (nodeAt nodes k).alpha) := by
    intro k
    obtain ⟨a, ha, e⟩ := ids_of_perm hids k k.isLt
    rw [← e, node_of_id hnd ha]
    exact splitLaw_prob (hpos a ha).1 (hpos a ha).2
  have e : {s : Setting N n | (∀ k : Fin N, (s.1 k).1 ∈ A k ∧ (s.1 k).2 ∈ F k) ∧ ∀ r : Fin n, s.2 r ∈ G r} =
      (univ.pi fun k : Fin N => A k ×ˢ F k) ×ˢ univ.pi fun r : Fin n => G r := by
    ext s
    simp only [mem_prod, mem_univ_pi]
    rfl
  rw [e, naturalLaw, Measure.prod_prod, Measure.pi_pi, Measure.pi_pi, natural_prod hids, Finset.prod_range]
  simp only [Measure.prod_prod]

/-- The setting of natural phases has this law. -/
theorem NaturalPhases.setting {Ω : Type} [MeasurableSpace Ω] {Pr : Measure Ω} {nodes : List Node} {n N : ℕ} {P : Ω → Params}
    (h : NaturalPhases Pr nodes n P) (hids : (nodes.map Node.id).Perm (List.range N)) (hpos : ∀ a ∈ nodes, 1 ≤ a.alpha ∧ 1 ≤ a.beta) :
    Measurable (fun ω => settingOf N n (P ω)) ∧ Pr.map (fun ω => settingOf N n (P ω)) = naturalLaw nodes N n := by
  obtain ⟨t0, t1⟩ := turnLaw_prob
  have hnd : (nodes.map Node.id).Nodup := hids.nodup_iff.2 List.nodup_range
  have hp : ∀ k : Fin N, IsProbabilityMeasure (splitLaw (nodeAt nodes k).beta (nodeAt nodes k).alpha) := by
    intro k
    obtain ⟨a, ha, e⟩ := ids_of_perm hids k k.isLt
    rw [← e, node_of_id hnd ha]
    exact splitLaw_prob (hpos a ha).1 (hpos a ha).2
  have mX : Measurable fun ω => settingOf N n (P ω) := by
    refine Measurable.prodMk (measurable_pi_iff.2 fun k => ?_) (measurable_pi_iff.2 fun r => h.gammas r r.isLt)
    obtain ⟨a, ha, e⟩ := ids_of_perm hids k k.isLt
    rw [← e]
    exact (h.thetas a ha).prodMk (h.phis a ha)
  refine ⟨mX, ?_⟩
  refine rect_det _ _ _ fun A F G hA hF hG => ?_
  have mp : ∀ {m : ℕ} (S : Fin m → Set ℝ), (∀ k, MeasurableSet (S k)) → ∀ k, MeasurableSet (padFin univ S k) := by
    intro m S hS k
    unfold padFin
    split_ifs
    · exact hS _
    · exact MeasurableSet.univ
  have pad : ∀ {m : ℕ} (S : Fin m → Set ℝ) (k : Fin m), padFin univ S k = S k := by intro m S k; simp [padFin]
  have hl := h.law (padFin univ A) (padFin univ F) (padFin univ G) (mp A hA) (mp F hF) (mp G hG)
  rw [natural_prod hids, Finset.prod_range] at hl
  simp only [pad] at hl
  rw [← hl, Measure.map_apply mX]
  · refine congrArg Pr ?_
    ext ω
    constructor
    · rintro ⟨h1, h2⟩
      refine ⟨fun a ha => ?_, fun r hr => ?_⟩
      · have hk : a.id < N := by simpa using hids.mem_iff.1 (List.mem_map_of_mem (f := Node.id) ha)
        have := h1 ⟨a.id, hk⟩
        simp only [padFin, dif_pos hk]
        exact this
      · have := h2 ⟨r, hr⟩
        simp only [padFin, dif_pos hr]
        exact this
    · rintro ⟨h1, h2⟩
      refine ⟨fun k => ?_, fun r => ?_⟩
      · obtain ⟨a, ha, e⟩ := ids_of_perm hids k k.isLt
        have := h1 a ha
        rw [e, pad, pad] at this
        exact this
      · have := h2 r r.isLt
        rw [pad] at this
        exact this
  · have h0 := measurable_rect (N := N) (n := n) (mp A hA) (mp F hF) (mp G hG)
    simp only [pad] at h0
    exact h0

/-! ### The drawn setting -/

/-- A setting drawn for the nodes as in `rand_theta` and the constructor (forward.py:60-62, 123-130), each node with its own indices. -/
noncomputable def cascSetting (inv : ℕ → ℝ → ℝ) (N n : ℕ) (x : Fin 3 × ℕ → ℝ) : Setting N n :=
  (fun k => (randTheta (inv k) 0 0 (x (0, k)), 2 * Real.pi * x (1, k)), fun r => wrapPi (2 * Real.pi * x (2, r)))

theorem measurable_cascSetting {inv : ℕ → ℝ → ℝ} (hm : ∀ q, Measurable (randTheta (inv q) 0 0)) (N n : ℕ) : Measurable (cascSetting inv N n) := by
  have mlin : Measurable fun u : ℝ => 2 * Real.pi * u := by fun_prop
  refine Measurable.prodMk (measurable_pi_iff.2 fun k => Measurable.prodMk ?_ ?_) (measurable_pi_iff.2 fun r => ?_)
  · exact (hm k).comp (measurable_pi_apply _)
  · exact mlin.comp (measurable_pi_apply _)
  · exact (measurable_wrapPi.comp mlin).comp (measurable_pi_apply _)

theorem cascSetting_law {Ω : Type} [MeasurableSpace Ω] {Pr : Measure Ω} [IsProbabilityMeasure Pr] {D : Fin 3 × ℕ → Ω → ℝ} (hD : UniformDraws Pr D)
    {nodes : List Node} {n N : ℕ} (hids : (nodes.map Node.id).Perm (List.range N)) (hpos : ∀ a ∈ nodes, 1 ≤ a.alpha ∧ 1 ≤ a.beta)
    {binv : ℕ → ℕ → ℝ → ℝ} (hb : IsBetaincinvFamily binv) (hm : ∀ q, Measurable (randTheta (binv (nodeAt nodes q).beta (nodeAt nodes q).alpha) 0 0)) :
    Pr.map (fun ω => cascSetting (fun q => binv (nodeAt nodes q).beta (nodeAt nodes q).alpha) N n fun i => D i ω) = naturalLaw nodes N n := by
  set inv : ℕ → ℝ → ℝ := fun q => binv (nodeAt nodes q).beta (nodeAt nodes q).alpha with hinv
  obtain ⟨t0, t1⟩ := turnLaw_prob
  have hU01 : IsProbabilityMeasure uniform01 := ⟨by simp [uniform01]⟩
  have hnd : (nodes.map Node.id).Nodup := hids.nodup_iff.2 List.nodup_range
  have mlin : Measurable fun u : ℝ => 2 * Real.pi * u := by fun_prop
  have mwr : Measurable fun u : ℝ => wrapPi (2 * Real.pi * u) := measurable_wrapPi.comp mlin
  have hp : ∀ k : Fin N, Measure.map (randTheta (inv k) 0 0) uniform01 = splitLaw (nodeAt nodes k).beta (nodeAt nodes k).alpha := by
    intro k
    obtain ⟨a, ha, e⟩ := ids_of_perm hids k k.isLt
    have h1 := hpos a ha
    have e2 : nodeAt nodes k = a := by rw [← e, node_of_id hnd ha]
    simp only [hinv]
    rw [e2]
    exact randTheta_split h1.1 h1.2 (hb _ _ h1.2 h1.1)
  have e : ∀ ω, cascSetting inv N n (fun i => D i ω) = (fun w : (Fin N → ℝ × ℝ) × (Fin n → ℝ) => ((fun k : Fin N => (randTheta (inv k) 0 0 (w.1 k).1,
      2 * Real.pi * (w.1 k).2), fun r => wrapPi (2 * Real.pi * w.2 r)) : Setting N n)) ((fun i : Fin N => (D (0, 0 + i) ω, D (1, 0 + i) ω)), fun r : Fin n => D (2, r) ω) := by
    intro ω
    simp only [Nat.zero_add]
    rfl
  simp only [e]
  have mf : Measurable fun w : (Fin N → ℝ × ℝ) × (Fin n → ℝ) => ((fun k : Fin N => (randTheta (inv k) 0 0 (w.1 k).1,
      2 * Real.pi * (w.1 k).2), fun r => wrapPi (2 * Real.pi * w.2 r)) : Setting N n) := by
    refine Measurable.prodMk (measurable_pi_iff.2 fun k => Measurable.prodMk ?_ ?_) (measurable_pi_iff.2 fun r => ?_)
    · exact (hm k).comp (measurable_fst.comp ((measurable_pi_apply k).comp measurable_fst))
    · exact mlin.comp (measurable_snd.comp ((measurable_pi_apply k).comp measurable_fst))
    · exact mwr.comp ((measurable_pi_apply r).comp measurable_snd)
  have mun : Measurable fun ω => ((fun i : Fin N => (D (0, 0 + i) ω, D (1, 0 + i) ω)), fun r : Fin n => D (2, r) ω) :=
    (measurable_pi_iff.2 fun i => (hD.meas _).prodMk (hD.meas _)).prodMk (measurable_pi_iff.2 fun r => hD.meas _)
  have h1 := Measure.map_map (μ := Pr) mf mun
  simp only [Function.comp_def] at h1
  rw [← h1, draws_fresh hD 0 N n]
  have hprob : ∀ k : Fin N, IsProbabilityMeasure (splitLaw (nodeAt nodes k).beta (nodeAt nodes k).alpha) := by
    intro k
    rw [← hp k]
    exact Measure.isProbabilityMeasure_map (hm k).aemeasurable
  refine rect_det _ _ _ fun A F G hA hF hG => ?_
  rw [Measure.map_apply mf]
  · have e2 : (fun w : (Fin N → ℝ × ℝ) × (Fin n → ℝ) => ((fun k : Fin N => (randTheta (inv k) 0 0 (w.1 k).1,
        2 * Real.pi * (w.1 k).2), fun r => wrapPi (2 * Real.pi * w.2 r)) : Setting N n)) ⁻¹' {s | (∀ k, (s.1 k).1 ∈ A k ∧ (s.1 k).2 ∈ F k) ∧ ∀ r, s.2 r ∈ G r} =
        (univ.pi fun k : Fin N => (randTheta (inv k) 0 0 ⁻¹' A k) ×ˢ ((fun u => 2 * Real.pi * u) ⁻¹' F k)) ×ˢ
          (univ.pi fun r : Fin n => (fun u => wrapPi (2 * Real.pi * u)) ⁻¹' G r) := by
      ext w
      simp only [mem_prod, mem_univ_pi, mem_preimage]
      rfl
    rw [e2, freshDraws, Measure.prod_prod, Measure.pi_pi, Measure.pi_pi]
    simp only [Measure.prod_prod]
    congr 1
    · refine Finset.prod_congr rfl fun k _ => ?_
      rw [← hp k, Measure.map_apply (hm k) (hA k), ← uniform_law, Measure.map_apply mlin (hF k)]
    · refine Finset.prod_congr rfl fun r _ => ?_
      rw [← wrap_law, Measure.map_apply mwr (hG r)]
  · have m1 : ∀ k : Fin N, Measurable fun s : Setting N n => (s.1 k).1 := fun k => by fun_prop
    have m2 : ∀ k : Fin N, Measurable fun s : Setting N n => (s.1 k).2 := fun k => by fun_prop
    have m3 : ∀ r : Fin n, Measurable fun s : Setting N n => s.2 r := fun r => by fun_prop
    have : {s : Setting N n | (∀ k : Fin N, (s.1 k).1 ∈ A k ∧ (s.1 k).2 ∈ F k) ∧ ∀ r : Fin n, s.2 r ∈ G r} =
        (⋂ k, (fun s : Setting N n => (s.1 k).1) ⁻¹' A k ∩ (fun s : Setting N n => (s.1 k).2) ⁻¹' F k) ∩ ⋂ r, (fun s : Setting N n => s.2 r) ⁻¹' G r := by
      ext s
      simp only [mem_inter_iff, mem_iInter, mem_preimage]
      rfl
    rw [this]
    exact (MeasurableSet.iInter fun k => (m1 k (hA k)).inter (m2 k (hF k))).inter (MeasurableSet.iInter fun r => m3 r (hG r))

/-! ### The theorems -/

theorem cascade_pos {n : ℕ} : ∀ a ∈ parts n true (n - 1) 0 0, 1 ≤ a.alpha ∧ 1 ≤ a.beta := by
  intro a ha
  obtain ⟨k, N, C, h1, -, -, x, hx, rfl⟩ := mem_parts ha
  rw [tree_setRails (k + 1) (k + 1) n] at hx
  obtain ⟨y, hy, rfl⟩ := List.mem_map.1 hx
  have n2 : 2 ≤ k + 1 := by omega
  obtain ⟨e1, e2⟩ := inputs_eq n2 hy
  obtain ⟨p1, p2⟩ := inputs_pos n2 hy
  rw [e1] at p1
  rw [e2] at p2
  exact ⟨p2, p1⟩

theorem cascade_ids (n : ℕ) : ((parts n true (n - 1) 0 0).map Node.id).Perm (List.range (tri (n - 1))) := by
  have := parts_ids n true (n - 1) 0 0
  rwa [← List.range_eq_range'] at this

/-- The matrix of a mesh depends on the numbers of its nodes and rails only. -/
theorem matrix_setting {nodes : List Node} {n N : ℕ} (hM : (idealMesh nodes .top).WellFormed n) (hN : nodes.length = N) (P : Params) :
    (idealMesh nodes .top).matrix n P false = (idealMesh nodes .top).matrix n (paramsOf (settingOf N n P)) false := by
  rw [Mesh.matrix_eq hM, Mesh.matrix_eq hM, if_neg (by decide), if_neg (by decide), visitOrder_false]
  congr 1
  · congr 1
    funext r
    simp only [paramsOf, settingOf, padFin, dif_pos r.isLt]
  · show blockProduct n _ (executionOrder nodes) = blockProduct n _ (executionOrder nodes)
    unfold blockProduct
    congr 2
    refine List.map_congr_left fun a ha => ?_
    have hk : a.id < N := hN ▸ hM.ids a ((executionOrder_perm nodes).mem_iff.1 ha)
    rw [ideal_elements, ideal_elements]
    simp only [paramsOf, settingOf, padFin, dif_pos hk]

theorem exists_binv : ∃ binv : ℕ → ℕ → ℝ → ℝ, IsBetaincinvFamily binv ∧ ∀ a b, Measurable (randTheta (binv a b) 0 0) := by
  obtain ⟨binv, hb, hbm⟩ := exists_measurable_betaincinv
  refine ⟨fun a b => if 1 ≤ a ∧ 1 ≤ b then binv a b else fun _ => 0, fun a b h1 h2 => ?_, fun a b => ?_⟩
  · simp only [if_pos (And.intro h1 h2)]
    exact hb a b h1 h2
  · have : ∀ f : ℝ → ℝ, randTheta f 0 0 = idealPhase ∘ f := by
      intro f; funext u; exact randTheta_ideal _ u
    rw [this]
    refine measurable_idealPhase.comp ?_
    beta_reduce
    split_ifs with h
    · exact hbm a b h.1 h.2
    · exact measurable_const

theorem wrap_turn {u : ℝ} (hu : u ∈ Ico (0 : ℝ) 1) : wrapPi (2 * Real.pi * u) ∈ Ico (-Real.pi) Real.pi ∧
    exp (I * (wrapPi (2 * Real.pi * u) : ℝ)) = exp (I * ((2 * Real.pi * u : ℝ) : ℂ)) := by
  have hpi := Real.pi_pos
  have h1 := hu.1
  have h2 := hu.2
  unfold wrapPi
  split_ifs with hc
  · exact ⟨⟨by nlinarith, by linarith⟩, rfl⟩
  · refine ⟨⟨by linarith, by nlinarith⟩, ?_⟩
    rw [Complex.exp_eq_exp_iff_exists_int]
    exact ⟨-1, by push_cast; ring⟩

/-- A random setting with this law, whose matrix is Haar-random. -/
theorem cascade_drawn (n : ℕ) (hn : 2 ≤ n) (hM : (idealMesh (parts n true (n - 1) 0 0) .top).WellFormed n) :
    ∃ (Ω : Type) (_ : MeasurableSpace Ω) (Pr : Measure Ω) (X : Ω → Setting (tri (n - 1)) n), IsProbabilityMeasure Pr ∧ Measurable X ∧
      Pr.map X = naturalLaw (parts n true (n - 1) 0 0) (tri (n - 1)) n ∧
      (∀ᵐ ω ∂Pr, (∀ k, (X ω).1 k ∈ Ioo 0 Real.pi ×ˢ Ico 0 (2 * Real.pi)) ∧ ∀ r, (X ω).2 r ∈ Ico (-Real.pi) Real.pi) ∧
      HaarRandom Pr fun ω => (idealMesh (parts n true (n - 1) 0 0) .top).matrix n (paramsOf (X ω)) false := by
  obtain ⟨binv, hb, hbm⟩ := exists_binv
  have hpi := Real.pi_pos
  have hU01 : IsProbabilityMeasure uniform01 := ⟨by simp [uniform01]⟩
  have hD : UniformDraws (Measure.infinitePi fun _ : Fin 3 × ℕ => uniform01) (fun i ω => ω i) :=
    ⟨fun i => measurable_pi_apply i, fun i => Measure.infinitePi_map_eval _ i, iIndepFun_infinitePi (X := fun _ x => x) fun _ => measurable_id⟩
  set nodes := parts n true (n - 1) 0 0 with hnodes
  have hids := cascade_ids n
  have hpos := cascade_pos (n := n)
  rw [← hnodes] at hids hpos
  have hnd : (nodes.map Node.id).Nodup := hids.nodup_iff.2 List.nodup_range
  have hlen : nodes.length = tri (n - 1) := by simpa using hids.length_eq
  let bt : ℕ → ℕ := fun q => (nodeAt nodes q).beta
  let al : ℕ → ℕ := fun q => (nodeAt nodes q).alpha
  let inv : ℕ → ℝ → ℝ := fun q => binv (bt q) (al q)
  have hm : ∀ q, Measurable (randTheta (inv q) 0 0) := fun q => hbm _ _
  have hn1 : n - 1 + 1 = n := by omega
  have hfair : CascFair bt al n 0 := by
    have h := parts_fair n bt al (n - 1) 0 0 fun a ha => by
      simp only [bt, al]
      rw [node_of_id hnd ha]
      exact ⟨rfl, rfl⟩
    rwa [hn1] at h
  have hth : ∀ k : Fin (tri (n - 1)), ∀ᵐ ω ∂(Measure.infinitePi fun _ : Fin 3 × ℕ => uniform01), randTheta (inv k) 0 0 (ω (0, k.val)) ∈ Ioo 0 Real.pi := by
    intro k
    obtain ⟨a, ha, e⟩ := ids_of_perm hids k k.isLt
    have h1 := hpos a ha
    have e2 : nodeAt nodes k = a := by rw [← e, node_of_id hnd ha]
    refine ae_draw (p := fun u => randTheta (inv k) 0 0 u ∈ Ioo 0 Real.pi) hD (0, k.val) ?_
    simp only [inv, bt, al, e2]
    exact (ae_theta (by exact_mod_cast h1.2) (by exact_mod_cast h1.1) (hb _ _ h1.2 h1.1)).2
  have hu : ∀ i, ∀ᵐ ω ∂(Measure.infinitePi fun _ : Fin 3 × ℕ => uniform01), ω i ∈ Ico (0 : ℝ) 1 := fun i => ae_draw hD i (ae_restrict_mem measurableSet_Ico)
  have hth' := ae_all_iff.2 hth
  have hu' := ae_all_iff.2 hu
  refine ⟨Fin 3 × ℕ → ℝ, inferInstance, Measure.infinitePi fun _ : Fin 3 × ℕ => uniform01, cascSetting inv (tri (n - 1)) n, inferInstance,
    measurable_cascSetting hm _ _, cascSetting_law hD hids hpos hb hm, ?_, ?_⟩
  · filter_upwards [hth', hu'] with ω w1 w2
    refine ⟨fun k => ⟨w1 k, ?_, ?_⟩, fun r => (wrap_turn (w2 (2, r.val))).1⟩
    · have := (w2 (1, k.val)).1
      show 0 ≤ 2 * Real.pi * ω (1, k.val)
      positivity
    · have := (w2 (1, k.val)).2
      show 2 * Real.pi * ω (1, k.val) < 2 * Real.pi
      nlinarith
  · refine haar_of_right (W := fun ω => randomCasc n inv n 0 fun i => ω i) (measurable_randomCasc hm n 0) ?_ ?_ (randomCasc_inv hD hb hm n 0 le_rfl hfair)
    · filter_upwards [hu'] with ω w2
      rw [Mesh.matrix_eq hM, if_neg (by decide)]
      have h3 := cascade_random n inv (fun i => ω i) (n - 1) 0 0 (by omega)
      rw [hn1] at h3
      rw [← h3]
      congr 1
      · congr 1
        funext i
        rw [if_pos (by have := i.isLt; omega)]
        simp only [paramsOf, cascSetting, padFin, dif_pos i.isLt]
        exact (wrap_turn (w2 (2, i.val))).2
      · rw [visitOrder_false]
        show blockProduct n _ (executionOrder nodes) = _
        refine mulVec_ext fun v => ?_
        have hv : v = restrict n (extVec v) := by
          funext q
          simp [restrict, extVec]
        have hr : ∀ a ∈ nodes, a.top < n ∧ a.bottom < n ∧ a.top ≠ a.bottom := hM.rails
        have a1 := restrict_seqApply (n := n) (el := (idealMesh nodes .top).elements (paramsOf (cascSetting inv (tri (n - 1)) n ω)) false)
          (executionOrder nodes) (fun a ha => hr a ((executionOrder_perm nodes).mem_iff.1 ha)) (extVec v)
        have a2 := restrict_seqApply (n := n) (el := cascEl inv ω) (execParts n true (n - 1) 0 0)
          (fun a ha => hr a ((execParts_perm n true (n - 1) 0 0).mem_iff.1 ha)) (extVec v)
        rw [hv]
        refine a1.symm.trans (Eq.trans ?_ a2)
        congr 1
        rw [← seqApply_parts _ n true (n - 1) 0 0 (by omega)]
        refine seqApply_congr (executionOrder nodes) (fun a ha => ?_) _
        have hlt : a.id < tri (n - 1) := hlen ▸ hM.ids a ((executionOrder_perm nodes).mem_iff.1 ha)
        rw [ideal_elements]
        simp only [paramsOf, cascSetting, padFin, dif_pos hlt, cascEl]
    · intro ω
      rw [Mesh.matrix_eq hM, if_neg (by decide)]
      refine mul_mem (gamma_unitary n _) (blockProduct_unitary (fun a ha => hM.rails a (mem_visitOrder.1 ha)) fun a _ => ?_)
      rw [ideal_elements]
      exact mziElements_unitary _ _ _ _ _ _

theorem cascade_mesh_wf {n : ℕ} (hn : 2 ≤ n) : (idealMesh (parts n true (n - 1) 0 0) .top).WellFormed n := by
  obtain ⟨P1, -, hwf, -⟩ := cascade_spec (Or.inl rfl) (le_refl (0 : ℝ)) n hn true (1 : Matrix (Fin n) (Fin n) ℂ) (one_mem _)
  exact hwf

/-- C211: a balanced cascade (as `tree_cascade` builds it) with natural phases is a Haar-random unitary matrix. -/
theorem C211_haar {Ω : Type} [MeasurableSpace Ω] (Pr : Measure Ω) [IsProbabilityMeasure Pr] (n : ℕ) (hn : 2 ≤ n) (u0 : Matrix (Fin n) (Fin n) ℂ) (M : Mesh)
    (P0 : Params) (h0 : cascade 0 .top 0 n true u0 = some (M, P0)) (P : Ω → Params) (hP : NaturalPhases Pr M.nodes n P) :
    HaarRandom Pr fun ω => M.matrix n (P ω) false := by
  obtain rfl := cascade_mesh hn h0
  have hM := cascade_mesh_wf hn
  obtain ⟨Ω', mΩ', Pr', X, hPr', mX, hX, -, hH⟩ := cascade_drawn n hn hM
  set nodes := parts n true (n - 1) 0 0 with hnodes
  have hids := cascade_ids n
  have hpos := cascade_pos (n := n)
  rw [← hnodes] at hids hpos
  have hlen : nodes.length = tri (n - 1) := by simpa using hids.length_eq
  obtain ⟨mS, hS⟩ := NaturalPhases.setting (N := tri (n - 1)) hP hids hpos
  have hmat := measurable_setting (N := tri (n - 1)) hM
  have e : ∀ ω, (errorMesh nodes 0 .top).matrix n (P ω) false = (idealMesh nodes .top).matrix n (paramsOf (settingOf (tri (n - 1)) n (P ω))) false :=
    fun ω => matrix_setting hM hlen (P ω)
  have e2 : (fun ω => (errorMesh nodes 0 .top).matrix n (P ω) false) = fun ω => (idealMesh nodes .top).matrix n (paramsOf (settingOf (tri (n - 1)) n (P ω))) false :=
    funext e
  show HaarRandom Pr fun ω => (errorMesh nodes 0 .top).matrix n (P ω) false
  rw [e2]
  have tr : ∀ (f : Matrix (Fin n) (Fin n) ℂ → Matrix (Fin n) (Fin n) ℂ), Measurable f → ∀ B, MeasurableSet B →
      Pr {ω | f ((idealMesh nodes .top).matrix n (paramsOf (settingOf (tri (n - 1)) n (P ω))) false) ∈ B} =
        Pr' {ω | f ((idealMesh nodes .top).matrix n (paramsOf (X ω)) false) ∈ B} := by
    intro f hf B hB
    have h1 := congrArg (fun μ => μ ((fun s => f ((idealMesh nodes .top).matrix n (paramsOf s) false)) ⁻¹' B)) (hS.trans hX.symm)
    have h2 : MeasurableSet ((fun s : Setting (tri (n - 1)) n => f ((idealMesh nodes .top).matrix n (paramsOf s) false)) ⁻¹' B) := (hf.comp hmat) hB
    simp only [Measure.map_apply mS h2, Measure.map_apply mX h2] at h1
    exact h1
  refine ⟨fun ω => ?_, (hmat.comp mS).aemeasurable, fun A hA B hB => ?_, fun A hA B hB => ?_⟩
  · rw [Mesh.matrix_eq hM, if_neg (by decide)]
    refine mul_mem (gamma_unitary n _) (blockProduct_unitary (fun a ha => hM.rails a (mem_visitOrder.1 ha)) fun a _ => ?_)
    rw [ideal_elements]
    exact mziElements_unitary _ _ _ _ _ _
  · exact (tr (fun V => A * V) (measurable_mat_mul measurable_const measurable_id) B hB).trans
      ((hH.left A hA B hB).trans (tr (fun V => V) measurable_id B hB).symm)
  · exact (tr (fun V => V * A) (measurable_mat_mul measurable_id measurable_const) B hB).trans
      ((hH.right A hA B hB).trans (tr (fun V => V) measurable_id B hB).symm)

/-- C211: conversely the phases that `tree_cascade` finds for a Haar-random unitary matrix are natural. -/
theorem C211_tree_cascade {Ω : Type} [MeasurableSpace Ω] (Pr : Measure Ω) [IsProbabilityMeasure Pr] (n : ℕ) (hn : 2 ≤ n)
    (U : Ω → Matrix (Fin n) (Fin n) ℂ) (hU : HaarRandom Pr U) (u0 : Matrix (Fin n) (Fin n) ℂ) (M : Mesh) (P0 : Params)
    (h0 : cascade 0 .top 0 n true u0 = some (M, P0)) (A F G : ℕ → Set ℝ) (hA : ∀ k, MeasurableSet (A k)) (hF : ∀ k, MeasurableSet (F k))
    (hG : ∀ k, MeasurableSet (G k)) :
    Pr {ω | ∃ P, cascade 0 .top 0 n true (U ω) = some (M, P) ∧ (∀ a ∈ M.nodes, P.thetas a.id ∈ A a.id ∧ P.phis a.id ∈ F a.id) ∧ ∀ r < n, P.gammas r ∈ G r} =
      (M.nodes.map fun a => splitLaw a.beta a.alpha (A a.id) * turnLaw 0 (F a.id)).prod * ∏ r ∈ Finset.range n, turnLaw (-Real.pi) (G r) := by
  have h0' := h0
  obtain rfl := cascade_mesh hn h0
  have hM := cascade_mesh_wf hn
  obtain ⟨Ω', mΩ', Pr', X, hPr', mX, hX, hXG, hH⟩ := cascade_drawn n hn hM
  set nodes := parts n true (n - 1) 0 0 with hnodes
  have hids := cascade_ids n
  have hpos := cascade_pos (n := n)
  rw [← hnodes] at hids hpos
  have hidlt : ∀ a ∈ nodes, a.id < tri (n - 1) := fun a ha => by simpa using hids.mem_iff.1 (List.mem_map_of_mem (f := Node.id) ha)
  have hmat := measurable_setting (N := tri (n - 1)) hM
  let prog : Matrix (Fin n) (Fin n) ℂ → Setting (tri (n - 1)) n := fun V => ((cascade 0 .top 0 n true V).map fun x => settingOf (tri (n - 1)) n x.2).getD 0
  let GS : Set (Setting (tri (n - 1)) n) := {s | (∀ k : Fin (tri (n - 1)), (s.1 k).1 ∈ Ioo 0 Real.pi ∧ (s.1 k).2 ∈ Ico 0 (2 * Real.pi)) ∧ ∀ r : Fin n, s.2 r ∈ Ico (-Real.pi) Real.pi}
  have hGS : MeasurableSet GS := measurable_rect (A := fun _ => Ioo 0 Real.pi) (F := fun _ => Ico 0 (2 * Real.pi)) (G := fun _ => Ico (-Real.pi) Real.pi)
    (fun _ => measurableSet_Ioo) (fun _ => measurableSet_Ico) fun _ => measurableSet_Ico
  have hprog : ∀ s ∈ GS, prog ((idealMesh nodes .top).matrix n (paramsOf s) false) = s := by
    intro s hs
    obtain ⟨P', c1, h1, h2⟩ := C176_cascade_recovers 0 (by simp) n hn true u0 _ P0 h0' (paramsOf s) (fun a ha => by
      have hk := hidlt a ha
      have := hs.1 ⟨a.id, hk⟩
      simpa only [paramsOf, padFin, dif_pos hk, mem_Ioo, mem_Ico] using this)
    have e : prog ((idealMesh nodes .top).matrix n (paramsOf s) false) = settingOf (tri (n - 1)) n P' := by
      show ((cascade 0 .top 0 n true ((errorMesh nodes 0 .top).matrix n (paramsOf s) false)).map fun x => settingOf (tri (n - 1)) n x.2).getD 0 = _
      rw [c1]; rfl
    rw [e, ← settingOf_paramsOf s]
    refine Prod.ext (funext fun k => ?_) (funext fun r => ?_)
    · obtain ⟨a, ha, e⟩ := ids_of_perm hids k.val k.isLt
      have := h1 a ha
      rw [e] at this
      exact Prod.ext this.1 this.2
    · have h3 := hs.2 r
      have h4 : (paramsOf s).gammas r.val = s.2 r := by simp only [paramsOf, padFin, dif_pos r.isLt]
      exact (h2 r.val r.isLt).2 (by rw [h4]; exact h3.1) (by rw [h4]; exact h3.2)
  have hB := measurable_rect (N := tri (n - 1)) (n := n) hA hF hG
  have main := law_of_program hU (fun s : Setting (tri (n - 1)) n => (idealMesh nodes .top).matrix n (paramsOf s) false) hmat hGS prog hprog mX.aemeasurable
    (hXG.mono fun ω h => ⟨fun k => h.1 k, h.2⟩) hH (Filter.Eventually.of_forall fun _ => rfl) hB
  have lawX : Pr' {ω | X ω ∈ {s : Setting (tri (n - 1)) n | (∀ k : Fin (tri (n - 1)), (s.1 k).1 ∈ A k ∧ (s.1 k).2 ∈ F k) ∧ ∀ r : Fin n, s.2 r ∈ G r}} =
      (nodes.map fun a => splitLaw a.beta a.alpha (A a.id) * turnLaw 0 (F a.id)).prod * ∏ r ∈ Finset.range n, turnLaw (-Real.pi) (G r) := by
    have h1 := congrArg (fun μ => μ {s : Setting (tri (n - 1)) n | (∀ k : Fin (tri (n - 1)), (s.1 k).1 ∈ A k ∧ (s.1 k).2 ∈ F k) ∧ ∀ r : Fin n, s.2 r ∈ G r}) hX
    simp only [Measure.map_apply mX hB] at h1
    exact h1.trans (natural_rect hids hpos A F G)
  refine Eq.trans (congrArg Pr ?_) (main.trans lawX)
  ext ω
  obtain ⟨P2, e2, -⟩ := cascade_spec (Or.inl rfl) (le_refl (0 : ℝ)) n hn true (U ω) (hU.unitary ω)
  have e3 : prog (U ω) = settingOf (tri (n - 1)) n P2 := by
    show ((cascade 0 .top 0 n true (U ω)).map fun x => settingOf (tri (n - 1)) n x.2).getD 0 = _
    rw [e2]; rfl
  have e4 := cascade_mesh hn e2
  simp only [mem_ofPred_eq]
  rw [e3]
  constructor
  · rintro ⟨P, e5, h1, h2⟩
    rw [e2] at e5
    obtain rfl : P2 = P := (Prod.mk.inj (Option.some.inj e5)).2
    refine ⟨fun k => ?_, fun r => h2 r.val r.isLt⟩
    obtain ⟨a, ha, e⟩ := ids_of_perm hids k.val k.isLt
    have h := h1 a ha
    rw [e] at h
    exact h
  · rintro ⟨h1, h2⟩
    exact ⟨P2, by rw [e2, e4], fun a ha => h1 ⟨a.id, hidlt a ha⟩, fun r hr => h2 ⟨r, hr⟩⟩

/-- C211, the hypotheses can be met: there are natural phases for the balanced cascade of five rails, in which one node of the largest unit merges two and three
inputs, and there is a Haar-random matrix on five rails. -/
theorem C211_case : ∃ M P0, cascade 0 .top 0 5 true 1 = some (M, P0) ∧
    (∃ (Ω : Type) (_ : MeasurableSpace Ω) (Pr : Measure Ω) (P : Ω → Params), IsProbabilityMeasure Pr ∧ NaturalPhases Pr M.nodes 5 P) ∧
    (∃ (Ω : Type) (_ : MeasurableSpace Ω) (Pr : Measure Ω) (U : Ω → Matrix (Fin 5) (Fin 5) ℂ), IsProbabilityMeasure Pr ∧ HaarRandom Pr U) ∧
    M.nodes.map (fun a => (a.beta, a.alpha)) = [(2, 3), (1, 1), (1, 2), (1, 1), (2, 2), (1, 1), (1, 1), (1, 2), (1, 1), (1, 1)] := by
  obtain ⟨P1, h0, hM, -⟩ := cascade_spec (Or.inl rfl) (le_refl (0 : ℝ)) 5 (by norm_num) true (1 : Matrix (Fin 5) (Fin 5) ℂ) (one_mem _)
  refine ⟨_, P1, h0, ?_, ?_, ?_⟩
  · obtain ⟨Ω', mΩ', Pr', X, hPr', mX, hX, -, -⟩ := cascade_drawn 5 (by norm_num) hM
    have hids := cascade_ids 5
    have hpos := cascade_pos (n := 5)
    refine ⟨Ω', mΩ', Pr', fun ω => paramsOf (X ω), hPr', ?_⟩
    have hidlt : ∀ a ∈ parts 5 true (5 - 1) 0 0, a.id < tri (5 - 1) := fun a ha => by simpa using hids.mem_iff.1 (List.mem_map_of_mem (f := Node.id) ha)
    refine ⟨fun a ha => ?_, fun a ha => ?_, fun r hr => ?_, fun A F G hA hF hG => ?_⟩
    · exact (measurable_fst.comp ((measurable_pad (0, 0) _).comp (measurable_fst.comp mX)))
    · exact (measurable_snd.comp ((measurable_pad (0, 0) _).comp (measurable_fst.comp mX)))
    · exact ((measurable_pad 0 _).comp (measurable_snd.comp mX))
    · have hB := measurable_rect (N := tri (5 - 1)) (n := 5) hA hF hG
      have h1 := congrArg (fun μ => μ {s : Setting (tri (5 - 1)) 5 | (∀ k : Fin (tri (5 - 1)), (s.1 k).1 ∈ A k ∧ (s.1 k).2 ∈ F k) ∧ ∀ r : Fin 5, s.2 r ∈ G r}) hX
      simp only [Measure.map_apply mX hB] at h1
      refine Eq.trans (congrArg Pr' ?_) (h1.trans (natural_rect hids hpos A F G))
      ext ω
      constructor
      · rintro ⟨h1, h2⟩
        refine ⟨fun k => ?_, fun r => ?_⟩
        · obtain ⟨a, ha, e⟩ := ids_of_perm hids k.val k.isLt
          have h := h1 a ha
          rw [e] at h
          simpa only [paramsOf, padFin, dif_pos k.isLt] using h
        · have h := h2 r.val r.isLt
          simpa only [paramsOf, padFin, dif_pos r.isLt] using h
      · rintro ⟨h1, h2⟩
        refine ⟨fun a ha => ?_, fun r hr => ?_⟩
        · have h := h1 ⟨a.id, hidlt a ha⟩
          simpa only [paramsOf, padFin, dif_pos (hidlt a ha)] using h
        · have h := h2 ⟨r, hr⟩
          simpa only [paramsOf, padFin, dif_pos hr] using h
  · obtain ⟨binv, Ω, mΩ, Pr, D, hb, hD, hH⟩ := C207_case
    have hPr : IsProbabilityMeasure Pr := by
      constructor
      have h := hD.law (0, 0)
      have h2 : (Pr.map (D (0, 0))) univ = 1 := by rw [h]; simp [uniform01]
      rwa [Measure.map_apply (hD.meas _) MeasurableSet.univ, preimage_univ] at h2
    exact ⟨Ω, mΩ, Pr, _, hPr, hH⟩
  · show (parts 5 true 4 0 0).map (fun a => (a.beta, a.alpha)) = _
    decide +kernel

end Simphox
