import Verif.CascadeHaar

/-!
# `tree_cascade` set with `rand_theta` (C212)

`rand_theta` (forward.py:123-130) draws the phase at position `k` of `thetas` with the indices of the node at position `k` of the node list, whereas the node with
id `k` uses it (forward.py:748-749). In a balanced tree the two disagree from four rails on, so that a balanced cascade set at random is Haar-random for two and
three rails only.
-/

namespace Simphox

open Matrix Complex MeasureTheory ProbabilityTheory Set

local notation "conj" => starRingEnd ℂ

/-! ### A measurable version of `betaincinv` -/

/-- `betaincinv` (forward.py:121) on `[0, 1]`, where its draws lie, made constant outside so that it is measurable. -/
noncomputable def clampInv (binv : ℕ → ℕ → ℝ → ℝ) (a b : ℕ) (u : ℝ) : ℝ := if 1 ≤ a ∧ 1 ≤ b then binv a b (max 0 (min u 1)) else 0

theorem clampInv_eq (binv : ℕ → ℕ → ℝ → ℝ) {a b : ℕ} (ha : 1 ≤ a) (hb : 1 ≤ b) {u : ℝ} (hu : u ∈ Icc (0 : ℝ) 1) : clampInv binv a b u = binv a b u := by
  rw [clampInv, if_pos ⟨ha, hb⟩, min_eq_left hu.2, max_eq_right hu.1]

theorem clampInv_family {binv : ℕ → ℕ → ℝ → ℝ} (hb : IsBetaincinvFamily binv) : IsBetaincinvFamily (clampInv binv) := by
  intro a b h1 h2 u hu
  rw [clampInv_eq binv h1 h2 hu]
  exact hb a b h1 h2 u hu

theorem measurable_clampInv {binv : ℕ → ℕ → ℝ → ℝ} (hb : IsBetaincinvFamily binv) (a b : ℕ) : Measurable (randTheta (clampInv binv a b) 0 0) := by
  have e : randTheta (clampInv binv a b) 0 0 = idealPhase ∘ clampInv binv a b := by
    funext u; exact randTheta_ideal _ u
  rw [e]
  refine measurable_idealPhase.comp ?_
  by_cases h : 1 ≤ a ∧ 1 ≤ b
  · have e2 : clampInv binv a b = fun u => binv a b (max 0 (min u 1)) := by
      funext u; rw [clampInv, if_pos h]
    rw [e2]
    have hr : ∀ u : ℝ, max 0 (min u 1) ∈ Icc (0 : ℝ) 1 := fun u => ⟨le_max_left _ _, max_le (by norm_num) (min_le_right _ _)⟩
    refine Monotone.measurable fun u v huv => ?_
    exact (hb a b h.1 h.2).strictMonoOn.monotoneOn (hr u) (hr v) (max_le_max le_rfl (min_le_min_right 1 huv))
  · have e2 : clampInv binv a b = fun _ => 0 := by
      funext u; rw [clampInv, if_neg h]
    rw [e2]
    exact measurable_const

/-! ### Rows of trees and of Haar-random matrices -/

theorem star_drawnRow {n : ℕ} (hn : 2 ≤ n) (bal : Bool) (inv : ℕ → ℝ → ℝ) (w : (Fin (n - 1) → ℝ × ℝ) × (Fin n → ℝ)) :
    star (drawnRow inv n bal w) = tipVec n bal (paramsOf (drawnSetting inv n (fun _ u => 2 * Real.pi * u) w)) := by
  have e1 : star (drawnRow inv n bal w) = tipVec n bal (drawnParams inv (padFin (0, 0) w.1) (padFin 0 w.2)) := rfl
  rw [e1]
  refine tipVec_congr hn bal (fun q hq => ?_) ?_
  · simp only [drawnParams, paramsOf, drawnSetting, padFin, dif_pos hq]
    exact ⟨trivial, trivial⟩
  · simp only [drawnParams, paramsOf, drawnSetting, padFin, dif_pos (show n - 1 < n by omega)]

theorem measurable_starVec {n : ℕ} : Measurable fun v : Fin n → ℂ => star v :=
  measurable_pi_iff.2 fun i => Complex.continuous_conj.measurable.comp (measurable_pi_apply i)

theorem measurable_drawnRow {n : ℕ} (hn : 2 ≤ n) (bal : Bool) {inv : ℕ → ℝ → ℝ} (hm : ∀ q, Measurable (randTheta (inv q) 0 0)) :
    Measurable (drawnRow inv n bal) := by
  have h1 : Measurable fun w => star (drawnRow inv n bal w) := by
    simp only [star_drawnRow hn bal]
    exact (measurable_tipVec hn bal).comp (measurable_drawnSetting (fun q _ => hm q) fun _ => by fun_prop)
  have h2 := measurable_starVec.comp h1
  have e : (fun v : Fin n → ℂ => star v) ∘ (fun w => star (drawnRow inv n bal w)) = drawnRow inv n bal := by
    funext w; exact star_star _
  rwa [e] at h2

theorem norm_drawnRow {n : ℕ} (hn : 2 ≤ n) (bal : Bool) (inv : ℕ → ℝ → ℝ) (w : (Fin (n - 1) → ℝ × ℝ) × (Fin n → ℝ)) :
    ∑ i, ‖drawnRow inv n bal w i‖ ^ 2 = 1 := by
  have h := tipVec_norm hn bal (paramsOf (drawnSetting inv n (fun _ u => 2 * Real.pi * u) w))
  rw [← star_drawnRow hn bal] at h
  simpa only [Pi.star_apply, norm_star] using h

/-- The last row of a Haar-random matrix, conjugated, is a random direction. -/
theorem HaarRandom.direction {Ω : Type} [MeasurableSpace Ω] {Pr : Measure Ω} [IsProbabilityMeasure Pr] {n : ℕ} {U : Ω → Matrix (Fin n) (Fin n) ℂ}
    (hU : HaarRandom Pr U) (l : Fin n) : RandomDirection Pr (fun ω => star (U ω l)) ∧ ∀ ω, ∑ i, ‖star (U ω l) i‖ ^ 2 = 1 := by
  have h1 : ∀ ω, ∑ i, ‖star (U ω l) i‖ ^ 2 = 1 := by
    intro ω
    have h := congrFun (congrFun (mem_unitaryGroup_iff.1 (hU.unitary ω)) l) l
    rw [mul_apply, one_apply_eq] at h
    have e : ∀ i, U ω l i * star (U ω) i l = ((‖star (U ω l) i‖ ^ 2 : ℝ) : ℂ) := by
      intro i
      rw [star_apply, Pi.star_apply, norm_star, star_def, Complex.mul_conj, Complex.normSq_eq_norm_sq]
    simp only [e] at h
    exact_mod_cast h
  have ml : Measurable fun M : Matrix (Fin n) (Fin n) ℂ => star (M l) := by
    refine measurable_pi_iff.2 fun i => ?_
    exact Complex.continuous_conj.measurable.comp (measurable_entry measurable_id l i)
  refine ⟨⟨ml.comp_aemeasurable hU.measurable, Filter.Eventually.of_forall fun ω h0 => ?_, fun A hA B hB => ?_⟩, h1⟩
  · have := h1 ω
    rw [h0] at this
    simp at this
  · have e : ∀ ω, A *ᵥ star (U ω l) = star ((U ω * star A) l) := by
      intro ω
      funext i
      rw [Pi.star_apply, mul_apply, mulVec, dotProduct, star_sum]
      refine Finset.sum_congr rfl fun j _ => ?_
      rw [Pi.star_apply, star_mul', star_apply, star_star, mul_comm]
    simp only [e]
    exact hU.right (star A) (Unitary.star_mem hA) _ (ml hB)

/-- The last row of a Haar-random matrix has the moments of a Haar-random row. -/
theorem HaarRandom.moments {Ω : Type} [MeasurableSpace Ω] {Pr : Measure Ω} [IsProbabilityMeasure Pr] {n : ℕ} (hn : 2 ≤ n) {U : Ω → Matrix (Fin n) (Fin n) ℂ}
    (hU : HaarRandom Pr U) (l : Fin n) : HaarMoments Pr n fun ω => U ω l := by
  obtain ⟨binv, hb, hbm⟩ := exists_binv
  have hU01 : IsProbabilityMeasure uniform01 := ⟨by simp [uniform01]⟩
  have hprob : IsProbabilityMeasure (freshDraws (n - 1) n) := by
    unfold freshDraws; infer_instance
  have hc := C121_chain_haar_partial n hn binv hb
  have e : freshRow binv n false = drawnRow (fun k => binv ((tree n n false).getD k default).beta ((tree n n false).getD k default).alpha) n false := rfl
  rw [e] at hc
  have hm := measurable_drawnRow hn false (inv := fun k => binv ((tree n n false).getD k default).beta ((tree n n false).getD k default).alpha) fun q => hbm _ _
  have hd := hc.direction hm (norm_drawnRow hn false _)
  obtain ⟨d1, d2⟩ := hU.direction l
  have law := direction_unique hn d1 (Filter.Eventually.of_forall d2) hd (Filter.Eventually.of_forall fun w => by
    simp only [Pi.star_apply, norm_star]
    exact norm_drawnRow hn false _ w)
  intro a b
  rw [← hc a b]
  let F : (Fin n → ℂ) → ℂ := fun v => ∏ k, (conj (v k) ^ a k * v k ^ b k)
  have mF : Measurable F := by
    have h : Measurable fun v : Fin n → ℂ => ∏ k, (conj (v k) ^ a k * v k ^ b k) := by
      refine Finset.measurable_prod _ fun k _ => ?_
      exact ((Complex.continuous_conj.measurable.comp (measurable_pi_apply k)).pow_const _).mul ((measurable_pi_apply k).pow_const _)
    exact h
  have h := congrArg (fun μ => ∫ v, F v ∂μ) law
  simp only [integral_map d1.measurable mF.aestronglyMeasurable, integral_map hd.measurable mF.aestronglyMeasurable] at h
  simpa only [F, Pi.star_apply, star_def, Complex.conj_conj] using h

/-! ### The cascade under draws -/

/-- The matrix of the cascade whose nodes draw with the functions `inv`. -/
theorem cascade_matrix {n : ℕ} (hn : 2 ≤ n) (inv : ℕ → ℝ → ℝ) (x : Fin 3 × ℕ → ℝ) :
    (idealMesh (parts n true (n - 1) 0 0) .top).matrix n (drawnParams inv (fun k => (x (0, k), x (1, k))) fun r => x (2, r)) false = randomCasc n inv n 0 x := by
  have hM := cascade_mesh_wf hn
  have hn1 : n - 1 + 1 = n := by omega
  rw [Mesh.matrix_eq hM, if_neg (by decide)]
  have h3 := cascade_random n inv x (n - 1) 0 0 (by omega)
  rw [hn1] at h3
  rw [← h3]
  congr 1
  · congr 1
    funext i
    rw [if_pos (by have := i.isLt; omega)]
    rfl
  · rw [visitOrder_false]
    show blockProduct n _ (executionOrder (parts n true (n - 1) 0 0)) = _
    refine mulVec_ext fun v => ?_
    have hv : v = restrict n (extVec v) := by
      funext q
      simp [restrict, extVec]
    have hr : ∀ a ∈ parts n true (n - 1) 0 0, a.top < n ∧ a.bottom < n ∧ a.top ≠ a.bottom := hM.rails
    have a1 := restrict_seqApply (n := n) (el := (idealMesh (parts n true (n - 1) 0 0) .top).elements
        (drawnParams inv (fun k => (x (0, k), x (1, k))) fun r => x (2, r)) false)
      (executionOrder (parts n true (n - 1) 0 0)) (fun a ha => hr a ((executionOrder_perm _).mem_iff.1 ha)) (extVec v)
    have a2 := restrict_seqApply (n := n) (el := cascEl inv x) (execParts n true (n - 1) 0 0)
      (fun a ha => hr a ((execParts_perm n true (n - 1) 0 0).mem_iff.1 ha)) (extVec v)
    rw [hv]
    refine a1.symm.trans (Eq.trans ?_ a2)
    congr 1
    rw [← seqApply_parts _ n true (n - 1) 0 0 (by omega)]
    refine seqApply_congr (executionOrder (parts n true (n - 1) 0 0)) (fun a ha => ?_) _
    rw [ideal_elements]
    rfl

/-- The cascade set at random, as the product of its units with measurable draws. -/
theorem cascade_fresh {n : ℕ} (hn : 2 ≤ n) (binv : ℕ → ℕ → ℝ → ℝ) (x : Fin 3 × ℕ → ℝ) (hx : ∀ i, x i ∈ Icc (0 : ℝ) 1) :
    (idealMesh (parts n true (n - 1) 0 0) .top).matrix n
        (freshParams binv (parts n true (n - 1) 0 0) (fun k => (x (0, k), x (1, k))) fun r => x (2, r)) false =
      randomCasc n (fun q => clampInv binv ((parts n true (n - 1) 0 0).getD q default).beta ((parts n true (n - 1) 0 0).getD q default).alpha) n 0 x := by
  have hids := cascade_ids n
  have hpos := cascade_pos (n := n)
  have hlen : (parts n true (n - 1) 0 0).length = tri (n - 1) := by simpa using hids.length_eq
  have hM := cascade_mesh_wf hn
  rw [← cascade_matrix hn, matrix_setting hM hlen, matrix_setting hM hlen (drawnParams _ _ _)]
  congr 2
  refine Prod.ext (funext fun k => Prod.ext ?_ rfl) rfl
  have hk : k.val < (parts n true (n - 1) 0 0).length := by rw [hlen]; exact k.isLt
  have h := hpos _ (show (parts n true (n - 1) 0 0).getD k.val default ∈ parts n true (n - 1) 0 0 by
    rw [List.getD_eq_getElem?_getD, List.getElem?_eq_getElem hk]
    exact List.getElem_mem hk)
  simp only [settingOf, freshParams, drawnParams]
  rw [randTheta_ideal, randTheta_ideal, clampInv_eq binv h.2 h.1 (hx _)]

/-- The last row of the cascade is the row of its largest unit. -/
theorem cascade_lastRow (k : ℕ) (hk : 1 ≤ k) (binv : ℕ → ℕ → ℝ → ℝ) (x : Fin 3 × ℕ → ℝ) :
    randomCasc (k + 1) (fun q => clampInv binv ((parts (k + 1) true k 0 0).getD q default).beta ((parts (k + 1) true k 0 0).getD q default).alpha) (k + 1) 0 x
      ⟨k, Nat.lt_succ_self k⟩ = freshRow (clampInv binv) (k + 1) true (unitDraws k 0 x) := by
  set inv : ℕ → ℝ → ℝ := fun q => clampInv binv ((parts (k + 1) true k 0 0).getD q default).beta ((parts (k + 1) true k 0 0).getD q default).alpha with hinv
  have n2 : 2 ≤ k + 1 := by omega
  have row : randomCasc (k + 1) inv (k + 1) 0 x ⟨k, Nat.lt_succ_self k⟩ = drawnRow (fun q => inv (0 + q)) (k + 1) true (unitDraws k 0 x) := by
    funext i
    have h1 : randomCasc (k + 1) inv (k + 1) 0 x ⟨k, Nat.lt_succ_self k⟩ i = (randomCasc (k + 1) inv (k + 1) 0 x *ᵥ Pi.single i 1) ⟨k, Nat.lt_succ_self k⟩ := by
      rw [Matrix.mulVec_single_one]; rfl
    rw [h1, randomCasc, ← mulVec_mulVec, head_mulVec (randomCasc_head k (0 + k) (by omega) x) _ _ le_rfl, phasedUnit_row inv k 0 hk (Nat.lt_succ_self k),
      Finset.sum_eq_single i]
    · have : extVec (Pi.single i (1 : ℂ) : Fin (k + 1) → ℂ) i.val = 1 := by
        have := i.isLt
        simp [extVec]
        omega
      rw [this, mul_one]
    · intro j _ hj
      have : extVec (Pi.single i (1 : ℂ) : Fin (k + 1) → ℂ) j.val = 0 := by
        simp [extVec, hj]
      rw [this, mul_zero]
    · simp
  rw [row]
  have e : freshRow (clampInv binv) (k + 1) true = drawnRow (fun q => clampInv binv ((tree (k + 1) (k + 1) true).getD q default).beta
      ((tree (k + 1) (k + 1) true).getD q default).alpha) (k + 1) true := rfl
  rw [e]
  refine star_injective ?_
  rw [star_drawnRow n2, star_drawnRow n2]
  refine tipVec_congr n2 true (fun q hq => ?_) rfl
  have hq' : q < k := by omega
  have hl : q < (tree (k + 1) (k + 1) true).length := by rw [tree_length]; omega
  have hget : ((parts (k + 1) true k 0 0).getD q default).beta = ((tree (k + 1) (k + 1) true).getD q default).beta ∧
      ((parts (k + 1) true k 0 0).getD q default).alpha = ((tree (k + 1) (k + 1) true).getD q default).alpha := by
    obtain ⟨m, rfl⟩ : ∃ m, k = m + 1 := ⟨k - 1, by omega⟩
    rw [parts, subunitNodes_eq, List.getD_eq_getElem?_getD, List.getElem?_append_left (by rw [List.length_map]; exact hl), List.getElem?_map,
      List.getD_eq_getElem?_getD, List.getElem?_eq_getElem hl]
    exact ⟨rfl, rfl⟩
  simp only [paramsOf, drawnSetting, padFin, dif_pos hq, hinv, Nat.zero_add, hget.1, hget.2]
  exact ⟨trivial, trivial⟩

/-! ### The theorem -/

/-- C212: a balanced cascade (built by `tree_cascade(u)` for whatever `u`), set at random with `mesh.thetas = mesh.rand_theta()` and uniform external and output
phases, is a Haar-random unitary matrix if and only if it has at most three rails. -/
theorem C212_haar_iff {Ω : Type} [MeasurableSpace Ω] (Pr : Measure Ω) [IsProbabilityMeasure Pr] (eps : ℝ) (heps : 0 ≤ eps) (n : ℕ) (hn : 2 ≤ n)
    (u : Matrix (Fin n) (Fin n) ℂ) (hu : u ∈ unitaryGroup (Fin n) ℂ) (binv : ℕ → ℕ → ℝ → ℝ) (hb : IsBetaincinvFamily binv)
    (D : Fin 3 × ℕ → Ω → ℝ) (hD : UniformDraws Pr D) :
    ∃ M P, cascade eps .top 0 n true u = some (M, P) ∧
      ((HaarRandom Pr fun ω => M.matrix n (freshParams binv M.nodes (fun k => (D (0, k) ω, D (1, k) ω)) (fun r => D (2, r) ω)) false) ↔ n ≤ 3) := by
  obtain ⟨P, h1, h2, -⟩ := cascade_spec (Or.inl rfl) heps n hn true u hu
  refine ⟨_, P, h1, ?_⟩
  have hM := cascade_mesh_wf hn
  have hae : ∀ᵐ ω ∂Pr, ∀ i, D i ω ∈ Icc (0 : ℝ) 1 := ae_all_iff.2 fun i =>
    ae_draw hD (p := fun t => t ∈ Icc (0 : ℝ) 1) i ((ae_restrict_mem measurableSet_Ico).mono fun t ht => ⟨ht.1, ht.2.le⟩)
  set bt : ℕ → ℕ := fun q => ((parts n true (n - 1) 0 0).getD q default).beta with hbt
  set al : ℕ → ℕ := fun q => ((parts n true (n - 1) 0 0).getD q default).alpha with hal
  have hm : ∀ q, Measurable (randTheta (clampInv binv (bt q) (al q)) 0 0) := fun q => measurable_clampInv hb _ _
  have heq : ∀ᵐ ω ∂Pr, (idealMesh (parts n true (n - 1) 0 0) .top).matrix n (freshParams binv (parts n true (n - 1) 0 0)
      (fun k => (D (0, k) ω, D (1, k) ω)) (fun r => D (2, r) ω)) false = randomCasc n (fun q => clampInv binv (bt q) (al q)) n 0 fun i => D i ω := by
    filter_upwards [hae] with ω hω
    exact cascade_fresh hn binv (fun i => D i ω) hω
  have hW : Measurable fun ω => randomCasc n (fun q => clampInv binv (bt q) (al q)) n 0 fun i => D i ω := hD.comp _ (measurable_randomCasc hm n 0)
  constructor
  · intro hH
    by_contra hcon
    have hn4 : 4 ≤ n := by omega
    obtain ⟨k, rfl⟩ : ∃ k, n = k + 1 := ⟨n - 1, by omega⟩
    have hmom := HaarRandom.moments hn hH ⟨k, Nat.lt_succ_self k⟩
    refine C121_balanced_counterexample (k + 1) hn4 (clampInv binv) (clampInv_family hb) fun a b => ?_
    rw [← hmom a b]
    have hm2 : Measurable (freshRow (clampInv binv) (k + 1) true) := measurable_drawnRow hn true
      (inv := fun q => clampInv binv ((tree (k + 1) (k + 1) true).getD q default).beta ((tree (k + 1) (k + 1) true).getD q default).alpha)
      fun q => measurable_clampInv hb _ _
    have mF : Measurable fun w => ∏ i, (freshRow (clampInv binv) (k + 1) true w i ^ a i * conj (freshRow (clampInv binv) (k + 1) true w i) ^ b i) := by
      have h : Measurable fun w => ∏ i, (freshRow (clampInv binv) (k + 1) true w i ^ a i * conj (freshRow (clampInv binv) (k + 1) true w i) ^ b i) := by
        refine Finset.measurable_prod _ fun i _ => ?_
        exact ((measurable_pi_iff.1 hm2 i).pow_const _).mul ((Complex.continuous_conj.measurable.comp (measurable_pi_iff.1 hm2 i)).pow_const _)
      exact h
    have mun : Measurable fun ω => unitDraws k 0 fun i => D i ω :=
      (measurable_pi_iff.2 fun i => (hD.meas _).prodMk (hD.meas _)).prodMk (measurable_pi_iff.2 fun r => hD.meas _)
    have hfresh : Pr.map (fun ω => unitDraws k 0 fun i => D i ω) = freshDraws (k + 1 - 1) (k + 1) := draws_fresh hD 0 k (k + 1)
    rw [← hfresh, integral_map mun.aemeasurable mF.aestronglyMeasurable]
    refine integral_congr_ae (heq.mono fun ω hω => ?_)
    have h := cascade_lastRow k (by omega) binv fun i => D i ω
    have h3 := congrFun hω ⟨k, Nat.lt_succ_self k⟩
    have h4 := h3.trans h
    simp only
    refine Finset.prod_congr rfl fun i _ => ?_
    have h5 := congrFun h4 i
    rw [← h5]
    rfl
  · intro h3
    have hfair : CascFair bt al n 0 := by
      have hn1 : n - 1 + 1 = n := by omega
      have h := parts_fair n bt al (n - 1) 0 0 (by
        have : ∀ a ∈ parts n true (n - 1) 0 0, ((parts n true (n - 1) 0 0).getD a.id default).beta = a.beta ∧
            ((parts n true (n - 1) 0 0).getD a.id default).alpha = a.alpha := by
          clear * - hn h3
          interval_cases n <;> decide +kernel
        exact this)
      rwa [hn1] at h
    refine haar_of_right hW heq (fun ω => ?_) (randomCasc_inv hD (clampInv_family hb) hm n 0 le_rfl hfair)
    show (idealMesh (parts n true (n - 1) 0 0) .top).matrix n _ false ∈ _
    rw [Mesh.matrix_eq hM, if_neg (by decide)]
    refine mul_mem (gamma_unitary n _) (blockProduct_unitary (fun a ha => hM.rails a (mem_visitOrder.1 ha)) fun a _ => ?_)
    rw [ideal_elements]
    exact mziElements_unitary _ _ _ _ _ _

/-- C212, the hypotheses can be met: there are a `betaincinv` and independent uniform draws, for which the cascade is Haar-random on three rails and not on five. -/
theorem C212_case : ∃ (binv : ℕ → ℕ → ℝ → ℝ) (Ω : Type) (_ : MeasurableSpace Ω) (Pr : Measure Ω) (D : Fin 3 × ℕ → Ω → ℝ), IsBetaincinvFamily binv ∧
    UniformDraws Pr D ∧
    (∃ M P, cascade 0 .top 0 3 true 1 = some (M, P) ∧
      HaarRandom Pr fun ω => M.matrix 3 (freshParams binv M.nodes (fun k => (D (0, k) ω, D (1, k) ω)) (fun r => D (2, r) ω)) false) ∧
    ∃ M P, cascade 0 .top 0 5 true 1 = some (M, P) ∧
      ¬ HaarRandom Pr fun ω => M.matrix 5 (freshParams binv M.nodes (fun k => (D (0, k) ω, D (1, k) ω)) (fun r => D (2, r) ω)) false := by
  obtain ⟨binv, hb, -⟩ := exists_binv
  have hU01 : IsProbabilityMeasure uniform01 := ⟨by simp [uniform01]⟩
  have hD : UniformDraws (Measure.infinitePi fun _ : Fin 3 × ℕ => uniform01) (fun i ω => ω i) :=
    ⟨fun i => measurable_pi_apply i, fun i => Measure.infinitePi_map_eval _ i, iIndepFun_infinitePi (X := fun _ x => x) fun _ => measurable_id⟩
  refine ⟨binv, Fin 3 × ℕ → ℝ, inferInstance, Measure.infinitePi fun _ : Fin 3 × ℕ => uniform01, fun i ω => ω i, hb, hD, ?_, ?_⟩
  · obtain ⟨M, P, h1, h2⟩ := C212_haar_iff _ 0 le_rfl 3 (by norm_num) 1 (one_mem _) binv hb _ hD
    exact ⟨M, P, h1, h2.2 le_rfl⟩
  · obtain ⟨M, P, h1, h2⟩ := C212_haar_iff _ 0 le_rfl 5 (by norm_num) 1 (one_mem _) binv hb _ hD
    exact ⟨M, P, h1, fun h => absurd (h2.1 h) (by norm_num)⟩

end Simphox
