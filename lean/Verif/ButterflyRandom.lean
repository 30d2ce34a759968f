import Verif.MeshSpread
import Verif.CascadeRandom
import Verif.ButterflyLimits

/-!
# Random butterfly meshes (C213)

The blocks of rank one in the matrices of a butterfly (C197) keep every random setting of a butterfly with four or more rails from being Haar-random. A butterfly
with two rails could be, but `rand_theta` draws its only phase with the indices 2, 2 (vector.py:70).
-/

namespace Simphox

open Matrix Complex MeasureTheory ProbabilityTheory Set

local notation "conj" => starRingEnd ℂ

/-! ### Exchanging rows and columns -/

theorem perm_unitary {n : ℕ} (σ : Equiv.Perm (Fin n)) : (1 : Matrix (Fin n) (Fin n) ℂ).submatrix σ id ∈ unitaryGroup (Fin n) ℂ := by
  rw [mem_unitaryGroup_iff]
  ext i j
  rw [mul_apply, one_apply]
  simp only [submatrix_apply, star_apply, one_apply, id]
  rw [Finset.sum_eq_single (σ i)]
  · rw [if_pos rfl, one_mul]
    by_cases h : i = j
    · subst h; simp
    · rw [if_neg h, if_neg (fun e => h (σ.injective e.symm))]
      simp
  · intro k _ hk
    rw [if_neg (fun e => hk e.symm), zero_mul]
  · simp

theorem perm_rows {n : ℕ} (σ : Equiv.Perm (Fin n)) (V : Matrix (Fin n) (Fin n) ℂ) (i j : Fin n) :
    ((1 : Matrix (Fin n) (Fin n) ℂ).submatrix σ id * V) i j = V (σ i) j := by
  rw [mul_apply]
  simp only [submatrix_apply, one_apply, id, ite_mul, one_mul, zero_mul, Finset.sum_ite_eq, Finset.mem_univ, if_true]

theorem perm_cols {n : ℕ} (τ : Equiv.Perm (Fin n)) (V : Matrix (Fin n) (Fin n) ℂ) (i j : Fin n) :
    (V * ((1 : Matrix (Fin n) (Fin n) ℂ).submatrix id τ)) i j = V i (τ j) := by
  rw [mul_apply]
  simp only [submatrix_apply, one_apply, id, mul_ite, mul_one, mul_zero, Finset.sum_ite_eq', Finset.mem_univ, if_true]

theorem perm_unitary' {n : ℕ} (τ : Equiv.Perm (Fin n)) : (1 : Matrix (Fin n) (Fin n) ℂ).submatrix id τ ∈ unitaryGroup (Fin n) ℂ := by
  have h := Unitary.star_mem (perm_unitary τ)
  convert h using 1
  ext i j
  simp only [submatrix_apply, star_apply, one_apply, id]
  by_cases e : i = τ j
  · rw [if_pos e, if_pos e.symm]; simp
  · rw [if_neg e, if_neg (Ne.symm e)]; simp

/-- A Haar-random matrix has no minor that vanishes with certainty. -/
theorem HaarRandom.minor {Ω : Type} [MeasurableSpace Ω] {Pr : Measure Ω} [IsProbabilityMeasure Pr] {n : ℕ} (hn : 2 ≤ n) {U : Ω → Matrix (Fin n) (Fin n) ℂ}
    (hU : HaarRandom Pr U) (i j a b : Fin n) (hij : i ≠ j) (hab : a ≠ b) : ¬ ∀ᵐ ω ∂Pr, U ω i a * U ω j b = U ω i b * U ω j a := by
  intro h
  let B : Set (Matrix (Fin n) (Fin n) ℂ) := {V | V i a * V j b = V i b * V j a}
  have hB : MeasurableSet B := measurableSet_eq_fun ((measurable_entry measurable_id i a).mul (measurable_entry measurable_id j b))
    ((measurable_entry measurable_id i b).mul (measurable_entry measurable_id j a))
  have mr : ∀ A : Matrix (Fin n) (Fin n) ℂ, Measurable fun M => M * A := fun A => measurable_mat_mul measurable_id measurable_const
  have all : ∀ r c : Fin n, r ≠ i → c ≠ a → ∀ᵐ ω ∂Pr, U ω i a * U ω r c = U ω i c * U ω r a := by
    intro r c hr hc
    have h0 : Pr {ω | U ω ∈ Bᶜ} = 0 := h
    have h1 := hU.right _ (perm_unitary' (Equiv.swap b c)) Bᶜ hB.compl
    have h2 := hU.left _ (perm_unitary (Equiv.swap j r)) ((fun M => M * (1 : Matrix (Fin n) (Fin n) ℂ).submatrix id (Equiv.swap b c)) ⁻¹' Bᶜ) (mr _ hB.compl)
    have h3 := h2.trans (h1.trans h0)
    have e1 : Equiv.swap j r i = i := Equiv.swap_apply_of_ne_of_ne hij (Ne.symm hr)
    have e2 : Equiv.swap b c a = a := Equiv.swap_apply_of_ne_of_ne hab (Ne.symm hc)
    refine measure_mono_null (fun ω hω => ?_) h3
    show (_ * U ω * _) ∉ B
    intro hmem
    have hmem' : ((1 : Matrix (Fin n) (Fin n) ℂ).submatrix (Equiv.swap j r) id * U ω * (1 : Matrix (Fin n) (Fin n) ℂ).submatrix id (Equiv.swap b c)) i a *
        ((1 : Matrix (Fin n) (Fin n) ℂ).submatrix (Equiv.swap j r) id * U ω * (1 : Matrix (Fin n) (Fin n) ℂ).submatrix id (Equiv.swap b c)) j b =
        ((1 : Matrix (Fin n) (Fin n) ℂ).submatrix (Equiv.swap j r) id * U ω * (1 : Matrix (Fin n) (Fin n) ℂ).submatrix id (Equiv.swap b c)) i b *
        ((1 : Matrix (Fin n) (Fin n) ℂ).submatrix (Equiv.swap j r) id * U ω * (1 : Matrix (Fin n) (Fin n) ℂ).submatrix id (Equiv.swap b c)) j a := hmem
    simp only [perm_cols, perm_rows, e1, e2, Equiv.swap_apply_left] at hmem'
    exact hω hmem'
  have hall : ∀ᵐ ω ∂Pr, ∀ r c : Fin n, r ≠ i → c ≠ a → U ω i a * U ω r c = U ω i c * U ω r a := by
    refine ae_all_iff.2 fun r => ae_all_iff.2 fun c => ?_
    by_cases hr : r = i
    · exact Filter.Eventually.of_forall fun ω h1 => absurd hr h1
    · by_cases hc : c = a
      · exact Filter.Eventually.of_forall fun ω _ h1 => absurd hc h1
      · exact (all r c hr hc).mono fun ω e _ _ => e
  have zero : ∀ᵐ ω ∂Pr, U ω i a = 0 := by
    filter_upwards [hall] with ω hω
    by_contra h0
    have row : ∀ c, U ω i a * U ω j c = U ω i c * U ω j a := by
      intro c
      by_cases hc : c = a
      · rw [hc]
      · exact hω j c (Ne.symm hij) hc
    have huu := mem_unitaryGroup_iff.1 (hU.unitary ω)
    have o1 : ∑ c, U ω j c * star (U ω i c) = 0 := by
      have := congrFun (congrFun huu j) i
      rw [mul_apply, one_apply_ne (Ne.symm hij)] at this
      simpa only [star_apply] using this
    have o2 : ∑ c, U ω i c * star (U ω i c) = 1 := by
      have := congrFun (congrFun huu i) i
      rw [mul_apply, one_apply_eq] at this
      simpa only [star_apply] using this
    have o3 : ∑ c, U ω j c * star (U ω j c) = 1 := by
      have := congrFun (congrFun huu j) j
      rw [mul_apply, one_apply_eq] at this
      simpa only [star_apply] using this
    have p1 : U ω j a = 0 := by
      have : U ω i a * ∑ c, U ω j c * star (U ω i c) = U ω j a * ∑ c, U ω i c * star (U ω i c) := by
        rw [Finset.mul_sum, Finset.mul_sum]
        refine Finset.sum_congr rfl fun c _ => ?_
        rw [← mul_assoc, row c]
        ring
      rw [o1, o2, mul_zero, mul_one] at this
      exact this.symm
    have p2 : ∀ c, U ω j c = 0 := by
      intro c
      have := row c
      rw [p1, mul_zero] at this
      exact (mul_eq_zero.1 this).resolve_left h0
    simp [p2] at o3
  have hm := (HaarRandom.moments hn hU i).mean a
  have e : ∫ ω, U ω i a * conj (U ω i a) ∂Pr = 0 := by
    rw [integral_congr_ae (zero.mono fun ω e => by rw [e, zero_mul] : _ =ᵐ[Pr] fun _ => (0 : ℂ)), integral_zero]
  rw [e] at hm
  have : (n : ℂ) ≠ 0 := by exact_mod_cast (by omega : n ≠ 0)
  exact one_div_ne_zero this hm.symm

/-! ### Butterfly meshes -/

/-- C213: however the phases (and the errors, losses and style) of a butterfly mesh with four or more rails are drawn, its matrix is not Haar-random. -/
theorem C213_never_haar {Ω : Type} [MeasurableSpace Ω] (Pr : Measure Ω) [IsProbabilityMeasure Pr] (k : ℕ) (hk : 2 ≤ k) (M : Ω → Mesh)
    (hM : ∀ ω, (M ω).nodes = butterfly (2 ^ k) (2 ^ k)) (P : Ω → Params) : ¬ HaarRandom Pr fun ω => (M ω).matrix (2 ^ k) (P ω) false := by
  intro hH
  have h4 : 4 ≤ 2 ^ k := by
    calc 4 = 2 ^ 2 := by norm_num
      _ ≤ 2 ^ k := Nat.pow_le_pow_right (by norm_num) hk
  refine HaarRandom.minor (by omega) hH ⟨0, by omega⟩ ⟨2, by omega⟩ ⟨0, by omega⟩ ⟨1, by omega⟩ (by simp) (by simp) (Filter.Eventually.of_forall fun ω => ?_)
  exact C197_rank_one k (by omega) (M ω) (hM ω) (P ω) 1 ⟨0, by omega⟩ ⟨2, by omega⟩ ⟨0, by omega⟩ ⟨1, by omega⟩ (by simp) (by simp)

theorem butterfly_wf {k : ℕ} (hk : 1 ≤ k) (style : PhaseStyle) : (idealMesh (butterfly (2 ^ k) (2 ^ k)) style).WellFormed (2 ^ k) := by
  obtain ⟨h1, hids, hnc, hr, hu⟩ := C24_butterfly k hk
  refine ⟨by simp [idealMesh], by simp [idealMesh], ?_, ?_, ?_⟩
  · intro a ha
    have : a.id ∈ (butterfly (2 ^ k) (2 ^ k)).map Node.id := List.mem_map_of_mem ha
    rw [hids, List.mem_range] at this
    show a.id < (butterfly (2 ^ k) (2 ^ k)).length
    rw [h1]
    exact this
  · intro a ha
    have h2 := hr a ha
    have h3 := Nat.two_pow_pos a.column
    omega
  · exact (C24_any_size (2 ^ k) (2 ^ k)).2.2

/-- The matrix of the butterfly with two rails is that of the tree with two rails. -/
theorem butterfly_two (P : Params) : (idealMesh (butterfly 2 2) .top).matrix 2 P false = (idealMesh (tree 2 2 true) .top).matrix 2 P false := by
  have hM := tree_wellFormed 2 le_rfl true .top
  have e1 : butterfly 2 2 = [{ id := 0, top := 0, bottom := 1, n := 2, alpha := 2, beta := 2, column := 0 }] := by decide +kernel
  have e2 : tree 2 2 true = [{ id := 0, top := 0, bottom := 1, n := 2, alpha := 1, beta := 1, column := 0 }] := by decide +kernel
  have e3 : executionOrder (butterfly 2 2) = butterfly 2 2 := by decide +kernel
  have e4 : executionOrder (tree 2 2 true) = tree 2 2 true := by decide +kernel
  have hB := butterfly_wf (k := 1) le_rfl .top
  rw [pow_one] at hB
  rw [Mesh.matrix_eq hB, Mesh.matrix_eq hM, if_neg (by decide), if_neg (by decide), visitOrder_false, visitOrder_false]
  congr 1
  show blockProduct 2 _ (executionOrder (butterfly 2 2)) = blockProduct 2 _ (executionOrder (tree 2 2 true))
  rw [e3, e4]
  unfold blockProduct
  rw [e1, e2]
  simp only [List.map_cons, List.map_nil]
  rw [ideal_elements, ideal_elements]

/-- C213: in particular a butterfly set at random with `mesh.thetas = mesh.rand_theta()` and uniform external and output phases is not Haar-random, whatever its size. -/
theorem C213_fresh {Ω : Type} [MeasurableSpace Ω] (Pr : Measure Ω) [IsProbabilityMeasure Pr] (k : ℕ) (hk : 1 ≤ k) (binv : ℕ → ℕ → ℝ → ℝ)
    (hb : IsBetaincinvFamily binv) (D : Fin 3 × ℕ → Ω → ℝ) (hD : UniformDraws Pr D) :
    ¬ HaarRandom Pr fun ω => (idealMesh (butterfly (2 ^ k) (2 ^ k)) .top).matrix (2 ^ k)
      (freshParams binv (butterfly (2 ^ k) (2 ^ k)) (fun k => (D (0, k) ω, D (1, k) ω)) (fun r => D (2, r) ω)) false := by
  rcases Nat.lt_or_ge 1 k with hk2 | hk1
  · exact C213_never_haar Pr k hk2 (fun _ => idealMesh (butterfly (2 ^ k) (2 ^ k)) .top) (fun _ => rfl) _
  obtain rfl : k = 1 := by omega
  rw [pow_one]
  intro hH
  have hm := HaarRandom.moments le_rfl hH 1 (fun i => if i = 0 then 2 else 0) (fun i => if i = 0 then 2 else 0)
  have hae : ∀ᵐ ω ∂Pr, ∀ i, D i ω ∈ Icc (0 : ℝ) 1 := ae_all_iff.2 fun i =>
    ae_draw hD (p := fun t => t ∈ Icc (0 : ℝ) 1) i ((ae_restrict_mem measurableSet_Ico).mono fun t ht => ⟨ht.1, ht.2.le⟩)
  have e1 : butterfly 2 2 = [{ id := 0, top := 0, bottom := 1, n := 2, alpha := 2, beta := 2, column := 0 }] := by decide +kernel
  let inv : ℕ → ℝ → ℝ := fun _ => clampInv binv 2 2
  have row : ∀ ω, (∀ i, D i ω ∈ Icc (0 : ℝ) 1) → (idealMesh (butterfly 2 2) .top).matrix 2
      (freshParams binv (butterfly 2 2) (fun k => (D (0, k) ω, D (1, k) ω)) (fun r => D (2, r) ω)) false 1 =
      drawnRow inv 2 true (unitDraws 1 0 fun i => D i ω) := by
    intro ω hω
    rw [butterfly_two]
    refine star_injective ?_
    rw [star_drawnRow le_rfl]
    have t : star ((idealMesh (tree 2 2 true) .top).matrix 2 (freshParams binv (butterfly 2 2) (fun k => (D (0, k) ω, D (1, k) ω)) (fun r => D (2, r) ω)) false 1) =
        tipVec 2 true (freshParams binv (butterfly 2 2) (fun k => (D (0, k) ω, D (1, k) ω)) (fun r => D (2, r) ω)) := rfl
    rw [t]
    refine tipVec_congr le_rfl true (fun q hq => ?_) ?_
    · obtain rfl : q = 0 := by omega
      simp only [freshParams, paramsOf, drawnSetting, padFin, unitDraws, e1, inv]
      rw [dif_pos (by norm_num)]
      refine ⟨?_, rfl⟩
      show randTheta (binv 2 2) 0 0 (D (0, 0) ω) = randTheta (clampInv binv 2 2) 0 0 (D (0, 0) ω)
      rw [randTheta_ideal, randTheta_ideal, clampInv_eq binv (by norm_num) (by norm_num) (hω _)]
    · rfl
  have mun : Measurable fun ω => unitDraws 1 0 fun i => D i ω :=
    (measurable_pi_iff.2 fun i => (hD.meas _).prodMk (hD.meas _)).prodMk (measurable_pi_iff.2 fun r => hD.meas _)
  have hfresh : Pr.map (fun ω => unitDraws 1 0 fun i => D i ω) = freshDraws (2 - 1) 2 := draws_fresh hD 0 1 2
  have hm2 : Measurable (drawnRow inv 2 true) := measurable_drawnRow le_rfl true fun q => measurable_clampInv hb _ _
  let a : ℕ → ℕ := fun i => if i = 0 then 2 else 0
  have val := drawn_moment_val le_rfl (clampInv_family hb) true (fun _ => 2) (fun _ => 2) (fun _ _ => ⟨by norm_num, by norm_num⟩) a a
  rw [if_pos fun _ _ => rfl] at val
  have hs : shape 2 true = .node .leaf .leaf := by simp [shape, shapeB]
  have hv : momentVal (fun _ => 2) (fun _ => 2) a (shape 2 true) 0 = 3 / 10 := by
    rw [hs]
    have g2 : Real.Gamma 2 = 1 := by
      have := Real.Gamma_nat_eq_factorial 1
      norm_num at this ⊢
    have g4 : Real.Gamma 4 = 6 := by
      have := Real.Gamma_nat_eq_factorial 3
      norm_num [Nat.factorial] at this ⊢
    have g6 : Real.Gamma 6 = 120 := by
      have := Real.Gamma_nat_eq_factorial 5
      norm_num [Nat.factorial] at this ⊢
    norm_num [momentVal, tot, BT.size, a, beta, g2, g4, g6]
  rw [hv] at val
  have mF : Measurable fun w => ∏ i : Fin 2, (drawnRow inv 2 true w i ^ a i * conj (drawnRow inv 2 true w i) ^ a i) := by
    have h : Measurable fun w => ∏ i : Fin 2, (drawnRow inv 2 true w i ^ a i * conj (drawnRow inv 2 true w i) ^ a i) := by
      refine Finset.measurable_prod _ fun i _ => ?_
      exact ((measurable_pi_iff.1 hm2 i).pow_const _).mul ((Complex.continuous_conj.measurable.comp (measurable_pi_iff.1 hm2 i)).pow_const _)
    exact h
  rw [← hfresh, integral_map mun.aemeasurable mF.aestronglyMeasurable] at val
  have same : ∫ ω, ∏ i : Fin 2, ((idealMesh (butterfly 2 2) .top).matrix 2
      (freshParams binv (butterfly 2 2) (fun k => (D (0, k) ω, D (1, k) ω)) (fun r => D (2, r) ω)) false 1 i ^ a i *
      conj ((idealMesh (butterfly 2 2) .top).matrix 2
      (freshParams binv (butterfly 2 2) (fun k => (D (0, k) ω, D (1, k) ω)) (fun r => D (2, r) ω)) false 1 i) ^ a i) ∂Pr =
      ∫ ω, ∏ i : Fin 2, (drawnRow inv 2 true (unitDraws 1 0 fun i => D i ω) i ^ a i * conj (drawnRow inv 2 true (unitDraws 1 0 fun i => D i ω) i) ^ a i) ∂Pr := by
    refine integral_congr_ae (hae.mono fun ω hω => ?_)
    simp only [row ω hω]
  have hmA : ∫ ω, ∏ i : Fin 2, ((idealMesh (butterfly 2 2) .top).matrix 2
      (freshParams binv (butterfly 2 2) (fun k => (D (0, k) ω, D (1, k) ω)) (fun r => D (2, r) ω)) false 1 i ^ a i *
      conj ((idealMesh (butterfly 2 2) .top).matrix 2
      (freshParams binv (butterfly 2 2) (fun k => (D (0, k) ω, D (1, k) ω)) (fun r => D (2, r) ω)) false 1 i) ^ a i) ∂Pr = 1 / 3 := by
    simp only [Fin.prod_univ_two, Fin.sum_univ_two] at hm ⊢
    norm_num [a, Nat.factorial] at hm ⊢
    exact hm
  rw [same] at hmA
  have := hmA.symm.trans val
  norm_num at this

theorem ideal_unitary {n : ℕ} {nodes : List Node} (hM : (idealMesh nodes .top).WellFormed n) (P : Params) :
    (idealMesh nodes .top).matrix n P false ∈ unitaryGroup (Fin n) ℂ := by
  rw [Mesh.matrix_eq hM, if_neg (by decide)]
  refine mul_mem (gamma_unitary n _) (blockProduct_unitary (fun a ha => hM.rails a (mem_visitOrder.1 ha)) fun a _ => ?_)
  rw [ideal_elements]
  exact mziElements_unitary _ _ _ _ _ _

/-- C213, the laws are about real devices: the ideal butterfly is unitary for every parameter table, so for every draw. -/
theorem C213_unitary (k : ℕ) (hk : 1 ≤ k) (P : Params) :
    (idealMesh (butterfly (2 ^ k) (2 ^ k)) .top).matrix (2 ^ k) P false ∈ unitaryGroup (Fin (2 ^ k)) ℂ :=
  ideal_unitary (butterfly_wf hk .top) P

/-- C213, the hypotheses can be met: there are a `betaincinv` and independent uniform draws. -/
theorem C213_case : ∃ (binv : ℕ → ℕ → ℝ → ℝ) (Ω : Type) (_ : MeasurableSpace Ω) (Pr : Measure Ω) (D : Fin 3 × ℕ → Ω → ℝ),
    IsProbabilityMeasure Pr ∧ IsBetaincinvFamily binv ∧ UniformDraws Pr D := by
  obtain ⟨binv, hb, -⟩ := exists_binv
  have hU01 : IsProbabilityMeasure uniform01 := ⟨by simp [uniform01]⟩
  have hD : UniformDraws (Measure.infinitePi fun _ : Fin 3 × ℕ => uniform01) (fun i ω => ω i) :=
    ⟨fun i => measurable_pi_apply i, fun i => Measure.infinitePi_map_eval _ i, iIndepFun_infinitePi (X := fun _ x => x) fun _ => measurable_id⟩
  exact ⟨binv, Fin 3 × ℕ → ℝ, inferInstance, Measure.infinitePi fun _ : Fin 3 × ℕ => uniform01, fun i ω => ω i, inferInstance, hb, hD⟩

end Simphox
