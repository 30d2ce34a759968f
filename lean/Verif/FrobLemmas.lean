import Verif.CouplingLemmas

/-! # Frobenius norm lemmas: an almost upper triangular unitary is almost diagonal -/

namespace Simphox

open Matrix Complex

/-- Squared Frobenius norm. -/
noncomputable def frobSq {n : ℕ} (A : Matrix (Fin n) (Fin n) ℂ) : ℝ := ∑ i, ∑ j, ‖A i j‖ ^ 2

theorem frobSq_conjTranspose {n : ℕ} (A : Matrix (Fin n) (Fin n) ℂ) : frobSq Aᴴ = frobSq A := by
  unfold frobSq
  rw [Finset.sum_comm]
  simp [conjTranspose_apply]

theorem frobSq_unitary_mul {n : ℕ} {U : Matrix (Fin n) (Fin n) ℂ} (hU : U ∈ unitaryGroup (Fin n) ℂ)
    (A : Matrix (Fin n) (Fin n) ℂ) : frobSq (U * A) = frobSq A := by
  unfold frobSq
  rw [Finset.sum_comm, Finset.sum_comm (f := fun i j => ‖A i j‖ ^ 2)]
  apply Finset.sum_congr rfl
  intro j _
  exact unitary_power hU (fun k => A k j)

theorem frobSq_mul_unitary {n : ℕ} {U : Matrix (Fin n) (Fin n) ℂ} (hU : U ∈ unitaryGroup (Fin n) ℂ)
    (A : Matrix (Fin n) (Fin n) ℂ) : frobSq (A * U) = frobSq A := by
  rw [← frobSq_conjTranspose, conjTranspose_mul, frobSq_unitary_mul, frobSq_conjTranspose]
  have := Unitary.star_mem hU
  rwa [star_eq_conjTranspose] at this

theorem unitary_col_norm {n : ℕ} {U : Matrix (Fin n) (Fin n) ℂ} (hU : U ∈ unitaryGroup (Fin n) ℂ) (j : Fin n) :
    ∑ i, ‖U i j‖ ^ 2 = 1 := by
  have h := unitary_power hU (Pi.single j 1)
  simp only [mulVec_single_one] at h
  rw [show (∑ i, ‖U i j‖ ^ 2) = ∑ i, ‖U.col j i‖ ^ 2 from rfl, h]
  simp [Pi.single_apply, apply_ite]

theorem unitary_row_norm {n : ℕ} {U : Matrix (Fin n) (Fin n) ℂ} (hU : U ∈ unitaryGroup (Fin n) ℂ) (i : Fin n) :
    ∑ j, ‖U i j‖ ^ 2 = 1 := by
  have hU' : Uᴴ ∈ unitaryGroup (Fin n) ℂ := by
    have := Unitary.star_mem hU
    rwa [star_eq_conjTranspose] at this
  have := unitary_col_norm hU' i
  simpa [conjTranspose_apply] using this

theorem sum_fin_cast (n : ℕ) : ∑ c : Fin n, (c.val : ℝ) = n * (n - 1) / 2 := by
  rw [Fin.sum_univ_eq_sum_range (fun c => (c : ℝ))]
  induction n with
  | zero => simp
  | succ n ih => rw [Finset.sum_range_succ, ih]; push_cast; ring

/-- Unitary, with nonnegative diagonal and almost no weight above the diagonal: almost the identity. -/
theorem near_identity {n : ℕ} {E : Matrix (Fin n) (Fin n) ℂ} (hE : E ∈ unitaryGroup (Fin n) ℂ) {eps : ℝ}
    (heps : 0 ≤ eps) (hdiag : ∀ i, ∃ x : ℝ, 0 ≤ x ∧ E i i = x)
    (hup : ∀ c : Fin n, ∑ r ∈ Finset.univ.filter (· < c), ‖E r c‖ ^ 2 ≤ c.val * eps) :
    frobSq (E - 1) ≤ n ^ 2 * (n - 1) * eps := by
  choose d hd0 hd using hdiag
  -- weight below and above the diagonal block
  have hblock : ∀ i : Fin n,
      ∑ c ∈ Finset.univ.filter (· ≤ i), ∑ r ∈ Finset.univ.filter (¬ · ≤ i), ‖E r c‖ ^ 2 =
      ∑ c ∈ Finset.univ.filter (¬ · ≤ i), ∑ r ∈ Finset.univ.filter (· ≤ i), ‖E r c‖ ^ 2 := by
    intro i
    have h1 : ∑ c ∈ Finset.univ.filter (· ≤ i), ∑ r, ‖E r c‖ ^ 2 =
        ∑ r ∈ Finset.univ.filter (· ≤ i), ∑ c, ‖E r c‖ ^ 2 := by
      rw [Finset.sum_congr rfl (fun c _ => unitary_col_norm hE c),
        Finset.sum_congr rfl (fun r _ => unitary_row_norm hE r)]
    have h2 : ∀ c, ∑ r, ‖E r c‖ ^ 2 = ∑ r ∈ Finset.univ.filter (· ≤ i), ‖E r c‖ ^ 2 +
        ∑ r ∈ Finset.univ.filter (¬ · ≤ i), ‖E r c‖ ^ 2 := fun c =>
      (Finset.sum_filter_add_sum_filter_not _ _ _).symm
    have h3 : ∀ r, ∑ c, ‖E r c‖ ^ 2 = ∑ c ∈ Finset.univ.filter (· ≤ i), ‖E r c‖ ^ 2 +
        ∑ c ∈ Finset.univ.filter (¬ · ≤ i), ‖E r c‖ ^ 2 := fun r =>
      (Finset.sum_filter_add_sum_filter_not _ _ _).symm
    rw [Finset.sum_congr rfl (fun c _ => h2 c), Finset.sum_congr rfl (fun r _ => h3 r),
      Finset.sum_add_distrib, Finset.sum_add_distrib] at h1
    have h4 := Finset.sum_comm (s := Finset.univ.filter (· ≤ i)) (t := Finset.univ.filter (· ≤ i))
      (f := fun c r => ‖E r c‖ ^ 2)
    have h5 := Finset.sum_comm (s := Finset.univ.filter (· ≤ i)) (t := Finset.univ.filter (¬ · ≤ i))
      (f := fun r c => ‖E r c‖ ^ 2)
    rw [← h5]
    linarith
  have key : ∀ i : Fin n, 1 - d i ^ 2 ≤ n * (n - 1) / 2 * eps := by
    intro i
    have hcol := unitary_col_norm hE i
    have hsplit : ∑ r, ‖E r i‖ ^ 2 = ∑ r ∈ Finset.univ.filter (· < i), ‖E r i‖ ^ 2 + ‖E i i‖ ^ 2 +
        ∑ r ∈ Finset.univ.filter (¬ · ≤ i), ‖E r i‖ ^ 2 := by
      rw [← Finset.sum_filter_add_sum_filter_not Finset.univ (· ≤ i)]
      congr 1
      have : (Finset.univ.filter (· ≤ i)) = insert i (Finset.univ.filter (· < i)) := by
        ext r; simp [le_iff_lt_or_eq, or_comm]
      rw [this, Finset.sum_insert (by simp)]; ring
    have hii : ‖E i i‖ ^ 2 = d i ^ 2 := by rw [hd i]; simp
    have hlow : ∑ r ∈ Finset.univ.filter (¬ · ≤ i), ‖E r i‖ ^ 2 ≤
        ∑ c ∈ Finset.univ.filter (¬ · ≤ i), (c.val : ℝ) * eps := by
      calc ∑ r ∈ Finset.univ.filter (¬ · ≤ i), ‖E r i‖ ^ 2
          ≤ ∑ c ∈ Finset.univ.filter (· ≤ i), ∑ r ∈ Finset.univ.filter (¬ · ≤ i), ‖E r c‖ ^ 2 :=
            Finset.single_le_sum (f := fun c => ∑ r ∈ Finset.univ.filter (¬ · ≤ i), ‖E r c‖ ^ 2)
              (fun c _ => Finset.sum_nonneg fun r _ => sq_nonneg _) (by simp)
        _ = _ := hblock i
        _ ≤ _ := by
            apply Finset.sum_le_sum
            intro c hc
            refine le_trans ?_ (hup c)
            apply Finset.sum_le_sum_of_subset_of_nonneg
            · intro r hr
              simp only [Finset.mem_filter, Finset.mem_univ, true_and, not_le] at hr hc ⊢
              exact lt_of_le_of_lt hr hc
            · intros; positivity
    have htot : (i.val : ℝ) * eps + ∑ c ∈ Finset.univ.filter (¬ · ≤ i), (c.val : ℝ) * eps ≤
        n * (n - 1) / 2 * eps := by
      rw [← sum_fin_cast, Finset.sum_mul, ← Finset.sum_filter_add_sum_filter_not Finset.univ (· ≤ i)]
      gcongr
      exact Finset.single_le_sum (f := fun c : Fin n => (c.val : ℝ) * eps) (fun c _ => by positivity) (by simp)
    have := hup i
    linarith
  have hd1 : ∀ i, d i ≤ 1 := by
    intro i
    have h1 : ‖E i i‖ ^ 2 ≤ 1 := by
      rw [← unitary_col_norm hE i]
      exact Finset.single_le_sum (f := fun r => ‖E r i‖ ^ 2) (fun _ _ => by positivity) (Finset.mem_univ i)
    have h2 : ‖E i i‖ = d i := by rw [hd i]; simp [abs_of_nonneg (hd0 i)]
    rw [h2] at h1
    nlinarith [hd0 i]
  have hfro : frobSq (E - 1) = 2 * ∑ i, (1 - d i) := by
    have hrow : ∀ i, ∑ j, ‖(E - 1) i j‖ ^ 2 = 2 * (1 - d i) := by
      intro i
      have h1 := unitary_row_norm hE i
      rw [← Finset.add_sum_erase _ _ (Finset.mem_univ i)] at h1 ⊢
      have h2 : ∑ j ∈ Finset.univ.erase i, ‖(E - 1) i j‖ ^ 2 = ∑ j ∈ Finset.univ.erase i, ‖E i j‖ ^ 2 := by
        apply Finset.sum_congr rfl
        intro j hj
        have : i ≠ j := (Finset.ne_of_mem_erase hj).symm
        simp [this]
      have h3 : ‖(E - 1) i i‖ ^ 2 = (1 - d i) ^ 2 := by
        rw [Matrix.sub_apply, hd i, Matrix.one_apply_eq, ← ofReal_one, ← ofReal_sub, norm_real, Real.norm_eq_abs, sq_abs]
        ring
      have h4 : ‖E i i‖ ^ 2 = d i ^ 2 := by rw [hd i]; simp
      rw [h2, h3]
      rw [h4] at h1
      linarith
    unfold frobSq
    rw [Finset.sum_congr rfl (fun i _ => hrow i), Finset.mul_sum]
  rw [hfro]
  have : ∑ i, (1 - d i) ≤ ∑ _i : Fin n, (n * (n - 1) / 2 * eps : ℝ) := by
    apply Finset.sum_le_sum
    intro i _
    refine le_trans ?_ (key i)
    nlinarith [hd0 i, hd1 i]
  rw [Finset.sum_const, Finset.card_univ, Fintype.card_fin, nsmul_eq_mul] at this
  nlinarith [this]

end Simphox
