import Verif.MatrixDecomp
import Mathlib.Analysis.Complex.Norm

/-!
# C27: the Dirichlet matrix
-/

namespace Simphox
open Matrix Complex

theorem dirY_nonneg {n : ℕ} (v : Fin n → ℂ) (i : ℕ) : 0 ≤ dirY v i := by
  unfold dirY; split_ifs <;> positivity

theorem dirSum_pos {n : ℕ} {v : Fin n → ℂ} (h0 : 0 < dirY v 0) (i : ℕ) : 0 < dirSum v i := by
  unfold dirSum
  refine lt_of_lt_of_le h0 (Finset.single_le_sum (f := dirY v) (fun k _ => dirY_nonneg v k) ?_)
  simp

theorem dirSum_succ {n : ℕ} (v : Fin n → ℂ) (i : ℕ) : dirSum v (i + 1) = dirSum v i + dirY v (i + 1) := by
  unfold dirSum; rw [Finset.sum_range_succ]

/-- amplitude -/
noncomputable def dirA {n : ℕ} (v : Fin n → ℂ) (i : ℕ) : ℝ := Real.sqrt (dirY v i)

theorem dirA_sq {n : ℕ} (v : Fin n → ℂ) (i : ℕ) : dirA v i * dirA v i = dirY v i :=
  Real.mul_self_sqrt (dirY_nonneg v i)

theorem dirA_fin {n : ℕ} (v : Fin n → ℂ) (i : Fin n) : dirA v i = ‖v i‖ := by
  unfold dirA dirY
  simp

theorem dirDen_sq {n : ℕ} {v : Fin n → ℂ} (h0 : 0 < dirY v 0) (i : ℕ) :
    dirDen v i * dirDen v i * (dirSum v i * dirSum v (i + 1)) = 1 := by
  have h : 0 < dirSum v i * dirSum v (i + 1) := mul_pos (dirSum_pos h0 _) (dirSum_pos h0 _)
  unfold dirDen
  rw [div_mul_div_comm, Real.mul_self_sqrt h.le, one_mul, one_div, inv_mul_cancel₀ h.ne']

theorem dirRaw_zero {n : ℕ} (v : Fin n → ℂ) (j : ℕ) :
    dirRaw v 0 j = dirA v j / Real.sqrt (dirSum v (n - 1)) := by
  unfold dirRaw dirA
  rw [if_pos rfl, Real.sqrt_div (dirY_nonneg v j)]

/-- pairing of a lower row with any vector -/
theorem dirRaw_sum {n : ℕ} (v : Fin n → ℂ) {i : ℕ} (hi : i + 1 < n) (f : ℕ → ℝ) :
    ∑ j ∈ Finset.range n, dirRaw v (i + 1) j * f j =
      dirDen v i * (dirA v (i + 1) * ∑ j ∈ Finset.range (i + 1), dirA v j * f j - dirSum v i * f (i + 1)) := by
  have hs : Finset.range (i + 1 + 1) ⊆ Finset.range n := by
    intro x hx; simp only [Finset.mem_range] at hx ⊢; omega
  rw [← Finset.sum_subset hs, Finset.sum_range_succ]
  · have h1 : dirRaw v (i + 1) (i + 1) = -dirSum v i * dirDen v i := by
      simp [dirRaw]
    have h2 : ∀ j ∈ Finset.range (i + 1), dirRaw v (i + 1) j * f j =
        dirDen v i * (dirA v (i + 1) * (dirA v j * f j)) := by
      intro j hj
      have hj' := Finset.mem_range.1 hj
      simp only [dirRaw, Nat.succ_ne_zero, if_false, hj', if_true, Nat.add_sub_cancel]
      rw [Real.sqrt_mul (dirY_nonneg _ _)]
      simp only [dirA]; ring
    rw [Finset.sum_congr rfl h2, h1, ← Finset.mul_sum, ← Finset.mul_sum]
    ring
  · intro j _ hj
    have : ¬ j < i + 1 := by simp only [Finset.mem_range] at hj; omega
    have h' : j ≠ i + 1 := by rintro rfl; simp at hj
    simp [dirRaw, this, h']

theorem dirSum_eq {n : ℕ} (v : Fin n → ℂ) (i : ℕ) : ∑ j ∈ Finset.range (i + 1), dirA v j * dirA v j = dirSum v i := by
  unfold dirSum
  exact Finset.sum_congr rfl fun j _ => dirA_sq v j

theorem dirRaw_ortho {n : ℕ} {v : Fin n → ℂ} {i k : ℕ} (hi : i < n) (hk : k < n) (hik : k < i) :
    ∑ j ∈ Finset.range n, dirRaw v i j * dirRaw v k j = 0 := by
  obtain ⟨i, rfl⟩ : ∃ i', i = i' + 1 := ⟨i - 1, by omega⟩
  rw [dirRaw_sum v hi]
  rcases k with _ | k
  · simp only [dirRaw_zero]
    have : ∀ j ∈ Finset.range (i + 1), dirA v j * (dirA v j / Real.sqrt (dirSum v (n - 1))) =
        (dirA v j * dirA v j) * (1 / Real.sqrt (dirSum v (n - 1))) := fun j _ => by ring
    rw [Finset.sum_congr rfl this, ← Finset.sum_mul, dirSum_eq]
    ring
  · have hz : dirRaw v (k + 1) (i + 1) = 0 := by
      have h1 : ¬ (i + 1 < k + 1) := by omega
      have h2 : i + 1 ≠ k + 1 := by omega
      simp only [dirRaw, Nat.succ_ne_zero, if_false, h1, h2]
    rw [hz]
    have hs : ∑ j ∈ Finset.range (i + 1), dirA v j * dirRaw v (k + 1) j =
        ∑ j ∈ Finset.range n, dirRaw v (k + 1) j * dirA v j := by
      have hs' : Finset.range (i + 1) ⊆ Finset.range n := by
        intro x hx; simp only [Finset.mem_range] at hx ⊢; omega
      rw [← Finset.sum_subset hs']
      · exact Finset.sum_congr rfl fun j _ => mul_comm _ _
      · intro j _ hj
        have h1 : ¬ (j < k + 1) := by simp only [Finset.mem_range] at hj; omega
        have h2 : j ≠ k + 1 := by simp only [Finset.mem_range] at hj; omega
        simp only [dirRaw, Nat.succ_ne_zero, if_false, h1, h2, zero_mul]
    rw [hs, dirRaw_sum v hk, dirSum_eq]
    ring

theorem dirRaw_norm {n : ℕ} {v : Fin n → ℂ} (h0 : 0 < dirY v 0) {i : ℕ} (hi : i < n) :
    ∑ j ∈ Finset.range n, dirRaw v i j * dirRaw v i j = 1 := by
  rcases i with _ | i
  · simp only [dirRaw_zero]
    have hS := dirSum_pos h0 (n - 1)
    have : ∀ j ∈ Finset.range n, dirA v j / Real.sqrt (dirSum v (n - 1)) * (dirA v j / Real.sqrt (dirSum v (n - 1))) =
        (dirA v j * dirA v j) * (1 / dirSum v (n - 1)) := fun j _ => by
      rw [div_mul_div_comm, Real.mul_self_sqrt hS.le]; ring
    rw [Finset.sum_congr rfl this, ← Finset.sum_mul]
    have hn : n = n - 1 + 1 := by omega
    have hd := dirSum_eq v (n - 1)
    rw [← hn] at hd
    rw [hd, mul_one_div, div_self hS.ne']
  · rw [dirRaw_sum v hi]
    have h1 : dirRaw v (i + 1) (i + 1) = -dirSum v i * dirDen v i := by simp [dirRaw]
    have h2 : ∀ j ∈ Finset.range (i + 1), dirA v j * dirRaw v (i + 1) j =
        dirDen v i * dirA v (i + 1) * (dirA v j * dirA v j) := by
      intro j hj
      have hj' := Finset.mem_range.1 hj
      simp only [dirRaw, Nat.succ_ne_zero, if_false, hj', if_true, Nat.add_sub_cancel]
      rw [Real.sqrt_mul (dirY_nonneg _ _)]
      simp only [dirA]; ring
    rw [Finset.sum_congr rfl h2, ← Finset.mul_sum, dirSum_eq, h1]
    have e := dirDen_sq h0 i
    rw [dirSum_succ] at e
    have a := dirA_sq v (i + 1)
    calc _ = dirDen v i * dirDen v i * (dirSum v i * (dirSum v i + dirA v (i + 1) * dirA v (i + 1))) := by ring
      _ = 1 := by rw [a, e]

theorem dirRaw_rows {n : ℕ} {v : Fin n → ℂ} (h0 : 0 < dirY v 0) {i k : ℕ} (hi : i < n) (hk : k < n) :
    ∑ j : Fin n, dirRaw v i j * dirRaw v k j = if i = k then 1 else 0 := by
  rw [Fin.sum_univ_eq_sum_range (fun j => dirRaw v i j * dirRaw v k j)]
  split_ifs with h
  · subst h; exact dirRaw_norm h0 hi
  · rcases Nat.lt_or_gt_of_ne h with h | h
    · rw [← dirRaw_ortho hk hi h]
      exact Finset.sum_congr rfl fun j _ => mul_comm _ _
    · exact dirRaw_ortho hi hk h

theorem dirichlet_defined {n : ℕ} {v : Fin n → ℂ} (h0 : 0 < dirY v 0) : dirichletMatrix v =
    some (Matrix.of fun i j => (dirRaw v ((j.val + 1) % n) i.val : ℂ) * exp (-I * arg (v i))) := by
  unfold dirichletMatrix
  rw [if_pos]
  exact ⟨fun i _ => (mul_pos (dirSum_pos h0 _) (dirSum_pos h0 _)).ne', (dirSum_pos h0 _).ne'⟩

theorem dirY_zero_pos {n : ℕ} (hn : 0 < n) {v : Fin n → ℂ} (h : v ⟨0, hn⟩ ≠ 0) : 0 < dirY v 0 := by
  unfold dirY; rw [dif_pos hn]; positivity

theorem mod_succ_inj {n : ℕ} {j k : Fin n} (h : (j.val + 1) % n = (k.val + 1) % n) : j = k := by
  have hj := j.2
  have hk := k.2
  apply Fin.ext
  rcases Nat.lt_or_ge (j.val + 1) n with h1 | h1 <;> rcases Nat.lt_or_ge (k.val + 1) n with h2 | h2
  · rw [Nat.mod_eq_of_lt h1, Nat.mod_eq_of_lt h2] at h; omega
  · have e : k.val + 1 = n := by omega
    rw [Nat.mod_eq_of_lt h1, e, Nat.mod_self] at h; omega
  · have e : j.val + 1 = n := by omega
    rw [Nat.mod_eq_of_lt h2, e, Nat.mod_self] at h; omega
  · omega

theorem phase_unit (x : ℝ) : (starRingEnd ℂ) (exp (-I * x)) * exp (-I * x) = 1 := by
  rw [← exp_conj, ← exp_add]
  simp

theorem dirRaw_unitary {n : ℕ} {v : Fin n → ℂ} (h0 : 0 < dirY v 0) :
    (Matrix.of fun i j : Fin n => (dirRaw v ((j.val + 1) % n) i.val : ℂ) * exp (-I * arg (v i))) ∈
      unitaryGroup (Fin n) ℂ := by
  rw [mem_unitaryGroup_iff']
  ext j k
  have hn : 0 < n := lt_of_le_of_lt (Nat.zero_le _) j.2
  rw [Matrix.mul_apply, Matrix.one_apply]
  have : ∀ i : Fin n, (star (Matrix.of fun i j : Fin n => (dirRaw v ((j.val + 1) % n) i.val : ℂ) * exp (-I * arg (v i)))) j i *
      (Matrix.of fun i j : Fin n => (dirRaw v ((j.val + 1) % n) i.val : ℂ) * exp (-I * arg (v i))) i k =
      ((dirRaw v ((j.val + 1) % n) i.val * dirRaw v ((k.val + 1) % n) i.val : ℝ) : ℂ) := by
    intro i
    simp only [star_apply, of_apply, star_mul', RCLike.star_def, conj_ofReal]
    have := phase_unit (arg (v i))
    calc _ = (dirRaw v ((j.val + 1) % n) i.val : ℂ) * dirRaw v ((k.val + 1) % n) i.val *
          ((starRingEnd ℂ) (exp (-I * arg (v i))) * exp (-I * arg (v i))) := by ring
      _ = _ := by rw [this]; push_cast; ring
  rw [Finset.sum_congr rfl fun i _ => this i, ← ofReal_sum, dirRaw_rows h0 (Nat.mod_lt _ hn) (Nat.mod_lt _ hn)]
  by_cases h : j = k
  · subst h; simp
  · rw [if_neg h, if_neg fun e => h (mod_succ_inj e)]; simp

/-- **C27.** `dirichlet_matrix(v)` is unitary whenever the first entry of `v` is not zero (other entries may vanish). -/
theorem C27_unitary {n : ℕ} (hn : 0 < n) (v : Fin n → ℂ) (h : v ⟨0, hn⟩ ≠ 0) :
    ∃ m, dirichletMatrix v = some m ∧ m ∈ unitaryGroup (Fin n) ℂ :=
  ⟨_, dirichlet_defined (dirY_zero_pos hn h), dirRaw_unitary (dirY_zero_pos hn h)⟩

/-- **C27.** If the first entry of `v` is zero, the result contains `nan`. -/
theorem C27_defined_iff {n : ℕ} (hn : 0 < n) (v : Fin n → ℂ) :
    (dirichletMatrix v).isSome ↔ v ⟨0, hn⟩ ≠ 0 := by
  constructor
  · intro h hz
    unfold dirichletMatrix at h
    rw [if_neg] at h
    · simp at h
    · rintro ⟨h1, h2⟩
      have hd : dirSum v 0 = 0 := by simp [dirSum, dirY, hn, hz]
      rcases Nat.lt_or_ge 0 (n - 1) with h3 | h3
      · exact h1 0 h3 (by rw [hd, zero_mul])
      · rw [show n - 1 = 0 by omega] at h2; exact h2 hd
  · intro h
    obtain ⟨m, hm, _⟩ := C27_unitary hn v h
    simp [hm]

theorem norm_mul_phase (z : ℂ) : (‖z‖ : ℂ) * exp (-I * arg z) = (starRingEnd ℂ) z := by
  conv_rhs => rw [← norm_mul_exp_arg_mul_I z]
  rw [map_mul, conj_ofReal, ← exp_conj]
  congr 2
  simp [mul_comm]

theorem dirSum_last {n : ℕ} (hn : 0 < n) (v : Fin n → ℂ) : dirSum v (n - 1) = ∑ i, ‖v i‖ ^ 2 := by
  unfold dirSum
  rw [show n - 1 + 1 = n by omega, ← Fin.sum_univ_eq_sum_range]
  refine Finset.sum_congr rfl fun i _ => ?_
  simp [dirY]

/-- **C27.** The last column holds the conjugated entries of `v`, normalised. -/
theorem C27_last_column {n : ℕ} (hn : 0 < n) (v : Fin n → ℂ) (m : Matrix (Fin n) (Fin n) ℂ)
    (h : dirichletMatrix v = some m) (i : Fin n) :
    m i ⟨n - 1, by omega⟩ = (starRingEnd ℂ) (v i) / (Real.sqrt (∑ k, ‖v k‖ ^ 2) : ℝ) := by
  have h0 : v ⟨0, hn⟩ ≠ 0 := (C27_defined_iff hn v).1 (by simp [h])
  rw [dirichlet_defined (dirY_zero_pos hn h0)] at h
  obtain rfl := Option.some.inj h
  simp only [of_apply]
  rw [show n - 1 + 1 = n by omega, Nat.mod_self, dirRaw_zero, dirSum_last hn, dirA_fin, ← norm_mul_phase]
  push_cast; ring

/-- **C27.** The matrix analyses `v`: `dirichlet_matrix(v).T @ v` is `norm(v)` on the last rail and exactly zero on
every other rail. -/
theorem C27_analyses {n : ℕ} (hn : 0 < n) (v : Fin n → ℂ) (m : Matrix (Fin n) (Fin n) ℂ)
    (h : dirichletMatrix v = some m) (k : Fin n) :
    (mᵀ *ᵥ v) k = if k.val = n - 1 then ((Real.sqrt (∑ i, ‖v i‖ ^ 2) : ℝ) : ℂ) else 0 := by
  have h0 : v ⟨0, hn⟩ ≠ 0 := (C27_defined_iff hn v).1 (by simp [h])
  have hu : m ∈ unitaryGroup (Fin n) ℂ := by
    obtain ⟨m', hm, hu⟩ := C27_unitary hn v h0
    rw [h] at hm; obtain rfl := Option.some.inj hm; exact hu
  set N : ℝ := Real.sqrt (∑ i, ‖v i‖ ^ 2) with hN
  have hNpos : N ≠ 0 := by
    rw [hN, ← dirSum_last hn]
    exact (Real.sqrt_pos.2 (dirSum_pos (dirY_zero_pos hn h0) _)).ne'
  have hv : ∀ i, v i = (N : ℂ) * (starRingEnd ℂ) (m i ⟨n - 1, by omega⟩) := by
    intro i
    have hNc : (N : ℂ) ≠ 0 := by exact_mod_cast hNpos
    rw [C27_last_column hn v m h i, map_div₀, conj_conj, conj_ofReal, ← hN, mul_div_cancel₀ _ hNc]
  have e := mem_unitaryGroup_iff'.1 hu
  have e' := congrFun (congrFun e ⟨n - 1, by omega⟩) k
  rw [Matrix.mul_apply, Matrix.one_apply] at e'
  rw [Matrix.mulVec, dotProduct]
  have : ∀ i, mᵀ k i * v i = (N : ℂ) * ((star m) ⟨n - 1, by omega⟩ i * m i k) := by
    intro i
    conv_lhs => rw [hv i]
    simp only [transpose_apply, star_apply, RCLike.star_def]; ring
  rw [Finset.sum_congr rfl fun i _ => this i, ← Finset.mul_sum, e']
  by_cases hk : k.val = n - 1
  · rw [if_pos hk, if_pos (Fin.ext (by simp [hk])), mul_one]
  · rw [if_neg hk, if_neg (fun e => hk (by rw [← e])), mul_zero]

/-- **C27.** With `embed_dim` the result is still unitary and acts as the identity on the added rails. -/
theorem C27_embed {n : ℕ} (hn : 0 < n) (v : Fin n → ℂ) (h : v ⟨0, hn⟩ ≠ 0) (k : ℕ) :
    ∃ m e, dirichletMatrix v = some m ∧ dirichletEmbed v k = some e ∧ e ∈ unitaryGroup (Fin n ⊕ Fin k) ℂ ∧
      (∀ i j, e (Sum.inl i) (Sum.inl j) = m i j) ∧ (∀ i j, e (Sum.inr i) (Sum.inr j) = if i = j then 1 else 0) := by
  obtain ⟨m, hm, hu⟩ := C27_unitary hn v h
  refine ⟨m, _, hm, by rw [dirichletEmbed, hm]; rfl, ?_, fun i j => rfl, fun i j => ?_⟩
  · rw [mem_unitaryGroup_iff] at hu ⊢
    rw [star_eq_conjTranspose] at hu ⊢
    change (fromBlocks mᵀ 0 0 1)ᵀ * ((fromBlocks mᵀ 0 0 1)ᵀ)ᴴ = 1
    rw [fromBlocks_transpose, fromBlocks_conjTranspose, fromBlocks_multiply]
    simp [hu, ← fromBlocks_one]
  · simp [Matrix.one_apply, eq_comm]

/-- Non-vacuity: a vector with a zero in the middle. -/
example : ∃ m, dirichletMatrix (![1, 0, 2 * I] : Fin 3 → ℂ) = some m ∧ m ∈ unitaryGroup (Fin 3) ℂ :=
  C27_unitary (by norm_num) _ (by simp)

end Simphox
