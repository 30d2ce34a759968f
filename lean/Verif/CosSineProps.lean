import Verif.MatrixDecomp

/-!
# C28, C94: the cosine-sine decomposition
-/

namespace Simphox
open Matrix Complex

theorem csMiddle_star {m p : ℕ} (theta : Fin m → ℝ) :
    star (csMiddle theta : Matrix (Fin m ⊕ Fin p) (Fin m ⊕ Fin p) ℂ) = csMiddle theta := by
  rw [star_eq_conjTranspose]
  unfold csMiddle
  rw [fromBlocks_conjTranspose]
  congr 1 <;> ext i j <;> simp only [conjTranspose_apply, of_apply]
  · by_cases h : i = j
    · subst h; simp [-ofReal_sin, -ofReal_cos]
    · rw [if_neg h, if_neg (Ne.symm h)]; simp [-ofReal_sin, -ofReal_cos]
  · by_cases h : i.val = j.val
    · rw [if_pos h, if_pos h.symm]; simp [-ofReal_sin, -ofReal_cos]
    · rw [if_neg h, if_neg (Ne.symm h)]; simp [-ofReal_sin, -ofReal_cos]
  · by_cases h : i.val = j.val
    · rw [if_pos h, if_pos h.symm]; simp [-ofReal_sin, -ofReal_cos]
    · rw [if_neg h, if_neg (Ne.symm h)]; simp [-ofReal_sin, -ofReal_cos]
  · by_cases h : i = j
    · subst h; by_cases h' : i.val < m <;> simp [h', -ofReal_sin, -ofReal_cos]
    · rw [if_neg h, if_neg (Ne.symm h)]; simp [-ofReal_sin, -ofReal_cos]

theorem sin_sq_add_cos_sq' (x : ℝ) : (Real.sin x : ℂ) * Real.sin x + Real.cos x * Real.cos x = 1 := by
  have := Real.sin_sq_add_cos_sq x
  rw [← ofReal_mul, ← ofReal_mul, ← ofReal_add, ← pow_two, ← pow_two, this, ofReal_one]

theorem csMiddle_sq {m p : ℕ} (hp : p = m ∨ p = m + 1) (theta : Fin m → ℝ) :
    (csMiddle theta : Matrix (Fin m ⊕ Fin p) (Fin m ⊕ Fin p) ℂ) * csMiddle theta = 1 := by
  have hmp : m ≤ p := by omega
  unfold csMiddle
  rw [fromBlocks_multiply, ← fromBlocks_one]
  congr 1 <;> ext i j <;> simp only [Matrix.add_apply, Matrix.mul_apply, of_apply, Matrix.zero_apply]
  · -- (inl, inl)
    rw [Finset.sum_eq_single i (fun k _ hk => by rw [if_neg (Ne.symm hk)]; simp) (by simp),
      Finset.sum_eq_single (Fin.castLE hmp i) (fun k _ hk => by
        rw [if_neg (fun e => hk (Fin.ext (by simp [e])))]; simp) (by simp)]
    by_cases h : i = j
    · subst h; simpa using sin_sq_add_cos_sq' (theta i)
    · have h' : i.val ≠ j.val := fun e => h (Fin.ext e)
      simp [h, h']
  · -- (inl, inr)
    rw [Finset.sum_eq_single i (fun k _ hk => by rw [if_neg (Ne.symm hk)]; simp) (by simp),
      Finset.sum_eq_single (Fin.castLE hmp i) (fun k _ hk => by
        rw [if_neg (fun e => hk (Fin.ext (by simp [e])))]; simp) (by simp)]
    by_cases h : i.val = j.val
    · have h' : Fin.castLE hmp i = j := Fin.ext (by simpa using h)
      subst h'
      simp [mul_comm]
    · have h' : Fin.castLE hmp i ≠ j := fun e => h (by rw [← e]; simp)
      simp [h, h']
  · -- (inr, inl)
    by_cases hi : i.val < m
    · rw [Finset.sum_eq_single (⟨i.val, hi⟩ : Fin m) (fun k _ hk => by
        rw [if_neg (fun e => hk (Fin.ext (by simp [e])))]; simp) (by simp),
        Finset.sum_eq_single i (fun k _ hk => by rw [if_neg (Ne.symm hk)]; simp) (by simp)]
      by_cases h : i.val = j.val
      · have h' : (⟨i.val, hi⟩ : Fin m) = j := Fin.ext h
        subst h'
        simp [mul_comm, hi]
      · have h' : (⟨i.val, hi⟩ : Fin m) ≠ j := fun e => h (by rw [← e])
        simp [h, h']
    · rw [Finset.sum_eq_zero (fun k _ => by rw [if_neg (by have := k.2; omega)]; simp),
        Finset.sum_eq_single i (fun k _ hk => by rw [if_neg (Ne.symm hk)]; simp) (by simp)]
      have : i.val ≠ j.val := by have := j.2; omega
      simp [this]
  · -- (inr, inr)
    by_cases hi : i.val < m
    · rw [Finset.sum_eq_single (⟨i.val, hi⟩ : Fin m) (fun k _ hk => by
        rw [if_neg (fun e => hk (Fin.ext (by simp [e])))]; simp) (by simp),
        Finset.sum_eq_single i (fun k _ hk => by rw [if_neg (Ne.symm hk)]; simp) (by simp)]
      by_cases h : i = j
      · subst h
        have := sin_sq_add_cos_sq' (theta ⟨i.val, hi⟩)
        simp only [if_true, hi, dif_pos, Matrix.one_apply_eq]
        rw [← this]; ring
      · have h' : i.val ≠ j.val := fun e => h (Fin.ext e)
        simp [h, h']
    · rw [Finset.sum_eq_zero (fun k _ => by rw [if_neg (by have := k.2; omega)]; simp),
        Finset.sum_eq_single i (fun k _ hk => by rw [if_neg (Ne.symm hk)]; simp) (by simp)]
      by_cases h : i = j
      · subst h; simp [hi]
      · simp [h]

theorem csMiddle_unitary {m p : ℕ} (hp : p = m ∨ p = m + 1) (theta : Fin m → ℝ) :
    (csMiddle theta : Matrix (Fin m ⊕ Fin p) (Fin m ⊕ Fin p) ℂ) ∈ unitaryGroup (Fin m ⊕ Fin p) ℂ := by
  rw [mem_unitaryGroup_iff, csMiddle_star, csMiddle_sq hp]

theorem blockDiag_unitary {m p : ℕ} {a : Matrix (Fin m) (Fin m) ℂ} {b : Matrix (Fin p) (Fin p) ℂ}
    (ha : a ∈ unitaryGroup (Fin m) ℂ) (hb : b ∈ unitaryGroup (Fin p) ℂ) :
    fromBlocks a 0 0 b ∈ unitaryGroup (Fin m ⊕ Fin p) ℂ := by
  rw [mem_unitaryGroup_iff, star_eq_conjTranspose] at *
  rw [fromBlocks_conjTranspose, fromBlocks_multiply]
  simp [ha, hb, ← fromBlocks_one]

/-- **C28.** For unitary blocks of sizes `m` and `m` or `m + 1` (even and odd totals) and any angles, `csinv` returns a
unitary matrix. -/
theorem C28_unitary {m p : ℕ} (hp : p = m ∨ p = m + 1) (l0 r0 : Matrix (Fin m) (Fin m) ℂ)
    (l1 r1 : Matrix (Fin p) (Fin p) ℂ) (theta : Fin m → ℝ)
    (hl0 : l0 ∈ unitaryGroup (Fin m) ℂ) (hl1 : l1 ∈ unitaryGroup (Fin p) ℂ)
    (hr0 : r0 ∈ unitaryGroup (Fin m) ℂ) (hr1 : r1 ∈ unitaryGroup (Fin p) ℂ) :
    ∃ u, csinv l0 l1 r0 r1 theta = .ok u ∧ u ∈ unitaryGroup (Fin m ⊕ Fin p) ℂ := by
  refine ⟨_, by rw [csinv, if_pos hp], ?_⟩
  exact mul_mem (mul_mem (blockDiag_unitary hl0 hl1) (csMiddle_unitary hp theta)) (blockDiag_unitary hr0 hr1)

/-- **C28.** The four blocks of the result are the documented ones (even size): `l0 s r0`, `l0 c r1`, `l1 c r0`,
`-l1 s r1`. -/
theorem C28_blocks {m : ℕ} (l0 r0 l1 r1 : Matrix (Fin m) (Fin m) ℂ) (theta : Fin m → ℝ) :
    csinv l0 l1 r0 r1 theta = .ok (fromBlocks
      (l0 * diagonal (fun i => (Real.sin (theta i) : ℂ)) * r0) (l0 * diagonal (fun i => (Real.cos (theta i) : ℂ)) * r1)
      (l1 * diagonal (fun i => (Real.cos (theta i) : ℂ)) * r0)
      (-(l1 * diagonal (fun i => (Real.sin (theta i) : ℂ)) * r1))) := by
  rw [csinv, if_pos (Or.inl rfl)]
  have hm : (csMiddle theta : Matrix (Fin m ⊕ Fin m) (Fin m ⊕ Fin m) ℂ) =
      fromBlocks (diagonal fun i => (Real.sin (theta i) : ℂ)) (diagonal fun i => (Real.cos (theta i) : ℂ))
        (diagonal fun i => (Real.cos (theta i) : ℂ)) (-(diagonal fun i => (Real.sin (theta i) : ℂ))) := by
    unfold csMiddle
    congr 1 <;> ext i j <;> by_cases h : i = j
    all_goals first
      | (subst h; simp)
      | (have h' : i.val ≠ j.val := fun e => h (Fin.ext e)
         simp [h, h', Matrix.diagonal])
  rw [hm, fromBlocks_multiply, fromBlocks_multiply]
  simp only [Matrix.zero_mul, Matrix.mul_zero, add_zero, zero_add, Matrix.mul_neg, Matrix.neg_mul, neg_zero]

/-- **C28.** Other block sizes are rejected. -/
theorem C28_rejects {m p : ℕ} (l0 r0 : Matrix (Fin m) (Fin m) ℂ) (l1 r1 : Matrix (Fin p) (Fin p) ℂ)
    (theta : Fin m → ℝ) (hp : p ≠ m) (hp' : p ≠ m + 1) : csinv l0 l1 r0 r1 theta = .error .valueError := by
  rw [csinv, if_neg (by omega)]

/-- Non-vacuity of C28: an odd size. -/
example : ∃ u, csinv (1 : Matrix (Fin 2) (Fin 2) ℂ) (1 : Matrix (Fin 3) (Fin 3) ℂ) 1 1 ![1, 2] = .ok u ∧
    u ∈ unitaryGroup (Fin 2 ⊕ Fin 3) ℂ :=
  C28_unitary (Or.inr rfl) _ _ _ _ _ (one_mem _) (one_mem _) (one_mem _) (one_mem _)

/-! ### Round trip -/

/-- `diag(c)` as a `p × m` matrix. -/
def rectDiag {m : ℕ} (p : ℕ) (c : Fin m → ℂ) : Matrix (Fin p) (Fin m) ℂ :=
  Matrix.of fun i j => if i.val = j.val then c j else 0

theorem triangular_diag {m p : ℕ} (r : Matrix (Fin p) (Fin m) ℂ) (c : Fin m → ℝ) (hc : ∀ i, 0 < c i)
    (hu : ∀ i j, j.val < i.val → r i j = 0) (hr : rᴴ * r = diagonal fun i => ((c i ^ 2 : ℝ) : ℂ)) :
    ∀ i j, i.val ≠ j.val → r i j = 0 := by
  have main : ∀ (k : ℕ) (i : Fin p), i.val = k → ∀ j : Fin m, i.val ≠ j.val → r i j = 0 := by
    intro k
    induction k using Nat.strong_induction_on with
    | _ k ih =>
      intro i hik j hij
      rcases Nat.lt_or_gt_of_ne hij with h | h
      · have him : i.val < m := lt_trans h j.2
        have hcol : ∀ k' : Fin p, k' ≠ i → r k' ⟨i.val, him⟩ = 0 := by
          intro k' hk'
          rcases Nat.lt_or_gt_of_ne (fun e => hk' (Fin.ext e)) with h1 | h1
          · exact ih k'.val (by omega) k' rfl ⟨i.val, him⟩ (by simpa using h1.ne)
          · exact hu k' ⟨i.val, him⟩ (by simpa using h1)
        have e1 := congrFun (congrFun hr ⟨i.val, him⟩) j
        have e2 := congrFun (congrFun hr ⟨i.val, him⟩) ⟨i.val, him⟩
        rw [Matrix.mul_apply, Finset.sum_eq_single i (fun k' _ hk' => by simp [hcol k' hk']) (by simp)] at e1 e2
        rw [diagonal_apply_eq] at e2
        rw [diagonal_apply_ne _ (fun e => hij (by rw [← e]))] at e1
        have hne : (r)ᴴ ⟨i.val, him⟩ i ≠ 0 := by
          intro h0
          rw [h0, zero_mul] at e2
          have := hc ⟨i.val, him⟩
          have h2 : (0 : ℝ) = c ⟨i.val, him⟩ ^ 2 := by exact_mod_cast e2
          exact absurd h2 (by positivity)
        exact (mul_eq_zero.1 e1).resolve_left hne
      · exact hu i j h
  exact fun i j h => main i.val i rfl j h

theorem qr_rect {m p : ℕ} (hmp : m ≤ p) {a : Matrix (Fin p) (Fin m) ℂ} {q : Matrix (Fin p) (Fin p) ℂ}
    {r : Matrix (Fin p) (Fin m) ℂ} {dr : Fin m → ℝ} (h : IsQr a q r dr) (c : Fin m → ℝ) (hc : ∀ i, 0 < c i)
    (ha : aᴴ * a = diagonal fun i => ((c i ^ 2 : ℝ) : ℂ)) :
    (Matrix.of fun i j => q i j * (signDiag dr j : ℂ)) ∈ unitaryGroup (Fin p) ℂ ∧
      a = (Matrix.of fun i j => q i j * (signDiag dr j : ℂ)) * rectDiag p fun i => (c i : ℂ) := by
  have hq : qᴴ * q = 1 := by
    have := mem_unitaryGroup_iff'.1 h.left; rwa [star_eq_conjTranspose] at this
  have hrr : rᴴ * r = diagonal fun i => ((c i ^ 2 : ℝ) : ℂ) := by
    rw [← ha, h.prod, conjTranspose_mul, Matrix.mul_assoc, ← Matrix.mul_assoc qᴴ, hq, Matrix.one_mul]
  have hz := triangular_diag r c hc h.upper hrr
  have hsq : ∀ j, dr j ^ 2 = c j ^ 2 := by
    intro j
    have e := congrFun (congrFun hrr j) j
    rw [diagonal_apply_eq, Matrix.mul_apply, Finset.sum_eq_single (Fin.castLE hmp j)
      (fun k _ hk => by rw [hz k j (fun e => hk (Fin.ext (by simp [e])))]; simp) (by simp)] at e
    rw [conjTranspose_apply, h.diag _ j (by simp)] at e
    simp only [RCLike.star_def, conj_ofReal] at e
    rw [pow_two]; exact_mod_cast e
  have hne : ∀ j, dr j ≠ 0 := by
    intro j h0
    have := hsq j; rw [h0] at this
    have := hc j; nlinarith
  have hsign : ∀ j, (SignType.sign (dr j) : ℝ) * c j = dr j := by
    intro j
    have h1 : |dr j| = c j := by
      rw [← Real.sqrt_sq_eq_abs, hsq, Real.sqrt_sq (hc j).le]
    rw [← h1]; exact sign_mul_abs (dr j)
  have hs1 : ∀ j : Fin p, signDiag dr j * signDiag dr j = 1 := by
    intro j
    unfold signDiag
    split_ifs with hj
    · rcases lt_or_gt_of_ne (hne ⟨j, hj⟩) with h' | h' <;> simp [h']
    · simp
  constructor
  · rw [mem_unitaryGroup_iff, star_eq_conjTranspose]
    have hq' : q * qᴴ = 1 := by
      have := mem_unitaryGroup_iff.1 h.left; rwa [star_eq_conjTranspose] at this
    rw [← hq']
    ext i j
    rw [Matrix.mul_apply, Matrix.mul_apply]
    refine Finset.sum_congr rfl fun k _ => ?_
    have e := hs1 k
    simp only [of_apply, conjTranspose_apply, star_mul', RCLike.star_def, conj_ofReal]
    calc q i k * (signDiag dr k : ℂ) * ((starRingEnd ℂ) (q j k) * (signDiag dr k : ℂ))
        = q i k * (starRingEnd ℂ) (q j k) * ((signDiag dr k * signDiag dr k : ℝ) : ℂ) := by push_cast; ring
      _ = _ := by rw [e]; simp
  · conv_lhs => rw [h.prod]
    ext i j
    rw [Matrix.mul_apply, Matrix.mul_apply]
    rw [Finset.sum_eq_single (Fin.castLE hmp j)
        (fun k _ hk => by rw [hz k j (fun e => hk (Fin.ext (by simp [e])))]; simp) (by simp),
      Finset.sum_eq_single (Fin.castLE hmp j)
        (fun k _ hk => by
          have : k.val ≠ j.val := fun e => hk (Fin.ext (by simp [e]))
          simp [rectDiag, this]) (by simp)]
    rw [h.diag _ j (by simp)]
    have e := hsign j
    simp only [of_apply, rectDiag, signDiag, Fin.val_castLE, Fin.is_lt, dif_pos, if_true, Fin.eta]
    rw [mul_assoc]
    congr 1
    exact_mod_cast e.symm

/-- `cs` is called on a unitary `u` and its `svd` and `qr` calls returned correct factors. -/
structure CsRun {m p : ℕ} (u : Matrix (Fin m ⊕ Fin p) (Fin m ⊕ Fin p) ℂ)
    (l0 : Matrix (Fin m) (Fin m) ℂ) (d00 : Fin m → ℝ) (r0 : Matrix (Fin m) (Fin m) ℂ)
    (r1hp : Matrix (Fin p) (Fin p) ℂ) (dr1 : Fin m → ℝ) (l1p : Matrix (Fin p) (Fin p) ℂ) (dl1 : Fin m → ℝ) : Prop where
  size : p = m ∨ p = m + 1
  unitary : u ∈ unitaryGroup (Fin m ⊕ Fin p) ℂ
  svd : IsSvd u.toBlocks₁₁ l0 d00 r0
  qr1 : ∃ r, IsQr (u.toBlocks₁₂ᴴ * l0) r1hp r dr1
  qr2 : ∃ r, IsQr (u.toBlocks₂₁ * r0ᴴ) l1p r dl1

section
variable {m p : ℕ} {u : Matrix (Fin m ⊕ Fin p) (Fin m ⊕ Fin p) ℂ} {l0 : Matrix (Fin m) (Fin m) ℂ} {d00 : Fin m → ℝ}
  {r0 : Matrix (Fin m) (Fin m) ℂ} {r1hp : Matrix (Fin p) (Fin p) ℂ} {dr1 : Fin m → ℝ}
  {l1p : Matrix (Fin p) (Fin p) ℂ} {dl1 : Fin m → ℝ}

theorem CsRun.blocks (h : CsRun u l0 d00 r0 r1hp dr1 l1p dl1) :
    u.toBlocks₁₁ * u.toBlocks₁₁ᴴ + u.toBlocks₁₂ * u.toBlocks₁₂ᴴ = 1 ∧
    u.toBlocks₁₁ * u.toBlocks₂₁ᴴ + u.toBlocks₁₂ * u.toBlocks₂₂ᴴ = 0 ∧
    u.toBlocks₁₁ᴴ * u.toBlocks₁₁ + u.toBlocks₂₁ᴴ * u.toBlocks₂₁ = 1 ∧
    u.toBlocks₁₁ᴴ * u.toBlocks₁₂ + u.toBlocks₂₁ᴴ * u.toBlocks₂₂ = 0 ∧
    u.toBlocks₁₂ᴴ * u.toBlocks₁₂ + u.toBlocks₂₂ᴴ * u.toBlocks₂₂ = 1 := by
  have h1 := mem_unitaryGroup_iff.1 h.unitary
  have h2 := mem_unitaryGroup_iff'.1 h.unitary
  rw [star_eq_conjTranspose] at h1 h2
  rw [← fromBlocks_toBlocks u, fromBlocks_conjTranspose, fromBlocks_multiply, ← fromBlocks_one, fromBlocks_inj] at h1 h2
  exact ⟨h1.1, h1.2.1, h2.1, h2.2.1, h2.2.2.2⟩

theorem CsRun.grams (h : CsRun u l0 d00 r0 r1hp dr1 l1p dl1) :
    (u.toBlocks₁₂ᴴ * l0)ᴴ * (u.toBlocks₁₂ᴴ * l0) = diagonal (fun i => ((1 - d00 i ^ 2 : ℝ) : ℂ)) ∧
    (u.toBlocks₂₁ * r0ᴴ)ᴴ * (u.toBlocks₂₁ * r0ᴴ) = diagonal (fun i => ((1 - d00 i ^ 2 : ℝ) : ℂ)) := by
  obtain ⟨b1, _, b3, _, _⟩ := h.blocks
  have hl := mem_unitaryGroup_iff'.1 h.svd.left
  have hr := mem_unitaryGroup_iff.1 h.svd.right
  have hl2 := mem_unitaryGroup_iff.1 h.svd.left
  rw [star_eq_conjTranspose] at hl hr hl2
  have hD : (diagonal fun i => (d00 i : ℂ))ᴴ = diagonal fun i => (d00 i : ℂ) := by
    rw [diagonal_conjTranspose]; congr 1; funext i; simp
  have hDD : (1 : Matrix (Fin m) (Fin m) ℂ) - (diagonal fun i => (d00 i : ℂ)) * (diagonal fun i => (d00 i : ℂ)) =
      diagonal (fun i => ((1 - d00 i ^ 2 : ℝ) : ℂ)) := by
    rw [diagonal_mul_diagonal, ← diagonal_one, diagonal_sub]; congr 1; funext i; push_cast; ring
  constructor
  · rw [conjTranspose_mul, conjTranspose_conjTranspose, Matrix.mul_assoc, ← Matrix.mul_assoc u.toBlocks₁₂,
      eq_sub_of_add_eq' b1, h.svd.prod, ← hDD]
    simp only [conjTranspose_mul, hD, Matrix.mul_sub, Matrix.sub_mul, Matrix.one_mul]
    rw [hl]
    congr 1
    calc l0ᴴ * (l0 * diagonal (fun i => (d00 i : ℂ)) * r0 * (r0ᴴ * (diagonal (fun i => (d00 i : ℂ)) * l0ᴴ)) * l0)
        = (l0ᴴ * l0) * diagonal (fun i => (d00 i : ℂ)) * (r0 * r0ᴴ) * diagonal (fun i => (d00 i : ℂ)) * (l0ᴴ * l0) := by
          simp only [Matrix.mul_assoc]
      _ = _ := by rw [hl, hr]; simp only [Matrix.one_mul, Matrix.mul_one]
  · rw [conjTranspose_mul, conjTranspose_conjTranspose, Matrix.mul_assoc, ← Matrix.mul_assoc u.toBlocks₂₁ᴴ,
      eq_sub_of_add_eq' b3, h.svd.prod, ← hDD]
    simp only [conjTranspose_mul, hD, Matrix.mul_sub, Matrix.sub_mul, Matrix.one_mul]
    rw [hr]
    congr 1
    calc r0 * (r0ᴴ * (diagonal (fun i => (d00 i : ℂ)) * l0ᴴ) * (l0 * diagonal (fun i => (d00 i : ℂ)) * r0) * r0ᴴ)
        = (r0 * r0ᴴ) * diagonal (fun i => (d00 i : ℂ)) * (l0ᴴ * l0) * diagonal (fun i => (d00 i : ℂ)) * (r0 * r0ᴴ) := by
          simp only [Matrix.mul_assoc]
      _ = _ := by rw [hl, hr]; simp only [Matrix.one_mul, Matrix.mul_one]

theorem CsRun.le_one (h : CsRun u l0 d00 r0 r1hp dr1 l1p dl1) (i : Fin m) : d00 i ≤ 1 := by
  have e := congrFun (congrFun h.grams.1 i) i
  rw [diagonal_apply_eq, Matrix.mul_apply] at e
  have h1 : ∀ k, (u.toBlocks₁₂ᴴ * l0)ᴴ i k * (u.toBlocks₁₂ᴴ * l0) k i = ((normSq ((u.toBlocks₁₂ᴴ * l0) k i) : ℝ) : ℂ) := by
    intro k
    rw [conjTranspose_apply, RCLike.star_def, ← normSq_eq_conj_mul_self]
  rw [Finset.sum_congr rfl fun k _ => h1 k, ← ofReal_sum] at e
  have e' : ∑ k, normSq ((u.toBlocks₁₂ᴴ * l0) k i) = 1 - d00 i ^ 2 := by exact_mod_cast e
  have : 0 ≤ ∑ k, normSq ((u.toBlocks₁₂ᴴ * l0) k i) := Finset.sum_nonneg fun k _ => normSq_nonneg _
  have := h.svd.nonneg i
  nlinarith

theorem csMiddle_blocks (theta : Fin m → ℝ) : (csMiddle theta : Matrix (Fin m ⊕ Fin p) (Fin m ⊕ Fin p) ℂ) =
    fromBlocks (diagonal fun i => (Real.sin (theta i) : ℂ)) (rectDiag p fun i => (Real.cos (theta i) : ℂ))ᵀ
      (rectDiag p fun i => (Real.cos (theta i) : ℂ))
      (diagonal fun i => if h : i.val < m then -(Real.sin (theta ⟨i, h⟩) : ℂ) else 1) := by
  unfold csMiddle rectDiag
  congr 1
  · ext i j
    by_cases h : i.val = j.val
    · simp [h]
    · simp [h, Ne.symm h]

/-- If no singular value of the top left block is 1, `cs` factors the unitary correctly: all blocks are
unitary and `csinv(*cs(u)) == u`. -/
theorem CsRun.roundtrip (h : CsRun u l0 d00 r0 r1hp dr1 l1p dl1) (hd : ∀ i, d00 i < 1)
    (o : CsOut m p) (ho : csDecomp u l0 d00 r0 r1hp dr1 l1p dl1 = o) :
    csinv o.l0 o.l1 o.r0 o.r1 o.theta = .ok u ∧ o.l0 ∈ unitaryGroup (Fin m) ℂ ∧ o.l1 ∈ unitaryGroup (Fin p) ℂ ∧
      o.r0 ∈ unitaryGroup (Fin m) ℂ ∧ o.r1 ∈ unitaryGroup (Fin p) ℂ := by
  have hmp : m ≤ p := by have := h.size; omega
  obtain ⟨b1, b2, b3, b4, b5⟩ := h.blocks
  obtain ⟨g1, g2⟩ := h.grams
  obtain ⟨ra, hqa⟩ := h.qr1
  obtain ⟨rb, hqb⟩ := h.qr2
  have hpos : ∀ i, 0 < 1 - d00 i ^ 2 := fun i => by have := hd i; have := h.svd.nonneg i; nlinarith
  set c : Fin m → ℝ := fun i => Real.cos (Real.arcsin (d00 i)) with hcdef
  have hsin : ∀ i, Real.sin (Real.arcsin (d00 i)) = d00 i := fun i =>
    Real.sin_arcsin (by have := h.svd.nonneg i; linarith) (hd i).le
  have hc2 : ∀ i, c i ^ 2 = 1 - d00 i ^ 2 := fun i => by
    have := Real.sin_sq_add_cos_sq (Real.arcsin (d00 i)); rw [hsin] at this
    simp only [hcdef]; linarith
  have hc : ∀ i, 0 < c i := fun i => by
    have h0 : 0 ≤ c i := by simp only [hcdef]; exact Real.cos_arcsin_nonneg _
    rcases h0.lt_or_eq with h1 | h1
    · exact h1
    · have := hc2 i; rw [← h1] at this; have := hpos i; nlinarith
  have hcf : (fun i => ((1 - d00 i ^ 2 : ℝ) : ℂ)) = fun i => ((c i ^ 2 : ℝ) : ℂ) := by
    funext i; rw [hc2]
  rw [hcf] at g1 g2
  obtain ⟨u1, e1⟩ := qr_rect hmp hqa c hc g1
  obtain ⟨u2, e2⟩ := qr_rect hmp hqb c hc g2
  set C : Matrix (Fin p) (Fin m) ℂ := rectDiag p fun i => (c i : ℂ) with hC
  set D : Matrix (Fin m) (Fin m) ℂ := diagonal fun i => (d00 i : ℂ) with hDdef
  set X : Matrix (Fin p) (Fin p) ℂ := Matrix.of fun i j => r1hp i j * (signDiag dr1 j : ℂ) with hX
  set L : Matrix (Fin p) (Fin p) ℂ := Matrix.of fun i j => l1p i j * (signDiag dl1 j : ℂ) with hL
  have hCt : Cᴴ = Cᵀ := by
    ext i j; simp only [hC, rectDiag, conjTranspose_apply, transpose_apply, of_apply]
    split_ifs <;> simp
  have hDt : Dᴴ = D := by rw [hDdef, diagonal_conjTranspose]; congr 1; funext i; simp
  have hl := mem_unitaryGroup_iff'.1 h.svd.left
  have hl' := mem_unitaryGroup_iff.1 h.svd.left
  have hr := mem_unitaryGroup_iff.1 h.svd.right
  have hr' := mem_unitaryGroup_iff'.1 h.svd.right
  have hX1 := mem_unitaryGroup_iff'.1 u1
  have hX2 := mem_unitaryGroup_iff.1 u1
  have hL1 := mem_unitaryGroup_iff'.1 u2
  have hL2 := mem_unitaryGroup_iff.1 u2
  rw [star_eq_conjTranspose] at hl hl' hr hr' hX1 hX2 hL1 hL2
  have q00 : u.toBlocks₁₁ = l0 * D * r0 := h.svd.prod
  have q01 : u.toBlocks₁₂ = l0 * Cᵀ * Xᴴ := by
    have := congrArg conjTranspose e1
    rw [conjTranspose_mul, conjTranspose_conjTranspose, conjTranspose_mul, hCt] at this
    rw [Matrix.mul_assoc, ← this, ← Matrix.mul_assoc, hl', Matrix.one_mul]
  have q10 : u.toBlocks₂₁ = L * C * r0 := by
    rw [← e2, Matrix.mul_assoc, hr', Matrix.mul_one]
  set W : Matrix (Fin p) (Fin p) ℂ := Lᴴ * u.toBlocks₂₂ * X with hW
  have q11 : u.toBlocks₂₂ = L * W * Xᴴ := by
    rw [hW]
    calc u.toBlocks₂₂ = (L * Lᴴ) * u.toBlocks₂₂ * (X * Xᴴ) := by rw [hL2, hX2, Matrix.one_mul, Matrix.mul_one]
      _ = _ := by simp only [Matrix.mul_assoc]
  -- the two orthogonality relations
  have w1 : D * Cᵀ + Cᵀ * W = 0 := by
    have := congrArg (fun z => r0 * z * X) b4
    simp only [Matrix.mul_zero, Matrix.zero_mul] at this
    rw [← this, q00, q01, q10, q11]
    simp only [conjTranspose_mul, hDt, hCt, Matrix.mul_add, Matrix.add_mul]
    have t1 : r0 * (r0ᴴ * (D * l0ᴴ) * (l0 * Cᵀ * Xᴴ)) * X = (r0 * r0ᴴ) * D * (l0ᴴ * l0) * Cᵀ * (Xᴴ * X) := by
      simp only [Matrix.mul_assoc]
    have t2 : r0 * (r0ᴴ * (Cᵀ * Lᴴ) * (L * W * Xᴴ)) * X = (r0 * r0ᴴ) * Cᵀ * (Lᴴ * L) * W * (Xᴴ * X) := by
      simp only [Matrix.mul_assoc]
    rw [t1, t2, hr, hl, hX1, hL1]
    simp only [Matrix.one_mul, Matrix.mul_one]
  have w2 : D * Cᵀ + Cᵀ * Wᴴ = 0 := by
    have := congrArg (fun z => l0ᴴ * z * L) b2
    simp only [Matrix.mul_zero, Matrix.zero_mul] at this
    rw [← this, q00, q01, q10, q11]
    simp only [conjTranspose_mul, conjTranspose_conjTranspose, hCt, Matrix.mul_add, Matrix.add_mul]
    have t1 : l0ᴴ * (l0 * D * r0 * (r0ᴴ * (Cᵀ * Lᴴ))) * L = (l0ᴴ * l0) * D * (r0 * r0ᴴ) * Cᵀ * (Lᴴ * L) := by
      simp only [Matrix.mul_assoc]
    have t2 : l0ᴴ * (l0 * Cᵀ * Xᴴ * (X * (Wᴴ * Lᴴ))) * L = (l0ᴴ * l0) * Cᵀ * (Xᴴ * X) * Wᴴ * (Lᴴ * L) := by
      simp only [Matrix.mul_assoc]
    rw [t1, t2, hr, hl, hX1, hL1]
    simp only [Matrix.one_mul, Matrix.mul_one]
  have hDC : ∀ i j, (D * Cᵀ) i j = if j.val = i.val then (d00 i : ℂ) * c i else 0 := by
    intro i j
    rw [hDdef, Matrix.diagonal_mul, transpose_apply, hC, rectDiag, of_apply]
    split_ifs <;> simp
  have hCW : ∀ (Z : Matrix (Fin p) (Fin p) ℂ) i j, (Cᵀ * Z) i j = c i * Z (Fin.castLE hmp i) j := by
    intro Z i j
    rw [Matrix.mul_apply, Finset.sum_eq_single (Fin.castLE hmp i)]
    · simp [hC, rectDiag]
    · intro k _ hk
      have : k.val ≠ i.val := fun e => hk (Fin.ext (by simp [e]))
      simp [hC, rectDiag, this]
    · simp
  have hWrow : ∀ (Z : Matrix (Fin p) (Fin p) ℂ), D * Cᵀ + Cᵀ * Z = 0 → ∀ i : Fin p, ∀ (hi : i.val < m), ∀ j : Fin p,
      Z i j = if i = j then -(d00 ⟨i, hi⟩ : ℂ) else 0 := by
    intro Z hZ i hi j
    have e := congrFun (congrFun hZ ⟨i, hi⟩) j
    rw [Matrix.add_apply, hDC, hCW, Matrix.zero_apply] at e
    have hci : (c ⟨i, hi⟩ : ℂ) ≠ 0 := by exact_mod_cast (hc ⟨i, hi⟩).ne'
    have hcast : Fin.castLE hmp ⟨i, hi⟩ = i := Fin.ext rfl
    rw [hcast] at e
    by_cases hij : i = j
    · subst hij
      rw [if_pos rfl] at e ⊢
      have : (c ⟨i, hi⟩ : ℂ) * (d00 ⟨i, hi⟩ + Z i i) = 0 := by rw [← e]; ring
      have := (mul_eq_zero.1 this).resolve_left hci
      linear_combination this
    · rw [if_neg (fun e' => hij (Fin.ext e'.symm)), zero_add] at e
      rw [if_neg hij]
      exact (mul_eq_zero.1 e).resolve_left hci
  have hWall : ∀ i j, W i j = if i = j then (if hi : i.val < m then -(d00 ⟨i, hi⟩ : ℂ) else W i i) else 0 := by
    intro i j
    by_cases hi : i.val < m
    · rw [hWrow W w1 i hi j, dif_pos hi]
    · rw [dif_neg hi]
      by_cases hij : i = j
      · subst hij; simp
      · rw [if_neg hij]
        have hj : j.val < m := by
          have := i.2; have := j.2; have := h.size
          have : i.val ≠ j.val := fun e => hij (Fin.ext e)
          omega
        have := hWrow Wᴴ w2 j hj i
        rw [if_neg (Ne.symm hij), conjTranspose_apply] at this
        exact star_eq_zero.1 this
  -- the phasor
  set E : Matrix (Fin p) (Fin p) ℂ := diagonal fun i => if m ≤ i.val then W i i else 1 with hE
  have hr1 : (Matrix.of fun i j => if m ≤ i.val then (Lᴴ * u.toBlocks₂₂ * (Xᴴ)ᴴ) i i * Xᴴ i j else Xᴴ i j :
      Matrix (Fin p) (Fin p) ℂ) = E * Xᴴ := by
    ext i j
    rw [hE, Matrix.diagonal_mul, of_apply, conjTranspose_conjTranspose]
    split_ifs <;> simp [hW]
  have hCE : Cᵀ * E = Cᵀ := by
    ext i j
    rw [hE, Matrix.mul_diagonal]
    by_cases hj : m ≤ j.val
    · have : j.val ≠ i.val := by have := i.2; omega
      simp [hC, rectDiag, this]
    · simp [hj]
  have hME : (diagonal fun i : Fin p => if hi : i.val < m then -(Real.sin (Real.arcsin (d00 ⟨i, hi⟩)) : ℂ) else 1) * E = W := by
    ext i j
    rw [hE, diagonal_mul_diagonal, hWall i j, diagonal_apply]
    by_cases hij : i = j
    · subst hij
      by_cases hi : i.val < m
      · simp only [hi, dif_pos, hsin, if_true]
        rw [if_neg (by omega)]; simp
      · simp only [hi, dif_neg, not_false_iff, if_true]
        rw [if_pos (by omega)]; simp
    · simp [hij]
  have hWu : ∀ i : Fin p, m ≤ i.val → star (W i i) * W i i = 1 := by
    intro i hi
    have e : Wᴴ * W = 1 - C * Cᵀ := by
      have := congrArg (fun z => Xᴴ * z * X) b5
      simp only [Matrix.mul_one] at this
      rw [hX1] at this
      rw [← this, q01, q11]
      simp only [conjTranspose_mul, conjTranspose_conjTranspose, Matrix.mul_add, Matrix.add_mul]
      have t1 : Xᴴ * (X * ((Cᵀ)ᴴ * l0ᴴ) * (l0 * Cᵀ * Xᴴ)) * X = (Xᴴ * X) * (Cᵀ)ᴴ * (l0ᴴ * l0) * Cᵀ * (Xᴴ * X) := by
        simp only [Matrix.mul_assoc]
      have t2 : Xᴴ * (X * (Wᴴ * Lᴴ) * (L * W * Xᴴ)) * X = (Xᴴ * X) * Wᴴ * (Lᴴ * L) * W * (Xᴴ * X) := by
        simp only [Matrix.mul_assoc]
      have t3 : (Cᵀ)ᴴ = C := by rw [← hCt, conjTranspose_conjTranspose]
      rw [t1, t2, t3, hl, hX1, hL1]
      simp only [Matrix.one_mul, Matrix.mul_one]
      abel
    have e' := congrFun (congrFun e i) i
    rw [Matrix.mul_apply, Finset.sum_eq_single i, conjTranspose_apply, Matrix.sub_apply, Matrix.one_apply_eq,
      Matrix.mul_apply, Finset.sum_eq_zero, sub_zero] at e'
    · exact e'
    · intro k _
      have : i.val ≠ k.val := by have := k.2; omega
      simp [hC, rectDiag, this]
    · intro k _ hk
      rw [conjTranspose_apply, hWall k i, if_neg hk]; simp
    · simp
  have hEu : E ∈ unitaryGroup (Fin p) ℂ := by
    rw [mem_unitaryGroup_iff', star_eq_conjTranspose, hE, diagonal_conjTranspose, diagonal_mul_diagonal, ← diagonal_one]
    congr 1; funext i
    by_cases hi : m ≤ i.val
    · simp only [Pi.star_apply, hi, if_true]; exact hWu i hi
    · simp [hi]
  have hXu : Xᴴ ∈ unitaryGroup (Fin p) ℂ := by
    rw [mem_unitaryGroup_iff, star_eq_conjTranspose, conjTranspose_conjTranspose, hX1]
  have ho' : o = ⟨l0, L, r0, E * Xᴴ, fun i => Real.arcsin (d00 i)⟩ := by
    rw [← ho, csDecomp]
    simp only [← hX, ← hL, hr1]
  subst ho'
  refine ⟨?_, h.svd.left, u2, h.svd.right, mul_mem hEu hXu⟩
  rw [csinv, if_pos h.size, csMiddle_blocks, fromBlocks_multiply, fromBlocks_multiply]
  congr 1
  conv_rhs => rw [← fromBlocks_toBlocks u, q00, q01, q10, q11]
  have hs' : (diagonal fun i => ((Real.sin (Real.arcsin (d00 i)) : ℝ) : ℂ)) = D := by
    rw [hDdef]; congr 1; funext i; rw [hsin]
  simp only [Matrix.zero_mul, Matrix.mul_zero, add_zero, zero_add, hs']
  congr 1
  · rw [Matrix.mul_assoc, Matrix.mul_assoc, ← Matrix.mul_assoc _ E, ← hC, hCE]
  · rw [Matrix.mul_assoc, Matrix.mul_assoc, ← Matrix.mul_assoc _ E, hME]

/-- If some singular value of the top left block is 1, the decomposition loses a row of `r1`. -/
theorem CsRun.fails (h : CsRun u l0 d00 r0 r1hp dr1 l1p dl1) (i : Fin m) (hi : d00 i = 1)
    (o : CsOut m p) (ho : csDecomp u l0 d00 r0 r1hp dr1 l1p dl1 = o) :
    csinv o.l0 o.l1 o.r0 o.r1 o.theta ≠ .ok u := by
  have hmp : m ≤ p := by have := h.size; omega
  obtain ⟨g1, _⟩ := h.grams
  obtain ⟨r, hq⟩ := h.qr1
  -- column i of q01^H l0 vanishes
  have hcol : ∀ k, (u.toBlocks₁₂ᴴ * l0) k i = 0 := by
    have e := congrFun (congrFun g1 i) i
    rw [diagonal_apply_eq, Matrix.mul_apply, hi] at e
    have h1 : ∀ k, (u.toBlocks₁₂ᴴ * l0)ᴴ i k * (u.toBlocks₁₂ᴴ * l0) k i =
        ((normSq ((u.toBlocks₁₂ᴴ * l0) k i) : ℝ) : ℂ) := by
      intro k
      rw [conjTranspose_apply, RCLike.star_def, ← normSq_eq_conj_mul_self]
    rw [Finset.sum_congr rfl fun k _ => h1 k, ← ofReal_sum] at e
    have e' : ∑ k, normSq ((u.toBlocks₁₂ᴴ * l0) k i) = 0 := by
      have : ((∑ k, normSq ((u.toBlocks₁₂ᴴ * l0) k i) : ℝ) : ℂ) = ((0 : ℝ) : ℂ) := by rw [e]; norm_num
      exact_mod_cast this
    intro k
    exact normSq_eq_zero.1 ((Finset.sum_eq_zero_iff_of_nonneg fun k _ => normSq_nonneg _).1 e' k (Finset.mem_univ k))
  have hdr : dr1 i = 0 := by
    have hqq : r1hpᴴ * r1hp = 1 := by
      have := mem_unitaryGroup_iff'.1 hq.left; rwa [star_eq_conjTranspose] at this
    have hr : r = r1hpᴴ * (u.toBlocks₁₂ᴴ * l0) := by
      rw [hq.prod, ← Matrix.mul_assoc, hqq, Matrix.one_mul]
    have e := hq.diag (Fin.castLE hmp i) i (by simp)
    rw [hr, Matrix.mul_apply, Finset.sum_eq_zero (fun k _ => by rw [hcol k, mul_zero])] at e
    exact_mod_cast e.symm
  have hrow : ∀ j, o.r1 (Fin.castLE hmp i) j = 0 := by
    intro j
    rw [← ho, csDecomp]
    have hn : ¬ (m ≤ i.val) := by have := i.2; omega
    simp only [of_apply, Fin.val_castLE, hn, if_false, conjTranspose_apply, signDiag, i.2, dif_pos, Fin.eta, hdr]
    simp
  intro hu
  rw [csinv, if_pos h.size] at hu
  have hu' := Except.ok.inj hu
  have h1 := mem_unitaryGroup_iff'.1 h.unitary
  nth_rewrite 2 [← hu'] at h1
  rw [← Matrix.mul_assoc, ← Matrix.mul_assoc] at h1
  have h2 := mul_eq_one_comm.1 h1
  have e := congrFun (congrFun h2 (Sum.inr (Fin.castLE hmp i))) (Sum.inr (Fin.castLE hmp i))
  rw [Matrix.one_apply_eq, Matrix.mul_apply, Finset.sum_eq_zero] at e
  · exact zero_ne_one e
  · intro k _
    have : (fromBlocks o.r0 0 0 o.r1) (Sum.inr (Fin.castLE hmp i)) k = 0 := by
      rcases k with k | k
      · rfl
      · exact hrow k
    rw [this, zero_mul]

/-- **C94.** `csinv(*cs(u))` returns `u` exactly when no singular value of the top left block of `u` is 1. -/
theorem C94_roundtrip_iff_partial (h : CsRun u l0 d00 r0 r1hp dr1 l1p dl1)
    (o : CsOut m p) (ho : csDecomp u l0 d00 r0 r1hp dr1 l1p dl1 = o) :
    csinv o.l0 o.l1 o.r0 o.r1 o.theta = .ok u ↔ ∀ i, d00 i ≠ 1 := by
  constructor
  · exact fun hu i hi => h.fails i hi o ho hu
  · exact fun hne => (h.roundtrip (fun i => lt_of_le_of_ne (h.le_one i) (hne i)) o ho).1

/-- **C94.** In that case all four blocks are unitary and the angles lie in `[0, pi/2)`. -/
theorem C94_blocks_partial (h : CsRun u l0 d00 r0 r1hp dr1 l1p dl1) (hne : ∀ i, d00 i ≠ 1)
    (o : CsOut m p) (ho : csDecomp u l0 d00 r0 r1hp dr1 l1p dl1 = o) :
    o.l0 ∈ unitaryGroup (Fin m) ℂ ∧ o.l1 ∈ unitaryGroup (Fin p) ℂ ∧
      o.r0 ∈ unitaryGroup (Fin m) ℂ ∧ o.r1 ∈ unitaryGroup (Fin p) ℂ ∧
      ∀ i, 0 ≤ o.theta i ∧ o.theta i < Real.pi / 2 := by
  have hd : ∀ i, d00 i < 1 := fun i => lt_of_le_of_ne (h.le_one i) (hne i)
  obtain ⟨-, h1, h2, h3, h4⟩ := h.roundtrip hd o ho
  refine ⟨h1, h2, h3, h4, fun i => ?_⟩
  rw [← ho]
  exact ⟨Real.arcsin_nonneg.2 (h.svd.nonneg i), Real.arcsin_lt_pi_div_two.2 (hd i)⟩

end

/-- The factors scipy returns for the 2 x 2 identity are a legitimate run of `cs` (with `q01 = q10 = 0`, whose `qr` is
`(1, 0)`). -/
theorem csRun_identity : CsRun (m := 1) (p := 1) 1 1 (fun _ => 1) 1 1 (fun _ => 0) 1 (fun _ => 0) where
  size := Or.inl rfl
  unitary := one_mem _
  svd := ⟨one_mem _, one_mem _, fun _ => zero_le_one, by
    rw [← fromBlocks_one, toBlocks_fromBlocks₁₁]; simp⟩
  qr1 := ⟨0, one_mem _, by simp, by simp, by rw [← fromBlocks_one, toBlocks_fromBlocks₁₂]; simp⟩
  qr2 := ⟨0, one_mem _, by simp, by simp, by rw [← fromBlocks_one, toBlocks_fromBlocks₂₁]; simp⟩

/-- **C94.** Counterexample to the unrestricted claim: on the 2 x 2 identity, whatever correct factors `svd` and `qr`
return, `csinv(*cs(u))` is not `u` (`np.sign(0) = 0` erases a row of `r1`). -/
theorem C94_identity_counterexample (l0 r0 r1hp l1p : Matrix (Fin 1) (Fin 1) ℂ) (d00 dr1 dl1 : Fin 1 → ℝ)
    (h : CsRun (m := 1) (p := 1) 1 l0 d00 r0 r1hp dr1 l1p dl1) (o : CsOut 1 1)
    (ho : csDecomp 1 l0 d00 r0 r1hp dr1 l1p dl1 = o) : csinv o.l0 o.l1 o.r0 o.r1 o.theta ≠ .ok 1 := by
  refine h.fails 0 ?_ o ho
  -- the singular value of the 1 x 1 block `1` is 1
  have g := congrFun (congrFun h.grams.1 0) 0
  have hz : (toBlocks₁₂ (1 : Matrix (Fin 1 ⊕ Fin 1) (Fin 1 ⊕ Fin 1) ℂ)) = 0 := by
    rw [← fromBlocks_one, toBlocks_fromBlocks₁₂]
  rw [hz] at g
  simp only [conjTranspose_zero, Matrix.zero_mul, Matrix.zero_apply, diagonal_apply_eq] at g
  have g' : (0 : ℝ) = 1 - d00 0 ^ 2 := by exact_mod_cast g
  have := h.svd.nonneg 0
  nlinarith

/-- Non-vacuity of the round trip: the 2 x 2 swap-like unitary with `d00 = 0`. -/
theorem csRun_swap : CsRun (m := 1) (p := 1) (fromBlocks 0 1 1 0) 1 (fun _ => 0) 1 1 (fun _ => 1) 1 (fun _ => 1) where
  size := Or.inl rfl
  unitary := by
    rw [mem_unitaryGroup_iff, star_eq_conjTranspose, fromBlocks_conjTranspose, fromBlocks_multiply, ← fromBlocks_one]
    simp
  svd := ⟨one_mem _, one_mem _, fun _ => le_rfl, by rw [toBlocks_fromBlocks₁₁]; simp⟩
  qr1 := ⟨1, one_mem _, fun i j h => by omega, fun i j _ => by rw [Subsingleton.elim i j]; simp, by
    rw [toBlocks_fromBlocks₁₂]; simp⟩
  qr2 := ⟨1, one_mem _, fun i j h => by omega, fun i j _ => by rw [Subsingleton.elim i j]; simp, by
    rw [toBlocks_fromBlocks₂₁]; simp⟩

example : ∃ o : CsOut 1 1, csDecomp (fromBlocks 0 1 1 0) 1 (fun _ => 0) 1 1 (fun _ => 1) 1 (fun _ => 1) = o ∧
    csinv o.l0 o.l1 o.r0 o.r1 o.theta = .ok (fromBlocks 0 1 1 0) :=
  ⟨_, rfl, (C94_roundtrip_iff_partial csRun_swap _ rfl).2 fun _ => zero_ne_one⟩

end Simphox
