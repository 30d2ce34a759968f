import Verif.Rectangular
import Verif.MeshProps
import Mathlib.LinearAlgebra.Matrix.Block

/-! # The loop of `rectangular`: it nulls the lower triangle and records the inverse operations -/

namespace Simphox

open Matrix Complex

/-! ### Two-port algebra -/

theorem mziNode_ideal (θ φ : ℝ) : mziNodeMatrix 0 0 0 0 θ φ =
    !![I * exp (I * (θ / 2 : ℝ)) * Real.sin (θ / 2) * exp (I * φ), I * exp (I * (θ / 2 : ℝ)) * Real.cos (θ / 2);
      I * exp (I * (θ / 2 : ℝ)) * Real.cos (θ / 2) * exp (I * φ), -(I * exp (I * (θ / 2 : ℝ)) * Real.sin (θ / 2))] := by
  have h1 : exp (I * θ) = exp (I * (θ / 2 : ℝ)) ^ 2 := by
    rw [← exp_nat_mul]; push_cast; congr 1; ring
  have h2 : exp (I * (θ / 2 : ℝ)) = Real.cos (θ / 2) + Real.sin (θ / 2) * I := by
    rw [mul_comm, exp_mul_I, ← ofReal_cos, ← ofReal_sin]
  have h3 : (Real.cos (θ / 2) : ℂ) ^ 2 + (Real.sin (θ / 2) : ℂ) ^ 2 = 1 := by
    rw [← ofReal_pow, ← ofReal_pow, ← ofReal_add, Real.cos_sq_add_sin_sq, ofReal_one]
  have h4 : ((Real.sqrt 2 : ℝ) : ℂ) ^ 2 = 2 := by
    rw [← ofReal_pow, Real.sq_sqrt (by norm_num)]; norm_num
  have hI : I ^ 2 = -1 := I_sq
  unfold mziNodeMatrix dcMatrix phaseMatrix loss2insertion
  simp only [add_zero, mul_zero, zero_div, Real.exp_zero, Real.sqrt_one, ofReal_one, mul_one,
    Real.cos_pi_div_four, Real.sin_pi_div_four, ofReal_zero, exp_zero]
  rw [h1, h2]
  set c : ℂ := (Real.cos (θ / 2) : ℂ)
  set s : ℂ := (Real.sin (θ / 2) : ℂ)
  set e := exp (I * (φ : ℂ))
  set q : ℂ := ((Real.sqrt 2 : ℝ) : ℂ)
  rw [mul_fin_two, mul_fin_two, mul_fin_two]
  push_cast
  apply mk2_ext
  · linear_combination (e * ((c + s * I) ^ 2 + I ^ 2) / 4) * h4 + (e / 2) * h3 + (e * (1 - s ^ 2) / 2) * hI
  · linear_combination (I * ((c + s * I) ^ 2 + 1) / 4) * h4 - (I / 2) * h3 + (I * s ^ 2 / 2) * hI
  · linear_combination (e * I * ((c + s * I) ^ 2 + 1) / 4) * h4 - (e * I / 2) * h3 + (e * I * s ^ 2 / 2) * hI
  · linear_combination ((I ^ 2 * (c + s * I) ^ 2 + 1) / 4) * h4 - (1 / 2) * h3 +
      (((c + s * I) ^ 2 + s ^ 2) / 2) * hI

/-- `mzi(θ, φ)` is `mzi(θ, 0)` after the external phase `φ` on the top rail. -/
theorem mziNode_split (θ φ : ℝ) :
    mziNodeMatrix 0 0 0 0 θ φ = mziNodeMatrix 0 0 0 0 θ 0 * phaseMatrix φ 0 := by
  unfold mziNodeMatrix
  rw [show phaseMatrix (0 : ℝ) = 1 by
    unfold phaseMatrix; simp [← Matrix.one_fin_two], Matrix.mul_one]

theorem mziNode_unitary (θ φ : ℝ) : mziNodeMatrix 0 0 0 0 θ φ ∈ unitaryGroup (Fin 2) ℂ := by
  rw [← mziElements_top_eq]
  exact mziElements_unitary _ _ _ _ _ _

theorem phase2_unitary (a b : ℝ) : phaseMatrix a b ∈ unitaryGroup (Fin 2) ℂ := by
  have := diag2_unitary (norm_exp_I a) (norm_exp_I b)
  exact this

/-- The stored parameters of a left operation undo it. -/
theorem left_undo (θ φ : ℝ) :
    phaseMatrix (-φ - θ / 2 + Real.pi) (-θ / 2 + Real.pi) * mziNodeMatrix 0 0 0 0 θ 0 *
      (phaseMatrix (-θ / 2) (-θ / 2) * mziNodeMatrix 0 0 0 0 θ φ) = 1 := by
  rw [mziNode_ideal, mziNode_ideal]
  unfold phaseMatrix
  set E := exp (I * (θ / 2 : ℝ)) with hE
  have hE0 : E ≠ 0 := exp_ne_zero _
  have hF0 : exp (I * φ) ≠ 0 := exp_ne_zero _
  have e1 : exp (I * ((-θ / 2 : ℝ) : ℂ)) = E⁻¹ := by
    rw [hE, ← exp_neg]; congr 1; push_cast; ring
  have e2 : exp (I * ((-θ / 2 + Real.pi : ℝ) : ℂ)) = -E⁻¹ := by
    rw [ofReal_add, mul_add, exp_add, e1, mul_comm I (Real.pi : ℂ), exp_pi_mul_I]; ring
  have e3 : exp (I * ((-φ - θ / 2 + Real.pi : ℝ) : ℂ)) = -(E⁻¹ * (exp (I * φ))⁻¹) := by
    rw [show -φ - θ / 2 + Real.pi = (-θ / 2 + Real.pi) + -φ by ring, ofReal_add, mul_add, exp_add, e2,
      ofReal_neg, mul_neg, exp_neg]; ring
  rw [e1, e2, e3]
  have h3 : (Real.cos (θ / 2) : ℂ) ^ 2 + (Real.sin (θ / 2) : ℂ) ^ 2 = 1 := by
    rw [← ofReal_pow, ← ofReal_pow, ← ofReal_add, Real.cos_sq_add_sin_sq, ofReal_one]
  have hI : I ^ 2 = -1 := I_sq
  simp only [ofReal_zero, mul_zero, exp_zero, mul_one]
  set c : ℂ := (Real.cos (θ / 2) : ℂ)
  set s : ℂ := (Real.sin (θ / 2) : ℂ)
  set F := exp (I * (φ : ℂ))
  rw [mul_fin_two, mul_fin_two, mul_fin_two, Matrix.one_fin_two]
  apply mk2_ext
  · field_simp
    linear_combination -h3 * I ^ 2 - hI
  · field_simp
    ring
  · field_simp
    ring
  · field_simp
    linear_combination -h3 * I ^ 2 - hI

/-! ### Entries of products with embedded two-ports -/

theorem entry_lt {n : ℕ} (u : Matrix (Fin n) (Fin n) ℂ) {r c : ℕ} (hr : r < n) (hc : c < n) :
    entry u r c = u ⟨r, hr⟩ ⟨c, hc⟩ := dif_pos ⟨hr, hc⟩

theorem entry_embed_mul {n p : ℕ} (hp : p + 1 < n) (m : Matrix (Fin 2) (Fin 2) ℂ)
    (u : Matrix (Fin n) (Fin n) ℂ) (r c : ℕ) :
    entry (embed2 n p (p + 1) m * u) r c =
      if r = p then m 0 0 * entry u p c + m 0 1 * entry u (p + 1) c
      else if r = p + 1 then m 1 0 * entry u p c + m 1 1 * entry u (p + 1) c
      else entry u r c := by
  by_cases hc : c < n
  · by_cases hr : r < n
    · rw [entry_lt _ hr hc, entry_lt _ (by omega : p < n) hc, entry_lt _ hp hc, entry_lt _ hr hc]
      have h2 : (embed2 n p (p + 1) m * u) ⟨r, hr⟩ ⟨c, hc⟩ =
          (embed2 n p (p + 1) m).mulVec (fun k => u k ⟨c, hc⟩) ⟨r, hr⟩ := rfl
      rw [h2, embed2_mulVec (by omega) hp (by omega)]
    · have h0 : ∀ w : Matrix (Fin n) (Fin n) ℂ, entry w r c = 0 := fun w => dif_neg (by omega)
      rw [h0, h0, if_neg (by omega), if_neg (by omega)]
  · have h0 : ∀ (w : Matrix (Fin n) (Fin n) ℂ) (r : ℕ), entry w r c = 0 := fun w r => dif_neg (by omega)
    simp [h0]

theorem entry_mul_embedH {n p : ℕ} (hp : p + 1 < n) (m : Matrix (Fin 2) (Fin 2) ℂ)
    (u : Matrix (Fin n) (Fin n) ℂ) (r c : ℕ) :
    entry (u * (embed2 n p (p + 1) m)ᴴ) r c =
      if c = p then entry u r p * star (m 0 0) + entry u r (p + 1) * star (m 0 1)
      else if c = p + 1 then entry u r p * star (m 1 0) + entry u r (p + 1) * star (m 1 1)
      else entry u r c := by
  have ht : ∀ (w : Matrix (Fin n) (Fin n) ℂ) (a b : ℕ), entry w a b = star (entry wᴴ b a) := by
    intro w a b
    unfold entry
    by_cases h : a < n ∧ b < n
    · rw [dif_pos h, dif_pos ⟨h.2, h.1⟩, conjTranspose_apply, star_star]
    · rw [dif_neg h, dif_neg (by omega), star_zero]
  rw [ht, conjTranspose_mul, conjTranspose_conjTranspose, entry_embed_mul hp]
  simp only [ht u r]
  split_ifs
  · simp [mul_comm]
  · simp [mul_comm]
  · rfl

/-! ### Nulling -/

theorem arctan2_spec (y x : ℝ) :
    x * Real.sin (arctan2 y x) = y * Real.cos (arctan2 y x) := by
  unfold arctan2
  by_cases h : (⟨x, y⟩ : ℂ) = 0
  · have h1 := congrArg Complex.re h
    have h2 := congrArg Complex.im h
    simp at h1 h2
    rw [h1, h2]; ring
  · rw [Complex.sin_arg, Complex.cos_arg h]
    simp only
    ring

theorem mul_exp_neg_arg (z : ℂ) : z * exp (-(I * (arg z : ℂ))) = ‖z‖ := by
  nth_rewrite 1 [← norm_mul_exp_arg_mul_I z]
  rw [mul_assoc, ← exp_add, mul_comm I, add_neg_cancel, exp_zero, mul_one]

/-- The right operation nulls its target. -/
theorem right_null (a b : ℂ) :
    let θ := arctan2 ‖b‖ ‖a‖ * 2
    let φ := arg (-a) - arg b
    a * star (mziNodeMatrix 0 0 0 0 θ φ 0 0) + b * star (mziNodeMatrix 0 0 0 0 θ φ 0 1) = 0 := by
  intro θ φ
  rw [mziNode_ideal]
  have h1 : θ / 2 = arctan2 ‖b‖ ‖a‖ := by simp [θ]
  rw [h1]
  set t := arctan2 ‖b‖ ‖a‖
  have hs : (‖a‖ : ℂ) * Real.sin t = ‖b‖ * Real.cos t := by
    have := arctan2_spec ‖b‖ ‖a‖
    rw [← ofReal_mul, ← ofReal_mul, this]
  simp only [of_apply, cons_val_zero, cons_val_one, cons_val', cons_val_fin_one, Fin.isValue]
  have hc1 : star (exp (I * (φ : ℂ))) = exp (-(I * (arg (-a) : ℂ))) * exp (I * (arg b : ℂ)) := by
    rw [← exp_add, star_def, ← exp_conj]
    congr 1
    simp [φ]
    ring
  have hb : exp (I * (arg b : ℂ)) * ‖b‖ = b := by
    rw [mul_comm, mul_comm I]; exact norm_mul_exp_arg_mul_I b
  have ha : a * exp (-(I * (arg (-a) : ℂ))) = -(‖a‖ : ℂ) := by
    have := mul_exp_neg_arg (-a)
    rw [norm_neg] at this
    rw [← this]; ring
  rw [star_mul, star_mul, star_mul, hc1, star_mul]
  have hsr : ∀ x : ℝ, star (x : ℂ) = x := fun x => conj_ofReal x
  rw [hsr, hsr]
  calc _ = star (I * exp (I * (t : ℂ))) * ((a * exp (-(I * (arg (-a) : ℂ)))) * exp (I * (arg b : ℂ)) * Real.sin t +
        b * Real.cos t) := by rw [star_mul]; ring
    _ = 0 := by
      rw [ha]
      nth_rewrite 2 [← hb]
      linear_combination (-star (I * exp (I * (t : ℂ))) * exp (I * (arg b : ℂ))) * hs

/-- The left operation nulls its target (`a` above the target `b`). -/
theorem left_null (a b : ℂ) :
    let θ := arctan2 ‖a‖ ‖b‖ * 2
    let φ := arg b - arg a
    mziNodeMatrix 0 0 0 0 θ φ 1 0 * a + mziNodeMatrix 0 0 0 0 θ φ 1 1 * b = 0 := by
  intro θ φ
  rw [mziNode_ideal]
  have h1 : θ / 2 = arctan2 ‖a‖ ‖b‖ := by simp [θ]
  rw [h1]
  set t := arctan2 ‖a‖ ‖b‖
  have hs : (‖b‖ : ℂ) * Real.sin t = ‖a‖ * Real.cos t := by
    have := arctan2_spec ‖a‖ ‖b‖
    rw [← ofReal_mul, ← ofReal_mul, this]
  simp only [of_apply, cons_val_zero, cons_val_one, cons_val', cons_val_fin_one, Fin.isValue]
  have hc1 : exp (I * (φ : ℂ)) = exp (-(I * (arg a : ℂ))) * exp (I * (arg b : ℂ)) := by
    rw [← exp_add]
    congr 1
    simp [φ]
    ring
  have hb : exp (I * (arg b : ℂ)) * ‖b‖ = b := by
    rw [mul_comm, mul_comm I]; exact norm_mul_exp_arg_mul_I b
  have ha : a * exp (-(I * (arg a : ℂ))) = (‖a‖ : ℂ) := mul_exp_neg_arg a
  rw [hc1]
  calc _ = I * exp (I * (t : ℂ)) * ((a * exp (-(I * (arg a : ℂ)))) * exp (I * (arg b : ℂ)) * Real.cos t -
        b * Real.sin t) := by ring
    _ = 0 := by
      rw [ha]
      nth_rewrite 2 [← hb]
      linear_combination (-(I * exp (I * (t : ℂ))) * exp (I * (arg b : ℂ))) * hs

/-- Everything strictly below the `d`-th subdiagonal is zero. -/
def ZeroBelow {n : ℕ} (d : ℕ) (u : Matrix (Fin n) (Fin n) ℂ) : Prop :=
  ∀ r c, c + d < r → entry u r c = 0

theorem rectLeft_zero {n i j d : ℕ} (hi : i + 1 + d = n) (hd : 0 < d) (hj : j ≤ i) (s : RectState n)
    (h1 : ZeroBelow d s.u) (h2 : ∀ c < j, entry s.u (c + d) c = 0) :
    ZeroBelow d (rectLeft n i j s).u ∧ ∀ c < j + 1, entry (rectLeft n i j s).u (c + d) c = 0 := by
  have hp : n + j - i - 2 + 1 < n := by omega
  have hrow : n + j - i - 1 = n + j - i - 2 + 1 := by omega
  have hu : ∀ θ φ : ℝ, embed2 n (n + j - i - 2) (n + j - i - 2 + 1) (phaseMatrix (-θ / 2) (-θ / 2)) *
      embed2 n (n + j - i - 2) (n + j - i - 2 + 1) (mziNodeMatrix 0 0 0 0 θ φ) * s.u =
      embed2 n (n + j - i - 2) (n + j - i - 2 + 1)
        (phaseMatrix (-θ / 2) (-θ / 2) * mziNodeMatrix 0 0 0 0 θ φ) * s.u := by
    intro θ φ
    rw [embed2_mul (by omega) (by omega) (by omega)]
  simp only [rectLeft, hu, hrow, Nat.add_sub_cancel]
  set p := n + j - i - 2 with hpd
  have hpj : p + 1 = j + d := by omega
  have hnull := left_null (entry s.u p j) (entry s.u (p + 1) j)
  simp only at hnull
  set θ := arctan2 ‖entry s.u p j‖ ‖entry s.u (p + 1) j‖ * 2
  set φ := arg (entry s.u (p + 1) j) - arg (entry s.u p j)
  set T := mziNodeMatrix 0 0 0 0 θ φ
  constructor
  · intro r c hrc
    rw [entry_embed_mul hp]
    split_ifs with e1 e2
    · rw [h1 p c (by omega), h1 (p + 1) c (by omega)]; ring
    · rw [h1 (p + 1) c (by omega)]
      have : entry s.u p c = 0 := by
        by_cases hc : c + d < p
        · exact h1 p c hc
        · have := h2 c (by omega)
          rwa [show c + d = p by omega] at this
      rw [this]; ring
    · exact h1 r c hrc
  · intro c hc
    rw [entry_embed_mul hp]
    split_ifs with e1 e2
    · rw [h1 (p + 1) c (by omega)]
      have := h2 c (by omega)
      rw [e1] at this
      rw [this]; ring
    · have hcj : c = j := by omega
      subst hcj
      have m10 : (phaseMatrix (-θ / 2) (-θ / 2) * T) 1 0 = exp (I * ((-θ / 2 : ℝ) : ℂ)) * T 1 0 := by
        simp [phaseMatrix, Matrix.mul_apply, Fin.sum_univ_two]
      have m11 : (phaseMatrix (-θ / 2) (-θ / 2) * T) 1 1 = exp (I * ((-θ / 2 : ℝ) : ℂ)) * T 1 1 := by
        simp [phaseMatrix, Matrix.mul_apply, Fin.sum_univ_two]
      rw [m10, m11]
      linear_combination exp (I * ((-θ / 2 : ℝ) : ℂ)) * hnull
    · exact h2 c (by omega)

theorem rectRight_zero {n i j d : ℕ} (hi : i + 1 + d = n) (hd : 0 < d) (hj : j ≤ i) (s : RectState n)
    (h1 : ZeroBelow d s.u) (h2 : ∀ c, i - j < c → entry s.u (c + d) c = 0) :
    ZeroBelow d (rectRight n i j s).u ∧
      ∀ c, i < c + (j + 1) → entry (rectRight n i j s).u (c + d) c = 0 := by
  have hp : i - j + 1 < n := by omega
  simp only [rectRight]
  set p := i - j with hpd
  have hrow : n - j - 1 = p + d := by omega
  rw [hrow]
  have hnull := right_null (entry s.u (p + d) p) (entry s.u (p + d) (p + 1))
  simp only at hnull
  set θ := arctan2 ‖entry s.u (p + d) (p + 1)‖ ‖entry s.u (p + d) p‖ * 2
  set φ := arg (-entry s.u (p + d) p) - arg (entry s.u (p + d) (p + 1))
  set T := mziNodeMatrix 0 0 0 0 θ φ
  constructor
  · intro r c hrc
    rw [entry_mul_embedH hp]
    have aux : ∀ r, p + d < r → entry s.u r (p + 1) = 0 := by
      intro r hr
      by_cases hc : p + 1 + d < r
      · exact h1 r (p + 1) hc
      · have := h2 (p + 1) (by omega)
        rwa [show p + 1 + d = r by omega] at this
    split_ifs with e1 e2
    · rw [h1 r p (by omega), aux r (by omega)]; ring
    · rw [h1 r p (by omega), aux r (by omega)]; ring
    · exact h1 r c hrc
  · intro c hc
    rw [entry_mul_embedH hp]
    split_ifs with e1 e2
    · rw [e1]; exact hnull
    · rw [e2]
      have := h2 (p + 1) (by omega)
      rw [this, h1 (p + 1 + d) p (by omega)]; ring
    · exact h2 c (by omega)

/-- After the loop the lower triangle is zero. -/
theorem rectLoop_zero {n : ℕ} (hn : 1 ≤ n) (u : Matrix (Fin n) (Fin n) ℂ) :
    ZeroBelow 0 (rectLoop n u).u := by
  have outer : ∀ k ≤ n - 1, ∀ s : RectState n, ZeroBelow (n - 1) s.u →
      ZeroBelow (n - 1 - k) (((List.range k).flatMap fun i => (List.range (i + 1)).map fun j => (i, j)).foldl
        (rectStep n) s).u := by
    intro k
    induction k with
    | zero => intro _ s h; simpa using h
    | succ k ih =>
      intro hk s h
      rw [List.range_succ, List.flatMap_append, List.foldl_append]
      have h1 := ih (by omega) s h
      set t := ((List.range k).flatMap fun i => (List.range (i + 1)).map fun j => (i, j)).foldl
        (rectStep n) s
      simp only [List.flatMap_cons, List.flatMap_nil, List.append_nil]
      set d := n - 1 - k with hd
      have hkd : k + 1 + d = n := by omega
      by_cases hpar : k % 2 = 1
      · have inner : ∀ m ≤ k + 1,
            ZeroBelow d (((List.range m).map fun j => (k, j)).foldl (rectStep n) t).u ∧
            ∀ c < m, entry (((List.range m).map fun j => (k, j)).foldl (rectStep n) t).u (c + d) c = 0 := by
          intro m
          induction m with
          | zero => intro _; exact ⟨by simpa using h1, by simp⟩
          | succ m ihm =>
            intro hm
            obtain ⟨a, b⟩ := ihm (by omega)
            rw [List.range_succ, List.map_append, List.foldl_append]
            simp only [List.map_cons, List.map_nil, List.foldl_cons, List.foldl_nil, rectStep, hpar, if_true]
            exact rectLeft_zero hkd (by omega) (by omega) _ a b
        obtain ⟨a, b⟩ := inner (k + 1) le_rfl
        intro r c hrc
        by_cases hrc' : c + d < r
        · exact a r c hrc'
        · have hr : r = c + d := by omega
          subst hr
          by_cases hc : c < k + 1
          · exact b c hc
          · exact dif_neg (by omega)
      · have inner : ∀ m ≤ k + 1,
            ZeroBelow d (((List.range m).map fun j => (k, j)).foldl (rectStep n) t).u ∧
            ∀ c, k < c + m → entry (((List.range m).map fun j => (k, j)).foldl (rectStep n) t).u (c + d) c = 0 := by
          intro m
          induction m with
          | zero =>
            intro _
            exact ⟨by simpa using h1, fun c hc => dif_neg (by omega)⟩
          | succ m ihm =>
            intro hm
            obtain ⟨a, b⟩ := ihm (by omega)
            rw [List.range_succ, List.map_append, List.foldl_append]
            simp only [List.map_cons, List.map_nil, List.foldl_cons, List.foldl_nil, rectStep, hpar, if_false]
            exact rectRight_zero hkd (by omega) (by omega) _ a (fun c hc => b c (by omega))
        obtain ⟨a, b⟩ := inner (k + 1) le_rfl
        intro r c hrc
        by_cases hrc' : c + d < r
        · exact a r c hrc'
        · have hr : r = c + d := by omega
          subst hr
          exact b c (by omega)
  have := outer (n - 1) le_rfl ⟨u, fun _ _ => 0, fun _ _ => 0⟩ (by
    intro r c hrc
    exact dif_neg (by omega))
  simpa [rectLoop, rectSteps] using this

/-! ### The recorded operations -/

/-- Rails `pairwise_index`, `pairwise_index + 1` of a step. -/
def stepRail (n : ℕ) (x : ℕ × ℕ) : ℕ := if x.1 % 2 = 1 then n + x.2 - x.1 - 2 else x.1 - x.2

/-- Column of the step's MZI in `theta_checkerboard`. -/
def stepCol (n : ℕ) (x : ℕ × ℕ) : ℕ := if x.1 % 2 = 1 then n - 1 - x.2 else x.2

/-- The cells of `phi_checkerboard` written by a step. -/
def StepWrites (n : ℕ) (x : ℕ × ℕ) (r c : ℕ) : Prop :=
  if x.1 % 2 = 1 then (r = stepRail n x ∨ r = stepRail n x + 1) ∧ c = stepCol n x + 1
  else r = stepRail n x ∧ c = stepCol n x

/-- `(i, j)` is a value of the loop variables. -/
def StepValid (n : ℕ) (x : ℕ × ℕ) : Prop := x.1 + 1 < n ∧ x.2 ≤ x.1

theorem mem_rectSteps {n : ℕ} {x : ℕ × ℕ} : x ∈ rectSteps n ↔ StepValid n x := by
  unfold rectSteps StepValid
  simp only [List.mem_flatMap, List.mem_range, List.mem_map]
  constructor
  · rintro ⟨i, hi, j, hj, rfl⟩; simp only; omega
  · intro h; exact ⟨x.1, by omega, x.2, by omega, rfl⟩

/-- The order of the loop. -/
def StepLt (x y : ℕ × ℕ) : Prop := x.1 < y.1 ∨ x.1 = y.1 ∧ x.2 < y.2

theorem rectSteps_pairwise (n : ℕ) : (rectSteps n).Pairwise StepLt := by
  unfold rectSteps
  rw [List.pairwise_flatMap]
  refine ⟨?_, ?_⟩
  · intro i _
    rw [List.pairwise_map]
    exact (List.pairwise_lt_range).imp fun h => Or.inr ⟨rfl, h⟩
  · refine (List.pairwise_lt_range).imp ?_
    intro a b hab x hx y hy
    simp only [List.mem_map, List.mem_range] at hx hy
    obtain ⟨_, _, rfl⟩ := hx
    obtain ⟨_, _, rfl⟩ := hy
    exact Or.inl hab

theorem step_bounds {n : ℕ} {x : ℕ × ℕ} (h : StepValid n x) :
    stepRail n x + 1 < n ∧ stepCol n x < n ∧ stepRail n x % 2 = stepCol n x % 2 ∧
      (x.1 % 2 = 1 → stepRail n x + stepCol n x + x.1 + 3 = 2 * n) ∧
      (x.1 % 2 ≠ 1 → stepRail n x + stepCol n x = x.1) := by
  obtain ⟨h1, h2⟩ := h
  unfold stepRail stepCol
  split <;> omega

/-- Different steps use different MZIs and write different cells. -/
theorem step_disjoint {n : ℕ} {x y : ℕ × ℕ} (hx : StepValid n x) (hy : StepValid n y) (h : StepLt x y) :
    ¬ (stepRail n x = stepRail n y ∧ stepCol n x = stepCol n y) ∧
      ∀ r c, StepWrites n x r c → ¬ StepWrites n y r c := by
  obtain ⟨x1, x2⟩ := hx
  obtain ⟨y1, y2⟩ := hy
  unfold StepLt at h
  refine ⟨?_, ?_⟩
  · unfold stepRail stepCol
    split_ifs <;> omega
  · intro r c
    unfold StepWrites stepRail stepCol
    split_ifs <;> omega

/-- The inverse of a left operation, read off the final checkerboards. -/
noncomputable def gateL (n : ℕ) (s : RectState n) (x : ℕ × ℕ) : Matrix (Fin n) (Fin n) ℂ :=
  embed2 n (stepRail n x) (stepRail n x + 1)
    (phaseMatrix (s.phi (stepRail n x) (stepCol n x + 1)) (s.phi (stepRail n x + 1) (stepCol n x + 1)) *
      mziNodeMatrix 0 0 0 0 (s.theta (stepRail n x) (stepCol n x)) 0)

/-- The inverse of a right operation, read off the final checkerboards. -/
noncomputable def gateR (n : ℕ) (s : RectState n) (x : ℕ × ℕ) : Matrix (Fin n) (Fin n) ℂ :=
  embed2 n (stepRail n x) (stepRail n x + 1)
    (mziNodeMatrix 0 0 0 0 (s.theta (stepRail n x) (stepCol n x)) (s.phi (stepRail n x) (stepCol n x)))

theorem rectStep_theta {n : ℕ} (s : RectState n) {x : ℕ × ℕ} {r c : ℕ}
    (h : ¬ (r = stepRail n x ∧ c = stepCol n x)) : (rectStep n s x).theta r c = s.theta r c := by
  unfold stepRail stepCol at h
  unfold rectStep
  split_ifs with hp
  · rw [if_pos hp, if_pos hp] at h
    simp only [rectLeft, setCell, if_neg h]
  · rw [if_neg hp, if_neg hp] at h
    simp only [rectRight, setCell, if_neg h]

theorem rectStep_phi {n : ℕ} (s : RectState n) {x : ℕ × ℕ} (hx : StepValid n x) {r c : ℕ}
    (h : ¬ StepWrites n x r c) : (rectStep n s x).phi r c = s.phi r c := by
  obtain ⟨x1, x2⟩ := hx
  unfold StepWrites stepRail stepCol at h
  unfold rectStep
  split_ifs with hp
  · simp only [if_pos hp] at h
    simp only [rectLeft, setCell]
    rw [if_neg (by omega), if_neg (by omega)]
  · simp only [if_neg hp] at h
    simp only [rectRight, setCell, if_neg h]

/-- One step is undone by the operation read off the checkerboards it has written. -/
theorem rectStep_undo {n : ℕ} (s : RectState n) {x : ℕ × ℕ} (hx : StepValid n x) :
    s.u = (if x.1 % 2 = 1 then gateL n (rectStep n s x) x else 1) * (rectStep n s x).u *
      (if x.1 % 2 = 1 then 1 else gateR n (rectStep n s x) x) := by
  have hb := step_bounds hx
  obtain ⟨x1, x2⟩ := hx
  by_cases hp : x.1 % 2 = 1
  · simp only [hp, if_true]
    have hc : n - x.2 = n - 1 - x.2 + 1 := by omega
    unfold gateL rectStep
    simp only [hp, if_true, stepRail, stepCol] at hb ⊢
    simp only [rectLeft]
    set p := n + x.2 - x.1 - 2
    rw [← hc]
    simp only [setCell, and_self, if_true]
    rw [if_neg (by omega)]
    rw [Matrix.mul_one, ← Matrix.mul_assoc, ← embed2_mul (by omega) (by omega) (by omega),
      ← embed2_mul (by omega) (by omega) (by omega), left_undo, embed2_one (by omega) (by omega) (by omega),
      Matrix.one_mul]
  · simp only [hp, if_false]
    unfold gateR rectStep
    simp only [hp, if_false, stepRail, stepCol] at hb ⊢
    simp only [rectRight, setCell, and_self, if_true]
    have hu := embed2_unitary (n := n) (i := x.1 - x.2) (j := x.1 - x.2 + 1) (by omega) (by omega) (by omega)
      (mziNode_unitary (arctan2 ‖entry s.u (n - x.2 - 1) (x.1 - x.2 + 1)‖ ‖entry s.u (n - x.2 - 1) (x.1 - x.2)‖ * 2)
        (arg (-entry s.u (n - x.2 - 1) (x.1 - x.2)) - arg (entry s.u (n - x.2 - 1) (x.1 - x.2 + 1))))
    rw [mem_unitaryGroup_iff', star_eq_conjTranspose] at hu
    rw [Matrix.one_mul, Matrix.mul_assoc, hu, Matrix.mul_one]

theorem foldl_cells {n : ℕ} (l : List (ℕ × ℕ)) (hv : ∀ x ∈ l, StepValid n x) (s : RectState n) :
    (∀ r c, (∀ x ∈ l, ¬ (r = stepRail n x ∧ c = stepCol n x)) →
      (l.foldl (rectStep n) s).theta r c = s.theta r c) ∧
    ∀ r c, (∀ x ∈ l, ¬ StepWrites n x r c) → (l.foldl (rectStep n) s).phi r c = s.phi r c := by
  induction l generalizing s with
  | nil => simp
  | cons x l ih =>
    have := ih (fun y hy => hv y (by simp [hy])) (rectStep n s x)
    simp only [List.foldl_cons]
    refine ⟨fun r c h => ?_, fun r c h => ?_⟩
    · rw [this.1 r c fun y hy => h y (by simp [hy]), rectStep_theta s (h x (by simp))]
    · rw [this.2 r c fun y hy => h y (by simp [hy]), rectStep_phi s (hv x (by simp)) (h x (by simp))]

/-- The matrix before a run of steps, from the matrix after it and the final checkerboards. -/
theorem foldl_undo {n : ℕ} (l : List (ℕ × ℕ)) (hv : ∀ x ∈ l, StepValid n x) (hd : l.Pairwise StepLt)
    (s : RectState n) :
    s.u = ((l.filter fun x => x.1 % 2 = 1).map (gateL n (l.foldl (rectStep n) s))).prod *
      (l.foldl (rectStep n) s).u *
      ((l.filter fun x => ¬ x.1 % 2 = 1).map (gateR n (l.foldl (rectStep n) s))).reverse.prod := by
  induction l generalizing s with
  | nil => simp
  | cons x l ih =>
    rw [List.pairwise_cons] at hd
    have hv' : ∀ y ∈ l, StepValid n y := fun y hy => hv y (by simp [hy])
    have hx := hv x (by simp)
    have h1 := ih hv' hd.2 (rectStep n s x)
    have h2 := rectStep_undo s hx
    have hcells := foldl_cells l hv' (rectStep n s x)
    simp only [List.foldl_cons]
    set t := l.foldl (rectStep n) (rectStep n s x) with ht
    have hth : t.theta (stepRail n x) (stepCol n x) =
        (rectStep n s x).theta (stepRail n x) (stepCol n x) :=
      hcells.1 _ _ fun y hy => (step_disjoint hx (hv' y hy) (hd.1 y hy)).1
    have hph : ∀ r c, StepWrites n x r c → t.phi r c = (rectStep n s x).phi r c := fun r c hw =>
      hcells.2 _ _ fun y hy => (step_disjoint hx (hv' y hy) (hd.1 y hy)).2 r c hw
    by_cases hp : x.1 % 2 = 1
    · rw [List.filter_cons_of_pos (by simpa using hp), List.filter_cons_of_neg (by simpa using hp)]
      rw [if_pos hp, if_pos hp, Matrix.mul_one] at h2
      have hg : gateL n t x = gateL n (rectStep n s x) x := by
        unfold gateL
        rw [hth, hph _ _ (by unfold StepWrites; simp [hp]), hph _ _ (by unfold StepWrites; simp [hp])]
      rw [List.map_cons, List.prod_cons, hg]
      rw [h2]
      conv_lhs => rw [h1]
      simp only [Matrix.mul_assoc]
    · rw [List.filter_cons_of_neg (by simpa using hp), List.filter_cons_of_pos (by simpa using hp)]
      rw [if_neg hp, if_neg hp, Matrix.one_mul] at h2
      have hg : gateR n t x = gateR n (rectStep n s x) x := by
        unfold gateR
        rw [hth, hph _ _ (by unfold StepWrites; simp [hp])]
      rw [List.map_cons, List.reverse_cons, List.prod_append, List.prod_singleton, hg]
      rw [h2]
      conv_lhs => rw [h1]
      simp only [Matrix.mul_assoc]

theorem rectStep_unitary {n : ℕ} (s : RectState n) {x : ℕ × ℕ} (hx : StepValid n x)
    (hu : s.u ∈ unitaryGroup (Fin n) ℂ) : (rectStep n s x).u ∈ unitaryGroup (Fin n) ℂ := by
  have hb := (step_bounds hx).1
  unfold rectStep
  unfold stepRail at hb
  split_ifs with hp
  · rw [if_pos hp] at hb
    exact mul_mem (mul_mem (embed2_unitary (by omega) (by omega) (by omega) (phase2_unitary _ _))
      (embed2_unitary (by omega) (by omega) (by omega) (mziNode_unitary _ _))) hu
  · rw [if_neg hp] at hb
    refine mul_mem hu ?_
    rw [← star_eq_conjTranspose]
    exact Unitary.star_mem (embed2_unitary (by omega) (by omega) (by omega) (mziNode_unitary _ _))

theorem rectLoop_unitary {n : ℕ} {u : Matrix (Fin n) (Fin n) ℂ} (hu : u ∈ unitaryGroup (Fin n) ℂ) :
    (rectLoop n u).u ∈ unitaryGroup (Fin n) ℂ := by
  have : ∀ (l : List (ℕ × ℕ)), (∀ x ∈ l, StepValid n x) → ∀ s : RectState n,
      s.u ∈ unitaryGroup (Fin n) ℂ → (l.foldl (rectStep n) s).u ∈ unitaryGroup (Fin n) ℂ := by
    intro l
    induction l with
    | nil => intro _ s h; exact h
    | cons x l ih =>
      intro hv s h
      exact ih (fun y hy => hv y (by simp [hy])) _ (rectStep_unitary s (hv x (by simp)) h)
  exact this _ (fun x hx => mem_rectSteps.1 hx) _ hu

/-- A unitary upper triangular matrix is diagonal. -/
theorem unitary_triangular_diagonal {n : ℕ} {u : Matrix (Fin n) (Fin n) ℂ}
    (hu : u ∈ unitaryGroup (Fin n) ℂ) (hz : ∀ r c : Fin n, c < r → u r c = 0) :
    ∀ r c : Fin n, r ≠ c → u r c = 0 := by
  have hbt : u.BlockTriangular id := fun r c h => hz r c h
  have h1 : u * uᴴ = 1 := by rw [← star_eq_conjTranspose]; exact (mem_unitaryGroup_iff).1 hu
  have : Invertible u := invertibleOfRightInverse u uᴴ h1
  have h2 : u⁻¹ = uᴴ := inv_eq_right_inv h1
  have h3 : (u⁻¹).BlockTriangular id := blockTriangular_inv_of_blockTriangular hbt
  intro r c hrc
  rcases lt_or_gt_of_ne hrc with h | h
  · have := h3 (show id r < id c from h)
    rw [h2, conjTranspose_apply, star_eq_zero] at this
    exact this
  · exact hz r c h

theorem rectLoop_diagonal {n : ℕ} (hn : 1 ≤ n) {u : Matrix (Fin n) (Fin n) ℂ}
    (hu : u ∈ unitaryGroup (Fin n) ℂ) :
    (rectLoop n u).u = diagonal fun r : Fin n => exp (I * (arg (entry (rectLoop n u).u r r) : ℂ)) := by
  have hun := rectLoop_unitary hu
  have hz := rectLoop_zero hn u
  set d := (rectLoop n u).u
  have hdiag := unitary_triangular_diagonal hun fun r c h => by
    have := hz r c (by simpa using h)
    rwa [entry_lt _ r.2 c.2] at this
  ext r c
  by_cases hrc : r = c
  · subst hrc
    rw [diagonal_apply_eq, entry_lt _ r.2 r.2]
    have h1 : (d * dᴴ) r r = 1 := by
      rw [← star_eq_conjTranspose, (mem_unitaryGroup_iff).1 hun, one_apply_eq]
    rw [Matrix.mul_apply, Finset.sum_eq_single r] at h1
    · rw [conjTranspose_apply, star_def, Complex.mul_conj, normSq_eq_norm_sq] at h1
      have h2 : ‖d r r‖ ^ 2 = 1 := by exact_mod_cast h1
      have h3 : ‖d r r‖ = 1 := by
        have := norm_nonneg (d r r); nlinarith
      have := norm_mul_exp_arg_mul_I (d r r)
      rw [h3, ofReal_one, one_mul, mul_comm] at this
      exact this.symm
    · intro k _ hk
      rw [hdiag r k hk.symm, zero_mul]
    · simp
  · rw [diagonal_apply_ne _ hrc, hdiag r c hrc]

end Simphox
