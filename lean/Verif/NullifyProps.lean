import Verif.Nullify
import Verif.MeshProps

/-! # `CouplingNode.nullify` (C106) -/

namespace Simphox

open Complex Matrix

theorem npArctan2_polar (a b : ℂ) :
    ‖b‖ = Real.sqrt (‖a‖ ^ 2 + ‖b‖ ^ 2) * Real.cos (npArctan2 ‖a‖ ‖b‖) ∧
    ‖a‖ = Real.sqrt (‖a‖ ^ 2 + ‖b‖ ^ 2) * Real.sin (npArctan2 ‖a‖ ‖b‖) := by
  have hn : ‖((‖b‖ : ℝ) : ℂ) + (‖a‖ : ℝ) * I‖ = Real.sqrt (‖a‖ ^ 2 + ‖b‖ ^ 2) := by
    rw [Complex.norm_add_mul_I, add_comm]
  have h := Complex.norm_mul_exp_arg_mul_I (((‖b‖ : ℝ) : ℂ) + (‖a‖ : ℝ) * I)
  rw [hn] at h
  have hre := congrArg Complex.re h
  have him := congrArg Complex.im h
  rw [Complex.re_ofReal_mul, Complex.exp_ofReal_mul_I_re] at hre
  rw [Complex.im_ofReal_mul, Complex.exp_ofReal_mul_I_im] at him
  simp at hre him
  exact ⟨hre.symm, him.symm⟩

theorem npArctan2_range (a b : ℂ) : 0 ≤ npArctan2 ‖a‖ ‖b‖ ∧ npArctan2 ‖a‖ ‖b‖ ≤ Real.pi / 2 := by
  unfold npArctan2
  have hre : (((‖b‖ : ℝ) : ℂ) + (‖a‖ : ℝ) * I).re = ‖b‖ := by simp
  have him : (((‖b‖ : ℝ) : ℂ) + (‖a‖ : ℝ) * I).im = ‖a‖ := by simp
  refine ⟨Complex.arg_nonneg_iff.2 (by rw [him]; exact norm_nonneg _), ?_⟩
  have := Complex.abs_arg_le_pi_div_two_iff.2 (by rw [hre]; exact norm_nonneg b : (0 : ℝ) ≤ (((‖b‖ : ℝ) : ℂ) + (‖a‖ : ℝ) * I).re)
  exact (abs_le.1 this).2

/-- The ideal node in terms of the half phase. -/
theorem mziNode_half (h phi : ℝ) :
    mziNodeMatrix 0 0 0 0 (h * 2) phi =
      !![I * exp (I * h) * (Real.sin h : ℝ) * exp (I * phi), I * exp (I * h) * (Real.cos h : ℝ);
         I * exp (I * h) * (Real.cos h : ℝ) * exp (I * phi), -(I * exp (I * h) * (Real.sin h : ℝ))] := by
  have he : exp (I * ((h * 2 : ℝ) : ℂ)) = exp (I * h) * exp (I * h) := by
    rw [← Complex.exp_add]; push_cast; ring_nf
  have hh : exp (I * h) = Real.cos h + Real.sin h * I := by
    rw [mul_comm, Complex.exp_mul_I]; push_cast; rfl
  have h2 : (Real.sqrt 2 : ℂ) * Real.sqrt 2 = 2 := by
    rw [← Complex.ofReal_mul, Real.mul_self_sqrt (by norm_num)]; norm_num
  have hc : (Real.cos h : ℂ) * Real.cos h + Real.sin h * Real.sin h = 1 := by
    have := Real.cos_sq_add_sin_sq h
    rw [← Complex.ofReal_mul, ← Complex.ofReal_mul, ← Complex.ofReal_add]
    norm_cast
    nlinarith
  have hI := Complex.I_mul_I
  rw [mziNodeMatrix, dcMatrix_lossless]
  simp only [add_zero, coupler, phaseMatrix, Real.cos_pi_div_four, Real.sin_pi_div_four, he]
  push_cast
  simp only [Matrix.mul_fin_two, mul_zero, Complex.exp_zero, add_zero, zero_add, mul_one]
  set E := exp (I * phi)
  rw [hh]
  push_cast at hc ⊢
  set c := cos (h : ℂ)
  set t := sin (h : ℂ)
  apply mk2_ext
  · linear_combination E * ((c + t * I) ^ 2 + I ^ 2) / 4 * h2 + E / 2 * hc + E * (1 / 2 - t ^ 2 / 2) * hI
  · linear_combination I * ((c + t * I) ^ 2 + 1) / 4 * h2 - I / 2 * hc + I * t ^ 2 / 2 * hI
  · linear_combination E * (I * ((c + t * I) ^ 2 + 1) / 4 * h2 - I / 2 * hc + I * t ^ 2 / 2 * hI)
  · linear_combination (I ^ 2 * (c + t * I) ^ 2 + 1) / 4 * h2 + (c + t * I) ^ 2 / 2 * hI - 1 / 2 * hc + t ^ 2 / 2 * hI

/-- The two outputs of the node that `nullify` builds, for every setting of the flags: with `r` the norm of
the pair, `r` times the bottom output is, up to a unit factor, the mismatch below. -/
theorem nullify_outputs (a b : ℂ) (lowerTheta lowerPhi : Bool) :
    let th := npArctan2 ‖a‖ ‖b‖ * 2
    let ph := arg b - arg a
    let m := mziNodeMatrix 0 0 0 0 (if lowerTheta then -th else th) (if lowerPhi then -ph else ph)
    let r := Real.sqrt (‖a‖ ^ 2 + ‖b‖ ^ 2)
    let A := if lowerPhi then ‖a‖ * exp (I * (2 * arg a - arg b)) else ‖a‖ * exp (I * arg b)
    let sg : ℂ := if lowerTheta then -1 else 1
    ∃ z : ℂ, ‖z‖ = 1 ∧ r * (m 0 0 * a + m 0 1 * b) = z * (sg * ‖a‖ * A + ‖b‖ * b) ∧
      r * (m 1 0 * a + m 1 1 * b) = z * (‖b‖ * A - sg * ‖a‖ * b) := by
  intro th ph m r A sg
  obtain ⟨hb, ha⟩ := npArctan2_polar a b
  set h := npArctan2 ‖a‖ ‖b‖ with hh
  have hb' : (r : ℂ) * (Real.cos h : ℝ) = ‖b‖ := by rw [← Complex.ofReal_mul, ← hb]
  have ha' : (r : ℂ) * (Real.sin h : ℝ) = ‖a‖ := by rw [← Complex.ofReal_mul, ← ha]
  have hA : exp (I * ((if lowerPhi then -ph else ph : ℝ) : ℂ)) * a = A := by
    have hpa := Complex.norm_mul_exp_arg_mul_I a
    conv_lhs => rw [← hpa]
    cases lowerPhi
    · simp only [A, ph, Bool.false_eq_true, if_false]
      rw [mul_left_comm, ← Complex.exp_add]
      push_cast; ring_nf
    · simp only [A, ph, if_true]
      rw [mul_left_comm, ← Complex.exp_add]
      push_cast; ring_nf
  have hm : m = mziNodeMatrix 0 0 0 0 ((if lowerTheta then -h else h) * 2) (if lowerPhi then -ph else ph) := by
    cases lowerTheta <;> simp [m, th, hh]
  have hcs : Real.cos (if lowerTheta then -h else h) = Real.cos h := by cases lowerTheta <;> simp
  have hsn : ((Real.sin (if lowerTheta then -h else h) : ℝ) : ℂ) = sg * (Real.sin h : ℝ) := by
    cases lowerTheta <;> simp [sg]
  refine ⟨I * exp (I * ((if lowerTheta then -h else h : ℝ) : ℂ)), ?_, ?_, ?_⟩
  · rw [norm_mul, norm_exp_I]; simp
  · rw [hm, mziNode_half, hcs, hsn]
    simp only [of_apply, cons_val', cons_val_zero, cons_val_one, cons_val_fin_one]
    rw [← hA]
    linear_combination (I * exp (I * ((if lowerTheta then -h else h : ℝ) : ℂ))) *
      (sg * exp (I * ((if lowerPhi then -ph else ph : ℝ) : ℂ)) * a * ha' + b * hb')
  · rw [hm, mziNode_half, hcs, hsn]
    simp only [of_apply, cons_val', cons_val_zero, cons_val_one, cons_val_fin_one]
    rw [← hA]
    linear_combination (I * exp (I * ((if lowerTheta then -h else h : ℝ) : ℂ))) *
      (exp (I * ((if lowerPhi then -ph else ph : ℝ) : ℂ)) * a * hb' - sg * b * ha')

theorem pair_zero {a b : ℂ} (h : Real.sqrt (‖a‖ ^ 2 + ‖b‖ ^ 2) = 0) : a = 0 ∧ b = 0 := by
  rw [Real.sqrt_eq_zero (by positivity)] at h
  have h1 : ‖a‖ = 0 := by nlinarith [sq_nonneg ‖a‖, sq_nonneg ‖b‖]
  have h2 : ‖b‖ = 0 := by nlinarith [sq_nonneg ‖a‖, sq_nonneg ‖b‖]
  exact ⟨norm_eq_zero.1 h1, norm_eq_zero.1 h2⟩

theorem mziNode_mod (theta phi : ℝ) :
    mziNodeMatrix 0 0 0 0 (modTwoPi theta) (modTwoPi phi) = mziNodeMatrix 0 0 0 0 theta phi := by
  simp only [mziNodeMatrix, phaseMatrix, exp_modTwoPi]

theorem mziNode_unitary (theta phi : ℝ) : mziNodeMatrix 0 0 0 0 theta phi ∈ unitaryGroup (Fin 2) ℂ := by
  rw [← mziElements_top_eq]; exact mziElements_unitary _ _ _ _ _ _

/-- C106 (partial): with the default flags, an ideal lossless node on the two rails that `nullify` reads turns
the bottom rail dark, puts the whole power of the pair on the top rail and leaves every other rail alone; the
returned matrix is unitary, produces the returned vector and is the node's own
`mzi_node_matrix(theta, phi)` at the returned phases, `theta` in `[0, pi]` and `phi` in `[0, 2 pi)`. -/
theorem C106_nullify_partial (n k : ℕ) (hk : k + 1 < n) (v : Fin n → ℂ) :
    ∃ N, nodeNullify n k (k + 1) 0 0 0 0 v k false false = some N ∧
      N.vector ⟨k + 1, hk⟩ = 0 ∧
      ‖N.vector ⟨k, by omega⟩‖ ^ 2 = ‖v ⟨k, by omega⟩‖ ^ 2 + ‖v ⟨k + 1, hk⟩‖ ^ 2 ∧
      (∀ r : Fin n, r.val ≠ k → r.val ≠ k + 1 → N.vector r = v r) ∧
      N.mat ∈ unitaryGroup (Fin n) ℂ ∧ N.vector = N.mat.mulVec v ∧
      N.mat = embed2 n k (k + 1) (mziNodeMatrix 0 0 0 0 N.theta N.phi) ∧
      0 ≤ N.theta ∧ N.theta ≤ Real.pi ∧ 0 ≤ N.phi ∧ N.phi < 2 * Real.pi := by
  have hne : k ≠ k + 1 := by omega
  simp only [nodeNullify, dif_pos (show k + 1 < n ∧ k < n ∧ k + 1 < n by omega), Bool.false_eq_true, if_false]
  set a := v ⟨k, by omega⟩ with ha
  set b := v ⟨k + 1, hk⟩ with hb
  obtain ⟨z, hz, h0, h1⟩ := nullify_outputs a b false false
  simp only [Bool.false_eq_true, if_false, one_mul] at h0 h1
  have hbp : b = ‖b‖ * exp (I * arg b) := by
    conv_lhs => rw [← Complex.norm_mul_exp_arg_mul_I b, mul_comm (arg b : ℂ)]
  have hdark : z * (‖b‖ * (‖a‖ * exp (I * arg b)) - ‖a‖ * b) = 0 := by
    rw [mul_eq_zero]; right
    conv_lhs => rw [hbp]
    simp only [norm_mul, norm_exp_I, Complex.norm_real, norm_norm, mul_one]
    rw [← hbp]
    conv_lhs => arg 2; rw [hbp]
    ring
  have hth := npArctan2_range a b
  refine ⟨_, rfl, ?_, ?_, ?_, ?_, rfl, ?_, (modTwoPi_mem _).1, ?_, (modTwoPi_mem _).1, (modTwoPi_mem _).2⟩
  · simp only
    rw [embed2_mulVec (by omega) hk hne, if_neg (by simp), if_pos rfl]
    by_cases hr : Real.sqrt (‖a‖ ^ 2 + ‖b‖ ^ 2) = 0
    · obtain ⟨ea, eb⟩ := pair_zero hr
      rw [← ha, ← hb, ea, eb]; simp
    · rw [hdark] at h1
      exact (mul_eq_zero.1 h1).resolve_left (by exact_mod_cast hr)
  · simp only
    rw [embed2_mulVec (by omega) hk hne, if_pos rfl]
    by_cases hr : Real.sqrt (‖a‖ ^ 2 + ‖b‖ ^ 2) = 0
    · obtain ⟨ea, eb⟩ := pair_zero hr
      rw [← ha, ← hb, ea, eb]; simp
    · have hr2 : Real.sqrt (‖a‖ ^ 2 + ‖b‖ ^ 2) ^ 2 = ‖a‖ ^ 2 + ‖b‖ ^ 2 := Real.sq_sqrt (by positivity)
      have := congrArg (fun x => ‖x‖ ^ 2) h0
      simp only [norm_mul, hz, one_mul, Complex.norm_real, Real.norm_eq_abs, abs_of_nonneg (Real.sqrt_nonneg _),
        mul_pow, hr2] at this
      have hs : (‖a‖ : ℂ) * (‖a‖ * exp (I * arg b)) + ‖b‖ * b = ((‖a‖ ^ 2 + ‖b‖ ^ 2 : ℝ) : ℂ) * exp (I * arg b) := by
        conv_lhs => arg 2; rw [hbp]
        simp only [norm_mul, norm_exp_I, Complex.norm_real, norm_norm, mul_one]
        push_cast; ring
      rw [hs, norm_mul, norm_exp_I, mul_one, Complex.norm_real, Real.norm_eq_abs,
        abs_of_nonneg (by positivity : (0:ℝ) ≤ ‖a‖ ^ 2 + ‖b‖ ^ 2)] at this
      have hpos : ‖a‖ ^ 2 + ‖b‖ ^ 2 ≠ 0 := by
        intro h; exact hr (by rw [h]; simp)
      have := mul_left_cancel₀ hpos (this.trans (sq _))
      exact this
  · intro r h1 h2
    simp only
    rw [embed2_mulVec (by omega) hk hne, if_neg h1, if_neg h2]
  · exact embed2_unitary (by omega) hk hne (mziNode_unitary _ _)
  · simp only [mziNode_mod]
  · have hp := Real.pi_pos
    have : modTwoPi (npArctan2 ‖a‖ ‖b‖ * 2) = npArctan2 ‖a‖ ‖b‖ * 2 := by
      unfold modTwoPi
      have : ⌊npArctan2 ‖a‖ ‖b‖ * 2 / (2 * Real.pi)⌋ = 0 := by
        rw [Int.floor_eq_zero_iff]
        refine ⟨by have := hth.1; positivity, ?_⟩
        rw [div_lt_one (by positivity)]
        linarith [hth.2]
      rw [this]; simp
    simp only [this]
    linarith [hth.2]

/-- When the pair `a`, `b` is nulled with the flags `lower_theta`, `lower_phi`: always without flags, one of
the amplitudes zero, in phase or antiphase, in quadrature. -/
def DarkWith (lowerTheta lowerPhi : Bool) (a b : ℂ) : Prop :=
  match lowerTheta, lowerPhi with
  | false, false => True
  | true, false => a * b = 0
  | false, true => (a * (starRingEnd ℂ) b).im = 0
  | true, true => (a * (starRingEnd ℂ) b).re = 0

/-- C106 fails with the flags: for the same node, the bottom rail is dark exactly when
* `lower_theta`: one of the two amplitudes is zero,
* `lower_phi`: the amplitudes are in phase or in antiphase,
* both: they are in quadrature. -/
theorem C106_flags_counterexample (n k : ℕ) (hk : k + 1 < n) (v : Fin n → ℂ) (lowerTheta lowerPhi : Bool)
    (N : Nullified n) (hN : nodeNullify n k (k + 1) 0 0 0 0 v k lowerTheta lowerPhi = some N) :
    N.vector ⟨k + 1, hk⟩ = 0 ↔ DarkWith lowerTheta lowerPhi (v ⟨k, by omega⟩) (v ⟨k + 1, hk⟩) := by
  have hne : k ≠ k + 1 := by omega
  simp only [nodeNullify, dif_pos (show k + 1 < n ∧ k < n ∧ k + 1 < n by omega), Option.some.injEq] at hN
  subst hN
  set a := v ⟨k, by omega⟩ with ha
  set b := v ⟨k + 1, hk⟩ with hb
  obtain ⟨z, hz, h0, h1⟩ := nullify_outputs a b lowerTheta lowerPhi
  simp only at h1 ⊢
  rw [embed2_mulVec (by omega) hk hne, if_neg (by simp), if_pos rfl]
  by_cases hr : Real.sqrt (‖a‖ ^ 2 + ‖b‖ ^ 2) = 0
  · obtain ⟨ea, eb⟩ := pair_zero hr
    rw [← ha, ← hb, ea, eb]
    cases lowerTheta <;> cases lowerPhi <;> simp [DarkWith]
  rw [← ha, ← hb]
  have hz0 : z ≠ 0 := by rintro rfl; simp at hz
  have key : ∀ x y : ℂ, (Real.sqrt (‖a‖ ^ 2 + ‖b‖ ^ 2) : ℂ) * x = z * y → (x = 0 ↔ y = 0) := by
    intro x y h
    have hr' : (Real.sqrt (‖a‖ ^ 2 + ‖b‖ ^ 2) : ℂ) ≠ 0 := by exact_mod_cast hr
    constructor
    · rintro rfl
      rw [mul_zero] at h
      exact (mul_eq_zero.1 h.symm).resolve_left hz0
    · rintro rfl
      rw [mul_zero] at h
      exact (mul_eq_zero.1 h).resolve_left hr'
  rw [key _ _ h1]
  by_cases hab : a * b = 0
  · rcases mul_eq_zero.1 hab with h | h
    · cases lowerTheta <;> cases lowerPhi <;> simp [h, DarkWith]
    · cases lowerTheta <;> cases lowerPhi <;> simp [h, DarkWith]
  have ha0 : a ≠ 0 := left_ne_zero_of_mul hab
  have hb0 : b ≠ 0 := right_ne_zero_of_mul hab
  have na : (‖a‖ : ℂ) ≠ 0 := by exact_mod_cast norm_ne_zero_iff.2 ha0
  have nb : (‖b‖ : ℂ) ≠ 0 := by exact_mod_cast norm_ne_zero_iff.2 hb0
  have pa : (‖a‖ : ℂ) * exp (I * arg a) = a := by rw [mul_comm I]; exact Complex.norm_mul_exp_arg_mul_I a
  have pb : (‖b‖ : ℂ) * exp (I * arg b) = b := by rw [mul_comm I]; exact Complex.norm_mul_exp_arg_mul_I b
  have ca : (starRingEnd ℂ) a * a = ‖a‖ ^ 2 := Complex.conj_mul' a
  have cb : (starRingEnd ℂ) b * b = ‖b‖ ^ 2 := Complex.conj_mul' b
  -- the rotated amplitude
  have hrot : (‖b‖ : ℂ) * (‖a‖ * exp (I * (2 * arg a - arg b))) * ‖a‖ = a * a * (starRingEnd ℂ) b := by
    have e1 : exp (I * (2 * (arg a : ℂ) - arg b)) * exp (I * arg b) = exp (I * arg a) * exp (I * arg a) := by
      rw [← Complex.exp_add, ← Complex.exp_add]; ring_nf
    have e2 : (starRingEnd ℂ) b * exp (I * arg b) = ‖b‖ := by
      apply mul_left_cancel₀ nb
      calc (‖b‖ : ℂ) * ((starRingEnd ℂ) b * exp (I * arg b)) = (starRingEnd ℂ) b * (‖b‖ * exp (I * arg b)) := by ring
        _ = ‖b‖ * ‖b‖ := by rw [pb, cb]; ring
    apply mul_right_cancel₀ (Complex.exp_ne_zero (I * arg b))
    calc (‖b‖ : ℂ) * (‖a‖ * exp (I * (2 * arg a - arg b))) * ‖a‖ * exp (I * arg b)
        = ‖b‖ * ‖a‖ * ‖a‖ * (exp (I * (2 * (arg a : ℂ) - arg b)) * exp (I * arg b)) := by ring
      _ = ‖b‖ * ((‖a‖ * exp (I * arg a)) * (‖a‖ * exp (I * arg a))) := by rw [e1]; ring
      _ = a * a * ((starRingEnd ℂ) b * exp (I * arg b)) := by rw [pa, e2]; ring
      _ = _ := by ring
  have split : ∀ x : ℂ, x + (starRingEnd ℂ) x = 2 * x.re ∧ x - (starRingEnd ℂ) x = 2 * x.im * I := by
    intro x
    constructor <;> apply Complex.ext <;> simp <;> ring
  have hcj : (starRingEnd ℂ) (a * (starRingEnd ℂ) b) = (starRingEnd ℂ) a * b := by simp
  obtain ⟨s1, s2⟩ := split (a * (starRingEnd ℂ) b)
  rw [hcj] at s1 s2
  cases lowerTheta <;> cases lowerPhi <;> simp only [Bool.false_eq_true, if_false, if_true, iff_true, DarkWith]
  · linear_combination (‖a‖ : ℂ) * pb
  · have e : ((‖b‖ : ℂ) * (‖a‖ * exp (I * (2 * arg a - arg b))) - 1 * ‖a‖ * b) * ‖a‖ =
        a * (2 * (a * (starRingEnd ℂ) b).im * I) := by
      linear_combination hrot + b * ca + a * s2
    constructor
    · intro h
      rw [h, zero_mul] at e
      have := (mul_eq_zero.1 e.symm).resolve_left ha0
      have := (mul_eq_zero.1 this).resolve_right I_ne_zero
      have := (mul_eq_zero.1 this).resolve_left two_ne_zero
      exact_mod_cast this
    · intro h
      rw [h] at e
      simp only [ofReal_zero, mul_zero, zero_mul] at e
      exact (mul_eq_zero.1 e).resolve_right na
  · have e : (‖b‖ : ℂ) * (‖a‖ * exp (I * arg b)) - -1 * ‖a‖ * b = 2 * ‖a‖ * b := by
      linear_combination (‖a‖ : ℂ) * pb
    rw [e]
    exact ⟨fun h => absurd h (mul_ne_zero (mul_ne_zero two_ne_zero na) hb0), fun h => absurd h hab⟩
  · have e : ((‖b‖ : ℂ) * (‖a‖ * exp (I * (2 * arg a - arg b))) - -1 * ‖a‖ * b) * ‖a‖ =
        a * (2 * (a * (starRingEnd ℂ) b).re) := by
      linear_combination hrot - b * ca + a * s1
    constructor
    · intro h
      rw [h, zero_mul] at e
      have := (mul_eq_zero.1 e.symm).resolve_left ha0
      have := (mul_eq_zero.1 this).resolve_left two_ne_zero
      exact_mod_cast this
    · intro h
      rw [h] at e
      simp only [ofReal_zero, mul_zero] at e
      exact (mul_eq_zero.1 e).resolve_right na

/-- C106 fails with coupler errors, which `nullify` ignores: with both couplers fully crossed (error `pi/4`)
the bottom rail keeps its power, whatever the vector. -/
theorem C106_errors_counterexample (n k : ℕ) (hk : k + 1 < n) (v : Fin n → ℂ) :
    ∃ N, nodeNullify n k (k + 1) (Real.pi / 4) (Real.pi / 4) 0 0 v k false false = some N ∧
      ‖N.vector ⟨k + 1, hk⟩‖ = ‖v ⟨k + 1, hk⟩‖ := by
  have hne : k ≠ k + 1 := by omega
  simp only [nodeNullify, dif_pos (show k + 1 < n ∧ k < n ∧ k + 1 < n by omega), Bool.false_eq_true, if_false]
  refine ⟨_, rfl, ?_⟩
  have hpi : Real.pi / 4 + Real.pi / 4 = Real.pi / 2 := by ring
  simp only
  rw [embed2_mulVec (by omega) hk hne, if_neg (by simp), if_pos rfl]
  simp only [mziNodeMatrix, dcMatrix_lossless, coupler, hpi, Real.cos_pi_div_two, Real.sin_pi_div_two, phaseMatrix,
    Matrix.mul_fin_two]
  simp only [ofReal_zero, ofReal_one, mul_one, zero_mul, mul_zero, add_zero, zero_add, of_apply, cons_val', cons_val_zero,
    cons_val_one, cons_val_fin_one, exp_zero, norm_mul, norm_exp_I, norm_I, one_mul]

/-- C106 fails on rails that are not neighbours (every balanced tree has such nodes): `nullify` reads
`vector[idx + 1]`, not the bottom rail. Node on rails 0 and 2, vector `(1, 0, 1)`: the bottom rail stays lit. -/
theorem C106_rails_counterexample :
    ∃ N, nodeNullify 3 0 2 0 0 0 0 ![1, 0, 1] 0 false false = some N ∧ ‖N.vector 2‖ = 1 := by
  simp only [nodeNullify, dif_pos (show 0 + 1 < 3 ∧ 0 < 3 ∧ 2 < 3 by omega), Bool.false_eq_true, if_false]
  refine ⟨_, rfl, ?_⟩
  have h1 : npArctan2 1 0 = Real.pi / 2 := by simp [npArctan2]
  simp only
  rw [embed2_mulVec (by omega) (by omega) (by omega), if_neg (by simp), if_pos (by simp)]
  have e0 : (![1, 0, 1] : Fin 3 → ℂ) ⟨0, by omega⟩ = 1 := rfl
  have e1 : (![1, 0, 1] : Fin 3 → ℂ) ⟨0 + 1, by omega⟩ = 0 := rfl
  have e2 : (![1, 0, 1] : Fin 3 → ℂ) ⟨2, by omega⟩ = 1 := rfl
  rw [e0, e1, e2]
  simp only [norm_one, norm_zero, h1]
  rw [mziNode_half]
  simp only [Real.cos_pi_div_two, Real.sin_pi_div_two]
  simp only [of_apply, cons_val', cons_val_zero, cons_val_one, cons_val_fin_one, ofReal_zero, mul_zero, zero_mul, ofReal_one,
    mul_one, zero_add, norm_neg, norm_mul, norm_exp_I, norm_I]

/-- Non-vacuity: a vector with light on both rails, out of phase. -/
example : ∃ N, nodeNullify 2 0 1 0 0 0 0 ![1, I] 0 false false = some N ∧ N.vector 1 = 0 := by
  obtain ⟨N, h1, h2, _⟩ := C106_nullify_partial 2 0 (by norm_num) ![1, I]
  exact ⟨N, h1, h2⟩

end Simphox
