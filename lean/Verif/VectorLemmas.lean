import Verif.Vector
import Verif.MeshProps

/-! # Lemmas: nullification at one node, the programming loop -/

namespace Simphox

open Matrix Complex

/-! ### One node -/

theorem norm_mul_exp_arg (z : ℂ) : (‖z‖ : ℂ) * exp (I * arg z) = z := by
  rw [mul_comm I]; exact norm_mul_exp_arg_mul_I z

theorem mul_exp_arg_conj (z : ℂ) : z * exp (I * arg ((starRingEnd ℂ) z)) = ‖z‖ := by
  set u := exp (I * arg ((starRingEnd ℂ) z)) with hu
  have h := norm_mul_exp_arg ((starRingEnd ℂ) z)
  rw [← hu] at h
  have h2 : z = ‖z‖ * (starRingEnd ℂ) u := by
    have := congrArg (starRingEnd ℂ) h
    simp only [map_mul, conj_ofReal, RingHomCompTriple.comp_apply, RingHom.id_apply, norm_conj] at this
    exact this.symm
  have h3 : (starRingEnd ℂ) u * u = 1 := by
    rw [mul_comm, mul_conj, normSq_eq_norm_sq, hu, norm_exp_I]; simp
  calc z * u = ‖z‖ * ((starRingEnd ℂ) u * u) := by rw [← mul_assoc, ← h2]
    _ = _ := by rw [h3, mul_one]

theorem eq_neg_exp_arg (z : ℂ) : z = -(‖z‖ * exp (-(I * arg (-(starRingEnd ℂ) z)))) := by
  set u := exp (I * arg (-(starRingEnd ℂ) z)) with hu
  have h := norm_mul_exp_arg (-(starRingEnd ℂ) z)
  rw [← hu, norm_neg, norm_conj] at h
  have h2 : (starRingEnd ℂ) u = exp (-(I * arg (-(starRingEnd ℂ) z))) := by
    rw [hu, ← exp_conj]; simp
  rw [← h2]
  have := congrArg (starRingEnd ℂ) h
  simp only [map_mul, map_neg, conj_ofReal, RingHomCompTriple.comp_apply, RingHom.id_apply] at this
  rw [this]; ring

/-- The two amplitudes of an MZI with equal errors. -/
noncomputable def ampA (e theta : ℝ) : ℂ :=
  -((mziTerms e e).ss : ℂ) + (mziTerms e e).cc * exp (I * theta)

noncomputable def ampB (e theta : ℝ) : ℂ :=
  I * (((mziTerms e e).cs : ℂ) + (mziTerms e e).sc * exp (I * theta))

theorem sc_eq_cs (e : ℝ) : (mziTerms e e).sc = (mziTerms e e).cs := by
  simp [mziTerms, mul_comm]

theorem cc_mul_ss (e : ℝ) : (mziTerms e e).cc * (mziTerms e e).ss = (mziTerms e e).cs ^ 2 := by
  simp [mziTerms]; ring

theorem terms_sum (e : ℝ) : (mziTerms e e).cc ^ 2 + (mziTerms e e).ss ^ 2 + 2 * (mziTerms e e).cs ^ 2 = 1 := by
  simp only [mziTerms]
  have := Real.sin_sq_add_cos_sq (Real.pi / 4 + e)
  have h2 : (Real.sin (Real.pi / 4 + e) ^ 2 + Real.cos (Real.pi / 4 + e) ^ 2) ^ 2 = 1 := by rw [this]; norm_num
  nlinarith [h2]

theorem conj_ampA (e theta : ℝ) : (starRingEnd ℂ) (ampA e theta) =
    -((mziTerms e e).ss : ℂ) + (mziTerms e e).cc * exp (-I * theta) := by
  simp [ampA, ← exp_conj]

theorem neg_conj_ampB (e theta : ℝ) : -(starRingEnd ℂ) (ampB e theta) =
    I * (((mziTerms e e).cs : ℂ) + exp (-I * theta) * (mziTerms e e).sc) := by
  simp [ampB, ← exp_conj]; ring

theorem norm_ampB_sq (e theta : ℝ) : ‖ampB e theta‖ ^ 2 =
    2 * (mziTerms e e).cs ^ 2 * (1 + Real.cos theta) := by
  unfold ampB
  rw [sc_eq_cs, norm_mul, norm_I, one_mul, ← Complex.normSq_eq_norm_sq, mul_comm I (theta : ℂ),
    exp_mul_I, ← ofReal_cos, ← ofReal_sin, normSq_apply]
  simp only [add_re, ofReal_re, mul_re, I_re, ofReal_im, I_im, mul_im, add_im]
  have := Real.sin_sq_add_cos_sq theta
  linear_combination ((mziTerms e e).cs ^ 2) * this

theorem norm_ampA_sq (e theta : ℝ) : ‖ampA e theta‖ ^ 2 = 1 - ‖ampB e theta‖ ^ 2 := by
  rw [norm_ampB_sq]
  unfold ampA
  rw [← Complex.normSq_eq_norm_sq, mul_comm I (theta : ℂ),
    exp_mul_I, ← ofReal_cos, ← ofReal_sin, normSq_apply]
  simp only [add_re, ofReal_re, mul_re, I_re, ofReal_im, I_im, mul_im, add_im, neg_re, neg_im]
  have := Real.sin_sq_add_cos_sq theta
  have h2 := cc_mul_ss e
  have h3 := terms_sum e
  linear_combination ((mziTerms e e).cc ^ 2) * this + h3 - 2 * Real.cos theta * h2

/-- For equal errors, whatever `theta`, the phase chosen by `parallel_nullify` aligns the two
contributions to the top output so that they subtract. -/
theorem nullify_aligned (style : PhaseStyle) (hs : style = .top ∨ style = .bottom) (eps e : ℝ) (t b : ℂ)
    {theta phi : ℝ} (h : nullifyPhases eps style e e t b = some (theta, phi)) :
    ‖(mziElements style false e e 0 0 theta phi).t11 * t +
        (mziElements style false e e 0 0 theta phi).t21 * b‖ =
      |‖ampA e theta‖ * ‖t‖ - ‖ampB e theta‖ * ‖b‖| := by
  set A := ampA e theta with hA
  set B := ampB e theta with hB
  set a := exp (I * arg ((starRingEnd ℂ) A)) with ha
  set U := exp (-(I * arg (-(starRingEnd ℂ) B))) with hU
  have hAa : A * a = ‖A‖ := mul_exp_arg_conj A
  have hBU : B = -(‖B‖ * U) := eq_neg_exp_arg B
  have ht := norm_mul_exp_arg t
  have hb := norm_mul_exp_arg b
  have n1 : ‖a‖ = 1 := norm_exp_I _
  have nU : ‖U‖ = 1 := by
    rw [hU, show -(I * ((arg (-(starRingEnd ℂ) B) : ℝ) : ℂ)) = I * ((-arg (-(starRingEnd ℂ) B) : ℝ) : ℂ) by
      push_cast; ring, norm_exp_I]
  have hbb : exp (I * arg b) * exp (-(I * arg b)) = 1 := by rw [← exp_add]; simp
  have htt : exp (I * arg t) * exp (-(I * arg t)) = 1 := by rw [← exp_add]; simp
  have real_norm : ∀ x : ℝ, ‖(x : ℂ)‖ = |x| := fun x => by simp
  rcases hs with rfl | rfl
  · simp only [nullifyPhases, Option.some.injEq, Prod.mk.injEq] at h
    obtain ⟨h1, h2⟩ := h
    rw [h1] at h2
    rw [← conj_ampA, ← neg_conj_ampB, ← hA, ← hB] at h2
    have hphi : exp (I * phi) = exp (I * arg b) * exp (-(I * arg t)) * a * U := by
      rw [ha, hU, ← exp_add, ← exp_add, ← exp_add, ← h2]; congr 1; push_cast; ring
    have e1 : (mziElements .top false e e 0 0 theta phi).t11 = A * exp (I * phi) := by
      simp [mziElements, hA, ampA]
    have e2 : (mziElements .top false e e 0 0 theta phi).t21 = B := by
      simp [mziElements, hB, ampB, sc_eq_cs]
    have key : A * exp (I * phi) * t + B * b =
        (U * exp (I * arg b)) * ((‖A‖ * ‖t‖ - ‖B‖ * ‖b‖ : ℝ) : ℂ) := by
      rw [hphi]
      push_cast
      calc A * (exp (I * arg b) * exp (-(I * arg t)) * a * U) * t + B * b
          = A * (exp (I * arg b) * exp (-(I * arg t)) * a * U) * (‖t‖ * exp (I * arg t)) +
            -(‖B‖ * U) * (‖b‖ * exp (I * arg b)) := by rw [ht, hb, ← hBU]
        _ = (A * a) * ‖t‖ * exp (I * arg b) * U * (exp (I * arg t) * exp (-(I * arg t))) -
            U * exp (I * arg b) * (‖B‖ * ‖b‖) := by ring
        _ = _ := by rw [hAa, htt]; ring
    rw [e1, e2, key, norm_mul, norm_mul, nU, norm_exp_I, real_norm]; ring
  · simp only [nullifyPhases, Option.some.injEq, Prod.mk.injEq] at h
    obtain ⟨h1, h2⟩ := h
    rw [h1] at h2
    rw [← conj_ampA, ← neg_conj_ampB, ← hA, ← hB] at h2
    set x := exp (I * theta) with hx
    have hxx : exp (I * theta) * exp (-(I * theta)) = 1 := by rw [← exp_add]; simp
    have hphi : exp (I * phi) = -(exp (I * arg t) * exp (-(I * arg b)) * a * U) := by
      have : exp (I * phi) = exp (I * arg t) * exp (-(I * arg b)) * a * U * exp (Real.pi * I) := by
        rw [ha, hU, ← exp_add, ← exp_add, ← exp_add, ← exp_add, ← h2]; congr 1; push_cast; ring
      rw [this, exp_pi_mul_I]; ring
    set A' : ℂ := (mziTerms e e).cc - (mziTerms e e).ss * x with hA'
    have e1 : (mziElements .bottom false e e 0 0 theta phi).t11 = A' := by
      simp [mziElements, hA', hx]; ring
    have e2 : (mziElements .bottom false e e 0 0 theta phi).t21 = B * exp (I * phi) := by
      simp [mziElements, hB, ampB, sc_eq_cs]; ring
    -- A' = x * conj A
    have hAc : A' = x * (starRingEnd ℂ) A := by
      rw [hA, conj_ampA, hA', hx]
      rw [show -I * (theta : ℂ) = -(I * theta) by ring]
      linear_combination -((mziTerms e e).cc : ℂ) * hxx
    have hAca : (starRingEnd ℂ) A = ‖A‖ * a := by
      rw [ha]
      have := norm_mul_exp_arg ((starRingEnd ℂ) A)
      rw [norm_conj] at this
      exact this.symm
    -- conj B * x = - B, hence U ^ 2 = -x unless B = 0
    have hBx : (‖B‖ : ℂ) * (U * U) = -(x * ‖B‖) := by
      have hc : (starRingEnd ℂ) B * x = -B := by
        have := neg_conj_ampB e theta
        rw [← hB, sc_eq_cs] at this
        have h' : (starRingEnd ℂ) B = -(I * (((mziTerms e e).cs : ℂ) + exp (-I * theta) * (mziTerms e e).cs)) := by
          rw [← this]; ring
        rw [h', hB, ampB, sc_eq_cs, hx]
        rw [show -I * (theta : ℂ) = -(I * theta) by ring]
        linear_combination (-I * (mziTerms e e).cs) * hxx
      have hcU : (starRingEnd ℂ) U * U = 1 := by
        rw [mul_comm, mul_conj, normSq_eq_norm_sq, nU]; simp
      have hcB : (starRingEnd ℂ) B = -(‖B‖ * (starRingEnd ℂ) U) := by
        conv_lhs => rw [hBU]
        simp
      rw [hcB] at hc
      have : -(‖B‖ * (starRingEnd ℂ) U) * x = ‖B‖ * U := by rw [hc]; conv_lhs => rw [hBU]
                                                            ring
      calc (‖B‖ : ℂ) * (U * U) = (‖B‖ * U) * U := by ring
        _ = (-(‖B‖ * (starRingEnd ℂ) U) * x) * U := by rw [this]
        _ = -(x * ‖B‖) * ((starRingEnd ℂ) U * U) := by ring
        _ = _ := by rw [hcU]; ring
    have key : A' * t + B * exp (I * phi) * b =
        (x * a * exp (I * arg t)) * ((‖A‖ * ‖t‖ - ‖B‖ * ‖b‖ : ℝ) : ℂ) := by
      rw [hphi, hAc, hAca]
      push_cast
      calc x * (‖A‖ * a) * t + B * -(exp (I * arg t) * exp (-(I * arg b)) * a * U) * b
          = x * (‖A‖ * a) * (‖t‖ * exp (I * arg t)) +
            -(‖B‖ * U) * -(exp (I * arg t) * exp (-(I * arg b)) * a * U) * (‖b‖ * exp (I * arg b)) := by
              rw [ht, hb, ← hBU]
        _ = x * (‖A‖ * a) * (‖t‖ * exp (I * arg t)) +
            (‖B‖ * (U * U)) * a * exp (I * arg t) * ‖b‖ * (exp (I * arg b) * exp (-(I * arg b))) := by ring
        _ = _ := by rw [hBx, hbb]; ring
    rw [e1, e2, key, norm_mul, norm_mul, norm_mul, n1, norm_exp_I, norm_exp_I, real_norm]; ring

/-- A power ratio is reachable by an MZI with equal errors `e` iff it is at most `cos² 2e`. -/
theorem four_cs_sq (e : ℝ) : 4 * (mziTerms e e).cs ^ 2 = Real.cos (2 * e) ^ 2 := by
  have : (mziTerms e e).cs = Real.cos (2 * e) / 2 := by
    simp only [mziTerms]
    have h := Real.sin_two_mul (Real.pi / 4 + e)
    rw [show 2 * (Real.pi / 4 + e) = 2 * e + Real.pi / 2 by ring, Real.sin_add_pi_div_two] at h
    linarith
  rw [this]; ring

/-- A reachable ratio is realised exactly. -/
theorem norm_ampB_phase (e s : ℝ) (he : Real.cos (2 * e) ≠ 0) (h0 : 0 ≤ s) (h1 : s ≤ Real.cos (2 * e) ^ 2) :
    ‖ampB e (transmissivityToPhase s (mziTerms e e).cs (mziTerms e e).sc)‖ ^ 2 = s := by
  rw [norm_ampB_sq]
  have h4 := four_cs_sq e
  have hpos : 0 < (mziTerms e e).cs ^ 2 := by
    have : 0 < Real.cos (2 * e) ^ 2 := by positivity
    linarith
  unfold transmissivityToPhase
  rw [sc_eq_cs]
  set c := (mziTerms e e).cs with hc
  have hx : (s - c ^ 2 - c ^ 2) / (2 * c * c) = s / (2 * c ^ 2) - 1 := by
    have : c ≠ 0 := by rintro h; simp [h] at hpos
    field_simp; ring
  have hc0 : c ≠ 0 := by rintro h; simp [h] at hpos
  have hl : 0 ≤ s / (2 * c ^ 2) := by positivity
  have hu : s / (2 * c ^ 2) ≤ 2 := by rw [div_le_iff₀ (by positivity)]; linarith
  rw [hx, max_eq_left (by linarith), min_eq_left (by linarith), Real.cos_arccos (by linarith) (by linarith)]
  field_simp; ring

theorem resid_bound {A B T R eps : ℝ} (hA : 0 ≤ A) (hB : 0 ≤ B) (hT : 0 ≤ T) (hR : 0 ≤ R) (heps : 0 ≤ eps)
    (h1 : B ^ 2 = T ^ 2 / (T ^ 2 + R ^ 2 + eps)) (h2 : A ^ 2 = 1 - B ^ 2) : |A * T - B * R| ≤ Real.sqrt eps := by
  apply Real.abs_le_sqrt
  rcases eq_or_ne (T ^ 2 + R ^ 2 + eps) 0 with h0 | h0
  · have : T ^ 2 = 0 := by nlinarith [sq_nonneg T, sq_nonneg R]
    have : R ^ 2 = 0 := by nlinarith [sq_nonneg T, sq_nonneg R]
    have hT0 : T = 0 := by simpa using ‹T ^ 2 = 0›
    have hR0 : R = 0 := by simpa using ‹R ^ 2 = 0›
    rw [hT0, hR0]; simpa
  · have hD : 0 < T ^ 2 + R ^ 2 + eps := lt_of_le_of_ne (by positivity) (Ne.symm h0)
    have hdiff : (A * T) ^ 2 - (B * R) ^ 2 = T ^ 2 * eps / (T ^ 2 + R ^ 2 + eps) := by
      rw [mul_pow, mul_pow, h2, h1]; field_simp; ring
    have hle : T ^ 2 * eps / (T ^ 2 + R ^ 2 + eps) ≤ eps := by
      rw [div_le_iff₀ hD]; nlinarith [sq_nonneg T, sq_nonneg R, mul_nonneg heps (sq_nonneg R), mul_nonneg heps heps]
    have hge : 0 ≤ T ^ 2 * eps / (T ^ 2 + R ^ 2 + eps) := by positivity
    have hx : 0 ≤ B * R := by positivity
    have hy : B * R ≤ A * T := by
      apply abs_le_of_sq_le_sq' _ (by positivity) |>.2
      linarith
    nlinarith [mul_nonneg hx (sub_nonneg.2 hy)]

/-- The ratio a node has to realise lies in `[0, 1]`. -/
theorem directTransmissivity_mem {eps : ℝ} (h : 0 ≤ eps) (t b : ℂ) :
    0 ≤ directTransmissivity eps t b ∧ directTransmissivity eps t b ≤ 1 := by
  unfold directTransmissivity
  have h1 := sq_nonneg ‖t‖
  have h2 := sq_nonneg ‖b‖
  refine ⟨by positivity, div_le_one_of_le₀ (by linarith) (by positivity)⟩

/-- One programmed node: the top output is at most `√ε`, provided the ratio is reachable. -/
theorem nullify_residual (style : PhaseStyle) (hs : style = .top ∨ style = .bottom) {eps : ℝ} (heps : 0 ≤ eps)
    (e : ℝ) (he : Real.cos (2 * e) ≠ 0) (t b : ℂ)
    (hreach : directTransmissivity eps t b ≤ Real.cos (2 * e) ^ 2)
    {theta phi : ℝ} (h : nullifyPhases eps style e e t b = some (theta, phi)) :
    ‖(mziElements style false e e 0 0 theta phi).t11 * t +
        (mziElements style false e e 0 0 theta phi).t21 * b‖ ≤ Real.sqrt eps := by
  rw [nullify_aligned style hs eps e t b h]
  have htheta : theta = transmissivityToPhase (directTransmissivity eps t b) (mziTerms e e).cs (mziTerms e e).sc := by
    rcases hs with rfl | rfl <;>
    · simp only [nullifyPhases, Option.some.injEq, Prod.mk.injEq] at h
      exact h.1.symm
  have hB := norm_ampB_phase e _ he (directTransmissivity_mem heps t b).1 hreach
  rw [← htheta] at hB
  exact resid_bound (norm_nonneg _) (norm_nonneg _) (norm_nonneg _) (norm_nonneg _) heps hB (norm_ampA_sq e theta)

theorem exp_modTwoPi (x : ℝ) : exp (I * modTwoPi x) = exp (I * x) := by
  unfold modTwoPi
  have : I * ((x - 2 * Real.pi * ⌊x / (2 * Real.pi)⌋ : ℝ) : ℂ) =
      I * x - (⌊x / (2 * Real.pi)⌋ : ℂ) * (2 * Real.pi * I) := by push_cast; ring
  rw [this, exp_sub, exp_int_mul_two_pi_mul_I, div_one]

theorem modTwoPi_mem (x : ℝ) : 0 ≤ modTwoPi x ∧ modTwoPi x < 2 * Real.pi := by
  have hp : 0 < 2 * Real.pi := by positivity
  have h1 := Int.floor_le (x / (2 * Real.pi))
  have h2 := Int.lt_floor_add_one (x / (2 * Real.pi))
  rw [le_div_iff₀ hp] at h1
  rw [div_lt_iff₀ hp] at h2
  unfold modTwoPi
  constructor <;> nlinarith

/-- Reducing `phi` modulo `2π` does not change a TOP or BOTTOM node. -/
theorem mziElements_modTwoPi (style : PhaseStyle) (hs : style = .top ∨ style = .bottom) (el er theta phi : ℝ) :
    mziElements style false el er 0 0 theta (modTwoPi phi) = mziElements style false el er 0 0 theta phi := by
  rcases hs with rfl | rfl <;> simp [mziElements, exp_modTwoPi]

/-! ### The programming loop -/

theorem assign_not_mem {α : Type} (writes : List (ℕ × α)) (f : ℕ → α) (r : ℕ) (h : ∀ p ∈ writes, p.1 ≠ r) :
    assign f writes r = f r := by
  unfold assign
  induction writes generalizing f with
  | nil => rfl
  | cons p l ih =>
    rw [List.foldl_cons, ih _ (fun q hq => h q (by simp [hq]))]
    exact Function.update_of_ne (h p (by simp)).symm _ _

theorem assign_mem {α : Type} (writes : List (ℕ × α)) (f : ℕ → α) (r : ℕ) (x : α)
    (hmem : (r, x) ∈ writes) (huniq : ∀ y, (r, y) ∈ writes → y = x) : assign f writes r = x := by
  induction writes using List.reverseRecOn generalizing f with
  | nil => simp at hmem
  | append_singleton l p ih =>
    unfold assign
    rw [List.foldl_append, List.foldl_cons, List.foldl_nil]
    by_cases hp : p.1 = r
    · subst hp
      rw [Function.update_self]
      exact huniq p.2 (by simp)
    · rw [Function.update_of_ne (Ne.symm hp)]
      apply ih
      · rcases List.mem_append.1 hmem with h | h
        · exact h
        · simp at h; exact absurd (by rw [← h]) hp
      · intro y hy; exact huniq y (by simp [hy])

theorem mapM_some {α β : Type} (f : α → Option β) (g : α → β) (l : List α) (h : ∀ a ∈ l, f a = some (g a)) :
    l.mapM f = some (l.map g) := by
  induction l with
  | nil => rfl
  | cons a l ih =>
    rw [List.mapM_cons, h a (by simp), ih (fun b hb => h b (by simp [hb]))]; rfl

/-- The phases `parallel_nullify` returns for node `a`. -/
noncomputable def nodePhases (eps : ℝ) (style : PhaseStyle) (e : ℝ) (c : ℕ) (w : ℕ → ℕ → ℂ) (a : Node) : ℝ × ℝ :=
  (nullifyPhases eps style e e (w a.top c) (w a.bottom c)).getD (0, 0)

theorem nodePhases_some {style : PhaseStyle} (hs : style ≠ .symmetric) (eps e : ℝ) (c : ℕ)
    (w : ℕ → ℕ → ℂ) (a : Node) :
    nullifyPhases eps style e e (w a.top c) (w a.bottom c) = some (nodePhases eps style e c w a) := by
  unfold nodePhases
  cases style <;> simp_all [nullifyPhases]

theorem zip_map_self {α β : Type} (l : List α) (f : α → β) : l.zip (l.map f) = l.map fun a => (a, f a) := by
  induction l with
  | nil => rfl
  | cons a l ih => simp [ih]

/-- One column step, without the option monad. -/
theorem nullColumn_eq {style : PhaseStyle} (hs : style ≠ .symmetric) (eps e : ℝ) (c : ℕ) (nodes : List Node)
    (st : NullState) :
    nullColumn eps style e c nodes st = some
      { w := fun r j => scatter (fun r => st.w r j)
          (nodes.map (fun a =>
              (a.top, (mziElements style false e e 0 0 (nodePhases eps style e c st.w a).1
                (nodePhases eps style e c st.w a).2).t11 * st.w a.top j +
                (mziElements style false e e 0 0 (nodePhases eps style e c st.w a).1
                (nodePhases eps style e c st.w a).2).t21 * st.w a.bottom j)) ++
            nodes.map (fun a =>
              (a.bottom, (mziElements style false e e 0 0 (nodePhases eps style e c st.w a).1
                (nodePhases eps style e c st.w a).2).t12 * st.w a.top j +
                (mziElements style false e e 0 0 (nodePhases eps style e c st.w a).1
                (nodePhases eps style e c st.w a).2).t22 * st.w a.bottom j))) r
        thetas := assign st.thetas (nodes.map fun a => (a.id, (nodePhases eps style e c st.w a).1))
        phis := assign st.phis (nodes.map fun a => (a.id, modTwoPi (nodePhases eps style e c st.w a).2)) } := by
  unfold nullColumn
  rw [mapM_some _ (nodePhases eps style e c st.w) _ (fun a _ => nodePhases_some hs eps e c st.w a)]
  simp only [Option.bind_eq_bind, Option.bind_some, zip_map_self, List.map_map, Function.comp_def]

/-- Elements of all nodes given the phases stored so far. -/
noncomputable def storedElements (style : PhaseStyle) (e : ℝ) (st : NullState) (k : ℕ) : Elements :=
  mziElements style false e e 0 0 (st.thetas k) (st.phis k)

/-- What one column step does (TOP or BOTTOM, distinct ids). -/
theorem nullColumn_spec {style : PhaseStyle} (hs : style = .top ∨ style = .bottom) (eps e : ℝ) (c : ℕ)
    (nodes : List Node) (hid : (nodes.map Node.id).Nodup) (st : NullState) :
    ∃ st', nullColumn eps style e c nodes st = some st' ∧
      (∀ k, (∀ a ∈ nodes, a.id ≠ k) → st'.thetas k = st.thetas k ∧ st'.phis k = st.phis k) ∧
      (∀ a ∈ nodes, st'.thetas a.id = (nodePhases eps style e c st.w a).1 ∧
        st'.phis a.id = modTwoPi (nodePhases eps style e c st.w a).2) ∧
      ∀ j, (fun r => st'.w r j) = parallelTransform (storedElements style e st') nodes (fun r => st.w r j) := by
  have hs' : style ≠ .symmetric := by rcases hs with rfl | rfl <;> simp
  refine ⟨_, nullColumn_eq hs' eps e c nodes st, ?_, ?_, ?_⟩
  · intro k hk
    constructor <;> apply assign_not_mem <;> simp only [List.mem_map] <;> rintro _ ⟨a, ha, rfl⟩ <;> exact hk a ha
  · intro a ha
    constructor <;> apply assign_mem
    · exact List.mem_map.2 ⟨a, ha, rfl⟩
    · intro y hy
      obtain ⟨b, hb, h⟩ := List.mem_map.1 hy
      rw [Prod.mk.injEq] at h
      rw [← List.inj_on_of_nodup_map hid hb ha h.1]; exact h.2.symm
    · exact List.mem_map.2 ⟨a, ha, rfl⟩
    · intro y hy
      obtain ⟨b, hb, h⟩ := List.mem_map.1 hy
      rw [Prod.mk.injEq] at h
      rw [← List.inj_on_of_nodup_map hid hb ha h.1]; exact h.2.symm
  · intro j
    unfold parallelTransform columnWrites
    have hel : ∀ a ∈ nodes, storedElements style e
        { w := fun r j => scatter (fun r => st.w r j)
            (nodes.map (fun a =>
                (a.top, (mziElements style false e e 0 0 (nodePhases eps style e c st.w a).1
                  (nodePhases eps style e c st.w a).2).t11 * st.w a.top j +
                  (mziElements style false e e 0 0 (nodePhases eps style e c st.w a).1
                  (nodePhases eps style e c st.w a).2).t21 * st.w a.bottom j)) ++
              nodes.map (fun a =>
                (a.bottom, (mziElements style false e e 0 0 (nodePhases eps style e c st.w a).1
                  (nodePhases eps style e c st.w a).2).t12 * st.w a.top j +
                  (mziElements style false e e 0 0 (nodePhases eps style e c st.w a).1
                  (nodePhases eps style e c st.w a).2).t22 * st.w a.bottom j))) r
          thetas := assign st.thetas (nodes.map fun a => (a.id, (nodePhases eps style e c st.w a).1))
          phis := assign st.phis (nodes.map fun a => (a.id, modTwoPi (nodePhases eps style e c st.w a).2)) } a.id =
        mziElements style false e e 0 0 (nodePhases eps style e c st.w a).1 (nodePhases eps style e c st.w a).2 := by
      intro a ha
      unfold storedElements
      simp only
      rw [assign_mem (x := (nodePhases eps style e c st.w a).1), assign_mem (x := modTwoPi (nodePhases eps style e c st.w a).2),
        mziElements_modTwoPi style hs]
      · exact List.mem_map.2 ⟨a, ha, rfl⟩
      · intro y hy
        obtain ⟨b, hb, h⟩ := List.mem_map.1 hy
        rw [Prod.mk.injEq] at h
        rw [← List.inj_on_of_nodup_map hid hb ha h.1]; exact h.2.symm
      · exact List.mem_map.2 ⟨a, ha, rfl⟩
      · intro y hy
        obtain ⟨b, hb, h⟩ := List.mem_map.1 hy
        rw [Prod.mk.injEq] at h
        rw [← List.inj_on_of_nodup_map hid hb ha h.1]; exact h.2.symm
    refine congrArg (scatter (fun r => st.w r j)) ?_
    congr 1 <;>
    · apply List.map_congr_left
      intro a ha
      rw [hel a ha]

/-- The loop over columns: phases of other nodes are untouched, and the matrix is transformed by the
nodes with their final phases. -/
theorem nullLoop_spec {style : PhaseStyle} (hs : style = .top ∨ style = .bottom) (eps e : ℝ) (c : ℕ)
    (nodes : List Node) (hid : (nodes.map Node.id).Nodup) (cols : List ℕ) (hcols : cols.Nodup) (st : NullState) :
    ∃ st', nullLoop eps style e c nodes cols st = some st' ∧
      (∀ k, (∀ a ∈ nodes, a.column ∈ cols → a.id ≠ k) → st'.thetas k = st.thetas k ∧ st'.phis k = st.phis k) ∧
      ∀ j, (fun r => st'.w r j) = columnsApply (storedElements style e st') nodes cols (fun r => st.w r j) := by
  induction cols generalizing st with
  | nil => exact ⟨st, rfl, fun _ _ => ⟨rfl, rfl⟩, fun _ => rfl⟩
  | cons k ks ih =>
    have hidk : ((columnNodes nodes k).map Node.id).Nodup :=
      List.Nodup.sublist (List.Sublist.map _ List.filter_sublist) hid
    obtain ⟨st1, h1, h1o, h1n, h1w⟩ := nullColumn_spec hs eps e c (columnNodes nodes k) hidk st
    obtain ⟨st2, h2, h2o, h2w⟩ := ih (List.nodup_cons.1 hcols).2 st1
    refine ⟨st2, ?_, ?_, ?_⟩
    · simp [nullLoop, h1, h2]
    · intro i hi
      have a1 := h2o i (fun a ha hc => hi a ha (by simp [hc]))
      have a2 := h1o i (fun a ha => hi a (mem_columnNodes.1 ha).1 (by simp [(mem_columnNodes.1 ha).2]))
      exact ⟨a1.1.trans a2.1, a1.2.trans a2.2⟩
    · intro j
      rw [h2w j, h1w j]
      unfold columnsApply
      rw [List.foldl_cons]
      congr 1
      unfold parallelTransform columnWrites
      have hel : ∀ a ∈ columnNodes nodes k, storedElements style e st1 a.id = storedElements style e st2 a.id := by
        intro a ha
        obtain ⟨ha', hak⟩ := mem_columnNodes.1 ha
        have := h2o a.id (fun b hb hc he => by
          have hba := List.inj_on_of_nodup_map hid hb ha' he
          subst hba
          rw [hak] at hc
          exact (List.nodup_cons.1 hcols).1 hc)
        unfold storedElements
        rw [this.1, this.2]
      congr 1
      congr 1 <;>
      · apply List.map_congr_left
        intro a ha
        rw [hel a ha]

theorem nullLoop_append (eps : ℝ) (style : PhaseStyle) (e : ℝ) (c : ℕ) (nodes : List Node) (k1 k2 : List ℕ)
    (st : NullState) :
    nullLoop eps style e c nodes (k1 ++ k2) st =
      (nullLoop eps style e c nodes k1 st).bind (nullLoop eps style e c nodes k2) := by
  induction k1 generalizing st with
  | nil => rfl
  | cons k ks ih =>
    simp only [List.cons_append, nullLoop, Option.bind_eq_bind]
    cases nullColumn eps style e c (columnNodes nodes k) st with
    | none => rfl
    | some s => simp [ih]

/-- Ratios met while programming are reachable: the loop asks every node for a ratio of at most
`cos² 2e`. Trivial for ideal couplers. -/
def ReachableRun (eps : ℝ) (style : PhaseStyle) (e : ℝ) (c : ℕ) (nodes : List Node) (v : ℕ → ℕ → ℂ) : Prop :=
  ∀ k st, nullLoop eps style e c nodes (List.range k) ⟨v, fun _ => 0, fun _ => 0⟩ = some st →
    ∀ a ∈ nodes, a.column = k →
      directTransmissivity eps (st.w a.top c) (st.w a.bottom c) ≤ Real.cos (2 * e) ^ 2

theorem reachableRun_ideal {eps : ℝ} (heps : 0 ≤ eps) (style : PhaseStyle) (c : ℕ) (nodes : List Node)
    (v : ℕ → ℕ → ℂ) : ReachableRun eps style 0 c nodes v := by
  intro k st _ a _ _
  simpa using (directTransmissivity_mem heps _ _).2

/-- After programming columns `0..K-1`, the top rails of their nodes are dark. -/
theorem nullLoop_dark {style : PhaseStyle} (hs : style = .top ∨ style = .bottom) {eps : ℝ} (heps : 0 ≤ eps) (e : ℝ)
    (he : Real.cos (2 * e) ≠ 0) (c : ℕ)
    (nodes : List Node) (hid : (nodes.map Node.id).Nodup) (hgood : ∀ k, GoodColumn (columnNodes nodes k))
    (hdark : ∀ a ∈ nodes, ∀ b ∈ nodes, a.column < b.column → b.top ≠ a.top ∧ b.bottom ≠ a.top)
    (v : ℕ → ℕ → ℂ) (hr : ReachableRun eps style e c nodes v) (K : ℕ) :
    ∀ st, nullLoop eps style e c nodes (List.range K) ⟨v, fun _ => 0, fun _ => 0⟩ = some st →
      ∀ a ∈ nodes, a.column < K → ‖st.w a.top c‖ ≤ Real.sqrt eps := by
  induction K with
  | zero => intro st _ a _ h; omega
  | succ K ih =>
    intro st hst a ha hK
    rw [List.range_succ, nullLoop_append] at hst
    obtain ⟨st0, h0, h1⟩ := Option.bind_eq_some_iff.1 hst
    simp only [nullLoop, Option.bind_eq_bind, Option.bind_eq_some_iff, Option.some.injEq] at h1
    obtain ⟨st1, h1, rfl⟩ := h1
    have hidk : ((columnNodes nodes K).map Node.id).Nodup :=
      List.Nodup.sublist (List.Sublist.map _ List.filter_sublist) hid
    obtain ⟨st1', h1', _, hn, hw⟩ := nullColumn_spec hs eps e c (columnNodes nodes K) hidk st0
    rw [h1'] at h1
    obtain rfl := Option.some.inj h1
    have hw' : st1'.w a.top c = _ := congrFun (hw c) a.top
    have R := parallelTransform_result (el := storedElements style e st1') (hgood K) (fun r => st0.w r c)
    rcases Nat.lt_succ_iff_lt_or_eq.1 hK with hlt | heq
    · rw [hw', R.other]
      · exact ih st0 h0 a ha hlt
      · intro b hb
        obtain ⟨hb', hbk⟩ := mem_columnNodes.1 hb
        have := hdark a ha b hb' (by omega)
        exact ⟨this.1.symm, this.2.symm⟩
    · have hac : a ∈ columnNodes nodes K := mem_columnNodes.2 ⟨ha, heq⟩
      rw [hw', R.top a hac]
      have hph := hn a hac
      have hsel : storedElements style e st1' a.id = mziElements style false e e 0 0
          (nodePhases eps style e c st0.w a).1 (nodePhases eps style e c st0.w a).2 := by
        unfold storedElements
        rw [hph.1, hph.2, mziElements_modTwoPi style hs]
      rw [hsel]
      have hs' : style ≠ .symmetric := by rcases hs with rfl | rfl <;> simp
      exact nullify_residual style hs heps e he _ _ (hr K st0 h0 a ha heq)
        (nodePhases_some hs' eps e c st0.w a)

/-! ### Trees embedded in `R` rails -/

theorem tree_ids (n R : ℕ) (b : Bool) : ((tree n R b).map Node.id).Perm (List.range (n - 1)) := by
  have : (tree n R b).map Node.id = (preTree n R b).map Node.id := by
    rw [tree_eq, invertColumns, List.map_map]; rfl
  rw [this]; exact preTree_ids n R b

theorem tree_tops (n R : ℕ) (b : Bool) : ((tree n R b).map Node.top).Perm (List.range (n - 1)) := by
  have : (tree n R b).map Node.top = (preTree n R b).map Node.top := by
    rw [tree_eq, invertColumns, List.map_map]; rfl
  rw [this]; exact preTree_tops n R b

theorem tree_length (n R : ℕ) (b : Bool) : (tree n R b).length = n - 1 := by
  simpa using (tree_ids n R b).length_eq

theorem tree_rails {n R : ℕ} (hn : 2 ≤ n) (b : Bool) {a : Node} (ha : a ∈ tree n R b) :
    a.top < a.bottom ∧ a.bottom < n := by
  obtain ⟨x, hx, rfl⟩ := (mem_tree hn).1 ha
  have := preTree_bounds b hx
  exact ⟨this.1, this.2.1⟩

theorem tree_goodColumn {n R : ℕ} (hn : 2 ≤ n) (b : Bool) (k : ℕ) : GoodColumn (columnNodes (tree n R b) k) :=
  ⟨fun a ha => by have := tree_rails hn b (mem_columnNodes.1 ha).1; omega, (tree_disjoint n R b).column k⟩

theorem tree_dark {n R : ℕ} (hn : 2 ≤ n) (b : Bool) :
    ∀ x ∈ tree n R b, ∀ y ∈ tree n R b, x.column < y.column → y.top ≠ x.top ∧ y.bottom ≠ x.top := by
  intro a ha c hc hlt
  obtain ⟨x, hx, rfl⟩ := (mem_tree hn).1 ha
  obtain ⟨y, hy, rfl⟩ := (mem_tree hn).1 hc
  have := preTree_column_le hn b hx
  have := preTree_column_le hn b hy
  simp only at hlt ⊢
  have := preTree_dark b hx hy (by omega)
  exact ⟨this.1.symm, this.2.symm⟩

/-- Elements of the nodes of a network programmed with `P`. -/
noncomputable def programmedElements (style : PhaseStyle) (e : ℝ) (P : Params) (k : ℕ) : Elements :=
  mziElements style false e e 0 0 (P.thetas k) (P.phis k)

/-- `_program_vector_unit` on a tree with `m` inputs in `R` rails. -/
theorem programVectorUnit_spec {style : PhaseStyle} (hs : style = .top ∨ style = .bottom) {eps : ℝ} (heps : 0 ≤ eps)
    (e : ℝ) (he : Real.cos (2 * e) ≠ 0) (m R c : ℕ) (hm : 2 ≤ m) (balanced : Bool) (v : ℕ → ℕ → ℂ)
    (hr : ReachableRun eps style e c (tree m R balanced) v) :
    ∃ P w, programVectorUnit eps style e m c (tree m R balanced) v = some (P, w) ∧
      (∀ j, (fun r => w r j) =
        seqApply (programmedElements style e P) (executionOrder (tree m R balanced)) (fun r => v r j)) ∧
      (∀ r, r + 1 < m → ‖w r c‖ ≤ Real.sqrt eps) ∧
      P.gammas (m - 1) = -arg (w (m - 1) c) ∧ ∀ r, r ≠ m - 1 → P.gammas r = 0 := by
  have hid : ((tree m R balanced).map Node.id).Nodup := (tree_ids m R balanced).nodup_iff.2 List.nodup_range
  obtain ⟨st, h1, h2, h3⟩ := nullLoop_spec hs eps e c (tree m R balanced) hid
    (List.range (numColumns (tree m R balanced))) List.nodup_range ⟨v, fun _ => 0, fun _ => 0⟩
  refine ⟨⟨st.thetas, st.phis, fun r => -arg ((if r = m - 1 then 1 else 0) * st.w (m - 1) c)⟩, st.w,
    by simp [programVectorUnit, h1], ?_, ?_, ?_, ?_⟩
  · intro j
    rw [h3 j, columnsApply_eq_seq (fun k => tree_goodColumn hm balanced k)]
    rfl
  · intro r hr'
    have : r ∈ (tree m R balanced).map Node.top := (tree_tops m R balanced).mem_iff.2 (List.mem_range.2 (by omega))
    obtain ⟨a, ha, rfl⟩ := List.mem_map.1 this
    exact nullLoop_dark hs heps e he c _ hid (fun k => tree_goodColumn hm balanced k) (tree_dark hm balanced) v hr _ st h1 a ha
      (column_lt_numColumns ha)
  · simp
  · intro r hr; simp [hr]

/-- Programming a SYMMETRIC tree raises. -/
theorem programVectorUnit_symmetric (eps e : ℝ) (m R c : ℕ) (hm : 2 ≤ m) (balanced : Bool) (v : ℕ → ℕ → ℂ) :
    programVectorUnit eps .symmetric e m c (tree m R balanced) v = none := by
  have hpos : ∃ K, numColumns (tree m R balanced) = K + 1 := by
    have : 0 ∈ (tree m R balanced).map Node.top := (tree_tops m R balanced).mem_iff.2 (List.mem_range.2 (by omega))
    obtain ⟨a, ha, _⟩ := List.mem_map.1 this
    have := column_lt_numColumns ha
    exact ⟨_, (Nat.sub_add_cancel (by omega : 1 ≤ _)).symm⟩
  obtain ⟨K, hK⟩ := hpos
  have hroot : ∃ a, a ∈ columnNodes (tree m R balanced) 0 := by
    have hlen : treeDepth m balanced - 1 < treeDepth m balanced := by
      have := numColumns_preTree (R := R) hm balanced
      obtain ⟨x, hx, hx0⟩ := preTree_root (R := R) hm balanced
      have := column_lt_numColumns hx
      omega
    obtain ⟨x, hx, hxk⟩ := preTree_columns (R := R) hm balanced hlen
    exact ⟨_, mem_columnNodes.2 ⟨(mem_tree hm).2 ⟨x, hx, rfl⟩, by simp only; omega⟩⟩
  obtain ⟨a, ha⟩ := hroot
  have hcol : nullColumn eps .symmetric e c (columnNodes (tree m R balanced) 0) ⟨v, fun _ => 0, fun _ => 0⟩ = none := by
    cases hl : columnNodes (tree m R balanced) 0 with
    | nil => rw [hl] at ha; simp at ha
    | cons b l => simp [nullColumn, List.mapM_cons, nullifyPhases]
  unfold programVectorUnit
  rw [hK, List.range_succ_eq_map]
  simp [nullLoop, hcol]

end Simphox
