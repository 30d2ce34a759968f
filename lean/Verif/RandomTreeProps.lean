import Verif.RandomTree
import Mathlib.MeasureTheory.Integral.Pi
import Mathlib.Analysis.SpecialFunctions.Integrals.Basic

/-! # A freshly built tree mesh (C121) -/

namespace Simphox

open MeasureTheory ProbabilityTheory Complex

local notation "conj" => starRingEnd ℂ

instance : IsProbabilityMeasure uniform01 := ⟨by simp [uniform01]⟩

/-! ### Integrals of one node -/

theorem uniform_phase (A B : ℕ) :
    ∫ y, exp (I * ((2 * Real.pi * y : ℝ) : ℂ)) ^ A * conj (exp (I * ((2 * Real.pi * y : ℝ) : ℂ))) ^ B ∂uniform01 =
      if A = B then 1 else 0 := by
  have hc : ∀ y : ℝ, exp (I * ((2 * Real.pi * y : ℝ) : ℂ)) ^ A * conj (exp (I * ((2 * Real.pi * y : ℝ) : ℂ))) ^ B =
      exp ((2 * Real.pi * I * ((A : ℂ) - B)) * y) := by
    intro y
    rw [← exp_conj, ← exp_nat_mul, ← exp_nat_mul, ← exp_add]
    congr 1
    simp only [map_mul, conj_I, conj_ofReal]
    push_cast
    ring
  simp only [hc]
  split_ifs with h
  · subst h; simp
  · have hne : 2 * (Real.pi : ℂ) * I * ((A : ℂ) - B) ≠ 0 := by
      have h1 : (A : ℂ) - B ≠ 0 := by
        rw [sub_ne_zero]; exact_mod_cast h
      simp [h1, Real.pi_ne_zero]
    rw [uniform01, integral_Ico_eq_integral_Ioc, ← intervalIntegral.integral_of_le zero_le_one,
      integral_exp_mul_complex hne]
    have : exp (2 * (Real.pi : ℂ) * I * ((A : ℂ) - B) * ((1 : ℝ) : ℂ)) = 1 := by
      rw [exp_eq_one_iff]
      exact ⟨(A : ℤ) - B, by push_cast; ring⟩
    rw [this]; simp

theorem beta_moment (a b : ℝ) (ha : 0 < a) (hb : 0 < b) (A B : ℕ) :
    ∫ s, s ^ A * (1 - s) ^ B ∂betaMeasure a b = beta (a + A) (b + B) / beta a b := by
  have h1 : ∀ s, (betaPDF a b s).toReal • (s ^ A * (1 - s) ^ B) =
      beta (a + A) (b + B) / beta a b * betaPDFReal (a + A) (b + B) s := by
    intro s
    have hnn : 0 ≤ betaPDFReal a b s := by
      by_cases h : 0 < s ∧ s < 1
      · exact (betaPDFReal_pos h.1 h.2 ha hb).le
      · rw [betaPDFReal, if_neg h]
    rw [betaPDF, ENNReal.toReal_ofReal hnn, smul_eq_mul]
    unfold betaPDFReal
    split_ifs with h
    · have e1 : s ^ (a + A - 1) = s ^ (a - 1) * s ^ A := by
        rw [show a + A - 1 = (a - 1) + A by ring, Real.rpow_add h.1, Real.rpow_natCast]
      have e2 : (1 - s) ^ (b + B - 1) = (1 - s) ^ (b - 1) * (1 - s) ^ B := by
        rw [show b + B - 1 = (b - 1) + B by ring, Real.rpow_add (by linarith [h.2]), Real.rpow_natCast]
      have n1 := (beta_pos ha hb).ne'
      have n2 := (beta_pos (α := a + A) (β := b + B) (by positivity) (by positivity)).ne'
      rw [e1, e2]
      field_simp
    · simp
  have hlt : ∀ᵐ s : ℝ, betaPDF a b s < ⊤ := ae_of_all _ fun s => ENNReal.ofReal_lt_top
  rw [betaMeasure, integral_withDensity_eq_integral_toReal_smul (by unfold betaPDF; fun_prop) hlt]
  simp only [h1]
  rw [integral_const_mul]
  have h2 : ∫ s, betaPDFReal (a + A) (b + B) s = 1 := by
    have hl := lintegral_betaPDF_eq_one (α := a + A) (β := b + B) (by positivity) (by positivity)
    rw [integral_eq_lintegral_of_nonneg_ae]
    · have : (∫⁻ s, ENNReal.ofReal (betaPDFReal (a + A) (b + B) s)) = 1 := hl
      rw [this]; rfl
    · refine ae_of_all _ fun s => ?_
      by_cases h : 0 < s ∧ s < 1
      · exact (betaPDFReal_pos h.1 h.2 (by positivity) (by positivity)).le
      · simp [betaPDFReal, if_neg h]
    · exact (measurable_betaPDFReal _ _).aestronglyMeasurable
  rw [h2, mul_one]

/-- Top arm to bottom output, without the external phase. -/
noncomputable def armL (t : ℝ) : ℂ := I * (exp (I * t) + 1) / 2

/-- Bottom arm to bottom output. -/
noncomputable def armR (t : ℝ) : ℂ := (1 - exp (I * t)) / 2

theorem arm_powers (t : ℝ) : armL t * conj (armL t) = ((1 + Real.cos t) / 2 : ℝ) ∧
    armR t * conj (armR t) = ((1 - Real.cos t) / 2 : ℝ) := by
  have h1 : exp (I * t) = Real.cos t + Real.sin t * I := by
    rw [mul_comm, exp_mul_I]; push_cast; ring
  have h2 : (Real.cos t : ℂ) ^ 2 + (Real.sin t : ℂ) ^ 2 = 1 := by
    rw [← ofReal_pow, ← ofReal_pow, ← ofReal_add, Real.cos_sq_add_sin_sq]; rfl
  constructor
  · simp only [armL, h1, map_div₀, map_mul, map_add, conj_I, conj_ofReal, map_one, map_ofNat]
    push_cast at h2 ⊢
    linear_combination (1 / 4) * h2 +
      ((sin (t : ℂ)) ^ 2 * I ^ 2 / 4 - (cos (t : ℂ) + 1) ^ 2 / 4 - (sin (t : ℂ)) ^ 2 / 4) * I_sq
  · simp only [armR, h1, map_div₀, map_mul, map_add, map_sub, conj_I, conj_ofReal, map_one, map_ofNat]
    push_cast at h2 ⊢
    linear_combination (1 / 4) * h2 - ((sin (t : ℂ)) ^ 2 / 4) * I_sq

/-- The expectation of a monomial in the couplings of one node: zero unless the external phase
cancels, otherwise a ratio of beta functions. -/
theorem node_moment (a b : ℝ) (ha : 0 < a) (hb : 0 < b) (inv : ℝ → ℝ) (h : IsBetaincinv a b inv)
    (A B C D : ℕ) :
    let K := ∫ z, ((armL (randTheta inv 0 0 z.1) * exp (I * ((2 * Real.pi * z.2 : ℝ) : ℂ))) ^ A *
      conj (armL (randTheta inv 0 0 z.1) * exp (I * ((2 * Real.pi * z.2 : ℝ) : ℂ))) ^ B) *
      (armR (randTheta inv 0 0 z.1) ^ C * conj (armR (randTheta inv 0 0 z.1)) ^ D) ∂(uniform01.prod uniform01)
    (A ≠ B → K = 0) ∧ (A = B → C = D → K = ((beta (a + A) (b + C) / beta a b : ℝ) : ℂ)) := by
  intro K
  have hK : K = (∫ x, (armL (randTheta inv 0 0 x) ^ A * conj (armL (randTheta inv 0 0 x)) ^ B) *
      (armR (randTheta inv 0 0 x) ^ C * conj (armR (randTheta inv 0 0 x)) ^ D) ∂uniform01) *
      if A = B then 1 else 0 := by
    rw [← uniform_phase, ← integral_prod_mul]
    refine integral_congr_ae (ae_of_all _ fun z => ?_)
    simp only [map_mul, mul_pow]
    ring
  constructor
  · intro hne; rw [hK, if_neg hne, mul_zero]
  · rintro rfl rfl
    rw [hK, if_pos rfl, mul_one, ← beta_moment a b ha hb, ← C119_rand_s_law a b ha hb inv h,
      integral_map h.aemeasurable (by fun_prop), ← integral_complex_ofReal]
    refine setIntegral_congr_fun measurableSet_Ico fun u hu => ?_
    have hs := (h u (Set.Ico_subset_Icc_self hu)).1
    obtain ⟨p1, p2⟩ := arm_powers (randTheta inv 0 0 u)
    have hcos : Real.cos (randTheta inv 0 0 u) = 2 * inv u - 1 := by
      rw [randTheta_ideal, idealPhase, max_eq_left (by linarith [hs.1]), min_eq_left (by linarith [hs.2]),
        Real.cos_arccos (by linarith [hs.1]) (by linarith [hs.2])]
    rw [← mul_pow, ← mul_pow, p1, p2, hcos]
    push_cast
    congr 2 <;> ring

/-! ### Monomials of the last row -/

/-- Sum of the exponents on the rails of a subtree. -/
def tot (a : ℕ → ℕ) (t : BT) (s : ℕ) : ℕ := ∑ k ∈ Finset.range t.size, a (s + k)

theorem tot_node (a : ℕ → ℕ) (l r : BT) (s : ℕ) : tot a (.node l r) s = tot a l s + tot a r (s + l.size) := by
  simp only [tot, BT.size, Finset.sum_range_add, Nat.add_assoc]

/-- The factor of node `i` in a monomial of the amplitudes: `p`, `q` are its couplings. -/
noncomputable def fac (a b : ℕ → ℕ) : BT → ℕ → ℕ → ℂ → ℂ → ℂ
  | .leaf, _, _, _, _ => 1
  | .node l r, s, i, p, q =>
    (if i = s + l.size - 1 then
      (p ^ tot a l s * conj p ^ tot b l s) * (q ^ tot a r (s + l.size) * conj q ^ tot b r (s + l.size)) else 1) *
      (fac a b l s i p q * fac a b r (s + l.size) i p q)

theorem fac_out (a b : ℕ → ℕ) (t : BT) (s i : ℕ) (p q : ℂ) (h : i < s ∨ s + t.size ≤ i + 1) :
    fac a b t s i p q = 1 := by
  induction t generalizing s with
  | leaf => rfl
  | node l r h1 h2 =>
    have := l.size_pos
    have := r.size_pos
    simp only [BT.size] at h
    rw [fac, if_neg (by omega), h1 s (by omega), h2 _ (by omega)]
    simp

/-- Unit input on rail `j`. -/
def unitIn (j : ℕ) : ℕ → ℂ := fun r => if r = j then 1 else 0

theorem amp_out (P : Params) (t : BT) (s j : ℕ) (h : j < s ∨ s + t.size ≤ j) : amp P (unitIn j) t s = 0 := by
  induction t generalizing s with
  | leaf =>
    simp only [BT.size] at h
    have : s ≠ j := by omega
    simp [amp, unitIn, this]
  | node l r h1 h2 =>
    simp only [BT.size] at h
    rw [amp, h1 s (by omega), h2 _ (by omega)]; simp

theorem monomial_eq (a b : ℕ → ℕ) (P : Params) (t : BT) (s N : ℕ) (hN : s + t.size - 1 ≤ N) :
    ∏ k ∈ Finset.range t.size, (amp P (unitIn (s + k)) t s ^ a (s + k) * conj (amp P (unitIn (s + k)) t s) ^ b (s + k)) =
      ∏ i ∈ Finset.range N, fac a b t s i (cl P i) (cr P i) := by
  induction t generalizing s with
  | leaf => simp [BT.size, amp, unitIn, fac]
  | node l r h1 h2 =>
    have hl := l.size_pos
    have hr := r.size_pos
    simp only [BT.size] at hN
    have e1 := h1 s (by omega)
    have e2 := h2 (s + l.size) (by omega)
    have f1 : ∀ k ∈ Finset.range l.size, amp P (unitIn (s + k)) (.node l r) s =
        cl P (s + l.size - 1) * amp P (unitIn (s + k)) l s := by
      intro k hk
      have := Finset.mem_range.1 hk
      rw [amp, amp_out P r _ _ (by omega)]; ring
    have f2 : ∀ k ∈ Finset.range r.size, amp P (unitIn (s + (l.size + k))) (.node l r) s =
        cr P (s + l.size - 1) * amp P (unitIn (s + l.size + k)) r (s + l.size) := by
      intro k hk
      rw [amp, amp_out P l _ _ (by omega), ← Nat.add_assoc]; ring
    have g1 := Finset.prod_congr (s₁ := Finset.range l.size) rfl fun k hk =>
      congrArg (fun z : ℂ => z ^ a (s + k) * conj z ^ b (s + k)) (f1 k hk)
    have g2 := Finset.prod_congr (s₁ := Finset.range r.size) rfl fun k hk =>
      congrArg (fun z : ℂ => z ^ a (s + (l.size + k)) * conj z ^ b (s + (l.size + k))) (f2 k hk)
    rw [BT.size, Finset.prod_range_add, g1, g2]
    simp only [fac, Finset.prod_mul_distrib (s := Finset.range N)]
    rw [← e1, ← e2, Finset.prod_ite_eq', if_pos (Finset.mem_range.2 (by omega))]
    simp only [map_mul, mul_pow, Finset.prod_mul_distrib, Finset.prod_pow_eq_pow_sum, tot, ← Nat.add_assoc]
    ring

/-! ### Expectation of the factors -/

/-- Couplings of node `i` as functions of its two draws. -/
noncomputable def drawL (inv : ℝ → ℝ) (z : ℝ × ℝ) : ℂ :=
  armL (randTheta inv 0 0 z.1) * exp (I * ((2 * Real.pi * z.2 : ℝ) : ℂ))

noncomputable def drawR (inv : ℝ → ℝ) (z : ℝ × ℝ) : ℂ := armR (randTheta inv 0 0 z.1)

/-- Expectation of a function of the couplings of one node. -/
noncomputable def nodeE (inv : ℝ → ℝ) (f : ℂ → ℂ → ℂ) : ℂ :=
  ∫ z, f (drawL inv z) (drawR inv z) ∂(uniform01.prod uniform01)

theorem nodeE_one (inv : ℝ → ℝ) : nodeE inv (fun _ _ => 1) = 1 := by simp [nodeE]

theorem nodeE_fac (a b : ℕ → ℕ) (l r : BT) (s i : ℕ) (inv : ℝ → ℝ) :
    nodeE inv (fac a b (.node l r) s i) =
      (if i = s + l.size - 1 then nodeE inv (fun p q =>
        (p ^ tot a l s * conj p ^ tot b l s) * (q ^ tot a r (s + l.size) * conj q ^ tot b r (s + l.size))) else 1) *
      (nodeE inv (fac a b l s i) * nodeE inv (fac a b r (s + l.size) i)) := by
  have hl := l.size_pos
  have hr := r.size_pos
  have one (t : BT) (s : ℕ) (h : i < s ∨ s + t.size ≤ i + 1) : fac a b t s i = fun _ _ => 1 := by
    funext p q; exact fac_out a b t s i p q h
  have e : fac a b (.node l r) s i = fun p q => (if i = s + l.size - 1 then
      (p ^ tot a l s * conj p ^ tot b l s) * (q ^ tot a r (s + l.size) * conj q ^ tot b r (s + l.size)) else 1) *
      (fac a b l s i p q * fac a b r (s + l.size) i p q) := by
    funext p q; rw [fac]
  rw [e]
  by_cases h : i = s + l.size - 1
  · rw [one l s (by omega), one r _ (by omega), nodeE_one]
    simp [h]
  · by_cases h' : i + 1 < s + l.size
    · rw [one r _ (by omega), nodeE_one]
      simp [h]
    · rw [one l s (by omega), nodeE_one]
      simp [h]

/-- The expectation as a product of ratios of beta functions; `β k`, `α k` are the parameters that
`thetas[k]` is drawn with. -/
noncomputable def momentVal (β α : ℕ → ℕ) (a : ℕ → ℕ) : BT → ℕ → ℝ
  | .leaf, _ => 1
  | .node l r, s =>
    beta (β (s + l.size - 1) + tot a l s) (α (s + l.size - 1) + tot a r (s + l.size)) /
      beta (β (s + l.size - 1)) (α (s + l.size - 1)) *
      (momentVal β α a l s * momentVal β α a r (s + l.size))

/-- Parameters of the nodes of a subtree are positive. -/
def ParPos (β α : ℕ → ℕ) (t : BT) (s : ℕ) : Prop := ∀ i, s ≤ i → i + 1 < s + t.size → 1 ≤ β i ∧ 1 ≤ α i

theorem tot_congr (a b : ℕ → ℕ) (t : BT) (s : ℕ) (h : ∀ k, s ≤ k → k < s + t.size → a k = b k) :
    tot a t s = tot b t s := by
  refine Finset.sum_congr rfl fun k hk => h _ (by omega) ?_
  have := Finset.mem_range.1 hk; omega

theorem moment_eq {binv : ℕ → ℕ → ℝ → ℝ} (hb : IsBetaincinvFamily binv) (β α a b : ℕ → ℕ) (t : BT) (s N : ℕ)
    (hN : s + t.size - 1 ≤ N) (hp : ParPos β α t s) (h : ∀ k, s ≤ k → k < s + t.size → a k = b k) :
    ∏ i ∈ Finset.range N, nodeE (binv (β i) (α i)) (fac a b t s i) = (momentVal β α a t s : ℂ) := by
  induction t generalizing s with
  | leaf =>
    refine (Finset.prod_eq_one fun i _ => ?_).trans (by simp [momentVal])
    exact nodeE_one _
  | node l r h1 h2 =>
    have hl := l.size_pos
    have hr := r.size_pos
    simp only [BT.size, ParPos] at hN h hp
    have hpl : ParPos β α l s := fun i h1 h2 => hp i h1 (by omega)
    have hpr : ParPos β α r (s + l.size) := fun i h1 h2 => hp i (by omega) (by omega)
    simp only [nodeE_fac, Finset.prod_mul_distrib]
    rw [h1 s (by omega) hpl fun k h1 h2 => h k h1 (by omega),
      h2 (s + l.size) (by omega) hpr fun k h1 h2 => h k (by omega) (by omega),
      Finset.prod_ite_eq', if_pos (Finset.mem_range.2 (by omega))]
    obtain ⟨q1, q2⟩ := hp (s + l.size - 1) (by omega) (by omega)
    have := (node_moment (β (s + l.size - 1)) (α (s + l.size - 1)) (by exact_mod_cast q1) (by exact_mod_cast q2)
      _ (hb _ _ q1 q2) (tot a l s) (tot b l s) (tot a r (s + l.size)) (tot b r (s + l.size))).2
      (tot_congr a b l s fun k h1 h2 => h k h1 (by omega))
      (tot_congr a b r _ fun k h1 h2 => h k (by omega) (by omega))
    simp only [nodeE, drawL, drawR]
    rw [this, momentVal]
    push_cast
    ring

theorem moment_zero {binv : ℕ → ℕ → ℝ → ℝ} (hb : IsBetaincinvFamily binv) (β α a b : ℕ → ℕ) (t : BT) (s N : ℕ)
    (hN : s + t.size - 1 ≤ N) (hp : ParPos β α t s) (ht : tot a t s = tot b t s)
    (h : ∃ k, s ≤ k ∧ k < s + t.size ∧ a k ≠ b k) :
    ∏ i ∈ Finset.range N, nodeE (binv (β i) (α i)) (fac a b t s i) = 0 := by
  induction t generalizing s with
  | leaf =>
    obtain ⟨k, h1, h2, h3⟩ := h
    simp only [BT.size] at h2
    have : k = s := by omega
    subst this
    simp [tot, BT.size] at ht
    exact absurd ht h3
  | node l r h1 h2 =>
    have hl := l.size_pos
    have hr := r.size_pos
    simp only [BT.size, ParPos] at hN h hp
    have hpl : ParPos β α l s := fun i h1 h2 => hp i h1 (by omega)
    have hpr : ParPos β α r (s + l.size) := fun i h1 h2 => hp i (by omega) (by omega)
    rw [tot_node, tot_node] at ht
    simp only [nodeE_fac, Finset.prod_mul_distrib]
    rw [Finset.prod_ite_eq', if_pos (Finset.mem_range.2 (by omega))]
    by_cases hT : tot a l s = tot b l s
    · obtain ⟨k, k1, k2, k3⟩ := h
      by_cases hk : k < s + l.size
      · rw [h1 s (by omega) hpl hT ⟨k, k1, hk, k3⟩]; simp
      · rw [h2 (s + l.size) (by omega) hpr (by omega) ⟨k, by omega, by omega, k3⟩]; simp
    · obtain ⟨q1, q2⟩ := hp (s + l.size - 1) (by omega) (by omega)
      have := (node_moment (β (s + l.size - 1)) (α (s + l.size - 1)) (by exact_mod_cast q1) (by exact_mod_cast q2)
        _ (hb _ _ q1 q2) (tot a l s) (tot b l s) (tot a r (s + l.size)) (tot b r (s + l.size))).1 hT
      simp only [nodeE, drawL, drawR]
      rw [this]; simp

/-! ### Fair parameters -/

/-- Every node is drawn with the numbers of rails of its two arms. -/
def Fair (β α : ℕ → ℕ) : BT → ℕ → Prop
  | .leaf, _ => True
  | .node l r, s => β (s + l.size - 1) = l.size ∧ α (s + l.size - 1) = r.size ∧ Fair β α l s ∧ Fair β α r (s + l.size)

theorem fair_moment (β α a : ℕ → ℕ) (t : BT) (s : ℕ) (h : Fair β α t s) :
    momentVal β α a t s = (t.size - 1).factorial * (∏ k ∈ Finset.range t.size, ((a (s + k)).factorial : ℝ)) /
      (t.size - 1 + tot a t s).factorial := by
  induction t generalizing s with
  | leaf => 
    have : ((a s).factorial : ℝ) ≠ 0 := by positivity
    simp [momentVal, BT.size, tot, div_self this]
  | node l r h1 h2 =>
    obtain ⟨e1, e2, f1, f2⟩ := h
    have hl := l.size_pos
    have hr := r.size_pos
    rw [momentVal, h1 s f1, h2 _ f2, e1, e2, tot_node]
    have G : ∀ m : ℕ, 1 ≤ m → Real.Gamma m = (m - 1).factorial := by
      intro m hm
      obtain ⟨k, rfl⟩ := Nat.exists_eq_add_of_le' hm
      rw [Nat.cast_add, Nat.cast_one, Real.Gamma_nat_eq_factorial]; simp
    simp only [beta, ← Nat.cast_add]
    rw [G _ (by omega), G _ (by omega), G _ (by omega), G _ hl, G _ hr, G _ (by omega)]
    simp only [BT.size, Finset.prod_range_add, Nat.add_assoc]
    rw [show l.size + tot a l s - 1 = l.size - 1 + tot a l s by omega,
      show r.size + tot a r (s + l.size) - 1 = r.size - 1 + tot a r (s + l.size) by omega,
      show l.size + (tot a l s + (r.size + tot a r (s + l.size))) - 1 =
        l.size + r.size - 1 + (tot a l s + tot a r (s + l.size)) by omega]
    have p1 : ((l.size - 1).factorial : ℝ) ≠ 0 := by positivity
    have p2 : ((r.size - 1).factorial : ℝ) ≠ 0 := by positivity
    have p3 : ((l.size + r.size - 1).factorial : ℝ) ≠ 0 := by positivity
    have p4 : ((l.size - 1 + tot a l s).factorial : ℝ) ≠ 0 := by positivity
    have p5 : ((r.size - 1 + tot a r (s + l.size)).factorial : ℝ) ≠ 0 := by positivity
    have p6 : ((l.size + r.size - 1 + (tot a l s + tot a r (s + l.size))).factorial : ℝ) ≠ 0 := by positivity
    field_simp

/-! ### The last row of a fresh tree -/

theorem freshRow_eq {n : ℕ} (hn : 2 ≤ n) (binv : ℕ → ℕ → ℝ → ℝ) (bal : Bool)
    (w : (Fin (n - 1) → ℝ × ℝ) × (Fin n → ℝ)) (k : Fin n) :
    freshRow binv n bal w k = exp (I * ((2 * Real.pi * padFin 0 w.2 (n - 1) : ℝ) : ℂ)) *
      amp (freshParams binv (tree n n bal) (padFin (0, 0) w.1) (padFin 0 w.2)) (unitIn k) (shape n bal) 0 := by
  rw [freshRow, mesh_last hn]
  rfl

theorem row_moment {n : ℕ} (hn : 2 ≤ n) {binv : ℕ → ℕ → ℝ → ℝ} (bal : Bool) (a b : ℕ → ℕ) :
    ∫ w, ∏ k : Fin n, (freshRow binv n bal w k ^ a k * conj (freshRow binv n bal w k) ^ b k) ∂freshDraws (n - 1) n =
      (∏ i ∈ Finset.range (n - 1), nodeE (binv ((tree n n bal).getD i default).beta ((tree n n bal).getD i default).alpha)
        (fac a b (shape n bal) 0 i)) * if tot a (shape n bal) 0 = tot b (shape n bal) 0 then 1 else 0 := by
  have hsz := shape_size n (by omega) bal
  have key : ∀ w : (Fin (n - 1) → ℝ × ℝ) × (Fin n → ℝ),
      ∏ k : Fin n, (freshRow binv n bal w k ^ a k * conj (freshRow binv n bal w k) ^ b k) =
      (∏ i : Fin (n - 1), fac a b (shape n bal) 0 i
        (drawL (binv ((tree n n bal).getD i default).beta ((tree n n bal).getD i default).alpha) (w.1 i))
        (drawR (binv ((tree n n bal).getD i default).beta ((tree n n bal).getD i default).alpha) (w.1 i))) *
      ∏ r : Fin n, if r.val = n - 1 then
        exp (I * ((2 * Real.pi * w.2 r : ℝ) : ℂ)) ^ tot a (shape n bal) 0 *
          conj (exp (I * ((2 * Real.pi * w.2 r : ℝ) : ℂ))) ^ tot b (shape n bal) 0 else 1 := by
    intro w
    set Q := freshParams binv (tree n n bal) (padFin (0, 0) w.1) (padFin 0 w.2) with hQ
    set g := exp (I * ((2 * Real.pi * padFin 0 w.2 (n - 1) : ℝ) : ℂ)) with hg
    have m := monomial_eq a b Q (shape n bal) 0 (n - 1) (by omega)
    rw [hsz, Finset.prod_range, Finset.prod_range] at m
    simp only [Nat.zero_add] at m
    have e1 : ∀ k : Fin n, freshRow binv n bal w k ^ a k * conj (freshRow binv n bal w k) ^ b k =
        (g ^ a k * conj g ^ b k) * (amp Q (unitIn k) (shape n bal) 0 ^ a k *
          conj (amp Q (unitIn k) (shape n bal) 0) ^ b k) := by
      intro k
      rw [freshRow_eq hn, ← hQ, ← hg]
      simp only [map_mul, mul_pow]; ring
    rw [Finset.prod_congr rfl fun k _ => e1 k, Finset.prod_mul_distrib, m, mul_comm]
    congr 1
    · refine Finset.prod_congr rfl fun i _ => ?_
      have hi : padFin ((0 : ℝ), (0 : ℝ)) w.1 i = w.1 i := by simp [padFin]
      congr 1
      · simp only [cl, drawL, armL, hQ, freshParams, hi]
      · simp only [cr, drawR, armR, hQ, freshParams, hi]
    · have hl : n - 1 < n := by omega
      symm
      rw [Finset.prod_eq_single (⟨n - 1, hl⟩ : Fin n)]
      · rw [if_pos rfl, Finset.prod_mul_distrib, Finset.prod_pow_eq_pow_sum, Finset.prod_pow_eq_pow_sum]
        have hgl : padFin (0 : ℝ) w.2 (n - 1) = w.2 ⟨n - 1, hl⟩ := by simp [padFin, hl]
        rw [hg, hgl]
        simp only [tot, hsz, Nat.zero_add]
        rw [Finset.sum_range, Finset.sum_range]
      · intro r _ hr
        rw [if_neg]; intro h; exact hr (Fin.ext h)
      · simp
  simp only [key]
  rw [freshDraws, integral_prod_mul (μ := Measure.pi fun _ : Fin (n - 1) => uniform01.prod uniform01)
    (ν := Measure.pi fun _ : Fin n => uniform01)
    (fun x => ∏ i : Fin (n - 1), fac a b (shape n bal) 0 i
        (drawL (binv ((tree n n bal).getD i default).beta ((tree n n bal).getD i default).alpha) (x i))
        (drawR (binv ((tree n n bal).getD i default).beta ((tree n n bal).getD i default).alpha) (x i)))
    (fun y => ∏ r : Fin n, if r.val = n - 1 then
        exp (I * ((2 * Real.pi * y r : ℝ) : ℂ)) ^ tot a (shape n bal) 0 *
          conj (exp (I * ((2 * Real.pi * y r : ℝ) : ℂ))) ^ tot b (shape n bal) 0 else 1)]
  congr 1
  · rw [Finset.prod_range]
    exact integral_fintype_prod_eq_prod (fun (i : Fin (n - 1)) (z : ℝ × ℝ) => fac a b (shape n bal) 0 i
        (drawL (binv ((tree n n bal).getD i default).beta ((tree n n bal).getD i default).alpha) z)
        (drawR (binv ((tree n n bal).getD i default).beta ((tree n n bal).getD i default).alpha) z))
  · rw [integral_fintype_prod_eq_prod (fun (r : Fin n) (y : ℝ) => if r.val = n - 1 then
        exp (I * ((2 * Real.pi * y : ℝ) : ℂ)) ^ tot a (shape n bal) 0 *
          conj (exp (I * ((2 * Real.pi * y : ℝ) : ℂ))) ^ tot b (shape n bal) 0 else 1)]
    have hl : n - 1 < n := by omega
    rw [Finset.prod_eq_single (⟨n - 1, hl⟩ : Fin n)]
    · simp only [if_true]
      exact uniform_phase _ _
    · intro r _ hr
      have : r.val ≠ n - 1 := fun h => hr (Fin.ext h)
      simp [this]
    · simp

/-- Parameters of the node at list position `i`. -/
def listBeta (nodes : List Node) (i : ℕ) : ℕ := (nodes.getD i default).beta
def listAlpha (nodes : List Node) (i : ℕ) : ℕ := (nodes.getD i default).alpha

theorem row_moment_val {n : ℕ} (hn : 2 ≤ n) {binv : ℕ → ℕ → ℝ → ℝ} (hb : IsBetaincinvFamily binv) (bal : Bool)
    (hp : ∀ i < n - 1, 1 ≤ listBeta (tree n n bal) i ∧ 1 ≤ listAlpha (tree n n bal) i) (a b : ℕ → ℕ) :
    ∫ w, ∏ k : Fin n, (freshRow binv n bal w k ^ a k * conj (freshRow binv n bal w k) ^ b k) ∂freshDraws (n - 1) n =
      if ∀ k < n, a k = b k then
        ((momentVal (listBeta (tree n n bal)) (listAlpha (tree n n bal)) a (shape n bal) 0 : ℝ) : ℂ) else 0 := by
  have hsz := shape_size n (by omega) bal
  have hp' : ParPos (listBeta (tree n n bal)) (listAlpha (tree n n bal)) (shape n bal) 0 := by
    intro i _ h; exact hp i (by omega)
  rw [row_moment hn]
  split_ifs with h1 h2 h2
  · rw [mul_one]
    exact moment_eq hb (listBeta _) (listAlpha _) a b _ 0 _ (by omega) hp' fun k _ h => h2 k (by omega)
  · rw [mul_one]
    push Not at h2
    obtain ⟨k, k1, k2⟩ := h2
    exact moment_zero hb (listBeta _) (listAlpha _) a b _ 0 _ (by omega) hp' h1 ⟨k, by omega, by omega, k2⟩
  · exact absurd (tot_congr a b _ 0 fun k _ h => h2 k (by omega)) h1
  · rw [mul_zero]

/-! ### Specification -/

/-- The mixed moments of a uniformly distributed unit vector of `ℂⁿ` (equivalently, of a row of a
Haar-random unitary matrix): `E[∏ₖ zₖ^aₖ conj(zₖ)^bₖ]` is `0` unless `a = b`, and
`(n-1)! ∏ aₖ! / (n-1+Σ aₖ)!` otherwise. -/
def HaarMoments {Ω : Type} [MeasurableSpace Ω] (μ : Measure Ω) (n : ℕ) (row : Ω → Fin n → ℂ) : Prop :=
  ∀ a b : Fin n → ℕ, ∫ w, ∏ k, (row w k ^ a k * conj (row w k) ^ b k) ∂μ =
    if a = b then (((n - 1).factorial * ∏ k, (a k).factorial : ℕ) : ℂ) / ((n - 1 + ∑ k, a k).factorial : ℕ) else 0

/-- In particular every output power has mean `1 / n`. -/
theorem HaarMoments.mean {Ω : Type} [MeasurableSpace Ω] {μ : Measure Ω} {n : ℕ} {row : Ω → Fin n → ℂ}
    (h : HaarMoments μ n row) (j : Fin n) : ∫ w, row w j * conj (row w j) ∂μ = 1 / n := by
  have := h (fun k => if k = j then 1 else 0) (fun k => if k = j then 1 else 0)
  have e : ∀ w, ∏ k, (row w k ^ (if k = j then 1 else 0) * conj (row w k) ^ (if k = j then 1 else 0)) =
      row w j * conj (row w j) := by
    intro w
    rw [Finset.prod_eq_single j]
    · simp
    · intro k _ hk; simp [hk]
    · simp
  simp only [e] at this
  rw [this, if_pos trivial]
  have f : ∏ k : Fin n, (if k = j then 1 else 0 : ℕ).factorial = 1 :=
    Finset.prod_eq_one fun k _ => by split_ifs <;> rfl
  have g : ∑ k : Fin n, (if k = j then 1 else 0 : ℕ) = 1 := by simp
  rw [f, g]
  obtain ⟨m, rfl⟩ : ∃ m, n = m + 1 := ⟨n - 1, by have := j.2; omega⟩
  rw [Nat.add_sub_cancel, Nat.factorial_succ]
  have : (m.factorial : ℂ) ≠ 0 := by exact_mod_cast m.factorial_ne_zero
  have : (m : ℂ) + 1 ≠ 0 := by exact_mod_cast m.succ_ne_zero
  push_cast
  field_simp

theorem fair_haar {n : ℕ} (hn : 2 ≤ n) {binv : ℕ → ℕ → ℝ → ℝ} (hb : IsBetaincinvFamily binv) (bal : Bool)
    (hp : ∀ i < n - 1, 1 ≤ listBeta (tree n n bal) i ∧ 1 ≤ listAlpha (tree n n bal) i)
    (hf : Fair (listBeta (tree n n bal)) (listAlpha (tree n n bal)) (shape n bal) 0) :
    HaarMoments (freshDraws (n - 1) n) n (freshRow binv n bal) := by
  intro a b
  have hsz := shape_size n (by omega) bal
  have h := row_moment_val hn hb bal hp (padFin 0 a) (padFin 0 b)
  have pa : ∀ (c : Fin n → ℕ) (k : Fin n), padFin 0 c k = c k := by intro c k; simp [padFin]
  simp only [pa] at h
  rw [h]
  by_cases hab : a = b
  · rw [if_pos (by intro k _; rw [hab]), if_pos hab, fair_moment _ _ _ _ _ hf, hsz, tot, hsz, Finset.prod_range,
      Finset.sum_range]
    simp only [Nat.zero_add, pa]
    push_cast
    ring
  · rw [if_neg, if_neg hab]
    intro h'
    refine hab (funext fun k => ?_)
    have := h' k k.2
    simpa only [pa] using this

theorem chain_get {n i : ℕ} (hi : i < n - 1) :
    listBeta (tree n n false) i = i + 1 ∧ listAlpha (tree n n false) i = 1 := by
  have hlen : i < (tree n n false).length := by simp [tree, invertColumns, treeChain, hi]
  simp only [listBeta, listAlpha, List.getD_eq_getElem?_getD, List.getElem?_eq_getElem hlen, Option.getD_some]
  simp only [tree, invertColumns, treeChain, Bool.false_eq_true, if_false, List.getElem_map, List.getElem_reverse,
    List.getElem_range, List.length_range, chainNode]
  refine ⟨?_, trivial⟩
  show n - (n - 1 - 1 - i) - 1 = i + 1
  omega

theorem shapeC_fair (β α : ℕ → ℕ) (m : ℕ) (h : ∀ i < m, β i = i + 1 ∧ α i = 1) : Fair β α (shapeC m) 0 := by
  induction m with
  | zero => trivial
  | succ m ih =>
    have e := h m (by omega)
    refine ⟨?_, ?_, ih fun i hi => h i (by omega), trivial⟩
    · rw [shapeC_size]; simpa using e.1
    · rw [shapeC_size]; simpa [BT.size] using e.2

/-- A freshly built unbalanced tree, of any size, has a Haar-random last row: the row has the
moments of a uniformly distributed unit vector. -/
theorem C121_chain_haar_partial (n : ℕ) (hn : 2 ≤ n) (binv : ℕ → ℕ → ℝ → ℝ) (hb : IsBetaincinvFamily binv) :
    HaarMoments (freshDraws (n - 1) n) n (freshRow binv n false) := by
  refine fair_haar hn hb false (fun i hi => ?_) ?_
  · have := chain_get hi; omega
  · exact shapeC_fair _ _ _ fun i hi => chain_get hi

theorem balanced_small (n : ℕ) (h2 : 2 ≤ n) (h3 : n ≤ 3) (binv : ℕ → ℕ → ℝ → ℝ) (hb : IsBetaincinvFamily binv) :
    HaarMoments (freshDraws (n - 1) n) n (freshRow binv n true) := by
  have : n = 2 ∨ n = 3 := by omega
  rcases this with rfl | rfl
  · refine fair_haar h2 hb true ?_ ?_
    · decide +kernel
    · have : shape 2 true = .node .leaf .leaf := by simp [shape, shapeB]
      rw [this]
      refine ⟨?_, ?_, trivial, trivial⟩ <;> decide +kernel
  · refine fair_haar h2 hb true ?_ ?_
    · decide +kernel
    · have : shape 3 true = .node .leaf (.node .leaf .leaf) := by simp [shape, shapeB]
      rw [this]
      refine ⟨?_, ?_, trivial, ?_, ?_, trivial, trivial⟩ <;> decide +kernel

/-! ### The balanced tree -/

theorem arm_sum (inv : ℝ → ℝ) (z : ℝ × ℝ) :
    drawL inv z * conj (drawL inv z) + drawR inv z * conj (drawR inv z) = 1 := by
  obtain ⟨p1, p2⟩ := arm_powers (randTheta inv 0 0 z.1)
  have hx : exp (I * ((2 * Real.pi * z.2 : ℝ) : ℂ)) * conj (exp (I * ((2 * Real.pi * z.2 : ℝ) : ℂ))) = 1 := by
    rw [mul_conj, normSq_eq_norm_sq, mul_comm I, norm_exp_ofReal_mul_I]; simp
  have : drawL inv z * conj (drawL inv z) = armL (randTheta inv 0 0 z.1) * conj (armL (randTheta inv 0 0 z.1)) := by
    simp only [drawL, map_mul]
    linear_combination (armL (randTheta inv 0 0 z.1) * conj (armL (randTheta inv 0 0 z.1))) * hx
  rw [this, p1, drawR, p2]
  push_cast
  ring

theorem amp_power (P : Params) (h : ∀ i, cl P i * conj (cl P i) + cr P i * conj (cr P i) = 1) (t : BT) (s : ℕ) :
    ∑ k ∈ Finset.range t.size, amp P (unitIn (s + k)) t s * conj (amp P (unitIn (s + k)) t s) = 1 := by
  induction t generalizing s with
  | leaf => simp [BT.size, amp, unitIn]
  | node l r h1 h2 =>
    rw [BT.size, Finset.sum_range_add]
    have f1 : ∀ k ∈ Finset.range l.size, amp P (unitIn (s + k)) (.node l r) s * conj (amp P (unitIn (s + k)) (.node l r) s) =
        (cl P (s + l.size - 1) * conj (cl P (s + l.size - 1))) *
          (amp P (unitIn (s + k)) l s * conj (amp P (unitIn (s + k)) l s)) := by
      intro k hk
      have := Finset.mem_range.1 hk
      rw [amp, amp_out P r _ _ (by omega)]; simp only [mul_zero, add_zero, map_mul]; ring
    have f2 : ∀ k ∈ Finset.range r.size, amp P (unitIn (s + (l.size + k))) (.node l r) s *
          conj (amp P (unitIn (s + (l.size + k))) (.node l r) s) =
        (cr P (s + l.size - 1) * conj (cr P (s + l.size - 1))) *
          (amp P (unitIn (s + l.size + k)) r (s + l.size) * conj (amp P (unitIn (s + l.size + k)) r (s + l.size))) := by
      intro k hk
      rw [amp, amp_out P l _ _ (by omega), ← Nat.add_assoc]; simp only [mul_zero, zero_add, map_mul]; ring
    rw [Finset.sum_congr rfl f1, Finset.sum_congr rfl f2, ← Finset.mul_sum, ← Finset.mul_sum, h1, h2, mul_one, mul_one]
    exact h _

theorem treeBalanced_last (R : ℕ) (l : List ℕ) (s c : ℕ) (hl : l ≠ []) :
    listBeta (treeBalanced l R s c) (l.length - 1) = 1 ∧ listAlpha (treeBalanced l R s c) (l.length - 1) = 1 := by
  induction h : l.length using Nat.strong_induction_on generalizing l s c with
  | _ N ih =>
    have hpos : 0 < l.length := List.length_pos_iff.2 hl
    rw [treeBalanced_cons hl]
    by_cases h1 : l.length = 1
    · have hN : N = 1 := by omega
      subst hN
      simp [listBeta, listAlpha, List.getD_eq_getElem?_getD, h1]
    · have hd : l.drop ((l.length + 1) / 2) ≠ [] := by
        rw [Ne, List.drop_eq_nil_iff]; omega
      obtain ⟨a, b⟩ := ih (l.drop ((l.length + 1) / 2)).length (by simp only [List.length_drop]; omega)
        (l.drop ((l.length + 1) / 2)) (s + (l.length + 1) / 2) (c + 1) hd rfl
      simp only [listBeta, listAlpha, List.getD_eq_getElem?_getD, List.length_drop] at a b ⊢
      obtain ⟨M, rfl⟩ : ∃ M, N = M + 2 := ⟨N - 2, by omega⟩
      have e : M + 2 - 1 = M + 1 := rfl
      rw [e, List.getElem?_cons_succ, List.getElem?_append_right
        (by rw [treeBalanced_length, List.length_take]; omega), treeBalanced_length, List.length_take]
      have e2 : M - min ((l.length + 1) / 2 - 1) l.length = l.length - (l.length + 1) / 2 - 1 := by omega
      rw [e2]
      exact ⟨a, b⟩

theorem list_invert (nodes : List Node) (i : ℕ) : listBeta (invertColumns nodes) i = listBeta nodes i ∧
    listAlpha (invertColumns nodes) i = listAlpha nodes i := by
  simp only [listBeta, listAlpha, invertColumns, List.getD_eq_getElem?_getD, List.getElem?_map]
  cases nodes[i]? <;> simp

/-- The root of a balanced tree of at least four rails is drawn with the parameters of another node. -/
theorem balanced_root (n : ℕ) (hn : 4 ≤ n) : listBeta (tree n n true) (n / 2 - 1) = 1 ∧
    listAlpha (tree n n true) (n / 2 - 1) = 1 := by
  rw [tree, (list_invert _ _).1, (list_invert _ _).2, if_pos rfl]
  have hr : List.range (n - 1) ≠ [] := by simp; omega
  rw [treeBalanced_cons hr]
  have hlen : (List.range (n - 1)).length + 1 = n := by rw [List.length_range]; omega
  have ht : (List.range (n - 1)).take (n / 2 - 1) ≠ [] := by
    intro h
    have := congrArg List.length h
    rw [List.length_take, List.length_range] at this
    simp at this
    omega
  have k := treeBalanced_last n _ 0 1 ht
  rw [List.length_take, List.length_range] at k
  obtain ⟨M, hM⟩ : ∃ M, n / 2 - 1 = M + 1 := ⟨n / 2 - 2, by omega⟩
  rw [show min (n / 2 - 1) (n - 1) - 1 = M by omega] at k
  simp only [listBeta, listAlpha, List.getD_eq_getElem?_getD, hlen] at k ⊢
  rw [hM, List.getElem?_cons_succ, List.getElem?_append_left
    (by rw [treeBalanced_length, List.length_take, List.length_range]; omega), ← hM]
  exact k

theorem integral_one_draw {n : ℕ} (i : Fin (n - 1)) (f : ℝ × ℝ → ℂ) :
    ∫ w, f (w.1 i) ∂freshDraws (n - 1) n = ∫ z, f z ∂(uniform01.prod uniform01) := by
  have e : ∀ w : (Fin (n - 1) → ℝ × ℝ) × (Fin n → ℝ), f (w.1 i) =
      (∏ j : Fin (n - 1), if j = i then f (w.1 j) else 1) * (1 : ℂ) := by
    intro w; rw [Finset.prod_ite_eq' , if_pos (Finset.mem_univ _), mul_one]
  simp only [e]
  rw [freshDraws, integral_prod_mul (μ := Measure.pi fun _ : Fin (n - 1) => uniform01.prod uniform01)
    (ν := Measure.pi fun _ : Fin n => uniform01) (fun x => ∏ j : Fin (n - 1), if j = i then f (x j) else 1)
    (fun _ => (1 : ℂ)),
    integral_fintype_prod_eq_prod (fun (j : Fin (n - 1)) (z : ℝ × ℝ) => if j = i then f z else 1)]
  rw [Finset.prod_eq_single i]
  · simp
  · intro j _ hj; simp [hj]
  · simp

/-- The power that reaches the last rail of a fresh balanced tree from its upper half is the power
split ratio of the root. -/
theorem upper_power {n : ℕ} (hn : 4 ≤ n) (binv : ℕ → ℕ → ℝ → ℝ) (w : (Fin (n - 1) → ℝ × ℝ) × (Fin n → ℝ)) :
    ∑ k : Fin n, (if k.val < n / 2 then freshRow binv n true w k * conj (freshRow binv n true w k) else 0) =
      drawL (binv 1 1) (w.1 ⟨n / 2 - 1, by omega⟩) * conj (drawL (binv 1 1) (w.1 ⟨n / 2 - 1, by omega⟩)) := by
  set Q := freshParams binv (tree n n true) (padFin (0, 0) w.1) (padFin 0 w.2) with hQ
  set g := exp (I * ((2 * Real.pi * padFin 0 w.2 (n - 1) : ℝ) : ℂ)) with hg
  have hg1 : g * conj g = 1 := by
    rw [mul_conj, normSq_eq_norm_sq, hg, mul_comm I, norm_exp_ofReal_mul_I]; simp
  have hcl : ∀ i, cl Q i = drawL (binv (listBeta (tree n n true) i) (listAlpha (tree n n true) i)) (padFin (0, 0) w.1 i) := by
    intro i; simp only [cl, drawL, armL, hQ, freshParams, listBeta, listAlpha]
  have hcr : ∀ i, cr Q i = drawR (binv (listBeta (tree n n true) i) (listAlpha (tree n n true) i)) (padFin (0, 0) w.1 i) := by
    intro i; simp only [cr, drawR, armR, hQ, freshParams, listBeta, listAlpha]
  have hunit : ∀ i, cl Q i * conj (cl Q i) + cr Q i * conj (cr Q i) = 1 := by
    intro i; rw [hcl, hcr]; exact arm_sum _ _
  have hsh : shape n true = .node (shapeB (n / 2)) (shapeB (n - n / 2)) := by
    rw [shape, if_pos rfl, shapeB, dif_neg (by omega)]
  have hm : (shapeB (n / 2)).size = n / 2 := shapeB_size _ (by omega)
  have hrow : ∀ k : Fin n, k.val < n / 2 → freshRow binv n true w k * conj (freshRow binv n true w k) =
      cl Q (n / 2 - 1) * conj (cl Q (n / 2 - 1)) *
        (amp Q (unitIn k) (shapeB (n / 2)) 0 * conj (amp Q (unitIn k) (shapeB (n / 2)) 0)) := by
    intro k hk
    rw [freshRow_eq (by omega), ← hQ, ← hg, hsh, amp, amp_out Q (shapeB (n - n / 2)) _ _ (by omega), hm]
    simp only [mul_zero, add_zero, map_mul, Nat.zero_add]
    linear_combination (cl Q (n / 2 - 1) * conj (cl Q (n / 2 - 1)) *
        (amp Q (unitIn k) (shapeB (n / 2)) 0 * conj (amp Q (unitIn k) (shapeB (n / 2)) 0))) * hg1
  have hp := amp_power Q hunit (shapeB (n / 2)) 0
  rw [hm] at hp
  simp only [Nat.zero_add] at hp
  have hs : ∑ k : Fin n, (if k.val < n / 2 then freshRow binv n true w k * conj (freshRow binv n true w k) else 0) =
      ∑ k ∈ Finset.range n, (if k < n / 2 then cl Q (n / 2 - 1) * conj (cl Q (n / 2 - 1)) *
        (amp Q (unitIn k) (shapeB (n / 2)) 0 * conj (amp Q (unitIn k) (shapeB (n / 2)) 0)) else 0) := by
    rw [Finset.sum_range]
    refine Finset.sum_congr rfl fun k _ => ?_
    split_ifs with h
    · exact hrow k h
    · rfl
  have hfil : (Finset.range n).filter (fun k => k < n / 2) = Finset.range (n / 2) := by
    ext k; simp only [Finset.mem_filter, Finset.mem_range]; omega
  rw [hs, ← Finset.sum_filter, hfil, ← Finset.mul_sum, hp, mul_one, hcl, (balanced_root n hn).1, (balanced_root n hn).2]
  have : padFin ((0 : ℝ), (0 : ℝ)) w.1 (n / 2 - 1) = w.1 ⟨n / 2 - 1, by omega⟩ := by
    simp only [padFin]; rw [dif_pos]
  rw [this]

theorem upper_second {n : ℕ} (hn : 4 ≤ n) {binv : ℕ → ℕ → ℝ → ℝ} (hb : IsBetaincinvFamily binv) :
    ∫ w, (∑ k : Fin n, (if k.val < n / 2 then freshRow binv n true w k * conj (freshRow binv n true w k) else 0)) ^ 2
      ∂freshDraws (n - 1) n = 1 / 3 := by
  simp only [upper_power hn]
  rw [integral_one_draw _ fun z => (drawL (binv 1 1) z * conj (drawL (binv 1 1) z)) ^ 2]
  have := (node_moment 1 1 one_pos one_pos (binv 1 1) (by simpa using hb 1 1 le_rfl le_rfl) 2 2 0 0).2 rfl rfl
  simp only [pow_zero, mul_one] at this
  have e : ∀ z, (drawL (binv 1 1) z * conj (drawL (binv 1 1) z)) ^ 2 =
      (armL (randTheta (binv 1 1) 0 0 z.1) * exp (I * ((2 * Real.pi * z.2 : ℝ) : ℂ))) ^ 2 *
      conj (armL (randTheta (binv 1 1) 0 0 z.1) * exp (I * ((2 * Real.pi * z.2 : ℝ) : ℂ))) ^ 2 := by
    intro z; rw [mul_pow]; rfl
  simp only [e]
  rw [this]
  norm_num [beta]

/-- The second moment of the power of the upper half under `HaarMoments`. -/
theorem HaarMoments.second {Ω : Type} [MeasurableSpace Ω] {μ : Measure Ω} {n m : ℕ} {row : Ω → Fin n → ℂ}
    (h : HaarMoments μ n row) (hm : m ≤ n) (h2 : 1 ≤ n) :
    ∫ w, (∑ k : Fin n, (if k.val < m then row w k * conj (row w k) else 0)) ^ 2 ∂μ =
      (m : ℂ) * (m + 1) / (n * (n + 1)) := by
  have pair : ∀ j k : Fin n, ∫ w, (row w j * conj (row w j)) * (row w k * conj (row w k)) ∂μ =
      (if j = k then 2 else 1 : ℂ) / (n * (n + 1)) := by
    intro j k
    have := h (fun i => (if i = j then 1 else 0) + if i = k then 1 else 0) (fun i => (if i = j then 1 else 0) + if i = k then 1 else 0)
    have e : ∀ w, ∏ i, (row w i ^ ((if i = j then 1 else 0) + if i = k then 1 else 0) *
        conj (row w i) ^ ((if i = j then 1 else 0) + if i = k then 1 else 0)) =
        (row w j * conj (row w j)) * (row w k * conj (row w k)) := by
      intro w
      have : ∀ i, row w i ^ ((if i = j then 1 else 0) + if i = k then 1 else 0) *
        conj (row w i) ^ ((if i = j then 1 else 0) + if i = k then 1 else 0) =
        (if i = j then row w i * conj (row w i) else 1) * (if i = k then row w i * conj (row w i) else 1) := by
        intro i; split_ifs <;> simp; ring
      simp only [this, Finset.prod_mul_distrib, Finset.prod_ite_eq', Finset.mem_univ, if_true]
    simp only [e] at this
    rw [this, if_pos trivial]
    have f : ∏ i : Fin n, ((if i = j then 1 else 0) + if i = k then 1 else 0 : ℕ).factorial = if j = k then 2 else 1 := by
      by_cases hjk : j = k
      · subst hjk
        rw [if_pos rfl, Finset.prod_eq_single j]
        · simp
        · intro i _ hi; simp [hi]
        · simp
      · rw [if_neg hjk]
        refine Finset.prod_eq_one fun i _ => ?_
        split_ifs with h1 h2
        · exact absurd (h1.symm.trans h2) hjk
        all_goals rfl
    have g : ∑ i : Fin n, ((if i = j then 1 else 0) + if i = k then 1 else 0 : ℕ) = 2 := by
      simp [Finset.sum_add_distrib]
    rw [f, g]
    obtain ⟨p, rfl⟩ : ∃ p, n = p + 1 := ⟨n - 1, by omega⟩
    rw [Nat.add_sub_cancel, Nat.factorial_succ, Nat.factorial_succ]
    have : (p.factorial : ℂ) ≠ 0 := by exact_mod_cast p.factorial_ne_zero
    have : (p : ℂ) + 1 ≠ 0 := by exact_mod_cast p.succ_ne_zero
    have : (p : ℂ) + 1 + 1 ≠ 0 := by exact_mod_cast (p + 1).succ_ne_zero
    push_cast
    field_simp
  have hnn : (n : ℂ) * (n + 1) ≠ 0 := by
    have : (n : ℂ) + 1 ≠ 0 := by exact_mod_cast n.succ_ne_zero
    have : (n : ℂ) ≠ 0 := by exact_mod_cast (by omega : n ≠ 0)
    positivity
  have int : ∀ j k : Fin n, Integrable (fun w => (row w j * conj (row w j)) * (row w k * conj (row w k))) μ := by
    intro j k
    by_contra hc
    have := pair j k
    rw [integral_undef hc] at this
    have : (if j = k then 2 else 1 : ℂ) / (n * (n + 1)) ≠ 0 := by
      apply div_ne_zero _ hnn
      split_ifs <;> norm_num
    simp_all
  have e : ∀ w, (∑ k : Fin n, (if k.val < m then row w k * conj (row w k) else 0)) ^ 2 =
      ∑ j ∈ Finset.univ.filter (fun k : Fin n => k.val < m), ∑ k ∈ Finset.univ.filter (fun k : Fin n => k.val < m),
        (row w j * conj (row w j)) * (row w k * conj (row w k)) := by
    intro w
    rw [← Finset.sum_filter, sq, Finset.sum_mul_sum]
  simp only [e]
  rw [integral_finsetSum _ fun j _ => integrable_finsetSum _ fun k _ => int j k]
  simp only [integral_finsetSum _ fun k _ => int _ k, pair]
  simp only [← Finset.sum_div]
  congr 1
  have hcard : (Finset.univ.filter (fun k : Fin n => k.val < m)).card = m := by
    rw [Fin.card_filter_val_lt]; omega
  have inner : ∀ j ∈ Finset.univ.filter (fun k : Fin n => k.val < m),
      ∑ k ∈ Finset.univ.filter (fun k : Fin n => k.val < m), (if j = k then 2 else 1 : ℂ) = m + 1 := by
    intro j hj
    have : ∀ k : Fin n, (if j = k then 2 else 1 : ℂ) = 1 + if j = k then 1 else 0 := by
      intro k; split_ifs <;> norm_num
    simp only [this, Finset.sum_add_distrib, Finset.sum_const, hcard, Finset.sum_ite_eq, if_pos hj]
    simp
  rw [Finset.sum_congr rfl inner, Finset.sum_const, hcard, nsmul_eq_mul]

/-- A freshly built balanced tree with four or more rails never has a Haar-random last row. -/
theorem C121_balanced_counterexample (n : ℕ) (hn : 4 ≤ n) (binv : ℕ → ℕ → ℝ → ℝ) (hb : IsBetaincinvFamily binv) :
    ¬ HaarMoments (freshDraws (n - 1) n) n (freshRow binv n true) := by
  intro h
  have h1 := upper_second hn hb
  rw [h.second (by omega) (by omega)] at h1
  have hnn : (n : ℂ) * (n + 1) ≠ 0 := by
    have : (n : ℂ) + 1 ≠ 0 := by exact_mod_cast n.succ_ne_zero
    have : (n : ℂ) ≠ 0 := by exact_mod_cast (by omega : n ≠ 0)
    positivity
  rw [div_eq_div_iff hnn (by norm_num)] at h1
  have h2 : (n / 2) * (n / 2 + 1) * 3 = 1 * (n * (n + 1)) := by exact_mod_cast h1
  have h3 : n = 2 * (n / 2) ∨ n = 2 * (n / 2) + 1 := by omega
  have h4 : 2 ≤ n / 2 := by omega
  generalize n / 2 = m at h2 h3 h4
  rcases h3 with rfl | rfl <;> nlinarith

theorem C121_balanced_small_partial (n : ℕ) (h2 : 2 ≤ n) (h3 : n ≤ 3) (binv : ℕ → ℕ → ℝ → ℝ) (hb : IsBetaincinvFamily binv) :
    HaarMoments (freshDraws (n - 1) n) n (freshRow binv n true) := balanced_small n h2 h3 binv hb

/-- Non-vacuity: there is such a `betaincinv`, so both theorems speak about an actual mesh, e.g. with
six rails. -/
example : ∃ binv, IsBetaincinvFamily binv ∧ HaarMoments (freshDraws 5 6) 6 (freshRow binv 6 false) ∧
    ¬ HaarMoments (freshDraws 5 6) 6 (freshRow binv 6 true) := by
  have h : ∀ a b : ℕ, ∃ inv, (1 ≤ a → 1 ≤ b → IsBetaincinv a b inv) := by
    intro a b
    by_cases h1 : 1 ≤ a ∧ 1 ≤ b
    · obtain ⟨inv, hi⟩ := exists_betaincinv a b (by exact_mod_cast h1.1) (by exact_mod_cast h1.2)
      exact ⟨inv, fun _ _ => hi⟩
    · exact ⟨fun _ => 0, fun h2 h3 => absurd ⟨h2, h3⟩ h1⟩
  choose binv hb using h
  exact ⟨binv, hb, C121_chain_haar_partial 6 (by norm_num) binv hb,
    C121_balanced_counterexample 6 (by norm_num) binv hb⟩

end Simphox
