import Mathlib.Analysis.SpecialFunctions.Pow.NNReal
import Mathlib.Algebra.Order.BigOperators.Ring.Finset
import Verif.FdtdSources

/-!
# Driven FDTD runs stay bounded by the sources (C162)
-/

namespace Simphox

open Complex

variable {s : Fin 3 → ℕ} [∀ a, NeZero (s a)]

/-! ### Specification -/

/-- The strength of a vector field: the root of the sum of the squared magnitudes of all its values. -/
noncomputable def fieldNorm (x : VField s) : ℝ := Real.sqrt (∑ c, ∑ i, ‖x c i‖ ^ 2)

/-! ### Lemmas -/

omit [∀ a, NeZero (s a)] in
theorem fieldNorm_sq (x : VField s) : fieldNorm x ^ 2 = vip x x := by
  rw [vip_self, fieldNorm, Real.sq_sqrt (by positivity)]

omit [∀ a, NeZero (s a)] in
theorem fieldNorm_nonneg (x : VField s) : 0 ≤ fieldNorm x := Real.sqrt_nonneg _

omit [∀ a, NeZero (s a)] in
theorem vip_cauchy (x y : VField s) : |vip x y| ≤ fieldNorm x * fieldNorm y := by
  have hxx := vip_self_nonneg x
  have hyy := vip_self_nonneg y
  have hq : ∀ t : ℝ, 0 ≤ t ^ 2 * vip x x + 2 * t * vip x y + vip y y := by
    intro t
    have h := vip_young x y (2 * t)
    have e : (2 * t) ^ 2 / 4 = t ^ 2 := by ring
    rw [e] at h
    linarith
  have hsq : vip x y ^ 2 ≤ vip x x * vip y y := by
    by_cases h0 : vip x x = 0
    · have : vip x y = 0 := by
        by_contra hne
        have h1 := hq (-(vip y y + 1) / (2 * vip x y))
        rw [h0, mul_zero, zero_add] at h1
        have h2 : 2 * (-(vip y y + 1) / (2 * vip x y)) * vip x y = -(vip y y + 1) := by field_simp
        rw [h2] at h1
        linarith
      rw [this, h0]; simp
    · have hpos : 0 < vip x x := lt_of_le_of_ne hxx (Ne.symm h0)
      have h1 := hq (-(vip x y) / vip x x)
      have h2 : (-(vip x y) / vip x x) ^ 2 * vip x x + 2 * (-(vip x y) / vip x x) * vip x y + vip y y
          = vip y y - vip x y ^ 2 / vip x x := by field_simp; ring
      rw [h2] at h1
      have h3 : vip x y ^ 2 / vip x x ≤ vip y y := by linarith
      rw [div_le_iff₀ hpos] at h3
      linarith
  refine abs_le_of_sq_le_sq ?_ (mul_nonneg (fieldNorm_nonneg x) (fieldNorm_nonneg y))
  rw [mul_pow, fieldNorm_sq, fieldNorm_sq]
  exact hsq

/-- If the square of one number exceeds the square of the other by at most `c` times their sum, the numbers differ by at most `c`. -/
theorem root_step {a b c : ℝ} (ha : 0 ≤ a) (hc : 0 ≤ c) (h : b ^ 2 ≤ a ^ 2 + c * (a + b)) : b ≤ a + c := by
  by_contra hlt
  push Not at hlt
  nlinarith

/-! ### C162 -/

/-- C162: with the code's time step, uniform cells and a real permittivity above `1 + m`, `m > 0`, without PML
(NumPy mode), any initial state and any electric and magnetic sources: at every step the electric
field and the magnetic field are bounded by the initial energy and the accumulated source strength.
`U` is the initial energy; each step adds at most `dt` times the (weighted) strength of its sources. -/
theorem C162_driven_bounded (ndim : ℕ) (hnd : 0 < ndim) (bloch : Fin 3 → ℂ) (spacing : Fin 3 → ℝ)
    (hpos : ∀ a, 0 < spacing a) (hs : ∀ a : Fin 3, ndim ≤ a → s a = 1) (eps : SField s) (m : ℝ) (hm : 0 < m)
    (heps : ∀ i, (eps i).im = 0 ∧ 1 + m ≤ (eps i).re) :
    let F := plainFdtd ndim bloch spacing eps
    ∀ (srcs : ℕ → List (Source s)) (st : FState s F.npml) (n : ℕ),
    let U := fieldEnergy F.g F.epsT F.dt st.1 st.2.1
    let total := Real.sqrt U + F.dt * ∑ k ∈ Finset.range n,
      (fieldNorm (totalSource (·.e) (srcs k)) / Real.sqrt m
        + Real.sqrt (2 + 6 / m) * fieldNorm (totalSource (·.h) (srcs k)))
    fieldNorm (F.run false srcs st n).1 ≤ total / Real.sqrt m ∧
      fieldNorm (F.run false srcs st n).2.1 ≤ Real.sqrt (2 + 6 / m) * total := by
  intro F srcs st n U total
  have hdt : 0 ≤ F.dt := by
    change 0 ≤ courantDt ndim spacing
    unfold courantDt
    positivity
  have hepsT : ∀ c i, (F.epsT c i).im = 0 ∧ F.epsT c i ≠ 0 := fun c i => by
    have h := yeeAvg_real eps (1 + m) heps c i
    refine ⟨h.1, fun h0 => ?_⟩
    have h2 := h.2
    change yeeAvgG eps c i = 0 at h0
    rw [h0, zero_re] at h2
    linarith
  set W : FState s F.npml → ℝ := fun x => fieldEnergy F.g F.epsT F.dt x.1 x.2.1 with hW
  have hsm : 0 < Real.sqrt m := Real.sqrt_pos.2 hm
  set B := Real.sqrt (2 + 6 / m) with hB
  have hBsq : B ^ 2 = 2 + 6 / m := Real.sq_sqrt (by positivity)
  have hB0 : 0 ≤ B := Real.sqrt_nonneg _
  -- coercivity, from the undriven bound at step 0
  have coer : ∀ x : FState s F.npml, 0 ≤ W x ∧ fieldNorm x.1 ≤ Real.sqrt (W x) / Real.sqrt m ∧ fieldNorm x.2.1 ≤ B * Real.sqrt (W x) := by
    intro x
    obtain ⟨h1, h2⟩ := C56_bounded ndim hnd bloch spacing hpos hs eps m hm heps false x 0
    rw [← vip_self] at h1 h2
    change vip x.1 x.1 ≤ W x / m at h1
    change vip x.2.1 x.2.1 ≤ 2 * W x + 6 * (W x / m) at h2
    have hW0 : 0 ≤ W x := by
      have := (vip_self_nonneg x.1).trans h1
      rw [le_div_iff₀ hm] at this
      linarith
    have hsq := Real.sq_sqrt hW0
    refine ⟨hW0, ?_, ?_⟩
    · refine abs_le_of_sq_le_sq' ?_ (by positivity) |>.2
      rw [fieldNorm_sq, div_pow, hsq, Real.sq_sqrt hm.le]
      exact h1
    · refine abs_le_of_sq_le_sq' ?_ (by positivity) |>.2
      rw [fieldNorm_sq, mul_pow, hsq, hBsq]
      calc _ ≤ 2 * W x + 6 * (W x / m) := h2
        _ = (2 + 6 / m) * W x := by ring
  -- growth of the root of the energy
  have grow : ∀ n : ℕ, Real.sqrt (W (F.run false srcs st n)) ≤ Real.sqrt U + F.dt * ∑ k ∈ Finset.range n,
      (fieldNorm (totalSource (·.e) (srcs k)) / Real.sqrt m + B * fieldNorm (totalSource (·.h) (srcs k))) := by
    intro n
    induction n with
    | zero => rw [Finset.sum_range_zero, mul_zero, add_zero]; exact le_refl _
    | succ n ih =>
      set X := F.run false srcs st n with hX
      set Y := F.run false srcs st (n + 1) with hY
      set J := totalSource (·.e) (srcs n) with hJ
      set M := totalSource (·.h) (srcs n) with hM
      have hbal := C159_power_balance F rfl bloch spacing rfl hepsT (fun k => srcs n) X 1
      dsimp only at hbal
      rw [Finset.sum_range_one] at hbal
      have hone : F.run false (fun _ => srcs n) X 1 = Y := rfl
      have hzero : F.run false (fun _ => srcs n) X 0 = X := rfl
      rw [zero_add, hone, hzero] at hbal
      have hwork : sourceWork X Y (srcs n) = vip (fun c i => X.1 c i + Y.1 c i) J + vip (fun c i => X.2.1 c i + Y.2.1 c i) M := rfl
      have hadd : ∀ x y z : VField s, vip (fun c i => x c i + y c i) z = vip x z + vip y z := by
        intro x y z
        have : (fun c i => x c i + y c i) = fun c i => x c i + ((1 : ℝ) : ℂ) * y c i := by
          funext c i; push_cast; ring
        rw [this, vip_add_mul_left]; ring
      obtain ⟨hX0, hXe, hXh⟩ := coer X
      obtain ⟨hY0, hYe, hYh⟩ := coer Y
      have c1 := neg_le_of_abs_le (vip_cauchy X.1 J)
      have c2 := neg_le_of_abs_le (vip_cauchy Y.1 J)
      have c3 := neg_le_of_abs_le (vip_cauchy X.2.1 M)
      have c4 := neg_le_of_abs_le (vip_cauchy Y.2.1 M)
      have hJ0 := fieldNorm_nonneg J
      have hM0 := fieldNorm_nonneg M
      have d1 := mul_le_mul_of_nonneg_right hXe hJ0
      have d2 := mul_le_mul_of_nonneg_right hYe hJ0
      have d3 := mul_le_mul_of_nonneg_right hXh hM0
      have d4 := mul_le_mul_of_nonneg_right hYh hM0
      have hlow : -((Real.sqrt (W X) + Real.sqrt (W Y)) * (fieldNorm J / Real.sqrt m + B * fieldNorm M)) ≤ sourceWork X Y (srcs n) := by
        rw [hwork, hadd, hadd]
        have e : (Real.sqrt (W X) + Real.sqrt (W Y)) * (fieldNorm J / Real.sqrt m + B * fieldNorm M)
            = Real.sqrt (W X) / Real.sqrt m * fieldNorm J + Real.sqrt (W Y) / Real.sqrt m * fieldNorm J
              + B * Real.sqrt (W X) * fieldNorm M + B * Real.sqrt (W Y) * fieldNorm M := by ring
        rw [e]
        linarith
      have hstep : Real.sqrt (W Y) ≤ Real.sqrt (W X) + F.dt * (fieldNorm J / Real.sqrt m + B * fieldNorm M) := by
        refine root_step (Real.sqrt_nonneg _) (by positivity) ?_
        rw [Real.sq_sqrt hX0, Real.sq_sqrt hY0]
        have := mul_le_mul_of_nonneg_left hlow hdt
        change W Y = W X - F.dt * sourceWork X Y (srcs n) at hbal
        have e : F.dt * (fieldNorm J / Real.sqrt m + B * fieldNorm M) * (Real.sqrt (W X) + Real.sqrt (W Y))
            = -(F.dt * -((Real.sqrt (W X) + Real.sqrt (W Y)) * (fieldNorm J / Real.sqrt m + B * fieldNorm M))) := by ring
        rw [e]
        linarith
      rw [Finset.sum_range_succ, mul_add, ← add_assoc]
      linarith
  obtain ⟨_, h1, h2⟩ := coer (F.run false srcs st n)
  exact ⟨h1.trans (div_le_div_of_nonneg_right (grow n) hsm.le), h2.trans (mul_le_mul_of_nonneg_left (grow n) hB0)⟩

/-- C162 for the runs `run_cw_port` performs: sources that never exceed a fixed strength make the fields grow at most
linearly in the number of steps. -/
theorem C162_linear_growth (ndim : ℕ) (hnd : 0 < ndim) (bloch : Fin 3 → ℂ) (spacing : Fin 3 → ℝ)
    (hpos : ∀ a, 0 < spacing a) (hs : ∀ a : Fin 3, ndim ≤ a → s a = 1) (eps : SField s) (m : ℝ) (hm : 0 < m)
    (heps : ∀ i, (eps i).im = 0 ∧ 1 + m ≤ (eps i).re) :
    let F := plainFdtd ndim bloch spacing eps
    ∀ (srcs : ℕ → List (Source s)) (S : ℝ), (∀ k, fieldNorm (totalSource (·.e) (srcs k)) ≤ S) →
      (∀ k, fieldNorm (totalSource (·.h) (srcs k)) = 0) →
    ∀ n : ℕ, fieldNorm (F.run false srcs (zeroState s F.npml) n).1 ≤ F.dt * n * S / m := by
  intro F srcs S hS hS0 n
  have h := (C162_driven_bounded ndim hnd bloch spacing hpos hs eps m hm heps srcs (zeroState s F.npml) n).1
  have hU : fieldEnergy F.g F.epsT F.dt (zeroState s F.npml).1 (zeroState s F.npml).2.1 = 0 := by
    simp [fieldEnergy, zeroState, vip, rip]
  have hdt : 0 ≤ F.dt := by
    change 0 ≤ courantDt ndim spacing
    unfold courantDt
    positivity
  have hsm : 0 < Real.sqrt m := Real.sqrt_pos.2 hm
  refine h.trans ?_
  rw [hU, Real.sqrt_zero, zero_add]
  have hsum : ∑ k ∈ Finset.range n, (fieldNorm (totalSource (·.e) (srcs k)) / Real.sqrt m
        + Real.sqrt (2 + 6 / m) * fieldNorm (totalSource (·.h) (srcs k))) ≤ n * (S / Real.sqrt m) := by
    calc _ ≤ ∑ k ∈ Finset.range n, S / Real.sqrt m := by
          refine Finset.sum_le_sum fun k _ => ?_
          rw [hS0, mul_zero, add_zero]
          exact div_le_div_of_nonneg_right (hS k) hsm.le
      _ = n * (S / Real.sqrt m) := by rw [Finset.sum_const, Finset.card_range, nsmul_eq_mul]
  have h2 := div_le_div_of_nonneg_right (mul_le_mul_of_nonneg_left hsum hdt) hsm.le
  refine h2.trans (le_of_eq ?_)
  have hmm : Real.sqrt m * Real.sqrt m = m := Real.mul_self_sqrt hm.le
  rw [show F.dt * (n * (S / Real.sqrt m)) / Real.sqrt m = F.dt * n * S / (Real.sqrt m * Real.sqrt m) by field_simp, hmm]

/-- Nontrivial case: see the grid of `C56_bounded`: 3 x 4 cells, permittivity 2.25, `m = 1.25`, and a point source of strength 2. -/
example : fieldNorm (totalSource (s := shapeOf 3 4 1) (·.e)
    [{ e := some fun _ _ => 2, h := none, region := fun c i => decide (c = 2 ∧ i = 0) }]) = 2 := by
  have h : totalSource (s := shapeOf 3 4 1) (·.e)
      [{ e := some fun _ _ => 2, h := none, region := fun c i => decide (c = 2 ∧ i = 0) }]
      = fun c i => if c = 2 ∧ i = 0 then 2 else 0 := by
    funext c i
    simp [totalSource]
  rw [h, fieldNorm, Finset.sum_eq_single 2 (fun c _ hc => by simp [hc]) (by simp),
    Finset.sum_eq_single 0 (fun i _ hi => by simp [hi]) (by simp)]
  simp only [and_self, if_true, RCLike.norm_ofNat]
  exact Real.sqrt_sq (by norm_num)

end Simphox
