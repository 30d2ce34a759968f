import Verif.Utils
import Mathlib.Tactic.Linarith
import Mathlib.Tactic.Ring
import Mathlib.Tactic.FieldSimp
import Mathlib.Tactic.NormNum
import Mathlib.Tactic.Positivity
import Mathlib.Tactic.LinearCombination
import Mathlib.LinearAlgebra.UnitaryGroup
import Mathlib.Analysis.InnerProductSpace.PiL2
import Mathlib.Analysis.SpecialFunctions.Pow.Complex
import Mathlib.Analysis.SpecialFunctions.Complex.Circle

/-!
# C29, C75-C80: utilities
-/

namespace Simphox

open Complex

/-! ### C75 Yee averaging -/

/-- Linear combination of two arrays. -/
def lin2 {m n : ℕ} (a b : ℝ) (p q : Arr2 m n ℝ) : Arr2 m n ℝ := fun i j => a * p i j + b * q i j

/-- C75: for every array, shift and component: the components are the averages of neighbouring
entries, constants are preserved, bounds are preserved, averaging is linear, and the JAX and the
2d variants agree with the NumPy one. -/
theorem C75_yee_avg (m n : ℕ) (s : ℤ) (p q : Arr2 m n ℝ) :
    (∀ i j, (yeeAvg s p).x i j = (p i j + p i (j - s)) / 2 ∧
      (yeeAvg s p).y i j = (p i j + p (i - s) j) / 2 ∧
      (yeeAvg s p).z i j = (p i j + p (i - s) j + p i (j - s) + p (i - s) (j - s)) / 4) ∧
    (∀ c, (∀ i j, p i j = c) → ∀ i j, (yeeAvg s p).x i j = c ∧ (yeeAvg s p).y i j = c ∧
      (yeeAvg s p).z i j = c) ∧
    (∀ lo hi, (∀ i j, lo ≤ p i j ∧ p i j ≤ hi) → ∀ i j,
      (lo ≤ (yeeAvg s p).x i j ∧ (yeeAvg s p).x i j ≤ hi) ∧
      (lo ≤ (yeeAvg s p).y i j ∧ (yeeAvg s p).y i j ≤ hi) ∧
      (lo ≤ (yeeAvg s p).z i j ∧ (yeeAvg s p).z i j ≤ hi)) ∧
    (∀ a b, yeeAvg s (lin2 a b p q) =
      ⟨lin2 a b (yeeAvg s p).x (yeeAvg s q).x, lin2 a b (yeeAvg s p).y (yeeAvg s q).y,
        lin2 a b (yeeAvg s p).z (yeeAvg s q).z⟩) ∧
    yeeAvgJax p = yeeAvg 1 p ∧ yeeAvg2dZ p = (yeeAvg 1 p).z := by
  have h : ∀ (p : Arr2 m n ℝ) i j, (yeeAvg s p).x i j = (p i j + p i (j - s)) / 2 ∧
      (yeeAvg s p).y i j = (p i j + p (i - s) j) / 2 ∧
      (yeeAvg s p).z i j = (p i j + p (i - s) j + p i (j - s) + p (i - s) (j - s)) / 4 := by
    intro p i j
    refine ⟨rfl, rfl, ?_⟩
    simp only [yeeAvg, mean2, roll0, roll1]; ring
  refine ⟨h p, fun c hc i j => ?_, fun lo hi hb i j => ?_, fun a b => ?_, rfl, rfl⟩
  · obtain ⟨h1, h2, h3⟩ := h p i j
    rw [h1, h2, h3]; simp only [hc]; refine ⟨by ring, by ring, by ring⟩
  · obtain ⟨h1, h2, h3⟩ := h p i j
    rw [h1, h2, h3]
    have a1 := hb i j; have a2 := hb i (j - s); have a3 := hb (i - s) j; have a4 := hb (i - s) (j - s)
    refine ⟨⟨?_, ?_⟩, ⟨?_, ?_⟩, ⟨?_, ?_⟩⟩ <;> linarith [a1.1, a1.2, a2.1, a2.2, a3.1, a3.2, a4.1, a4.2]
  · simp only [yeeAvg, Yee3.mk.injEq]
    refine ⟨?_, ?_, ?_⟩ <;> funext i j <;> simp only [mean2, roll0, roll1, lin2] <;> ring

/-! ### C76 splitter metrics -/

/-- C76: whenever one of the two output ports carries power, reflectivity and transmissivity are the
shares of the output power: both in `[0,1]`, summing to one; and the `insertion` entry is at least
the power of any listed port. -/
theorem C76_splitter_metrics (ports : List String) (s : String → ℂ) (h : s "b0" ≠ 0 ∨ s "b1" ≠ 0) :
    (splitterMetrics ports s).reflectivity + (splitterMetrics ports s).transmissivity = 1 ∧
    (0 ≤ (splitterMetrics ports s).reflectivity ∧ (splitterMetrics ports s).reflectivity ≤ 1) ∧
    (0 ≤ (splitterMetrics ports s).transmissivity ∧ (splitterMetrics ports s).transmissivity ≤ 1) ∧
    (splitterMetrics ports s).reflectivity * (‖s "b0"‖ ^ 2 + ‖s "b1"‖ ^ 2) = ‖s "b0"‖ ^ 2 ∧
    (∀ k ∈ ports, ‖s k‖ ^ 2 ≤ (splitterMetrics ports s).insertion) := by
  have hp : 0 < ‖s "b0"‖ ^ 2 + ‖s "b1"‖ ^ 2 := by
    rcases h with h | h
    · have := norm_pos_iff.2 h; positivity
    · have := norm_pos_iff.2 h; positivity
  simp only [splitterMetrics]
  have e : ‖s "b0"‖ ^ 2 / (‖s "b0"‖ ^ 2 + ‖s "b1"‖ ^ 2) + ‖s "b1"‖ ^ 2 / (‖s "b0"‖ ^ 2 + ‖s "b1"‖ ^ 2) = 1 := by
    rw [← add_div, div_self hp.ne']
  have p0 : 0 ≤ ‖s "b0"‖ ^ 2 / (‖s "b0"‖ ^ 2 + ‖s "b1"‖ ^ 2) := by positivity
  have p1 : 0 ≤ ‖s "b1"‖ ^ 2 / (‖s "b0"‖ ^ 2 + ‖s "b1"‖ ^ 2) := by positivity
  refine ⟨e, ⟨p0, by linarith⟩, ⟨p1, by linarith⟩, div_mul_cancel₀ _ hp.ne', fun k hk => ?_⟩
  exact List.single_le_sum (by simp) _ (List.mem_map_of_mem hk)

example : ∃ s : String → ℂ, s "b0" ≠ 0 ∨ s "b1" ≠ 0 := ⟨fun _ => 1, by simp⟩

/-! ### C77 shift_slice -/

/-- C77 (partial): for an axis in range whose entry is an int, exactly that entry is shifted; an
open-ended slice leaves the tuple unchanged. Missing: slices with two integer bounds, for which the
claim is false (`C77_slice_counterexample`). -/
theorem C77_shift_slice_partial (l : List PyIndex) (shift : ℤ) (k : ℕ) :
    (∀ i, l[k]? = some (.int i) →
      ∃ l', shiftSlice l shift k = .ok l' ∧ l'.length = l.length ∧ l'[k]? = some (.int (i + shift)) ∧
        ∀ k', k' ≠ k → l'[k']? = l[k']?) ∧
    (∀ a, l[k]? = some (.slice none a) → shiftSlice l shift k = .ok l) ∧
    (∀ a, l[k]? = some (.slice a none) → shiftSlice l shift k = .ok l) := by
  have hk : ∀ x, l[k]? = some x → k < l.length := fun x hx => (List.getElem?_eq_some_iff.1 hx).1
  have red : k < l.length → ¬ ((k : ℤ) < -(l.length : ℤ) ∨ (l.length : ℤ) ≤ k) := fun h => by omega
  refine ⟨fun i hi => ?_, fun a ha => ?_, fun a ha => ?_⟩
  · have hlt := hk _ hi
    refine ⟨l.set k (.int (i + shift)), ?_, by simp, by simp [hlt], fun k' hk' => ?_⟩
    · simp only [shiftSlice, if_neg (red hlt), if_neg (show ¬ ((k : ℤ) < 0) by omega), Int.toNat_natCast, hi]
    · exact List.getElem?_set_ne (fun h => hk' h.symm)
  · simp only [shiftSlice, if_neg (red (hk _ ha)), if_neg (show ¬ ((k : ℤ) < 0) by omega),
      Int.toNat_natCast, ha]
  · cases a <;> simp only [shiftSlice, if_neg (red (hk _ ha)), if_neg (show ¬ ((k : ℤ) < 0) by omega),
      Int.toNat_natCast, ha]

example : ([PyIndex.int 3, .slice none none] : List PyIndex)[0]? = some (.int 3) := rfl

/-- C77 is false for every slice with two integer bounds: the code adds two slices, which raises
`TypeError`. -/
theorem C77_slice_counterexample (l : List PyIndex) (shift : ℤ) (k : ℕ) (a b : ℤ)
    (h : l[k]? = some (.slice (some a) (some b))) : shiftSlice l shift k = .error .typeError := by
  have hlt : k < l.length := (List.getElem?_eq_some_iff.1 h).1
  have : ¬ ((k : ℤ) < -(l.length : ℤ) ∨ (l.length : ℤ) ≤ k) := by omega
  simp only [shiftSlice, if_neg this, if_neg (show ¬ ((k : ℤ) < 0) by omega), Int.toNat_natCast, h]

/-! ### C78 gaussian_fn -/

/-- C78 (partial): for a finite positive pulse width and a positive centre factor, the function is
zero up to `start_time`, its magnitude is at most one, and one is attained after the start exactly at
`t0 = start_time + pulse_width * center_time_factor`. Missing: the rejection of invalid widths
(false, see `C78_guard_counterexample`). -/
theorem C78_gaussian_partial (wavelength w start ctf chirp : ℝ) (fwidth : EReal) (hw : 0 < w)
    (hc : 0 < ctf) :
    ∃ g, gaussianFn wavelength (w : ℝ) fwidth start ctf chirp = some g ∧
      (∀ t, t ≤ start → g t = 0) ∧ (∀ t, ‖g t‖ ≤ 1) ∧
      (∀ t, ‖g t‖ = 1 ↔ t = start + w * ctf) := by
  have h0 : (0 : EReal) < (w : EReal) := by exact_mod_cast hw
  have hpi := Real.pi_pos
  have hfw : 0 < 2 * Real.pi / w := by positivity
  have e1 : 2 * Real.pi / (2 * Real.pi / w) = w := by field_simp
  have nrm : ∀ t : ℝ, ‖Complex.exp (I * (2 * Real.pi / wavelength : ℝ) * ((t : ℂ) - (start + w * ctf : ℝ))) *
        Complex.exp ((-((2 * Real.pi / w : ℝ) : ℂ) + I * chirp) * ((t : ℂ) - (start + w * ctf : ℝ)) ^ 2)‖ =
      Real.exp (-(2 * Real.pi / w) * (t - (start + w * ctf)) ^ 2) := by
    intro t
    rw [norm_mul, Complex.norm_exp, Complex.norm_exp]
    have r1 : (I * (2 * Real.pi / wavelength : ℝ) * ((t : ℂ) - (start + w * ctf : ℝ))).re = 0 := by
      rw [show I * (2 * Real.pi / wavelength : ℝ) * ((t : ℂ) - (start + w * ctf : ℝ)) =
        ((2 * Real.pi / wavelength * (t - (start + w * ctf)) : ℝ) : ℂ) * I by push_cast; ring]
      simp [-ofReal_mul, -ofReal_sub, -ofReal_div]
    have r2 : ((-((2 * Real.pi / w : ℝ) : ℂ) + I * chirp) * ((t : ℂ) - (start + w * ctf : ℝ)) ^ 2).re =
        -(2 * Real.pi / w) * (t - (start + w * ctf)) ^ 2 := by
      rw [show (-((2 * Real.pi / w : ℝ) : ℂ) + I * chirp) * ((t : ℂ) - (start + w * ctf : ℝ)) ^ 2 =
        ((-(2 * Real.pi / w) * (t - (start + w * ctf)) ^ 2 : ℝ) : ℂ) +
        ((chirp * (t - (start + w * ctf)) ^ 2 : ℝ) : ℂ) * I by push_cast; ring]
      simp only [add_re, ofReal_re, re_ofReal_mul, I_re, mul_zero, add_zero]
    rw [r1, r2, Real.exp_zero, one_mul]
  refine ⟨fun t => if start < t then
      Complex.exp (I * (2 * Real.pi / wavelength : ℝ) * ((t : ℂ) - (start + w * ctf : ℝ))) *
        Complex.exp ((-((2 * Real.pi / w : ℝ) : ℂ) + I * chirp) * ((t : ℂ) - (start + w * ctf : ℝ)) ^ 2) else 0,
    ?_, ?_, ?_, ?_⟩
  · unfold gaussianFn
    rw [if_neg (by rintro ⟨-, h⟩; exact EReal.coe_ne_top _ h)]
    simp only [if_pos h0, EReal.toReal_coe, EReal.coe_ne_top, EReal.coe_ne_bot, or_self, if_false, e1]
  · intro t ht
    simp [not_lt.2 ht]
  · intro t
    simp only
    split_ifs
    · rw [nrm]
      refine Real.exp_le_one_iff.2 ?_
      nlinarith [mul_nonneg hfw.le (sq_nonneg (t - (start + w * ctf)))]
    · simp
  · intro t
    simp only
    split_ifs with h
    · rw [nrm, Real.exp_eq_one_iff]
      constructor
      · intro h2
        have : (t - (start + w * ctf)) ^ 2 = 0 := by
          rcases mul_eq_zero.1 h2 with h3 | h3
          · linarith
          · exact h3
        have := pow_eq_zero_iff (two_ne_zero) |>.1 this
        linarith
      · rintro rfl; simp
    · simp only [norm_zero]
      constructor
      · intro h2; norm_num at h2
      · rintro rfl
        exact absurd (by nlinarith [mul_pos hw hc]) h

example : (0 : ℝ) < 10 ∧ (0 : ℝ) < 5 := by norm_num

/-- C78's rejection is false: no argument whatsoever raises, in particular not the invalid default
`pulse_width = 0, fwidth = inf`. -/
theorem C78_guard_counterexample (wavelength : ℝ) (pulseWidth fwidth : EReal) (start ctf chirp : ℝ) :
    (gaussianFn wavelength pulseWidth fwidth start ctf chirp).isSome := by
  unfold gaussianFn
  rw [if_neg]
  · rfl
  · rintro ⟨h1, h2⟩
    rw [h2] at h1
    exact absurd h1 (by simp)

/-! ### C79 PML profile -/

theorem pmlD_strictMono {pos : ℕ → ℝ} {N : ℕ} (hpos : ∀ i j, i < j → j ≤ N → pos i < pos j) (c : Fin 2)
    {i j : ℕ} (h : i < j) (hj : j < N) : pmlD pos c i < pmlD pos c j := by
  unfold pmlD
  split_ifs
  · have h1 := hpos i j h (by omega)
    have h2 := hpos (i + 1) (j + 1) (by omega) (by omega)
    linarith
  · exact hpos i j h (by omega)

theorem pmlD_bounds {pos : ℕ → ℝ} {N : ℕ} (hpos : ∀ i j, i < j → j ≤ N → pos i < pos j) (c : Fin 2)
    {i : ℕ} (hi : i < N) : pos i ≤ pmlD pos c i ∧ pmlD pos c i < pos (i + 1) := by
  have h := hpos i (i + 1) (by omega) (by omega)
  unfold pmlD
  split_ifs
  · constructor <;> linarith
  · exact ⟨le_rfl, h⟩

theorem pmlDepth_props {pos : ℕ → ℝ} {N t : ℕ} (hpos : ∀ i j, i < j → j ≤ N → pos i < pos j)
    (ht : 0 < t) (hN : 2 * t < N) (c : Fin 2) :
    (∀ i, i < N → 0 ≤ pmlDepth pos N t c i ∧ pmlDepth pos N t c i ≤ 1) ∧
    (∀ i, t ≤ i → i ≤ N - t → pmlDepth pos N t c i = 0) ∧
    (∀ i j, i < j → j ≤ t → pmlDepth pos N t c j < pmlDepth pos N t c i) ∧
    (∀ i j, N - t ≤ i → i < j → j < N → pmlDepth pos N t c i < pmlDepth pos N t c j) := by
  have hden1 : 0 < pmlD pos c t - pos 0 := by
    have := (pmlD_bounds hpos c (i := t) (by omega)).1
    have := hpos 0 t ht (by omega)
    linarith
  have hden2 : 0 < pos N - pmlD pos c (N - t) := by
    have h1 := (pmlD_bounds hpos c (i := N - t) (by omega)).2
    have h2 : pos (N - t + 1) ≤ pos N := by
      rcases Nat.lt_or_ge (N - t + 1) N with h | h
      · exact (hpos _ _ h le_rfl).le
      · rw [show N - t + 1 = N by omega]
    linarith
  have zero : ∀ i, t ≤ i → i ≤ N - t → pmlDepth pos N t c i = 0 := by
    intro i h1 h2
    unfold pmlDepth
    rw [if_neg (by omega)]
    split_ifs with h3
    · rfl
    · rw [show i = N - t by omega, sub_self, zero_div]
  refine ⟨?_, zero, ?_, ?_⟩
  · intro i hi
    by_cases h1 : i < t
    · have hd := pmlD_strictMono hpos c h1 (by omega)
      have hb := (pmlD_bounds hpos c hi).1
      have h0 : pos 0 ≤ pos i := by
        rcases Nat.eq_zero_or_pos i with h | h
        · rw [h]
        · exact (hpos 0 i h (by omega)).le
      unfold pmlDepth
      rw [if_pos h1]
      exact ⟨div_nonneg (by linarith) hden1.le, (div_le_one hden1).2 (by linarith)⟩
    · by_cases h2 : i ≤ N - t
      · rw [zero i (by omega) h2]; norm_num
      · have hd := pmlD_strictMono hpos c (show N - t < i by omega) hi
        have hb := (pmlD_bounds hpos c hi).2
        have h0 : pos (i + 1) ≤ pos N := by
          rcases Nat.lt_or_ge (i + 1) N with h | h
          · exact (hpos _ _ h le_rfl).le
          · rw [show i + 1 = N by omega]
        unfold pmlDepth
        rw [if_neg h1, if_neg (by omega)]
        exact ⟨div_nonneg (by linarith) hden2.le, (div_le_one hden2).2 (by linarith)⟩
  · intro i j hij hj
    rcases Nat.lt_or_ge j t with h | h
    · unfold pmlDepth
      rw [if_pos h, if_pos (by omega)]
      have := pmlD_strictMono hpos c hij (by omega)
      exact div_lt_div_of_pos_right (by linarith) hden1
    · rw [zero j h (by omega)]
      unfold pmlDepth
      rw [if_pos (by omega)]
      have := pmlD_strictMono hpos c (show i < t by omega) (by omega)
      exact div_pos (by linarith) hden1
  · intro i j hi hij hj
    have := pmlD_strictMono hpos c hij hj
    unfold pmlDepth
    rw [if_neg (by omega), if_neg (by omega), if_neg (by omega), if_neg (by omega)]
    exact div_lt_div_of_pos_right (by linarith) hden2

/-- C79: on a grid of `N` cells with increasing positions and a PML of `t` pixels (`0 < 2 t < N`),
for a positive exponent and nonzero reflection/absorption constants: the conductivity profile is
zero between the two PML regions, its magnitude strictly decreases from the lower edge to the PML
interface and strictly increases from the upper interface to the edge and never exceeds
`|(m+1) log R / (2 corr)|`; the complex stretching factor is `1 + i sigma`, hence one outside the PML. -/
theorem C79_pml_profile (pos : ℕ → ℝ) (N t : ℕ) (hpos : ∀ i j, i < j → j ≤ N → pos i < pos j)
    (ht : 0 < t) (hN : 2 * t < N) (m logR k0 pmlEps : ℝ) (hm : 0 < m) (hR : logR ≠ 0) (hk : k0 ≠ 0)
    (he : pmlEps ≠ 0) (c : Fin 2) :
    (∀ i, t ≤ i → i ≤ N - t → pmlSigma pos N t m logR (k0 * pmlEps) c i = 0 ∧
      scpml pos N t m logR k0 pmlEps c i = 1) ∧
    (∀ i j, i < j → j ≤ t → |pmlSigma pos N t m logR (k0 * pmlEps) c j| <
      |pmlSigma pos N t m logR (k0 * pmlEps) c i|) ∧
    (∀ i j, N - t ≤ i → i < j → j < N → |pmlSigma pos N t m logR (k0 * pmlEps) c i| <
      |pmlSigma pos N t m logR (k0 * pmlEps) c j|) ∧
    (∀ i, i < N → |pmlSigma pos N t m logR (k0 * pmlEps) c i| ≤ |(m + 1) * logR / (2 * (k0 * pmlEps))|) ∧
    (∀ i, scpml pos N t m logR k0 pmlEps c i =
      ⟨1, pmlSigma pos N t m logR (k0 * pmlEps) c i⟩) := by
  obtain ⟨hb, hz, hl, hr⟩ := pmlDepth_props hpos ht hN c
  set K := (m + 1) * logR / (2 * (k0 * pmlEps)) with hKdef
  have hK : 0 < |K| := by
    rw [abs_pos, hKdef]
    exact div_ne_zero (mul_ne_zero (by linarith) hR) (mul_ne_zero two_ne_zero (mul_ne_zero hk he))
  have hs : ∀ i, pmlSigma pos N t m logR (k0 * pmlEps) c i = K * pmlDepth pos N t c i ^ m := by
    intro i; unfold pmlSigma; rw [hKdef]; ring
  have hab : ∀ i, i < N → |pmlSigma pos N t m logR (k0 * pmlEps) c i| = |K| * pmlDepth pos N t c i ^ m := by
    intro i hi
    rw [hs, abs_mul, abs_of_nonneg (Real.rpow_nonneg (hb i hi).1 m)]
  have hsc : ∀ i, scpml pos N t m logR k0 pmlEps c i =
      ⟨1, pmlSigma pos N t m logR (k0 * pmlEps) c i⟩ := by
    intro i
    unfold scpml pmlSigma
    apply Complex.ext
    · simp only [add_re, one_re, I_mul_re, ofReal_im]; norm_num
    · simp only [add_im, one_im, I_mul_im, ofReal_re]; ring
  refine ⟨fun i h1 h2 => ?_, fun i j hij hj => ?_, fun i j hi hij hj => ?_, fun i hi => ?_, hsc⟩
  · have : pmlSigma pos N t m logR (k0 * pmlEps) c i = 0 := by
      rw [hs, hz i h1 h2, Real.zero_rpow hm.ne', mul_zero]
    refine ⟨this, ?_⟩
    rw [hsc, this]; rfl
  · rw [hab _ (by omega), hab _ (by omega)]
    exact mul_lt_mul_of_pos_left (Real.rpow_lt_rpow (hb j (by omega)).1 (hl i j hij hj) hm) hK
  · rw [hab _ (by omega), hab _ (by omega)]
    exact mul_lt_mul_of_pos_left (Real.rpow_lt_rpow (hb i (by omega)).1 (hr i j hi hij hj) hm) hK
  · rw [hab _ hi]
    have := Real.rpow_le_one (hb i hi).1 (hb i hi).2 hm.le
    nlinarith

/-- Non-vacuity: a uniform grid of 20 cells with the default PML exponent 4 and 5 PML pixels. -/
example : (∀ i j, i < j → j ≤ 20 → (fun i : ℕ => (i : ℝ)) i < (fun i : ℕ => (i : ℝ)) j) ∧ 0 < 5 ∧
    2 * 5 < 20 :=
  ⟨fun i j h _ => by simpa using h, by norm_num, by norm_num⟩

/-! ### C80 Poynting vector -/

/-- C80 (partial): for `axis = 2` the result is the cell-averaged `e_x conj(h_y) - e_y conj(h_x)`.
Missing: axes 0 and 1, where the call raises for all fields (`C80_axis_counterexample`). -/
theorem C80_poynting_partial (m n : ℕ) (e h : ℕ → Arr2 m n ℂ) :
    ∃ p, poynting 2 e h = .ok p ∧ ∀ i j, p i j =
      (e 0 i j + e 0 i (j - 1)) / 2 * (starRingEnd ℂ) ((h 1 i j + h 1 i (j - 1)) / 2) -
      (e 1 i j + e 1 (i - 1) j) / 2 * (starRingEnd ℂ) ((h 0 i j + h 0 (i - 1) j) / 2) := by
  refine ⟨_, rfl, fun i j => ?_⟩
  simp only [roll0, roll1, Int.cast_one]
  rfl

/-- C80 is false for axes 0 and 1: the two-component arrays are indexed with 2. -/
theorem C80_axis_counterexample (m n : ℕ) (e h : ℕ → Arr2 m n ℂ) :
    poynting 0 e h = .error .indexError ∧ poynting 1 e h = .error .indexError := ⟨rfl, rfl⟩

/-! ### C29 normalised error -/

/-- Flattening of a matrix into a Euclidean vector. -/
noncomputable def flat {n : ℕ} (u : Matrix (Fin n) (Fin n) ℂ) : EuclideanSpace ℂ (Fin n × Fin n) :=
  WithLp.toLp 2 fun p => u p.1 p.2

theorem trace_eq_inner {n : ℕ} (u v : Matrix (Fin n) (Fin n) ℂ) :
    (u.conjTranspose * v).trace = inner ℂ (flat u) (flat v) := by
  rw [PiLp.inner_apply, Matrix.trace, Fintype.sum_prod_type, Finset.sum_comm]
  refine Finset.sum_congr rfl fun i _ => ?_
  rw [Matrix.diag_apply, Matrix.mul_apply]
  refine Finset.sum_congr rfl fun j _ => ?_
  simp [flat, mul_comm]

theorem trace_unitary {n : ℕ} {u : Matrix (Fin n) (Fin n) ℂ} (hu : u ∈ Matrix.unitaryGroup (Fin n) ℂ) :
    (u.conjTranspose * u).trace = n := by
  have : u.conjTranspose * u = 1 := Matrix.mem_unitaryGroup_iff'.1 hu
  rw [this, Matrix.trace_one]; simp

theorem flat_norm {n : ℕ} {u : Matrix (Fin n) (Fin n) ℂ} (hu : u ∈ Matrix.unitaryGroup (Fin n) ℂ) :
    ‖flat u‖ ^ 2 = n := by
  have h := trace_eq_inner u u
  rw [trace_unitary hu, inner_self_eq_norm_sq_to_K] at h
  have h2 : ((‖flat u‖ ^ 2 : ℝ) : ℂ) = ((n : ℝ) : ℂ) := by
    rw [ofReal_pow, ofReal_natCast]; exact h.symm
  exact Complex.ofReal_injective h2

/-- C29: for unitary `u`, `uhat` of equal size `n ≥ 1`: the error is in `[0,1]`, it is zero exactly
when `uhat = c u` for a unit complex number `c`, and it does not change when `uhat` is multiplied by
a global phase. -/
theorem C29_normalized_error (n : ℕ) (hn : 0 < n) (u uhat : Matrix (Fin n) (Fin n) ℂ)
    (hu : u ∈ Matrix.unitaryGroup (Fin n) ℂ) (hv : uhat ∈ Matrix.unitaryGroup (Fin n) ℂ) :
    (0 ≤ normalizedError u uhat ∧ normalizedError u uhat ≤ 1) ∧
    (normalizedError u uhat = 0 ↔ ∃ c : ℂ, ‖c‖ = 1 ∧ uhat = c • u) ∧
    (∀ c : ℂ, ‖c‖ = 1 → normalizedError u (c • uhat) = normalizedError u uhat) := by
  have hn' : (0 : ℝ) < n := by exact_mod_cast hn
  have nu := flat_norm hu
  have nv := flat_norm hv
  have posu : 0 < ‖flat u‖ := by
    rcases (norm_nonneg (flat u)).eq_or_lt with h | h
    · rw [← h] at nu; norm_num at nu; linarith
    · exact h
  have hnorm : ‖flat u‖ = ‖flat uhat‖ := by
    have := norm_nonneg (flat u); have := norm_nonneg (flat uhat)
    nlinarith
  have e : normalizedError u uhat = √(1 - ‖inner ℂ (flat u) (flat uhat)‖ ^ 2 / (n : ℝ) ^ 2) := by
    unfold normalizedError
    rw [trace_unitary hv, trace_eq_inner]
    simp
  have cs : ‖inner ℂ (flat u) (flat uhat)‖ ≤ n := by
    have := norm_inner_le_norm (𝕜 := ℂ) (flat u) (flat uhat)
    rw [← hnorm] at this
    nlinarith
  refine ⟨⟨Real.sqrt_nonneg _, ?_⟩, ?_, ?_⟩
  · rw [e]
    exact Real.sqrt_le_one.2 (by have : 0 ≤ ‖inner ℂ (flat u) (flat uhat)‖ ^ 2 / (n : ℝ) ^ 2 := by positivity
                                 linarith)
  · rw [e, Real.sqrt_eq_zero (by
      rw [sub_nonneg, div_le_one (by positivity)]
      exact pow_le_pow_left₀ (norm_nonneg _) cs 2)]
    constructor
    · intro h
      have h1 : ‖inner ℂ (flat u) (flat uhat)‖ = ‖flat u‖ * ‖flat uhat‖ := by
        have h2 : ‖inner ℂ (flat u) (flat uhat)‖ ^ 2 = (n : ℝ) ^ 2 := by
          have : ‖inner ℂ (flat u) (flat uhat)‖ ^ 2 / (n : ℝ) ^ 2 = 1 := by linarith
          field_simp at this; linarith
        have h3 : ‖inner ℂ (flat u) (flat uhat)‖ = n := by
          have := norm_nonneg (inner ℂ (flat u) (flat uhat))
          nlinarith
        rw [h3, ← hnorm]; nlinarith
      have h0 : flat u ≠ 0 := norm_pos_iff.1 posu
      have hd := (norm_inner_eq_norm_tfae ℂ (flat u) (flat uhat)).out 0 2
      rcases hd.1 h1 with h2 | ⟨r, hr⟩
      · exact absurd h2 h0
      · refine ⟨r, ?_, ?_⟩
        · have : ‖flat uhat‖ = ‖r‖ * ‖flat u‖ := by rw [hr, norm_smul]
          rw [← hnorm] at this
          have : (‖r‖ - 1) * ‖flat u‖ = 0 := by linarith
          rcases mul_eq_zero.1 this with h3 | h3
          · linarith
          · exact absurd h3 posu.ne'
        · ext i j
          have := congrFun (congrArg WithLp.ofLp hr) (i, j)
          simpa [flat] using this
    · rintro ⟨c, hc, rfl⟩
      have : inner ℂ (flat u) (flat (c • u)) = c * n := by
        rw [← trace_eq_inner, Matrix.mul_smul, Matrix.trace_smul, trace_unitary hu]; simp
      rw [this, norm_mul, hc]
      simp
      field_simp
      ring
  · intro c hc
    unfold normalizedError
    have h1 : (u.conjTranspose * (c • uhat)).trace = c * (u.conjTranspose * uhat).trace := by
      rw [Matrix.mul_smul, Matrix.trace_smul]; simp
    have h2 : ((c • uhat).conjTranspose * (c • uhat)).trace =
        (star c * c) * (uhat.conjTranspose * uhat).trace := by
      rw [Matrix.conjTranspose_smul, Matrix.smul_mul, Matrix.mul_smul, smul_smul, Matrix.trace_smul]
      simp
    rw [h1, h2, norm_mul, norm_mul, norm_mul, norm_star, hc]
    simp

example : (1 : Matrix (Fin 3) (Fin 3) ℂ) ∈ Matrix.unitaryGroup (Fin 3) ℂ := one_mem _

/-- The docstring allows a non-unitary `uhat`, but then the radicand can be negative (`nan` in the
code): for `uhat = u / 2` with `u = 1` of size one it is `-3`. -/
theorem C29_nonunitary_radicand :
    1 - ‖((1 : Matrix (Fin 1) (Fin 1) ℂ).conjTranspose * ((1 / 2 : ℂ) • (1 : Matrix (Fin 1) (Fin 1) ℂ))).trace‖ ^ 2 /
      ‖(((1 / 2 : ℂ) • (1 : Matrix (Fin 1) (Fin 1) ℂ)).conjTranspose *
        ((1 / 2 : ℂ) • (1 : Matrix (Fin 1) (Fin 1) ℂ))).trace‖ ^ 2 = -3 := by
  simp
  norm_num

end Simphox
