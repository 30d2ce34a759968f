import Verif.Utils
import Mathlib.Analysis.SpecialFunctions.Complex.Circle
import Mathlib.Algebra.Ring.GeomSum
import Mathlib.Algebra.BigOperators.Field
import Mathlib.Tactic.FieldSimp

/-!
# Filtering a Gaussian pulse: `gaussian_fft` (C147)
-/

namespace Simphox

open Complex Finset

/-! ### Model -/

/-- `np.fft.fft` of `N` samples (numpy contract used at utils.py:332). -/
noncomputable def npFft (N : ℕ) (x : ℕ → ℂ) (k : ℕ) : ℂ := ∑ n ∈ range N, x n * exp (-(2 * Real.pi * I * k * n / N))

/-- `np.fft.ifft` of `N` samples (numpy contract used at utils.py:333). -/
noncomputable def npIfft (N : ℕ) (x : ℕ → ℂ) (t : ℕ) : ℂ := (∑ k ∈ range N, x k * exp (2 * Real.pi * I * k * t / N)) / N

/-- The samples of the pulse (utils.py:329-332): `exp(1j k0 (t - t0)) exp((-pulse_width + 1j linear_chirp) (t - t0)²)` at
`t = n dt`, `t0` defaulting to the time of the sample `N // 2`. -/
noncomputable def gaussSamples (N : ℕ) (width wavelength dt : ℝ) (t0 : Option ℝ) (chirp : ℝ) (n : ℕ) : ℂ :=
  let k0 := 2 * Real.pi / wavelength
  let c := t0.getD ((N / 2 : ℕ) * dt)
  exp (I * k0 * ((n * dt - c : ℝ) : ℂ)) * exp ((-(width : ℂ) + I * chirp) * ((n * dt - c : ℝ) : ℂ) ^ 2)

/-- `gaussian_fft` (utils.py:313-333) for a profile of shape `(N,)`, `pulse` being the samples `gaussSamples`. Empty profiles:
`t[0]` raises `IndexError` with the default peak time, `fft` raises `ValueError` otherwise. -/
noncomputable def gaussianFft (N : ℕ) (profile : ℕ → ℂ) (width wavelength dt : ℝ) (t0 : Option ℝ) (chirp : ℝ) : Except PyError (ℕ → ℂ) :=
  if N = 0 then .error (if t0.isNone then .indexError else .valueError)
  else .ok (npIfft N fun k => npFft N (gaussSamples N width wavelength dt t0 chirp) k * profile k)

/-- `gaussian_fft` (utils.py:313-333) for profiles of shape `(N, K)`: `g` of shape `(N,)` is broadcast against the *last* axis.
The result is the number of columns and the entries. `N ≥ 1`. -/
noncomputable def gaussianFft2 (N K : ℕ) (profiles : ℕ → ℕ → ℂ) (width wavelength dt : ℝ) (t0 : Option ℝ) (chirp : ℝ) :
    Except PyError (ℕ × (ℕ → ℕ → ℂ)) :=
  if N = 0 then .error (if t0.isNone then .indexError else .valueError)
  else
    let g := npFft N (gaussSamples N width wavelength dt t0 chirp)
    if K = N then .ok (N, fun t j => npIfft N (fun k => g j * profiles k j) t)
    else if K = 1 then .ok (N, fun t j => npIfft N (fun k => g j * profiles k 0) t)
    else if N = 1 then .ok (K, fun t j => npIfft N (fun k => g 0 * profiles k j) t)
    else .error .valueError

/-! ### Roots of unity -/

theorem fft_orth (N : ℕ) (hN : N ≠ 0) (m : ℤ) :
    ∑ k ∈ range N, exp (2 * Real.pi * I * k * m / N) = if (N : ℤ) ∣ m then (N : ℂ) else 0 := by
  have hNc : (N : ℂ) ≠ 0 := by exact_mod_cast hN
  have hpi : (2 * Real.pi * I : ℂ) ≠ 0 := Complex.two_pi_I_ne_zero
  have hk : ∀ k : ℕ, exp (2 * Real.pi * I * k * m / N) = exp (2 * Real.pi * I * m / N) ^ k := by
    intro k
    rw [← Complex.exp_nat_mul]
    congr 1
    ring
  simp only [hk]
  have hone : exp (2 * Real.pi * I * m / N) = 1 ↔ (N : ℤ) ∣ m := by
    rw [Complex.exp_eq_one_iff]
    constructor
    · rintro ⟨n, hn⟩
      refine ⟨n, ?_⟩
      have h1 : (m : ℂ) = N * n := by
        field_simp at hn
        linear_combination hn
      exact_mod_cast h1
    · rintro ⟨n, rfl⟩
      refine ⟨n, ?_⟩
      push_cast
      field_simp
  split_ifs with hd
  · rw [hone.2 hd]
    simp
  · have h1 : exp (2 * Real.pi * I * m / N) ≠ 1 := fun h => hd (hone.1 h)
    have h2 := geom_sum_mul (exp (2 * Real.pi * I * m / N)) N
    have h3 : exp (2 * Real.pi * I * m / N) ^ N = 1 := by
      rw [← Complex.exp_nat_mul, Complex.exp_eq_one_iff]
      refine ⟨m, ?_⟩
      field_simp
    rw [h3, sub_self] at h2
    exact (mul_eq_zero.1 h2).resolve_right (sub_ne_zero.2 h1)

/-- `ifft` depends on the time modulo `N` only: stated for integer times. -/
theorem exp_mod (N : ℕ) (hN : N ≠ 0) (k : ℕ) (a b : ℤ) (h : (N : ℤ) ∣ a - b) :
    exp (2 * Real.pi * I * k * a / N) = exp (2 * Real.pi * I * k * b / N) := by
  have hNc : (N : ℂ) ≠ 0 := by exact_mod_cast hN
  obtain ⟨c, hc⟩ := h
  have ha : (a : ℂ) = b + N * c := by exact_mod_cast (by linarith : a = b + N * c)
  have h1 : (2 * Real.pi * I * k * a / N : ℂ) = 2 * Real.pi * I * k * b / N + (k * c : ℤ) * (2 * Real.pi * I) := by
    rw [ha]
    push_cast
    field_simp
  rw [h1, Complex.exp_add, Complex.exp_int_mul_two_pi_mul_I, mul_one]

/-! ### Specification -/

/-- Circular convolution of two signals with `N` samples. -/
noncomputable def circConv (N : ℕ) (x h : ℕ → ℂ) (t : ℕ) : ℂ := ∑ s ∈ range N, x s * h ((t + (N - s)) % N)

/-- C147: for every profile, pulse and number of samples the result is the pulse convolved with the impulse response of the
profile (its inverse transform). -/
theorem C147_convolution_partial (N : ℕ) (hN : N ≠ 0) (profile : ℕ → ℂ) (width wavelength dt : ℝ) (t0 : Option ℝ) (chirp : ℝ) :
    ∃ out, gaussianFft N profile width wavelength dt t0 chirp = .ok out ∧
      ∀ t, out t = circConv N (gaussSamples N width wavelength dt t0 chirp) (npIfft N profile) t := by
  refine ⟨_, by unfold gaussianFft; rw [if_neg hN], fun t => ?_⟩
  set x := gaussSamples N width wavelength dt t0 chirp
  have hh : ∀ s ∈ range N, npIfft N profile ((t + (N - s)) % N)
      = (∑ k ∈ range N, profile k * (exp (-(2 * Real.pi * I * k * s / N)) * exp (2 * Real.pi * I * k * t / N))) / N := by
    intro s hs
    have hs := mem_range.1 hs
    unfold npIfft
    congr 1
    refine sum_congr rfl fun k _ => ?_
    congr 1
    have := exp_mod N hN k (((t + (N - s)) % N : ℕ) : ℤ) ((t : ℤ) - s) (by
      have h1 : ((N : ℕ) : ℤ) ∣ (((t + (N - s)) % N : ℕ) : ℤ) - ((t + (N - s) : ℕ) : ℤ) := by
        have := Int.emod_emod_of_dvd ((t + (N - s) : ℕ) : ℤ) (dvd_refl (N : ℤ))
        rw [Int.natCast_mod]
        exact (Int.emod_emod_of_dvd _ (dvd_refl _) |> Int.ModEq.dvd ∘ Eq.symm)
      have h2 : ((t + (N - s) : ℕ) : ℤ) - (t - s) = N := by omega
      have : (((t + (N - s)) % N : ℕ) : ℤ) - ((t : ℤ) - s)
          = ((((t + (N - s)) % N : ℕ) : ℤ) - ((t + (N - s) : ℕ) : ℤ)) + N := by omega
      rw [this]
      exact dvd_add h1 (dvd_refl _))
    rw [← Complex.exp_add]
    have e1 : (2 * Real.pi * I * k * (((t + (N - s)) % N : ℕ) : ℂ) / N : ℂ) = 2 * Real.pi * I * k * ((((t + (N - s)) % N : ℕ) : ℤ) : ℂ) / N := by
      push_cast; rfl
    rw [e1, this]
    congr 1
    push_cast
    ring
  unfold circConv
  rw [sum_congr rfl fun s hs => by rw [hh s hs]]
  unfold npIfft npFft
  rw [show (∑ s ∈ range N, x s * ((∑ k ∈ range N, profile k * (exp (-(2 * Real.pi * I * k * s / N)) * exp (2 * Real.pi * I * k * t / N))) / N))
    = (∑ s ∈ range N, ∑ k ∈ range N, x s * (profile k * (exp (-(2 * Real.pi * I * k * s / N)) * exp (2 * Real.pi * I * k * t / N)))) / N by
      rw [sum_div]; exact sum_congr rfl fun s _ => by rw [mul_div_assoc', mul_sum]]
  rw [sum_comm]
  congr 1
  refine sum_congr rfl fun k _ => ?_
  dsimp only
  rw [sum_mul, sum_mul]
  exact sum_congr rfl fun s _ => by ring

/-- The impulse response of a delay. -/
theorem ifft_delay (N : ℕ) (hN : N ≠ 0) (d t : ℕ) :
    npIfft N (fun k => exp (-(2 * Real.pi * I * k * d / N))) t = if (N : ℤ) ∣ t - d then 1 else 0 := by
  have hNc : (N : ℂ) ≠ 0 := by exact_mod_cast hN
  unfold npIfft
  have : ∀ k ∈ range N, exp (-(2 * Real.pi * I * k * d / N)) * exp (2 * Real.pi * I * k * t / N)
      = exp (2 * Real.pi * I * k * ((t - d : ℤ) : ℂ) / N) := by
    intro k _
    rw [← Complex.exp_add]
    congr 1
    push_cast
    ring
  rw [sum_congr rfl this, fft_orth N hN]
  split_ifs
  · exact div_self hNc
  · simp

/-- C147: a frequency response that delays by `d` samples delays the pulse by `d` samples (around the time window); no
filtering (`d = 0`) returns the pulse. For every number of samples, pulse and delay. -/
theorem C147_delay_partial (N : ℕ) (hN : N ≠ 0) (d : ℕ) (width wavelength dt : ℝ) (t0 : Option ℝ) (chirp : ℝ) :
    ∃ out, gaussianFft N (fun k => exp (-(2 * Real.pi * I * k * d / N))) width wavelength dt t0 chirp = .ok out ∧
      ∀ t < N, out ((t + d) % N) = gaussSamples N width wavelength dt t0 chirp t := by
  obtain ⟨out, h, ho⟩ := C147_convolution_partial N hN (fun k => exp (-(2 * Real.pi * I * k * d / N))) width wavelength dt t0 chirp
  refine ⟨out, h, fun t ht => ?_⟩
  rw [ho]
  unfold circConv
  simp only [ifft_delay N hN]
  rw [sum_eq_single_of_mem t (mem_range.2 ht)]
  · rw [if_pos, mul_one]
    rw [Int.natCast_mod]
    push_cast [Nat.cast_sub ht.le]
    apply Int.ModEq.dvd
    apply Int.ModEq.symm
    refine (Int.mod_modEq _ _).trans ?_
    have h1 := (Int.mod_modEq ((t : ℤ) + d) N).add_right ((N : ℤ) - t)
    refine h1.trans ?_
    apply Int.ModEq.symm
    apply (Int.modEq_iff_dvd).2
    exact ⟨1, by ring⟩
  · intro s hs hst
    rw [if_neg, mul_zero]
    intro hdv
    have hs := mem_range.1 hs
    apply hst
    rw [Int.natCast_mod] at hdv
    push_cast [Nat.cast_sub hs.le] at hdv
    have h1 : (d : ℤ) ≡ ((t : ℤ) + d) % N + (N - s) [ZMOD N] := by
      have := (Int.modEq_iff_dvd).2 hdv
      exact this.trans (Int.mod_modEq _ _)
    have h2 := (Int.mod_modEq ((t : ℤ) + d) N).add_right ((N : ℤ) - s)
    have h3 := (h1.trans h2).dvd
    have h4 : (N : ℤ) ∣ t - s := by
      have : (t : ℤ) - s = ((t : ℤ) + d + (N - s) - d) - N := by ring
      rw [this]
      exact dvd_sub h3 (dvd_refl _)
    obtain ⟨c, hc⟩ := h4
    have hc1 : c < 1 := by
      by_contra h
      have : (N : ℤ) * 1 ≤ N * c := mul_le_mul_of_nonneg_left (by omega) (by positivity)
      omega
    have hc2 : -1 < c := by
      by_contra h
      have : (N : ℤ) * c ≤ N * (-1) := mul_le_mul_of_nonneg_left (by omega) (by positivity)
      omega
    have : c = 0 := by omega
    subst this
    omega

theorem C147_identity_partial (N : ℕ) (hN : N ≠ 0) (width wavelength dt : ℝ) (t0 : Option ℝ) (chirp : ℝ) :
    ∃ out, gaussianFft N (fun _ => 1) width wavelength dt t0 chirp = .ok out ∧
      ∀ t < N, out t = gaussSamples N width wavelength dt t0 chirp t := by
  obtain ⟨out, h, ho⟩ := C147_delay_partial N hN 0 width wavelength dt t0 chirp
  simp only [Nat.cast_zero, mul_zero, zero_div, neg_zero, Complex.exp_zero] at h
  refine ⟨out, h, fun t ht => ?_⟩
  have := ho t ht
  rwa [add_zero, Nat.mod_eq_of_lt ht] at this

/-! ### Energy -/

theorem exp_conj (N k t : ℕ) : (starRingEnd ℂ) (exp (2 * Real.pi * I * k * t / N)) = exp (-(2 * Real.pi * I * k * t / N)) := by
  rw [← Complex.exp_conj]
  congr 1
  have h2 : (starRingEnd ℂ) 2 = 2 := Complex.conj_ofNat 2
  simp only [map_div₀, map_mul, Complex.conj_ofReal, Complex.conj_I, Complex.conj_natCast, h2]
  ring

theorem parseval_ifft (N : ℕ) (hN : N ≠ 0) (X : ℕ → ℂ) :
    ∑ t ∈ range N, ‖npIfft N X t‖ ^ 2 = (∑ k ∈ range N, ‖X k‖ ^ 2) / N := by
  have hNc : (N : ℂ) ≠ 0 := by exact_mod_cast hN
  apply Complex.ofReal_injective
  push_cast
  simp only [← Complex.mul_conj']
  have h1 : ∀ t, npIfft N X t * (starRingEnd ℂ) (npIfft N X t)
      = (∑ k ∈ range N, ∑ l ∈ range N, X k * (starRingEnd ℂ) (X l) * exp (2 * Real.pi * I * t * ((k - l : ℤ) : ℂ) / N)) / N ^ 2 := by
    intro t
    unfold npIfft
    rw [map_div₀, map_sum, Complex.conj_natCast, div_mul_div_comm, sum_mul_sum, ← pow_two]
    congr 1
    refine sum_congr rfl fun k _ => sum_congr rfl fun l _ => ?_
    rw [map_mul, exp_conj]
    have : exp (2 * Real.pi * I * t * ((k - l : ℤ) : ℂ) / N) = exp (2 * Real.pi * I * k * t / N) * exp (-(2 * Real.pi * I * l * t / N)) := by
      rw [← Complex.exp_add]
      congr 1
      push_cast
      ring
    rw [this]
    ring
  simp only [h1]
  rw [← sum_div, sum_comm]
  have h2 : ∀ k ∈ range N, ∑ t ∈ range N, ∑ l ∈ range N, X k * (starRingEnd ℂ) (X l) * exp (2 * Real.pi * I * t * ((k - l : ℤ) : ℂ) / N)
      = X k * (starRingEnd ℂ) (X k) * N := by
    intro k hk
    rw [sum_comm]
    rw [sum_eq_single_of_mem k hk]
    · rw [← mul_sum, fft_orth N hN]
      simp
    · intro l hl hlk
      rw [← mul_sum, fft_orth N hN, if_neg, mul_zero]
      intro hd
      have hk := mem_range.1 hk
      have hl := mem_range.1 hl
      apply hlk
      have := Int.emod_emod_of_dvd (k : ℤ) hd
      have h3 : (l : ℤ) ≡ k [ZMOD N] := (Int.modEq_iff_dvd).2 hd
      have h4 : (l : ℤ) % N = k % N := h3
      rw [Int.emod_eq_of_lt (by positivity) (by exact_mod_cast hl), Int.emod_eq_of_lt (by positivity) (by exact_mod_cast hk)] at h4
      exact_mod_cast h4
  rw [sum_congr rfl h2, ← sum_mul]
  field_simp

/-- C147: a passive filter (`|profile| ≤ 1` at every frequency) never increases the energy of the pulse. -/
theorem C147_passive_partial (N : ℕ) (hN : N ≠ 0) (profile : ℕ → ℂ) (hp : ∀ k < N, ‖profile k‖ ≤ 1) (width wavelength dt : ℝ) (t0 : Option ℝ)
    (chirp : ℝ) (out : ℕ → ℂ) (h : gaussianFft N profile width wavelength dt t0 chirp = .ok out) :
    ∑ t ∈ range N, ‖out t‖ ^ 2 ≤ ∑ t ∈ range N, ‖gaussSamples N width wavelength dt t0 chirp t‖ ^ 2 := by
  obtain ⟨out1, h1, hid⟩ := C147_identity_partial N hN width wavelength dt t0 chirp
  unfold gaussianFft at h h1
  rw [if_neg hN] at h h1
  have e := Except.ok.inj h
  have e1 := Except.ok.inj h1
  subst e
  have hs : ∑ t ∈ range N, ‖gaussSamples N width wavelength dt t0 chirp t‖ ^ 2 = ∑ t ∈ range N, ‖out1 t‖ ^ 2 :=
    sum_congr rfl fun t ht => by rw [hid t (mem_range.1 ht)]
  rw [hs]
  subst e1
  rw [parseval_ifft N hN, parseval_ifft N hN]
  gcongr with k hk
  rw [norm_mul, mul_one]
  exact mul_le_of_le_one_right (norm_nonneg _) (hp k (mem_range.1 hk))

/-! ### Several profiles -/

/-- **C147, violated**: profiles with several columns are not filtered column by column: unless the number of columns is 1 or the
number of samples (or there is one sample) the call raises. -/
theorem C147_columns_counterexample (N K : ℕ) (h1 : K ≠ N) (h2 : K ≠ 1) (h3 : 1 < N) (profiles : ℕ → ℕ → ℂ) (width wavelength dt : ℝ)
    (t0 : Option ℝ) (chirp : ℝ) : gaussianFft2 N K profiles width wavelength dt t0 chirp = .error .valueError := by
  unfold gaussianFft2
  rw [if_neg (by omega)]
  simp only
  rw [if_neg h1, if_neg h2, if_neg (by omega)]

/-- **C147, violated**: with as many columns as samples, the spectrum of the pulse is spread over the columns: without filtering
(all profiles 1) every column is an impulse at time 0 weighted by one Fourier coefficient of the pulse. -/
theorem C147_square_counterexample (N : ℕ) (hN : N ≠ 0) (width wavelength dt : ℝ) (t0 : Option ℝ) (chirp : ℝ) :
    ∃ out, gaussianFft2 N N (fun _ _ => 1) width wavelength dt t0 chirp = .ok (N, out) ∧
      ∀ j, out 0 j = npFft N (gaussSamples N width wavelength dt t0 chirp) j ∧ ∀ t < N, t ≠ 0 → out t j = 0 := by
  have key : ∀ (c : ℂ) (t : ℕ), npIfft N (fun _ => c * 1) t = if (N : ℤ) ∣ t then c else 0 := by
    intro c t
    have := ifft_delay N hN 0 t
    simp only [Nat.cast_zero, mul_zero, zero_div, neg_zero, Complex.exp_zero, sub_zero] at this
    have h2 : npIfft N (fun _ => c * 1) t = c * npIfft N (fun _ => 1) t := by
      unfold npIfft
      rw [mul_div_assoc', mul_sum]
      congr 1
      exact sum_congr rfl fun k _ => by ring
    rw [h2, this]
    split_ifs <;> simp
  refine ⟨_, by unfold gaussianFft2; rw [if_neg hN]; simp only; rw [if_pos trivial], fun j => ⟨?_, fun t ht h0 => ?_⟩⟩
  · rw [key, if_pos (by simp)]
  · rw [key, if_neg]
    intro hd
    have := Nat.le_of_dvd (by omega) (by exact_mod_cast hd : N ∣ t)
    omega

/-- The pulse is not zero: at the default peak time it is 1, so the results above are not about zero signals. -/
theorem gaussSamples_peak (N : ℕ) (width wavelength dt chirp : ℝ) : gaussSamples N width wavelength dt none chirp (N / 2) = 1 := by
  unfold gaussSamples
  simp

/-- C147, the pulse: without filtering the result is a carrier `exp(i 2π τ/λ)` with chirp `exp(i chirp τ²)` under the envelope
`exp(-width τ²)`, `τ` being the time since the peak: the given peak time, or that of the middle sample `N // 2`. -/
theorem C147_pulse_partial (N : ℕ) (hN : N ≠ 0) (width wavelength dt : ℝ) (t0 : Option ℝ) (chirp : ℝ) :
    ∃ out, gaussianFft N (fun _ => 1) width wavelength dt t0 chirp = .ok out ∧
      ∀ n < N, ∀ τ : ℝ, τ = (match t0 with | some c => n * dt - c | none => ((n : ℝ) - (N / 2 : ℕ)) * dt) →
        out n = Real.exp (-(width * τ ^ 2)) *
          (Real.cos (2 * Real.pi * τ / wavelength + chirp * τ ^ 2) + Real.sin (2 * Real.pi * τ / wavelength + chirp * τ ^ 2) * I) := by
  obtain ⟨out, h, ho⟩ := C147_identity_partial N hN width wavelength dt t0 chirp
  refine ⟨out, h, fun n hn τ hτ => ?_⟩
  rw [ho n hn]
  have hc : (n * dt - t0.getD ((N / 2 : ℕ) * dt) : ℝ) = τ := by
    rw [hτ]
    cases t0 with
    | some c => rfl
    | none => simp only [Option.getD_none]; ring
  unfold gaussSamples
  simp only
  rw [hc, ofReal_cos, ofReal_sin, ← Complex.exp_mul_I, ofReal_exp, ← Complex.exp_add, ← Complex.exp_add]
  congr 1
  push_cast
  ring

/-- C147: an empty profile raises: `IndexError` when the peak time is to be found, `ValueError` otherwise. -/
theorem C147_empty_partial (profile : ℕ → ℂ) (width wavelength dt c chirp : ℝ) :
    gaussianFft 0 profile width wavelength dt none chirp = .error .indexError ∧
    gaussianFft 0 profile width wavelength dt (some c) chirp = .error .valueError := ⟨rfl, rfl⟩

/-- Five samples and three profiles meet the hypotheses. -/
example : (3 : ℕ) ≠ 5 ∧ (3 : ℕ) ≠ 1 ∧ 1 < 5 ∧ ∀ k < 5, ‖((fun _ => 1 / 2) : ℕ → ℂ) k‖ ≤ 1 := by
  refine ⟨by decide, by decide, by decide, fun k _ => ?_⟩
  norm_num

end Simphox
