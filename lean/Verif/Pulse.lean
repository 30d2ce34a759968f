import Mathlib.Analysis.Normed.Ring.InfiniteSum
import Mathlib.Analysis.Complex.Basic
import Mathlib.Algebra.BigOperators.NatAntidiagonal
import Verif.FdtdProps

/-!
# FDTD as a linear time-invariant system: C192

A pulse is a fixed pattern of source currents multiplied at step `n` by `w n` (the tutorial use of
`FDTD.step` / `FDTD.run`, fdtd.py:126-200, 228-260: one `Source` tuple per step, whose profile is the profile of the
port times the value of the envelope). The claims hold for every grid, permittivity, Bloch phase and list of PML
regions.
-/

namespace Simphox

open Finset

variable {s : Fin 3 → ℕ} [∀ a, NeZero (s a)]

/-- The source `p` with its currents multiplied by `c`. -/
noncomputable def weightSource (c : ℂ) (p : Source s) : Source s :=
  { e := p.e.map fun v => c • v, h := p.h.map fun v => c • v, region := p.region }

/-- The sources of step `n` when the pattern `P` is driven with the waveform `w`. -/
noncomputable def pulse (P : List (Source s)) (w : ℕ → ℂ) (n : ℕ) : List (Source s) :=
  P.map (weightSource (w n))

/-- The waveform that is one at step 0 and zero afterwards. -/
def impulse (n : ℕ) : ℂ := if n = 0 then 1 else 0

/-- The state after `n` steps from rest when the pattern `P` is driven with `w`. -/
noncomputable def response (F : Fdtd s) (P : List (Source s)) (w : ℕ → ℂ) (n : ℕ) : FState s F.npml :=
  F.run false (pulse P w) (zeroState s F.npml) n

omit [∀ a, NeZero (s a)] in
theorem addSource_zero (region : Fin 3 → GIdx s → Bool) (w f : VField s) (src : Option (VField s)) :
    addSource false region w (src.map fun v => (0 : ℂ) • v) f = f := by
  cases src with
  | none => rfl
  | some v =>
    funext c i
    simp [addSource]

omit [∀ a, NeZero (s a)] in
theorem foldl_scale_zero (sel : Source s → Option (VField s))
    (hsel : ∀ p, sel (weightSource 0 p) = (sel p).map fun v => (0 : ℂ) • v) (w : VField s) :
    ∀ (P : List (Source s)) (f : VField s),
      (P.map (weightSource 0)).foldl (fun f src => addSource false src.region w (sel src) f) f = f
  | [], _ => rfl
  | p :: P, f => by
    rw [List.map_cons, List.foldl_cons, hsel, addSource_zero]
    exact foldl_scale_zero sel hsel w P f

theorem step_scale_zero (F : Fdtd s) (st : FState s F.npml) (P : List (Source s)) :
    F.step false st (P.map (weightSource 0)) = F.step false st [] := by
  unfold Fdtd.step Fdtd.stepE Fdtd.stepH
  simp only [foldl_scale_zero Source.e (fun _ => rfl), foldl_scale_zero Source.h (fun _ => rfl), List.foldl_nil]

omit [∀ a, NeZero (s a)] in
theorem comb_scale (c : ℂ) (p : Source s) : combSource 1 c (weightSource 0 p) p = weightSource c p := by
  unfold combSource weightSource
  cases p with
  | mk e h r => cases e <;> cases h <;> simp

theorem step_pulse (F : Fdtd s) (c : ℂ) (x : FState s F.npml) (P : List (Source s)) :
    F.step false x (P.map (weightSource c)) = F.step false x [] + c • F.step false 0 P := by
  have h := C53_step_linear F 1 c x 0 (P.map fun p => (weightSource 0 p, p)) (by
    intro p hp
    obtain ⟨q, -, rfl⟩ := List.mem_map.1 hp
    refine ⟨rfl, ?_, ?_⟩ <;> simp [weightSource])
  simp only [List.map_map, Function.comp_def, comb_scale, List.map_id', smul_zero, add_zero, one_smul] at h
  rw [h]
  congr 1
  exact step_scale_zero F x P

theorem step_free_add (F : Fdtd s) (x y : FState s F.npml) :
    F.step false (x + y) [] = F.step false x [] + F.step false y [] := by
  simpa using C53_step_linear F 1 1 x y [] (by simp)

theorem step_free_smul (F : Fdtd s) (c : ℂ) (x : FState s F.npml) :
    F.step false (c • x) [] = c • F.step false x [] := by
  simpa using C53_step_linear F c 0 x 0 [] (by simp)

theorem step_free_sum (F : Fdtd s) {ι : Type} (t : Finset ι) (f : ι → FState s F.npml) :
    F.step false (∑ k ∈ t, f k) [] = ∑ k ∈ t, F.step false (f k) [] := by
  classical
  induction t using Finset.induction_on with
  | empty =>
    have h := C54_zero_fixed F false (fun _ => []) (by simp) 1
    have h0 : F.step false (0 : FState s F.npml) [] = 0 := h
    simpa using h0
  | insert a t ha ih => rw [sum_insert ha, sum_insert ha, step_free_add, ih]

theorem response_succ (F : Fdtd s) (P : List (Source s)) (w : ℕ → ℂ) (n : ℕ) :
    response F P w (n + 1) = F.step false (response F P w n) [] + w n • F.step false 0 P := by
  exact step_pulse F (w n) _ P

theorem response_zero (F : Fdtd s) (P : List (Source s)) (w : ℕ → ℂ) : response F P w 0 = 0 := rfl

/-- C192: the state after `n` steps of any pulse is the convolution of its waveform with the response to an impulse. -/
theorem C192_convolution (F : Fdtd s) (P : List (Source s)) (w : ℕ → ℂ) (n : ℕ) :
    response F P w n = ∑ k ∈ range n, w k • response F P impulse (n - k) := by
  induction n with
  | zero => rfl
  | succ n ih =>
    have himp : ∀ m, response F P impulse (m + 2) = F.step false (response F P impulse (m + 1)) [] := by
      intro m
      rw [response_succ]
      simp [impulse]
    have h1 : response F P impulse 1 = F.step false 0 P := by
      rw [response_succ, response_zero]
      have h := C54_zero_fixed F false (fun _ => []) (by simp) 1
      have h0 : F.step false (0 : FState s F.npml) [] = 0 := h
      rw [h0]; simp [impulse]
    rw [response_succ, ih, step_free_sum, sum_range_succ, Nat.add_sub_cancel_left, h1]
    congr 1
    refine sum_congr rfl fun k hk => ?_
    rw [step_free_smul]
    congr 1
    obtain ⟨m, rfl⟩ : ∃ m, n = k + m + 1 := ⟨n - k - 1, by have := mem_range.1 hk; omega⟩
    rw [show k + m + 1 - k = m + 1 by omega, show k + m + 1 + 1 - k = m + 2 by omega, himp]

/-- Sources that stay off for `d` steps and then do what `srcs` does. -/
def delayed (d : ℕ) (srcs : ℕ → List (Source s)) (n : ℕ) : List (Source s) :=
  if n < d then [] else srcs (n - d)

/-- C192: delaying any sources by `d` steps delays every field by `d` steps (both modes, any sources): the fields are
zero up to step `d` and those of the undelayed run afterwards. -/
theorem C192_delay (F : Fdtd s) (jax : Bool) (srcs : ℕ → List (Source s)) (d n : ℕ) :
    F.run jax (delayed d srcs) (zeroState s F.npml) (d + n) = F.run jax srcs (zeroState s F.npml) n
      ∧ (n ≤ d → F.run jax (delayed d srcs) (zeroState s F.npml) n = zeroState s F.npml) := by
  have hz : ∀ n, n ≤ d → F.run jax (delayed d srcs) (zeroState s F.npml) n = zeroState s F.npml := by
    intro n
    induction n with
    | zero => intro _; rfl
    | succ n ih =>
      intro h
      change F.step jax (F.run jax _ _ n) (delayed d srcs n) = _
      rw [ih (by omega), delayed, if_pos (by omega)]
      exact C54_zero_fixed F jax (fun _ => []) (by simp) 1
  refine ⟨?_, hz n⟩
  induction n with
  | zero => exact hz d le_rfl
  | succ n ih =>
    change F.step jax (F.run jax _ _ (d + n)) (delayed d srcs (d + n)) = F.step jax (F.run jax _ _ n) (srcs n)
    rw [ih, delayed, if_neg (by omega), Nat.add_sub_cancel_left]

/-- C192: what two pulses of the same pattern show of the device is the same: convolving either response with the
other waveform gives the same field. -/
theorem C192_same_device (F : Fdtd s) (P : List (Source s)) (w w' : ℕ → ℂ) (n : ℕ) :
    ∑ k ∈ range (n + 1), w' k • response F P w (n - k) = ∑ k ∈ range (n + 1), w k • response F P w' (n - k) := by
  have key : ∀ u v : ℕ → ℂ, ∑ k ∈ range (n + 1), v k • response F P u (n - k)
      = ∑ p ∈ antidiagonal n, ∑ q ∈ antidiagonal p.2, v p.1 • u q.1 • response F P impulse q.2 := by
    intro u v
    rw [Finset.Nat.sum_antidiagonal_eq_sum_range_succ_mk]
    refine sum_congr rfl fun k _ => ?_
    rw [C192_convolution, Finset.Nat.sum_antidiagonal_eq_sum_range_succ_mk, sum_range_succ]
    simp only [Nat.sub_self, response_zero, smul_zero, add_zero, smul_sum]
  rw [key, key]
  rw [sum_sigma', sum_sigma']
  refine sum_nbij' (fun x => ⟨(x.2.1, x.1.1 + x.2.2), (x.1.1, x.2.2)⟩) (fun x => ⟨(x.2.1, x.1.1 + x.2.2), (x.1.1, x.2.2)⟩)
    ?_ ?_ ?_ ?_ ?_
  · rintro ⟨⟨a, b⟩, ⟨c, d⟩⟩ h
    obtain ⟨h1, h2⟩ := mem_sigma.1 h
    have h1 : a + b = n := mem_antidiagonal.1 h1
    have h2 : c + d = b := mem_antidiagonal.1 h2
    refine mem_sigma.2 ⟨mem_antidiagonal.2 ?_, mem_antidiagonal.2 rfl⟩
    change c + (a + d) = n
    omega
  · rintro ⟨⟨a, b⟩, ⟨c, d⟩⟩ h
    obtain ⟨h1, h2⟩ := mem_sigma.1 h
    have h1 : a + b = n := mem_antidiagonal.1 h1
    have h2 : c + d = b := mem_antidiagonal.1 h2
    refine mem_sigma.2 ⟨mem_antidiagonal.2 ?_, mem_antidiagonal.2 rfl⟩
    change c + (a + d) = n
    omega
  · rintro ⟨⟨a, b⟩, ⟨c, d⟩⟩ h
    simp only [mem_sigma, mem_antidiagonal] at h
    obtain ⟨-, h⟩ := h
    subst h; rfl
  · rintro ⟨⟨a, b⟩, ⟨c, d⟩⟩ h
    simp only [mem_sigma, mem_antidiagonal] at h
    obtain ⟨-, h⟩ := h
    subst h; rfl
  · rintro ⟨⟨a, b⟩, ⟨c, d⟩⟩ _
    exact smul_comm _ _ _

/-- C192: the measured transfer function does not depend on the pulse. `m` is any reading of the state that is linear
(a field component at a point, a sum over a monitor), `z` any spectral variable (`exp (i omega dt)`) for which the
series converge absolutely. The spectrum of the reading divided by the spectrum of the pulse is the same for both
pulses; it is the spectrum of the impulse response. -/
theorem C192_spectrum (F : Fdtd s) (P : List (Source s)) (m : FState s F.npml →ₗ[ℂ] ℂ) (z : ℂ) (w w' : ℕ → ℂ)
    (hw : Summable fun n => ‖w n * z ^ n‖) (hw' : Summable fun n => ‖w' n * z ^ n‖)
    (hr : Summable fun n => ‖m (response F P w n) * z ^ n‖) (hr' : Summable fun n => ‖m (response F P w' n) * z ^ n‖)
    (h0 : ∑' n, w n * z ^ n ≠ 0) (h0' : ∑' n, w' n * z ^ n ≠ 0) :
    (∑' n, m (response F P w n) * z ^ n) / (∑' n, w n * z ^ n)
      = (∑' n, m (response F P w' n) * z ^ n) / (∑' n, w' n * z ^ n) := by
  have key : ∀ u v : ℕ → ℂ, (Summable fun n => ‖v n * z ^ n‖) → (Summable fun n => ‖m (response F P u n) * z ^ n‖) →
      (∑' n, v n * z ^ n) * (∑' n, m (response F P u n) * z ^ n)
        = ∑' n, m (∑ k ∈ range (n + 1), v k • response F P u (n - k)) * z ^ n := by
    intro u v hv hu
    rw [tsum_mul_tsum_eq_tsum_sum_antidiagonal_of_summable_norm hv hu]
    refine tsum_congr fun n => ?_
    rw [Finset.Nat.sum_antidiagonal_eq_sum_range_succ_mk, map_sum, sum_mul]
    refine sum_congr rfl fun k hk => ?_
    have : k + (n - k) = n := by have := mem_range.1 hk; omega
    rw [map_smul, smul_eq_mul]
    calc v k * z ^ k * (m (response F P u (n - k)) * z ^ (n - k))
        = v k * m (response F P u (n - k)) * z ^ (k + (n - k)) := by rw [pow_add]; ring
      _ = _ := by rw [this]
  rw [div_eq_div_iff h0 h0', mul_comm, key w w' hw' hr, mul_comm, key w' w hw hr']
  exact tsum_congr fun n => by rw [C192_same_device]

/-- C192 is not vacuous: on the one-cell grid with permittivity 1 and `dt = 1` a unit electric current leaves the field
`-1` after the step, and the pulse `1, 1, 0, ..` leaves `-2` after two. -/
example : ∃ (F : Fdtd (fun _ => 1)) (P : List (Source (fun _ => 1))),
    (response F P impulse 1).1 0 0 = -1 ∧ (response F P (fun n => if n < 2 then 1 else 0) 2).1 0 0 = -2 := by
  refine ⟨{ g := uniformOps _ (fun _ => 1) (fun _ => 1), epsT := fun _ _ => 1, dt := 1, npml := 0, pml := fun k => k.elim0 },
    [{ e := some fun _ _ => 1, h := none, region := fun _ _ => true }], ?_, ?_⟩
  · simp [response, Fdtd.run, pulse, weightSource, impulse, Fdtd.step, Fdtd.stepE, Fdtd.stepH, addSource, zeroState,
      YeeOps.curl, curlFn, YeeOps.diffFn, rollFwd, rollBack, uniformOps]
  · simp [response, Fdtd.run, pulse, weightSource, Fdtd.step, Fdtd.stepE, Fdtd.stepH, addSource, zeroState,
      YeeOps.curl, curlFn, YeeOps.diffFn, rollFwd, rollBack, uniformOps]
    norm_num

end Simphox
