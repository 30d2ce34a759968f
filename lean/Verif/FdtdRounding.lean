import Verif.FdtdDriven

/-!
# Rounding errors of an FDTD run add up but are never amplified (C187)
-/

namespace Simphox

open Complex

variable {s : Fin 3 → ℕ} [∀ a, NeZero (s a)]

/-! ### Specification -/

/-- The error made by the electric half of step `k` of a computed sequence of states: what was stored minus what exact
arithmetic gives for the update `e += curl(h) / eps * dt - src_e * dt / eps` (`_step_e`, fdtd.py:117-142) of the stored fields. -/
noncomputable def Fdtd.errE (F : Fdtd s) (srcs : ℕ → List (Source s)) (hat : ℕ → FState s F.npml) (k : ℕ) : VField s :=
  fun c i => (hat (k + 1)).1 c i - (F.stepE false (hat k) (srcs k)).1 c i

/-- The error made by the magnetic half of step `k`, which starts from the electric field just stored
(`_step_h`, fdtd.py:144-169). -/
noncomputable def Fdtd.errH (F : Fdtd s) (srcs : ℕ → List (Source s)) (hat : ℕ → FState s F.npml) (k : ℕ) : VField s :=
  fun c i => (hat (k + 1)).2.1 c i - (F.stepH false ((hat (k + 1)).1, (hat k).2) (srcs k)).2.1 c i

/-! ### Lemmas -/

/-- A current density acting everywhere. -/
def fullSource (e h : VField s) : Source s := { e := some e, h := some h, region := fun _ _ => true }

omit [∀ a, NeZero (s a)] in
theorem totalSource_full (e h : VField s) :
    totalSource (·.e) [fullSource e h] = e ∧ totalSource (·.h) [fullSource e h] = h := by
  constructor <;> funext c i <;> simp [totalSource, fullSource]

theorem stepE_np (F : Fdtd s) (hF : F.npml = 0) (st : FState s F.npml) (l : List (Source s)) :
    (F.stepE false st l).1 = fun c i => st.1 c i + F.g.curl true st.2.1 c i / F.epsT c i * F.dt
      - totalSource (·.e) l c i * (F.dt / F.epsT c i) := by
  obtain ⟨g, epsT, dt, np, pml⟩ := F
  simp only at hF
  subst hF
  obtain ⟨e, h, pe, ph⟩ := st
  exact foldl_addSource_np (·.e) _ l _

theorem stepH_np (F : Fdtd s) (hF : F.npml = 0) (st : FState s F.npml) (l : List (Source s)) :
    (F.stepH false st l).2.1 = fun c i => st.2.1 c i - F.g.curl false st.1 c i * F.dt
      - totalSource (·.h) l c i * F.dt := by
  obtain ⟨g, epsT, dt, np, pml⟩ := F
  simp only at hF
  subst hF
  obtain ⟨e, h, pe, ph⟩ := st
  exact foldl_addSource_np (·.h) _ l _

theorem curl_add' (g : YeeOps s) (ofH : Bool) (x y : VField s) (c : Fin 3) (i : GIdx s) :
    g.curl ofH (fun c i => x c i + y c i) c i = g.curl ofH x c i + g.curl ofH y c i := by
  have h := curl_lin g ofH 1 1 x y c i
  have e' : ((1 : ℂ) • x + (1 : ℂ) • y) = fun c i => x c i + y c i := by funext c i; simp
  rw [e'] at h
  rw [h]
  ring

/-- The sources that would produce the errors (proof device). -/
noncomputable def Fdtd.errSources (F : Fdtd s) (srcs : ℕ → List (Source s)) (hat : ℕ → FState s F.npml) (k : ℕ) : List (Source s) :=
  [fullSource (fun c i => -(F.errE srcs hat k c i * F.epsT c i / F.dt)) (fun c i => -(F.errH srcs hat k c i / F.dt))]

/-- The computed fields are the exact ones plus the fields the errors radiate. -/
theorem hat_eq (F : Fdtd s) (hF : F.npml = 0) (heps : ∀ c i, F.epsT c i ≠ 0) (hdt : F.dt ≠ 0)
    (srcs : ℕ → List (Source s)) (hat : ℕ → FState s F.npml) (n : ℕ) :
    ((hat n).1 = fun c i => (F.run false srcs (hat 0) n).1 c i
        + (F.run false (F.errSources srcs hat) (zeroState s F.npml) n).1 c i) ∧
      ((hat n).2.1 = fun c i => (F.run false srcs (hat 0) n).2.1 c i
        + (F.run false (F.errSources srcs hat) (zeroState s F.npml) n).2.1 c i) := by
  have hdt' : (F.dt : ℂ) ≠ 0 := by exact_mod_cast hdt
  induction n with
  | zero =>
    constructor <;> funext c i
    · change (hat 0).1 c i = (hat 0).1 c i + 0
      rw [add_zero]
    · change (hat 0).2.1 c i = (hat 0).2.1 c i + 0
      rw [add_zero]
  | succ n ih =>
    obtain ⟨ih1, ih2⟩ := ih
    set X := F.run false srcs (hat 0) n with hX
    set Y := F.run false (F.errSources srcs hat) (zeroState s F.npml) n with hY
    have hx : F.run false srcs (hat 0) (n + 1) = F.step false X (srcs n) := rfl
    have hy : F.run false (F.errSources srcs hat) (zeroState s F.npml) (n + 1) = F.step false Y (F.errSources srcs hat n) := rfl
    obtain ⟨x1, x2⟩ := step_sources F hF X (srcs n)
    obtain ⟨y1, y2⟩ := step_sources F hF Y (F.errSources srcs hat n)
    obtain ⟨t1, t2⟩ := totalSource_full (s := s) (fun c i => -(F.errE srcs hat n c i * F.epsT c i / F.dt))
      (fun c i => -(F.errH srcs hat n c i / F.dt))
    change totalSource (·.e) (F.errSources srcs hat n) = _ at t1
    change totalSource (·.h) (F.errSources srcs hat n) = _ at t2
    have hE : (hat (n + 1)).1 = fun c i => (F.step false X (srcs n)).1 c i + (F.step false Y (F.errSources srcs hat n)).1 c i := by
      funext c i
      have h0 : (hat (n + 1)).1 c i = (F.stepE false (hat n) (srcs n)).1 c i + F.errE srcs hat n c i := by
        unfold Fdtd.errE; ring
      rw [h0, stepE_np F hF, x1, y1, t1]
      beta_reduce
      rw [ih2, curl_add', ih1]
      field_simp [heps c i]
      ring
    refine ⟨by rw [hx, hy]; exact hE, ?_⟩
    rw [hx, hy]
    funext c i
    have h0 : (hat (n + 1)).2.1 c i
        = (F.stepH false ((hat (n + 1)).1, (hat n).2) (srcs n)).2.1 c i + F.errH srcs hat n c i := by
      unfold Fdtd.errH; ring
    rw [h0, stepH_np F hF, x2, y2, t2, ← x1, ← y1]
    dsimp only
    rw [hE, ih2, curl_add']
    field_simp
    ring

omit [∀ a, NeZero (s a)] in
theorem fieldNorm_smul (k : ℂ) (x : VField s) : fieldNorm (fun c i => k * x c i) = ‖k‖ * fieldNorm x := by
  unfold fieldNorm
  have : ∀ c i, ‖k * x c i‖ ^ 2 = ‖k‖ ^ 2 * ‖x c i‖ ^ 2 := fun c i => by rw [norm_mul, mul_pow]
  simp only [this, ← Finset.mul_sum]
  rw [Real.sqrt_mul (by positivity), Real.sqrt_sq (norm_nonneg _)]

/-! ### C187 -/

/-- C187: with the code's time step, uniform cells and a real permittivity above `1 + m`, `m > 0`, without PML (NumPy mode),
any sources: whatever the errors of the individual updates, the computed fields differ from the exact run of the same length
at most by the sum of the errors made so far, times a factor that depends on `m` only (not on the number of steps, the
cells, the fields or the sources). -/
theorem C187_errors_add (ndim : ℕ) (hnd : 0 < ndim) (bloch : Fin 3 → ℂ) (spacing : Fin 3 → ℝ)
    (hpos : ∀ a, 0 < spacing a) (hs : ∀ a : Fin 3, ndim ≤ a → s a = 1) (eps : SField s) (m : ℝ) (hm : 0 < m)
    (heps : ∀ i, (eps i).im = 0 ∧ 1 + m ≤ (eps i).re) :
    let F := plainFdtd ndim bloch spacing eps
    ∀ (srcs : ℕ → List (Source s)) (hat : ℕ → FState s F.npml) (n : ℕ),
    let total := ∑ k ∈ Finset.range n,
      (fieldNorm (fun c i => F.epsT c i * F.errE srcs hat k c i) / Real.sqrt m
        + Real.sqrt (2 + 6 / m) * fieldNorm (F.errH srcs hat k))
    fieldNorm (fun c i => (hat n).1 c i - (F.run false srcs (hat 0) n).1 c i) ≤ total / Real.sqrt m ∧
      fieldNorm (fun c i => (hat n).2.1 c i - (F.run false srcs (hat 0) n).2.1 c i) ≤ Real.sqrt (2 + 6 / m) * total := by
  intro F srcs hat n total
  have hdt : 0 < F.dt := by
    change 0 < courantDt ndim spacing
    unfold courantDt
    refine one_div_pos.2 (Real.sqrt_pos.2 ?_)
    refine Finset.sum_pos' (fun a _ => ?_) ⟨0, Finset.mem_univ _, ?_⟩
    · have := hpos a
      split_ifs <;> positivity
    · have := hpos 0
      rw [if_pos (by simpa using hnd)]
      positivity
  have hepsT : ∀ c i, F.epsT c i ≠ 0 := fun c i => by
    have h := yeeAvg_real eps (1 + m) heps c i
    intro h0
    have h2 := h.2
    change yeeAvgG eps c i = 0 at h0
    rw [h0, zero_re] at h2
    linarith
  obtain ⟨e1, e2⟩ := hat_eq F rfl hepsT hdt.ne' srcs hat n
  obtain ⟨b1, b2⟩ := C162_driven_bounded ndim hnd bloch spacing hpos hs eps m hm heps (F.errSources srcs hat)
    (zeroState s F.npml) n
  have hU : fieldEnergy F.g F.epsT F.dt (zeroState s F.npml).1 (zeroState s F.npml).2.1 = 0 := by
    simp [fieldEnergy, zeroState, vip, rip]
  have hT : Real.sqrt (fieldEnergy F.g F.epsT F.dt (zeroState s F.npml).1 (zeroState s F.npml).2.1)
      + F.dt * ∑ k ∈ Finset.range n, (fieldNorm (totalSource (·.e) (F.errSources srcs hat k)) / Real.sqrt m
        + Real.sqrt (2 + 6 / m) * fieldNorm (totalSource (·.h) (F.errSources srcs hat k))) = total := by
    rw [hU, Real.sqrt_zero, zero_add, Finset.mul_sum]
    refine Finset.sum_congr rfl fun k _ => ?_
    obtain ⟨t1, t2⟩ := totalSource_full (s := s) (fun c i => -(F.errE srcs hat k c i * F.epsT c i / F.dt))
      (fun c i => -(F.errH srcs hat k c i / F.dt))
    change totalSource (·.e) (F.errSources srcs hat k) = _ at t1
    change totalSource (·.h) (F.errSources srcs hat k) = _ at t2
    have n1 : F.dt * fieldNorm (totalSource (·.e) (F.errSources srcs hat k))
        = fieldNorm (fun c i => F.epsT c i * F.errE srcs hat k c i) := by
      rw [t1]
      have : (fun c i => -(F.errE srcs hat k c i * F.epsT c i / F.dt))
          = fun c i => (-(1 / F.dt) : ℂ) * (F.epsT c i * F.errE srcs hat k c i) := by funext c i; ring
      rw [this, fieldNorm_smul, norm_neg, norm_div, norm_one, Complex.norm_of_nonneg hdt.le]
      field_simp
    have n2 : F.dt * fieldNorm (totalSource (·.h) (F.errSources srcs hat k)) = fieldNorm (F.errH srcs hat k) := by
      rw [t2]
      have : (fun c i => -(F.errH srcs hat k c i / F.dt))
          = fun c i => (-(1 / F.dt) : ℂ) * F.errH srcs hat k c i := by funext c i; ring
      rw [this, fieldNorm_smul, norm_neg, norm_div, norm_one, Complex.norm_of_nonneg hdt.le]
      field_simp
    rw [← n1, ← n2]
    ring
  have d1 : (fun c i => (hat n).1 c i - (F.run false srcs (hat 0) n).1 c i)
      = (F.run false (F.errSources srcs hat) (zeroState s F.npml) n).1 := by
    funext c i; rw [e1]; ring
  have d2 : (fun c i => (hat n).2.1 c i - (F.run false srcs (hat 0) n).2.1 c i)
      = (F.run false (F.errSources srcs hat) (zeroState s F.npml) n).2.1 := by
    funext c i; rw [e2]; ring
  rw [d1, d2]
  rw [← hT]
  exact ⟨b1, b2⟩

/-- C187 for errors of at most `δ` per update (in the sense of the weighted norms): after `n` steps the error is at most
`n` times a constant; an exactly computed sequence (`δ = 0`) is the exact run. -/
theorem C187_linear_growth (ndim : ℕ) (hnd : 0 < ndim) (bloch : Fin 3 → ℂ) (spacing : Fin 3 → ℝ)
    (hpos : ∀ a, 0 < spacing a) (hs : ∀ a : Fin 3, ndim ≤ a → s a = 1) (eps : SField s) (m : ℝ) (hm : 0 < m)
    (heps : ∀ i, (eps i).im = 0 ∧ 1 + m ≤ (eps i).re) :
    let F := plainFdtd ndim bloch spacing eps
    ∀ (srcs : ℕ → List (Source s)) (hat : ℕ → FState s F.npml) (δ : ℝ),
      (∀ k, fieldNorm (fun c i => F.epsT c i * F.errE srcs hat k c i) ≤ δ ∧ fieldNorm (F.errH srcs hat k) ≤ δ) →
    ∀ n : ℕ,
    fieldNorm (fun c i => (hat n).1 c i - (F.run false srcs (hat 0) n).1 c i)
        ≤ n * δ * (1 / Real.sqrt m + Real.sqrt (2 + 6 / m)) / Real.sqrt m ∧
      fieldNorm (fun c i => (hat n).2.1 c i - (F.run false srcs (hat 0) n).2.1 c i)
        ≤ Real.sqrt (2 + 6 / m) * (n * δ * (1 / Real.sqrt m + Real.sqrt (2 + 6 / m))) := by
  intro F srcs hat δ hδ n
  obtain ⟨h1, h2⟩ := C187_errors_add ndim hnd bloch spacing hpos hs eps m hm heps srcs hat n
  have hsm : 0 < Real.sqrt m := Real.sqrt_pos.2 hm
  have hsum : ∑ k ∈ Finset.range n, (fieldNorm (fun c i => F.epsT c i * F.errE srcs hat k c i) / Real.sqrt m
        + Real.sqrt (2 + 6 / m) * fieldNorm (F.errH srcs hat k)) ≤ n * δ * (1 / Real.sqrt m + Real.sqrt (2 + 6 / m)) := by
    calc _ ≤ ∑ k ∈ Finset.range n, (δ / Real.sqrt m + Real.sqrt (2 + 6 / m) * δ) := by
          refine Finset.sum_le_sum fun k _ => ?_
          have a := div_le_div_of_nonneg_right (hδ k).1 hsm.le
          have b := mul_le_mul_of_nonneg_left (hδ k).2 (Real.sqrt_nonneg (2 + 6 / m))
          exact add_le_add a b
      _ = _ := by rw [Finset.sum_const, Finset.card_range, nsmul_eq_mul]; ring
  exact ⟨h1.trans (div_le_div_of_nonneg_right hsum hsm.le), h2.trans (mul_le_mul_of_nonneg_left hsum (Real.sqrt_nonneg _))⟩

/-- Nontrivial case: a run on 3 x 4 cells with permittivity 2.25 whose stored electric field is one too large in every
component after every update has an error of `6` in each electric update (36 values), and none in the magnetic ones. -/
example : let F := plainFdtd (s := shapeOf 3 4 1) 2 (fun _ => 1) (fun _ => 1) (fun _ => 9 / 4)
    ∃ hat : ℕ → FState (shapeOf 3 4 1) F.npml, ∀ k, fieldNorm (F.errE (fun _ => []) hat k) = 6 ∧
      fieldNorm (F.errH (fun _ => []) hat k) = 0 := by
  intro F
  let one : FState (shapeOf 3 4 1) F.npml → FState (shapeOf 3 4 1) F.npml := fun st =>
    F.stepH false ((fun c i => (F.stepE false st []).1 c i + 1), (st.2)) []
  refine ⟨fun k => one^[k] (zeroState _ _), fun k => ?_⟩
  have hE : F.errE (fun _ => []) (fun k => one^[k] (zeroState _ _)) k = fun _ _ => 1 := by
    funext c i
    unfold Fdtd.errE
    beta_reduce
    rw [Function.iterate_succ_apply']
    change (F.stepE false (one^[k] (zeroState _ _)) []).1 c i + 1 - _ = 1
    ring
  have hH : F.errH (fun _ => []) (fun k => one^[k] (zeroState _ _)) k = fun _ _ => 0 := by
    funext c i
    unfold Fdtd.errH
    beta_reduce
    rw [Function.iterate_succ_apply']
    exact sub_self _
  rw [hE, hH]
  constructor
  · have hc : Fintype.card (GIdx (shapeOf 3 4 1)) = 12 := by decide +kernel
    rw [fieldNorm]
    simp only [norm_one, one_pow, Finset.sum_const, Finset.card_univ, hc]
    norm_num
    rw [show (36 : ℝ) = 6 ^ 2 by norm_num]
    exact Real.sqrt_sq (by norm_num)
  · simp [fieldNorm]

end Simphox
