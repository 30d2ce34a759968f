import Mathlib.Analysis.Complex.Norm
import Mathlib.Algebra.BigOperators.Fin
import Mathlib.Tactic.Linarith
import Mathlib.Tactic.Positivity
import Verif.FdtdProps

/-!
# C56: energy conservation and stability of the FDTD update
-/

namespace Simphox

open Complex

variable {s : Fin 3 → ℕ}

/-! ### Real inner products of fields -/

/-- `Re <u, v>` of scalar fields. -/
noncomputable def rip (u v : SField s) : ℝ := ∑ i, (star (u i) * v i).re

/-- `Re <x, y>` of vector fields. -/
noncomputable def vip (x y : VField s) : ℝ := ∑ c, rip (x c) (y c)

theorem rip_comm (u v : SField s) : rip u v = rip v u := by
  unfold rip
  refine Finset.sum_congr rfl fun i _ => ?_
  simp only [star_def, mul_re, conj_re, conj_im]; ring

theorem rip_add_left (u v w : SField s) : rip (u + v) w = rip u w + rip v w := by
  unfold rip
  rw [← Finset.sum_add_distrib]
  refine Finset.sum_congr rfl fun i _ => ?_
  simp only [star_def, mul_re, conj_re, conj_im, Pi.add_apply, add_re, add_im]; ring

theorem rip_sub_left (u v w : SField s) : rip (u - v) w = rip u w - rip v w := by
  unfold rip
  rw [← Finset.sum_sub_distrib]
  refine Finset.sum_congr rfl fun i _ => ?_
  simp only [star_def, mul_re, conj_re, conj_im, Pi.sub_apply, sub_re, sub_im]; ring

theorem rip_add_right (u v w : SField s) : rip w (u + v) = rip w u + rip w v := by
  rw [rip_comm, rip_add_left, rip_comm u, rip_comm v]

theorem rip_sub_right (u v w : SField s) : rip w (u - v) = rip w u - rip w v := by
  rw [rip_comm, rip_sub_left, rip_comm u, rip_comm v]

theorem rip_self (u : SField s) : rip u u = ∑ i, ‖u i‖ ^ 2 := by
  unfold rip
  refine Finset.sum_congr rfl fun i _ => ?_
  rw [Complex.sq_norm, Complex.normSq_apply]
  simp only [star_def, mul_re, conj_re, conj_im]; ring

theorem rip_self_nonneg (u : SField s) : 0 ≤ rip u u := by
  rw [rip_self]; positivity

theorem vip_comm (x y : VField s) : vip x y = vip y x :=
  Finset.sum_congr rfl fun c _ => rip_comm (x c) (y c)

theorem vip_self_nonneg (x : VField s) : 0 ≤ vip x x :=
  Finset.sum_nonneg fun c _ => rip_self_nonneg (x c)

theorem vip_self (x : VField s) : vip x x = ∑ c, ∑ i, ‖x c i‖ ^ 2 :=
  Finset.sum_congr rfl fun c _ => rip_self (x c)

/-- Cauchy-Schwarz in the form used below. -/
theorem vip_young (x y : VField s) (t : ℝ) : -(t ^ 2 / 4 * vip x x) - vip y y ≤ t * vip x y := by
  have h : 0 ≤ ∑ c, ∑ i, ‖((t / 2 : ℝ) : ℂ) * x c i + y c i‖ ^ 2 := by positivity
  have e : ∑ c, ∑ i, ‖((t / 2 : ℝ) : ℂ) * x c i + y c i‖ ^ 2
      = t ^ 2 / 4 * vip x x + t * vip x y + vip y y := by
    unfold vip rip
    simp only [Finset.mul_sum, ← Finset.sum_add_distrib]
    refine Finset.sum_congr rfl fun c _ => Finset.sum_congr rfl fun i _ => ?_
    rw [Complex.sq_norm, Complex.normSq_apply]
    simp only [star_def, mul_re, mul_im, conj_re, conj_im, add_re, add_im, ofReal_re, ofReal_im]
    ring
  linarith

variable [∀ a, NeZero (s a)]

/-- The shift along one axis as a permutation of the cells. -/
def shiftEquiv (a : Fin 3) : GIdx s ≃ GIdx s where
  toFun i := Function.update i a (i a + 1)
  invFun i := Function.update i a (i a - 1)
  left_inv i := by simp [Function.update_idem]
  right_inv i := by simp [Function.update_idem]

theorem rip_rollBack (a : Fin 3) (u v : SField s) : rip (rollBack a u) (rollBack a v) = rip u v :=
  Equiv.sum_comp (shiftEquiv a) fun i => (star (u i) * v i).re

theorem rip_rollFwd_right (a : Fin 3) (u v : SField s) : rip u (rollFwd a v) = rip (rollBack a u) v := by
  rw [← rip_rollBack a u]
  congr 1
  funext i
  unfold rollBack rollFwd
  simp [Function.update_idem]

theorem rollBack_comm (a b : Fin 3) (u : SField s) : rollBack a (rollBack b u) = rollBack b (rollBack a u) := by
  funext i
  unfold rollBack
  by_cases h : a = b
  · subst h; rfl
  · congr 1
    rw [Function.update_of_ne (Ne.symm h), Function.update_of_ne h, Function.update_comm h]

theorem rollBack_rollFwd (a : Fin 3) (u : SField s) : rollBack a (rollFwd a u) = u := by
  funext i
  unfold rollBack rollFwd
  simp [Function.update_idem]

theorem rollFwd_rollBack (a : Fin 3) (u : SField s) : rollFwd a (rollBack a u) = u := by
  funext i
  unfold rollBack rollFwd
  simp [Function.update_idem]

omit [∀ a, NeZero (s a)] in
theorem rip_smul_left (r : ℝ) (u v : SField s) : rip ((r : ℂ) • u) v = r * rip u v := by
  unfold rip
  rw [Finset.mul_sum]
  refine Finset.sum_congr rfl fun i _ => ?_
  simp only [star_def, mul_re, mul_im, conj_re, conj_im, Pi.smul_apply, smul_eq_mul, ofReal_re, ofReal_im]
  ring

omit [∀ a, NeZero (s a)] in
theorem rip_smul_right (r : ℝ) (u v : SField s) : rip v ((r : ℂ) • u) = r * rip v u := by
  rw [rip_comm, rip_smul_left, rip_comm]

theorem rollBack_rollFwd_comm (a c : Fin 3) (u : SField s) :
    rollBack a (rollFwd c u) = rollFwd c (rollBack a u) := by
  have h : u = rollBack c (rollFwd c u) := (rollBack_rollFwd c u).symm
  conv_rhs => rw [h, rollBack_comm, rollFwd_rollBack]

/-- The differences on a grid without PML, as functions. -/
theorem uniform_dF (bloch : Fin 3 → ℂ) (spacing : Fin 3 → ℝ) (a : Fin 3) (u : SField s) :
    (uniformOps s bloch spacing).diffFn false u a = ((1 / spacing a : ℝ) : ℂ) • (rollBack a u - u) := by
  funext i
  simp only [YeeOps.diffFn, uniformOps, Bool.false_eq_true, if_false, Pi.smul_apply, Pi.sub_apply,
    smul_eq_mul]
  push_cast
  ring

theorem uniform_dB (bloch : Fin 3 → ℂ) (spacing : Fin 3 → ℝ) (a : Fin 3) (u : SField s) :
    (uniformOps s bloch spacing).diffFn true u a = ((1 / spacing a : ℝ) : ℂ) • (u - rollFwd a u) := by
  funext i
  simp only [YeeOps.diffFn, uniformOps, if_true, Pi.smul_apply, Pi.sub_apply, smul_eq_mul]
  push_cast
  ring

section
variable (bloch : Fin 3 → ℂ) (spacing : Fin 3 → ℝ)

set_option quotPrecheck false
local notation "dF" => (uniformOps s bloch spacing).diffFn false
local notation "dB" => (uniformOps s bloch spacing).diffFn true

theorem rip_adj (a : Fin 3) (u v : SField s) : rip u (dB v a) = -rip (dF u a) v := by
  rw [uniform_dF, uniform_dB, rip_smul_right, rip_smul_left, rip_sub_right, rip_sub_left,
    rip_rollFwd_right]
  ring

theorem rip_cross (a c : Fin 3) (u v : SField s) : rip (dF u a) (dF v c) = rip (dB u c) (dB v a) := by
  simp only [uniform_dF, uniform_dB, rip_smul_right, rip_smul_left, rip_sub_right, rip_sub_left]
  rw [rip_rollFwd_right a u v, rip_rollFwd_right a (rollFwd c u) v]
  have h1 : rip (rollFwd c u) v = rip u (rollBack c v) := by
    rw [rip_comm, rip_rollFwd_right, rip_comm]
  have h2 : rip (rollBack a (rollFwd c u)) v = rip (rollBack a u) (rollBack c v) := by
    rw [rollBack_rollFwd_comm, rip_comm, rip_rollFwd_right, rip_comm]
  rw [h1, h2]
  ring

theorem rip_dF_bound (a : Fin 3) (u : SField s) :
    rip (dF u a) (dF u a) ≤ 4 * (1 / spacing a ^ 2) * rip u u := by
  rw [uniform_dF, rip_smul_right, rip_smul_left, rip_sub_right, rip_sub_left, rip_sub_left, rip_rollBack]
  have h := rip_self_nonneg (rollBack a u + u)
  rw [rip_add_right, rip_add_left, rip_add_left, rip_rollBack] at h
  have h2 : 0 ≤ 1 / spacing a ^ 2 := by positivity
  have h3 : 1 / spacing a * (1 / spacing a * (rip u u - rip u (rollBack a u) - (rip (rollBack a u) u - rip u u)))
      = 1 / spacing a ^ 2 * (rip u u - rip u (rollBack a u) - (rip (rollBack a u) u - rip u u)) := by
    by_cases h0 : spacing a = 0
    · rw [h0]; simp
    · field_simp
  rw [h3]
  have := mul_le_mul_of_nonneg_left
    (show rip u u - rip u (rollBack a u) - (rip (rollBack a u) u - rip u u) ≤ 4 * rip u u by linarith) h2
  linarith

theorem dF_one_cell (a : Fin 3) (hs : s a = 1) (u : SField s) : dF u a = 0 := by
  rw [uniform_dF]
  have : rollBack a u = u := by
    funext i
    unfold rollBack
    congr 1
    have hsub : Subsingleton (Fin (s a)) := by rw [hs]; infer_instance
    rw [Subsingleton.elim (i a + 1) (i a), Function.update_eq_self]
  rw [this, sub_self, smul_zero]

/-- The curls of a grid without PML are adjoint to each other. -/
theorem vip_curl_adj (x y : VField s) :
    vip ((uniformOps s bloch spacing).curl true x) y = vip x ((uniformOps s bloch spacing).curl false y) := by
  have h : ∀ a u v, rip (dB u a) v = -rip u (dF v a) := fun a u v => by
    rw [rip_comm, rip_adj, rip_comm]
  unfold vip
  rw [Fin.sum_univ_three, Fin.sum_univ_three]
  change rip (dB (x 2) 1 - dB (x 1) 2) (y 0) + rip (dB (x 0) 2 - dB (x 2) 0) (y 1)
      + rip (dB (x 1) 0 - dB (x 0) 1) (y 2)
    = rip (x 0) (dF (y 2) 1 - dF (y 1) 2) + rip (x 1) (dF (y 0) 2 - dF (y 2) 0)
      + rip (x 2) (dF (y 1) 0 - dF (y 0) 1)
  simp only [rip_sub_left, rip_sub_right, h]
  ring

/-- `|curl e|^2 + |div e|^2` is the sum of the squares of all differences. -/
theorem curl_sq (e : VField s) :
    vip ((uniformOps s bloch spacing).curl false e) ((uniformOps s bloch spacing).curl false e)
      ≤ ∑ c, ∑ a, rip (dF (e c) a) (dF (e c) a) := by
  have hdiv := rip_self_nonneg (dB (e 0) 0 + dB (e 1) 1 + dB (e 2) 2)
  simp only [rip_add_left, rip_add_right, ← rip_cross] at hdiv
  unfold vip
  simp only [Fin.sum_univ_three]
  change rip (dF (e 2) 1 - dF (e 1) 2) (dF (e 2) 1 - dF (e 1) 2)
      + rip (dF (e 0) 2 - dF (e 2) 0) (dF (e 0) 2 - dF (e 2) 0)
      + rip (dF (e 1) 0 - dF (e 0) 1) (dF (e 1) 0 - dF (e 0) 1) ≤ _
  simp only [rip_sub_left, rip_sub_right]
  have c1 := rip_comm (dF (e 1) 0) (dF (e 0) 1)
  have c2 := rip_comm (dF (e 2) 0) (dF (e 0) 2)
  have c3 := rip_comm (dF (e 2) 1) (dF (e 1) 2)
  linarith

/-- The norm bound behind the Courant condition. -/
theorem curl_bound (ndim : ℕ) (hs : ∀ a : Fin 3, ndim ≤ a → s a = 1) (e : VField s) :
    vip ((uniformOps s bloch spacing).curl false e) ((uniformOps s bloch spacing).curl false e)
      ≤ 4 * (∑ a : Fin 3, if (a : ℕ) < ndim then 1 / spacing a ^ 2 else 0) * vip e e := by
  refine (curl_sq bloch spacing e).trans ?_
  unfold vip
  rw [Finset.mul_sum]
  refine Finset.sum_le_sum fun c _ => ?_
  rw [Finset.mul_sum, Finset.sum_mul]
  refine Finset.sum_le_sum fun a _ => ?_
  split_ifs with h
  · exact rip_dF_bound bloch spacing a (e c)
  · rw [dF_one_cell bloch spacing a (hs a (not_lt.1 h))]
    simp [rip]

end

/-! ### Specification -/

/-- The discrete energy of a state: electric energy at the time of `e`, magnetic energy as the product
of the magnetic fields half a step before and after (`h + dt * curl e` is the field before `h`). -/
noncomputable def fieldEnergy (g : YeeOps s) (epsT : VField s) (dt : ℝ) (e h : VField s) : ℝ :=
  vip e (fun c i => epsT c i * e c i) + vip h (fun c i => h c i + dt * g.curl false e c i)

omit [∀ a, NeZero (s a)] in
theorem vip_add_mul (x y z : VField s) (r : ℝ) :
    vip x (fun c i => y c i + r * z c i) = vip x y + r * vip x z := by
  unfold vip
  rw [Finset.mul_sum, ← Finset.sum_add_distrib]
  refine Finset.sum_congr rfl fun c _ => ?_
  change rip (x c) (y c + (r : ℂ) • z c) = _
  rw [rip_add_right, rip_smul_right]

omit [∀ a, NeZero (s a)] in
theorem vip_add_mul_left (x y z : VField s) (r : ℝ) :
    vip (fun c i => y c i + r * z c i) x = vip y x + r * vip z x := by
  rw [vip_comm, vip_add_mul, vip_comm x, vip_comm x]

theorem energy_step (bloch : Fin 3 → ℂ) (spacing : Fin 3 → ℝ) (epsT e h : VField s) (dt : ℝ)
    (heps : ∀ c i, (epsT c i).im = 0 ∧ epsT c i ≠ 0) :
    let g := uniformOps s bloch spacing
    let e' : VField s := fun c i => e c i + g.curl true h c i / epsT c i * dt
    let h' : VField s := fun c i => h c i - g.curl false e' c i * dt
    fieldEnergy g epsT dt e' h' = fieldEnergy g epsT dt e h := by
  intro g e' h'
  have hsym : ∀ x y : VField s, vip x (fun c i => epsT c i * y c i) = vip (fun c i => epsT c i * x c i) y := by
    intro x y
    unfold vip rip
    refine Finset.sum_congr rfl fun c _ => Finset.sum_congr rfl fun i _ => ?_
    have him := (heps c i).1
    simp only [star_def, mul_re, mul_im, conj_re, conj_im, him]
    ring
  -- auxiliary fields
  set k : VField s := fun c i => g.curl true h c i / epsT c i with hk
  have hke : (fun c i => epsT c i * k c i) = g.curl true h := by
    funext c i
    rw [hk]
    exact mul_div_cancel₀ _ (heps c i).2
  have he' : e' = fun c i => e c i + (dt : ℝ) * k c i := by funext c i; rw [hk]; ring
  have hh' : (fun c i => h' c i + dt * g.curl false e' c i) = h := by
    funext c i
    change h c i - g.curl false e' c i * dt + dt * g.curl false e' c i = h c i
    ring
  have hee' : (fun c i => epsT c i * e' c i) = fun c i => epsT c i * e c i + (dt : ℝ) * g.curl true h c i := by
    funext c i
    rw [he', ← congrFun (congrFun hke c) i]
    ring
  have hadj := vip_curl_adj (s := s) bloch spacing
  unfold fieldEnergy
  rw [hh', hee', vip_add_mul, vip_add_mul, he', vip_add_mul_left, vip_add_mul_left]
  have e1 : vip h' h = vip h h - dt * vip h (g.curl false e') := by
    have : h' = fun c i => h c i + ((-dt : ℝ) : ℂ) * g.curl false e' c i := by
      funext c i; push_cast; ring
    rw [this, vip_add_mul_left, vip_comm (g.curl false e')]
    ring
  have e2 : vip h (g.curl false e') = vip (g.curl true h) e + dt * vip (g.curl true h) k := by
    rw [← hadj h e', he', vip_add_mul]
  have e3 : vip k (fun c i => epsT c i * e c i) = vip (g.curl true h) e := by rw [hsym, hke]
  have e4 : vip h (g.curl false e) = vip (g.curl true h) e := (hadj h e).symm
  rw [e1, e2, e3, e4, vip_comm e (g.curl true h), vip_comm k (g.curl true h)]
  ring

omit [∀ a, NeZero (s a)] in
theorem eps_energy (epsT e : VField s) (m : ℝ) (heps : ∀ c i, (epsT c i).im = 0 ∧ m ≤ (epsT c i).re) :
    m * vip e e ≤ vip e (fun c i => epsT c i * e c i) := by
  unfold vip rip
  simp only [Finset.mul_sum]
  refine Finset.sum_le_sum fun c _ => Finset.sum_le_sum fun i _ => ?_
  have h := heps c i
  simp only [star_def, mul_re, mul_im, conj_re, conj_im, h.1]
  nlinarith [mul_self_nonneg (e c i).re, mul_self_nonneg (e c i).im]

theorem yeeAvg_real (eps : SField s) (m : ℝ) (heps : ∀ i, (eps i).im = 0 ∧ m ≤ (eps i).re) (c : Fin 3) (i : GIdx s) :
    (yeeAvgG eps c i).im = 0 ∧ m ≤ (yeeAvgG eps c i).re := by
  have avg : ∀ x y : ℂ, x.im = 0 ∧ m ≤ x.re → y.im = 0 ∧ m ≤ y.re → ((x + y) / 2).im = 0 ∧ m ≤ ((x + y) / 2).re := by
    intro x y hx hy
    have h2 : (x + y) / 2 = ((1 / 2 : ℝ) : ℂ) * (x + y) := by push_cast; ring
    rw [h2, re_ofReal_mul, im_ofReal_mul, add_re, add_im]
    constructor
    · rw [hx.1, hy.1]; ring
    · linarith [hx.2, hy.2]
  match c with
  | 0 => exact avg _ _ (heps _) (heps _)
  | 1 => exact avg _ _ (heps _) (heps _)
  | 2 => exact avg _ _ (avg _ _ (heps _) (heps _)) (avg _ _ (heps _) (heps _))

/-- C56, conservation: without sources and PML, for every grid, every cell size, every real nonzero
permittivity, every time step, in both modes, the energy of the state after `n` steps is the energy
of the initial state. -/
theorem C56_energy_conserved (F : Fdtd s) (hF : F.npml = 0) (bloch : Fin 3 → ℂ) (spacing : Fin 3 → ℝ)
    (hg : F.g = uniformOps s bloch spacing) (heps : ∀ c i, (F.epsT c i).im = 0 ∧ F.epsT c i ≠ 0)
    (jax : Bool) (st : FState s F.npml) (n : ℕ) :
    let fin := F.run jax (fun _ => []) st n
    fieldEnergy F.g F.epsT F.dt fin.1 fin.2.1 = fieldEnergy F.g F.epsT F.dt st.1 st.2.1 := by
  induction n with
  | zero => rfl
  | succ n ih =>
    intro fin
    have hfin : fin = F.step jax (F.run jax (fun _ => []) st n) [] := rfl
    obtain ⟨h1, h2⟩ := step_plain F hF jax (F.run jax (fun _ => []) st n)
    rw [hfin, h2, h1, ← ih, hg]
    exact energy_step bloch spacing F.epsT _ _ F.dt heps

/-- C56, the same energy in terms of consecutive magnetic fields: after a step it is
`sum eps |e'|^2 + Re <h', h>` with `h` the field before and `h'` the field after the step. -/
theorem C56_energy_formula (F : Fdtd s) (hF : F.npml = 0) (jax : Bool) (st : FState s F.npml) :
    let st' := F.step jax st []
    fieldEnergy F.g F.epsT F.dt st'.1 st'.2.1
      = (∑ c, ∑ i, (star (st'.1 c i) * (F.epsT c i * st'.1 c i)).re)
        + ∑ c, ∑ i, (star (st'.2.1 c i) * st.2.1 c i).re := by
  intro st'
  obtain ⟨h1, h2⟩ := step_plain F hF jax st
  have hh : (fun c i => st'.2.1 c i + F.dt * F.g.curl false st'.1 c i) = st.2.1 := by
    funext c i
    change (F.step jax st []).2.1 c i + F.dt * F.g.curl false (F.step jax st []).1 c i = _
    rw [h2, h1]
    ring
  unfold fieldEnergy
  rw [hh]
  rfl

theorem energy_lower (bloch : Fin 3 → ℂ) (spacing : Fin 3 → ℝ) (ndim : ℕ)
    (hs : ∀ a : Fin 3, ndim ≤ a → s a = 1) (hpos : ∀ a : Fin 3, 0 < spacing a) (hnd : 0 < ndim)
    (epsT e h : VField s) (m : ℝ) (heps : ∀ c i, (epsT c i).im = 0 ∧ 1 + m ≤ (epsT c i).re) :
    let g := uniformOps s bloch spacing
    let dt := courantDt ndim spacing
    m * vip e e ≤ fieldEnergy g epsT dt e h
      ∧ dt ^ 2 / 4 * vip (g.curl false e) (g.curl false e) ≤ vip e e := by
  intro g dt
  set S : ℝ := ∑ a : Fin 3, if (a : ℕ) < ndim then 1 / spacing a ^ 2 else 0 with hS
  have hSpos : 0 < S := by
    refine Finset.sum_pos' (fun a _ => ?_) ⟨0, Finset.mem_univ _, ?_⟩
    · split_ifs
      · have := hpos a; positivity
      · exact le_refl _
    · have h0 : ((0 : Fin 3) : ℕ) < ndim := hnd
      rw [if_pos h0]
      have := hpos 0
      positivity
  have hdt : dt ^ 2 * S = 1 := by
    change (1 / Real.sqrt S) ^ 2 * S = 1
    rw [div_pow, Real.sq_sqrt hSpos.le]
    field_simp
  have hc := curl_bound (s := s) bloch spacing ndim hs e
  have hb : dt ^ 2 / 4 * vip (g.curl false e) (g.curl false e) ≤ vip e e := by
    have := mul_le_mul_of_nonneg_left hc (show 0 ≤ dt ^ 2 / 4 by positivity)
    calc _ ≤ dt ^ 2 / 4 * (4 * S * vip e e) := this
      _ = dt ^ 2 * S * vip e e := by ring
      _ = vip e e := by rw [hdt, one_mul]
  refine ⟨?_, hb⟩
  have h1 := eps_energy epsT e (1 + m) heps
  have h2 := vip_young (g.curl false e) h dt
  unfold fieldEnergy
  rw [vip_add_mul, vip_comm h (g.curl false e)]
  linarith

/-- C56, stability: with the code's time step and uniform cells, in any number of dimensions, on every
grid whose permittivity is real and at least 1, the conserved energy of every state is nonnegative. -/
theorem C56_energy_nonneg (ndim : ℕ) (hnd : 0 < ndim) (bloch : Fin 3 → ℂ) (spacing : Fin 3 → ℝ)
    (hpos : ∀ a, 0 < spacing a) (hs : ∀ a : Fin 3, ndim ≤ a → s a = 1) (eps : SField s)
    (heps : ∀ i, (eps i).im = 0 ∧ 1 ≤ (eps i).re) (e h : VField s) :
    let F := plainFdtd ndim bloch spacing eps
    0 ≤ fieldEnergy F.g F.epsT F.dt e h := by
  intro F
  have := (energy_lower bloch spacing ndim hs hpos hnd (yeeAvgG eps) e h 0
    (fun c i => by rw [add_zero]; exact yeeAvg_real eps 1 heps c i)).1
  rw [zero_mul] at this
  exact this

/-- C56, bounded fields: if the permittivity exceeds 1 by `m > 0` everywhere, every run without sources
and PML stays bounded for all time: `sum |e|^2 <= U / m` and `sum |h|^2 <= 2 U + 6 U / m` where `U` is the
initial energy. -/
theorem C56_bounded (ndim : ℕ) (hnd : 0 < ndim) (bloch : Fin 3 → ℂ) (spacing : Fin 3 → ℝ)
    (hpos : ∀ a, 0 < spacing a) (hs : ∀ a : Fin 3, ndim ≤ a → s a = 1) (eps : SField s) (m : ℝ) (hm : 0 < m)
    (heps : ∀ i, (eps i).im = 0 ∧ 1 + m ≤ (eps i).re) (jax : Bool) :
    let F := plainFdtd ndim bloch spacing eps
    ∀ (st : FState s F.npml) (n : ℕ),
    let U := fieldEnergy F.g F.epsT F.dt st.1 st.2.1
    let fin := F.run jax (fun _ => []) st n
    (∑ c, ∑ i, ‖fin.1 c i‖ ^ 2) ≤ U / m ∧ (∑ c, ∑ i, ‖fin.2.1 c i‖ ^ 2) ≤ 2 * U + 6 * (U / m) := by
  intro F st n U fin
  have hepsT : ∀ c i, (F.epsT c i).im = 0 ∧ 1 + m ≤ (F.epsT c i).re :=
    fun c i => yeeAvg_real eps (1 + m) heps c i
  have hcons := C56_energy_conserved F rfl bloch spacing rfl
    (fun c i => ⟨(hepsT c i).1, fun h0 => by
      have := (hepsT c i).2
      rw [h0, zero_re] at this
      linarith⟩) jax st n
  obtain ⟨h1, h2⟩ := energy_lower bloch spacing ndim hs hpos hnd F.epsT fin.1 fin.2.1 m hepsT
  have hU : fieldEnergy F.g F.epsT F.dt fin.1 fin.2.1 = U := hcons
  have h1' : m * vip fin.1 fin.1 ≤ U := by rw [← hU]; exact h1
  have he : vip fin.1 fin.1 ≤ U / m := by
    rw [le_div_iff₀ hm]; linarith
  rw [← vip_self, ← vip_self]
  refine ⟨he, ?_⟩
  -- magnetic part
  have h3 := eps_energy F.epsT fin.1 (1 + m) hepsT
  have hEe := vip_self_nonneg fin.1
  have h4 : vip fin.2.1 fin.2.1 + F.dt * vip fin.2.1 (F.g.curl false fin.1) ≤ U := by
    rw [← hU]
    unfold fieldEnergy
    rw [vip_add_mul]
    have : 0 ≤ vip fin.1 (fun c i => F.epsT c i * fin.1 c i) := le_trans (by positivity) h3
    linarith
  have h5 := vip_young (F.g.curl false fin.1) (fun c i => ((1 / 2 : ℝ) : ℂ) * fin.2.1 c i) (2 * F.dt)
  have h6 : vip (F.g.curl false fin.1) (fun c i => ((1 / 2 : ℝ) : ℂ) * fin.2.1 c i)
      = 1 / 2 * vip (F.g.curl false fin.1) fin.2.1 := by
    unfold vip
    rw [Finset.mul_sum]
    exact Finset.sum_congr rfl fun c _ => rip_smul_right _ _ _
  have h7 : vip (fun c i => ((1 / 2 : ℝ) : ℂ) * fin.2.1 c i) (fun c i => ((1 / 2 : ℝ) : ℂ) * fin.2.1 c i)
      = 1 / 4 * vip fin.2.1 fin.2.1 := by
    have : ∀ c, rip ((((1 / 2 : ℝ) : ℂ)) • fin.2.1 c) ((((1 / 2 : ℝ) : ℂ)) • fin.2.1 c) = 1 / 4 * rip (fin.2.1 c) (fin.2.1 c) := by
      intro c; rw [rip_smul_left, rip_smul_right]; ring
    unfold vip
    rw [Finset.mul_sum]
    exact Finset.sum_congr rfl fun c _ => this c
  rw [h6, h7] at h5
  have h8 : F.dt ^ 2 * vip (F.g.curl false fin.1) (F.g.curl false fin.1) ≤ 4 * vip fin.1 fin.1 := by
    have h2' : F.dt ^ 2 / 4 * vip (F.g.curl false fin.1) (F.g.curl false fin.1) ≤ vip fin.1 fin.1 := h2
    linarith
  have h9 := vip_comm fin.2.1 (F.g.curl false fin.1)
  rw [h9] at h4
  have h10 : vip fin.2.1 fin.2.1 - F.dt ^ 2 * vip (F.g.curl false fin.1) (F.g.curl false fin.1) - 1 / 4 * vip fin.2.1 fin.2.1 ≤ U := by
    have : (2 * F.dt) ^ 2 / 4 = F.dt ^ 2 := by ring
    rw [this] at h5
    linarith
  have hU0 : 0 ≤ U := le_trans (by positivity) h1'
  linarith

/-- Nontrivial case: a 2D grid of 3 x 4 cells, unit spacing, permittivity 2.25 (`m = 1.25`). -/
example : (∀ a : Fin 3, 2 ≤ (a : ℕ) → shapeOf 3 4 1 a = 1)
    ∧ (∀ i : GIdx (shapeOf 3 4 1), ((fun _ => ((9 / 4 : ℝ) : ℂ)) i).im = 0
      ∧ 1 + (5 / 4 : ℝ) ≤ ((fun _ : GIdx (shapeOf 3 4 1) => ((9 / 4 : ℝ) : ℂ)) i).re) := by
  constructor
  · intro a ha
    have h : a = 2 := Fin.ext (by omega)
    subst h; rfl
  · intro i
    exact ⟨ofReal_im _, by rw [ofReal_re]; norm_num⟩

/-! ### The bound needs a permittivity above 1: in vacuum the time step sits on the stability limit -/

/-- The alternating `e_z` / `h_y` fields with amplitudes `p`, `q` on two cells. -/
noncomputable def altState (p q : ℝ) : FState (shapeOf 2 1 1) 0 :=
  (fun c i => if c = 2 then (p : ℂ) * altField 2 i else 0, fun c i => if c = 1 then (q : ℂ) * altField 2 i else 0,
    fun k => k.elim0, fun k => k.elim0)

theorem altField_next (i : GIdx (shapeOf 2 1 1)) : rollBack 0 (altField 2) i = -altField 2 i := by
  have hi : ((i 0 : Fin 2) : ℕ) = 0 ∨ ((i 0 : Fin 2) : ℕ) = 1 := by
    have := (i 0).isLt
    simp only [shapeOf, if_true] at this
    omega
  have hup : ((Function.update i 0 (i 0 + 1) 0 : Fin 2) : ℕ) = if ((i 0 : Fin 2) : ℕ) + 1 = 2 then 0 else ((i 0 : Fin 2) : ℕ) + 1 := by
    rw [Function.update_self]
    exact fin_val_add_one (i 0)
  change (if ((Function.update i 0 (i 0 + 1) 0 : Fin 2) : ℕ) = 0 then (1 : ℂ) else -1)
    = -(if ((i 0 : Fin 2) : ℕ) = 0 then 1 else -1)
  rw [hup]
  rcases hi with h | h <;> rw [h] <;> norm_num

theorem altField_prev (i : GIdx (shapeOf 2 1 1)) : rollFwd 0 (altField 2) i = -altField 2 i := by
  have h := congrFun (rollFwd_rollBack 0 (altField 2)) i
  have h2 : rollBack 0 (altField 2) = fun i => -altField 2 i := funext altField_next
  rw [h2] at h
  change -(rollFwd 0 (altField 2) i) = altField 2 i at h
  rw [← h, neg_neg]

theorem roll_one_cell {a : Fin 3} (ha : a ≠ 0) (u : SField (shapeOf 2 1 1)) :
    rollBack a u = u ∧ rollFwd a u = u := by
  have hs : shapeOf 2 1 1 a = 1 := by unfold shapeOf; rw [if_neg ha]; split_ifs <;> rfl
  have hsub : Subsingleton (Fin (shapeOf 2 1 1 a)) := by rw [hs]; infer_instance
  constructor
  · funext i
    unfold rollBack
    rw [Subsingleton.elim (i a + 1) (i a), Function.update_eq_self]
  · funext i
    unfold rollFwd
    rw [Subsingleton.elim (i a - 1) (i a), Function.update_eq_self]

/-- One step on the alternating fields in vacuum with unit cells: `p' = p + 2 q`, `q' = q - 2 p'`. -/
theorem altState_step (jax : Bool) (p q : ℝ) :
    let F := plainFdtd (s := shapeOf 2 1 1) 1 (fun _ => 1) (fun _ => 1) (fun _ => 1)
    F.step jax (altState p q) [] = altState (p + 2 * q) (q - 2 * (p + 2 * q)) := by
  intro F
  have hdt : F.dt = 1 := by
    change courantDt 1 (fun _ => 1) = 1
    unfold courantDt
    rw [Fin.sum_univ_three]
    norm_num
  have heps : ∀ c i, F.epsT c i = 1 := by
    intro c i
    match c with
    | 0 => change ((1 : ℂ) + 1) / 2 = 1; norm_num
    | 1 => change ((1 : ℂ) + 1) / 2 = 1; norm_num
    | 2 => change (((1 : ℂ) + 1) / 2 + (1 + 1) / 2) / 2 = 1; norm_num
  have dB0 : ∀ (r : ℝ) (i : GIdx (shapeOf 2 1 1)), F.g.diffFn true (fun i => (r : ℂ) * altField 2 i) 0 i = 2 * r * altField 2 i := by
    intro r i
    change ((r : ℂ) * altField 2 i - r * rollFwd 0 (altField 2) i) / ((1 : ℝ) : ℂ) = _
    rw [altField_prev]; push_cast; ring
  have dF0 : ∀ (r : ℝ) (i : GIdx (shapeOf 2 1 1)), F.g.diffFn false (fun i => (r : ℂ) * altField 2 i) 0 i = -2 * r * altField 2 i := by
    intro r i
    change ((r : ℂ) * rollBack 0 (altField 2) i - r * altField 2 i) / ((1 : ℝ) : ℂ) = _
    rw [altField_next]; push_cast; ring
  have dBz : ∀ (a : Fin 3), a ≠ 0 → ∀ u i, F.g.diffFn true u a i = 0 := by
    intro a ha u i
    change (u i - rollFwd a u i) / _ = 0
    rw [(roll_one_cell ha u).2, sub_self, zero_div]
  have dFz : ∀ (a : Fin 3), a ≠ 0 → ∀ u i, F.g.diffFn false u a i = 0 := by
    intro a ha u i
    change (rollBack a u i - u i) / _ = 0
    rw [(roll_one_cell ha u).1, sub_self, zero_div]
  have dZ : ∀ ofH (a : Fin 3) i, F.g.diffFn ofH (fun _ => 0) a i = 0 := by
    intro ofH a i
    cases ofH <;> simp [YeeOps.diffFn, rollFwd, rollBack]
  have curlB : ∀ (q : ℝ) c i, F.g.curl true (altState p q).2.1 c i = if c = 2 then 2 * q * altField 2 i else 0 := by
    intro q c i
    match c with
    | 0 =>
      change F.g.diffFn true _ 1 i - F.g.diffFn true _ 2 i = 0
      rw [dBz 1 (by decide), dBz 2 (by decide), sub_self]
    | 1 =>
      change F.g.diffFn true _ 2 i - F.g.diffFn true (fun _ => 0) 0 i = 0
      rw [dBz 2 (by decide), dZ, sub_self]
    | 2 =>
      change F.g.diffFn true (fun i => (q : ℂ) * altField 2 i) 0 i - F.g.diffFn true _ 1 i = 2 * q * altField 2 i
      rw [dB0, dBz 1 (by decide), sub_zero]
  have curlF : ∀ (p : ℝ) c i, F.g.curl false (altState p q).1 c i = if c = 1 then 2 * p * altField 2 i else 0 := by
    intro p c i
    match c with
    | 0 =>
      change F.g.diffFn false _ 1 i - F.g.diffFn false _ 2 i = 0
      rw [dFz 1 (by decide), dFz 2 (by decide), sub_self]
    | 1 =>
      change F.g.diffFn false _ 2 i - F.g.diffFn false (fun i => (p : ℂ) * altField 2 i) 0 i = 2 * p * altField 2 i
      rw [dFz 2 (by decide), dF0]; ring
    | 2 =>
      change F.g.diffFn false (fun _ => 0) 0 i - F.g.diffFn false _ 1 i = 0
      rw [dZ, dFz 1 (by decide), sub_self]
  obtain ⟨h1, h2⟩ := step_plain F rfl jax (altState p q)
  have he : (F.step jax (altState p q) []).1 = (altState (p + 2 * q) (q - 2 * (p + 2 * q))).1 := by
    rw [h1]
    funext c i
    change (altState p q).1 c i + F.g.curl true (altState p q).2.1 c i / F.epsT c i * F.dt = _
    rw [curlB, heps, hdt]
    change (if c = 2 then (p : ℂ) * altField 2 i else 0) + _ = if c = 2 then ((p + 2 * q : ℝ) : ℂ) * altField 2 i else 0
    split_ifs
    · push_cast; ring
    · simp
  refine Prod.ext he (Prod.ext ?_ (Prod.ext (funext fun k => k.elim0) (funext fun k => k.elim0)))
  rw [h2]
  funext c i
  have h3 : (fun c i => (altState p q).1 c i + F.g.curl true (altState p q).2.1 c i / F.epsT c i * F.dt)
      = (altState (p + 2 * q) q).1 := by rw [← h1, he]; rfl
  change (altState p q).2.1 c i - F.g.curl false (fun c i => (altState p q).1 c i + F.g.curl true (altState p q).2.1 c i / F.epsT c i * F.dt) c i * F.dt = _
  rw [h3, curlF, hdt]
  change (if c = 1 then (q : ℂ) * altField 2 i else 0) - _ = if c = 1 then ((q - 2 * (p + 2 * q) : ℝ) : ℂ) * altField 2 i else 0
  split_ifs
  · push_cast; ring
  · simp

/-- C56, sharpness: in vacuum (`eps = 1`) the bound of `C56_bounded` cannot hold. On two cells with unit
spacing the code's own time step makes the alternating field grow linearly, without sources: after `n`
steps `e_z = (-1)^n (1 - 2 n)` times the initial field, although the conserved energy is that of the start. -/
theorem C56_vacuum_growth (jax : Bool) (n : ℕ) :
    let F := plainFdtd (s := shapeOf 2 1 1) 1 (fun _ => 1) (fun _ => 1) (fun _ => 1)
    F.run jax (fun _ => []) (altState 1 0) n = altState ((-1) ^ n * (1 - 2 * n)) ((-1) ^ n * (2 * n)) := by
  intro F
  induction n with
  | zero =>
    change altState 1 0 = _
    norm_num
  | succ n ih =>
    change F.step jax (F.run jax (fun _ => []) (altState 1 0) n) [] = _
    rw [ih, altState_step]
    congr 1
    · push_cast; ring
    · push_cast; ring

end Simphox
