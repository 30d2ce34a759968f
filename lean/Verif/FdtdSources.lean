import Mathlib.Algebra.BigOperators.Intervals
import Verif.FdtdEnergy
import Verif.FdtdCausal

/-!
# Driven FDTD runs: energy balance (C159) and reciprocity (C160)
-/

namespace Simphox

open Complex

variable {s : Fin 3 → ℕ} [∀ a, NeZero (s a)]

/-! ### Specification -/

/-- The total current density of one kind the sources of one step put at component `c` of cell `i`:
the sum of the values of the sources whose region contains it. -/
def totalSource (sel : Source s → Option (VField s)) (sources : List (Source s)) : VField s :=
  fun c i => (sources.map fun src => if src.region c i then (sel src).elim 0 (fun v => v c i) else 0).sum

/-- The work the fields do on the sources during one step, per unit of time: (field before + field after) times
current density, electric and magnetic, summed over the grid. -/
noncomputable def sourceWork {np : ℕ} (before after : FState s np) (sources : List (Source s)) : ℝ :=
  (∑ c, ∑ i, (star (before.1 c i + after.1 c i) * totalSource (·.e) sources c i).re)
    + ∑ c, ∑ i, (star (before.2.1 c i + after.2.1 c i) * totalSource (·.h) sources c i).re

/-! ### Lemmas -/

omit [∀ a, NeZero (s a)] in
theorem foldl_addSource_np (sel : Source s → Option (VField s)) (w : VField s) (sources : List (Source s)) (f : VField s) :
    sources.foldl (fun f src => addSource false src.region w (sel src) f) f
      = fun c i => f c i - totalSource sel sources c i * w c i := by
  induction sources generalizing f with
  | nil => funext c i; simp [totalSource]
  | cons src l ih =>
    rw [List.foldl_cons, ih]
    funext c i
    have h : totalSource sel (src :: l) c i
        = (if src.region c i then (sel src).elim 0 (fun v => v c i) else 0) + totalSource sel l c i := rfl
    rw [h]
    unfold addSource
    cases sel src with
    | none => simp
    | some v =>
      by_cases hr : src.region c i = true
      · simp only [hr, if_true, Bool.false_eq_true, if_false, Option.elim]; ring
      · simp only [hr, if_false, Bool.false_eq_true]; ring

/-- One step without PML in NumPy mode. -/
theorem step_sources (F : Fdtd s) (hF : F.npml = 0) (st : FState s F.npml) (l : List (Source s)) :
    let e' : VField s := fun c i => st.1 c i + F.g.curl true st.2.1 c i / F.epsT c i * F.dt
      - totalSource (·.e) l c i * (F.dt / F.epsT c i)
    (F.step false st l).1 = e' ∧
      (F.step false st l).2.1 = fun c i => st.2.1 c i - F.g.curl false e' c i * F.dt - totalSource (·.h) l c i * F.dt := by
  obtain ⟨g, epsT, dt, np, pml⟩ := F
  simp only at hF
  subst hF
  obtain ⟨e, h, pe, ph⟩ := st
  have h1 : (Fdtd.stepE ⟨g, epsT, dt, 0, pml⟩ false (e, h, pe, ph) l).1
      = fun c i => e c i + g.curl true h c i / epsT c i * dt - totalSource (·.e) l c i * (dt / epsT c i) :=
    foldl_addSource_np (·.e) _ l _
  refine ⟨h1, ?_⟩
  have h2 : (Fdtd.stepH ⟨g, epsT, dt, 0, pml⟩ false (Fdtd.stepE ⟨g, epsT, dt, 0, pml⟩ false (e, h, pe, ph) l) l).2.1
      = fun c i => (h c i - g.curl false (Fdtd.stepE ⟨g, epsT, dt, 0, pml⟩ false (e, h, pe, ph) l).1 c i * dt)
        - totalSource (·.h) l c i * dt := foldl_addSource_np (·.h) _ l _
  rw [h1] at h2
  exact h2

omit [∀ a, NeZero (s a)] in
theorem vip_apply (x y : VField s) : vip x y = ∑ c, ∑ i, (star (x c i) * y c i).re := rfl

/-- The discrete Poynting theorem for one leapfrog step with currents `J`, `M`. -/
theorem poynting_step (bloch : Fin 3 → ℂ) (spacing : Fin 3 → ℝ) (epsT e h J M : VField s) (dt : ℝ)
    (heps : ∀ c i, (epsT c i).im = 0 ∧ epsT c i ≠ 0) :
    let g := uniformOps s bloch spacing
    let e' : VField s := fun c i => e c i + g.curl true h c i / epsT c i * dt - J c i * (dt / epsT c i)
    let h' : VField s := fun c i => h c i - g.curl false e' c i * dt - M c i * dt
    fieldEnergy g epsT dt e' h' = fieldEnergy g epsT dt e h
      - dt * (vip (fun c i => e c i + e' c i) J + vip (fun c i => h c i + h' c i) M) := by
  intro g e' h'
  have hsym : vip e (fun c i => epsT c i * e' c i) = vip e' (fun c i => epsT c i * e c i) := by
    unfold vip rip
    refine Finset.sum_congr rfl fun c _ => Finset.sum_congr rfl fun i _ => ?_
    have him := (heps c i).1
    simp only [star_def, mul_re, mul_im, conj_re, conj_im, him]
    ring
  set R : VField s := fun c i => g.curl true h c i - J c i with hR
  have hee' : (fun c i => epsT c i * e' c i) = fun c i => epsT c i * e c i + (dt : ℝ) * R c i := by
    funext c i
    have := (heps c i).2
    change epsT c i * (e c i + g.curl true h c i / epsT c i * dt - J c i * (dt / epsT c i)) = _
    rw [hR]
    field_simp
    ring
  have hee : (fun c i => epsT c i * e c i) = fun c i => epsT c i * e' c i + ((-dt : ℝ) : ℂ) * R c i := by
    funext c i
    rw [congrFun (congrFun hee' c) i]
    push_cast; ring
  have hVR : ∀ x : VField s, vip x R = vip x (g.curl true h) - vip x J := by
    intro x
    have : R = fun c i => g.curl true h c i + ((-1 : ℝ) : ℂ) * J c i := by
      funext c i; rw [hR]; push_cast; ring
    rw [this, vip_add_mul]; ring
  have hadd : ∀ x y z : VField s, vip (fun c i => x c i + y c i) z = vip x z + vip y z := by
    intro x y z
    have : (fun c i => x c i + y c i) = fun c i => x c i + ((1 : ℝ) : ℂ) * y c i := by
      funext c i; push_cast; ring
    rw [this, vip_add_mul_left]; ring
  have hh' : (fun c i => h' c i + dt * g.curl false e' c i) = fun c i => h c i + ((-dt : ℝ) : ℂ) * M c i := by
    funext c i
    change h c i - g.curl false e' c i * dt - M c i * dt + dt * g.curl false e' c i = _
    push_cast; ring
  have hh'2 : h' = fun c i => (h c i + ((-dt : ℝ) : ℂ) * M c i) + ((-dt : ℝ) : ℂ) * g.curl false e' c i := by
    funext c i
    change h c i - g.curl false e' c i * dt - M c i * dt = _
    push_cast; ring
  have hadj := vip_curl_adj (s := s) bloch spacing
  have a1 := hadj h e
  have a2 := hadj h e'
  change vip (g.curl true h) e = vip h (g.curl false e) at a1
  change vip (g.curl true h) e' = vip h (g.curl false e') at a2
  have E1 : vip e' (fun c i => epsT c i * e' c i) = vip e' (fun c i => epsT c i * e c i) + dt * (vip e' (g.curl true h) - vip e' J) := by
    rw [hee', vip_add_mul, hVR]
  have E2 : vip e (fun c i => epsT c i * e c i) = vip e (fun c i => epsT c i * e' c i) - dt * (vip e (g.curl true h) - vip e J) := by
    rw [hee, vip_add_mul, hVR]; ring
  have H1 : vip h' (fun c i => h c i + ((-dt : ℝ) : ℂ) * M c i) = vip h' h - dt * vip h' M := by
    rw [vip_add_mul]; ring
  have H2 : vip h' h = vip h h - dt * vip M h - dt * vip (g.curl false e') h := by
    conv_lhs => rw [hh'2]
    rw [vip_add_mul_left, vip_add_mul_left]; ring
  unfold fieldEnergy
  rw [hh', H1, H2, E1, hadd, hadd, vip_add_mul h h, E2, hsym, vip_comm e (g.curl true h), vip_comm e' (g.curl true h),
    vip_comm M h, vip_comm (g.curl false e') h, a1, a2]
  ring

/-! ### C159 -/

/-- C159: driven runs without PML (uniform cells, real permittivity without zeros, NumPy mode, any number
of electric and magnetic sources that may change from step to step, any initial state): the discrete
energy after `n` steps is the initial energy minus the work done on the sources. -/
theorem C159_power_balance (F : Fdtd s) (hF : F.npml = 0) (bloch : Fin 3 → ℂ) (spacing : Fin 3 → ℝ)
    (hg : F.g = uniformOps s bloch spacing) (heps : ∀ c i, (F.epsT c i).im = 0 ∧ F.epsT c i ≠ 0)
    (srcs : ℕ → List (Source s)) (st : FState s F.npml) (n : ℕ) :
    let X := F.run false srcs st
    fieldEnergy F.g F.epsT F.dt (X n).1 (X n).2.1 = fieldEnergy F.g F.epsT F.dt st.1 st.2.1
      - F.dt * ∑ k ∈ Finset.range n, sourceWork (X k) (X (k + 1)) (srcs k) := by
  intro X
  induction n with
  | zero => simp [X, Fdtd.run]
  | succ n ih =>
    rw [Finset.sum_range_succ, mul_add, ← sub_sub, ← ih]
    obtain ⟨h1, h2⟩ := step_sources F hF (X n) (srcs n)
    have hX : X (n + 1) = F.step false (X n) (srcs n) := rfl
    have key := poynting_step bloch spacing F.epsT (X n).1 (X n).2.1 (totalSource (·.e) (srcs n))
      (totalSource (·.h) (srcs n)) F.dt heps
    unfold sourceWork
    rw [hX, h2, h1]
    rw [← hg] at key
    exact key

/-- C159, consequence: from the moment the sources are silent (no value inside their regions) the energy stays what it is. -/
theorem C159_silent (F : Fdtd s) (hF : F.npml = 0) (bloch : Fin 3 → ℂ) (spacing : Fin 3 → ℝ)
    (hg : F.g = uniformOps s bloch spacing) (heps : ∀ c i, (F.epsT c i).im = 0 ∧ F.epsT c i ≠ 0)
    (srcs : ℕ → List (Source s)) (st : FState s F.npml) (N : ℕ)
    (hoff : ∀ k, N ≤ k → ∀ src ∈ srcs k, ∀ v, src.e = some v ∨ src.h = some v → ∀ c i, src.region c i = true → v c i = 0)
    (n : ℕ) (hn : N ≤ n) :
    fieldEnergy F.g F.epsT F.dt (F.run false srcs st n).1 (F.run false srcs st n).2.1
      = fieldEnergy F.g F.epsT F.dt (F.run false srcs st N).1 (F.run false srcs st N).2.1 := by
  have hzero : ∀ k, N ≤ k → totalSource (·.e) (srcs k) = (fun _ _ => 0) ∧ totalSource (·.h) (srcs k) = fun _ _ => 0 := by
    intro k hk
    have : ∀ sel : Source s → Option (VField s), (∀ src ∈ srcs k, ∀ v, sel src = some v → src.e = some v ∨ src.h = some v) →
        totalSource sel (srcs k) = fun _ _ => 0 := by
      intro sel hsel
      funext c i
      refine List.sum_eq_zero fun x hx => ?_
      obtain ⟨src, hsrc, rfl⟩ := List.mem_map.1 hx
      split_ifs with hr
      · cases hv : sel src with
        | none => rfl
        | some v => exact hoff k hk src hsrc v (hsel src hsrc v hv) c i hr
      · rfl
    exact ⟨this _ fun src _ v h => Or.inl h, this _ fun src _ v h => Or.inr h⟩
  have e1 := C159_power_balance F hF bloch spacing hg heps srcs st n
  have e2 := C159_power_balance F hF bloch spacing hg heps srcs st N
  dsimp only at e1 e2
  rw [e1, e2]
  congr 2
  rw [← Finset.sum_range_add_sum_Ico _ hn]
  rw [Finset.sum_eq_zero (s := Finset.Ico N n), add_zero]
  intro k hk
  unfold sourceWork
  rw [(hzero k (Finset.mem_Ico.1 hk).1).1, (hzero k (Finset.mem_Ico.1 hk).1).2]
  simp

/-! ### C160: reciprocity -/

/-- The signal a detector with profile `d` reads from a field: `sum d * f`, without conjugation. -/
noncomputable def antennaReading (d f : VField s) : ℂ := ∑ c, ∑ i, d c i * f c i

/-- An electric source with spatial profile `j` inside `region` and time signal `w`. -/
noncomputable def antenna (region : Fin 3 → GIdx s → Bool) (j : VField s) (w : ℕ → ℂ) (step : ℕ) : List (Source s) :=
  [{ e := some fun c i => w step * j c i, h := none, region := region }]

/-- The profile `j` cut to `region`. -/
def cut (region : Fin 3 → GIdx s → Bool) (j : VField s) : VField s := fun c i => if region c i then j c i else 0

omit [∀ a, NeZero (s a)] in
theorem reading_comm (x y : VField s) : antennaReading x y = antennaReading y x := by
  unfold antennaReading
  exact Finset.sum_congr rfl fun c _ => Finset.sum_congr rfl fun i _ => mul_comm _ _

omit [∀ a, NeZero (s a)] in
theorem reading_lin (x y z : VField s) (r : ℂ) :
    antennaReading x (fun c i => y c i + r * z c i) = antennaReading x y + r * antennaReading x z := by
  unfold antennaReading
  simp only [Finset.mul_sum, ← Finset.sum_add_distrib]
  exact Finset.sum_congr rfl fun c _ => Finset.sum_congr rfl fun i _ => by ring

theorem sum_rollFwd (a : Fin 3) (u v : SField s) : ∑ i, u i * rollFwd a v i = ∑ i, rollBack a u i * v i := by
  rw [← Equiv.sum_comp (shiftEquiv a) fun i => u i * rollFwd a v i]
  refine Finset.sum_congr rfl fun i _ => ?_
  simp only [shiftEquiv, Equiv.coe_fn_mk, rollFwd, rollBack, Function.update_self, add_sub_cancel_right,
    Function.update_idem, Function.update_eq_self]

theorem antennaReading_curl (bloch : Fin 3 → ℂ) (spacing : Fin 3 → ℝ) (x y : VField s) :
    antennaReading ((uniformOps s bloch spacing).curl true x) y = antennaReading x ((uniformOps s bloch spacing).curl false y) := by
  have h : ∀ (a : Fin 3) (u v : SField s), ∑ i, (uniformOps s bloch spacing).diffFn true u a i * v i
      = -∑ i, u i * (uniformOps s bloch spacing).diffFn false v a i := by
    intro a u v
    rw [uniform_dF, uniform_dB]
    simp only [Pi.smul_apply, Pi.sub_apply, smul_eq_mul]
    have hs := sum_rollFwd a v u
    have h1 : ∑ i, ((1 / spacing a : ℝ) : ℂ) * (u i - rollFwd a u i) * v i
        = ((1 / spacing a : ℝ) : ℂ) * (∑ i, u i * v i - ∑ i, v i * rollFwd a u i) := by
      rw [← Finset.sum_sub_distrib, Finset.mul_sum]
      exact Finset.sum_congr rfl fun i _ => by ring
    have h2 : ∑ i, u i * (((1 / spacing a : ℝ) : ℂ) * (rollBack a v i - v i))
        = ((1 / spacing a : ℝ) : ℂ) * (∑ i, rollBack a v i * u i - ∑ i, u i * v i) := by
      rw [← Finset.sum_sub_distrib, Finset.mul_sum]
      exact Finset.sum_congr rfl fun i _ => by ring
    rw [h1, h2, hs]
    ring
  unfold antennaReading
  rw [Fin.sum_univ_three, Fin.sum_univ_three]
  set g := uniformOps s bloch spacing with hgdef
  have e0 : ∀ (p q r : SField s), ∑ i, (p i - q i) * r i = ∑ i, p i * r i - ∑ i, q i * r i := by
    intro p q r
    rw [← Finset.sum_sub_distrib]
    exact Finset.sum_congr rfl fun i _ => by ring
  have e1 : ∀ (p q r : SField s), ∑ i, r i * (p i - q i) = ∑ i, r i * p i - ∑ i, r i * q i := by
    intro p q r
    rw [← Finset.sum_sub_distrib]
    exact Finset.sum_congr rfl fun i _ => by ring
  change ∑ i, (g.diffFn true (x 2) 1 i - g.diffFn true (x 1) 2 i) * y 0 i
      + ∑ i, (g.diffFn true (x 0) 2 i - g.diffFn true (x 2) 0 i) * y 1 i
      + ∑ i, (g.diffFn true (x 1) 0 i - g.diffFn true (x 0) 1 i) * y 2 i
    = ∑ i, x 0 i * (g.diffFn false (y 2) 1 i - g.diffFn false (y 1) 2 i)
      + ∑ i, x 1 i * (g.diffFn false (y 0) 2 i - g.diffFn false (y 2) 0 i)
      + ∑ i, x 2 i * (g.diffFn false (y 1) 0 i - g.diffFn false (y 0) 1 i)
  rw [e0, e0, e0, e1, e1, e1]
  simp only [h]
  ring

/-- The state between the two half steps, pairs `(e, h)`: one round is a magnetic half step followed by an electric one. -/
noncomputable def halfRound (F : Fdtd s) (y : VField s × VField s) : VField s × VField s :=
  let h' : VField s := fun c i => y.2 c i - F.g.curl false y.1 c i * F.dt
  (fun c i => y.1 c i + F.g.curl true h' c i / F.epsT c i * F.dt, h')

/-- The indefinite form in which one round is symmetric. -/
noncomputable def waveForm (F : Fdtd s) (x y : VField s × VField s) : ℂ :=
  antennaReading x.1 (fun c i => F.epsT c i * y.1 c i) - antennaReading x.2 y.2

omit [∀ a, NeZero (s a)] in
theorem waveForm_comm (F : Fdtd s) (x y : VField s × VField s) : waveForm F x y = waveForm F y x := by
  unfold waveForm antennaReading
  congr 1
  · exact Finset.sum_congr rfl fun c _ => Finset.sum_congr rfl fun i _ => by ring
  · exact Finset.sum_congr rfl fun c _ => Finset.sum_congr rfl fun i _ => by ring

theorem halfRound_form (F : Fdtd s) (bloch : Fin 3 → ℂ) (spacing : Fin 3 → ℝ) (hg : F.g = uniformOps s bloch spacing)
    (heps : ∀ c i, F.epsT c i ≠ 0) (x y : VField s × VField s) :
    waveForm F x (halfRound F y) = antennaReading x.1 (fun c i => F.epsT c i * y.1 c i)
      + F.dt * antennaReading (fun c i => y.2 c i - F.g.curl false y.1 c i * F.dt) (F.g.curl false x.1)
      - antennaReading x.2 (fun c i => y.2 c i - F.g.curl false y.1 c i * F.dt) := by
  set h' : VField s := fun c i => y.2 c i - F.g.curl false y.1 c i * F.dt with hh
  have h1 : (fun c i => F.epsT c i * (halfRound F y).1 c i)
      = fun c i => F.epsT c i * y.1 c i + (F.dt : ℂ) * F.g.curl true h' c i := by
    funext c i
    have := heps c i
    change F.epsT c i * (y.1 c i + F.g.curl true h' c i / F.epsT c i * F.dt) = _
    field_simp
  unfold waveForm
  rw [h1, reading_lin, reading_comm x.1 (F.g.curl true h'), hg, antennaReading_curl]
  rfl

/-- One round is symmetric in the wave form. -/
theorem halfRound_symm (F : Fdtd s) (bloch : Fin 3 → ℂ) (spacing : Fin 3 → ℝ) (hg : F.g = uniformOps s bloch spacing)
    (heps : ∀ c i, F.epsT c i ≠ 0) (x y : VField s × VField s) :
    waveForm F x (halfRound F y) = waveForm F (halfRound F x) y := by
  rw [waveForm_comm F (halfRound F x) y, halfRound_form F bloch spacing hg heps,
    halfRound_form F bloch spacing hg heps]
  have hl : ∀ (u v w : VField s), antennaReading (fun c i => u c i - v c i * F.dt) w = antennaReading u w - F.dt * antennaReading v w := by
    intro u v w
    have : (fun c i => u c i - v c i * F.dt) = fun c i => u c i + (-F.dt : ℂ) * v c i := by funext c i; ring
    rw [this, reading_comm, reading_lin, reading_comm w, reading_comm w]; ring
  rw [reading_comm x.2 (fun c i => y.2 c i - F.g.curl false y.1 c i * F.dt),
    reading_comm y.2 (fun c i => x.2 c i - F.g.curl false x.1 c i * F.dt), hl, hl, hl, hl,
    reading_comm (F.g.curl false x.1) (F.g.curl false y.1), reading_comm x.2 y.2,
    reading_comm (F.g.curl false x.1) y.2, reading_comm (F.g.curl false y.1) x.2]
  have h0 : antennaReading x.1 (fun c i => F.epsT c i * y.1 c i) = antennaReading y.1 (fun c i => F.epsT c i * x.1 c i) := by
    unfold antennaReading
    exact Finset.sum_congr rfl fun c _ => Finset.sum_congr rfl fun i _ => by ring
  rw [h0]
  ring

theorem halfRound_lin (F : Fdtd s) (a : ℂ) (x y : VField s × VField s) :
    halfRound F ((fun c i => x.1 c i + a * y.1 c i), (fun c i => x.2 c i + a * y.2 c i))
      = ((fun c i => (halfRound F x).1 c i + a * (halfRound F y).1 c i),
         (fun c i => (halfRound F x).2 c i + a * (halfRound F y).2 c i)) := by
  have hc : ∀ (ofH : Bool) (u v : VField s) c i, F.g.curl ofH (fun c i => u c i + a * v c i) c i
      = F.g.curl ofH u c i + a * F.g.curl ofH v c i := by
    intro ofH u v c i
    have h := curl_lin F.g ofH 1 a u v c i
    have e : (1 : ℂ) • u + a • v = fun c i => u c i + a * v c i := by funext c i; simp
    rw [e] at h
    rw [h]; simp
  have h2 : (halfRound F ((fun c i => x.1 c i + a * y.1 c i), (fun c i => x.2 c i + a * y.2 c i))).2
      = fun c i => (halfRound F x).2 c i + a * (halfRound F y).2 c i := by
    funext c i
    change (x.2 c i + a * y.2 c i) - F.g.curl false (fun c i => x.1 c i + a * y.1 c i) c i * F.dt
      = (x.2 c i - F.g.curl false x.1 c i * F.dt) + a * (y.2 c i - F.g.curl false y.1 c i * F.dt)
    rw [hc]; ring
  refine Prod.ext ?_ h2
  funext c i
  change (x.1 c i + a * y.1 c i) + F.g.curl true (halfRound F ((fun c i => x.1 c i + a * y.1 c i), (fun c i => x.2 c i + a * y.2 c i))).2 c i
      / F.epsT c i * F.dt = (x.1 c i + F.g.curl true (halfRound F x).2 c i / F.epsT c i * F.dt)
      + a * (y.1 c i + F.g.curl true (halfRound F y).2 c i / F.epsT c i * F.dt)
  rw [h2, hc]
  ring

omit [∀ a, NeZero (s a)] in
theorem waveForm_lin (F : Fdtd s) (a : ℂ) (z x y : VField s × VField s) :
    waveForm F z ((fun c i => x.1 c i + a * y.1 c i), (fun c i => x.2 c i + a * y.2 c i))
      = waveForm F z x + a * waveForm F z y := by
  unfold waveForm
  have : (fun c i => F.epsT c i * (x.1 c i + a * y.1 c i)) = fun c i => F.epsT c i * x.1 c i + a * (F.epsT c i * y.1 c i) := by
    funext c i; ring
  dsimp only
  rw [this, reading_lin, reading_lin]
  ring

/-- The mid-step state of a run from rest, after `n` steps. -/
noncomputable def midState (F : Fdtd s) (b : VField s) (w : ℕ → ℂ) : ℕ → VField s × VField s
  | 0 => (fun _ _ => 0, fun _ _ => 0)
  | n + 1 => ((fun c i => (halfRound F (midState F b w n)).1 c i + w n * b c i),
      fun c i => (halfRound F (midState F b w n)).2 c i + w n * 0)

theorem curl_zero' (g : YeeOps s) (ofH : Bool) (c : Fin 3) (i : GIdx s) : g.curl ofH (fun _ _ => 0) c i = 0 := by
  have h := curl_lin g ofH 0 0 (fun _ _ => 0) (fun _ _ => 0) c i
  have e : (0 : ℂ) • (fun _ _ => 0 : VField s) + (0 : ℂ) • (fun _ _ => 0) = fun _ _ => 0 := by funext c i; simp
  rw [e] at h
  rw [h]; simp

/-- A run from rest driven by an antenna is the mid-step recursion. -/
theorem run_midState (F : Fdtd s) (hF : F.npml = 0) (region : Fin 3 → GIdx s → Bool) (j : VField s) (w : ℕ → ℂ)
    (st : FState s F.npml) (hst : fieldsOf st = (fun _ _ => 0, fun _ _ => 0)) (n : ℕ) :
    (F.run false (antenna region j w) st n).1 = (midState F (fun c i => -(cut region j c i * (F.dt / F.epsT c i))) w n).1 ∧
    (F.run false (antenna region j w) st n).2.1
      = fun c i => (midState F (fun c i => -(cut region j c i * (F.dt / F.epsT c i))) w n).2 c i
        - F.g.curl false (midState F (fun c i => -(cut region j c i * (F.dt / F.epsT c i))) w n).1 c i * F.dt := by
  set b : VField s := fun c i => -(cut region j c i * (F.dt / F.epsT c i)) with hb
  induction n with
  | zero =>
    have h1 : st.1 = fun _ _ => 0 := congrArg Prod.fst hst
    have h2 : st.2.1 = fun _ _ => 0 := congrArg Prod.snd hst
    refine ⟨h1, ?_⟩
    change st.2.1 = _
    rw [h2]
    funext c i
    change (0 : ℂ) = 0 - F.g.curl false (fun _ _ => 0) c i * F.dt
    rw [curl_zero']; ring
  | succ n ih =>
    obtain ⟨s1, s2⟩ := step_sources F hF (F.run false (antenna region j w) st n) (antenna region j w n)
    have tE : totalSource (·.e) (antenna region j w n) = fun c i => w n * cut region j c i := by
      funext c i
      simp only [totalSource, antenna, cut, List.map_cons, List.map_nil, List.sum_cons, List.sum_nil, add_zero, Option.elim]
      split_ifs <;> simp
    have tH : totalSource (·.h) (antenna region j w n) = fun _ _ => 0 := by
      funext c i
      simp only [totalSource, antenna, List.map_cons, List.map_nil, List.sum_cons, List.sum_nil, add_zero, Option.elim]
      split_ifs <;> rfl
    have hX : F.run false (antenna region j w) st (n + 1) = F.step false (F.run false (antenna region j w) st n) (antenna region j w n) := rfl
    have hh : (F.run false (antenna region j w) st n).2.1 = (halfRound F (midState F b w n)).2 := ih.2
    rw [← s1] at s2
    rw [tE, ih.1, hh] at s1
    have e1 : (F.run false (antenna region j w) st (n + 1)).1 = (midState F b w (n + 1)).1 := by
      rw [hX, s1]
      funext c i
      change _ = (midState F b w n).1 c i + F.g.curl true (halfRound F (midState F b w n)).2 c i / F.epsT c i * F.dt + w n * b c i
      rw [hb]; ring
    refine ⟨e1, ?_⟩
    rw [hX, s2, ← hX, e1, tH, hh]
    funext c i
    change _ = ((halfRound F (midState F b w n)).2 c i + w n * 0) - _
    ring

/-- The impulse response: `n` undriven rounds after a unit kick `b`. -/
noncomputable def kicked (F : Fdtd s) (b : VField s) (n : ℕ) : VField s × VField s :=
  (halfRound F)^[n] (b, fun _ _ => 0)

omit [∀ a, NeZero (s a)] in
theorem waveForm_zero (F : Fdtd s) (z : VField s × VField s) : waveForm F z (fun _ _ => 0, fun _ _ => 0) = 0 := by
  simp [waveForm, antennaReading]

theorem waveForm_iterate (F : Fdtd s) (bloch : Fin 3 → ℂ) (spacing : Fin 3 → ℝ) (hg : F.g = uniformOps s bloch spacing)
    (heps : ∀ c i, F.epsT c i ≠ 0) (m : ℕ) (x y : VField s × VField s) :
    waveForm F ((halfRound F)^[m] x) y = waveForm F x ((halfRound F)^[m] y) := by
  induction m generalizing x y with
  | zero => rfl
  | succ m ih =>
    rw [Function.iterate_succ_apply, ih, ← halfRound_symm F bloch spacing hg heps,
      ← Function.iterate_succ_apply' (halfRound F) m y]

theorem midState_form (F : Fdtd s) (bloch : Fin 3 → ℂ) (spacing : Fin 3 → ℝ) (hg : F.g = uniformOps s bloch spacing)
    (heps : ∀ c i, F.epsT c i ≠ 0) (b : VField s) (w : ℕ → ℂ) (n : ℕ) (z : VField s × VField s) :
    waveForm F z (midState F b w n) = ∑ k ∈ Finset.range n, w k * waveForm F z (kicked F b (n - 1 - k)) := by
  induction n generalizing z with
  | zero => rw [Finset.sum_range_zero]; exact waveForm_zero F z
  | succ n ih =>
    have h1 : waveForm F z (midState F b w (n + 1)) = waveForm F z (halfRound F (midState F b w n)) + w n * waveForm F z (b, fun _ _ => 0) :=
      waveForm_lin F (w n) z (halfRound F (midState F b w n)) (b, fun _ _ => 0)
    rw [h1, halfRound_symm F bloch spacing hg heps, ih, Finset.sum_range_succ]
    congr 1
    · refine Finset.sum_congr rfl fun k hk => ?_
      have hk' := Finset.mem_range.1 hk
      rw [← halfRound_symm F bloch spacing hg heps]
      unfold kicked
      rw [← Function.iterate_succ_apply' (halfRound F)]
      congr 4
      omega
    · have : n + 1 - 1 - n = 0 := by omega
      rw [this]; rfl

theorem midState_symm (F : Fdtd s) (bloch : Fin 3 → ℂ) (spacing : Fin 3 → ℝ) (hg : F.g = uniformOps s bloch spacing)
    (heps : ∀ c i, F.epsT c i ≠ 0) (b b' : VField s) (w : ℕ → ℂ) (n : ℕ) :
    waveForm F (b', fun _ _ => 0) (midState F b w n) = waveForm F (b, fun _ _ => 0) (midState F b' w n) := by
  rw [midState_form F bloch spacing hg heps, midState_form F bloch spacing hg heps]
  refine Finset.sum_congr rfl fun k _ => ?_
  unfold kicked
  rw [← waveForm_iterate F bloch spacing hg heps, waveForm_comm]

/-- C160, reciprocity in time (no PML, uniform cells, any complex permittivity without zeros, NumPy mode):
starting from rest, drive antenna A (any region, any profile) with any time signal and read the electric
field with the profile of antenna B; driving B with the same signal and antennaReading with the profile of A gives
the same record at every time step. -/
theorem C160_reciprocity (F : Fdtd s) (hF : F.npml = 0) (bloch : Fin 3 → ℂ) (spacing : Fin 3 → ℝ)
    (hg : F.g = uniformOps s bloch spacing) (heps : ∀ c i, F.epsT c i ≠ 0) (hdt : F.dt ≠ 0)
    (regA regB : Fin 3 → GIdx s → Bool) (jA jB : VField s) (w : ℕ → ℂ) (n : ℕ) :
    antennaReading (cut regB jB) (F.run false (antenna regA jA w) (zeroState s F.npml) n).1
      = antennaReading (cut regA jA) (F.run false (antenna regB jB w) (zeroState s F.npml) n).1 := by
  rw [(run_midState F hF regA jA w _ rfl n).1, (run_midState F hF regB jB w _ rfl n).1]
  have hd : (F.dt : ℂ) ≠ 0 := by exact_mod_cast hdt
  have key : ∀ (j : VField s) (x : VField s × VField s),
      waveForm F ((fun c i => -(j c i * (F.dt / F.epsT c i))), fun _ _ => 0) x = -F.dt * antennaReading j x.1 := by
    intro j x
    unfold waveForm antennaReading
    simp only [zero_mul, Finset.sum_const_zero, sub_zero, Finset.mul_sum]
    refine Finset.sum_congr rfl fun c _ => Finset.sum_congr rfl fun i _ => ?_
    have := heps c i
    field_simp
  have h := midState_symm F bloch spacing hg heps (fun c i => -(cut regA jA c i * (F.dt / F.epsT c i)))
    (fun c i => -(cut regB jB c i * (F.dt / F.epsT c i))) w n
  rw [key, key] at h
  exact mul_left_cancel₀ (neg_ne_zero.2 hd) h

/-- C160 for two point antennas: component `cA` of cell `iA` and component `cB` of cell `iB`. -/
theorem C160_points (F : Fdtd s) (hF : F.npml = 0) (bloch : Fin 3 → ℂ) (spacing : Fin 3 → ℝ)
    (hg : F.g = uniformOps s bloch spacing) (heps : ∀ c i, F.epsT c i ≠ 0) (hdt : F.dt ≠ 0)
    (cA cB : Fin 3) (iA iB : GIdx s) (w : ℕ → ℂ) (n : ℕ) :
    (F.run false (antenna (fun c i => decide (c = cA ∧ i = iA)) (fun _ _ => 1) w) (zeroState s F.npml) n).1 cB iB
      = (F.run false (antenna (fun c i => decide (c = cB ∧ i = iB)) (fun _ _ => 1) w) (zeroState s F.npml) n).1 cA iA := by
  have h := C160_reciprocity F hF bloch spacing hg heps hdt (fun c i => decide (c = cA ∧ i = iA))
    (fun c i => decide (c = cB ∧ i = iB)) (fun _ _ => 1) (fun _ _ => 1) w n
  have key : ∀ (c0 : Fin 3) (i0 : GIdx s) (x : VField s),
      antennaReading (cut (fun c i => decide (c = c0 ∧ i = i0)) (fun _ _ => 1)) x = x c0 i0 := by
    intro c0 i0 x
    unfold antennaReading cut
    rw [Finset.sum_eq_single c0 (fun c _ hc => Finset.sum_eq_zero fun i _ => by simp [hc]) (by simp),
      Finset.sum_eq_single i0 (fun i _ hi => by simp [hi]) (by simp)]
    simp
  rw [key, key] at h
  exact h

/-- Nontrivial case for both properties: a 2D grid of 3 x 4 cells with permittivity 2.25 as `FDTD` builds it. -/
example : let F := plainFdtd (s := shapeOf 3 4 1) 2 (fun _ => 1) (fun _ => 1) (fun _ => ((9 / 4 : ℝ) : ℂ))
    F.npml = 0 ∧ (∀ c i, (F.epsT c i).im = 0 ∧ F.epsT c i ≠ 0) ∧ F.dt ≠ 0 := by
  intro F
  refine ⟨rfl, fun c i => ?_, ?_⟩
  · have h := yeeAvg_real (s := shapeOf 3 4 1) (fun _ => ((9 / 4 : ℝ) : ℂ)) (9 / 4) (fun _ => ⟨ofReal_im _, by rw [ofReal_re]⟩) c i
    refine ⟨h.1, fun h0 => ?_⟩
    have h2 := h.2
    change yeeAvgG (fun _ => ((9 / 4 : ℝ) : ℂ)) c i = 0 at h0
    rw [h0, zero_re] at h2
    norm_num at h2
  · change courantDt 2 (fun _ => 1) ≠ 0
    unfold courantDt
    rw [Fin.sum_univ_three]
    norm_num

end Simphox
