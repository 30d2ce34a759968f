import Verif.ModeMaxwell
import Verif.YeeProps
import Mathlib.Algebra.BigOperators.Field
import Mathlib.Tactic.IntervalCases

/-!
# Different modes do not couple (C135)

Orthogonality of guided modes on the Yee grid, and what `measure_fn` makes of it.
-/

namespace Simphox

open Matrix Complex

variable {s : Fin 3 → ℕ} [∀ a, NeZero (s a)]

/-! ### Specification -/

/-- The flux along `z` of `e × conj h`, components multiplied where they sit on the Yee grid. -/
noncomputable def yeeFlux (e h : VField s) : ℂ := ∑ i, (e 0 i * (starRingEnd ℂ) (h 1 i) - e 1 i * (starRingEnd ℂ) (h 0 i))

/-! ### Lorentz reciprocity on the grid -/

/-- Inner product of scalar fields. -/
noncomputable def ip (u v : SField s) : ℂ := ∑ i, (starRingEnd ℂ) (u i) * v i

omit [∀ a, NeZero (s a)] in
theorem ip_right (u p q r : SField s) (a b d : ℂ) (h : ∀ i, a * p i + b * q i = d * r i) : a * ip u p + b * ip u q = d * ip u r := by
  unfold ip
  rw [Finset.mul_sum, Finset.mul_sum, Finset.mul_sum, ← Finset.sum_add_distrib]
  refine Finset.sum_congr rfl fun i _ => ?_
  linear_combination (starRingEnd ℂ) (u i) * h i

omit [∀ a, NeZero (s a)] in
theorem ip_conj (u v : SField s) : (starRingEnd ℂ) (ip u v) = ip v u := by
  unfold ip
  rw [map_sum]
  refine Finset.sum_congr rfl fun i _ => ?_
  rw [map_mul, conj_conj, mul_comm]

omit [∀ a, NeZero (s a)] in
theorem ip_left (v p q r : SField s) (a b d : ℂ) (h : ∀ i, a * p i + b * q i = d * r i) :
    (starRingEnd ℂ) a * ip p v + (starRingEnd ℂ) b * ip q v = (starRingEnd ℂ) d * ip r v := by
  have := congrArg (starRingEnd ℂ) (ip_right v p q r a b d h)
  simpa only [map_add, map_mul, ip_conj] using this

/-- Lorentz reciprocity for two fields with real propagation constants in a lossless medium. -/
theorem lorentz (spacing : Fin 3 → ℝ) (k0 b1 b2 : ℝ) (epsT : VField s) (heps : ∀ c i, (starRingEnd ℂ) (epsT c i) = epsT c i) (e1 h1 e2 h2 : VField s)
    (m1 : MaxwellZ ((uniformOps s (fun _ => 1) spacing).deriv false) ((uniformOps s (fun _ => 1) spacing).deriv true) (-1) (-I * b1) k0 epsT e1 h1)
    (m2 : MaxwellZ ((uniformOps s (fun _ => 1) spacing).deriv false) ((uniformOps s (fun _ => 1) spacing).deriv true) (-1) (-I * b2) k0 epsT e2 h2) :
    ((b1 : ℂ) - b2) * yeeFlux e1 h2 = k0 * (∑ c, ip (h2 c) (h1 c) - ∑ c, ip (e2 c) (fun i => epsT c i * e1 c i)) := by
  set g := uniformOps s (fun _ => 1) spacing with hg
  have ibp : ∀ a (u v : SField s), ip (g.deriv true a *ᵥ u) v = -ip u (g.deriv false a *ᵥ v) := by
    intro a u v
    have h := congrArg (starRingEnd ℂ) (C44_integration_by_parts g a (spacing a) (fun _ _ => rfl) v u)
    have h' : (starRingEnd ℂ) (ip v (g.deriv true a *ᵥ u)) = (starRingEnd ℂ) (-ip (g.deriv false a *ᵥ v) u) := h
    rwa [map_neg, ip_conj, ip_conj] at h'
  obtain ⟨f1, _⟩ := m1
  obtain ⟨_, a2⟩ := m2
  have fx : ∀ i, 1 * (g.deriv false 1 *ᵥ e1 2) i + (I * b1) * e1 1 i = (-(I * k0)) * h1 0 i := fun i => by
    have : (g.deriv false 1 *ᵥ e1 2) i - (-I * b1) * e1 1 i = -1 * (I * k0 * h1 0 i) := f1 0 i
    linear_combination this
  have fy : ∀ i, (-I * b1) * e1 0 i + (-1) * (g.deriv false 0 *ᵥ e1 2) i = (-(I * k0)) * h1 1 i := fun i => by
    have : (-I * b1) * e1 0 i - (g.deriv false 0 *ᵥ e1 2) i = -1 * (I * k0 * h1 1 i) := f1 1 i
    linear_combination this
  have fz : ∀ i, 1 * (g.deriv false 0 *ᵥ e1 1) i + (-1) * (g.deriv false 1 *ᵥ e1 0) i = (-(I * k0)) * h1 2 i := fun i => by
    have : (g.deriv false 0 *ᵥ e1 1) i - (g.deriv false 1 *ᵥ e1 0) i = -1 * (I * k0 * h1 2 i) := f1 2 i
    linear_combination this
  have ax : ∀ i, 1 * (g.deriv true 1 *ᵥ h2 2) i + (I * b2) * h2 1 i = (I * k0) * (epsT 0 i * e2 0 i) := fun i => by
    have : (g.deriv true 1 *ᵥ h2 2) i - (-I * b2) * h2 1 i = -(-1) * (I * k0 * epsT 0 i * e2 0 i) := a2 0 i
    linear_combination this
  have ay : ∀ i, (-I * b2) * h2 0 i + (-1) * (g.deriv true 0 *ᵥ h2 2) i = (I * k0) * (epsT 1 i * e2 1 i) := fun i => by
    have : (-I * b2) * h2 0 i - (g.deriv true 0 *ᵥ h2 2) i = -(-1) * (I * k0 * epsT 1 i * e2 1 i) := a2 1 i
    linear_combination this
  have az : ∀ i, 1 * (g.deriv true 0 *ᵥ h2 1) i + (-1) * (g.deriv true 1 *ᵥ h2 0) i = (I * k0) * (epsT 2 i * e2 2 i) := fun i => by
    have : (g.deriv true 0 *ᵥ h2 1) i - (g.deriv true 1 *ᵥ h2 0) i = -(-1) * (I * k0 * epsT 2 i * e2 2 i) := a2 2 i
    linear_combination this
  have Fx := ip_right (h2 0) _ _ _ _ _ _ fx
  have Fy := ip_right (h2 1) _ _ _ _ _ _ fy
  have Fz := ip_right (h2 2) _ _ _ _ _ _ fz
  have Ax := ip_left (e1 0) _ _ _ _ _ _ ax
  have Ay := ip_left (e1 1) _ _ _ _ _ _ ay
  have Az := ip_left (e1 2) _ _ _ _ _ _ az
  have hE : ∀ c, ip (fun i => epsT c i * e2 c i) (e1 c) = ip (e2 c) (fun i => epsT c i * e1 c i) := by
    intro c
    unfold ip
    refine Finset.sum_congr rfl fun i _ => ?_
    rw [map_mul, heps]; ring
  rw [ibp, hE] at Ax Ay
  rw [ibp, ibp, hE] at Az
  simp only [map_one, map_neg, map_mul, conj_I, conj_ofReal] at Ax Ay Az
  have hS : yeeFlux e1 h2 = ip (h2 1) (e1 0) - ip (h2 0) (e1 1) := by
    unfold yeeFlux ip
    rw [← Finset.sum_sub_distrib]
    exact Finset.sum_congr rfl fun i _ => by ring
  rw [hS, Fin.sum_univ_three, Fin.sum_univ_three]
  have hI := I_mul_I
  have key : I * (((b1 : ℂ) - b2) * (ip (h2 1) (e1 0) - ip (h2 0) (e1 1))) = I * (k0 * (ip (h2 0) (h1 0) + ip (h2 1) (h1 1) + ip (h2 2) (h1 2)
      - (ip (e2 0) (fun i => epsT 0 i * e1 0 i) + ip (e2 1) (fun i => epsT 1 i * e1 1 i) + ip (e2 2) (fun i => epsT 2 i * e1 2 i)))) := by
    linear_combination Ax + Ay + Az - Fx - Fy - Fz
  exact mul_left_cancel₀ I_ne_zero key

/-- The same field travelling backwards. -/
def mirrorE (e : VField s) : VField s := ![e 0, e 1, -e 2]
def mirrorH (h : VField s) : VField s := ![-h 0, -h 1, h 2]

omit [∀ a, NeZero (s a)] in
theorem mirror_maxwell (de dh : Fin 3 → Matrix (GIdx s) (GIdx s) ℂ) (σ dz : ℂ) (k0 : ℝ) (epsT e h : VField s)
    (hm : MaxwellZ de dh σ dz k0 epsT e h) : MaxwellZ de dh σ (-dz) k0 epsT (mirrorE e) (mirrorH h) := by
  obtain ⟨hf, ha⟩ := hm
  refine ⟨fun c i => ?_, fun c i => ?_⟩
  · match c with
    | 0 =>
      have : (de 1 *ᵥ e 2) i - dz * e 1 i = σ * (I * k0 * h 0 i) := hf 0 i
      show (de 1 *ᵥ (-e 2)) i - -dz * e 1 i = σ * (I * k0 * (-h 0 i))
      rw [mulVec_neg, Pi.neg_apply]; linear_combination -this
    | 1 =>
      have : dz * e 0 i - (de 0 *ᵥ e 2) i = σ * (I * k0 * h 1 i) := hf 1 i
      show -dz * e 0 i - (de 0 *ᵥ (-e 2)) i = σ * (I * k0 * (-h 1 i))
      rw [mulVec_neg, Pi.neg_apply]; linear_combination -this
    | 2 => exact hf 2 i
  · match c with
    | 0 =>
      have : (dh 1 *ᵥ h 2) i - dz * h 1 i = -σ * (I * k0 * epsT 0 i * e 0 i) := ha 0 i
      show (dh 1 *ᵥ h 2) i - -dz * (-h 1 i) = -σ * (I * k0 * epsT 0 i * e 0 i)
      linear_combination this
    | 1 =>
      have : dz * h 0 i - (dh 0 *ᵥ h 2) i = -σ * (I * k0 * epsT 1 i * e 1 i) := ha 1 i
      show -dz * (-h 0 i) - (dh 0 *ᵥ h 2) i = -σ * (I * k0 * epsT 1 i * e 1 i)
      linear_combination this
    | 2 =>
      have : (dh 0 *ᵥ h 1) i - (dh 1 *ᵥ h 0) i = -σ * (I * k0 * epsT 2 i * e 2 i) := ha 2 i
      show (dh 0 *ᵥ (-h 1)) i - (dh 1 *ᵥ (-h 0)) i = -σ * (I * k0 * epsT 2 i * (-e 2 i))
      rw [mulVec_neg, mulVec_neg, Pi.neg_apply, Pi.neg_apply]; linear_combination -this

theorem ortho_of_maxwell (spacing : Fin 3 → ℝ) (k0 b1 b2 : ℝ) (hb : b1 ≠ b2) (hb' : b1 ≠ -b2) (epsT : VField s)
    (heps : ∀ c i, (starRingEnd ℂ) (epsT c i) = epsT c i) (e1 h1 e2 h2 : VField s)
    (m1 : MaxwellZ ((uniformOps s (fun _ => 1) spacing).deriv false) ((uniformOps s (fun _ => 1) spacing).deriv true) (-1) (-I * b1) k0 epsT e1 h1)
    (m2 : MaxwellZ ((uniformOps s (fun _ => 1) spacing).deriv false) ((uniformOps s (fun _ => 1) spacing).deriv true) (-1) (-I * b2) k0 epsT e2 h2) :
    yeeFlux e1 h2 = 0 := by
  have sym : ∀ (b1 b2 : ℝ) (hb : b1 ≠ b2) (e1 h1 e2 h2 : VField s)
    (m1 : MaxwellZ ((uniformOps s (fun _ => 1) spacing).deriv false) ((uniformOps s (fun _ => 1) spacing).deriv true) (-1) (-I * b1) k0 epsT e1 h1)
    (m2 : MaxwellZ ((uniformOps s (fun _ => 1) spacing).deriv false) ((uniformOps s (fun _ => 1) spacing).deriv true) (-1) (-I * b2) k0 epsT e2 h2),
      yeeFlux e1 h2 = -(starRingEnd ℂ) (yeeFlux e2 h1) := by
    intro b1 b2 hb e1 h1 e2 h2 m1 m2
    have l1 := lorentz spacing k0 b1 b2 epsT heps e1 h1 e2 h2 m1 m2
    have l2 := congrArg (starRingEnd ℂ) (lorentz spacing k0 b2 b1 epsT heps e2 h2 e1 h1 m2 m1)
    have hE : ∀ c, ip (fun i => epsT c i * e2 c i) (e1 c) = ip (e2 c) (fun i => epsT c i * e1 c i) := by
      intro c
      unfold ip
      refine Finset.sum_congr rfl fun i _ => ?_
      rw [map_mul, heps]; ring
    simp only [map_mul, map_sub, map_sum, conj_ofReal, ip_conj, hE] at l2
    have hne : (b1 : ℂ) - b2 ≠ 0 := sub_ne_zero.2 (by exact_mod_cast hb)
    apply mul_left_cancel₀ hne
    linear_combination l1 - l2
  have s1 := sym b1 b2 hb e1 h1 e2 h2 m1 m2
  have m2' : MaxwellZ ((uniformOps s (fun _ => 1) spacing).deriv false) ((uniformOps s (fun _ => 1) spacing).deriv true) (-1) (-I * ((-b2 : ℝ) : ℂ)) k0 epsT (mirrorE e2) (mirrorH h2) := by
    have := mirror_maxwell _ _ _ _ _ _ _ _ m2
    rwa [show -(-I * (b2 : ℂ)) = -I * ((-b2 : ℝ) : ℂ) by push_cast; ring] at this
  have s2 := sym b1 (-b2) hb' e1 h1 _ _ m1 m2'
  have t1 : yeeFlux e1 (mirrorH h2) = -yeeFlux e1 h2 := by
    unfold yeeFlux mirrorH
    rw [← Finset.sum_neg_distrib]
    refine Finset.sum_congr rfl fun i _ => ?_
    show e1 0 i * (starRingEnd ℂ) (-h2 1 i) - e1 1 i * (starRingEnd ℂ) (-h2 0 i) = _
    rw [map_neg, map_neg]; ring
  have t2 : yeeFlux (mirrorE e2) h1 = yeeFlux e2 h1 := rfl
  rw [t1, t2] at s2
  linear_combination (s1 - s2) / 2

/-! ### C135 -/

/-- C135, two dimensional cross sections, on the Yee grid: modes with different propagation constants in a lossless
device, as `solve` and `ModeLibrary.e`, `.h` return them, carry no mixed flux. -/
theorem C135_orthogonal_partial (spacing : Fin 3 → ℝ) (k0 b1 b2 : ℝ) (hk : k0 ≠ 0) (h1 : 0 < b1) (h2 : 0 < b2) (hb : b1 ≠ b2) (epsT : VField s)
    (hreal : ∀ c i, (epsT c i).im = 0) (hne : ∀ c i, epsT c i ≠ 0) (v1 v2 : SField s × SField s)
    (e1 : wgm2d (uniformOps s (fun _ => 1) spacing) k0 epsT v1.1 v1.2 = (fun i => (b1 : ℂ) ^ 2 * v1.1 i, fun i => (b1 : ℂ) ^ 2 * v1.2 i))
    (e2 : wgm2d (uniformOps s (fun _ => 1) spacing) k0 epsT v2.1 v2.2 = (fun i => (b2 : ℂ) ^ 2 * v2.1 i, fun i => (b2 : ℂ) ^ 2 * v2.2 i)) :
    let H := fun (b : ℝ) (v : SField s × SField s) => fullH (uniformOps s (fun _ => 1) spacing) ((b : ℂ) ^ 2) v
    let E := fun (b : ℝ) (v : SField s × SField s) => modeH2e (uniformOps s (fun _ => 1) spacing) k0 epsT b (H b v)
    yeeFlux (E b1 v1) (H b2 v2) = 0 := by
  intro H E
  have m1 := (C87_mode_maxwell (uniformOps s (fun _ => 1) spacing) (fun _ => rfl) k0 b1 hk h1 epsT hne v1.1 v1.2 e1).1
  have m2 := (C87_mode_maxwell (uniformOps s (fun _ => 1) spacing) (fun _ => rfl) k0 b2 hk h2 epsT hne v2.1 v2.2 e2).1
  exact ortho_of_maxwell spacing k0 b1 b2 hb (by linarith) epsT (fun c i => conj_eq_iff_im.2 (hreal c i)) _ _ _ _ m1 m2

theorem sum_roll (a : Fin 3) (f : SField s) : ∑ i, rollFwd a f i = ∑ i, f i := by
  refine Fintype.sum_bijective (fun i : GIdx s => Function.update i a (i a - 1)) ?_ _ _ (fun i => rfl)
  refine Function.bijective_iff_has_inverse.2 ⟨fun i => Function.update i a (i a + 1), fun i => ?_, fun i => ?_⟩
  · simp
  · simp

/-- C135, one dimensional TE modes, with the flux `poynting_fn` computes (which averages both fields over neighbouring cells before multiplying): the
mixed flux of two modes with different propagation constants is not zero, but exactly
`k0 beta2 dx² / 4` times the overlap weighted with the permittivity, so it vanishes with the square of the cell size. -/
theorem C135_te_crosstalk_partial (spacing : Fin 3 → ℝ) (hx : spacing 0 ≠ 0) (k0 b1 b2 : ℝ) (hk : k0 ≠ 0) (h1 : 0 < b1) (h2 : 0 < b2) (hb : b1 ≠ b2)
    (eps : SField s) (hreal : ∀ i, (eps i).im = 0) (u v : SField s)
    (e1 : wgm1d (uniformOps s (fun _ => 1) spacing) k0 eps u = fun i => (b1 : ℂ) ^ 2 * u i)
    (e2 : wgm1d (uniformOps s (fun _ => 1) spacing) k0 eps v = fun i => (b2 : ℂ) ^ 2 * v i) :
    ∑ i, poyntingZ ![0, u, 0] (ModeLib.hTE (uniformOps s (fun _ => 1) spacing) k0 b2 v) i =
      k0 * b2 * spacing 0 ^ 2 / 4 * ∑ i, eps i * u i * (starRingEnd ℂ) (v i) := by
  set g := uniformOps s (fun _ => 1) spacing with hg
  have hk' : (k0 : ℂ) ≠ 0 := by exact_mod_cast hk
  have hdx : (spacing 0 : ℂ) ≠ 0 := by exact_mod_cast hx
  have ibp : ∀ u v : SField s, ip u (g.deriv false 0 *ᵥ v) = -ip (g.deriv true 0 *ᵥ u) v := by
    intro u v
    have h := congrArg (starRingEnd ℂ) (C44_integration_by_parts g 0 (spacing 0) (fun _ _ => rfl) v u)
    have h' : (starRingEnd ℂ) (ip v (g.deriv true 0 *ᵥ u)) = (starRingEnd ℂ) (-ip (g.deriv false 0 *ᵥ v) u) := h
    rw [map_neg, ip_conj, ip_conj] at h'
    rw [h', neg_neg]
  have eig : ∀ (b : ℝ) (u v : SField s), wgm1d g k0 eps u = (fun i => (b : ℂ) ^ 2 * u i) →
      ip (g.deriv true 0 *ᵥ v) (g.deriv true 0 *ᵥ u) = (k0 : ℂ) ^ 2 * ip v (fun i => eps i * u i) - (b : ℂ) ^ 2 * ip v u := by
    intro b u v h
    have h3 := ip_right v (fun i => eps i * u i) (g.deriv false 0 *ᵥ (g.deriv true 0 *ᵥ u)) u ((k0 : ℂ) ^ 2) 1 ((b : ℂ) ^ 2) (fun i => by
      have : eps i * (k0 : ℂ) ^ 2 * u i + (g.deriv false 0 *ᵥ (g.deriv true 0 *ᵥ u)) i = (b : ℂ) ^ 2 * u i := congrFun h i
      linear_combination this)
    rw [ibp] at h3
    linear_combination -h3
  have p1 := eig b1 u v e1
  have p2 := congrArg (starRingEnd ℂ) (eig b2 v u e2)
  have hE : ip (fun i => eps i * v i) u = ip v (fun i => eps i * u i) := by
    unfold ip
    refine Finset.sum_congr rfl fun i _ => ?_
    rw [map_mul, conj_eq_iff_im.2 (hreal i)]; ring
  simp only [map_sub, map_mul, map_pow, conj_ofReal, ip_conj, hE] at p2
  have hz : ip v u = 0 := by
    have hne : ((b1 : ℂ) ^ 2 - (b2 : ℂ) ^ 2) ≠ 0 := by
      rw [sub_ne_zero]
      norm_cast
      intro h
      exact hb ((sq_eq_sq₀ h1.le h2.le).1 h)
    have : ((b1 : ℂ) ^ 2 - (b2 : ℂ) ^ 2) * ip v u = 0 := by linear_combination p1 - p2
    exact (mul_eq_zero.1 this).resolve_left hne
  rw [hz, mul_zero, sub_zero] at p1
  have hB : ∀ (u : SField s) i, (g.deriv true 0 *ᵥ u) i = (u i - rollFwd 0 u i) / spacing 0 := by
    intro u i
    rw [← YeeOps.diffFn_eq g (fun _ => rfl)]; rfl
  have hr : ∑ i, rollFwd 0 (fun i => (starRingEnd ℂ) (v i) * u i) i = ip v u := sum_roll 0 _
  have pt : ∀ i, poyntingZ ![0, u, 0] (ModeLib.hTE g k0 b2 v) i =
      -((b2 : ℂ) / k0) * (((starRingEnd ℂ) (v i) * u i + rollFwd 0 (fun i => (starRingEnd ℂ) (v i) * u i) i) / 2
        - (spacing 0 : ℂ) ^ 2 / 4 * ((starRingEnd ℂ) ((g.deriv true 0 *ᵥ v) i) * (g.deriv true 0 *ᵥ u) i)) := by
    intro i
    rw [hB, hB]
    have e1 : ∀ x : ℂ, I * b2 * x / (I * k0) = ((b2 / k0 : ℝ) : ℂ) * x := by
      intro x
      have := I_ne_zero
      push_cast; field_simp
    change ((0 : SField s) i + rollFwd 1 (0 : SField s) i) / 2 * (starRingEnd ℂ) (((0 : SField s) i + rollFwd 1 (0 : SField s) i) / 2)
      - (u i + rollFwd 0 u i) / 2 * (starRingEnd ℂ) ((I * b2 * v i / (I * k0) + I * b2 * v (Function.update i 0 (i 0 - 1)) / (I * k0)) / 2) = _
    have h0 : ((0 : SField s) i + rollFwd 1 (0 : SField s) i) / 2 = 0 := by simp [rollFwd]
    rw [h0, e1, e1, zero_mul, zero_sub]
    simp only [map_div₀, map_add, map_mul, map_sub, conj_ofReal, rollFwd, map_ofNat]
    push_cast
    field_simp
    ring
  rw [Finset.sum_congr rfl fun i _ => pt i, ← Finset.mul_sum, Finset.sum_sub_distrib, ← Finset.sum_div, Finset.sum_add_distrib, hr, ← Finset.mul_sum]
  change -((b2 : ℂ) / k0) * ((ip v u + ip v u) / 2 - (spacing 0 : ℂ) ^ 2 / 4 * ip (g.deriv true 0 *ᵥ v) (g.deriv true 0 *ᵥ u)) = _
  rw [hz, p1]
  have : ip v (fun i => eps i * u i) = ∑ i, eps i * u i * (starRingEnd ℂ) (v i) := by
    unfold ip
    exact Finset.sum_congr rfl fun i _ => by ring
  rw [this]
  field_simp
  ring

/-! ### C136 -/

/-- The library holds modes `0 .. m-1` with fields `E`, `H` and propagation constants `b`, all different and positive, which solve the discrete Maxwell
equations of the solver's grid (as C87 proves for the modes of `solve`) in a lossless device. -/
structure GuidedLib (L : ModeLib s) (spacing : Fin 3 → ℝ) (m : ℕ) (E H : ℕ → VField s) (b : ℕ → ℝ) : Prop where
  e : HasModes L false m E b
  h : HasModes L true m H b
  lossless : ∀ c i, (L.epsT c i).im = 0
  pos : ∀ j < m, 0 < b j
  inj : ∀ j < m, ∀ k < m, j ≠ k → b j ≠ b k
  maxwell : ∀ j < m, MaxwellZ ((uniformOps s (fun _ => 1) spacing).deriv false) ((uniformOps s (fun _ => 1) spacing).deriv true) (-1) (-I * b j) L.k0 L.epsT (E j) (H j)

omit [∀ a, NeZero (s a)] in
theorem yeeFlux_sum {m : ℕ} (E H : ℕ → VField s) (x y : ℕ → ℂ) :
    yeeFlux (fun c i => ∑ j ∈ Finset.range m, E j c i * x j) (fun c i => ∑ k ∈ Finset.range m, H k c i * y k) =
      ∑ j ∈ Finset.range m, ∑ k ∈ Finset.range m, x j * (starRingEnd ℂ) (y k) * yeeFlux (E j) (H k) := by
  unfold yeeFlux
  have hR : ∀ j k, x j * (starRingEnd ℂ) (y k) * ∑ i, (E j 0 i * (starRingEnd ℂ) (H k 1 i) - E j 1 i * (starRingEnd ℂ) (H k 0 i)) =
      ∑ i, ((E j 0 i * x j) * ((starRingEnd ℂ) (H k 1 i) * (starRingEnd ℂ) (y k)) - (E j 1 i * x j) * ((starRingEnd ℂ) (H k 0 i) * (starRingEnd ℂ) (y k))) := by
    intro j k
    rw [Finset.mul_sum]
    exact Finset.sum_congr rfl fun i _ => by ring
  simp only [hR]
  rw [Finset.sum_congr rfl fun j _ => Finset.sum_comm, Finset.sum_comm]
  refine Finset.sum_congr rfl fun i _ => ?_
  simp only [map_sum, map_mul, Finset.sum_mul_sum, ← Finset.sum_sub_distrib]

/-- C136, on the Yee grid: along a lossless waveguide the total flux of the fields `evolve` returns is the sum of the
powers of the modes, at every length; modes exchange no power. -/
theorem C136_power_partial (L : ModeLib s) (spacing : Fin 3 → ℝ) (E H : ℕ → VField s) (b : ℕ → ℝ) (ws : List ℂ)
    (hL : GuidedLib L spacing ws.length E H b) (length : ℝ) :
    ∃ e h, L.evolve length ws false = .ok e ∧ L.evolve length ws true = .ok h ∧
      yeeFlux e h = ∑ j ∈ Finset.range ws.length, (‖ws.getD j 0‖ ^ 2 : ℝ) * yeeFlux (E j) (H j) := by
  refine ⟨_, _, evolve_ok L length false ws E b hL.e, evolve_ok L length true ws H b hL.h, ?_⟩
  have := yeeFlux_sum (m := ws.length) E H (fun j => exp (I * b j * length) * ws.getD j 0) (fun j => exp (I * b j * length) * ws.getD j 0)
  simp only [← mul_assoc] at this
  rw [this]
  refine Finset.sum_congr rfl fun j hj => ?_
  have hj' := Finset.mem_range.1 hj
  rw [Finset.sum_eq_single j]
  · have he : exp (I * b j * length) * (starRingEnd ℂ) (exp (I * b j * length)) = 1 := by
      rw [← exp_conj, ← exp_add]
      simp
    have hw : ws.getD j 0 * (starRingEnd ℂ) (ws.getD j 0) = ((‖ws.getD j 0‖ ^ 2 : ℝ) : ℂ) := by
      rw [mul_conj, normSq_eq_norm_sq]
    rw [map_mul]
    linear_combination (ws.getD j 0 * (starRingEnd ℂ) (ws.getD j 0) * yeeFlux (E j) (H j)) * he + yeeFlux (E j) (H j) * hw
  · intro k hk hkj
    have hk' := Finset.mem_range.1 hk
    rw [ortho_of_maxwell spacing L.k0 (b j) (b k) (hL.inj j hj' k hk' (Ne.symm hkj)) (by have := hL.pos j hj'; have := hL.pos k hk'; linarith) L.epsT
      (fun c i => conj_eq_iff_im.2 (hL.lossless c i)) (E j) (H j) (E k) (H k) (hL.maxwell j hj') (hL.maxwell k hk'), mul_zero]
  · intro h; exact absurd hj h

/-! ### Counterexamples: two cells with permittivities 7 and 10 -/

/-- Permittivities 7 and 10; the modes `(1, 2)` with `beta = 3` and `(2, -1)` with `beta = 2` at `k0 = 1`. -/
noncomputable def dualEps : SField (shapeOf 2 1 1) := fun i => if (i 0 : ℕ) = 0 then 7 else 10
noncomputable def dual0 : SField (shapeOf 2 1 1) := fun i => if (i 0 : ℕ) = 0 then 1 else 2
noncomputable def dual1 : SField (shapeOf 2 1 1) := fun i => if (i 0 : ℕ) = 0 then 2 else -1

/-- The library of this cross section. -/
noncomputable def dualLib : ModeLib (shapeOf 2 1 1) :=
  { g := g2, k0 := 1, epsT := yeeAvgG dualEps, betas := [3, 2], modes := .inl [dual0, dual1] }

theorem dual_val : dual0 ix0 = 1 ∧ dual0 ix1 = 2 ∧ dual1 ix0 = 2 ∧ dual1 ix1 = -1 ∧ dualEps ix0 = 7 ∧ dualEps ix1 = 10 := by
  refine ⟨if_pos rfl, if_neg ?_, if_pos rfl, if_neg ?_, if_pos rfl, if_neg ?_⟩ <;> · unfold ix1; decide

theorem dual_modes : wgm1d g2 1 dualEps dual0 = (fun i => ((3 : ℝ) : ℂ) ^ 2 * dual0 i) ∧ wgm1d g2 1 dualEps dual1 = fun i => ((2 : ℝ) : ℂ) ^ 2 * dual1 i := by
  obtain ⟨v0, v1, w0, w1, e0, e1⟩ := dual_val
  constructor
  · funext i
    change dualEps i * ((1 : ℝ) : ℂ) ^ 2 * dual0 i + (g2.deriv false 0 *ᵥ (g2.deriv true 0 *ᵥ dual0)) i = _
    rcases two_cases i with rfl | rfl
    · rw [(g2_fwd _).1, (g2_bwd _).1, (g2_bwd _).2, v0, v1, e0]; norm_num
    · rw [(g2_fwd _).2, (g2_bwd _).1, (g2_bwd _).2, v0, v1, e1]; norm_num
  · funext i
    change dualEps i * ((1 : ℝ) : ℂ) ^ 2 * dual1 i + (g2.deriv false 0 *ᵥ (g2.deriv true 0 *ᵥ dual1)) i = _
    rcases two_cases i with rfl | rfl
    · rw [(g2_fwd _).1, (g2_bwd _).1, (g2_bwd _).2, w0, w1, e0]; norm_num
    · rw [(g2_fwd _).2, (g2_bwd _).1, (g2_bwd _).2, w0, w1, e1]; norm_num

theorem two_sum (f : SField (shapeOf 2 1 1)) : ∑ i, f i = f ix0 + f ix1 := by
  have : (Finset.univ : Finset (GIdx (shapeOf 2 1 1))) = {ix0, ix1} := by
    ext i; simpa using two_cases i
  rw [this, Finset.sum_pair (by decide)]

theorem two_roll1 (f : SField (shapeOf 2 1 1)) (i : GIdx (shapeOf 2 1 1)) : rollFwd 1 f i = f i := by
  have : Function.update i 1 (i 1 - 1) = i := by
    funext a
    by_cases ha : a = 1
    · subst ha; exact Subsingleton.elim (α := Fin 1) _ _
    · rw [Function.update_of_ne ha]
  simp only [rollFwd, this]

theorem two_roll0 (f : SField (shapeOf 2 1 1)) : rollFwd 0 f ix0 = f ix1 ∧ rollFwd 0 f ix1 = f ix0 := by
  constructor
  · unfold rollFwd; rw [ix0_prev]
  · unfold rollFwd; rw [ix1_prev]

/-- The flux of TM fields on the two cells. -/
theorem dual_tm (b : ℝ) (u v : SField (shapeOf 2 1 1)) :
    ∑ i, poyntingZ (ModeLib.eTM g2 1 b (yeeAvgG dualEps) u) ![0, v, 0] i =
      b * (u ix0 / 7 * (starRingEnd ℂ) (v ix0) + u ix1 / 10 * (starRingEnd ℂ) (v ix1)) := by
  obtain ⟨_, _, _, _, e0, e1⟩ := dual_val
  have hI := I_ne_zero
  have ex : ∀ i, yeeAvgG dualEps 0 i = dualEps i := by
    intro i
    change (dualEps i + rollFwd 1 dualEps i) / 2 = _
    rw [two_roll1]; ring
  have pt : ∀ i, poyntingZ (ModeLib.eTM g2 1 b (yeeAvgG dualEps) u) ![0, v, 0] i = b * (u i / dualEps i * (starRingEnd ℂ) (v i)) := by
    intro i
    have hne : dualEps i ≠ 0 := by
      rcases two_cases i with rfl | rfl
      · rw [e0]; norm_num
      · rw [e1]; norm_num
    change ((fun i => I * b * u i / (I * ((1 : ℝ) : ℂ) * yeeAvgG dualEps 0 i)) i + rollFwd 1 (fun i => I * b * u i / (I * ((1 : ℝ) : ℂ) * yeeAvgG dualEps 0 i)) i) / 2
        * (starRingEnd ℂ) ((v i + rollFwd 1 v i) / 2) - ((0 : SField (shapeOf 2 1 1)) i + rollFwd 0 (0 : SField (shapeOf 2 1 1)) i) / 2 * _ = _
    have h0 : ((0 : SField (shapeOf 2 1 1)) i + rollFwd 0 (0 : SField (shapeOf 2 1 1)) i) / 2 = 0 := by simp [rollFwd]
    rw [h0, two_roll1, two_roll1, zero_mul, sub_zero]
    simp only [ex, map_div₀, map_add, map_ofNat]
    push_cast
    field_simp
    ring
  rw [Finset.sum_congr rfl fun i _ => pt i, ← Finset.mul_sum, two_sum, e0, e1]

/-- The flux of TE fields on the two cells. -/
theorem dual_te (b : ℝ) (u v : SField (shapeOf 2 1 1)) :
    ∑ i, poyntingZ ![0, u, 0] (ModeLib.hTE g2 1 b v) i =
      -(b * ((u ix0 + u ix1) * (starRingEnd ℂ) (v ix0 + v ix1) / 2)) := by
  have hI := I_ne_zero
  rw [two_sum]
  have pt : ∀ i, poyntingZ ![0, u, 0] (ModeLib.hTE g2 1 b v) i =
      -((u i + rollFwd 0 u i) / 2 * (starRingEnd ℂ) ((b * v i + b * rollFwd 0 v i) / 2)) := by
    intro i
    change ((0 : SField (shapeOf 2 1 1)) i + rollFwd 1 (0 : SField (shapeOf 2 1 1)) i) / 2 * (starRingEnd ℂ) (((0 : SField (shapeOf 2 1 1)) i + rollFwd 1 (0 : SField (shapeOf 2 1 1)) i) / 2)
      - (u i + rollFwd 0 u i) / 2 * (starRingEnd ℂ) ((I * b * v i / (I * ((1 : ℝ) : ℂ)) + I * b * v (Function.update i 0 (i 0 - 1)) / (I * ((1 : ℝ) : ℂ))) / 2) = _
    have h0 : ((0 : SField (shapeOf 2 1 1)) i + rollFwd 1 (0 : SField (shapeOf 2 1 1)) i) / 2 = 0 := by simp [rollFwd]
    have e1 : ∀ x : ℂ, I * b * x / (I * ((1 : ℝ) : ℂ)) = b * x := by
      intro x
      push_cast; field_simp
    rw [h0, e1, e1, zero_mul, zero_sub]
    rfl
  rw [pt, pt, (two_roll0 u).1, (two_roll0 u).2, (two_roll0 v).1, (two_roll0 v).2]
  simp only [map_div₀, map_add, map_mul, map_ofNat, conj_ofReal]
  ring

/-- C135, the failure: on the cross section of two cells, `measure_fn` for the first mode applied to the second mode does not give `(0, 0)`, in either
polarisation (TM: the default). -/
theorem C135_measure_counterexample :
    (wgm1d g2 1 dualEps dual0 = (fun i => ((3 : ℝ) : ℂ) ^ 2 * dual0 i) ∧ wgm1d g2 1 dualEps dual1 = fun i => ((2 : ℝ) : ℂ) ^ 2 * dual1 i) ∧
    (∃ e h, dualLib.e 1 true = .ok e ∧ dualLib.h 1 true = .ok h ∧ dualLib.measureFn 0 true e h = .ok (5 / 38, -1 / 38)) ∧
    ∃ e h, dualLib.e 1 false = .ok e ∧ dualLib.h 1 false = .ok h ∧ dualLib.measureFn 0 false e h = .ok (5 / 18, 1 / 18) := by
  obtain ⟨v0, v1, w0, w1, _, _⟩ := dual_val
  refine ⟨dual_modes, ⟨_, _, rfl, rfl, ?_⟩, ⟨_, _, rfl, rfl, ?_⟩⟩
  · have : dualLib.measureFn 0 true (ModeLib.eTM g2 1 2 (yeeAvgG dualEps) dual1) ![0, dual1, 0] =
        .ok (measure (ModeLib.eTM g2 1 3 (yeeAvgG dualEps) dual0) ![0, dual0, 0] (ModeLib.eTM g2 1 2 (yeeAvgG dualEps) dual1) ![0, dual1, 0]) := rfl
    refine this.trans ?_
    unfold measure
    simp only [dual_tm, v0, v1, w0, w1]
    congr 1
    refine Prod.ext ?_ ?_
    · simp only [map_one, map_neg, map_ofNat, map_div₀, map_mul, map_add, conj_ofReal]; push_cast; norm_num
    · simp only [map_one, map_neg, map_ofNat, map_div₀, map_mul, map_add, conj_ofReal]; push_cast; norm_num
  · have : dualLib.measureFn 0 false ![0, dual1, 0] (ModeLib.hTE g2 1 2 dual1) =
        .ok (measure ![0, dual0, 0] (ModeLib.hTE g2 1 3 dual0) ![0, dual1, 0] (ModeLib.hTE g2 1 2 dual1)) := rfl
    refine this.trans ?_
    unfold measure
    simp only [dual_te, v0, v1, w0, w1]
    congr 1
    refine Prod.ext ?_ ?_
    · simp only [map_one, map_neg, map_ofNat, map_div₀, map_mul, map_add, conj_ofReal]; push_cast; norm_num
    · simp only [map_one, map_neg, map_ofNat, map_div₀, map_mul, map_add, conj_ofReal]; push_cast; norm_num

/-- The flux of fields without `e_y` on the two cells. -/
theorem two_flux (e h : VField (shapeOf 2 1 1)) (he : e 1 = 0) :
    ∑ i, poyntingZ e h i = e 0 ix0 * (starRingEnd ℂ) (h 1 ix0) + e 0 ix1 * (starRingEnd ℂ) (h 1 ix1) := by
  have pt : ∀ i, poyntingZ e h i = e 0 i * (starRingEnd ℂ) (h 1 i) := by
    intro i
    unfold poyntingZ
    have h0 : ((0 : SField (shapeOf 2 1 1)) i + rollFwd 0 (0 : SField (shapeOf 2 1 1)) i) / 2 = 0 := by simp [rollFwd]
    rw [he, h0, two_roll1, two_roll1, zero_mul, sub_zero, add_self_div_two, add_self_div_two]
  rw [two_sum, pt, pt]

theorem dual_ex (b : ℝ) (u : SField (shapeOf 2 1 1)) :
    ModeLib.eTM g2 1 b (yeeAvgG dualEps) u 0 ix0 = b * u ix0 / 7 ∧ ModeLib.eTM g2 1 b (yeeAvgG dualEps) u 0 ix1 = b * u ix1 / 10 := by
  obtain ⟨_, _, _, _, e0, e1⟩ := dual_val
  have hI := I_ne_zero
  have ex : ∀ i, yeeAvgG dualEps 0 i = dualEps i := by
    intro i
    change (dualEps i + rollFwd 1 dualEps i) / 2 = _
    rw [two_roll1]; ring
  constructor
  · change I * b * u ix0 / (I * ((1 : ℝ) : ℂ) * yeeAvgG dualEps 0 ix0) = _
    rw [ex, e0]; push_cast; field_simp
  · change I * b * u ix1 / (I * ((1 : ℝ) : ℂ) * yeeAvgG dualEps 0 ix1) = _
    rw [ex, e1]; push_cast; field_simp

/-- C136, the failure: with the flux of `poynting_fn`, the power of an equal superposition of the two (default, TM) modes of this lossless cross
section changes with the length. -/
theorem C136_poynting_counterexample :
    (wgm1d g2 1 dualEps dual0 = (fun i => ((3 : ℝ) : ℂ) ^ 2 * dual0 i) ∧ wgm1d g2 1 dualEps dual1 = fun i => ((2 : ℝ) : ℂ) ^ 2 * dual1 i) ∧
    ∃ e h e' h', dualLib.evolve 0 [1, 1] false = .ok e ∧ dualLib.evolve 0 [1, 1] true = .ok h ∧
      dualLib.evolve Real.pi [1, 1] false = .ok e' ∧ dualLib.evolve Real.pi [1, 1] true = .ok h' ∧
      ∑ i, poyntingZ e h i ≠ ∑ i, poyntingZ e' h' i := by
  refine ⟨dual_modes, ?_⟩
  obtain ⟨v0, v1, w0, w1, _, _⟩ := dual_val
  let b : ℕ → ℝ := fun j => if j = 0 then 3 else 2
  let u : ℕ → SField (shapeOf 2 1 1) := fun j => if j = 0 then dual0 else dual1
  let E : ℕ → VField (shapeOf 2 1 1) := fun j => ModeLib.eTM g2 1 (b j) (yeeAvgG dualEps) (u j)
  let H : ℕ → VField (shapeOf 2 1 1) := fun j => ![0, u j, 0]
  have hE : HasModes dualLib false [(1 : ℂ), 1].length E b := by
    intro j hj
    match j, hj with
    | 0, _ => exact ⟨rfl, rfl⟩
    | 1, _ => exact ⟨rfl, rfl⟩
  have hH : HasModes dualLib true [(1 : ℂ), 1].length H b := by
    intro j hj
    match j, hj with
    | 0, _ => exact ⟨rfl, rfl⟩
    | 1, _ => exact ⟨rfl, rfl⟩
  refine ⟨_, _, _, _, evolve_ok dualLib 0 false _ E b hE, evolve_ok dualLib 0 true _ H b hH, evolve_ok dualLib Real.pi false _ E b hE,
    evolve_ok dualLib Real.pi true _ H b hH, ?_⟩
  have hy : ∀ L : ℝ, (fun (c : Fin 3) i => ∑ j ∈ Finset.range [(1 : ℂ), 1].length, E j c i * exp (I * b j * L) * [(1 : ℂ), 1].getD j 0) 1 = 0 := by
    intro L
    funext i
    exact Finset.sum_eq_zero fun j _ => by
      have : E j 1 i = 0 := rfl
      rw [this]; ring
  rw [two_flux _ _ (hy 0), two_flux _ _ (hy Real.pi)]
  have z0 : ∀ j, exp (I * b j * ((0 : ℝ) : ℂ)) = 1 := fun j => by simp
  have p0 : exp (I * b 0 * (Real.pi : ℂ)) = -1 := by
    have : I * (b 0 : ℂ) * Real.pi = Real.pi * I + 2 * Real.pi * I := by
      show I * ((3 : ℝ) : ℂ) * Real.pi = _
      push_cast; ring
    rw [this, exp_periodic, exp_pi_mul_I]
  have p1 : exp (I * b 1 * (Real.pi : ℂ)) = 1 := by
    have : I * (b 1 : ℂ) * Real.pi = 2 * Real.pi * I := by
      show I * ((2 : ℝ) : ℂ) * Real.pi = _
      push_cast; ring
    rw [this, exp_two_pi_mul_I]
  have a0 := dual_ex 3 dual0
  have a1 := dual_ex 2 dual1
  have E0 : ∀ i, E 0 0 i = ModeLib.eTM g2 1 3 (yeeAvgG dualEps) dual0 0 i := fun _ => rfl
  have E1 : ∀ i, E 1 0 i = ModeLib.eTM g2 1 2 (yeeAvgG dualEps) dual1 0 i := fun _ => rfl
  have H0 : ∀ i, H 0 1 i = dual0 i := fun _ => rfl
  have H1 : ∀ i, H 1 1 i = dual1 i := fun _ => rfl
  have hl : [(1 : ℂ), 1].length = 2 := rfl
  have g0 : [(1 : ℂ), 1].getD 0 0 = 1 := rfl
  have g1 : [(1 : ℂ), 1].getD 1 0 = 1 := rfl
  simp only [hl, Finset.sum_range_succ, Finset.sum_range_zero, zero_add, g0, g1, z0, p0, p1, E0, E1, H0, H1, a0, a1, v0, v1, w0, w1]
  push_cast
  simp only [map_add, map_mul, map_neg, map_one, map_ofNat]
  norm_num

/-! ### A library of two modes meeting the hypotheses: a homogeneous cross section of four cells -/

theorem const_mode2d : wgm2d g4 (3 / 2) (fun _ _ => 1) 0 (fun _ => 1) =
    (fun i => ((3 / 2 : ℝ) : ℂ) ^ 2 * (0 : SField _) i, fun _ => ((3 / 2 : ℝ) : ℂ) ^ 2 * 1) := by
  have h1 : ∀ p, g4.deriv p 1 = 0 := fun p => deriv_one_cell g4 p 1 rfl
  have hb : (g4.deriv true 0 *ᵥ (fun _ => (1 : ℂ))) = 0 := by
    funext i
    rw [← YeeOps.diffFn_eq g4 (fun _ => rfl)]
    change ((1 : ℂ) - 1) / ((1 : ℝ) : ℂ) = 0
    simp
  have hez : (fun i => 1 / (1 : ℂ) * ((g4.deriv true 0 *ᵥ (fun _ => (1 : ℂ))) i - (g4.deriv true 1 *ᵥ (0 : SField _)) i)) = 0 := by
    funext i; rw [hb, h1, zero_mulVec]; simp
  have hdv : (fun i => (g4.deriv false 0 *ᵥ (0 : SField _)) i + (g4.deriv false 1 *ᵥ (fun _ => (1 : ℂ))) i) = 0 := by
    funext i; rw [h1, zero_mulVec, mulVec_zero]; simp
  refine Prod.ext (funext fun i => ?_) (funext fun i => ?_)
  · have h := (wgm2d_eq g4 (3 / 2) (fun _ _ => 1) 0 (fun _ => 1) i).1
    rw [hez, hdv, mulVec_zero, mulVec_zero] at h
    simpa using h
  · have h := (wgm2d_eq g4 (3 / 2) (fun _ _ => 1) 0 (fun _ => 1) i).2
    rw [hez, hdv, mulVec_zero, mulVec_zero] at h
    simpa using h

/-- Its library, as `solve` builds it from the two transverse eigenvectors. -/
noncomputable def quadLib : ModeLib (shapeOf 4 1 1) :=
  { g := g4, k0 := 3 / 2, epsT := fun _ _ => 1, betas := [3 / 2, 1 / 2],
    modes := .inr [fullH g4 (((3 / 2 : ℝ) : ℂ) ^ 2) (0, fun _ => 1), fullH g4 (((1 / 2 : ℝ) : ℂ) ^ 2) (0, quarter)] }

theorem quad_guided : GuidedLib quadLib (fun _ => 1) 2
    (fun j => if j = 0 then modeH2e g4 (3 / 2) (fun _ _ => 1) ((3 / 2 : ℝ) : ℂ) (fullH g4 (((3 / 2 : ℝ) : ℂ) ^ 2) (0, fun _ => 1))
      else modeH2e g4 (3 / 2) (fun _ _ => 1) ((1 / 2 : ℝ) : ℂ) (fullH g4 (((1 / 2 : ℝ) : ℂ) ^ 2) (0, quarter)))
    (fun j => if j = 0 then fullH g4 (((3 / 2 : ℝ) : ℂ) ^ 2) (0, fun _ => 1) else fullH g4 (((1 / 2 : ℝ) : ℂ) ^ 2) (0, quarter))
    (fun j => if j = 0 then 3 / 2 else 1 / 2) where
  e := by
    intro j hj
    match j, hj with
    | 0, _ => exact ⟨rfl, rfl⟩
    | 1, _ => exact ⟨rfl, rfl⟩
  h := by
    intro j hj
    match j, hj with
    | 0, _ => exact ⟨rfl, rfl⟩
    | 1, _ => exact ⟨rfl, rfl⟩
  lossless := fun c i => one_im
  pos := fun j _ => by split_ifs <;> norm_num
  inj := by
    intro j hj k hk h
    interval_cases j <;> interval_cases k <;> first | exact absurd rfl h | norm_num
  maxwell := by
    intro j hj
    match j, hj with
    | 0, _ => exact (C87_mode_maxwell g4 (fun _ => rfl) (3 / 2) (3 / 2) (by norm_num) (by norm_num) _ (fun _ _ => one_ne_zero) 0 (fun _ => 1) const_mode2d).1
    | 1, _ => exact (C87_mode_maxwell g4 (fun _ => rfl) (3 / 2) (1 / 2) (by norm_num) (by norm_num) _ (fun _ _ => one_ne_zero) 0 quarter quarter_mode2d).1

example (length : ℝ) (w0 w1 : ℂ) : ∃ E H : ℕ → VField (shapeOf 4 1 1), ∃ e h, quadLib.evolve length [w0, w1] false = .ok e ∧ quadLib.evolve length [w0, w1] true = .ok h ∧
    yeeFlux e h = ∑ j ∈ Finset.range 2, (‖[w0, w1].getD j 0‖ ^ 2 : ℝ) * yeeFlux (E j) (H j) :=
  ⟨_, _, C136_power_partial quadLib (fun _ => 1) _ _ _ [w0, w1] quad_guided length⟩

example : yeeFlux (modeH2e g4 (3 / 2) (fun _ _ => 1) ((3 / 2 : ℝ) : ℂ) (fullH g4 (((3 / 2 : ℝ) : ℂ) ^ 2) (0, fun _ => 1)))
    (fullH g4 (((1 / 2 : ℝ) : ℂ) ^ 2) (0, quarter)) = 0 :=
  C135_orthogonal_partial (fun _ => 1) (3 / 2) (3 / 2) (1 / 2) (by norm_num) (by norm_num) (by norm_num) (by norm_num) (fun _ _ => 1) (fun _ _ => one_im)
    (fun _ _ => one_ne_zero) (0, fun _ => 1) (0, quarter) const_mode2d quarter_mode2d

example : ∑ i, poyntingZ ![0, dual0, 0] (ModeLib.hTE g2 1 2 dual1) i =
    ((1 : ℝ) : ℂ) * ((2 : ℝ) : ℂ) * ((1 : ℝ) : ℂ) ^ 2 / 4 * ∑ i, dualEps i * dual0 i * (starRingEnd ℂ) (dual1 i) :=
  C135_te_crosstalk_partial (fun _ => 1) one_ne_zero 1 3 2 one_ne_zero (by norm_num) (by norm_num) (by norm_num) dualEps
    (fun i => by unfold dualEps; split_ifs <;> simp) dual0 dual1 dual_modes.1 dual_modes.2

end Simphox
