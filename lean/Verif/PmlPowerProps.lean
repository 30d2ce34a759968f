import Verif.FdfdPowerProps
import Verif.UtilsProps

/-!
# The PML of a one dimensional `FDFD` (C125)

`FDFD((n,), spacing, pml=...)`, `e_z` polarisation: the derivative cells are stretched by
`scpml(0)` (fdfd.py:93-100, 240-257).
-/

namespace Simphox

open Matrix Complex

/-- The grid of a one dimensional `FDFD` with `n` cells of size `dx` and `t` PML pixels on both sides
(fdfd.py:93-100): uniform positions, the stretching factors `scpml` along `x`; on the axes with one
cell `scpml` returns ones (fdfd.py:242-243). -/
noncomputable def pmlLine (n t : ℕ) (dx expScale logR k0 pmlEps : ℝ) : YeeOps (shapeOf n 1 1) :=
  pmlOps (shapeOf n 1 1) (fun _ => 1) (fun _ => dx) fun back a i =>
    if a = 0 then scpml (fun k => dx * k) n t expScale logR k0 pmlEps (if back then 1 else 0) i else 1

/-! ### Specification -/

/-- The `x` component of the Poynting vector `Re(e × conj h)` of a field with components `e_z`, `h_y`,
between cells `k` and `k+1` (where `h_y[k]` sits on the Yee grid). -/
noncomputable def fluxX (n k : ℕ) [NeZero n] (f : VField (shapeOf n 1 1) × VField (shapeOf n 1 1)) : ℝ :=
  (f.1 1 (cell n k) * (starRingEnd ℂ) (f.2 2 (cell n k)) - f.1 2 (cell n k) * (starRingEnd ℂ) (f.2 1 (cell n k))).re

/-! ### The recursion along the line -/

theorem cell_mod (n k : ℕ) [NeZero n] : cell n (k % n) = cell n k := by
  apply gidx_line_ext
  show (k % n) % n = k % n
  exact Nat.mod_mod _ _

theorem cell_add (n k : ℕ) [NeZero n] : cell n (k + n) = cell n k := by
  rw [← cell_mod n (k + n), Nat.add_mod_right, cell_mod]

theorem cell_succ (n k : ℕ) [NeZero n] : Function.update (cell n k) 0 (cell n k 0 + 1) = cell n (k + 1) := by
  have h := cell_next n (k % n) (Nat.mod_lt _ (NeZero.pos n))
  rw [cell_mod, cell_mod] at h
  rw [h]
  apply gidx_line_ext
  show (k % n + 1) % n = (k + 1) % n
  rw [Nat.mod_add_mod]

theorem cell_pred (n k : ℕ) [NeZero n] : Function.update (cell n (k + 1)) 0 (cell n (k + 1) 0 - 1) = cell n k := by
  rw [← cell_succ, Function.update_idem, Function.update_self]
  have : cell n k 0 + 1 - 1 = cell n k 0 := add_sub_cancel_right (cell n k 0) 1
  rw [this, Function.update_eq_self]

theorem exists_cell (n : ℕ) [NeZero n] (i : GIdx (shapeOf n 1 1)) : ∃ k : ℕ, k < n ∧ i = cell n k := by
  have hi : ((i 0 : Fin (shapeOf n 1 1 0)) : ℕ) < n := (i 0).isLt
  exact ⟨_, hi, gidx_line_ext (show _ = (_ : ℕ) % n from (Nat.mod_eq_of_lt hi).symm)⟩

theorem line_ez (n : ℕ) [NeZero n] (g : YeeOps (shapeOf n 1 1)) (hb : g.bloch 0 = 1) (k0 : ℝ)
    (epsT : VField (shapeOf n 1 1)) (u : SField (shapeOf n 1 1)) (k : ℕ) :
    (fdfdMatEz g k0 epsT *ᵥ u) (cell n (k + 1)) =
      -(((u (cell n (k + 2)) - u (cell n (k + 1))) / g.dx false 0 (cell n (k + 1) 0)
        - (u (cell n (k + 1)) - u (cell n k)) / g.dx false 0 (cell n k 0)) / g.dx true 0 (cell n (k + 1) 0))
      - k0 ^ 2 * (epsT 2 (cell n (k + 1)) * u (cell n (k + 1))) := by
  rw [fdfdMatEz_mulVec, deriv_one_cell g true 1 (shapeOf_one (by decide)), Matrix.zero_mulVec, YeeOps.deriv_backward_mulVec,
    cell_pred, hb, wrapFac_one]
  have hf : ∀ j, (g.deriv false 0 *ᵥ u) (cell n j) = (u (cell n (j + 1)) - u (cell n j)) / g.dx false 0 (cell n j 0) := by
    intro j
    rw [YeeOps.deriv_forward_mulVec, cell_succ, hb, wrapFac_one, one_mul]
  simp only [one_mul, map_one, hf, Pi.zero_apply, sub_zero]

/-- One step of the discrete Poynting theorem. -/
theorem flux_step (u : ℕ → ℂ) (E H eps src : ℕ → ℂ) (k0 : ℝ) (hH : ∀ k, H k ≠ 0) (k : ℕ)
    (h : -(((u (k + 2) - u (k + 1)) / E (k + 1) - (u (k + 1) - u k) / E k) / H (k + 1)) - k0 ^ 2 * (eps (k + 1) * u (k + 1))
      = k0 * src (k + 1)) :
    let F := fun k => ((u (k + 1) - u k) / E k * (starRingEnd ℂ) (u (k + 1))).im
    F (k + 1) - F k = ‖u (k + 2) - u (k + 1)‖ ^ 2 * (E (k + 1))⁻¹.im
      - k0 ^ 2 * ‖u (k + 1)‖ ^ 2 * (H (k + 1) * eps (k + 1)).im
      - k0 * (H (k + 1) * src (k + 1) * (starRingEnd ℂ) (u (k + 1))).im := by
  intro F
  have hH' := hH (k + 1)
  have h1 : (u (k + 2) - u (k + 1)) / E (k + 1) - (u (k + 1) - u k) / E k =
      -(H (k + 1) * (k0 * src (k + 1) + k0 ^ 2 * (eps (k + 1) * u (k + 1)))) := by
    rw [← h]; field_simp; ring
  have h2 : (u (k + 2) - u (k + 1)) / E (k + 1) * (starRingEnd ℂ) (u (k + 2))
      - (u (k + 1) - u k) / E k * (starRingEnd ℂ) (u (k + 1)) =
      ((‖u (k + 2) - u (k + 1)‖ ^ 2 : ℝ) : ℂ) * (E (k + 1))⁻¹
      - ((k0 ^ 2 * ‖u (k + 1)‖ ^ 2 : ℝ) : ℂ) * (H (k + 1) * eps (k + 1))
      - (k0 : ℂ) * (H (k + 1) * src (k + 1) * (starRingEnd ℂ) (u (k + 1))) := by
    have n1 := mul_conj_norm (u (k + 2) - u (k + 1))
    have n2 := mul_conj_norm (u (k + 1))
    rw [ofReal_mul, ← n1, ← n2]
    simp only [star_def, map_sub, ofReal_pow]
    linear_combination (starRingEnd ℂ) (u (k + 1)) * h1
  have h3 := congrArg Complex.im h2
  rw [sub_im, sub_im, sub_im, im_ofReal_mul, im_ofReal_mul, im_ofReal_mul] at h3
  exact h3

/-- A periodic line with stretching of one sign: the flux does not decrease (times the sign) from the
last source cell `b` through the layers to the first source cell `a`; if it stays the same the field
vanishes there. -/
theorem line_dichotomy (n t : ℕ) (u E H eps src : ℕ → ℂ) (k0 sg : ℝ) (hk : k0 ≠ 0)
    (hE0 : ∀ k, E k ≠ 0) (hH0 : ∀ k, H k ≠ 0) (hE : ∀ k, 0 ≤ sg * (E k)⁻¹.im) (hH : ∀ k, sg * (H k).im ≤ 0)
    (hHs : ∀ k, k % n < t → sg * (H k).im < 0) (heps : ∀ k, 0 < (eps k).re ∧ (eps k).im = 0) (ht : 3 < t) (hn : 2 * t < n)
    (h : ∀ k, -(((u (k + 2) - u (k + 1)) / E (k + 1) - (u (k + 1) - u k) / E k) / H (k + 1)) - k0 ^ 2 * (eps (k + 1) * u (k + 1))
      = k0 * src (k + 1)) (a b : ℕ) (ha : t ≤ a) (hb : b < n) (hs : ∀ k, b < k → k < n + a → src k = 0) :
    let F := fun k => ((u (k + 1) - u k) / E k * (starRingEnd ℂ) (u (k + 1))).im
    sg * F b ≤ sg * F (n + a - 1) ∧ (F b = F (n + a - 1) → ∀ k, b ≤ k → k ≤ n + a → u k = 0) := by
  intro F
  have hk2 : 0 < k0 ^ 2 := by positivity
  have step : ∀ k, b ≤ k → k + 1 < n + a → sg * F (k + 1) - sg * F k =
      ‖u (k + 2) - u (k + 1)‖ ^ 2 * (sg * (E (k + 1))⁻¹.im) + k0 ^ 2 * ‖u (k + 1)‖ ^ 2 * ((eps (k + 1)).re * -(sg * (H (k + 1)).im)) := by
    intro k h1 h2
    have := flux_step u E H eps src k0 hH0 k (h k)
    rw [hs (k + 1) (by omega) h2] at this
    simp only [mul_zero, zero_mul, zero_im, sub_zero] at this
    rw [mul_im (H (k + 1)), (heps (k + 1)).2, mul_zero, zero_add] at this
    rw [← mul_sub]
    show sg * (F (k + 1) - F k) = _
    rw [this]; ring
  have t1 : ∀ k, 0 ≤ ‖u (k + 2) - u (k + 1)‖ ^ 2 * (sg * (E (k + 1))⁻¹.im) := fun k => mul_nonneg (sq_nonneg _) (hE _)
  have t2 : ∀ k, 0 ≤ k0 ^ 2 * ‖u (k + 1)‖ ^ 2 * ((eps (k + 1)).re * -(sg * (H (k + 1)).im)) := fun k =>
    mul_nonneg (mul_nonneg hk2.le (sq_nonneg _)) (mul_nonneg (heps _).1.le (neg_nonneg.2 (hH _)))
  have mono : ∀ j k, b ≤ k → k + j < n + a → sg * F k ≤ sg * F (k + j) := by
    intro j
    induction j with
    | zero => intro k _ _; exact le_rfl
    | succ j ih =>
      intro k h1 h2
      have h3 := ih k h1 (by omega)
      have h4 := step (k + j) (by omega) (by omega)
      have := t1 (k + j)
      have := t2 (k + j)
      rw [show k + (j + 1) = k + j + 1 by omega]
      linarith
  refine ⟨?_, ?_⟩
  · have := mono (n + a - 1 - b) b le_rfl (by omega)
    rwa [show b + (n + a - 1 - b) = n + a - 1 by omega] at this
  · intro heq
    have const : ∀ k, b ≤ k → k < n + a → sg * F k = sg * F b := by
      intro k h1 h2
      have m1 := mono (k - b) b le_rfl (by omega)
      have m2 := mono (n + a - 1 - k) k h1 (by omega)
      rw [show b + (k - b) = k by omega] at m1
      rw [show k + (n + a - 1 - k) = n + a - 1 by omega, ← heq] at m2
      exact le_antisymm m2 m1
    have zero : ∀ k, b ≤ k → k + 1 < n + a → (k + 1) % n < t → u (k + 1) = 0 := by
      intro k h1 h2 h3
      have e := step k h1 h2
      rw [const k h1 (by omega), const (k + 1) (by omega) h2, sub_self] at e
      have := t1 k
      have z : k0 ^ 2 * ‖u (k + 1)‖ ^ 2 * ((eps (k + 1)).re * -(sg * (H (k + 1)).im)) = 0 := le_antisymm (by linarith) (t2 k)
      have p : 0 < (eps (k + 1)).re * -(sg * (H (k + 1)).im) := mul_pos (heps _).1 (neg_pos.2 (hHs _ h3))
      have z1 := (mul_eq_zero.1 ((mul_eq_zero.1 z).resolve_right p.ne')).resolve_left hk2.ne'
      exact norm_eq_zero.1 (pow_eq_zero_iff two_ne_zero |>.1 z1)
    have zn : u n = 0 := by
      have := zero (n - 1) (by omega) (by omega) (by rw [show n - 1 + 1 = n by omega, Nat.mod_self]; omega)
      rwa [show n - 1 + 1 = n by omega] at this
    have zn1 : u (n + 1) = 0 := zero n (by omega) (by omega) (by
      rw [Nat.add_mod_left, Nat.mod_eq_of_lt (by omega)]; omega)
    have recu : ∀ k, b ≤ k → k + 1 < n + a → u (k + 1) = 0 → (u (k + 2) / E (k + 1) + u k / E k) = 0 := by
      intro k h1 h2 h3
      have e := h k
      rw [hs (k + 1) (by omega) h2, h3] at e
      simp only [mul_zero, sub_zero, zero_sub, neg_eq_zero, div_eq_zero_iff, hH0, or_false] at e
      rw [← e]; ring
    have up : ∀ j, n + j < n + a → u (n + j) = 0 ∧ u (n + j + 1) = 0 := by
      intro j
      induction j with
      | zero => intro _; exact ⟨zn, zn1⟩
      | succ j ih =>
        intro hj
        obtain ⟨i1, i2⟩ := ih (by omega)
        have := recu (n + j) (by omega) (by omega) i2
        rw [i1, zero_div, add_zero, div_eq_zero_iff] at this
        exact ⟨i2, this.resolve_right (hE0 _)⟩
    have down : ∀ j, b + j ≤ n → u (n - j) = 0 ∧ u (n - j + 1) = 0 := by
      intro j
      induction j with
      | zero => intro _; exact ⟨zn, zn1⟩
      | succ j ih =>
        intro hj
        obtain ⟨i1, i2⟩ := ih (by omega)
        have := recu (n - (j + 1)) (by omega) (by omega) (by rw [show n - (j + 1) + 1 = n - j by omega]; exact i1)
        rw [show n - (j + 1) + 2 = n - j + 1 by omega, i2, zero_div, zero_add, div_eq_zero_iff] at this
        exact ⟨this.resolve_right (hE0 _), by rw [show n - (j + 1) + 1 = n - j by omega]; exact i1⟩
    intro k h1 h2
    rcases Nat.lt_or_ge n k with h3 | h3
    · have := (up (k - n - 1) (by omega)).2
      rwa [show n + (k - n - 1) + 1 = k by omega] at this
    · have := (down (n - k) (by omega)).1
      rwa [show n - (n - k) = k by omega] at this

theorem pmlLine_facts (n t : ℕ) [NeZero n] (ht : 3 < t) (hn : 2 * t < n) (dx m logR k0 pmlEps sg : ℝ) (hdx : 0 < dx) (hm : 0 < m)
    (hR : sg * logR < 0) (hk : 0 < k0) (hp : 0 < pmlEps) :
    let g := pmlLine n t dx m logR k0 pmlEps
    (∀ p k, g.dx p 0 (cell n k 0) ≠ 0) ∧ (∀ k, 0 ≤ sg * (g.dx false 0 (cell n k 0))⁻¹.im) ∧
      (∀ k, sg * (g.dx true 0 (cell n k 0)).im ≤ 0) ∧ (∀ k, k % n < t → sg * (g.dx true 0 (cell n k 0)).im < 0) ∧
      ∀ p k, t ≤ k % n → k % n ≤ n - t → g.dx p 0 (cell n k 0) = dx := by
  intro g
  have hpos : ∀ i j : ℕ, i < j → j ≤ n → (fun k : ℕ => dx * k) i < (fun k : ℕ => dx * k) j := by
    intro i j h _
    simp only
    exact mul_lt_mul_of_pos_left (by exact_mod_cast h) hdx
  have hR0 : logR ≠ 0 := by rintro rfl; simp at hR
  have P := fun c => C79_pml_profile (fun k : ℕ => dx * k) n t hpos (by omega) hn m logR k0 pmlEps hm hR0 hk.ne' hp.ne' c
  have D := fun c => pmlDepth_props hpos (by omega : 0 < t) hn c
  have hg : ∀ p k, g.dx p 0 (cell n k 0) = dx * ⟨1, pmlSigma (fun k : ℕ => dx * k) n t m logR (k0 * pmlEps) (if p then 1 else 0) (k % n)⟩ := by
    intro p k
    rw [← (P _).2.2.2.2]
    rfl
  have hsig : ∀ c i, i < n → sg * pmlSigma (fun k : ℕ => dx * k) n t m logR (k0 * pmlEps) c i ≤ 0 := by
    intro c i hi
    have : sg * pmlSigma (fun k : ℕ => dx * k) n t m logR (k0 * pmlEps) c i =
      (sg * logR) * ((m + 1) * (pmlDepth (fun k : ℕ => dx * k) n t c i ^ m) / (2 * (k0 * pmlEps))) := by unfold pmlSigma; ring
    rw [this]
    refine mul_nonpos_of_nonpos_of_nonneg hR.le (div_nonneg (mul_nonneg (by linarith) (Real.rpow_nonneg ((D c).1 i hi).1 _)) (by positivity))
  have hn0 : 0 < n := by omega
  have hre : ∀ p k, (g.dx p 0 (cell n k 0)).re = dx := by
    intro p k; rw [hg, re_ofReal_mul, mul_one]
  have him : ∀ p k, (g.dx p 0 (cell n k 0)).im = dx * pmlSigma (fun k : ℕ => dx * k) n t m logR (k0 * pmlEps) (if p then 1 else 0) (k % n) := by
    intro p k; rw [hg, im_ofReal_mul]
  have hne : ∀ p k, g.dx p 0 (cell n k 0) ≠ 0 := by
    intro p k h0
    have := hre p k
    rw [h0, zero_re] at this
    exact hdx.ne this
  refine ⟨hne, fun k => ?_, fun k => ?_, fun k hkt => ?_, fun p k h1 h2 => ?_⟩
  · rw [inv_im, him, ← mul_div_assoc]
    refine div_nonneg ?_ (normSq_nonneg _)
    have := hsig (if false = true then 1 else 0) (k % n) (Nat.mod_lt _ hn0)
    nlinarith
  · rw [him]
    have := hsig (if true = true then 1 else 0) (k % n) (Nat.mod_lt _ hn0)
    nlinarith
  · rw [him]
    have h1 := hsig (if true = true then 1 else 0) (k % n) (Nat.mod_lt _ hn0)
    have h2 : pmlSigma (fun k : ℕ => dx * k) n t m logR (k0 * pmlEps) (if true = true then 1 else 0) (k % n) ≠ 0 := by
      intro h0
      have := (P (if true = true then 1 else 0)).2.1 (k % n) t hkt le_rfl
      rw [h0, abs_zero] at this
      exact absurd (abs_nonneg _) (not_le.2 this)
    have h3 : sg ≠ 0 := by rintro rfl; simp at hR
    have h4 := lt_of_le_of_ne h1 (mul_ne_zero h3 h2)
    nlinarith
  · rw [hg, ← (P _).2.2.2.2, ((P _).1 (k % n) h1 h2).2, mul_one]

/-! ### C125 -/

/-- The hypotheses of C125 on the simulation: `t` PML pixels (the constructor requires more than 3 and
less than half of the cells), positive cell size, wavenumber and PML constants, real positive
permittivity. -/
structure PmlSim (n t : ℕ) (dx m k0 pmlEps : ℝ) (epsT : VField (shapeOf n 1 1)) : Prop where
  thick : 3 < t
  fits : 2 * t < n
  cell : 0 < dx
  expo : 0 < m
  freq : 0 < k0
  corr : 0 < pmlEps
  eps : ∀ i, 0 < (epsT 2 i).re ∧ (epsT 2 i).im = 0

/-- C125, well-posedness: a one dimensional lossless simulation with PML has exactly one solution for
every right-hand side, at every frequency. -/
theorem C125_unique (n t : ℕ) [NeZero n] (dx m logR k0 pmlEps : ℝ) (hR : logR ≠ 0) (epsT : VField (shapeOf n 1 1))
    (hs : PmlSim n t dx m k0 pmlEps epsT) (w : SField (shapeOf n 1 1)) :
    ∃! v, fdfdMatEz (pmlLine n t dx m logR k0 pmlEps) k0 epsT *ᵥ v = w := by
  refine bijective_of_ker _ (fun v hv => ?_) w
  set g := pmlLine n t dx m logR k0 pmlEps with hg
  obtain ⟨sg, hsg⟩ : ∃ sg : ℝ, sg * logR < 0 := ⟨-logR, by have := mul_self_pos.2 hR; linarith⟩
  have hsg0 : sg ≠ 0 := by rintro rfl; simp at hsg
  obtain ⟨f1, f2, f3, f4, f5⟩ := pmlLine_facts n t hs.thick hs.fits dx m logR k0 pmlEps sg hs.cell hs.expo hsg hs.freq hs.corr
  have heq : ∀ k, -(((v (cell n (k + 2)) - v (cell n (k + 1))) / g.dx false 0 (cell n (k + 1) 0)
        - (v (cell n (k + 1)) - v (cell n k)) / g.dx false 0 (cell n k 0)) / g.dx true 0 (cell n (k + 1) 0))
      - k0 ^ 2 * (epsT 2 (cell n (k + 1)) * v (cell n (k + 1))) = k0 * (0 : ℕ → ℂ) (k + 1) := by
    intro k
    rw [← line_ez n g rfl, hv]; simp
  have ht := hs.thick
  have hn := hs.fits
  have d2 := line_dichotomy n t (fun k => v (cell n k)) (fun k => g.dx false 0 (cell n k 0)) (fun k => g.dx true 0 (cell n k 0))
    (fun k => epsT 2 (cell n k)) 0 k0 sg hs.freq.ne' (f1 false) (f1 true) f2 f3 f4 (fun k => hs.eps _) hs.thick hs.fits heq
    (t + 1) t (by omega) (by omega) (fun _ _ _ => rfl)
  simp only at d2
  have z := d2.2 (by
    have e : n + (t + 1) - 1 = t + n := by omega
    simp only [e, show t + n + 1 = t + 1 + n by omega, cell_add])
  funext i
  obtain ⟨k, hkn, rfl⟩ := exists_cell n i
  rcases Nat.lt_or_ge k t with h | h
  · have := z (k + n) (by omega) (by omega)
    rwa [cell_add] at this
  · exact z k h (by omega)

theorem fluxX_eq (n t : ℕ) [NeZero n] (dx m logR k0 pmlEps : ℝ) (epsT : VField (shapeOf n 1 1))
    (solver : Solver (GIdx (shapeOf n 1 1))) (src : SField (shapeOf n 1 1)) (k : ℕ) (hk : k0 ≠ 0)
    (hr : ((pmlLine n t dx m logR k0 pmlEps).dx false 0 (cell n k 0)) = dx) :
    let g := pmlLine n t dx m logR k0 pmlEps
    let f := solve2d g k0 epsT false solver src
    fluxX n k f = ((f.1 2 (cell n (k + 1)) - f.1 2 (cell n k)) / g.dx false 0 (cell n k 0) *
      (starRingEnd ℂ) (f.1 2 (cell n (k + 1)))).im / k0 := by
  intro g f
  set u := f.1 2 with hu
  have h1 : f.1 1 (cell n k) = 0 := rfl
  have h2 : f.2 1 (cell n k) = -(g.diffFn false u 0 (cell n k)) / (I * k0) := rfl
  have h3 : g.diffFn false u 0 (cell n k) = (u (cell n (k + 1)) - u (cell n k)) / dx := by
    rw [YeeOps.diffFn_eq g (fun _ => rfl), YeeOps.deriv_forward_mulVec, cell_succ]
    change (wrapFac _ 1 _ * _ - _) / _ = _
    rw [wrapFac_one, one_mul, hr]
  rw [fluxX, h1, h2, h3, hr, zero_mul, zero_sub]
  show (-(u (cell n k) * _)).re = _
  generalize u (cell n k) = x
  generalize u (cell n (k + 1)) = y
  have e1 : (y - x) / (dx : ℂ) * (starRingEnd ℂ) y = ((1 / dx : ℝ) : ℂ) * ((y - x) * (starRingEnd ℂ) y) := by push_cast; ring
  have e2 : -(x * (starRingEnd ℂ) (-((y - x) / (dx : ℂ)) / (I * k0))) =
      ((1 / (dx * k0) : ℝ) : ℂ) * (I * x * ((starRingEnd ℂ) y - (starRingEnd ℂ) x)) := by
    simp only [map_div₀, map_neg, map_sub, map_mul, conj_I, conj_ofReal]
    push_cast
    have : (k0 : ℂ) ≠ 0 := by exact_mod_cast hk
    rw [show (-I * (k0 : ℂ)) = -(I * k0) by ring, div_neg, ← neg_div, neg_neg]
    have hI : (1 : ℂ) / I = -I := by rw [one_div, inv_I]
    rw [show ((starRingEnd ℂ) y - (starRingEnd ℂ) x) / (dx : ℂ) / (I * k0) = (1 / I) * (((starRingEnd ℂ) y - (starRingEnd ℂ) x) / (dx * k0)) by
      field_simp, hI]
    ring
  rw [e1, e2, im_ofReal_mul, re_ofReal_mul]
  simp only [mul_re, mul_im, sub_re, sub_im, conj_re, conj_im, I_re, I_im]
  ring

/-- The solution of a run whose sources lie in the cells `a..b`. -/
structure PmlRun (n t : ℕ) [NeZero n] (dx m logR k0 pmlEps : ℝ) (epsT : VField (shapeOf n 1 1))
    (solver : Solver (GIdx (shapeOf n 1 1))) (src : SField (shapeOf n 1 1)) (a b : ℕ) : Prop where
  sim : PmlSim n t dx m k0 pmlEps epsT
  solved : fdfdMatEz (pmlLine n t dx m logR k0 pmlEps) k0 epsT *ᵥ
      solver (fdfdMatEz (pmlLine n t dx m logR k0 pmlEps) k0 epsT) (fun i => (k0 : ℂ) * src i) = fun i => (k0 : ℂ) * src i
  left : t < a
  order : a ≤ b
  right : b ≤ n - t
  support : ∀ k, k < n → (k < a ∨ b < k) → src (cell n k) = 0

theorem pml_run_flux (n t : ℕ) [NeZero n] (dx m logR k0 pmlEps sg : ℝ) (hR : sg * logR < 0) (epsT : VField (shapeOf n 1 1))
    (solver : Solver (GIdx (shapeOf n 1 1))) (src : SField (shapeOf n 1 1)) (a b : ℕ)
    (r : PmlRun n t dx m logR k0 pmlEps epsT solver src a b) :
    let f := solve2d (pmlLine n t dx m logR k0 pmlEps) k0 epsT false solver src
    sg * (fluxX n b f - fluxX n (a - 1) f) ≤ 0 ∧
      (fluxX n b f = fluxX n (a - 1) f → ∀ k, k < n → (k ≤ a ∨ b ≤ k) → f.1 2 (cell n k) = 0) := by
  intro f
  set g := pmlLine n t dx m logR k0 pmlEps with hg
  obtain ⟨f1, f2, f3, f4, f5⟩ := pmlLine_facts n t r.sim.thick r.sim.fits dx m logR k0 pmlEps sg r.sim.cell r.sim.expo hR r.sim.freq r.sim.corr
  have ht := r.sim.thick
  have hn := r.sim.fits
  have h1 := r.left
  have h2 := r.order
  have h3 := r.right
  have hk := r.sim.freq
  have heq : ∀ k, -(((f.1 2 (cell n (k + 2)) - f.1 2 (cell n (k + 1))) / g.dx false 0 (cell n (k + 1) 0)
        - (f.1 2 (cell n (k + 1)) - f.1 2 (cell n k)) / g.dx false 0 (cell n k 0)) / g.dx true 0 (cell n (k + 1) 0))
      - k0 ^ 2 * (epsT 2 (cell n (k + 1)) * f.1 2 (cell n (k + 1))) = k0 * (fun k => src (cell n k)) (k + 1) := by
    intro k
    rw [← line_ez n g rfl]
    exact congrFun r.solved (cell n (k + 1))
  have hsup : ∀ k, b < k → k < n + a → src (cell n k) = 0 := by
    intro k h4 h5
    rcases Nat.lt_or_ge k n with h6 | h6
    · exact r.support k h6 (Or.inr h4)
    · rw [show k = k - n + n by omega, cell_add]
      exact r.support (k - n) (by omega) (Or.inl (by omega))
  have d := line_dichotomy n t (fun k => f.1 2 (cell n k)) (fun k => g.dx false 0 (cell n k 0)) (fun k => g.dx true 0 (cell n k 0))
    (fun k => epsT 2 (cell n k)) (fun k => src (cell n k)) k0 sg hk.ne' (f1 false) (f1 true) f2 f3 f4 (fun k => r.sim.eps _)
    ht hn heq a b h1.le (by omega) hsup
  simp only at d
  have eb : fluxX n b f = _ := fluxX_eq n t dx m logR k0 pmlEps epsT solver src b hk.ne'
    (f5 false b (by rw [Nat.mod_eq_of_lt (by omega)]; omega) (by rw [Nat.mod_eq_of_lt (by omega)]; omega))
  have ea : fluxX n (a - 1) f = _ := fluxX_eq n t dx m logR k0 pmlEps epsT solver src (a - 1) hk.ne'
    (f5 false (a - 1) (by rw [Nat.mod_eq_of_lt (by omega)]; omega) (by rw [Nat.mod_eq_of_lt (by omega)]; omega))
  have w1 : cell n (n + a - 1) = cell n (a - 1) := by rw [show n + a - 1 = a - 1 + n by omega, cell_add]
  have w2 : cell n (n + a - 1 + 1) = cell n (a - 1 + 1) := by rw [show n + a - 1 + 1 = a - 1 + 1 + n by omega, cell_add]
  rw [w1, w2] at d
  rw [eb, ea]
  refine ⟨?_, fun he k hkn hab => ?_⟩
  · have e : ∀ x y : ℝ, sg * (x / k0 - y / k0) = (sg * x - sg * y) / k0 := fun x y => by ring
    rw [e]
    exact div_nonpos_of_nonpos_of_nonneg (sub_nonpos.2 d.1) hk.le
  · have he' := (div_left_inj' hk.ne').1 he
    rcases hab with h | h
    · have := d.2 he' (k + n) (by omega) (by omega)
      rwa [cell_add] at this
    · exact d.2 he' k h (by omega)

/-- C125, between the sources and the layers: the flux is the same on both sides of a cell without
source. -/
theorem C125_conserved_partial (n t : ℕ) [NeZero n] (dx m logR k0 pmlEps : ℝ) (hR : logR ≠ 0) (epsT : VField (shapeOf n 1 1))
    (solver : Solver (GIdx (shapeOf n 1 1))) (src : SField (shapeOf n 1 1)) (a b : ℕ)
    (r : PmlRun n t dx m logR k0 pmlEps epsT solver src a b) (k : ℕ) (h1 : t < k) (h2 : k ≤ n - t)
    (h3 : src (cell n k) = 0) :
    let f := solve2d (pmlLine n t dx m logR k0 pmlEps) k0 epsT false solver src
    fluxX n k f = fluxX n (k - 1) f := by
  intro f
  set g := pmlLine n t dx m logR k0 pmlEps with hg
  obtain ⟨sg, hsg⟩ : ∃ sg : ℝ, sg * logR < 0 := ⟨-logR, by have := mul_self_pos.2 hR; linarith⟩
  obtain ⟨f1, -, -, -, f5⟩ := pmlLine_facts n t r.sim.thick r.sim.fits dx m logR k0 pmlEps sg r.sim.cell r.sim.expo hsg r.sim.freq r.sim.corr
  have ht := r.sim.thick
  have hn := r.sim.fits
  have hk := r.sim.freq
  have rl : ∀ p j, t ≤ j → j ≤ n - t → g.dx p 0 (cell n j 0) = dx := fun p j a1 a2 =>
    f5 p j (by rw [Nat.mod_eq_of_lt (by omega)]; omega) (by rw [Nat.mod_eq_of_lt (by omega)]; omega)
  have heq : ∀ k, -(((f.1 2 (cell n (k + 2)) - f.1 2 (cell n (k + 1))) / g.dx false 0 (cell n (k + 1) 0)
        - (f.1 2 (cell n (k + 1)) - f.1 2 (cell n k)) / g.dx false 0 (cell n k 0)) / g.dx true 0 (cell n (k + 1) 0))
      - k0 ^ 2 * (epsT 2 (cell n (k + 1)) * f.1 2 (cell n (k + 1))) = k0 * (fun k => src (cell n k)) (k + 1) := by
    intro k
    rw [← line_ez n g rfl]
    exact congrFun r.solved (cell n (k + 1))
  have st := flux_step (fun k => f.1 2 (cell n k)) (fun k => g.dx false 0 (cell n k 0)) (fun k => g.dx true 0 (cell n k 0))
    (fun k => epsT 2 (cell n k)) (fun k => src (cell n k)) k0 (f1 true) (k - 1) (heq (k - 1))
  simp only [show k - 1 + 1 = k by omega] at st
  have eb : fluxX n k f = _ := fluxX_eq n t dx m logR k0 pmlEps epsT solver src k hk.ne' (rl false k (by omega) h2)
  have ea : fluxX n (k - 1) f = _ := fluxX_eq n t dx m logR k0 pmlEps epsT solver src (k - 1) hk.ne' (rl false (k - 1) (by omega) (by omega))
  rw [eb, ea, show k - 1 + 1 = k by omega]
  rw [h3, rl false k (by omega) h2, rl true k (by omega) h2, ← ofReal_inv, ofReal_im, im_ofReal_mul, (r.sim.eps _).2] at st
  simp only [mul_zero, zero_mul, zero_im, sub_zero, sub_self] at st
  rw [rl false k (by omega) h2]
  congr 1
  linarith

/-- C125 with a positive `log_reflectivity`: the net power that leaves the sources is not negative. -/
theorem C125_outward_partial (n t : ℕ) [NeZero n] (dx m logR k0 pmlEps : ℝ) (hR : 0 < logR) (epsT : VField (shapeOf n 1 1))
    (solver : Solver (GIdx (shapeOf n 1 1))) (src : SField (shapeOf n 1 1)) (a b : ℕ)
    (r : PmlRun n t dx m logR k0 pmlEps epsT solver src a b) :
    let f := solve2d (pmlLine n t dx m logR k0 pmlEps) k0 epsT false solver src
    0 ≤ fluxX n b f - fluxX n (a - 1) f := by
  intro f
  have := (pml_run_flux n t dx m logR k0 pmlEps (-1) (by linarith) epsT solver src a b r).1
  linarith

/-- C125 with a negative `log_reflectivity` (the default is -16): the net Poynting flux of the returned
fields out of the source region is never positive, and it is negative unless the field vanishes
everywhere outside. -/
theorem C125_inward_partial (n t : ℕ) [NeZero n] (dx m logR k0 pmlEps : ℝ) (hR : logR < 0) (epsT : VField (shapeOf n 1 1))
    (solver : Solver (GIdx (shapeOf n 1 1))) (src : SField (shapeOf n 1 1)) (a b : ℕ)
    (r : PmlRun n t dx m logR k0 pmlEps epsT solver src a b) :
    let f := solve2d (pmlLine n t dx m logR k0 pmlEps) k0 epsT false solver src
    fluxX n b f - fluxX n (a - 1) f ≤ 0 ∧
      ((∃ k < n, (k ≤ a ∨ b ≤ k) ∧ f.1 2 (cell n k) ≠ 0) → fluxX n b f - fluxX n (a - 1) f < 0) := by
  intro f
  obtain ⟨h1, h2⟩ := pml_run_flux n t dx m logR k0 pmlEps 1 (by linarith) epsT solver src a b r
  rw [one_mul] at h1
  refine ⟨h1, fun ⟨k, hk, hab, hne⟩ => lt_of_le_of_ne h1 fun h0 => hne (h2 (sub_eq_zero.1 h0) k hk hab)⟩

/-- C125 fails with the default PML parameters `(4, -16, 1.0)`: for every grid, wavelength, lossless
device and nonzero point source between the layers, the Poynting vectors of the returned fields on the
two sides of the source carry net power towards the source. -/
theorem C125_default_counterexample (n t : ℕ) [NeZero n] (dx k0 : ℝ) (epsT : VField (shapeOf n 1 1))
    (solver : Solver (GIdx (shapeOf n 1 1))) (src : SField (shapeOf n 1 1)) (a : ℕ)
    (r : PmlRun n t dx 4 (-16) k0 1 epsT solver src a a) (hsrc : src (cell n a) ≠ 0) :
    let f := solve2d (pmlLine n t dx 4 (-16) k0 1) k0 epsT false solver src
    fluxX n a f - fluxX n (a - 1) f < 0 := by
  intro f
  obtain ⟨h1, h2⟩ := pml_run_flux n t dx 4 (-16) k0 1 1 (by norm_num) epsT solver src a a r
  rw [one_mul] at h1
  refine lt_of_le_of_ne h1 fun h0 => hsrc ?_
  have hz := h2 (sub_eq_zero.1 h0)
  have hf : solver (fdfdMatEz (pmlLine n t dx 4 (-16) k0 1) k0 epsT) (fun i => (k0 : ℂ) * src i) = 0 := by
    funext i
    obtain ⟨k, hk, rfl⟩ := exists_cell n i
    exact hz k hk (by omega)
  have hs := congrFun r.solved (cell n a)
  rw [hf, Matrix.mulVec_zero] at hs
  have hk : (k0 : ℂ) ≠ 0 := by exact_mod_cast r.sim.freq.ne'
  simpa [hk] using hs.symm

/-- The hypotheses of C125 are met: 20 cells, 5 PML pixels, uniform medium of permittivity 2, a point
source in cell 9, the solver that returns the unique solution. -/
example : ∃ solver : Solver (GIdx (shapeOf 20 1 1)),
    PmlRun 20 5 (1 / 10) 4 (-16) 4 1 (fun _ _ => 2) solver (fun i => if i = cell 20 9 then 1 else 0) 9 9 := by
  have hs : PmlSim 20 5 (1 / 10) 4 4 1 (fun _ _ => 2) :=
    ⟨by norm_num, by norm_num, by norm_num, by norm_num, by norm_num, by norm_num, fun _ => by simp⟩
  have hu := C125_unique 20 5 (1 / 10) 4 (-16) 4 1 (by norm_num) (fun _ _ => 2) hs
  refine ⟨fun _ w => (hu w).choose, hs, (hu _).choose_spec.1, by norm_num, le_rfl, by norm_num, fun k hk h => if_neg ?_⟩
  intro he
  have := congrArg (fun i : GIdx (shapeOf 20 1 1) => ((i 0 : Fin _) : ℕ)) he
  change k % 20 = 9 % 20 at this
  omega

end Simphox
