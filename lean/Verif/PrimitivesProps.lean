import Mathlib.Analysis.Matrix.Normed
import Mathlib.Analysis.Calculus.FDeriv.Mul
import Mathlib.Analysis.Calculus.FDeriv.Pi
import Verif.PrimitivesLemmas
import Verif.FdfdProps

/-!
# C50 (differentiable FDFD assembles the same matrix), C51 (sparse-solve VJP), C52 (TM operator VJP)
-/

namespace Simphox

open Matrix Complex

variable {s : Fin 3 → ℕ} [∀ a, NeZero (s a)]

/-! ### C50 -/

theorem re_pos_ne_zero {z : ℂ} (h : 0 < z.re) : z ≠ 0 := by
  rintro rfl; simp at h

theorem wrapFac_ne_zero {n : ℕ} (b : ℂ) (hb : ‖b‖ = 1) (i : Fin n) : wrapFac n b i ≠ 0 := by
  intro h
  have := wrapFac_norm b hb i
  rw [h, zero_mul] at this
  exact zero_ne_one this

omit [∀ a, NeZero (s a)] in
theorem d1_one_cell (g : YeeOps s) (p : Bool) (a : Fin 3) (hs : s a = 1) : g.d1 p a = 0 := by
  unfold YeeOps.d1
  have : ¬ 1 < s a := by omega
  have h0 : (if p then bwd1 (s a) (g.bloch a) else fwd1 (s a) (g.bloch a)) = 0 := by
    unfold bwd1 fwd1
    rw [if_neg this, if_neg this]
    split_ifs <;> rfl
  rw [h0, Matrix.mul_zero]

/-- The stored entries of `df db` on an axis with at least two cells are exactly the neighbours. -/
theorem fb_ne_zero (g : YeeOps s) (a : Fin 3) (hn : 2 ≤ s a) (hb : ‖g.bloch a‖ = 1) (h2 : s a = 2 → g.bloch a = 1)
    (hdx : ∀ p k, 0 < (1 / g.dx p a k).re) (i j : GIdx s) :
    (g.deriv false a * g.deriv true a) i j ≠ 0
      ↔ (∀ b, b ≠ a → i b = j b) ∧ (j a = i a + 1 ∨ j a = i a ∨ j a = i a - 1) := by
  rw [YeeOps.deriv_eq, YeeOps.deriv_eq, axisOp_mul, axisOp_apply, Matrix.mul_apply, fb_apply g a hb]
  by_cases hag : ∀ b, b ≠ a → i b = j b
  · rw [if_pos hag]
    have hf := re_pos_ne_zero (hdx false (i a))
    have hp := hdx true (i a + 1)
    have hq := hdx true (i a)
    rw [mul_ne_zero_iff, tri_ne_zero hn]
    · exact ⟨fun h => ⟨hag, h.2⟩, fun h => ⟨hf, h.2⟩⟩
    · exact mul_ne_zero (wrapFac_ne_zero _ hb _) (re_pos_ne_zero hp)
    · apply neg_ne_zero.2
      apply re_pos_ne_zero
      rw [add_re]
      linarith
    · exact mul_ne_zero (re_pos_ne_zero hq) ((map_ne_zero _).2 (wrapFac_ne_zero _ hb _))
    · intro h
      rw [h2 h, wrapFac_one, wrapFac_one, map_one, one_mul, mul_one]
      apply re_pos_ne_zero
      rw [add_re]
      linarith
  · rw [if_neg hag]
    simp [hag]

/-- The stored entries of `db diag(t) df` are the neighbours too, if `t` is real and of one sign. -/
theorem btf_ne_zero (g : YeeOps s) (a : Fin 3) (hn : 2 ≤ s a) (hb : ‖g.bloch a‖ = 1) (h2 : s a = 2 → g.bloch a = 1)
    (hdx : ∀ p k, 0 < (1 / g.dx p a k).re) (t : GIdx s → ℝ) (σ : ℝ) (ht : ∀ m, 0 < σ * t m) (i j : GIdx s) :
    (g.deriv true a * Matrix.diagonal (fun m => (t m : ℂ)) * g.deriv false a) i j ≠ 0
      ↔ (∀ b, b ≠ a → i b = j b) ∧ (j a = i a + 1 ∨ j a = i a ∨ j a = i a - 1) := by
  rw [YeeOps.deriv_eq, YeeOps.deriv_eq, axisOp_sandwich,
    btf_apply g a hb (fun k => ((t (Function.update i a k) : ℝ) : ℂ))]
  by_cases hag : ∀ b, b ≠ a → i b = j b
  · rw [if_pos hag]
    have hf := re_pos_ne_zero (hdx true (i a))
    have hα : ∀ k, 0 < σ * (((t (Function.update i a k) : ℝ) : ℂ) / g.dx false a k).re := by
      intro k
      have : ((t (Function.update i a k) : ℝ) : ℂ) / g.dx false a k
          = ((t (Function.update i a k) : ℝ) : ℂ) * (1 / g.dx false a k) := by ring
      rw [this, re_ofReal_mul, ← mul_assoc]
      exact mul_pos (ht _) (hdx false k)
    have hne : ∀ k, ((t (Function.update i a k) : ℝ) : ℂ) / g.dx false a k ≠ 0 := by
      intro k h
      have := hα k
      rw [h] at this
      simp at this
    have hsum : ((t (Function.update i a (i a)) : ℝ) : ℂ) / g.dx false a (i a)
        + ((t (Function.update i a (i a - 1)) : ℝ) : ℂ) / g.dx false a (i a - 1) ≠ 0 := by
      intro h
      have h1 := hα (i a)
      have h2 := hα (i a - 1)
      have h3 := congrArg Complex.re h
      rw [add_re, zero_re] at h3
      have h4 : σ * ((((t (Function.update i a (i a)) : ℝ) : ℂ) / g.dx false a (i a)).re
          + (((t (Function.update i a (i a - 1)) : ℝ) : ℂ) / g.dx false a (i a - 1)).re) = 0 := by
        rw [h3, mul_zero]
      rw [mul_add] at h4
      linarith
    rw [mul_ne_zero_iff, tri_ne_zero hn]
    · exact ⟨fun h => ⟨hag, h.2⟩, fun h => ⟨hf, h.2⟩⟩
    · exact mul_ne_zero (hne _) (wrapFac_ne_zero _ hb _)
    · exact neg_ne_zero.2 hsum
    · exact mul_ne_zero ((map_ne_zero _).2 (wrapFac_ne_zero _ hb _)) (hne _)
    · intro h
      rw [h2 h, wrapFac_one, wrapFac_one, map_one, one_mul, mul_one]
      exact hsum
  · rw [if_neg hag]
    simp [hag]

/-- Both have the same sparsity pattern. -/
theorem tm_pattern (g : YeeOps s) (a : Fin 3) (hb : ‖g.bloch a‖ = 1) (h2 : s a = 2 → g.bloch a = 1)
    (hdx : ∀ p k, 0 < (1 / g.dx p a k).re) (t : GIdx s → ℝ) (σ : ℝ) (ht : ∀ m, 0 < σ * t m) :
    cooIndices (g.deriv true a * Matrix.diagonal (fun m => (t m : ℂ)) * g.deriv false a) = tmIndices g a := by
  unfold tmIndices
  by_cases hn : 2 ≤ s a
  · apply cooIndices_congr
    intro i j
    rw [fb_ne_zero g a hn hb h2 hdx, btf_ne_zero g a hn hb h2 hdx t σ ht]
  · have hs : s a = 1 := by have := NeZero.pos (s a); omega
    rw [deriv_one_cell g true a hs, deriv_one_cell g false a hs]
    simp

/-- A grid whose derivatives are usable by the TM operator along axis `a`: unit Bloch factor (one if
the axis has exactly two cells) and cell sizes with positive real part of the inverse, as every
positive cell size and every PML-stretched one has (`uniformOps_admissible`, `pmlOps_admissible`). -/
def TmAdmissible (g : YeeOps s) (a : Fin 3) : Prop :=
  ‖g.bloch a‖ = 1 ∧ (s a = 2 → g.bloch a = 1) ∧ ∀ p k, 0 < (1 / g.dx p a k).re

theorem tmOp_eq (g : YeeOps s) (a : Fin 3) (hg : TmAdmissible g a) (t : GIdx s → ℝ) (σ : ℝ) (ht : ∀ m, 0 < σ * t m) :
    tmOp g a (fun m => (t m : ℂ)) = some ((tmIndices g a).map fun p =>
      (g.deriv true a * Matrix.diagonal (fun m => (t m : ℂ)) * g.deriv false a) p.1 p.2) := by
  unfold tmOp cooData
  simp only
  rw [tm_pattern g a hg.1 hg.2.1 hg.2.2 t σ ht, if_pos (by simp)]

theorem tmOp_place (g : YeeOps s) (a : Fin 3) (hg : TmAdmissible g a) (t : GIdx s → ℝ) (σ : ℝ) (ht : ∀ m, 0 < σ * t m) :
    ∃ d, tmOp g a (fun m => (t m : ℂ)) = some d ∧ d.length = (tmIndices g a).length ∧
      cooPlace d (tmIndices g a) = g.deriv true a * Matrix.diagonal (fun m => (t m : ℂ)) * g.deriv false a := by
  refine ⟨_, tmOp_eq g a hg t σ ht, by simp, ?_⟩
  have h := tm_pattern g a hg.1 hg.2.1 hg.2.2 t σ ht
  rw [← h]
  exact cooPlace_self _

theorem yeeAvgG_real (p : GIdx s → ℝ) (hp : ∀ i, 0 < p i) :
    ∃ q : Fin 3 → GIdx s → ℝ, (∀ c i, 0 < q c i) ∧ ∀ c i, yeeAvgG (fun i => (p i : ℂ)) c i = (q c i : ℂ) := by
  have h0 : ∀ (a : Fin 3) (r : GIdx s → ℝ), (∀ i, 0 < r i) → ∀ i, 0 < (r i + rollFwd a r i) / 2 := by
    intro a r hr i
    have h1 := hr i
    have h2 : 0 < rollFwd a r i := hr _
    linarith
  refine ⟨![fun i => (p i + rollFwd 1 p i) / 2, fun i => (p i + rollFwd 0 p i) / 2,
    fun i => ((p i + rollFwd 0 p i) / 2 + rollFwd 1 (fun i => (p i + rollFwd 0 p i) / 2) i) / 2], ?_, ?_⟩
  · intro c i
    match c with
    | 0 => exact h0 1 p hp i
    | 1 => exact h0 0 p hp i
    | 2 => exact h0 1 _ (h0 0 p hp) i
  · intro c i
    match c with
    | 0 => change ((p i : ℂ) + (rollFwd 1 p i : ℝ)) / 2 = (((p i + rollFwd 1 p i) / 2 : ℝ) : ℂ); push_cast; rfl
    | 1 => change ((p i : ℂ) + (rollFwd 0 p i : ℝ)) / 2 = (((p i + rollFwd 0 p i) / 2 : ℝ) : ℂ); push_cast; rfl
    | 2 =>
      change ((((p i : ℂ) + (rollFwd 0 p i : ℝ)) / 2) + rollFwd 1 (fun i => ((p i : ℂ) + (rollFwd 0 p i : ℝ)) / 2) i) / 2
        = ((((p i + rollFwd 0 p i) / 2 + rollFwd 1 (fun i => (p i + rollFwd 0 p i) / 2) i) / 2 : ℝ) : ℂ)
      unfold rollFwd
      push_cast
      rfl

/-- C50, TM: for every positive permittivity, on every admissible grid (PML or not, any Bloch phase
unless the axis has two cells), the COO entries and index arrays assembled by `get_fields_fn` give
exactly `mat_hz`. Missing: permittivities for which `db (1/eps) df` has cancelling entries, see the
counterexample. -/
theorem C50_tm_partial (g : YeeOps s) (h0 : TmAdmissible g 0) (h1 : TmAdmissible g 1) (k0 : ℝ)
    (eps : GIdx s → ℝ) (heps : ∀ i, 0 < eps i) :
    jaxMatTm g k0 (fun i => (eps i : ℂ)) = some (fdfdMatHz g k0 (yeeAvgG fun i => (eps i : ℂ))) := by
  obtain ⟨q, hq, hqe⟩ := yeeAvgG_real eps heps
  have ht : ∀ c : Fin 3, (fun i => -1 / yeeAvgG (fun i => (eps i : ℂ)) c i) = fun i => (((-1 / q c i : ℝ)) : ℂ) := by
    intro c
    funext i
    rw [hqe]
    push_cast
    rfl
  have hsign : ∀ c m, 0 < (-1 : ℝ) * (-1 / q c m) := by
    intro c m
    have := hq c m
    have h : (-1 : ℝ) * (-1 / q c m) = 1 / q c m := by ring
    rw [h]
    positivity
  obtain ⟨dx, hdx, hlx, hpx⟩ := tmOp_place g 0 h0 (fun m => -1 / q 1 m) (-1) (hsign 1)
  obtain ⟨dy, hdy, hly, hpy⟩ := tmOp_place g 1 h1 (fun m => -1 / q 0 m) (-1) (hsign 0)
  unfold jaxMatTm
  simp only [ht]
  rw [hdx, hdy]
  simp only
  unfold cooMatrix
  rw [if_pos (by simp [hlx, hly]), cooPlace_append _ _ _ _ (by simp), cooPlace_append _ _ _ _ hlx, hpx, hpy,
    cooPlace_diag]
  congr 1
  unfold fdfdMatHz
  simp only
  have hneg : ∀ c : Fin 3, (Matrix.diagonal fun m => ((-1 / q c m : ℝ) : ℂ))
      = -(Matrix.diagonal fun i => 1 / yeeAvgG (fun i => (eps i : ℂ)) c i) := by
    intro c
    rw [Matrix.diagonal_neg]
    congr 1
    funext i
    change _ = -(1 / yeeAvgG (fun i => (eps i : ℂ)) c i)
    rw [hqe]
    push_cast
    ring
  have hk : (Matrix.diagonal fun _ : GIdx s => -(1 : ℂ) * (k0 : ℂ) ^ 2) = -((k0 : ℂ) ^ 2 • (1 : Matrix (GIdx s) (GIdx s) ℂ)) := by
    rw [Matrix.smul_one_eq_diagonal, Matrix.diagonal_neg]
    congr 1
    funext i
    simp
  rw [hneg 1, hneg 0, hk]
  simp only [Matrix.mul_neg, Matrix.neg_mul]
  abel

/-- C50, TE: for every permittivity, on every grid, the assembled matrix is exactly `mat_ez`. -/
theorem C50_te (g : YeeOps s) (k0 : ℝ) (eps : SField s) :
    jaxMatTe g k0 eps = some (fdfdMatEz g k0 (yeeAvgG eps)) := by
  unfold jaxMatTe
  simp only
  unfold cooMatrix
  rw [if_pos (by simp [cooData]), cooPlace_append _ _ _ _ (by simp), cooPlace_self, cooPlace_diag]
  congr 1
  unfold fdfdMatEz
  have hk : (Matrix.diagonal fun i : GIdx s => -yeeAvg2dZG eps (i, i).1 * (k0 : ℂ) ^ 2)
      = -((k0 : ℂ) ^ 2 • Matrix.diagonal (yeeAvgG eps 2)) := by
    rw [← Matrix.diagonal_smul, Matrix.diagonal_neg]
    congr 1
    funext i
    change -yeeAvg2dZG eps i * (k0 : ℂ) ^ 2 = -((k0 : ℂ) ^ 2 * yeeAvg2dZG eps i)
    ring
  rw [hk]
  abel

/-- C50 in three dimensions: for zero Bloch phase the operator given to the iterative solver is `mat`. -/
theorem C50_three_d (g : YeeOps s) (hb : ∀ a, g.bloch a = 1) (k0 : ℝ) (eps : SField s) (b : VField s) :
    vflat (jaxOp3 g k0 eps b) = fdfdMat g k0 (yeeAvgG eps) *ᵥ vflat b := by
  funext p
  obtain ⟨c, i⟩ := p
  rw [fdfdMat_mulVec, ← curl_eq_curlOf g hb, ← curl_eq_curlOf g hb]
  change g.curl true (g.curl false b) c i - (k0 : ℂ) ^ 2 * yeeAvgG eps c i * b c i = _
  ring

omit [∀ a, NeZero (s a)] in
/-- Grids without PML are admissible along axes with positive cell size. -/
theorem uniformOps_admissible (phase spacing : Fin 3 → ℝ) (a : Fin 3) (hs : 0 < spacing a) (h2 : s a ≠ 2) :
    TmAdmissible (uniformOps s (fun b => exp (I * phase b)) spacing) a := by
  refine ⟨?_, fun h => absurd h h2, ?_⟩
  · change ‖exp (I * phase a)‖ = 1
    rw [mul_comm]
    exact norm_exp_ofReal_mul_I _
  · intro p k
    change 0 < (1 / (spacing a : ℂ)).re
    rw [one_div, ← ofReal_inv, ofReal_re]
    positivity

omit [∀ a, NeZero (s a)] in
/-- So are grids with PML: the stretching factors are `1 + i sigma` with real `sigma` (`scpml`). -/
theorem pmlOps_admissible (phase spacing : Fin 3 → ℝ) (sigma : Bool → (a : Fin 3) → Fin (s a) → ℝ) (a : Fin 3)
    (hs : 0 < spacing a) (h2 : s a ≠ 2) :
    TmAdmissible (pmlOps s (fun b => exp (I * phase b)) spacing (fun p a k => 1 + I * (sigma p a k : ℂ))) a := by
  refine ⟨?_, fun h => absurd h h2, ?_⟩
  · change ‖exp (I * phase a)‖ = 1
    rw [mul_comm]
    exact norm_exp_ofReal_mul_I _
  · intro p k
    change 0 < (1 / ((spacing a : ℂ) * (1 + I * (sigma p a k : ℂ)))).re
    rw [one_div, mul_inv, ← ofReal_inv, re_ofReal_mul]
    apply mul_pos (by positivity)
    rw [inv_re]
    have h1 : (1 + I * (sigma p a k : ℂ)).re = 1 := by simp
    have h3 : 0 < normSq (1 + I * (sigma p a k : ℂ)) := by
      apply normSq_pos.2
      intro h
      rw [h] at h1
      simp at h1
    rw [h1]
    positivity

/-- A concrete case of C50 TM: 4 x 3 cells, PML along both axes, Bloch phase, positive permittivity. -/
example (sigma : Bool → (a : Fin 3) → Fin (shapeOf 4 3 1 a) → ℝ) :
    let g := pmlOps (shapeOf 4 3 1) (fun b => exp (I * ((fun _ => (1 : ℝ)) b : ℝ))) (fun _ => 1 / 10)
      (fun p a k => 1 + I * (sigma p a k : ℂ))
    jaxMatTm g 5 (fun i => ((if (i 0 : ℕ) = 1 then 12 else 2 : ℝ) : ℂ))
      = some (fdfdMatHz g 5 (yeeAvgG fun i => ((if (i 0 : ℕ) = 1 then 12 else 2 : ℝ) : ℂ))) := by
  intro g
  apply C50_tm_partial
  · exact pmlOps_admissible _ _ sigma 0 (by norm_num) (by decide)
  · exact pmlOps_admissible _ _ sigma 1 (by norm_num) (by decide)
  · intro i
    split_ifs <;> norm_num

/-- C50 is violated for permittivities of mixed sign (metals). On three unit cells with
`eps = (-1, -1, 3)` the averaged permittivity along y is `(1, -1, 1)`; two diagonal entries of
`db diag(1/eps) df` cancel, scipy does not store them, and the differentiable solver fails on the
size of the entries array, while `mat_hz` is well defined. -/
theorem C50_pattern_counterexample :
    jaxMatTm (uniformOps (shapeOf 3 1 1) (fun _ => 1) (fun _ => 1)) 1 (line 3 fun k => if k = 2 then 3 else -1) = none := by
  set g := uniformOps (shapeOf 3 1 1) (fun _ => 1) (fun _ => 1) with hg
  set eps : SField (shapeOf 3 1 1) := line 3 fun k => if k = 2 then 3 else -1 with heps
  have hdx : ∀ p k, 0 < (1 / g.dx p 0 k).re := by
    intro p k
    change 0 < (1 / ((1 : ℝ) : ℂ)).re
    simp
  have hb : ‖g.bloch 0‖ = 1 := by
    change ‖(1 : ℂ)‖ = 1
    simp
  have hn : 2 ≤ shapeOf 3 1 1 0 := by decide
  have h2 : shapeOf 3 1 1 0 = 2 → g.bloch 0 = 1 := fun _ => rfl
  have hall : ∀ i j, (g.deriv false 0 * g.deriv true 0) i j ≠ 0 := by
    intro i j
    rw [fb_ne_zero g 0 hn hb h2 hdx]
    constructor
    · intro b hbne
      have h1 := (i b).isLt
      have h2 := (j b).isLt
      have h3 : shapeOf 3 1 1 b = 1 := shapeOf_one hbne
      apply Fin.ext
      omega
    · have key : ∀ x y : Fin 3, y = x + 1 ∨ y = x ∨ y = x - 1 := by decide
      exact key (i 0) (j 0)
  have e0 : yeeAvgG eps 1 (cell 3 0) = 1 := by
    change ((if (cell 3 0 0 : ℕ) = 2 then (3 : ℂ) else -1) + rollFwd 0 eps (cell 3 0)) / 2 = 1
    unfold rollFwd
    rw [cell_prev 3 0 (by decide), heps, line_cell]
    have : (cell 3 0 0 : ℕ) = 0 := rfl
    rw [this]
    norm_num
  have e1 : yeeAvgG eps 1 (cell 3 1) = -1 := by
    change ((if (cell 3 1 0 : ℕ) = 2 then (3 : ℂ) else -1) + rollFwd 0 eps (cell 3 1)) / 2 = -1
    unfold rollFwd
    rw [cell_prev 3 1 (by decide), heps, line_cell]
    have : (cell 3 1 0 : ℕ) = 1 := rfl
    rw [this]
    norm_num
  have hzero : (g.deriv true 0 * Matrix.diagonal (fun i => -1 / yeeAvgG eps 1 i) * g.deriv false 0) (cell 3 1) (cell 3 1) = 0 := by
    rw [YeeOps.deriv_eq, YeeOps.deriv_eq, axisOp_sandwich,
      btf_apply g 0 hb (fun k => -1 / yeeAvgG eps 1 (Function.update (cell 3 1) 0 k))]
    rw [if_pos (fun _ _ => rfl), cell_prev 3 1 (by decide), Function.update_eq_self]
    have h3 : ¬ (cell 3 1 0 = cell 3 1 0 + 1) := by decide
    have h4 : ¬ (cell 3 1 0 = cell 3 1 0 - 1) := by decide
    rw [if_neg h3, if_neg h4, if_pos rfl, e1]
    change 1 / ((1 : ℝ) : ℂ) * (0 + -(-1 / -1 / ((1 : ℝ) : ℂ) + -1 / yeeAvgG eps 1 (cell 3 0) / ((1 : ℝ) : ℂ)) + 0) = 0
    rw [e0]
    norm_num
  have hlen : (cooData (g.deriv true 0 * Matrix.diagonal (fun i => -1 / yeeAvgG eps 1 i) * g.deriv false 0)).length
      < (tmIndices g 0).length := by
    have h5 : tmIndices g 0 = allPairs (GIdx (shapeOf 3 1 1)) := by
      unfold tmIndices cooIndices
      rw [List.filter_eq_self]
      intro p _
      simpa using hall p.1 p.2
    rw [h5]
    unfold cooData cooIndices
    rw [List.length_map, List.length_filter_lt_length_iff_exists]
    exact ⟨(cell 3 1, cell 3 1), mem_allPairs _, by simpa using hzero⟩
  have hnone : tmOp g 0 (fun i => -1 / yeeAvgG eps 1 i) = none := by
    unfold tmOp
    simp only
    rw [if_neg (Nat.ne_of_lt hlen)]
  unfold jaxMatTm
  simp only
  rw [hnone]

/-! ### C52 -/

theorem cooPlace_swap_sum {ι : Type} [Fintype ι] [DecidableEq ι] (l : List (ι × ι)) (d : List ℂ) (hl : d.length = l.length)
    (F : ι → ι → ℂ) :
    ∑ p, ∑ q, F p q * cooPlace d (l.map fun x => (x.2, x.1)) p q
      = ((l.zip d).map fun x => F x.1.2 x.1.1 * x.2).sum := by
  induction l generalizing d with
  | nil => simp [cooPlace]
  | cons a l ih =>
    cases d with
    | nil => simp at hl
    | cons c d =>
      have h1 : cooPlace (c :: d) ((a :: l).map fun x => (x.2, x.1))
          = fun p q => (if (a.2, a.1) = (p, q) then c else 0) + cooPlace d (l.map fun x => (x.2, x.1)) p q := by
        funext p q
        rfl
      rw [h1]
      simp only [mul_add, Finset.sum_add_distrib, List.zip_cons_cons, List.map_cons, List.sum_cons]
      rw [ih d (by simpa using hl)]
      congr 1
      rw [Finset.sum_eq_single a.2, Finset.sum_eq_single a.1]
      · simp
      · intro q _ hq
        rw [if_neg (by intro h; exact hq (Prod.ext_iff.1 h).2.symm), mul_zero]
      · simp
      · intro p _ hp
        apply Finset.sum_eq_zero
        intro q _
        rw [if_neg (by intro h; exact hp (Prod.ext_iff.1 h).1.symm), mul_zero]
      · simp

/-- The linear map `t ↦` entries of `db diag(t) df` at the operator's index positions. -/
noncomputable def tmLinear (g : YeeOps s) (a : Fin 3) (t : GIdx s → ℝ) : List ℂ :=
  (tmIndices g a).map fun p => (g.deriv true a * Matrix.diagonal (fun m => (t m : ℂ)) * g.deriv false a) p.1 p.2

/-- C52: on an admissible grid, (1) the compiled operator returns the entries of `db diag(t) df` for
every real `t` of one sign (as `-1/eps` is for `eps > 0`), and (2) for every cotangent `cot` (one per
entry) the backward function returns a `v` with `Re (sum_k cot_k * entry_k(t)) = sum_m t_m v_m` for
*every* real `t`, i.e. `v` is the transpose of the linear map applied to `cot` (JAX's cotangent of a
real input of a complex-valued linear function). -/
theorem C52_tm_vjp (g : YeeOps s) (a : Fin 3) (hg : TmAdmissible g a) :
    (∀ (t : GIdx s → ℝ) (σ : ℝ), (∀ m, 0 < σ * t m) → tmOp g a (fun m => (t m : ℂ)) = some (tmLinear g a t))
    ∧ ∀ cot : List ℂ, cot.length = (tmIndices g a).length →
      ∃ v, tmOpVjp g a cot = some v ∧
        ∀ t : GIdx s → ℝ, (((tmLinear g a t).zipWith (fun e c => c * e) cot).sum).re = ∑ m, t m * v m := by
  refine ⟨fun t σ ht => tmOp_eq g a hg t σ ht, fun cot hc => ?_⟩
  unfold tmOpVjp cooMatrix
  rw [if_pos (by simpa using hc)]
  refine ⟨_, rfl, fun t => ?_⟩
  have hv : ∀ m, (g.deriv false a * (cooPlace cot ((tmIndices g a).map fun p => (p.2, p.1)) * g.deriv true a)) m m
      = (((tmIndices g a).zip cot).map fun x => g.deriv false a m x.1.2 * g.deriv true a x.1.1 m * x.2).sum := by
    intro m
    rw [← cooPlace_swap_sum (tmIndices g a) cot hc (fun p q => g.deriv false a m p * g.deriv true a q m), Matrix.mul_apply]
    refine Finset.sum_congr rfl fun p _ => ?_
    rw [Matrix.mul_apply, Finset.mul_sum]
    refine Finset.sum_congr rfl fun q _ => ?_
    ring
  simp only [hv]
  have hz : ((tmLinear g a t).zipWith (fun e c => c * e) cot).sum
      = (((tmIndices g a).zip cot).map fun x => ∑ m, (t m : ℂ) * (g.deriv false a m x.1.2 * g.deriv true a x.1.1 m * x.2)).sum := by
    unfold tmLinear
    rw [List.zipWith_map_left, ← List.map_uncurry_zip_eq_zipWith]
    congr 1
    apply List.map_congr_left
    rintro ⟨p, c⟩ _
    change c * (g.deriv true a * Matrix.diagonal (fun m => (t m : ℂ)) * g.deriv false a) p.1 p.2 = _
    rw [Matrix.mul_assoc, Matrix.mul_apply, Finset.mul_sum]
    refine Finset.sum_congr rfl fun m _ => ?_
    rw [Matrix.diagonal_mul]
    ring
  have hswap : ∀ l : List ((GIdx s × GIdx s) × ℂ), (l.map fun x => ∑ m, (t m : ℂ) * (g.deriv false a m x.1.2 * g.deriv true a x.1.1 m * x.2)).sum
      = ∑ m, (t m : ℂ) * (l.map fun x => g.deriv false a m x.1.2 * g.deriv true a x.1.1 m * x.2).sum := by
    intro l
    induction l with
    | nil => simp
    | cons x l ih => simp only [List.map_cons, List.sum_cons, ih, mul_add, Finset.sum_add_distrib]
  rw [hz, hswap, Complex.re_sum]
  refine Finset.sum_congr rfl fun m _ => ?_
  rw [re_ofReal_mul]

/-! ### C51 -/

section vjp
variable {ι : Type} [Fintype ι] [DecidableEq ι] {K : ℕ}

open scoped Matrix.Norms.Operator

omit [Fintype ι] in
theorem cooFn_swap (idx : Fin K → ι × ι) (a : Fin K → ℂ) :
    cooFn (fun k => ((idx k).2, (idx k).1)) a = (cooFn idx a)ᵀ := by
  ext i j
  simp only [cooFn, Matrix.transpose_apply]
  refine Finset.sum_congr rfl fun k _ => ?_
  have : (((idx k).2, (idx k).1) = (i, j)) ↔ (idx k = (j, i)) := by
    simp only [Prod.ext_iff]
    tauto
  simp only [this]

/-- The assembly as a linear map. -/
noncomputable def cooLin (idx : Fin K → ι × ι) : (Fin K → ℂ) →ₗ[ℂ] Matrix ι ι ℂ where
  toFun := cooFn idx
  map_add' a b := by
    ext i j
    simp only [cooFn, Pi.add_apply, Matrix.add_apply, ← Finset.sum_add_distrib]
    refine Finset.sum_congr rfl fun k _ => ?_
    split_ifs <;> simp
  map_smul' c a := by
    ext i j
    simp only [cooFn, Pi.smul_apply, Matrix.smul_apply, smul_eq_mul, RingHom.id_apply, Finset.mul_sum]
    refine Finset.sum_congr rfl fun k _ => ?_
    split_ifs <;> simp

theorem cooFn_bilin (idx : Fin K → ι × ι) (d : Fin K → ℂ) (u v : ι → ℂ) :
    u ⬝ᵥ (cooFn idx d *ᵥ v) = ∑ k, u (idx k).1 * v (idx k).2 * d k := by
  simp only [dotProduct, Matrix.mulVec, cooFn, Finset.sum_mul, Finset.mul_sum]
  have h1 : ∀ i, (∑ j, ∑ k, u i * ((if idx k = (i, j) then d k else 0) * v j))
      = ∑ k, if (idx k).1 = i then u (idx k).1 * v (idx k).2 * d k else 0 := by
    intro i
    rw [Finset.sum_comm]
    refine Finset.sum_congr rfl fun k _ => ?_
    by_cases h : (idx k).1 = i
    · rw [if_pos h, Finset.sum_eq_single (idx k).2]
      · have h' : idx k = (i, (idx k).2) := by rw [← h]
        rw [if_pos h', ← h]; ring
      · intro j _ hj
        rw [if_neg (fun h' => hj (by rw [h'])), zero_mul, mul_zero]
      · simp
    · rw [if_neg h]
      apply Finset.sum_eq_zero
      intro j _
      rw [if_neg (fun h' => h (by rw [h'])), zero_mul, mul_zero]
  simp only [h1]
  rw [Finset.sum_comm]
  refine Finset.sum_congr rfl fun k _ => ?_
  simp

/-- C51: at every invertible COO matrix (repeated positions allowed) and right-hand side, and for
every output cotangent `g`, the complex function `(a, b) ↦ sum_i g_i x_i`, `x = A(a)^-1 b`, has the
Fréchet derivative `(da, db) ↦ sum_k abar_k da_k + sum_i bbar_i db_i`, where `abar`, `bbar` are the
cotangents returned by the backward function. -/
theorem C51_spsolve_vjp (idx : Fin K → ι × ι) (a : Fin K → ℂ) (b g : ι → ℂ) (hA : IsUnit (cooFn idx a)) :
    ∃ L : ((Fin K → ℂ) × (ι → ℂ)) →L[ℂ] ℂ,
      HasFDerivAt (fun p : (Fin K → ℂ) × (ι → ℂ) => ∑ i, g i * spsolve idx p.1 p.2 i) L (a, b) ∧
      ∀ da db, L (da, db) = ∑ k, (spsolveVjp idx a b g).1 k * da k + ∑ i, (spsolveVjp idx a b g).2 i * db i := by
  obtain ⟨U, hU⟩ := hA
  have hUi : ((U⁻¹ : (Matrix ι ι ℂ)ˣ) : Matrix ι ι ℂ) = (cooFn idx a)⁻¹ := by
    rw [← hU, Matrix.coe_units_inv]
  set A' : Matrix ι ι ℂ := (cooFn idx a)⁻¹ with hA'
  -- the derivative of the inverse
  set C : (Fin K → ℂ) →L[ℂ] Matrix ι ι ℂ := LinearMap.toContinuousLinearMap (cooLin idx) with hC
  have hCa : C a = (U : Matrix ι ι ℂ) := hU.symm
  have hinv : HasFDerivAt (fun p : (Fin K → ℂ) × (ι → ℂ) => Ring.inverse (C p.1))
      ((-ContinuousLinearMap.mulLeftRight ℂ (Matrix ι ι ℂ) A' A').comp (C.comp (ContinuousLinearMap.fst ℂ _ _))) (a, b) := by
    have h1 : HasFDerivAt (𝕜 := ℂ) Ring.inverse (-ContinuousLinearMap.mulLeftRight ℂ (Matrix ι ι ℂ) A' A')
        (C ((a, b) : (Fin K → ℂ) × (ι → ℂ)).1) := by
      change HasFDerivAt (𝕜 := ℂ) Ring.inverse _ (C a)
      rw [hCa, ← hUi]
      exact hasFDerivAt_ringInverse U
    have h2 : HasFDerivAt (fun p : (Fin K → ℂ) × (ι → ℂ) => C p.1) (C.comp (ContinuousLinearMap.fst ℂ (Fin K → ℂ) (ι → ℂ))) (a, b) :=
      (C.comp (ContinuousLinearMap.fst ℂ (Fin K → ℂ) (ι → ℂ))).hasFDerivAt
    exact h1.comp (a, b) h2
  have hentry : ∀ i j, HasFDerivAt (fun p : (Fin K → ℂ) × (ι → ℂ) => (Ring.inverse (C p.1)) i j)
      ((LinearMap.toContinuousLinearMap (Matrix.entryLinearMap ℂ ℂ i j)).comp
        ((-ContinuousLinearMap.mulLeftRight ℂ (Matrix ι ι ℂ) A' A').comp (C.comp (ContinuousLinearMap.fst ℂ _ _)))) (a, b) := by
    intro i j
    exact ((LinearMap.toContinuousLinearMap (Matrix.entryLinearMap ℂ ℂ i j)).hasFDerivAt (x := Ring.inverse (C a))).comp (a, b) hinv
  have hsnd : ∀ j, HasFDerivAt (fun p : (Fin K → ℂ) × (ι → ℂ) => p.2 j)
      ((ContinuousLinearMap.proj j).comp (ContinuousLinearMap.snd ℂ (Fin K → ℂ) (ι → ℂ))) (a, b) := fun j =>
    ((ContinuousLinearMap.proj j).comp (ContinuousLinearMap.snd ℂ (Fin K → ℂ) (ι → ℂ))).hasFDerivAt
  have hfun : (fun p : (Fin K → ℂ) × (ι → ℂ) => ∑ i, g i * spsolve idx p.1 p.2 i)
      = fun p => ∑ i, g i * ∑ j, (Ring.inverse (C p.1)) i j * p.2 j := by
    funext p
    refine Finset.sum_congr rfl fun i _ => ?_
    congr 1
    unfold spsolve
    rw [Matrix.nonsing_inv_eq_ringInverse]
    rfl
  have hder := HasFDerivAt.fun_sum (u := Finset.univ) fun (i : ι) _ =>
    (HasFDerivAt.fun_sum (u := Finset.univ) fun (j : ι) _ => (hentry i j).fun_mul (hsnd j)).const_mul (g i)
  rw [hfun]
  refine ⟨_, hder, fun da db => ?_⟩
  have hCA : Ring.inverse (C a) = A' := by
    rw [hCa, ← hUi, Ring.inverse_unit]
  have hx : spsolve idx a b = A' *ᵥ b := rfl
  have hlam : (spsolveVjp idx a b g).2 = g ᵥ* A' := by
    change spsolve (fun k => ((idx k).2, (idx k).1)) a g = _
    unfold spsolve
    rw [cooFn_swap, ← Matrix.transpose_nonsing_inv, Matrix.mulVec_transpose]
  have hab : ∀ k, (spsolveVjp idx a b g).1 k = -(g ᵥ* A') (idx k).1 * (A' *ᵥ b) (idx k).2 := by
    intro k
    rw [← hlam, ← hx]
    rfl
  have e1 : ∑ k, (spsolveVjp idx a b g).1 k * da k = -((g ᵥ* A') ⬝ᵥ (cooFn idx da *ᵥ (A' *ᵥ b))) := by
    rw [cooFn_bilin, ← Finset.sum_neg_distrib]
    refine Finset.sum_congr rfl fun k _ => ?_
    rw [hab]
    ring
  have e2 : ∑ i, (spsolveVjp idx a b g).2 i * db i = (g ᵥ* A') ⬝ᵥ db := by
    rw [hlam]
    rfl
  rw [e1, e2, ← Matrix.dotProduct_mulVec, ← Matrix.dotProduct_mulVec, Matrix.mulVec_mulVec, Matrix.mulVec_mulVec]
  have hlhs : ∀ i : ι, ∑ j, (A' i j * db j + b j * -(A' * cooFn idx da * A') i j)
      = (A' *ᵥ db) i - ((A' * cooFn idx da * A') *ᵥ b) i := by
    intro i
    simp only [Matrix.mulVec, dotProduct, ← Finset.sum_sub_distrib]
    refine Finset.sum_congr rfl fun j _ => ?_
    ring
  simp only [FunLike.coe_sum, Finset.sum_apply, _root_.smul_apply, _root_.add_apply,
    ContinuousLinearMap.comp_apply, ContinuousLinearMap.coe_snd', ContinuousLinearMap.proj_apply,
    smul_eq_mul, hCA]
  change ∑ i, g i * ∑ j, (A' i j * db j + b j * -(A' * cooFn idx da * A') i j) = _
  simp only [hlhs]
  simp only [dotProduct, Matrix.mul_assoc, ← Finset.sum_neg_distrib, ← Finset.sum_add_distrib]
  refine Finset.sum_congr rfl fun i _ => ?_
  ring

/-- The hypotheses of C51 are met with a repeated index: `A = [[1 + 1]]`. -/
example : IsUnit (cooFn (fun _ : Fin 2 => ((0 : Fin 1), (0 : Fin 1))) (fun _ => 1)) := by
  rw [Matrix.isUnit_iff_isUnit_det]
  simp [cooFn]

end vjp

end Simphox
