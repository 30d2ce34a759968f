import Verif.YeeFlat
import Verif.ModeMaxwell

/-!
# The flat eigenproblem of the mode solver (C173)

`ModeSolver.waveguide_mode_matrix` stacks flat blocks with `sp.vstack`/`sp.hstack`; `solve` appends the `z` component to the flat
eigenvector and `ModeLibrary.h` reshapes the row. Modelled on natural-number indices and related to the fields.
-/

set_option linter.unusedSectionVars false

namespace Simphox

open Matrix Complex

/-! ### Model -/

/-- `A + B`; `none` for mismatched shapes. -/
def FlatMat.add (A B : FlatMat) : Option FlatMat :=
  if A.rows = B.rows ∧ A.cols = B.cols then some ⟨A.rows, A.cols, fun i j => A.entry i j + B.entry i j⟩ else none

/-- `sp.vstack([A, B])`. -/
def FlatMat.vstack (A B : FlatMat) : Option FlatMat :=
  if A.cols = B.cols then
    some ⟨A.rows + B.rows, A.cols, fun i j => if i < A.rows then A.entry i j else B.entry (i - A.rows) j⟩ else none

/-- `sp.hstack([A, B])`. -/
def FlatMat.hstack (A B : FlatMat) : Option FlatMat :=
  if A.rows = B.rows then
    some ⟨A.rows, A.cols + B.cols, fun i j => if j < A.cols then A.entry i j else B.entry i (j - A.cols)⟩ else none

/-- `np.hstack((a, b))` of flat arrays, `a` of length `n`. -/
def hstackV (n : ℕ) (a b : ℕ → ℂ) : ℕ → ℂ := fun k => if k < n then a k else b (k - n)

variable {s : Fin 3 → ℕ} [∀ a, NeZero (s a)]

/-- `ModeSolver.waveguide_mode_matrix` for two-dimensional grids (mode.py:110-118). -/
noncomputable def waveguideFlat (g : YeeOps s) (k0 : ℝ) (epsT : VField s) : Option FlatMat := do
  let f0 ← g.derivFlat false 0
  let f1 ← g.derivFlat false 1
  let b0 ← g.derivFlat true 0
  let b1 ← g.derivFlat true 1
  let n := cellCount s
  let eps10 := FlatMat.diag (2 * n) (hstackV n (ravel (epsT 1)) (ravel (epsT 0)))
  let m1 := eps10.smul (k0 ^ 2 : ℂ)
  let vs ← f1.neg.vstack f0
  let hs ← b1.neg.hstack b0
  let x ← eps10.mul vs
  let x ← x.mul (FlatMat.diag n fun k => 1 / ravel (epsT 2) k)
  let m2 ← x.mul hs
  let vb ← b0.vstack b1
  let hf ← f0.hstack f1
  let m3 ← vb.mul hf
  let y ← m1.add m2
  y.add m3

/-- `ModeSolver.waveguide_mode_matrix` for one-dimensional grids (mode.py:119-120). -/
noncomputable def waveguideFlat1 (g : YeeOps s) (k0 : ℝ) (eps : SField s) : Option FlatMat := do
  let f0 ← g.derivFlat false 0
  let b0 ← g.derivFlat true 0
  let m ← f0.mul b0
  ((FlatMat.diag (cellCount s) (ravel eps)).smul (k0 ^ 2 : ℂ)).add m

/-- One row of `h` in `ModeSolver.solve` before the phase reference (mode.py:198-200): the flat eigenvector `v` followed by
`hz = sp.hstack(df[:2]) @ v / (1j * np.sqrt(lam))`. -/
noncomputable def modeRow (g : YeeOps s) (lam : ℂ) (v : ℕ → ℂ) : Option (ℕ → ℂ) := do
  let f0 ← g.derivFlat false 0
  let f1 ← g.derivFlat false 1
  let hf ← f0.hstack f1
  some (hstackV (2 * cellCount s) v fun k => hf.mulVec v k / (I * csqrt lam))

/-! ### Products with vectors -/

theorem mulVec_mul {A B C : FlatMat} (h : A.mul B = some C) (v : ℕ → ℂ) : C.mulVec v = A.mulVec (B.mulVec v) := by
  unfold FlatMat.mul at h
  split_ifs at h with hc
  simp only [Option.some.injEq] at h
  subst h
  funext i
  simp only [FlatMat.mulVec, Finset.sum_mul, Finset.mul_sum]
  rw [Finset.sum_comm]
  simp only [mul_assoc]

theorem add_some {A B : FlatMat} (h1 : A.rows = B.rows) (h2 : A.cols = B.cols) :
    ∃ C, A.add B = some C ∧ C.rows = A.rows ∧ C.cols = A.cols :=
  ⟨⟨A.rows, A.cols, fun i j => A.entry i j + B.entry i j⟩, if_pos ⟨h1, h2⟩, rfl, rfl⟩

theorem mulVec_add {A B C : FlatMat} (h : A.add B = some C) (v : ℕ → ℂ) (i : ℕ) : C.mulVec v i = A.mulVec v i + B.mulVec v i := by
  unfold FlatMat.add at h
  split_ifs at h with hc
  simp only [Option.some.injEq] at h
  subst h
  simp only [FlatMat.mulVec, add_mul, Finset.sum_add_distrib, hc.2]

theorem mulVec_neg (A : FlatMat) (v : ℕ → ℂ) (i : ℕ) : A.neg.mulVec v i = -A.mulVec v i := by
  simp [FlatMat.mulVec, FlatMat.neg]

theorem mulVec_smul (c : ℂ) (A : FlatMat) (v : ℕ → ℂ) (i : ℕ) : (A.smul c).mulVec v i = c * A.mulVec v i := by
  simp [FlatMat.mulVec, FlatMat.smul, Finset.mul_sum, mul_assoc]

theorem mulVec_diag (n : ℕ) (w v : ℕ → ℂ) {i : ℕ} (hi : i < n) : (FlatMat.diag n w).mulVec v i = w i * v i := by
  simp [FlatMat.mulVec, FlatMat.diag, ite_mul, hi]

theorem mulVec_vstack {A B C : FlatMat} (h : A.vstack B = some C) (v : ℕ → ℂ) (i : ℕ) :
    C.mulVec v i = if i < A.rows then A.mulVec v i else B.mulVec v (i - A.rows) := by
  unfold FlatMat.vstack at h
  split_ifs at h with hc
  simp only [Option.some.injEq] at h
  subst h
  simp only [FlatMat.mulVec]
  split_ifs
  · rfl
  · rw [hc]

theorem mulVec_hstack {A B C : FlatMat} (h : A.hstack B = some C) (v : ℕ → ℂ) (i : ℕ) :
    C.mulVec v i = A.mulVec v i + B.mulVec (fun k => v (A.cols + k)) i := by
  unfold FlatMat.hstack at h
  split_ifs at h with hc
  simp only [Option.some.injEq] at h
  subst h
  simp only [FlatMat.mulVec]
  rw [Finset.sum_range_add]
  congr 1
  · exact Finset.sum_congr rfl fun k hk => by rw [if_pos (Finset.mem_range.1 hk)]
  · exact Finset.sum_congr rfl fun k _ => by rw [if_neg (by omega), Nat.add_sub_cancel_left]

theorem Rep.mulVec_at {M : FlatMat} {A : Matrix (GIdx s) (GIdx s) ℂ} (hM : Rep M A) (v : ℕ → ℂ) (i : GIdx s) :
    M.mulVec v (flatIdx i) = (A *ᵥ reshapeS v) i := congrFun (hM.mulVec v) i

/-! ### The waveguide matrix -/

theorem waveguideFlat_spec (g : YeeOps s) (k0 : ℝ) (epsT : VField s) :
    ∃ M, waveguideFlat g k0 epsT = some M ∧ M.rows = 2 * cellCount s ∧ M.cols = 2 * cellCount s ∧
      ∀ (v : ℕ → ℂ) (i : GIdx s),
        M.mulVec v (flatIdx i) = (wgm2d g k0 epsT (reshapeS v) (reshapeS fun k => v (cellCount s + k))).1 i ∧
        M.mulVec v (cellCount s + flatIdx i) = (wgm2d g k0 epsT (reshapeS v) (reshapeS fun k => v (cellCount s + k))).2 i := by
  obtain ⟨f0, hf0, rf0⟩ := rep_deriv g false 0
  obtain ⟨f1, hf1, rf1⟩ := rep_deriv g false 1
  obtain ⟨b0, hb0, rb0⟩ := rep_deriv g true 0
  obtain ⟨b1, hb1, rb1⟩ := rep_deriv g true 1
  set n := cellCount s with hn
  set eps10 := FlatMat.diag (2 * n) (hstackV n (ravel (epsT 1)) (ravel (epsT 0))) with heps
  have n2 : 2 * n = n + n := by ring
  obtain ⟨vs, hvs, vr, vc⟩ : ∃ vs, f1.neg.vstack f0 = some vs ∧ vs.rows = 2 * n ∧ vs.cols = n :=
    ⟨_, if_pos (by change f1.cols = f0.cols; rw [rf1.cols, rf0.cols]), by
      change f1.rows + f0.rows = _; rw [rf1.rows, rf0.rows, n2], by change f1.cols = _; rw [rf1.cols]⟩
  obtain ⟨hs, hhs, hr, hc⟩ : ∃ hs, b1.neg.hstack b0 = some hs ∧ hs.rows = n ∧ hs.cols = 2 * n :=
    ⟨_, if_pos (by change b1.rows = b0.rows; rw [rb1.rows, rb0.rows]), by change b1.rows = _; rw [rb1.rows], by
      change b1.cols + b0.cols = _; rw [rb1.cols, rb0.cols, n2]⟩
  obtain ⟨vb, hvb, vbr, vbc⟩ : ∃ vb, b0.vstack b1 = some vb ∧ vb.rows = 2 * n ∧ vb.cols = n :=
    ⟨_, if_pos (by rw [rb1.cols, rb0.cols]), by
      change b0.rows + b1.rows = _; rw [rb1.rows, rb0.rows, n2], by change b0.cols = _; rw [rb0.cols]⟩
  obtain ⟨hf, hhf, hfr, hfc⟩ : ∃ hf, f0.hstack f1 = some hf ∧ hf.rows = n ∧ hf.cols = 2 * n :=
    ⟨_, if_pos (by rw [rf1.rows, rf0.rows]), by change f0.rows = _; rw [rf0.rows], by
      change f0.cols + f1.cols = _; rw [rf1.cols, rf0.cols, n2]⟩
  obtain ⟨x, hx, xr, xc⟩ : ∃ x, eps10.mul vs = some x ∧ x.rows = 2 * n ∧ x.cols = n :=
    ⟨_, if_pos (by rw [vr]; rfl), rfl, vc⟩
  obtain ⟨x', hx', xr', xc'⟩ : ∃ x', x.mul (FlatMat.diag n fun k => 1 / ravel (epsT 2) k) = some x' ∧ x'.rows = 2 * n ∧ x'.cols = n :=
    ⟨_, if_pos xc, xr, rfl⟩
  obtain ⟨m2, hm2, mr2, mc2⟩ : ∃ m2, x'.mul hs = some m2 ∧ m2.rows = 2 * n ∧ m2.cols = 2 * n :=
    ⟨_, if_pos (by rw [xc', hr]), xr', hc⟩
  obtain ⟨m3, hm3, mr3, mc3⟩ : ∃ m3, vb.mul hf = some m3 ∧ m3.rows = 2 * n ∧ m3.cols = 2 * n :=
    ⟨_, if_pos (by rw [vbc, hfr]), vbr, hfc⟩
  obtain ⟨y, hy, yr, yc⟩ : ∃ y, (eps10.smul (k0 ^ 2 : ℂ)).add m2 = some y ∧ y.rows = 2 * n ∧ y.cols = 2 * n :=
    add_some (A := eps10.smul (k0 ^ 2 : ℂ)) mr2.symm mc2.symm
  obtain ⟨M, hM, Mr, Mc⟩ : ∃ M, y.add m3 = some M ∧ M.rows = 2 * n ∧ M.cols = 2 * n :=
    ⟨_, if_pos ⟨by rw [yr, mr3], by rw [yc, mc3]⟩, yr, yc⟩
  refine ⟨M, ?_, Mr, Mc, fun v i => ?_⟩
  · simp only [waveguideFlat, hf0, hf1, hb0, hb1, Option.bind_eq_bind, Option.bind_some]
    simp only [← hn, ← heps, hvs, hhs, hx, hx', hm2, hvb, hhf, hm3, hy, hM, Option.bind_some]
  have hi : flatIdx i < n := flatIdx_lt i
  -- ez
  have hez : ∀ j : GIdx s, (FlatMat.diag n fun k => 1 / ravel (epsT 2) k).mulVec (hs.mulVec v) (flatIdx j) =
      1 / epsT 2 j * ((-(g.deriv true 1)) *ᵥ (reshapeS v) + g.deriv true 0 *ᵥ (reshapeS fun k => v (n + k))) j := by
    intro j
    have hj : flatIdx j < n := flatIdx_lt j
    rw [mulVec_diag _ _ _ hj, ravel_flatIdx, mulVec_hstack hhs, mulVec_neg, rb1.mulVec_at]
    change _ * (-_ + b0.mulVec (fun k => v (b1.cols + k)) (flatIdx j)) = _
    rw [rb1.cols, rb0.mulVec_at, Pi.add_apply, Matrix.neg_mulVec, Pi.neg_apply]
  have hdv : ∀ j : GIdx s, hf.mulVec v (flatIdx j) =
      transverseDiv (g.deriv false) (reshapeS v) (reshapeS fun k => v (n + k)) j := by
    intro j
    rw [mulVec_hstack hhf, rf0.mulVec_at, rf0.cols, rf1.mulVec_at]
    rfl
  have hezf : (reshapeS ((FlatMat.diag n fun k => 1 / ravel (epsT 2) k).mulVec (hs.mulVec v)) : SField s) = fun j =>
      1 / epsT 2 j * ((-(g.deriv true 1)) *ᵥ (reshapeS v) + g.deriv true 0 *ᵥ (reshapeS fun k => v (n + k))) j := funext hez
  have hdvf : (reshapeS (hf.mulVec v) : SField s) =
      transverseDiv (g.deriv false) (reshapeS v) (reshapeS fun k => v (n + k)) := funext hdv
  have hexp : ∀ k, M.mulVec v k = k0 ^ 2 * eps10.mulVec v k
      + eps10.mulVec (vs.mulVec ((FlatMat.diag n fun k => 1 / ravel (epsT 2) k).mulVec (hs.mulVec v))) k
      + vb.mulVec (hf.mulVec v) k := by
    intro k
    rw [mulVec_add hM, mulVec_add hy, mulVec_smul, mulVec_mul hm2, mulVec_mul hx', mulVec_mul hx, mulVec_mul hm3]
  constructor
  · rw [hexp, heps, mulVec_diag _ _ _ (by omega), mulVec_diag _ _ _ (by omega), hstackV, if_pos hi, ravel_flatIdx,
      mulVec_vstack hvs, mulVec_vstack hvb]
    rw [if_pos (by change flatIdx i < f1.rows; rw [rf1.rows]; exact hi), if_pos (by rw [rb0.rows]; exact hi),
      mulVec_neg, rf1.mulVec_at, rb0.mulVec_at, hezf, hdvf]
    simp only [wgm2d, Matrix.neg_mulVec, Pi.neg_apply, reshapeS]
    ring
  · rw [hexp, heps, mulVec_diag _ _ _ (by omega), mulVec_diag _ _ _ (by omega), hstackV, if_neg (by omega), Nat.add_sub_cancel_left,
      ravel_flatIdx, mulVec_vstack hvs, mulVec_vstack hvb]
    rw [if_neg (by change ¬ n + flatIdx i < f1.rows; rw [rf1.rows]; omega), if_neg (by rw [rb0.rows]; omega)]
    change _ + epsT 0 i * f0.mulVec _ (n + flatIdx i - f1.rows) + b1.mulVec _ _ = _
    rw [rf1.rows, rb0.rows, Nat.add_sub_cancel_left, rf0.mulVec_at, rb1.mulVec_at, hezf, hdvf]
    simp only [wgm2d, reshapeS]
    ring

theorem modeRow_spec (g : YeeOps s) (lam : ℂ) (v : ℕ → ℂ) :
    ∃ r, modeRow g lam v = some r ∧
      (reshapeV r : VField s) = fullH g lam (reshapeS v, reshapeS fun k => v (cellCount s + k)) := by
  obtain ⟨f0, hf0, rf0⟩ := rep_deriv g false 0
  obtain ⟨f1, hf1, rf1⟩ := rep_deriv g false 1
  obtain ⟨hf, hhf⟩ : ∃ hf, f0.hstack f1 = some hf := ⟨_, if_pos (by rw [rf1.rows, rf0.rows])⟩
  refine ⟨_, by simp only [modeRow, hf0, hf1, hhf, Option.bind_eq_bind, Option.bind_some]; rfl, ?_⟩
  funext c i
  have hi : flatIdx i < cellCount s := flatIdx_lt i
  fin_cases c
  · change hstackV _ _ _ (0 * cellCount s + flatIdx i) = v (flatIdx i)
    rw [hstackV, if_pos (by omega), Nat.zero_mul, Nat.zero_add]
  · change hstackV _ _ _ (1 * cellCount s + flatIdx i) = v (cellCount s + flatIdx i)
    rw [hstackV, if_pos (by omega), Nat.one_mul]
  · change hstackV _ _ _ (2 * cellCount s + flatIdx i) = transverseDiv _ _ _ i / _
    rw [hstackV, if_neg (by omega), Nat.add_sub_cancel_left, mulVec_hstack hhf, rf0.mulVec_at, rf0.cols, rf1.mulVec_at]
    rfl

theorem flat2_eq_iff (x y : ℕ → ℂ) : (∀ k < 2 * cellCount s, x k = y k) ↔
    ∀ i : GIdx s, x (flatIdx i) = y (flatIdx i) ∧ x (cellCount s + flatIdx i) = y (cellCount s + flatIdx i) := by
  constructor
  · intro h i
    have := flatIdx_lt i
    exact ⟨h _ (by omega), h _ (by omega)⟩
  · intro h k hk
    by_cases hk' : k < cellCount s
    · have := (h (unravel k)).1
      rwa [flatIdx_unravel hk'] at this
    · have := (h (unravel (k - cellCount s))).2
      rwa [flatIdx_unravel (by omega), Nat.add_sub_cancel' (by omega)] at this

/-! ### C173 -/

/-- C173, two-dimensional cross sections: whatever flat vector `v` and positive `beta` satisfy the eigenvalue equation
`C v = beta² v` of `waveguide_mode_matrix`, the row `solve` makes of it, reshaped as `ModeLibrary.h` does, together with the electric
field `ModeLibrary.e` computes from it, satisfies Maxwell's equations for a wave `exp(-i beta z)`; and conversely every solution of
Maxwell's equations, flattened, is an eigenvector. -/
theorem C173_flat_modes (g : YeeOps s) (hb : ∀ a, g.bloch a = 1) (k0 beta : ℝ) (hk : k0 ≠ 0) (hbeta : 0 < beta)
    (epsT : VField s) (he : ∀ c i, epsT c i ≠ 0) :
    ∃ M, waveguideFlat g k0 epsT = some M ∧ M.rows = 2 * cellCount s ∧ M.cols = 2 * cellCount s ∧
      (∀ v : ℕ → ℂ, (∀ k < 2 * cellCount s, M.mulVec v k = (beta : ℂ) ^ 2 * v k) →
        ∃ r, modeRow g ((beta : ℂ) ^ 2) v = some r ∧ (∀ k < 2 * cellCount s, r k = v k) ∧
          let h : VField s := reshapeV r
          MaxwellZ (g.deriv false) (g.deriv true) (-1) (-I * beta) k0 epsT (modeH2e g k0 epsT beta h) h) ∧
      (∀ e h : VField s, MaxwellZ (g.deriv false) (g.deriv true) (-1) (-I * beta) k0 epsT e h →
        (∀ k < 2 * cellCount s, M.mulVec (ravelV h) k = (beta : ℂ) ^ 2 * ravelV h k) ∧
        ∃ r, modeRow g ((beta : ℂ) ^ 2) (ravelV h) = some r ∧ reshapeV r = h ∧ modeH2e g k0 epsT beta (reshapeV r) = e) := by
  obtain ⟨M, hM, Mr, Mc, hspec⟩ := waveguideFlat_spec g k0 epsT
  refine ⟨M, hM, Mr, Mc, fun v hv => ?_, fun e h hm => ?_⟩
  · rw [flat2_eq_iff (s := s)] at hv
    obtain ⟨r, hr, hr'⟩ := modeRow_spec g ((beta : ℂ) ^ 2) v
    refine ⟨r, hr, ?_, ?_⟩
    · rw [flat2_eq_iff (s := s)]
      intro i
      have h0 := congrFun (congrFun hr' 0) i
      have h1 := congrFun (congrFun hr' 1) i
      change r (0 * cellCount s + flatIdx i) = v (flatIdx i) at h0
      change r (1 * cellCount s + flatIdx i) = v (cellCount s + flatIdx i) at h1
      rw [Nat.zero_mul, Nat.zero_add] at h0
      rw [Nat.one_mul] at h1
      exact ⟨h0, h1⟩
    · intro h
      have hh : h = fullH g ((beta : ℂ) ^ 2) (reshapeS v, reshapeS fun k => v (cellCount s + k)) := hr'
      rw [hh]
      refine (C87_mode_maxwell g hb k0 beta hk hbeta epsT he (reshapeS v) (reshapeS fun k => v (cellCount s + k)) ?_).1
      refine Prod.ext (funext fun i => ?_) (funext fun i => ?_)
      · exact (hspec v i).1.symm.trans (hv i).1
      · exact (hspec v i).2.symm.trans (hv i).2
  · obtain ⟨h1, h2, h3⟩ := C87_mode_complete g hb k0 beta hk hbeta epsT he e h hm
    have e0 : (reshapeS (ravelV h) : SField s) = h 0 := by
      funext i
      have := ravelV_flatIdx h 0 i
      rwa [show ((0 : Fin 3) : ℕ) = 0 from rfl, Nat.zero_mul, Nat.zero_add] at this
    have e1 : (reshapeS (fun k => ravelV h (cellCount s + k)) : SField s) = h 1 := by
      funext i
      have := ravelV_flatIdx h 1 i
      rwa [show ((1 : Fin 3) : ℕ) = 1 from rfl, Nat.one_mul] at this
    constructor
    · rw [flat2_eq_iff (s := s)]
      intro i
      obtain ⟨q1, q2⟩ := hspec (ravelV h) i
      rw [q1, q2, e0, e1, h1]
      exact ⟨by rw [← e0]; rfl, by rw [← e1]; rfl⟩
    · obtain ⟨r, hr, hr'⟩ := modeRow_spec g ((beta : ℂ) ^ 2) (ravelV h)
      rw [e0, e1, ← h2] at hr'
      exact ⟨r, hr, hr', by rw [hr', ← h3]⟩

/-- C173, one-dimensional cross sections: the flat eigenvalue equation is the array equation
`k0² eps u + D_f D_b u = lam u` in every cell. -/
theorem C173_flat_modes_1d (g : YeeOps s) (hb : ∀ a, g.bloch a = 1) (k0 : ℝ) (eps : SField s) :
    ∃ M, waveguideFlat1 g k0 eps = some M ∧ M.rows = cellCount s ∧ M.cols = cellCount s ∧
      ∀ (v : ℕ → ℂ) (lam : ℂ), (∀ k < cellCount s, M.mulVec v k = lam * v k) ↔
        let u : SField s := reshapeS v
        ∀ i, k0 ^ 2 * eps i * u i + g.diffFn false (g.diffFn true u 0) 0 i = lam * u i := by
  obtain ⟨f0, hf0, rf0⟩ := rep_deriv g false 0
  obtain ⟨b0, hb0, rb0⟩ := rep_deriv g true 0
  obtain ⟨m, hm, rm⟩ := rf0.mul rb0
  obtain ⟨M, hM, Mr, Mc⟩ : ∃ M, ((FlatMat.diag (cellCount s) (ravel eps)).smul (k0 ^ 2 : ℂ)).add m = some M ∧
      M.rows = cellCount s ∧ M.cols = cellCount s :=
    add_some (A := (FlatMat.diag (cellCount s) (ravel eps)).smul (k0 ^ 2 : ℂ)) rm.rows.symm rm.cols.symm
  refine ⟨M, by simp only [waveguideFlat1, hf0, hb0, hm, Option.bind_eq_bind, Option.bind_some, hM], Mr, Mc, fun v lam => ?_⟩
  change _ ↔ ∀ i, k0 ^ 2 * eps i * (reshapeS v : SField s) i + g.diffFn false (g.diffFn true (reshapeS v : SField s) 0) 0 i = lam * (reshapeS v : SField s) i
  set u : SField s := reshapeS v with hu
  rw [flat_eq_iff (s := s)]
  refine forall_congr' fun i => ?_
  have : M.mulVec v (flatIdx i) = k0 ^ 2 * eps i * u i + g.diffFn false (g.diffFn true u 0) 0 i := by
    rw [mulVec_add hM, mulVec_smul, mulVec_diag _ _ _ (flatIdx_lt i), ravel_flatIdx, rm.mulVec_at, ← Matrix.mulVec_mulVec,
      YeeOps.diffFn_eq g hb, YeeOps.diffFn_eq g hb, mul_assoc]
    rfl
  rw [this]
  rfl

/-- A nonzero flat eigenvector exists on a four-cell periodic grid: `hy = quarter` with `k0 = 3/2`, `beta = 1/2`. -/
example : ∃ M, waveguideFlat g4 (3 / 2) (fun _ _ => 1) = some M ∧ ∃ v : ℕ → ℂ, (∃ k < 2 * cellCount (shapeOf 4 1 1), v k ≠ 0) ∧
    ∀ k < 2 * cellCount (shapeOf 4 1 1), M.mulVec v k = ((1 / 2 : ℝ) : ℂ) ^ 2 * v k := by
  obtain ⟨M, hM, -, -, -, hc⟩ := C173_flat_modes g4 (fun _ => rfl) (3 / 2) (1 / 2) (by norm_num) (by norm_num) (fun _ _ => 1)
    (fun _ _ => one_ne_zero)
  refine ⟨M, hM, _, ?_, (hc _ _ (C87_mode_maxwell g4 (fun _ => rfl) (3 / 2) (1 / 2) (by norm_num) (by norm_num) _
    (fun _ _ => one_ne_zero) 0 quarter quarter_mode2d).1).1⟩
  refine ⟨4 + flatIdx (s := shapeOf 4 1 1) 0, by decide, ?_⟩
  have := ravelV_flatIdx (fullH g4 (((1 / 2 : ℝ) : ℂ) ^ 2) (0, quarter)) 1 0
  rw [show ((1 : Fin 3) : ℕ) * cellCount (shapeOf 4 1 1) = 4 from rfl] at this
  rw [this]
  change quarter 0 ≠ 0
  simp [quarter]

end Simphox
