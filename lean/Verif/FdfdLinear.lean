import Verif.FdtdProps
import Verif.TileProps
import Verif.ModeProps

/-!
# Superposition in the frequency domain (C142)

`FDFD.solve` (fdfd.py:183-257) and the modal measurement (mode.py:528-567) as functions of the source.
-/

namespace Simphox

open Complex Matrix

variable {s : Fin 3 → ℕ} [∀ a, NeZero (s a)]

/-! ### Lemmas -/

/-- An exact solver is linear in the right hand side, because the operator is injective. -/
theorem solver_lin {ι : Type} [Fintype ι] [DecidableEq ι] (A : Matrix ι ι ℂ) (x : (ι → ℂ) → ι → ℂ) (hs : ∀ b, A *ᵥ x b = b)
    (a b : ℂ) (u v : ι → ℂ) : x (a • u + b • v) = a • x u + b • x v := by
  apply mulVec_inj_of_solver A x hs
  rw [hs, Matrix.mulVec_add, Matrix.mulVec_smul, Matrix.mulVec_smul, hs, hs]

theorem solve3d_lin (g : YeeOps s) (k0 : ℝ) (epsT : VField s) (solver : Solver (Fin 3 × GIdx s))
    (hs : ∀ b, fdfdMat g k0 epsT *ᵥ solver (fdfdMat g k0 epsT) b = b) (a b : ℂ) (u v : VField s) :
    solve3d g k0 epsT solver (a • u + b • v) = a • solve3d g k0 epsT solver u + b • solve3d g k0 epsT solver v := by
  have hb : (fun p => (k0 : ℂ) * vflat (a • u + b • v) p) = a • (fun p => (k0 : ℂ) * vflat u p) + b • fun p => (k0 : ℂ) * vflat v p := by
    funext p
    change (k0 : ℂ) * (a * u p.1 p.2 + b * v p.1 p.2) = a * (k0 * u p.1 p.2) + b * (k0 * v p.1 p.2)
    ring
  have he : (solve3d g k0 epsT solver (a • u + b • v)).1 = a • (solve3d g k0 epsT solver u).1 + b • (solve3d g k0 epsT solver v).1 := by
    funext c i
    change solver (fdfdMat g k0 epsT) (fun p => (k0 : ℂ) * vflat (a • u + b • v) p) (c, i) = _
    rw [hb, solver_lin _ (solver (fdfdMat g k0 epsT)) hs]
    rfl
  refine Prod.ext he ?_
  funext c i
  change curlFn (g.diffFn false) (solve3d g k0 epsT solver (a • u + b • v)).1 c i / (I * k0) =
    a * (curlFn (g.diffFn false) (solve3d g k0 epsT solver u).1 c i / (I * k0))
      + b * (curlFn (g.diffFn false) (solve3d g k0 epsT solver v).1 c i / (I * k0))
  rw [he]
  have := curl_lin g false a b (solve3d g k0 epsT solver u).1 (solve3d g k0 epsT solver v).1 c i
  rw [show curlFn (g.diffFn false) (a • (solve3d g k0 epsT solver u).1 + b • (solve3d g k0 epsT solver v).1) c i = _ from this]
  change (a * curlFn (g.diffFn false) (solve3d g k0 epsT solver u).1 c i + b * curlFn (g.diffFn false) (solve3d g k0 epsT solver v).1 c i) / (I * k0) = _
  ring

theorem solve2d_lin (g : YeeOps s) (k0 : ℝ) (epsT : VField s) (tm : Bool) (solver : Solver (GIdx s))
    (hs : ∀ b, (if tm then fdfdMatHz g k0 epsT else fdfdMatEz g k0 epsT) *ᵥ
      solver (if tm then fdfdMatHz g k0 epsT else fdfdMatEz g k0 epsT) b = b) (a b : ℂ) (u v : SField s) :
    solve2d g k0 epsT tm solver (a • u + b • v) = a • solve2d g k0 epsT tm solver u + b • solve2d g k0 epsT tm solver v := by
  have hb : (fun i => (k0 : ℂ) * (a • u + b • v) i) = a • (fun i => (k0 : ℂ) * u i) + b • fun i => (k0 : ℂ) * v i := by
    funext p
    change (k0 : ℂ) * (a * u p + b * v p) = a * (k0 * u p) + b * (k0 * v p)
    ring
  set A := (if tm then fdfdMatHz g k0 epsT else fdfdMatEz g k0 epsT) with hA
  have hz : solver A (fun i => (k0 : ℂ) * (a • u + b • v) i) = a • solver A (fun i => (k0 : ℂ) * u i) + b • solver A (fun i => (k0 : ℂ) * v i) := by
    rw [hb, solver_lin _ (solver A) hs]
  have hd : ∀ (ax : Fin 3) (i : GIdx s), g.diffFn tm (solver A (fun i => (k0 : ℂ) * (a • u + b • v) i)) ax i
      = a * g.diffFn tm (solver A fun i => (k0 : ℂ) * u i) ax i + b * g.diffFn tm (solver A fun i => (k0 : ℂ) * v i) ax i := by
    intro ax i
    rw [hz]
    exact congrFun (diffFn_lin g tm a b _ _ ax) i
  have hz' := fun i => congrFun hz i
  cases tm
  · refine Prod.ext ?_ ?_
    · funext c i
      match c with
      | 0 => change (0 : ℂ) = a * 0 + b * 0; ring
      | 1 => change (0 : ℂ) = a * 0 + b * 0; ring
      | 2 => exact hz' i
    · funext c i
      match c with
      | 0 =>
        change g.diffFn false (solver A (fun i => (k0 : ℂ) * (a • u + b • v) i)) 1 i / (I * k0)
          = a * (g.diffFn false (solver A fun i => (k0 : ℂ) * u i) 1 i / (I * k0)) + b * (g.diffFn false (solver A fun i => (k0 : ℂ) * v i) 1 i / (I * k0))
        rw [hd]; ring
      | 1 =>
        change -g.diffFn false (solver A (fun i => (k0 : ℂ) * (a • u + b • v) i)) 0 i / (I * k0)
          = a * (-g.diffFn false (solver A fun i => (k0 : ℂ) * u i) 0 i / (I * k0)) + b * (-g.diffFn false (solver A fun i => (k0 : ℂ) * v i) 0 i / (I * k0))
        rw [hd]; ring
      | 2 => change (0 : ℂ) / _ = a * (0 / _) + b * (0 / _); simp
  · refine Prod.ext ?_ ?_
    · funext c i
      match c with
      | 0 =>
        change g.diffFn true (solver A (fun i => (k0 : ℂ) * (a • u + b • v) i)) 1 i / (I * k0 * epsT 0 i)
          = a * (g.diffFn true (solver A fun i => (k0 : ℂ) * u i) 1 i / (I * k0 * epsT 0 i))
            + b * (g.diffFn true (solver A fun i => (k0 : ℂ) * v i) 1 i / (I * k0 * epsT 0 i))
        rw [hd]; ring
      | 1 =>
        change -g.diffFn true (solver A (fun i => (k0 : ℂ) * (a • u + b • v) i)) 0 i / (I * k0 * epsT 1 i)
          = a * (-g.diffFn true (solver A fun i => (k0 : ℂ) * u i) 0 i / (I * k0 * epsT 1 i))
            + b * (-g.diffFn true (solver A fun i => (k0 : ℂ) * v i) 0 i / (I * k0 * epsT 1 i))
        rw [hd]; ring
      | 2 => change (0 : ℂ) / _ = a * (0 / _) + b * (0 / _); simp
    · funext c i
      match c with
      | 0 => change (0 : ℂ) = a * 0 + b * 0; ring
      | 1 => change (0 : ℂ) = a * 0 + b * 0; ring
      | 2 => exact hz' i

theorem poyntingZ_lin_e (e f h : VField s) (a b : ℂ) (i : GIdx s) :
    poyntingZ (a • e + b • f) h i = a * poyntingZ e h i + b * poyntingZ f h i := by
  simp only [poyntingZ, rollFwd, Pi.add_apply, Pi.smul_apply, smul_eq_mul]
  ring

theorem poyntingZ_lin_h (e h k : VField s) (a b : ℂ) (i : GIdx s) :
    poyntingZ e (a • h + b • k) i = (starRingEnd ℂ) a * poyntingZ e h i + (starRingEnd ℂ) b * poyntingZ e k i := by
  simp only [poyntingZ, rollFwd, Pi.add_apply, Pi.smul_apply, smul_eq_mul, map_add, map_mul, map_div₀]
  ring

theorem measure_lin (em hm : VField s) (f1 f2 : VField s × VField s) (a b : ℂ) :
    measure em hm (a • f1 + b • f2).1 (a • f1 + b • f2).2 = a • measure em hm f1.1 f1.2 + b • measure em hm f2.1 f2.2 := by
  have h1 : ∑ i, poyntingZ (a • f1 + b • f2).1 hm i = a * ∑ i, poyntingZ f1.1 hm i + b * ∑ i, poyntingZ f2.1 hm i := by
    rw [Finset.mul_sum, Finset.mul_sum, ← Finset.sum_add_distrib]
    exact Finset.sum_congr rfl fun i _ => poyntingZ_lin_e f1.1 f2.1 hm a b i
  have h2 : ∑ i, poyntingZ em (a • f1 + b • f2).2 i
      = (starRingEnd ℂ) a * ∑ i, poyntingZ em f1.2 i + (starRingEnd ℂ) b * ∑ i, poyntingZ em f2.2 i := by
    rw [Finset.mul_sum, Finset.mul_sum, ← Finset.sum_add_distrib]
    exact Finset.sum_congr rfl fun i _ => poyntingZ_lin_h em f1.2 f2.2 a b i
  unfold measure
  simp only [h1, h2, map_div₀, map_add, map_mul, Complex.conj_conj]
  refine Prod.ext ?_ ?_
  · change _ = a * (_ / _ / 2 + _ / 2) + b * (_ / _ / 2 + _ / 2)
    ring
  · change _ = a * (_ / _ / 2 - _ / 2) + b * (_ / _ / 2 - _ / 2)
    ring

/-! ### The theorems -/

/-- A map that respects linear combinations of two respects those of any finite family. -/
theorem superpose {V W ι : Type} [AddCommGroup V] [Module ℂ V] [AddCommGroup W] [Module ℂ W] (F : V → W)
    (h : ∀ (a b : ℂ) (u v : V), F (a • u + b • v) = a • F u + b • F v) (S : Finset ι) (w : ι → ℂ) (src : ι → V) :
    F (∑ k ∈ S, w k • src k) = ∑ k ∈ S, w k • F (src k) := by
  classical
  have h0 : F 0 = 0 := by simpa using h 0 0 0 0
  induction S using Finset.induction_on with
  | empty => simpa using h0
  | insert k S hk ih =>
    rw [Finset.sum_insert hk, Finset.sum_insert hk, ← ih]
    simpa using h (w k) 1 (src k) (∑ k ∈ S, w k • src k)

/-- C142, three dimensions: with an exact solver, the fields of a weighted sum of sources are the weighted sum of
the fields of the sources. With and without PML and Bloch phases. -/
theorem C142_3d (g : YeeOps s) (k0 : ℝ) (epsT : VField s) (solver : Solver (Fin 3 × GIdx s))
    (hs : ∀ b, fdfdMat g k0 epsT *ᵥ solver (fdfdMat g k0 epsT) b = b) {ι : Type} (S : Finset ι) (w : ι → ℂ) (src : ι → VField s) :
    solve3d g k0 epsT solver (∑ k ∈ S, w k • src k) = ∑ k ∈ S, w k • solve3d g k0 epsT solver (src k) :=
  superpose _ (solve3d_lin g k0 epsT solver hs) S w src

/-- C142, two dimensions, both polarisations. -/
theorem C142_2d (g : YeeOps s) (k0 : ℝ) (epsT : VField s) (tm : Bool) (solver : Solver (GIdx s))
    (hs : ∀ b, (if tm then fdfdMatHz g k0 epsT else fdfdMatEz g k0 epsT) *ᵥ
      solver (if tm then fdfdMatHz g k0 epsT else fdfdMatEz g k0 epsT) b = b) {ι : Type} (S : Finset ι) (w : ι → ℂ) (src : ι → SField s) :
    solve2d g k0 epsT tm solver (∑ k ∈ S, w k • src k) = ∑ k ∈ S, w k • solve2d g k0 epsT tm solver (src k) :=
  superpose _ (solve2d_lin g k0 epsT tm solver hs) S w src

/-- C142: the two modal amplitudes measured at a port are linear in the fields, so with the theorems above they are
determined by the amplitudes measured for each source alone. -/
theorem C142_measure (em hm : VField s) {ι : Type} (S : Finset ι) (w : ι → ℂ) (f : ι → VField s × VField s) :
    measure em hm (∑ k ∈ S, w k • f k).1 (∑ k ∈ S, w k • f k).2 = ∑ k ∈ S, w k • measure em hm (f k).1 (f k).2 :=
  superpose (fun f : VField s × VField s => measure em hm f.1 f.2) (fun a b u v => measure_lin em hm u v a b) S w f

/-- C142: driving several sources at once, the amplitudes measured at a port are the weighted sums of the
amplitudes measured for each source alone (three dimensions). -/
theorem C142_scattering_3d (g : YeeOps s) (k0 : ℝ) (epsT : VField s) (solver : Solver (Fin 3 × GIdx s))
    (hs : ∀ b, fdfdMat g k0 epsT *ᵥ solver (fdfdMat g k0 epsT) b = b) (em hm : VField s) {ι : Type} (S : Finset ι) (w : ι → ℂ)
    (src : ι → VField s) :
    measure em hm (solve3d g k0 epsT solver (∑ k ∈ S, w k • src k)).1 (solve3d g k0 epsT solver (∑ k ∈ S, w k • src k)).2
      = ∑ k ∈ S, w k • measure em hm (solve3d g k0 epsT solver (src k)).1 (solve3d g k0 epsT solver (src k)).2 := by
  rw [C142_3d g k0 epsT solver hs, C142_measure]

/-- C142, the same in two dimensions. -/
theorem C142_scattering_2d (g : YeeOps s) (k0 : ℝ) (epsT : VField s) (tm : Bool) (solver : Solver (GIdx s))
    (hs : ∀ b, (if tm then fdfdMatHz g k0 epsT else fdfdMatEz g k0 epsT) *ᵥ
      solver (if tm then fdfdMatHz g k0 epsT else fdfdMatEz g k0 epsT) b = b) (em hm : VField s) {ι : Type} (S : Finset ι) (w : ι → ℂ)
    (src : ι → SField s) :
    measure em hm (solve2d g k0 epsT tm solver (∑ k ∈ S, w k • src k)).1 (solve2d g k0 epsT tm solver (∑ k ∈ S, w k • src k)).2
      = ∑ k ∈ S, w k • measure em hm (solve2d g k0 epsT tm solver (src k)).1 (solve2d g k0 epsT tm solver (src k)).2 := by
  rw [C142_2d g k0 epsT tm solver hs, C142_measure]

/-- The hypothesis of an exact solver is met: one cell with permittivity one and `k0 = 1`, where both operators
are minus the identity. -/
example : ∃ solver : Solver (GIdx (shapeOf 1 1 1)), ∀ b,
    fdfdMatEz (uniformOps (shapeOf 1 1 1) (fun _ => 1) (fun _ => 1)) 1 (fun _ _ => 1) *ᵥ
      solver (fdfdMatEz (uniformOps (shapeOf 1 1 1) (fun _ => 1) (fun _ => 1)) 1 (fun _ _ => 1)) b = b := by
  refine ⟨fun _ b => -b, fun b => ?_⟩
  funext i
  rw [fdfdMatEz_mulVec, deriv_one_cell _ true 0 rfl, deriv_one_cell _ true 1 rfl, Matrix.zero_mulVec, Matrix.zero_mulVec]
  simp

end Simphox
