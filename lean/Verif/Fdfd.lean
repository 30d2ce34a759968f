import Verif.Yee

/-!
# Model of the `FDFD` operators and solver (`simphox/fdfd.py`)

The linear solver (`spsolve_pardiso`, or a user supplied `solver_fn`) is a parameter
`solver : matrix → right-hand side → solution`. `epsT` is the Yee-averaged permittivity `self.eps_t`.
The checks on `src.size` (fdfd.py:211-212, 223-224) are implied by the types. The iterative branch of
`solve` (fdfd.py:213-216) is another choice of `solver`.
-/

namespace Simphox

open Matrix Complex

variable {s : Fin 3 → ℕ}

/-- `_dxes` and `bloch` of a grid without PML (grid.py:84-86, 352-358): uniform cells along each axis. -/
noncomputable def uniformOps (s : Fin 3 → ℕ) (bloch : Fin 3 → ℂ) (spacing : Fin 3 → ℝ) : YeeOps s :=
  { bloch := bloch, dx := fun _ a _ => (spacing a : ℂ) }

/-- `_dxes` with PML (fdfd.py:93-100): the cells scaled by the complex stretching factors
`scpml_e`, `scpml_h` of each axis. -/
noncomputable def pmlOps (s : Fin 3 → ℕ) (bloch : Fin 3 → ℂ) (spacing : Fin 3 → ℝ)
    (sc : Bool → (a : Fin 3) → Fin (s a) → ℂ) : YeeOps s :=
  { bloch := bloch, dx := fun back a i => (spacing a : ℂ) * sc back a i }

/-- `yee_avg(params)` with the default `shift=1` on a three dimensional array (utils.py:195-200); also
`yee_avg_jax` (utils.py:210-215), which has the same body. -/
noncomputable def yeeAvgG [∀ a, NeZero (s a)] (p : SField s) : VField s :=
  let px : SField s := fun i => (p i + rollFwd 1 p i) / 2
  let py : SField s := fun i => (p i + rollFwd 0 p i) / 2
  ![px, py, fun i => (py i + rollFwd 1 py i) / 2]

/-- `yee_avg_2d_z(params)` (utils.py:203-207). -/
noncomputable def yeeAvg2dZG [∀ a, NeZero (s a)] (p : SField s) : SField s :=
  let py : SField s := fun i => (p i + rollFwd 0 p i) / 2
  fun i => (py i + rollFwd 1 py i) / 2

/-- `FDFD.mat` (fdfd.py:123-134). -/
noncomputable def fdfdMat (g : YeeOps s) (k0 : ℝ) (epsT : VField s) :
    Matrix (Fin 3 × GIdx s) (Fin 3 × GIdx s) ℂ :=
  d2curlOp (g.deriv true) * d2curlOp (g.deriv false) - (k0 ^ 2 : ℂ) • Matrix.diagonal (vflat epsT)

/-- `FDFD.mat_ez` (fdfd.py:138-149). -/
noncomputable def fdfdMatEz (g : YeeOps s) (k0 : ℝ) (epsT : VField s) : Matrix (GIdx s) (GIdx s) ℂ :=
  -(g.deriv true 0) * g.deriv false 0 - g.deriv true 1 * g.deriv false 1
    - (k0 ^ 2 : ℂ) • Matrix.diagonal (epsT 2)

/-- `FDFD.mat_hz` (fdfd.py:151-161). -/
noncomputable def fdfdMatHz (g : YeeOps s) (k0 : ℝ) (epsT : VField s) : Matrix (GIdx s) (GIdx s) ℂ :=
  let t0 := Matrix.diagonal (fun i => 1 / epsT 0 i);
  let t1 := Matrix.diagonal (fun i => 1 / epsT 1 i);
  -(g.deriv true 0) * t1 * g.deriv false 0 - g.deriv true 1 * t0 * g.deriv false 1 - (k0 ^ 2 : ℂ) • 1

variable [∀ a, NeZero (s a)]

/-- `FDFD.e2h(e)` with `beta=None` (fdfd.py:163-176). -/
noncomputable def e2h (g : YeeOps s) (k0 : ℝ) (e : VField s) : VField s :=
  fun c i => g.curl false e c i / (I * k0)

/-- `FDFD.h2e(h)` with `beta=None` (fdfd.py:178-191). -/
noncomputable def h2e (g : YeeOps s) (k0 : ℝ) (epsT : VField s) (h : VField s) : VField s :=
  fun c i => g.curl true h c i / (I * k0 * epsT c i)

/-- The linear solver used by `solve` on an index set `ι`. -/
abbrev Solver (ι : Type) := Matrix ι ι ℂ → (ι → ℂ) → ι → ℂ

/-- `FDFD.solve(src)` for `ndim == 3` (fdfd.py:209-221): the fields `(e, h)`. -/
noncomputable def solve3d (g : YeeOps s) (k0 : ℝ) (epsT : VField s) (solver : Solver (Fin 3 × GIdx s))
    (src : VField s) : VField s × VField s :=
  let b := fun p => (k0 : ℂ) * vflat src p
  let e : VField s := fun c i => solver (fdfdMat g k0 epsT) b (c, i)
  (e, fun c i => curlFn (g.diffFn false) e c i / (I * k0))

/-- `FDFD.solve(src, tm_2d)` for `ndim < 3` (fdfd.py:222-238): the fields `(e, h)`. -/
noncomputable def solve2d (g : YeeOps s) (k0 : ℝ) (epsT : VField s) (tm : Bool) (solver : Solver (GIdx s))
    (src : SField s) : VField s × VField s :=
  let b := fun i => (k0 : ℂ) * src i
  let mat := if tm then fdfdMatHz g k0 epsT else fdfdMatEz g k0 epsT
  let fz : SField s := solver mat b
  let field : VField s := ![0, 0, fz]
  let df := g.diffFn tm
  let rot : VField s := ![df fz 1, -df fz 0, 0]
  if tm then (fun c i => rot c i / (I * k0 * epsT c i), field)
  else (field, fun c i => rot c i / (I * k0))

end Simphox
