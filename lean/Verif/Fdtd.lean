import Mathlib.Analysis.SpecialFunctions.Pow.Real
import Mathlib.Analysis.SpecialFunctions.Exp
import Verif.Utils
import Verif.Fdfd

/-!
# Model of `FDTD` (`simphox/fdtd.py`)

Values only: the aliasing of the arrays of a state is modelled in `FdtdHeap.lean`. An array over a
region of the grid is a function on the whole grid that is only used (and, for stored arrays, zero
outside) on the region. Numbers are exact. `jax = true` is `use_jax=True`.
-/

namespace Simphox

open Complex

variable {s : Fin 3 → ℕ}

/-- One entry of `pml_regions` with its `cpml_b`, `cpml_c` (fdtd.py:306-330). `b back`, `c back` are
`cpml_b[i][0]`, `cpml_c[i][0]` for `back = false` (differences of `e`) and `[1]` for `back = true`. -/
structure PmlRegion (s : Fin 3 → ℕ) where
  mask : GIdx s → Bool
  b : Bool → Fin 3 → SField s
  c : Bool → Fin 3 → SField s

/-- The data of an `FDTD` object used by `step` (fdtd.py:36-50). -/
structure Fdtd (s : Fin 3 → ℕ) where
  g : YeeOps s
  epsT : VField s
  dt : ℝ
  npml : ℕ
  pml : Fin npml → PmlRegion s

/-- `self.dt` (fdtd.py:40) for a grid with `ndim` axes. -/
noncomputable def courantDt (ndim : ℕ) (spacing : Fin 3 → ℝ) : ℝ :=
  1 / Real.sqrt (∑ a : Fin 3, if (a : ℕ) < ndim then 1 / spacing a ^ 2 else 0)

/-- An FDTD without PML (`pml=None`): no regions (fdtd.py:43, 47). -/
noncomputable def plainFdtd [∀ a, NeZero (s a)] (ndim : ℕ) (bloch : Fin 3 → ℂ) (spacing : Fin 3 → ℝ)
    (eps : SField s) : Fdtd s :=
  { g := uniformOps s bloch spacing, epsT := yeeAvgG eps, dt := courantDt ndim spacing,
    npml := 0, pml := fun k => k.elim0 }

/-! ### PML coefficients (`_set_pml`, fdtd.py:306-332) -/

/-- `np.exp(-(alpha + sigma / kappa) * dt)` (fdtd.py:329). -/
noncomputable def cpmlB (α κ dt σ : ℝ) : ℝ := Real.exp (-(α + σ / κ) * dt)
/-- `(b - 1) * sigma / (sigma * kappa + alpha * kappa ** 2)` (fdtd.py:330). -/
noncomputable def cpmlC (α κ dt σ : ℝ) : ℝ := (cpmlB α κ dt σ - 1) * σ / (σ * κ + α * κ ^ 2)

/-- The mask of `pml_regions[2 * ax]` (`hi = false`: `slice(None, t)`) and `pml_regions[2 * ax + 1]`
(`hi = true`: `slice(-t, None)`) (fdtd.py:313-318). `YeeGrid` guarantees `3 < t < shape // 2`. -/
def pmlMask (ax : Fin 3) (t : ℕ) (hi : Bool) (i : GIdx s) : Bool :=
  if hi then decide (s ax - t ≤ (i ax : ℕ)) else decide ((i ax : ℕ) < t)

/-- `sigma_ax[c, k]` (fdtd.py:324-328): the negated `pml_sigma` of the region's own axis, zero for the
other components. -/
noncomputable def fdtdSigma (pos : (a : Fin 3) → ℕ → ℝ) (t : Fin 3 → ℕ) (expScale logR corr : ℝ)
    (ax : Fin 3) (back : Bool) (k : Fin 3) (i : GIdx s) : ℝ :=
  if k = ax then -pmlSigma (pos ax) (s ax) (t ax) expScale logR corr (if back then 1 else 0) (i ax) else 0

/-- The six regions of a three dimensional FDTD with PML (fdtd.py:306-332), with `kappa = 1` and
`alpha = 1e-8`. On a one or two dimensional grid `pml_shape` has fewer than three entries and
`self.pml_shape[2]` (fdtd.py:317) raises an `IndexError`, so such an object does not exist. -/
noncomputable def setPml (dt : ℝ) (pos : (a : Fin 3) → ℕ → ℝ) (t : Fin 3 → ℕ)
    (expScale logR corr : ℝ) (r : Fin 6) : PmlRegion s :=
  let ax : Fin 3 := ⟨r / 2, by omega⟩
  let α : ℝ := 1 / 10 ^ 8
  { mask := pmlMask ax (t ax) (r.1 % 2 = 1)
    b := fun back k i => (cpmlB α 1 dt (fdtdSigma pos t expScale logR corr ax back k i) : ℂ)
    c := fun back k i => (cpmlC α 1 dt (fdtdSigma pos t expScale logR corr ax back k i) : ℂ) }

/-! ### The state and its update -/

/-- One array of `psi_e` / `psi_h`: six difference components on a region. -/
abbrev Psi (s : Fin 3 → ℕ) := Fin 6 → GIdx s → ℂ

/-- `(e, h, psi_e, psi_h)`. Without PML the last two are `None` in the code and empty here. -/
abbrev FState (s : Fin 3 → ℕ) (np : ℕ) := VField s × VField s × (Fin np → Psi s) × (Fin np → Psi s)

/-- One source `(src_e, src_h, region)`; the region is an index mask of the field array, the values
are used on the region only. `None` is `Option.none`. -/
structure Source (s : Fin 3 → ℕ) where
  e : Option (VField s)
  h : Option (VField s)
  region : Fin 3 → GIdx s → Bool

/-- `FDTD.zero_state` (fdtd.py:94-116). -/
def zeroState (s : Fin 3 → ℕ) (np : ℕ) : FState s np := (fun _ _ => 0, fun _ _ => 0, fun _ _ _ => 0, fun _ _ _ => 0)

variable [∀ a, NeZero (s a)]

/-- `de` / `dh` of `curl_e_pml`, `curl_h_pml` (fdtd.py:334-350): the grid difference weighted with
`c[ax]` on the region. -/
noncomputable def pmlDiff (g : YeeOps s) (r : PmlRegion s) (ofH : Bool) (f : SField s) (a : Fin 3) : SField s :=
  fun i => if r.mask i then r.c ofH a i * g.diffFn ofH f a i else 0

/-- `next_df` of `curl_pml_fn` (utils.py:184-188). -/
noncomputable def pmlNext (df : SField s → Fin 3 → SField s) (f : VField s) : Psi s :=
  ![df (f 2) 1, df (f 1) 2, df (f 0) 2, df (f 2) 0, df (f 1) 0, df (f 0) 1]

omit [∀ a, NeZero (s a)] in
/-- The second result of `curl_pml_fn` (utils.py:189-191). -/
noncomputable def pmlCombine (b : Fin 3 → SField s) (next prev : Psi s) : VField s :=
  ![fun i => next 0 i + prev 0 i * b 1 i - next 1 i - prev 1 i * b 2 i,
    fun i => next 2 i + prev 2 i * b 2 i - next 3 i - prev 3 i * b 0 i,
    fun i => next 4 i + prev 4 i * b 0 i - next 5 i - prev 5 i * b 1 i]

/-- `e[pml_region] += phi / eps_t[pml_region] * dt` with `w = dt / eps_t`, and (with `w = -dt`) the same
for `h` (fdtd.py:128-132, 155-159). Both array libraries add here. -/
def addOn (mask : GIdx s → Bool) (w : VField s) (phi f : VField s) : VField s :=
  fun c i => if mask i then f c i + phi c i * w c i else f c i

/-- Adding a source: NumPy subtracts `src * w` on the region, JAX sets the field to `-src * w` there
(fdtd.py:134-140, 161-167). -/
def addSource (jax : Bool) (region : Fin 3 → GIdx s → Bool) (w : VField s) (src : Option (VField s))
    (f : VField s) : VField s :=
  match src with
  | none => f
  | some v => fun c i =>
      if region c i then (if jax then -(v c i) * w c i else f c i - v c i * w c i) else f c i

/-- `FDTD._step_e` (fdtd.py:117-142). -/
noncomputable def Fdtd.stepE (F : Fdtd s) (jax : Bool) (st : FState s F.npml) (sources : List (Source s)) :
    FState s F.npml :=
  let (e, h, psiE, psiH) := st
  let w : VField s := fun c i => F.dt / F.epsT c i
  let next := fun k => pmlNext (pmlDiff F.g (F.pml k) true) h
  let phi := fun k => pmlCombine ((F.pml k).b true) (next k) (psiE k)
  let e1 : VField s := fun c i => e c i + F.g.curl true h c i / F.epsT c i * F.dt
  let e2 := (List.finRange F.npml).foldl (fun f k => addOn (F.pml k).mask w (phi k) f) e1
  let e3 := sources.foldl (fun f src => addSource jax src.region w src.e f) e2
  (e3, h, next, psiH)

/-- `FDTD._step_h` (fdtd.py:144-169). -/
noncomputable def Fdtd.stepH (F : Fdtd s) (jax : Bool) (st : FState s F.npml) (sources : List (Source s)) :
    FState s F.npml :=
  let (e, h, psiE, psiH) := st
  let w : VField s := fun _ _ => F.dt
  let w' : VField s := fun _ _ => -F.dt
  let next := fun k => pmlNext (pmlDiff F.g (F.pml k) false) e
  let phi := fun k => pmlCombine ((F.pml k).b false) (next k) (psiH k)
  let h1 : VField s := fun c i => h c i - F.g.curl false e c i * F.dt
  let h2 := (List.finRange F.npml).foldl (fun f k => addOn (F.pml k).mask w' (phi k) f) h1
  let h3 := sources.foldl (fun f src => addSource jax src.region w src.h f) h2
  (e, h3, psiE, next)

/-- `FDTD.step` (fdtd.py:171-229). -/
noncomputable def Fdtd.step (F : Fdtd s) (jax : Bool) (st : FState s F.npml) (sources : List (Source s)) :
    FState s F.npml :=
  F.stepH jax (F.stepE jax st sources) sources

/-- `n` steps, step `k` with sources `srcs k` (the loop of `run_cw_port`, fdtd.py:268-283). -/
noncomputable def Fdtd.run (F : Fdtd s) (jax : Bool) (srcs : ℕ → List (Source s)) (st : FState s F.npml) :
    ℕ → FState s F.npml
  | 0 => st
  | n + 1 => F.step jax (F.run jax srcs st n) (srcs n)

end Simphox
