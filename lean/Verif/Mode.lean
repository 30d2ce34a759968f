import Mathlib.Data.List.Sort
import Mathlib.Analysis.SpecialFunctions.Complex.Arg
import Mathlib.Analysis.SpecialFunctions.Pow.Complex
import Verif.Fdfd
import Verif.Utils

/-!
# Model of the mode solver and mode library (`simphox/mode.py`)

The eigensolver (`scipy.sparse.linalg.eigs` or FEAST) is a parameter: the list of eigenvalues and
eigenvectors it returns, in an arbitrary order. `np.argsort` is a parameter with the specification
`IsArgsort` (ties may be broken in any way). Grids are as in `Yee.lean`, numbers are exact.
-/

namespace Simphox

open Matrix Complex

variable {s : Fin 3 → ℕ}

/-! ### The waveguide mode operator -/

/-- `[df[0], df[1]]` acting on the transverse field `(hx, hy)`: `sp.hstack(df[:2]) @ h` (mode.py:115, 199). -/
noncomputable def transverseDiv (d : Fin 3 → Matrix (GIdx s) (GIdx s) ℂ) (hx hy : SField s) : SField s :=
  d 0 *ᵥ hx + d 1 *ᵥ hy

/-- `waveguide_mode_matrix @ (hx, hy)` for `ndim == 2` (mode.py:108-116), block by block:
`m1 + m2 + m3` with `m1 = eps_10 k0^2`, `m2 = eps_10 [-df1; df0] diag(1/eps2) [-db1, db0]` and
`m3 = [db0; db1] [df0, df1]`. -/
noncomputable def wgm2d (g : YeeOps s) (k0 : ℝ) (epsT : VField s) (hx hy : SField s) :
    SField s × SField s :=
  let df := g.deriv false
  let db := g.deriv true
  let ez : SField s := fun i => 1 / epsT 2 i * ((-(db 1)) *ᵥ hx + db 0 *ᵥ hy) i
  let dv := transverseDiv df hx hy
  (fun i => epsT 1 i * (k0 : ℂ) ^ 2 * hx i + epsT 1 i * ((-(df 1)) *ᵥ ez) i + (db 0 *ᵥ dv) i,
   fun i => epsT 0 i * (k0 : ℂ) ^ 2 * hy i + epsT 0 i * (df 0 *ᵥ ez) i + (db 1 *ᵥ dv) i)

/-- `waveguide_mode_matrix @ u` for `ndim == 1` (mode.py:119-121). -/
noncomputable def wgm1d (g : YeeOps s) (k0 : ℝ) (eps : SField s) (u : SField s) : SField s :=
  fun i => eps i * (k0 : ℂ) ^ 2 * u i + (g.deriv false 0 *ᵥ (g.deriv true 0 *ᵥ u)) i

/-- `np.sqrt` of a complex number (principal branch). -/
noncomputable def csqrt (z : ℂ) : ℂ := z ^ ((1 : ℂ) / 2)

/-- The full magnetic field of an eigenvector `(hx, hy)` with eigenvalue `lam` (mode.py:198-200). -/
noncomputable def fullH (g : YeeOps s) (lam : ℂ) (v : SField s × SField s) : VField s :=
  ![v.1, v.2, fun i => transverseDiv (g.deriv false) v.1 v.2 i / (I * csqrt lam)]

/-- `ModeSolver.e2h(e, beta)` (mode.py:124-138). -/
noncomputable def modeE2h [∀ a, NeZero (s a)] (g : YeeOps s) (k0 : ℝ) (beta : ℂ) (e : VField s) : VField s :=
  fun c i => curlFnBeta (g.diffFn false) beta e c i / (I * k0)

/-- `ModeSolver.h2e(h, beta)` (mode.py:140-154). -/
noncomputable def modeH2e [∀ a, NeZero (s a)] (g : YeeOps s) (k0 : ℝ) (epsT : VField s) (beta : ℂ)
    (h : VField s) : VField s :=
  fun c i => curlFnBeta (g.diffFn true) beta h c i / (I * k0 * epsT c i)

/-! ### Post-processing of the eigensolver's output (mode.py:189-206) -/

/-- NumPy integer-array indexing `l[idx]` by non-negative indices. -/
def fancy {α : Type} (d : α) (l : List α) (idx : List ℕ) : Except PyError (List α) :=
  if ∀ i ∈ idx, i < l.length then .ok (idx.map fun i => l.getD i d) else .error .indexError

/-- What `np.argsort` guarantees: a permutation of the positions that lists the values in ascending
order. -/
def IsArgsort (argsort : List ℝ → List ℕ) : Prop :=
  ∀ l, (argsort l).Perm (List.range l.length) ∧
    ((argsort l).map fun i => l.getD i 0).Pairwise (· ≤ ·)

open Classical in
/-- `np.where(eigvals.real > 0)[0]` (mode.py:189). -/
noncomputable def usefulModes (vals : List ℂ) : List ℕ :=
  (List.range vals.length).filter fun i => 0 < (vals.getD i 0).re

/-- Rotation of a mode so that its first entry is real and non-negative:
`h * np.exp(-1j * np.angle(h[:, :1]))` (mode.py:206). -/
noncomputable def rephase {ι : Type} (i0 : ι) (h : ι → ℂ) : ι → ℂ :=
  fun i => h i * exp (-I * arg (h i0))

/-- `ModeSolver.solve` after the eigensolver returned `vals`, `vecs` (mode.py:189-206). `full` builds
the full field of an eigenvector (the identity for `ndim == 1`, `fullH` for `ndim == 2`); `i0` is the
first entry of the flattened field. The eigenvalues of the returned `betas` are indexed by
`useful_modes` twice, as the code does. -/
noncomputable def solvePost {V ι : Type} (argsort : List ℝ → List ℕ) (full : ℂ → V → ι → ℂ) (i0 : ι) (v0 : V)
    (vals : List ℂ) (vecs : List V) : Except PyError (List ℝ × List (ι → ℂ)) := do
  let useful := usefulModes vals
  let vals1 ← fancy 0 vals useful
  let vecs1 ← fancy v0 vecs useful
  let inds := (argsort (vals1.map fun z => Real.sqrt z.re)).reverse
  let vals2 ← fancy 0 vals1 inds
  let vecs2 ← fancy v0 vecs1 inds
  let h := List.zipWith full vals2 vecs2
  let b ← fancy 0 vals2 useful
  .ok (b.map fun z => Real.sqrt z.re, h.map (rephase i0))

/-! ### ModeLibrary -/

/-- Python list/array indexing by one integer, negative indices counting from the end. -/
def pyGet {α : Type} (l : List α) (i : ℤ) : Except PyError α :=
  if i < -(l.length : ℤ) ∨ (l.length : ℤ) ≤ i then .error .indexError
  else match l[(if i < 0 then i + l.length else i).toNat]? with
    | some x => .ok x
    | none => .error .indexError

/-- A `ModeLibrary` after `_update_solve` (mode.py:239-246): `num_modes = m = len(betas)`. For
`ndim == 1` a mode is the scalar profile, for `ndim == 2` the three components of `h`. -/
structure ModeLib (s : Fin 3 → ℕ) where
  g : YeeOps s
  k0 : ℝ
  epsT : VField s
  betas : List ℝ
  modes : List (SField s) ⊕ List (VField s)

namespace ModeLib

/-- `_check_num_modes` (mode.py:296-299). -/
def check (L : ModeLib s) (idx : ℤ) : Except PyError ℤ :=
  if idx > (L.betas.length : ℤ) - 1 then .error .valueError else .ok idx

/-- `beta(mode_idx)` (mode.py:360-369). -/
def beta (L : ModeLib s) (idx : ℤ) : Except PyError ℝ := do pyGet L.betas (← L.check idx)

/-- `n(mode_idx)` (mode.py:371-377). -/
noncomputable def neff (L : ModeLib s) (idx : ℤ) : Except PyError ℝ := do return (← pyGet L.betas (← L.check idx)) / L.k0

/-- `phase(length, mode_idx)` (mode.py:474-485). -/
noncomputable def phase (L : ModeLib s) (length : ℝ) (idx : ℤ) : Except PyError ℝ := do
  return L.k0 * length * (← L.neff idx)

variable [∀ a, NeZero (s a)]

/-- The TE magnetic field of a one dimensional mode (mode.py:301-320). -/
noncomputable def hTE (g : YeeOps s) (k0 beta : ℝ) (u : SField s) : VField s :=
  ![fun i => I * beta * u i / (I * k0), 0,
    fun i => -(u i - rollFwd 0 u i) / g.dx false 0 (i 0) / (I * k0)]

/-- The TM electric field of a one dimensional mode (mode.py:322-344). -/
noncomputable def eTM (g : YeeOps s) (k0 beta : ℝ) (epsT : VField s) (u : SField s) : VField s :=
  ![fun i => I * beta * u i / (I * k0 * epsT 0 i), 0,
    fun i => -(rollBack 0 u i - u i) / g.dx false 0 (i 0) / (I * k0 * epsT 2 i)]

/-- `h(mode_idx, tm_2d)` (mode.py:301-320). -/
noncomputable def h (L : ModeLib s) (idx : ℤ) (tm : Bool := true) : Except PyError (VField s) := do
  let idx ← L.check idx
  match L.modes with
  | .inr modes => pyGet modes idx
  | .inl modes =>
    let u ← pyGet modes idx
    if tm then return ![0, u, 0]
    else return hTE L.g L.k0 (← pyGet L.betas idx) u

/-- `e(mode_idx, tm_2d)` (mode.py:322-344). For `ndim == 2`, `tm_2d` is not used. -/
noncomputable def e (L : ModeLib s) (idx : ℤ) (tm : Bool := true) : Except PyError (VField s) := do
  let idx ← L.check idx
  match L.modes with
  | .inr _ => return modeH2e L.g L.k0 L.epsT (← pyGet L.betas idx) (← L.h idx)
  | .inl modes =>
    let u ← pyGet modes idx
    if tm then return eTM L.g L.k0 (← pyGet L.betas idx) L.epsT u
    else return ![0, u, 0]

end ModeLib

section measure

variable [∀ a, NeZero (s a)]

/-- `poynting_fn()` with the default `axis=2` (utils.py:144-155) on grid-shaped fields; see `poynting`
in `Utils.lean` for the other axes, which raise. -/
noncomputable def poyntingZ (e h : VField s) : SField s := fun i =>
  (e 0 i + rollFwd 1 (e 0) i) / 2 * (starRingEnd ℂ) ((h 1 i + rollFwd 1 (h 1) i) / 2) -
  (e 1 i + rollFwd 0 (e 1) i) / 2 * (starRingEnd ℂ) ((h 0 i + rollFwd 0 (h 0) i) / 2)

/-- `ModeLibrary.measure_fn(mode_idx)` applied to `(e, h)` (mode.py:522-543), `em`, `hm` being the
fields of the mode. -/
noncomputable def measure (em hm e h : VField s) : ℂ × ℂ :=
  let sm := ∑ i, poyntingZ em hm i
  let a := (∑ i, poyntingZ e hm i) / sm / 2
  let b := (starRingEnd ℂ) ((∑ i, poyntingZ em h i) / sm) / 2
  (a + b, a - b)

/-- `ModeLibrary.sz(mode_idx)` (mode.py:346-358), before `squeeze`. -/
noncomputable def ModeLib.sz (L : ModeLib s) (idx : ℤ) : Except PyError (SField s) := do
  let _ ← L.check idx
  return poyntingZ (← L.e idx) (← L.h idx)

/-- `ModeLibrary.measure_fn(mode_idx, tm_2d)(e, h)` (mode.py:522-543). -/
noncomputable def ModeLib.measureFn (L : ModeLib s) (idx : ℤ) (tm : Bool) (e h : VField s) :
    Except PyError (ℂ × ℂ) := do
  return measure (← L.e idx tm) (← L.h idx tm) e h

/-- The field `evolve` uses (mode.py:557-563). -/
noncomputable def ModeLib.field (L : ModeLib s) (useH : Bool) (idx : ℤ) : Except PyError (VField s) :=
  if useH then L.h idx else L.e idx

/-- One term of the sum in `evolve` (mode.py:558-563). -/
noncomputable def evolveTerm (f : VField s) (beta length : ℝ) (w : ℂ) : VField s :=
  fun c i => f c i * exp (I * beta * length) * w

/-- `ModeLibrary.evolve(length, mode_weights, use_h)` (mode.py:545-564) for one length; an array of
lengths is evaluated pointwise. The weights are numbered from `k`. -/
noncomputable def ModeLib.evolveFrom (L : ModeLib s) (length : ℝ) (useH : Bool) :
    ℕ → List ℂ → Except PyError (VField s)
  | _, [] => .ok 0
  | k, w :: ws => do
    let f ← L.field useH k
    let b ← L.beta k
    let rest ← L.evolveFrom length useH (k + 1) ws
    return evolveTerm f b length w + rest

/-- `ModeLibrary.evolve` (mode.py:545-564). -/
noncomputable def ModeLib.evolve (L : ModeLib s) (length : ℝ) (weights : List ℂ) (useH : Bool := true) :
    Except PyError (VField s) := L.evolveFrom length useH 0 weights

/-- `ModeLibrary.beat_length(idx0, idx1)` (mode.py:566-567). -/
noncomputable def ModeLib.beatLength (L : ModeLib s) (idx0 : ℤ := 0) (idx1 : ℤ := 1) : Except PyError ℝ := do
  return 2 * Real.pi / ((← L.beta idx0) - (← L.beta idx1))

end measure

/-! ### Sweeps over the wavelength -/

/-- `ModeSolver.dispersion_sweep(wavelengths, m, pbar)` (mode.py:208-224). `solve wavelength m guess` is
`solve(m, beta_guess=guess)` of a solver whose `wavelength` attribute is `wavelength`. With `pbar=None`
the loop runs over `range(wavelengths)`, which raises `TypeError` on a float array. -/
def dispersionSweep {R : Type} (solve : ℝ → ℕ → Option ℝ → Except PyError R) (wavelength : ℝ)
    (wavelengths : List ℝ) (m : ℕ) (pbar : Option (List ℝ → List ℝ)) : Except PyError (List R) :=
  match pbar with
  | none => .error .typeError
  | some bar => (bar wavelengths).mapM fun w => solve wavelength m (some w)

/-- The mutable attributes of a `ModeLibrary` that depend on the wavelength (mode.py:239-246). -/
structure LibState (R : Type) where
  wavelength : ℝ
  maxNumModes : ℕ
  sol : List ℝ × List R
  numModes : ℕ

/-- `_update_solve(wavelength)` (mode.py:239-246). -/
def updateSolve {R : Type} (solve : ℝ → ℕ → Option ℝ → Except PyError (List ℝ × List R)) (st : LibState R)
    (w : ℝ) : Except PyError (LibState R) := do
  let sol ← solve w st.maxNumModes none
  return { wavelength := w, maxNumModes := st.maxNumModes, sol := sol, numModes := sol.1.length }

/-- `ModeLibrary(solver, max_num_modes)` (mode.py:236-239) for a solver at wavelength `w`. -/
def newLib {R : Type} (solve : ℝ → ℕ → Option ℝ → Except PyError (List ℝ × List R)) (w : ℝ) (m : ℕ) :
    Except PyError (LibState R) :=
  updateSolve solve { wavelength := w, maxNumModes := m, sol := ([], []), numModes := 0 } w

end Simphox
