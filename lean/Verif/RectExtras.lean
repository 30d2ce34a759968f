import Verif.RectProps

/-!
# Model of the helpers of `/repo/simphox/circuit/rectangular.py` and of `psvd`

`random_theta`, `rectangular_rows`, `rectangular_phase_shift_powers` and `psvd` (matrix.py).
-/

namespace Simphox

open Matrix Complex

/-- `random_theta(n)` (rectangular.py:193-195) for `n ≥ 2`: for odd `n` all of
`checkerboard_to_param(get_alpha_checkerboard(n), n)` (shape `(n, n // 2)`), flattened; for even `n`
each even row followed by the odd row without its last entry. -/
def randomTheta (n : ℕ) : List ℕ :=
  let param := checkerboardToParam (alphaCheckerboard n)
  let row := fun c => (List.range (n / 2)).map (param c)
  if n % 2 = 1 then (List.range n).flatMap row
  else (List.range (n / 2)).flatMap fun i => (row (2 * i) ++ row (2 * i + 1)).dropLast

/-- `mesh.column_ordered` (forward.py:152-167, 546-553): the nodes column by column. `columns` builds
a `ForwardMesh` for each column below `num_columns`, and `ForwardMesh([])` raises `ValueError`
(`_mzi_terms` of an empty array, forward.py:735): `none`. -/
def columnOrdered (nodes : List Node) : Option (List Node) :=
  if ∀ c ∈ List.range (numColumns nodes), columnNodes nodes c ≠ [] then some (executionOrder nodes) else none

/-- `rows[i]` of `rectangular_rows` (rectangular.py:171-175); the ids are assigned by `ForwardMesh`
(forward.py:52-55). -/
def rectRow (n i : ℕ) : List Node :=
  (List.range (i + 1)).map fun j =>
    let pw := if i % 2 = 1 then n + j - i - 2 else i - j
    { id := j, top := n - pw - 2, bottom := n - pw - 1, n := n, alpha := 1, beta := 1,
      column := if i % 2 = 1 then n - j - 1 else j }

/-- `rectangular_rows(mesh)` (rectangular.py:168-176) for a mesh on `n` rails. -/
def rectangularRows (n : ℕ) : Option (List (List Node)) :=
  (List.range (n - 1)).mapM fun i => columnOrdered (rectRow n i)

/-- `y` of `rectangular_phase_shift_powers` (rectangular.py:182-183): the powers of a snapshot,
normalised to total power one. (For a dark snapshot the Python gets `nan`.) -/
noncomputable def normPower (n : ℕ) (f : ℕ → ℂ) (r : ℕ) : ℝ :=
  ‖f r‖ ^ 2 / ∑ k : Fin n, ‖f k‖ ^ 2

/-- Row `i` of `y[a::8]` (rectangular.py:184-187); `none` is `IndexError`. -/
noncomputable def powerRow (prop : List (ℕ → ℂ)) (a i : ℕ) : Option (ℕ → ℂ) := prop[a + 8 * i]?

/-- `hstack((even[i], odd[i]))[:-1]` (rectangular.py:188-189), `even = y[a::8, ::2]`,
`odd = y[b::8, 1::2]`. -/
noncomputable def powerPair (n : ℕ) (prop : List (ℕ → ℂ)) (a b i : ℕ) : Option (List ℝ) := do
  let e ← powerRow prop a i
  let o ← powerRow prop b i
  return ((List.range ((n + 1) / 2)).map (fun j => normPower n e (2 * j)) ++
    (List.range (n / 2)).map fun j => normPower n o (2 * j + 1)).dropLast

/-- `rectangular_phase_shift_powers(prop)` (rectangular.py:179-191) for `prop` the result of
`mesh.propagate(v)` on `n ≥ 2` rails: `(theta_p, phi_p, gamma_p)`. -/
noncomputable def phaseShiftPowers (n : ℕ) (prop : List (ℕ → ℂ)) :
    Option (List ℝ × List ℝ × (ℕ → ℝ)) := do
  let th ← (List.range (n / 2)).mapM (powerPair n prop 2 6)
  let ph ← (List.range (n / 2)).mapM (powerPair n prop 0 4)
  let last ← prop.getLast?
  return (th.flatten, ph.flatten, normPower n last)

/-- `psvd(a)` (matrix.py:249-260) for `a` of shape `(m, k)`, `m, k ≥ 2`: `svd` is a parameter
returning `(l, d, r)`. -/
noncomputable def psvd {m k : ℕ}
    (svd : Matrix (Fin m) (Fin k) ℂ → Matrix (Fin m) (Fin m) ℂ × (ℕ → ℝ) × Matrix (Fin k) (Fin k) ℂ)
    (a : Matrix (Fin m) (Fin k) ℂ) : (Mesh × Params) × (ℕ → ℝ) × (Mesh × Params) :=
  let x := svd a
  (rectangular m x.1, x.2.1, rectangular k x.2.2)

end Simphox
