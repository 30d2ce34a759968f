import Verif.Vector

/-!
# Model of `rectangular` (Clements) and `grid_common_mode_flow`

Source: `/repo/simphox/circuit/rectangular.py`. A numpy array `a` of shape `(m, k)` is a function
`ℕ → ℕ → ℝ` (`a r c` is `a[r, c]`), read only inside its shape; floats are exact reals.
-/

namespace Simphox

open Matrix Complex

/-! ### `grid_common_mode_flow` -/

/-- `end_idx` of layer `i` (rectangular.py:74); `start_idx` is `i % 2` (rectangular.py:73). -/
def flowEnd (units i : ℕ) : ℕ := units - (i + units) % 2

/-- The indices of `row[start_idx:end_idx][::2]` (rectangular.py:77): the upper rail of each pair of
layer `i`. The lower rail `row[start_idx:end_idx][1::2]` (rectangular.py:78) of the pair is the next
one (`end_idx - start_idx` is even, so both slices have the same length). -/
def isUpper (units i r : ℕ) : Prop :=
  i % 2 ≤ r ∧ r < flowEnd units i ∧ (r - i % 2) % 2 = 0

instance (units i r : ℕ) : Decidable (isUpper units i r) := by unfold isUpper; infer_instance

/-- The loop variables of `grid_common_mode_flow`: `phase_shifts` and `new_phase_shifts`, indexed
`[layer][rail]` as in the code (both are transposed arrays, rectangular.py:69-70). -/
structure FlowState where
  shifts : ℕ → ℕ → ℝ
  new : ℕ → ℕ → ℝ

/-- `new_phase_shifts[i]` after the assignment of rectangular.py:83. -/
noncomputable def flowNew (units : ℕ) (shifts : ℕ → ℕ → ℝ) (i r : ℕ) : ℝ :=
  if isUpper units i r then modTwoPi (shifts i r) - modTwoPi (shifts i (r + 1)) else 0

/-- One iteration of the loop over the layers (rectangular.py:72-89). -/
noncomputable def flowStep (units : ℕ) (s : FlowState) (i : ℕ) : FlowState :=
  let row := flowNew units s.shifts i
  -- `phase_shifts[i] -= new_phase_shifts[i]`
  let s1 : ℕ → ℕ → ℝ := Function.update s.shifts i fun r => s.shifts i r - row r
  -- `phase_shifts[i + 1] += np.mod(phase_shifts[i], 2 * np.pi)`
  let s2 : ℕ → ℕ → ℝ := Function.update s1 (i + 1) fun r => s1 (i + 1) r + modTwoPi (s1 i r)
  ⟨s2, Function.update s.new i row⟩

/-- `grid_common_mode_flow(external_phases, gamma)` (rectangular.py:54-91) for `external_phases` of
shape `(units, layers)` and `gamma` of length `units`. Simplification: float arrays only (an integer
array would be truncated by the in-place updates). -/
noncomputable def commonModeFlow (units layers : ℕ) (ext : ℕ → ℕ → ℝ) (gamma : ℕ → ℝ) :
    (ℕ → ℕ → ℝ) × (ℕ → ℝ) :=
  let s := (List.range layers).foldl (flowStep units)
    ⟨fun c r => if c < layers then ext r c else gamma r, fun _ _ => 0⟩
  (fun r c => modTwoPi (s.new c r), fun r => modTwoPi (s.shifts layers r))

/-- `grid_common_mode_flow` with the optional argument (rectangular.py:67-69): the default `gamma` has
`external_phases.shape[1]` zeros, i.e. one per *layer*; `np.hstack` with a column of another length
than `units` raises `ValueError` (`none`). -/
noncomputable def commonModeFlowOpt (units layers : ℕ) (ext : ℕ → ℕ → ℝ) (gamma : Option (ℕ → ℝ)) :
    Option ((ℕ → ℕ → ℝ) × (ℕ → ℝ)) :=
  match gamma with
  | some g => some (commonModeFlow units layers ext g)
  | none => if layers = units then some (commonModeFlow units layers ext fun _ => 0) else none

/-! ### The checkerboards -/

/-- `checkerboard_to_param` (rectangular.py:9-16): entry `[c, j]` of the result, `c < units`,
`j < units // 2`. Even rows are `checkerboard.T[c, ::2]` (`:-1:2` when `units` is odd), odd rows are
`checkerboard.T[c, 1::2]`. -/
def checkerboardToParam {α : Type} (cb : ℕ → ℕ → α) : ℕ → ℕ → α :=
  fun c j => cb (2 * j + c % 2) c

/-- `rectangular_alpha` (rectangular.py:31-37): `odd_nums + even_nums`, reversed for odd `n`.
`np.flip(np.arange(1, length + 1, 2))` has `(length + 1) // 2` entries, the `k`-th of the unflipped
array being `2k + 1`; `np.arange(2, 2 * (length - len(odd_nums)) + 1, 2)` is `2, 4, ...` of length
`length - len(odd_nums)`. -/
def rectangularAlpha (length : ℕ) (parityOdd : Bool) : List ℕ :=
  let oddNums := ((List.range ((length + 1) / 2)).reverse).map fun k => length + 1 - (2 * k + 1)
  let evenNums := (List.range (length - oddNums.length)).map fun k => length + 1 - (2 * k + 2)
  let nums := oddNums ++ evenNums
  if parityOdd then nums.reverse else nums

/-- `get_alpha_checkerboard` (rectangular.py:19-51), entry `[i, j]` (floats holding integers, zero
where nothing is written). An index out of range of the sequence would raise; `getD` gives `0`
(the node's `beta` has no effect on the transfer matrix). -/
def alphaCheckerboard (n i j : ℕ) : ℕ :=
  if i < n - 1 ∧ j < n ∧ (i + j) % 2 = 0 then
    let len := if i < j then n - (j - i) else if 0 < i ∧ j < i then n - (i - j) - 1 else n - 1
    if len = 1 then 1 else (rectangularAlpha len (n % 2 == 1)).getD (min i j) 0
  else 0

/-! ### The decomposition -/

/-- `np.arctan2(y, x)`. -/
noncomputable def arctan2 (y x : ℝ) : ℝ := arg (⟨x, y⟩ : ℂ)

/-- `u[r, c]`. -/
def entry {n : ℕ} (u : Matrix (Fin n) (Fin n) ℂ) (r c : ℕ) : ℂ :=
  if h : r < n ∧ c < n then u ⟨r, h.1⟩ ⟨c, h.2⟩ else 0

/-- `a[r, c] = x`. -/
def setCell (a : ℕ → ℕ → ℝ) (r c : ℕ) (x : ℝ) : ℕ → ℕ → ℝ :=
  fun r' c' => if r' = r ∧ c' = c then x else a r' c'

/-- The variables `u_hat`, `theta_checkerboard` (`n × n`) and `phi_checkerboard` (`n × (n + 1)`). -/
structure RectState (n : ℕ) where
  u : Matrix (Fin n) (Fin n) ℂ
  theta : ℕ → ℕ → ℝ
  phi : ℕ → ℕ → ℝ

/-- The body of the loop for odd `i` (rectangular.py:113-123). The negative column index `-j - 1` is
`n - 1 - j` in `theta_checkerboard` and `n - j` in `phi_checkerboard`. -/
noncomputable def rectLeft (n i j : ℕ) (s : RectState n) : RectState n :=
  let pw := n + j - i - 2
  let row := n + j - i - 1
  let col := j
  let theta := arctan2 ‖entry s.u (row - 1) col‖ ‖entry s.u row col‖ * 2
  let phi := arg (entry s.u row col) - arg (entry s.u (row - 1) col)
  { u := embed2 n pw (pw + 1) (phaseMatrix (-theta / 2) (-theta / 2)) *
      embed2 n pw (pw + 1) (mziNodeMatrix 0 0 0 0 theta phi) * s.u
    theta := setCell s.theta pw (n - 1 - j) theta
    phi := setCell (setCell s.phi pw (n - j) (-phi - theta / 2 + Real.pi))
      (pw + 1) (n - j) (-theta / 2 + Real.pi) }

/-- The body of the loop for even `i` (rectangular.py:125-133). -/
noncomputable def rectRight (n i j : ℕ) (s : RectState n) : RectState n :=
  let pw := i - j
  let row := n - j - 1
  let col := i - j
  let theta := arctan2 ‖entry s.u row (col + 1)‖ ‖entry s.u row col‖ * 2
  let phi := arg (-entry s.u row col) - arg (entry s.u row (col + 1))
  { u := s.u * (embed2 n pw (pw + 1) (mziNodeMatrix 0 0 0 0 theta phi))ᴴ
    theta := setCell s.theta pw j theta
    phi := setCell s.phi pw j phi }

/-- One pass through the inner loop (rectangular.py:112-133). -/
noncomputable def rectStep (n : ℕ) (s : RectState n) (ij : ℕ × ℕ) : RectState n :=
  if ij.1 % 2 = 1 then rectLeft n ij.1 ij.2 s else rectRight n ij.1 ij.2 s

/-- The values of the loop variables `(i, j)` in order (rectangular.py:110-113, 125). -/
def rectSteps (n : ℕ) : List (ℕ × ℕ) :=
  (List.range (n - 1)).flatMap fun i => (List.range (i + 1)).map fun j => (i, j)

/-- The loop variables after the loop (rectangular.py:104-133). -/
noncomputable def rectLoop (n : ℕ) (u : Matrix (Fin n) (Fin n) ℂ) : RectState n :=
  (rectSteps n).foldl (rectStep n) ⟨u, fun _ _ => 0, fun _ _ => 0⟩

/-- The column of `phi_checkerboard` to which `np.fliplr(np.diag(diag_phases))` adds the phase of rail
`r` (rectangular.py:138-141): `n - 1 - r` of `[:, :-1]` for odd `n`, of `[:, 1:]` for even `n`. -/
def diagColumn (n r : ℕ) : ℕ := if n % 2 = 1 then n - 1 - r else n - r

/-- `phi_checkerboard` after the diagonal phases are added (rectangular.py:135-141). -/
noncomputable def rectPhi (n : ℕ) (s : RectState n) (r c : ℕ) : ℝ :=
  s.phi r c + if c = diagColumn n r then arg (entry s.u r r) else 0

/-- `num_to_interfere` of column `i` (rectangular.py:154). -/
def rectWidth (n i : ℕ) : ℕ := n / 2 - (i % 2) * (1 - n % 2)

/-- The nodes and the concatenated parameters of the mesh (rectangular.py:149-161). The running
`node_id` is the length of the list so far. -/
def rectNodes (n : ℕ) : ℕ → List Node
  | 0 => []
  | i + 1 => rectNodes n i ++ (List.range (rectWidth n i)).map fun j =>
      { id := (rectNodes n i).length + j, top := 2 * j + i % 2, bottom := 2 * j + 1 + i % 2, n := n,
        alpha := 1, beta := checkerboardToParam (alphaCheckerboard n) i j, column := i }

/-- `thetas` and `phis` (rectangular.py:159-160): `np.hstack` of `param[i, :num_to_interfere]`. -/
def rectParams (n : ℕ) (param : ℕ → ℕ → ℝ) : ℕ → List ℝ
  | 0 => []
  | i + 1 => rectParams n param i ++ (List.range (rectWidth n i)).map fun j => param i j

/-- `rectangular(u)` (rectangular.py:94-165) for `u` of shape `(n, n)`, `n ≥ 2`: the mesh (default
style TOP, no errors, no losses) and its parameters. `pbar` has no effect on the result. -/
noncomputable def rectangular (n : ℕ) (u : Matrix (Fin n) (Fin n) ℂ) : Mesh × Params :=
  let s := rectLoop n u
  let flow := commonModeFlow n n (rectPhi n s) (fun r => rectPhi n s r n)
  (idealMesh (rectNodes n n) .top,
    { thetas := fun k => (rectParams n (checkerboardToParam s.theta) n).getD k 0
      phis := fun k => (rectParams n (checkerboardToParam flow.1) n).getD k 0
      gammas := flow.2 })

end Simphox
