import Verif.MeshExplicit

/-!
# Model of in-situ backpropagation (`/repo/simphox/circuit/forward.py:347-414, 524-537`)

`in_situ_matrix_fn` registers an "optical" vector-Jacobian product for the mesh: powers measured at
the phase shifters while superpositions of the input and of the time-reversed adjoint field are
propagated. All noise levels (`tap_pd_shot_noise`, `io_amp_error_std`, `io_phase_error_std`) are 0
here, their defaults. JAX's custom-VJP plumbing is not modelled: `inSituBwd` is the registered
backward function. Fields are `ℕ → ℂ` (rails); the second axis of the arrays is `Fin K`.
-/

namespace Simphox

open Complex

/-! ### Explicit propagation, backwards -/

/-- `_parallel_propagate(..., back=True)` (forward.py:780-793), one column: right couplers, internal
phases, left couplers, external phases. -/
noncomputable def explicitColumnBack (M : Mesh) (P : Params) (nodes : List Node) (v : ℕ → ℂ) :
    Option (List (ℕ → ℂ)) := do
  let left := fun k => dcElements (M.errors.getD k (0, 0)).1 (M.losses.getD k (0, 0)).1
  let right := fun k => dcElements (M.errors.getD k (0, 0)).2 (M.losses.getD k (0, 0)).2
  let v1 := parallelTransform right nodes v
  let v2 ← parallelMultiply M.style P.thetas nodes v1
  let v3 := parallelTransform left nodes v2
  let v4 ← parallelMultiply M.style P.phis nodes v3
  return [v1, v2, v3, v4]

/-- The column loop of `propagate_matrix_fn(explicit=True, back=True)` (forward.py:321-330). -/
noncomputable def explicitLoopBack (M : Mesh) (P : Params) :
    List ℕ → (ℕ → ℂ) → Option (List (ℕ → ℂ))
  | [], _ => some []
  | k :: ks, v => do
    let snaps ← explicitColumnBack M P (columnNodes M.nodes k) v
    let rest ← explicitLoopBack M P ks (snaps.getLast?.getD v)
    return snaps ++ rest

/-- `mesh.propagate(inputs, back=True)` (forward.py:270-340) with default `column_cutoff`: the
inputs, the inputs after the output phases, four snapshots per column. -/
noncomputable def Mesh.propagateExplicitBack (M : Mesh) (P : Params) (v : ℕ → ℂ) :
    Option (List (ℕ → ℂ)) := do
  let snaps ← explicitLoopBack M P (columnOrder M.nodes true) (gammaApply P.gammas v)
  return [v, gammaApply P.gammas v] ++ snaps

/-! ### Explicit propagation in JAX -/

/-- Index/value pairs of the JAX branch of `_parallel_multiply` (forward.py:768-775): the phase of a
padded entry is multiplied by its mask 0. Other styles raise. -/
noncomputable def jaxMultiplyWrites (style : PhaseStyle) (phases : ℕ → ℝ) (row : List PadEntry)
    (v : ℕ → ℂ) : Option (List (ℕ × ℂ)) :=
  match style with
  | .top => some (row.map fun e => (e.top, v e.top * exp (I * phases e.idx * e.mask)))
  | .bottom => some (row.map fun e => (e.bottom, v e.bottom * exp (I * phases e.idx * e.mask)))
  | _ => none

/-- `u` is a possible result of the JAX branch of `_parallel_multiply` (forward.py:768-775). -/
def JaxMultiply (style : PhaseStyle) (phases : ℕ → ℝ) (row : List PadEntry) (v u : ℕ → ℂ) : Prop :=
  ∃ writes, jaxMultiplyWrites style phases row v = some writes ∧ IsScatter v writes u

/-- `u` is a possible result of the JAX branch of `_parallel_transform` (forward.py:742-759). -/
def JaxTransform (el : ℕ → Elements) (row : List PadEntry) (v u : ℕ → ℂ) : Prop :=
  IsScatter v (jaxWrites el row v) u

/-- `[v1, v2, v3, v4]` are possible snapshots of `_parallel_propagate(..., use_jax=True)`
(forward.py:780-803) for one padded column. -/
def JaxExplicitColumn (M : Mesh) (P : Params) (back : Bool) (row : List PadEntry)
    (v v1 v2 v3 v4 : ℕ → ℂ) : Prop :=
  let left := fun k => dcElements (M.errors.getD k (0, 0)).1 (M.losses.getD k (0, 0)).1
  let right := fun k => dcElements (M.errors.getD k (0, 0)).2 (M.losses.getD k (0, 0)).2
  if back then
    JaxTransform right row v v1 ∧ JaxMultiply M.style P.thetas row v1 v2 ∧
      JaxTransform left row v2 v3 ∧ JaxMultiply M.style P.phis row v3 v4
  else
    JaxMultiply M.style P.phis row v v1 ∧ JaxTransform left row v1 v2 ∧
      JaxMultiply M.style P.thetas row v2 v3 ∧ JaxTransform right row v3 v4

/-- `lax.scan` over the padded columns with explicit couplers (forward.py:304-321): `snaps` are
possible snapshots and `w` the final field. -/
inductive JaxExplicitScan (n : ℕ) (M : Mesh) (P : Params) (back : Bool) :
    List ℕ → (ℕ → ℂ) → List (ℕ → ℂ) → (ℕ → ℂ) → Prop
  | nil (v) : JaxExplicitScan n M P back [] v [] v
  | cons (k cols v v1 v2 v3 v4 snaps w) :
      JaxExplicitColumn M P back (padColumn n (maxWidth M.nodes) (columnNodes M.nodes k))
        v v1 v2 v3 v4 →
      JaxExplicitScan n M P back cols v4 snaps w →
      JaxExplicitScan n M P back (k :: cols) v ([v1, v2, v3, v4] ++ snaps) w

/-- `propagate_matrix_fn(use_jax=True, back=back)(params, v)` may return `snaps`
(forward.py:292-339). -/
def Mesh.JaxPropagate (n : ℕ) (M : Mesh) (P : Params) (back : Bool) (v : ℕ → ℂ)
    (snaps : List (ℕ → ℂ)) : Prop :=
  if back then
    ∃ s w, JaxExplicitScan n M P true (columnOrder M.nodes true) (gammaApply P.gammas v) s w ∧
      snaps = [v, gammaApply P.gammas v] ++ s
  else
    ∃ s w, JaxExplicitScan n M P false (columnOrder M.nodes false) v s w ∧
      snaps = [v] ++ s ++ [gammaApply P.gammas w]

/-! ### The registered backward function -/

/-- What JAX computed for the four functions `in_situ_matrix_fn` builds (forward.py:359-362), for
given parameters: explicit propagation forward and backward, and the backward matrix product. -/
structure InSituEngine where
  fprop : (ℕ → ℂ) → List (ℕ → ℂ)
  bprop : (ℕ → ℂ) → List (ℕ → ℂ)
  bapply : (ℕ → ℂ) → ℕ → ℂ

/-- The engine's answers are possible results of the JAX functions of the mesh `M` at `P`. -/
structure InSituEngine.Runs (E : InSituEngine) (n : ℕ) (M : Mesh) (P : Params) : Prop where
  fprop : ∀ v, M.JaxPropagate n P false v (E.fprop v)
  bprop : ∀ v, M.JaxPropagate n P true v (E.bprop v)
  bapply : ∀ v, M.JaxApply n P true v (E.bapply v)

/-- `phase_shift_localize(prop_powers)` (forward.py:524-537): `pow t r` is the power at snapshot `t`
and rail `r` (summed over the inputs), `T` the number of snapshots. Whatever the phase style, the
*top* rails of the nodes are read, in the order of `self.columns`. -/
def phaseShiftLocalize (nodes : List Node) (T : ℕ) (pow : ℕ → ℕ → ℝ) :
    List ℝ × List ℝ × (ℕ → ℝ) :=
  ((List.range (numColumns nodes)).flatMap fun i =>
      (columnNodes nodes i).map fun a => pow (4 * i + 2) a.top,
    (List.range (numColumns nodes)).flatMap fun i =>
      (columnNodes nodes i).map fun a => pow (4 * i) a.top,
    pow (T - 1))

/-- Amplitude and phase of a field are read out and applied again (forward.py:390-392), without
noise. -/
noncomputable def ioPass (z : ℂ) : ℂ := ‖z‖ * exp (I * arg z)

/-- Cotangents for `thetas`, `phis`, `gammas` and the inputs. -/
structure InSituResult (K : ℕ) where
  thetas : List ℝ
  phis : List ℝ
  gammas : ℕ → ℝ
  inputs : Fin K → ℕ → ℂ

/-- `jnp.max(jnp.linalg.norm(X, axis=-1))` (forward.py:379-380) of an `(n, K)` array. -/
noncomputable def maxRowNorm (n : ℕ) {K : ℕ} (X : Fin K → ℕ → ℂ) : ℝ :=
  ((List.range n).map fun r => Real.sqrt (∑ c, ‖X c r‖ ^ 2)).foldr max 0

/-- The same of an `(n,)` array: the norm of the vector. -/
noncomputable def vecNorm (n : ℕ) (x : ℕ → ℂ) : ℝ :=
  Real.sqrt (((List.range n).map fun r => ‖x r‖ ^ 2).sum)

/-- `adjoint_inputs` (forward.py:387-392 and 405-406): the cotangent sent back through the mesh. -/
noncomputable def adjointInputs (E : InSituEngine) (analog : Bool) (g : ℕ → ℂ) : ℕ → ℂ :=
  if analog then fun r => ioPass (E.bapply g r) else (E.bprop g).reverse.headD 0

/-- `grad_powers` (forward.py:393-411) at snapshot `t` and rail `r` for one input `x` with cotangent
`g`; the superpositions propagated are `x - 1j * conj(adjoint_inputs)` and, in the analog mode,
`x + 1j * conj(adjoint_inputs)`. -/
noncomputable def gradPower (E : InSituEngine) (analog : Bool) (x g : ℕ → ℂ) (t r : ℕ) : ℝ :=
  let w := adjointInputs E analog g
  let sum := (E.fprop fun r => x r - I * starRingEnd ℂ (w r)).getD t 0 r
  if analog then
    let diff := (E.fprop fun r => x r + I * starRingEnd ℂ (w r)).getD t 0 r
    (‖sum‖ ^ 2 - ‖diff‖ ^ 2) / 2
  else
    ‖sum‖ ^ 2 - ‖(E.fprop x).getD t 0 r‖ ^ 2 - ‖(E.bprop g).reverse.getD t 0 r‖ ^ 2

/-- `matrix_bwd` (forward.py:376-414) after the two norms have been computed. `none` is the
division of every entry by a zero norm (NaN everywhere). `(E.fprop 0).length` is the number of
snapshots. The cotangent returned for the inputs is the (normalised) `adjoint_inputs`. -/
noncomputable def inSituBwdWith (E : InSituEngine) (analog : Bool) (nodes : List Node)
    (inorm gnorm : ℝ) {K : ℕ} (X G : Fin K → ℕ → ℂ) : Option (InSituResult K) :=
  if inorm = 0 ∨ gnorm = 0 then none else
  let x : Fin K → ℕ → ℂ := fun c r => X c r / inorm
  let g : Fin K → ℕ → ℂ := fun c r => G c r / gnorm
  let pow : ℕ → ℕ → ℝ := fun t r =>
    ∑ c, gradPower E analog (x c) (g c) t r / 2 * (inorm * gnorm)
  let loc := phaseShiftLocalize nodes (E.fprop 0).length pow
  some ⟨loc.1, loc.2.1, loc.2.2, fun c => adjointInputs E analog (g c)⟩

/-- `matrix_bwd` for inputs of shape `(n, K)`, `2 ≤ K` (forward.py:376-414). -/
noncomputable def inSituBwd (E : InSituEngine) (analog : Bool) (n : ℕ) (nodes : List Node) {K : ℕ}
    (X G : Fin K → ℕ → ℂ) : Option (InSituResult K) :=
  inSituBwdWith E analog nodes (maxRowNorm n X) (maxRowNorm n G) X G

/-- `matrix_bwd` for an input of shape `(n,)`; the output and its cotangent have shape `(n, 1)`, and
everything else is squeezed to `(n,)` (forward.py:337, 387). -/
noncomputable def inSituBwdVec (E : InSituEngine) (analog : Bool) (n : ℕ) (nodes : List Node)
    (x g : ℕ → ℂ) : Option (InSituResult 1) :=
  inSituBwdWith E analog nodes (vecNorm n x) (maxRowNorm (K := 1) n fun _ => g)
    (fun _ => x) (fun _ => g)

/-- The first component (`thetas`) of `matrix_bwd` for an input of shape `(n, 1)` in the analog mode
(forward.py:387-401, 525-530): `adjoint_inputs` is squeezed to `(n,)`, so
`inputs - 1j * conj(adjoint_inputs)` broadcasts to `(n, n)`: column `c` is the input minus the
constant `1j * conj(adjoint_inputs[c])`. The powers of all `n` columns are summed. -/
noncomputable def inSituBwdColumnThetas (E : InSituEngine) (n : ℕ) (nodes : List Node)
    (X G : ℕ → ℂ) : Option (List ℝ) :=
  let inorm := maxRowNorm (K := 1) n fun _ => X
  let gnorm := maxRowNorm (K := 1) n fun _ => G
  if inorm = 0 ∨ gnorm = 0 then none else
  let x : ℕ → ℂ := fun r => X r / inorm
  let w := adjointInputs E true fun r => G r / gnorm
  let pow : ℕ → ℕ → ℝ := fun t r =>
    ∑ c : Fin n, (‖(E.fprop fun s => x s - I * starRingEnd ℂ (w c)).getD t 0 r‖ ^ 2 -
      ‖(E.fprop fun s => x s + I * starRingEnd ℂ (w c)).getD t 0 r‖ ^ 2) / 2 / 2 * (inorm * gnorm)
  some (phaseShiftLocalize nodes (E.fprop 0).length pow).1

end Simphox
