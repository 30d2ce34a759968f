import Verif.BetaInitProps
import Verif.HessianC105

/-!
# A freshly built tree mesh

The random parameters that `ForwardMesh.__post_init__` (forward.py:60-62) gives a mesh: `rand_theta`
draws `thetas` in the order of the node *list* (`self.beta`, `self.alpha` are built from the list,
forward.py:57-58), while the mesh reads `thetas` by `node_id`.
-/

namespace Simphox

open MeasureTheory ProbabilityTheory Complex

/-- `betaincinv` for every pair of parameters. -/
def IsBetaincinvFamily (binv : ℕ → ℕ → ℝ → ℝ) : Prop :=
  ∀ a b : ℕ, 1 ≤ a → 1 ≤ b → IsBetaincinv a b (binv a b)

/-- The parameters of a new mesh without coupler errors (forward.py:60-62, 121, 130): position `k` of
`thetas` is drawn with `beta`, `alpha` of the node at position `k` of the list. `x k` are the draws
for `thetas[k]` and `phis[k]`, `z r` is the draw for `gammas[r]`, all from `np.random.rand`. -/
noncomputable def freshParams (binv : ℕ → ℕ → ℝ → ℝ) (nodes : List Node) (x : ℕ → ℝ × ℝ) (z : ℕ → ℝ) : Params where
  thetas := fun k => randTheta (binv (nodes.getD k default).beta (nodes.getD k default).alpha) 0 0 (x k).1
  phis := fun k => 2 * Real.pi * (x k).2
  gammas := fun r => 2 * Real.pi * z r

/-- A finite array as a function on all indices. -/
def padFin {α : Type} (d : α) {m : ℕ} (f : Fin m → α) (k : ℕ) : α := if h : k < m then f ⟨k, h⟩ else d

/-- The draws of a mesh with `m` nodes and `n` rails: independent and uniform. -/
noncomputable def freshDraws (m n : ℕ) : Measure ((Fin m → ℝ × ℝ) × (Fin n → ℝ)) :=
  (Measure.pi fun _ => uniform01.prod uniform01).prod (Measure.pi fun _ => uniform01)

/-- The last row of the matrix of a freshly built tree (`tree(n, balanced=...)`, then
`mesh.matrix()[-1]`), as a function of the draws. -/
noncomputable def freshRow (binv : ℕ → ℕ → ℝ → ℝ) (n : ℕ) (balanced : Bool)
    (w : (Fin (n - 1) → ℝ × ℝ) × (Fin n → ℝ)) (k : Fin n) : ℂ :=
  (errorMesh (tree n n balanced) 0 .top).apply
    (freshParams binv (tree n n balanced) (padFin (0, 0) w.1) (padFin 0 w.2)) false
    (fun r => if r = k.val then 1 else 0) (n - 1)

end Simphox
