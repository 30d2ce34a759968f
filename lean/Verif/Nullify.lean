import Verif.VectorLemmas

/-! # `CouplingNode.nullify` (coupling.py:180-187) -/

namespace Simphox

open Complex Matrix

/-- `np.arctan2(y, x)`: the argument of `x + i y` (0 at the origin). -/
noncomputable def npArctan2 (y x : ℝ) : ℝ := arg ((x : ℂ) + y * I)

/-- What `nullify` returns: the new vector, the node matrix and the two phases. -/
structure Nullified (n : ℕ) where
  vector : Fin n → ℂ
  mat : Matrix (Fin n) (Fin n) ℂ
  theta : ℝ
  phi : ℝ

/-- `CouplingNode.nullify(vector, idx, lower_theta, lower_phi)` (coupling.py:180-187) for a node on rails
`top`, `bottom` of `n`, with splitting errors `el`, `er` and losses `ll`, `lr`, and a one dimensional
vector. `none` is the `IndexError` for `idx + 1 >= n` or a rail outside the mesh (coupling.py:35-43);
negative `idx` is not modelled. -/
noncomputable def nodeNullify (n top bottom : ℕ) (el er ll lr : ℝ) (v : Fin n → ℂ) (idx : ℕ)
    (lowerTheta lowerPhi : Bool) : Option (Nullified n) :=
  if h : idx + 1 < n ∧ top < n ∧ bottom < n then
    let a := v ⟨idx, by omega⟩
    let b := v ⟨idx + 1, h.1⟩
    let theta := npArctan2 ‖a‖ ‖b‖ * 2
    let theta := if lowerTheta then -theta else theta
    let phi := arg b - arg a
    let phi := if lowerPhi then -phi else phi
    let mat := embed2 n top bottom (mziNodeMatrix el er ll lr theta phi)
    some ⟨mat.mulVec v, mat, modTwoPi theta, modTwoPi phi⟩
  else none

end Simphox
