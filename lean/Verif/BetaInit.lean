import Verif.CouplingProps
import Mathlib.Probability.Distributions.Beta
import Mathlib.MeasureTheory.Function.Jacobian
import Mathlib.Probability.CDF

/-!
# Random initialisation of a mesh and `beta_phase`

`ForwardMesh.rand_s`, `ForwardMesh.rand_theta` (forward.py:114-130), `beta_pdf` and `beta_phase`
(utils.py:304-310). `scipy.special.betaincinv` is a parameter with the defining property of the
inverse of the regularised incomplete beta function, i.e. of the distribution function of the beta
distribution; `np.random.rand` is the uniform measure on `[0, 1)`.
-/

namespace Simphox

open MeasureTheory ProbabilityTheory Set

/-- `beta_pdf(x, a, b)` (utils.py:304-305); `beta_func` is `scipy.special.beta`. -/
noncomputable def betaPdf (x a b : ℝ) : ℝ :=
  (x ^ (a - 1) * (1 - x) ^ (b - 1)) / ProbabilityTheory.beta a b

/-- `beta_phase(theta, a, b)` (utils.py:308-310). -/
noncomputable def betaPhase (theta a b : ℝ) : ℝ :=
  betaPdf (Real.cos (theta / 2) ^ 2) a b * Real.sin (theta / 2) * Real.cos (theta / 2) / Real.pi

/-- `scipy.special.betaincinv(a, b, ·)`: for `u` in `[0, 1]` a point of `[0, 1]` up to which the
beta distribution has mass `u`. -/
def IsBetaincinv (a b : ℝ) (inv : ℝ → ℝ) : Prop :=
  ∀ u ∈ Icc (0 : ℝ) 1, inv u ∈ Icc (0 : ℝ) 1 ∧ betaMeasure a b (Iic (inv u)) = ENNReal.ofReal u

/-- `rand_theta` of one node (forward.py:123-130) as a function of the uniform draw: the node's
split terms, and `betaincinv(node.beta, node.alpha, ·)` as `inv`. -/
noncomputable def randTheta (inv : ℝ → ℝ) (el er : ℝ) (u : ℝ) : ℝ :=
  transmissivityToPhase (inv u) (mziTerms el er).cs (mziTerms el er).sc

/-- `np.random.rand` -/
noncomputable def uniform01 : Measure ℝ := volume.restrict (Ico 0 1)

end Simphox
