import Mathlib.Analysis.SpecialFunctions.Trigonometric.Basic
import Mathlib.Analysis.SpecialFunctions.Trigonometric.Inverse
import Mathlib.Analysis.SpecialFunctions.Log.Basic
import Mathlib.Analysis.SpecialFunctions.Complex.Arg
import Mathlib.LinearAlgebra.UnitaryGroup
import Mathlib.LinearAlgebra.Matrix.Notation

/-!
# Model of `/repo/simphox/circuit/coupling.py` and of the elementwise MZI formulas

All floats are exact real or complex numbers.
-/

namespace Simphox

open Matrix Complex

/-- `PhaseStyle` (coupling.py:46-61). -/
inductive PhaseStyle
  | top | bottom | symmetric | differential
deriving DecidableEq, Repr

/-- `phase_matrix` (coupling.py:9-13). -/
noncomputable def phaseMatrix (top : ℝ) (bottom : ℝ := 0) : Matrix (Fin 2) (Fin 2) ℂ :=
  !![exp (I * top), 0; 0, exp (I * bottom)]

/-- `coupling_matrix_s` (coupling.py:16-20). -/
noncomputable def couplingMatrixS (s : ℝ) : Matrix (Fin 2) (Fin 2) ℂ :=
  !![(Real.sqrt (1 - s) : ℂ), Real.sqrt s; Real.sqrt s, -(Real.sqrt (1 - s) : ℂ)]

/-- `loss2insertion` (coupling.py:23-24). -/
noncomputable def loss2insertion (lossDb : ℝ) : ℝ :=
  Real.sqrt (Real.exp (Real.log 10 * lossDb / 10))

/-- `coupling_matrix_phase` (coupling.py:27-32), including the `sin` at position `[1, 1]`. -/
noncomputable def couplingMatrixPhase (theta splitError lossError : ℝ) :
    Matrix (Fin 2) (Fin 2) ℂ :=
  !![loss2insertion lossError * Real.cos (theta / 2 + splitError / 2),
      loss2insertion lossError * I * Real.sin (theta / 2 + splitError / 2);
    I * Real.sin (theta / 2 + splitError / 2), (Real.sin (theta / 2 + splitError / 2) : ℂ)]

/-- `_embed_2x2` (coupling.py:35-43): four assignments into the identity, later ones win.
Rails are natural numbers; the Python raises `IndexError` when a rail is `≥ n`. -/
noncomputable def embed2 (n i j : ℕ) (m : Matrix (Fin 2) (Fin 2) ℂ) :
    Matrix (Fin n) (Fin n) ℂ :=
  Matrix.of fun a b =>
    if a.val = j ∧ b.val = j then m 1 1
    else if a.val = j ∧ b.val = i then m 1 0
    else if a.val = i ∧ b.val = j then m 0 1
    else if a.val = i ∧ b.val = i then m 0 0
    else if a = b then 1 else 0

/-- `CouplingNode.dc` (coupling.py:148-163) for the coupler with splitting error `error` and loss
`lossDb`. -/
noncomputable def dcMatrix (error lossDb : ℝ) : Matrix (Fin 2) (Fin 2) ℂ :=
  !![Real.cos (Real.pi / 4 + error) * loss2insertion lossDb,
      I * Real.sin (Real.pi / 4 + error) * loss2insertion lossDb;
    I * Real.sin (Real.pi / 4 + error), (Real.cos (Real.pi / 4 + error) : ℂ)]

/-- `CouplingNode.mzi_node_matrix(..., embed=False)` (coupling.py:120-133); `el`, `er` are
`bs_error[0]`, `bs_error[1]` and `ll`, `lr` are `loss[0]`, `loss[1]`. -/
noncomputable def mziNodeMatrix (el er ll lr theta phi : ℝ) : Matrix (Fin 2) (Fin 2) ℂ :=
  dcMatrix er lr * phaseMatrix theta * dcMatrix el ll * phaseMatrix phi

/-- `CouplingNode.ideal_node` before embedding (coupling.py:106-118). -/
noncomputable def idealNodeMatrix (s phi : ℝ) : Matrix (Fin 2) (Fin 2) ℂ :=
  phaseMatrix phi * couplingMatrixS s

/-- `CouplingNode.mmi_node_matrix` before embedding (coupling.py:165-178), for scalar error and
loss. (The code passes the tuples `bs_error` and `loss`, for which `split_error / 2` raises.) -/
noncomputable def mmiNodeMatrix (splitError lossError theta phi : ℝ) :
    Matrix (Fin 2) (Fin 2) ℂ :=
  couplingMatrixPhase theta splitError lossError * phaseMatrix phi

/-- The four terms of `_mzi_terms` (forward.py:733-739) and `CouplingNode.mzi_terms`
(coupling.py:97-104). -/
structure MziTerms where
  cc : ℝ
  cs : ℝ
  sc : ℝ
  ss : ℝ

/-- `_mzi_terms` (forward.py:733-739) for one node with left error `el` and right error `er`. -/
noncomputable def mziTerms (el er : ℝ) : MziTerms where
  cc := Real.cos (Real.pi / 4 + er) * Real.cos (Real.pi / 4 + el)
  cs := Real.cos (Real.pi / 4 + er) * Real.sin (Real.pi / 4 + el)
  sc := Real.sin (Real.pi / 4 + er) * Real.cos (Real.pi / 4 + el)
  ss := Real.sin (Real.pi / 4 + er) * Real.sin (Real.pi / 4 + el)

/-- The entries `t11, t12, t21, t22` of one node. `t12` couples top to bottom. -/
structure Elements where
  t11 : ℂ
  t12 : ℂ
  t21 : ℂ
  t22 : ℂ

/-- `_parallel_mzi` (forward.py:659-707) for one node: `el er` its bs errors, `ll lr` its losses.
The Python `back` is the integer 0 or 1 in the exponents. -/
noncomputable def mziElements (style : PhaseStyle) (back : Bool) (el er ll lr theta phi : ℝ) :
    Elements :=
  let T := mziTerms el er
  let il : ℝ := Real.log 10 * ll / 20
  let ir : ℝ := Real.log 10 * lr / 20
  let b : ℂ := if back then 1 else 0
  let cc : ℂ := T.cc
  let cs : ℂ := T.cs
  let sc : ℂ := T.sc
  let ss : ℂ := T.ss
  match style with
  | .top =>
    { t11 := (-ss + cc * exp (I * theta + il)) * exp (I * phi + ir)
      t12 := I * (cs + sc * exp (I * theta + il)) * exp ((I * phi + ir) * (1 - b))
      t21 := I * (sc + cs * exp (I * theta + il)) * exp ((I * phi + ir) * b)
      t22 := cc - ss * exp (I * theta + il) }
  | .bottom =>
    { t11 := -ss * exp (I * theta + il) + cc
      t12 := I * (cs * exp (I * theta + il) + sc) * exp ((I * phi + ir) * b)
      t21 := I * (sc * exp (I * theta + il) + cs) * exp ((I * phi + ir) * (1 - b))
      t22 := (cc * exp (I * theta + il) - ss) * exp (I * phi + ir) }
  | .symmetric =>
    { t11 := (-ss + cc * exp (I * theta + il)) * exp (I * (phi - theta / 2) + ir)
      t12 := I * (cs + sc * exp (I * theta + il)) * exp (I * (phi - theta / 2) + ir)
      t21 := I * (sc + cs * exp (I * theta + il)) * exp (I * (phi - theta / 2) + ir)
      t22 := (cc - ss * exp (I * theta + il)) * exp (I * (phi - theta / 2) + ir) }
  | .differential =>
    { t11 := (-ss + cc * exp (I * theta + il)) * exp (I * ((-phi - theta) / 2 + phi * b) + ir)
      t12 := I * (cs + sc * exp (I * theta + il)) * exp (I * ((-phi - theta) / 2 + phi * b) + ir)
      t21 := I * (sc + cs * exp (I * theta + il)) * exp (I * ((phi - theta) / 2 - phi * b) + ir)
      t22 := (cc - ss * exp (I * theta + il)) * exp (I * ((phi - theta) / 2 - phi * b) + ir) }

/-- The 2x2 transfer matrix a node's elements stand for in `_parallel_transform`
(forward.py:742-765): `out_top = t11 top + t21 bottom`, `out_bottom = t12 top + t22 bottom`. -/
def Elements.mat (m : Elements) : Matrix (Fin 2) (Fin 2) ℂ := !![m.t11, m.t21; m.t12, m.t22]

/-- `direct_transmissivity` (coupling.py:195-206); `eps` is `np.spacing(1)`. -/
noncomputable def directTransmissivity (eps : ℝ) (top bottom : ℂ) : ℝ :=
  ‖top‖ ^ 2 / (‖top‖ ^ 2 + ‖bottom‖ ^ 2 + eps)

/-- `transmissivity_to_phase` (coupling.py:209-225). For `cs * sc = 0` the Python divides by zero
(NaN); theorems about it assume `cs * sc ≠ 0`. -/
noncomputable def transmissivityToPhase (s cs sc : ℝ) : ℝ :=
  Real.arccos (min (max ((s - cs ^ 2 - sc ^ 2) / (2 * cs * sc)) (-1)) 1)

end Simphox
