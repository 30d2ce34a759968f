import Verif.MeshEval
import Verif.InSitu
import Verif.MeshExtras

/-!
# `InSituBackpropLayer` (simphox/circuit/forward.py:805-851)

The haiku layer around a mesh. `hk.get_parameter` returns the layer's parameters, which start at the
values of the layer's mesh; the noise arguments of the measurement are zero, `jit` changes nothing.
-/

namespace Simphox

open Complex

/-- `mesh.gammas = np.zeros_like(mesh.gammas)` (forward.py:830-831): the caller's mesh object gets a
new array. -/
noncomputable def MHeap.zeroGammas (H : MHeap) (m : MeshObj) : MeshObj × MHeap :=
  ({ m with gammas := H.arrs.length }, { H with arrs := H.arrs ++ [(H.arr m.gammas).map fun _ => 0] })

/-- `InSituBackpropLayer(mesh, set_gammas_zero=zero, loss_db_std=lossStd)` (forward.py:827-832): the
caller's mesh afterwards, the layer's own mesh and the heap. `de`, `dl` are the normal draws of
`add_error_variance`, `th`, `ph`, `ga` the random phases of the new mesh before they are overwritten. -/
noncomputable def MHeap.makeLayer (H : MHeap) (m : MeshObj) (zero : Bool) (lossStd : ℝ) (de dl : List (ℝ × ℝ))
    (th ph ga : List ℝ) : MeshObj × MeshObj × MHeap :=
  let mH := if zero then H.zeroGammas m else (m, H)
  let v := addErrorVariance mH.1.bsErrors mH.1.losses 0 lossStd true de dl
  let l := mH.2.addError mH.1 v.1 v.2 th ph ga
  (mH.1, l.1, l.2)

/-- `layer(x)` (forward.py:841-851) for a batch `X` of rows of length `n` with the layer's parameters
`P`: the JAX path propagates the identity matrix, the output passes through absolute value and angle
(forward.py:366-370), and `activation((matrix @ x.T).T)` is returned. -/
def LayerCall (n : ℕ) (M : Mesh) (P : Params) {K : ℕ} {β : Type} (act : (Fin K → Fin n → ℂ) → β)
    (X : Fin K → Fin n → ℂ) (Y : β) : Prop :=
  ∃ cols : Fin n → ℕ → ℂ, (∀ j : Fin n, M.JaxApply n P false (fun r => if r = j.val then 1 else 0) (cols j)) ∧
    Y = act fun c i => ∑ j, ioPass (cols j i) * X c j

end Simphox
