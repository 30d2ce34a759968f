import Verif.MeshProps
import Verif.Utils

/-!
# Smaller `ForwardMesh` methods

`parallel_mzi`, `phases`, `add_error_mean` and `add_error_variance` of
`simphox/circuit/forward.py`. NumPy values are scalars, one-dimensional arrays or matrices with the
broadcasting rule of NumPy for these shapes; random draws are arguments.
-/

namespace Simphox

open Complex

/-! ### parallel_mzi -/

/-- `mesh.parallel_mzi(thetas, phis, phase_style, back=back)` (forward.py:539-543). `none` is
`None`; note that the default of `phis` is `self.params[0]`, the thetas. Entry `k` of the returned
arrays. -/
noncomputable def Mesh.parallelMzi (M : Mesh) (P : Params) (thetas phis : Option (ℕ → ℝ))
    (style : Option PhaseStyle) (back : Bool) (k : ℕ) : Elements :=
  mziElements (style.getD M.style) back (M.errors.getD k (0, 0)).1 (M.errors.getD k (0, 0)).2
    (M.losses.getD k (0, 0)).1 (M.losses.getD k (0, 0)).2
    (thetas.getD P.thetas k) (phis.getD P.thetas k)

/-- `mesh.parallel_transform(v, elements)` (forward.py:654-656): all nodes of the mesh at once. -/
def Mesh.parallelTransform (M : Mesh) (v : ℕ → ℂ) (el : ℕ → Elements) : ℕ → ℂ :=
  Simphox.parallelTransform el M.nodes v

/-! ### phases -/

/-- A NumPy operand: a number or a one-dimensional array. -/
inductive NumArg where
  | scalar (e : ℝ)
  | array (l : List ℝ)

/-- NumPy broadcasting of a binary operation on numbers and one-dimensional arrays: equal lengths,
or one of them has length one; otherwise `ValueError`. -/
def npBin (f : ℝ → ℝ → ℝ) : NumArg → NumArg → Except PyError NumArg
  | .scalar a, .scalar b => .ok (.scalar (f a b))
  | .scalar a, .array m => .ok (.array (m.map fun y => f a y))
  | .array l, .scalar b => .ok (.array (l.map fun x => f x b))
  | .array l, .array m =>
    if l.length = m.length then .ok (.array (List.zipWith f l m))
    else if l.length = 1 then .ok (.array (m.map fun y => f (l.headD 0) y))
    else if m.length = 1 then .ok (.array (l.map fun x => f x (m.headD 0)))
    else .error .valueError

/-- `mesh.phases(error, constant, gamma_error)` (forward.py:508-522) on a mesh with the given
parameters; `drawT`, `drawG` are the two calls of `np.random.randn`. -/
def phasesOf (thetas phis gammas : List ℝ) (error : NumArg) (constant gammaError : Bool)
    (drawT drawG : List ℝ) : Except PyError (NumArg × NumArg × NumArg) :=
  match (if constant then .ok error else npBin (· * ·) error (.array drawT)) with
  | .error x => .error x
  | .ok errors =>
    match (if constant then .ok error else npBin (· * ·) error (.array drawG)) with
    | .error x => .error x
    | .ok gErrors =>
      match npBin (· + ·) (.array thetas) errors, npBin (· + ·) (.array phis) errors,
        npBin (· * ·) gErrors (.scalar (if gammaError then 1 else 0)) with
      | .ok t, .ok p, .ok g =>
        match npBin (· + ·) (.array gammas) g with
        | .ok ga => .ok (t, p, ga)
        | .error x => .error x
      | .error x, _, _ => .error x
      | _, .error x, _ => .error x
      | _, _, .error x => .error x

/-! ### add_error_mean, add_error_variance -/

/-- The `error` / `loss_db` argument of `add_error_mean`: a number, a one-dimensional or a
two-dimensional array (given by its rows). -/
inductive ErrArg where
  | scalar (e : ℝ)
  | vec (l : List ℝ)
  | rows (r : List (List ℝ))

/-- What iterating over the argument yields after `error * np.ones_like(self.bs_errors)`
(forward.py:567-568): rows, or plain numbers for a one-dimensional array. `old` are the error (loss)
tuples of the nodes, whose shape `ones_like` copies. -/
def ErrArg.items (old : List (List ℝ)) : ErrArg → List (ℝ ⊕ List ℝ)
  | .scalar e => old.map fun p => .inr (p.map fun _ => e)
  | .vec l => l.map .inl
  | .rows r => r.map .inr

/-- The loop `for node, e, loss in zip(new_nodes, error, loss_db)` (forward.py:569-571) on the
tuples `(node.bs_error, node.loss)`: `tuple(e)` of a number is a `TypeError`; nodes beyond the
shortest argument keep their values. -/
def assignErrors : List (List ℝ × List ℝ) → List (ℝ ⊕ List ℝ) → List (ℝ ⊕ List ℝ) →
    Except PyError (List (List ℝ × List ℝ))
  | _ :: nodes, .inr e :: es, .inr l :: ls =>
    match assignErrors nodes es ls with
    | .ok rest => .ok ((e, l) :: rest)
    | .error x => .error x
  | _ :: _, .inl _ :: _, _ :: _ => .error .typeError
  | _ :: _, .inr _ :: _, .inl _ :: _ => .error .typeError
  | nodes, _, _ => .ok nodes

/-- `all_errors` / `all_losses` (forward.py:603-621), evaluated by the constructor: rows of one
number are doubled, rows of two are kept, other widths raise `AttributeError`, rows of different
widths cannot be an array (`ValueError`). -/
def errorPairs (rows : List (List ℝ)) : Except PyError (List (ℝ × ℝ)) :=
  if ∀ r ∈ rows, r.length = 1 then .ok (rows.map fun r => (r.getD 0 0, r.getD 0 0))
  else if ∀ r ∈ rows, r.length = 2 then .ok (rows.map fun r => (r.getD 0 0, r.getD 1 0))
  else if ∀ r ∈ rows, r.length = (rows.headD []).length then .error .attributeError
  else .error .valueError

/-- Errors and losses of the mesh returned by `mesh.add_error_mean(error, loss_db, error_right)`
(forward.py:554-575); the third argument is not used by the body. `tuples` are the node's current
`(bs_error, loss)`. The nodes themselves and the parameters are copied (C22). -/
def addErrorMean (tuples : List (List ℝ × List ℝ)) (error loss : ErrArg) (_errorRight : Option ErrArg) :
    Except PyError (List (ℝ × ℝ) × List (ℝ × ℝ)) :=
  match assignErrors tuples (error.items (tuples.map Prod.fst)) (loss.items (tuples.map Prod.snd)) with
  | .error x => .error x
  | .ok new =>
    match errorPairs (new.map Prod.fst), errorPairs (new.map Prod.snd) with
    | .ok e, .ok l => .ok (e, l)
    | .error x, _ => .error x
    | _, .error x => .error x

/-- Errors and losses of the mesh returned by
`mesh.add_error_variance(bs_error_std, loss_db_std, equal_splitter_error)` (forward.py:577-601) for
a mesh whose nodes hold pairs; `de`, `dl` are the two draws of `np.random.randn`. -/
def addErrorVariance (errs losses : List (ℝ × ℝ)) (std lstd : ℝ) (equal : Bool) (de dl : List (ℝ × ℝ)) :
    List (ℝ × ℝ) × List (ℝ × ℝ) :=
  (List.zipWith (fun e d => (e.1 + std * d.1, e.2 + if equal then std * d.1 else std * d.2)) errs de,
   List.zipWith (fun l d => (l.1 + lstd * d.1, l.2 + lstd * d.2)) losses dl)

end Simphox
