import Verif.Utils

/-!
# Model of `simphox/mkl.py` (`Pardiso`) and of cached permittivities

The MKL library is a parameter: `facOk m` says whether MKL factorises `m` without error. What a native
call does to the factors it keeps is modelled; its arithmetic is exact ("solving with the factors of
`m`" means applying the inverse of `m`). Iterative refinement inside MKL is not modelled.
-/

namespace Simphox

/-- A CSR matrix as passed to the solver: size, stored entries `(row, column, value)` in CSR order, and
whether `_set_mat` accepts it (dtype and squareness, mkl.py:113-137, checks 118-121). -/
structure SpMat where
  n : ℕ
  entries : List (ℕ × ℕ × ℚ)
  valid : Bool
  deriving DecidableEq

/-- What scipy's `str(mat)` depends on: the shape, the number of stored entries and the printed
entries; with more than `maxprint = 50` entries only the first and the last 25 are printed. -/
def SpMat.shown (m : SpMat) : ℕ × ℕ × List (ℕ × ℕ × ℚ) :=
  (m.n, m.entries.length,
    if m.entries.length ≤ 50 then m.entries
    else m.entries.take 25 ++ m.entries.drop (m.entries.length - 25))

/-- The phase sent to MKL (mkl.py:69-73). -/
inductive Phase where
  | free | factorize | solve | fullsolve
  deriving DecidableEq

/-- The state of a `Pardiso` object: the matrix stored by `_set_mat`, `_mat_hash`, and, inside MKL,
the matrix whose factors are available. -/
structure PState where
  mat : Option SpMat
  hash : ℤ
  factors : Option SpMat

/-- A fresh object (mkl.py:77-103). -/
def PState.init : PState := ⟨none, 0, none⟩

/-- The result of a call: nothing (`factor`, `free`), the solution of the given right-hand side with
the factors of a matrix, the result of solving without factors, or an exception. -/
inductive POut where
  | done
  | solution (m : SpMat)
  | garbage
  | raised (e : PyError)
  deriving DecidableEq

/-- `Pardiso.pardiso(rhs)` (mkl.py:160-201): `rhs = none` for `factor`/`free`, else the length of the
right-hand side. A factorisation that MKL rejects leaves no factors and raises. -/
def PState.native (facOk : SpMat → Bool) (s : PState) (ph : Phase) (rhs : Option ℕ) : PState × POut :=
  if s.hash = 0 then (s, .raised .runtimeError)
  else match s.mat with
    | none => (s, .raised .runtimeError)
    | some m =>
      if rhs.isSome ∧ rhs ≠ some m.n then (s, .raised .runtimeError)
      else match ph with
        | .free => ({ s with factors := none }, .done)
        | .factorize => if facOk m then ({ s with factors := some m }, .done)
                        else ({ s with factors := none }, .raised .runtimeError)
        | .fullsolve => if facOk m then ({ s with factors := some m }, .solution m)
                        else ({ s with factors := none }, .raised .runtimeError)
        | .solve => match s.factors with
          | some f => (s, .solution f)
          | none => (s, .garbage)

/-- Calls on the shared solver object. -/
inductive POp where
  | factor (m : SpMat)
  | solve (m : SpMat) (rhsLen : ℕ)
  | free

/-- `hash(str(mat))` (mkl.py:145, 151) for an arbitrary string hash. -/
def matHash (H : ℕ × ℕ × List (ℕ × ℕ × ℚ) → ℤ) (m : SpMat) : ℤ := H m.shown

/-- `factor` (mkl.py:143-148), `solve` (mkl.py:150-158), `free` (mkl.py:139-141). `_set_mat` raises
before anything is stored when it rejects the matrix. -/
def PState.step (H : ℕ × ℕ × List (ℕ × ℕ × ℚ) → ℤ) (facOk : SpMat → Bool) (s : PState) : POp → PState × POut
  | .factor m =>
    if m.valid then PState.native facOk { s with mat := some m, hash := matHash H m } .factorize none
    else (s, .raised .valueError)
  | .solve m len =>
    if matHash H m ≠ s.hash then
      if m.valid then PState.native facOk { s with mat := some m, hash := matHash H m } .fullsolve (some len)
      else (s, .raised .valueError)
    else PState.native facOk s .solve (some len)
  | .free => PState.native facOk s .free none

/-- Running a history of calls from a state; returns the final state and the results. -/
def PState.run (H : ℕ × ℕ × List (ℕ × ℕ × ℚ) → ℤ) (facOk : SpMat → Bool) :
    PState → List POp → PState × List POut
  | s, [] => (s, [])
  | s, op :: ops =>
    let r := s.step H facOk op
    let r' := PState.run H facOk r.1 ops
    (r'.1, r.2 :: r'.2)

/-! ### Cached properties -/

/-- `YeeGrid.eps_t` (grid.py:464-473): a property under `functools.lru_cache` keyed on the grid
object. State: the current permittivity and the cached value, if any. -/
structure CacheState (α β : Type) where
  eps : α
  cached : Option β

/-- Events: changing `eps` (`set_eps`, `fill`, `add`, assignment), reading `eps_t`, and eviction of the
entry (the cache holds 128 objects). -/
inductive CacheOp (α : Type) where
  | set (a : α)
  | read
  | evict

/-- One event; a read returns a value. `f` is `yee_avg`. -/
def CacheState.step {α β : Type} (f : α → β) (s : CacheState α β) : CacheOp α → CacheState α β × Option β
  | .set a => ({ s with eps := a }, none)
  | .evict => ({ s with cached := none }, none)
  | .read => match s.cached with
    | some b => (s, some b)
    | none => ({ s with cached := some (f s.eps) }, some (f s.eps))

/-- State after a history. -/
def CacheState.run {α β : Type} (f : α → β) (s : CacheState α β) (ops : List (CacheOp α)) : CacheState α β :=
  ops.foldl (fun s op => (s.step f op).1) s

end Simphox
