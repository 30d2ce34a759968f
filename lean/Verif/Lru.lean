import Mathlib.Data.List.Dedup
import Mathlib.Data.List.Basic
import Mathlib.Data.List.Nodup
import Mathlib.Tactic.NormNum

/-! # The cache in front of `SimGrid.modes` (sim.py:106-127)

`functools.lru_cache()` on a method: one cache for all grids, keyed on the grid object (identity) and the
call's arguments, holding the 128 most recently used results. -/

namespace Simphox

/-- The key of a call `grid.modes(center, size, wavelength, num_modes)`: the grid and the arguments
(sim.py:106-107). -/
structure ModesKey (A : Type) where
  grid : ℕ
  args : A
  deriving DecidableEq

/-- All grids' permittivities and the cache, most recently used entry first. -/
structure ModesState (E A R : Type) where
  eps : ℕ → E
  cache : List (ModesKey A × R)

/-- Events: changing the permittivity of a grid (`set_eps`, `fill`, `add`, assignment) and a call. -/
inductive ModesOp (E A : Type) where
  | setEps (grid : ℕ) (eps : E)
  | call (key : ModesKey A)

/-- `functools.lru_cache` with `maxsize = cap` (Python's default 128): a hit moves the entry to the front
and returns the stored result, a miss computes (`solve` stands for the mode solver on the slice of the
current permittivity, sim.py:120-127) and drops the least recently used entry beyond `cap`. -/
def lruCall {E A R : Type} [DecidableEq A] (cap : ℕ) (solve : E → A → R) (s : ModesState E A R)
    (k : ModesKey A) : R × ModesState E A R :=
  match s.cache.find? fun p => p.1 = k with
  | some p => (p.2, { s with cache := p :: s.cache.filter fun q => q.1 ≠ k })
  | none =>
    let r := solve (s.eps k.grid) k.args
    (r, { s with cache := ((k, r) :: s.cache).take cap })

/-- One event. -/
def ModesState.step {E A R : Type} [DecidableEq A] (cap : ℕ) (solve : E → A → R) (s : ModesState E A R) :
    ModesOp E A → ModesState E A R
  | .setEps g e => { s with eps := Function.update s.eps g e }
  | .call k => (lruCall cap solve s k).2

/-- The state after a history that starts with an empty cache. -/
def modesRun {E A R : Type} [DecidableEq A] (cap : ℕ) (solve : E → A → R) (eps0 : ℕ → E)
    (h : List (ModesOp E A)) : ModesState E A R :=
  h.foldl (ModesState.step cap solve) ⟨eps0, []⟩

/-- What `grid.modes(args)` returns after a history. -/
def modesResult {E A R : Type} [DecidableEq A] (cap : ℕ) (solve : E → A → R) (eps0 : ℕ → E)
    (h : List (ModesOp E A)) (k : ModesKey A) : R :=
  (lruCall cap solve (modesRun cap solve eps0 h) k).1

end Simphox
