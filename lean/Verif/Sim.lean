import Mathlib.Analysis.InnerProductSpace.PiL2
import Mathlib.Analysis.SpecialFunctions.Complex.Circle
import Verif.Grid
import Verif.Mode

/-!
# Model of `simphox/sim.py` (`SimCrossSection`, `SimGrid`)

Ports are given by a list of names and the angle of each (rational degrees). The iteration order of the
set of port names (`{e[0] for e in excitation}`, sim.py:138) is a parameter: any duplicate-free list of
the names that occur (`SetOrder`), since string hashing is randomised between runs. Mode solving and
field solving are parameters.
-/

namespace Simphox

open Complex

/-- A list of the elements of a Python set built from `l`, in some iteration order. -/
def SetOrder (l order : List String) : Prop := order.Nodup ∧ ∀ x, x ∈ order ↔ x ∈ l

/-- `np.mod(angle, 360) < 180` (sim.py:181, 214). -/
def anglePositive (a : ℚ) : Bool := decide (a - 360 * ⌊a / 360⌋ < 180)

/-! ### port_modes -/

/-- `num_modes[name]` of `port_modes` (sim.py:139-140): the largest requested mode index plus one.
(Only evaluated for names that occur in the excitation, where `np.max` is defined.) -/
def numModes (excitation : List (String × ℕ)) (name : String) : ℕ :=
  ((excitation.filter fun e => e.1 = name).map Prod.snd).foldr max 0 + 1

/-- `port_modes(excitation)` (sim.py:119-145): the dictionary from port name to its solved cross section,
in the iteration order of the set of names. `solve name k` is the list of propagation constants of the
cross section of port `name` solved with `num_modes=k`. -/
def portModes (solve : String → ℕ → List ℝ) (order : List String) (excitation : List (String × ℕ)) :
    List (String × List ℝ) := order.map fun name => (name, solve name (numModes excitation name))

/-- Dictionary lookup `d[name]`. -/
def dictGet {α : Type} (d : List (String × α)) (name : String) : Except PyError α :=
  match d.find? fun p => p.1 = name with
  | some p => .ok p.2
  | none => .error .keyError

/-- Keys of the `source` dictionary of `port_source`: the documented forms are `(port, mode)` and
`port`. -/
inductive PortKey where
  | pair (port : String) (mode : ℕ)
  | name (port : String)

/-- The lookups `port, mode = port_mode`, `source_library[port]`, `.io.betas[mode]` for one entry of the
source (sim.py:177-180). A string key is unpacked character by character: this needs exactly two
characters, and the second one is not an integer index. -/
def sourceBeta (library : List (String × List ℝ)) : PortKey → Except PyError ℝ
  | .pair port mode => do
    let betas ← dictGet library port
    match betas[mode]? with
    | some b => .ok b
    | none => .error .indexError
  | .name port =>
    match port.toList with
    | [c, _] => do
      let _ ← dictGet library (String.ofList [c])
      .error .indexError
    | _ => .error .valueError

/-- The propagation constants looked up by `port_source(source)` (sim.py:173-180). The library is
`self.port_modes()` with its default excitation, one mode per port. -/
def portSourceBetas (solve : String → ℕ → List ℝ) (order : List String) (ports : List String)
    (source : List PortKey) : Except PyError (List ℝ) :=
  source.mapM (sourceBeta (portModes solve order (ports.map fun p => (p, 0))))

/-- The two sheets of a unidirectional port source along the propagation axis (sim.py:181-185): position
(in cells, relative to the placed mode) and weight. -/
noncomputable def sourceSheets (angle : ℚ) (dx beta : ℝ) (weight : ℂ) : List (ℤ × ℂ) :=
  let shift : ℤ := if anglePositive angle then 1 else -1
  [(2 * shift, weight), (2 * shift + shift, weight * exp (-I * dx * beta - I * Real.pi))]

/-! ### get_measure_fn -/

/-- `[::polarity]` of a pair. -/
def orient (positive : Bool) (p : ℂ × ℂ) : ℂ × ℂ := if positive then p else (p.2, p.1)

/-- `get_measure_fn(measure_port)` applied to fields (sim.py:195-230). `angle` is the angle of each port,
`order` the iteration order of the dictionary returned by `port_modes`, `meas port k` what
`measure_fn` of mode `k` gives on the fields viewed at `port`. There is one result per *distinct* port;
result `i` uses measurement `i` of the request but the polarity of port `i` of `order`. -/
def measureAll (angle : String → ℚ) (order : List String) (request : List (String × ℕ))
    (meas : String × ℕ → ℂ × ℂ) : List (ℂ × ℂ) :=
  (List.range order.length).map fun i =>
    orient (anglePositive (angle (order.getD i ""))) (meas (request.getD i ("", 0)))

/-- `get_sim_sparams_fn(port_name, mode_idx, measure_info)` (sim.py:286-315) given the measured
`(out, in)` pairs of `get_measure_fn()`, i.e. of `(port, 0)` for every port. -/
noncomputable def simSparams (ports : List String) (measured : List (ℂ × ℂ)) (source : Option (String × ℕ))
    (measureInfo : Option (List (String × ℕ))) : Except PyError (List ℂ) :=
  let info := measureInfo.getD (ports.map fun p => (p, 0))
  match source.or info.head? with
  | none => .error .indexError
  | some src =>
    match info.findIdx? fun e => e = src with
    | none => .error .valueError
    | some k =>
      match measured[k]? with
      | none => .error .indexError
      | some inPair => .ok (measured.map fun m => m.1 / inPair.2)

/-! ### fidelity -/

/-- The vector `s` before normalisation (sim.py:484-488): `s[measure_info.index(key)] = weight`. String
keys `port` are `(port, 0)`. -/
def desiredVec (info : List (String × ℕ)) : List ((String × ℕ) × ℂ) → List ℂ → Except PyError (List ℂ)
  | [], s => .ok s
  | (key, w) :: rest, s =>
    match info.findIdx? fun e => e = key with
    | none => .error .valueError
    | some k => desiredVec info rest (s.set k w)

/-- `s / np.linalg.norm(s)` (sim.py:489). -/
noncomputable def normalise {n : ℕ} (s : Fin n → ℂ) : Fin n → ℂ :=
  fun i => s i / (‖(WithLp.toLp 2 s : EuclideanSpace ℂ (Fin n))‖ : ℂ)

/-- The cost returned by `fidelity(desired, insertion_weight)` (sim.py:491-502) on measured `x`. -/
noncomputable def fidelityCost {n : ℕ} (desired : Fin n → ℂ) (weight : ℝ) (x : Fin n → ℂ) : ℝ :=
  let s := normalise desired
  if weight ≠ 0 then
    -‖∑ i, s i * normalise x i‖ ^ 2 * (1 - weight) -
      ‖(WithLp.toLp 2 x : EuclideanSpace ℂ (Fin n))‖ ^ 2 * weight
  else -‖∑ i, s i * x i‖ ^ 2

/-! ### Orientation of profiles and views -/

/-- `a.transpose(axes)`: `out[j] = a[p]` with `p[axes[i]] = j[i]`. -/
def npTranspose {α : Type} (axes : Fin 3 → Fin 3) (f : (Fin 3 → ℤ) → α) : (Fin 3 → ℤ) → α := fun j =>
  f fun k => if k = axes 0 then j 0 else if k = axes 1 then j 1 else j 2

/-- The table of `view_fn` (grid.py:245-249). -/
def viewAxes : Fin 3 → Fin 3 → Fin 3 := ![![1, 2, 0], ![0, 2, 1], ![0, 1, 2]]
/-- The table of `profile` (sim.py:67-71) and of `ModeLibrary.place` (mode.py:510-514). -/
def profileAxes : Fin 3 → Fin 3 → Fin 3 := ![![2, 0, 1], ![0, 2, 1], ![0, 1, 2]]
/-- The signs of `profile` (sim.py:73-77). -/
def profileSigns : Fin 3 → Fin 3 → ℂ := ![![1, -1, 1], ![1, 1, 1], ![1, 1, -1]]

/-- `SimCrossSection.profile` (sim.py:66-82) of a mode with propagation axis `a`. -/
def profile (a : Fin 3) (mode : Fin 3 → (Fin 3 → ℤ) → ℂ) : Fin 3 → (Fin 3 → ℤ) → ℂ := fun c =>
  npTranspose (profileAxes a) fun p => profileSigns a c * mode (profileAxes a c) p

/-- `view_fn(center, size)(field)` (grid.py:251-257) with view axis `a` on the region that starts at `o`. -/
def view (a : Fin 3) (o : Fin 3 → ℤ) (field : Fin 3 → (Fin 3 → ℤ) → ℂ) : Fin 3 → (Fin 3 → ℤ) → ℂ := fun c =>
  npTranspose (viewAxes a) fun p => field (viewAxes a c) (o + p)

/-- What `ModeLibrary.place` writes into its region (mode.py:510-516): the three *spatial* axes of the mode
are permuted, the components are not (and there are no signs). -/
def placeProfile (a : Fin 3) (mode : Fin 3 → (Fin 3 → ℤ) → ℂ) : Fin 3 → (Fin 3 → ℤ) → ℂ := fun c =>
  npTranspose (profileAxes a) (mode c)

/-- `view_axis` of `view_fn` (grid.py:236-239): the last axis below `ndim` with zero size. -/
def viewAxis (ndim : ℕ) (size : Fin 3 → ℚ) : Fin 3 :=
  ((List.finRange 3).filter fun i => decide (i.1 < ndim) && decide (size i = 0)).getLastD 0

/-- `prop_axis` (sim.py:46, mode.py:504): the first axis with zero size (`IndexError` if there is none). -/
def propAxis (size : Fin 3 → ℚ) : Except PyError (Fin 3) :=
  match (List.finRange 3).filter fun i => decide (size i = 0) with
  | i :: _ => .ok i
  | [] => .error .indexError

/-- `x[(None,) + region] = ...` in `ModeLibrary.place` on a three dimensional grid (mode.py:515-516): `x`
has the axes `(component, x, y, z)` and the leading `None` adds an axis without consuming one, so the
three entries of `region` index the *component*, `x` and `y` axes. The entries that the assignment
addresses, or the `IndexError`. (Simplification: the shapes of the two sides are not compared, so the code
may in addition raise `ValueError` where this gives a result.) -/
def placeTarget (shape : Fin 3 → ℕ) (region : AxisIndex × AxisIndex × AxisIndex) :
    Except PyError (Fin 3 → (Fin 3 → ℕ) → Bool) :=
  if region.1.valid 3 && region.2.1.valid (shape 0) && region.2.2.valid (shape 1) then
    .ok fun c p => region.1.selects 3 c.1 && region.2.1.selects (shape 0) (p 0) && region.2.2.selects (shape 1) (p 1)
  else .error .indexError

/-! ### to_2d -/

/-- The start of `SimGrid.to_2d(wavelength, slab_loc)` on a three dimensional grid (sim.py:381-402), up
to the construction of the slab `ModeSolver`: `self.pml_safe_placement(*port.xyz)` is called with three
positional arguments instead of one; the slab's `size` is the number of cells along `z` times the
*three* spacings, while its permittivity is one dimensional. -/
def to2dStart (ndim : ℕ) (spacing : List ℚ) (nz : ℕ) (slabEps : Idx3 → ℚ) (wavelength : Option ℚ)
    (slabLoc : Option (ℚ × ℚ)) (hasPort : Bool) : Except PyError Grid :=
  if ndim ≠ 3 then .error .runtimeError
  else match wavelength with
  | none => .error .valueError
  | some w =>
    if w = 0 then .error .valueError
    else match slabLoc with
    | none => if hasPort then .error .typeError else .error .valueError
    | some _ => Grid.make (spacing.map fun d => nz * d) (.inl (spacing.getLastD 0)) (.inr ([nz], slabEps))

end Simphox
