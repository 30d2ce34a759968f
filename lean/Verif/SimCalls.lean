import Verif.Sim
import Mathlib.Data.Real.Basic

/-!
# Which modes a simulation uses (`simphox/sim.py`, `simphox/fdfd.py`, `simphox/fdtd.py`, `simphox/circuit/component.py`)

The calls between `port_modes`, `port_source`, `get_measure_fn`, `get_sim_fn`, `get_sim_sparams_fn`,
`FDFD.sparams`, `FDTD.run_cw_port` and `Component.from_fdfd`, with the arguments they pass on and the defaults they
leave. Cross section solver, source placement, field solver and modal overlap are parameters.
-/

namespace Simphox

/-- The default of the arguments called `wavelength` (sim.py:107, 129, 155, 195). -/
noncomputable def defaultWavelength : ℝ := 1.55

/-- One call `self.modes(...)` of `port_modes` (sim.py:146-151): centre and size of the cross section are given by
the port and the factor `profile_size_factor`. -/
structure ModeQuery where
  port : String
  sizeFactor : ℝ
  wavelength : ℝ
  numModes : ℕ

/-- What the functions below use of a simulation. `ports` are the keys of `self.port`, `angle` the port angles,
`setOrder` the order in which the set of port names of `port_modes` is iterated (sim.py:143), `modes` the cross
section solver, `place lib m` the source array that `port_source` makes of mode `m` with weight one (sim.py:178-188),
`measure lib m` the pair of amplitudes of mode `m` (sim.py:218-221, mode.py:528-567), `fields` the field solver,
`wavelength` the attribute `FDFD.wavelength` (fdfd.py:90). -/
structure PortSim (Lib Src Fld : Type) where
  ports : List String
  angle : String → ℚ
  setOrder : List String → List String
  modes : ModeQuery → Lib
  place : String → Lib → ℕ → Src
  measure : String → Lib → ℕ → Fld → ℂ × ℂ
  fields : Src → Fld
  wavelength : ℝ

variable {Lib Src Fld : Type}

/-- `SimGrid.parse_excitation` (sim.py:192-193) for `None` and for lists of pairs (the other formats are C31). -/
def PortSim.excitation (S : PortSim Lib Src Fld) (request : Option (List (String × ℕ))) : List (String × ℕ) :=
  request.getD (S.ports.map fun p => (p, 0))

/-- `get_measure_fn(measure_port, wavelength, profile_size_factor)` (sim.py:195-230) and the returned function. -/
noncomputable def PortSim.getMeasureFn (S : PortSim Lib Src Fld) (request : Option (List (String × ℕ))) (wavelength sizeFactor : ℝ)
    (f : Fld) : List (ℂ × ℂ) :=
  let req := S.excitation request
  measureAll S.angle (S.setOrder (req.map Prod.fst)) req fun e =>
    S.measure e.1 (S.modes ⟨e.1, sizeFactor, wavelength, numModes req e.1⟩) e.2 f

/-- `port_source({(port, mode): 1}, profile_size_factor, wavelength=wavelength)` (sim.py:153-190); the modes are
those of `port_modes` without an excitation (sim.py:176). Simplified: the mode index is assumed to be there (C67). -/
noncomputable def PortSim.portSource (S : PortSim Lib Src Fld) (port : String) (mode : ℕ) (sizeFactor wavelength : ℝ) : Src :=
  S.place port (S.modes ⟨port, sizeFactor, wavelength, numModes (S.ports.map fun p => (p, 0)) port⟩) mode

/-- `get_sim_fn(src)` and the measurements of the returned function (sim.py:251-281). -/
noncomputable def PortSim.simFn (S : PortSim Lib Src Fld) (src : Src) : List (ℂ × ℂ) :=
  S.getMeasureFn none defaultWavelength 3 (S.fields src)

/-- `get_sim_sparams_fn(port_name, mode_idx=mode_idx, profile_size_factor=..., measure_info=...)` and the S-parameters
of the returned function (sim.py:283-320). -/
noncomputable def PortSim.simSparamsFn (S : PortSim Lib Src Fld) (port : Option String) (mode : ℕ) (sizeFactor : ℝ)
    (info : Option (List (String × ℕ))) : Except PyError (List ℂ) :=
  match (port.map fun p => (p, mode)).or (S.excitation info).head? with
  | none => .error .indexError
  | some src =>
    simSparams S.ports (S.getMeasureFn none defaultWavelength 3 (S.fields (S.portSource src.1 src.2 sizeFactor defaultWavelength)))
      (some src) info

/-- `FDFD.sparams(port_name, mode_idx, measure_info)` (fdfd.py:299-317). -/
noncomputable def PortSim.fdfdSparamsFn (S : PortSim Lib Src Fld) (port : String) (mode : ℕ) (info : Option (List (String × ℕ))) :
    Except PyError (List ℂ) :=
  let measured := S.getMeasureFn info defaultWavelength 3 (S.fields (S.portSource port mode 3 defaultWavelength))
  match (S.excitation info).findIdx? fun e => e = (port, mode) with
  | none => .error .valueError
  | some k =>
    match measured[k]? with
    | none => .error .indexError
    | some inPair => .ok (measured.map fun m => m.1 / inPair.2)

/-- The modes that `FDTD.run_cw_port(..., wavelength, source_port, measure_port, profile_size_factor)` uses for its
sources (fdtd.py:263-265). -/
noncomputable def PortSim.cwSourceModes (S : PortSim Lib Src Fld) (sources : List (String × ℕ)) (wavelength sizeFactor : ℝ) :
    List (String × Lib) :=
  (S.setOrder (sources.map Prod.fst)).map fun p => (p, S.modes ⟨p, sizeFactor, wavelength, numModes sources p⟩)

/-- The measurement that `FDTD.run_cw_port` makes of the fields of every step (fdtd.py:266-267, 270, 283). -/
noncomputable def PortSim.cwMeasure (S : PortSim Lib Src Fld) (request : Option (List (String × ℕ))) (_wavelength sizeFactor : ℝ) (f : Fld) :
    List (ℂ × ℂ) :=
  S.getMeasureFn request defaultWavelength sizeFactor f

/-! ### `Component.from_fdfd` -/

/-- A three dimensional `xarray.DataArray` with labels for every dimension. -/
structure Model3 where
  wavelengths : List ℝ
  inPorts : List String
  outPorts : List String
  data : List (List (List ℂ))

/-- `model.sel(wavelengths=w, in_ports=i, out_ports=o)` for labels without repetitions. -/
noncomputable def Model3.sel (m : Model3) (w : ℝ) (i o : String) : Option ℂ := do
  let a ← m.wavelengths.findIdx? fun x => x = w
  let b ← m.inPorts.findIdx? fun x => x = i
  let c ← m.outPorts.findIdx? fun x => x = o
  let plane ← m.data[a]?
  let row ← plane[b]?
  row[c]?

/-- `xr.DataArray(data, dims=[...], coords={...})` (component.py:92-100): every dimension needs a one dimensional
coordinate of its length; `None` is a coordinate without dimension. An empty list of wavelengths or ports gives an
array with fewer dimensions. -/
def makeModel (data : List (List (List ℂ))) (numPorts : ℕ) (wavelengths : List ℝ) (inPorts outPorts : Option (List String)) :
    Except PyError Model3 :=
  if data = [] ∨ numPorts = 0 then .error .valueError
  else match inPorts, outPorts with
  | some i, some o =>
    if i.length = numPorts ∧ o.length = numPorts then .ok ⟨wavelengths, i, o, data⟩ else .error .valueError
  | _, _ => .error .valueError

/-- `Component.from_fdfd(...)` (component.py:31-102): `sims w` is `FDFD.from_pattern(..., wavelength=w)` (its ports
are those of the pattern, for every wavelength). -/
noncomputable def fromFdfd (ports : List String) (sims : ℝ → PortSim Lib Src Fld) (wavelengths : List ℝ) (inPorts outPorts : Option (List String))
    (sizeFactor : ℝ) : Except PyError Model3 := do
  let data ← wavelengths.mapM fun w => ports.mapM fun p => (sims w).simSparamsFn (some p) 0 sizeFactor none
  makeModel data ports.length wavelengths inPorts outPorts

end Simphox
