import Verif.Grid

/-! # `from_pattern` (fdfd.py:260-297, fdtd.py:55-91): a grid for a dphox component -/

namespace Simphox

open Grid

/-- Arguments of `from_pattern` that shape the permittivity (fdfd.py:260-263, fdtd.py:55-58; the two
methods differ only in the wavelength, which FDTD does not have). `bx, by` is `boundary`; `spacing` is a
float (scalar); `name`, `wavelength` and `pml` do not influence the permittivity (the PML check of the
constructor is C43 and is left out here). -/
structure PatternArgs where
  core : ℚ
  clad : ℚ
  spacing : ℚ
  bx : ℚ
  by' : ℚ
  t : ℚ := 0
  zmin : Option ℚ := none
  rib : ℚ := 0
  subz : ℚ := 0
  height : ℚ := 0
  bg : ℚ := 1

/-- `component_zmin = sub_z if component_zmin is None else component_zmin` (fdfd.py:288). -/
def PatternArgs.z0 (a : PatternArgs) : ℚ := a.zmin.getD a.subz

/-- `spacing * np.ones(2 + (component_t > 0))` (fdfd.py:289). -/
def PatternArgs.spacings (a : PatternArgs) : List ℚ :=
  List.replicate (2 + if 0 < a.t then 1 else 0) a.spacing

/-- `size` (fdfd.py:285-287, 290): the component's size (`component.size`, the extent of its bounds) with
the boundary on both sides, and the height if it is positive. -/
def PatternArgs.size (a : PatternArgs) (c : Component) : List ℚ :=
  if 0 < a.height then [(c.b2 - c.b0) + 2 * a.bx, (c.b3 - c.b1) + 2 * a.by', a.height]
  else [(c.b2 - c.b0) + 2 * a.bx, (c.b3 - c.b1) + 2 * a.by']

/-- `from_pattern` (fdfd.py:284-296, fdtd.py:79-91): build the grid, fill with the core up to
`sub_z + rib_t`, fill with the cladding up to `sub_z`, add the component. -/
def fromPattern (a : PatternArgs) (c : Component) : Except PyError Grid := do
  let g ← Grid.make (a.size c) (.inr a.spacings) (.inl a.bg)
  ((g.fill (a.subz + a.rib) a.core).fill a.subz a.clad).add c a.core (some (a.z0, a.t))

end Simphox
