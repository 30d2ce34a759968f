import Mathlib.Data.Rat.Floor
import Mathlib.Data.Rat.Cast.Order
import Mathlib.Algebra.BigOperators.Group.List.Basic
import Verif.Utils

/-!
# Model of `Box` (`simphox/utils.py`) and `Grid`, `YeeGrid` (`simphox/grid.py`)

Lengths and permittivities are exact rationals. Arrays are total functions on index triples together
with a shape; only the entries inside the shape are meaningful.
-/

namespace Simphox

/-- Python `int(q)`: truncation towards zero. -/
def pyInt (q : ℚ) : ℤ := if 0 ≤ q then ⌊q⌋ else ⌈q⌉

/-- `np.around(q)`: round half to even. -/
def around (q : ℚ) : ℤ :=
  if q - ⌊q⌋ < 1 / 2 then ⌊q⌋
  else if 1 / 2 < q - ⌊q⌋ then ⌊q⌋ + 1
  else if ⌊q⌋ % 2 = 0 then ⌊q⌋ else ⌊q⌋ + 1

/-! ### Box -/

/-- `Box` (utils.py:67-85). A float `size` is stored as `(size, 0)` by `__post_init_post_parse__`. -/
structure Box where
  sizeX : ℚ
  sizeY : ℚ
  minX : ℚ
  minY : ℚ
  spacing : ℚ
  eps : ℚ
  deriving DecidableEq, Repr

namespace Box

/-- `Box.max` (utils.py:87-89). -/
def maxX (b : Box) : ℚ := b.minX + b.sizeX
def maxY (b : Box) : ℚ := b.minY + b.sizeY
/-- `Box.center` (utils.py:103-105). -/
def centerX (b : Box) : ℚ := b.minX + b.sizeX / 2
def centerY (b : Box) : ℚ := b.minY + b.sizeY / 2

/-- `Box.translate` (utils.py:119-121). The code mutates and returns `self`. -/
def translate (b : Box) (dx dy : ℚ) : Box := { b with minX := b.minX + dx, minY := b.minY + dy }

/-- `Box.align` (utils.py:123-126) with the target centre. -/
def align (b : Box) (cx cy : ℚ) : Box := b.translate (cx - b.centerX) (cy - b.centerY)

/-- The reference coordinate of `halign`/`valign`: a number, or an edge of another box chosen by
`left and not opposite or opposite and not left` (utils.py:130-131, 137-138). -/
inductive Ref where
  | num (p : ℚ)
  | box (c : Box)

/-- `Box.halign` (utils.py:128-133). -/
def halign (b : Box) (c : Ref) (left opposite : Bool) : Box :=
  let x := if left then b.minX else b.maxX
  let p := match c with
    | .num p => p
    | .box c => if (left && !opposite) || (opposite && !left) then c.minX else c.maxX
  b.translate (p - x) 0

/-- `Box.valign` (utils.py:135-140). -/
def valign (b : Box) (c : Ref) (bottom opposite : Bool) : Box :=
  let y := if bottom then b.minY else b.maxY
  let p := match c with
    | .num p => p
    | .box c => if (bottom && !opposite) || (opposite && !bottom) then c.minY else c.maxY
  b.translate 0 (p - y)

/-- `Box.min_i`, `Box.max_i` (utils.py:91-97). -/
def minI (b : Box) : ℤ × ℤ := (pyInt (b.minX / b.spacing), pyInt (b.minY / b.spacing))
def maxI (b : Box) : ℤ × ℤ := (pyInt (b.maxX / b.spacing), pyInt (b.maxY / b.spacing))

end Box

/-! ### Python indexing of one axis -/

/-- One component of an index tuple as produced by `Grid.slice`. -/
inductive AxisIndex where
  | point (i : ℤ)
  | range (start stop : ℤ)
  deriving DecidableEq, Repr

/-- Python's resolution of a slice bound on an axis of length `n`: negative bounds count from the end,
then everything is clipped to `[0, n]`. -/
def resolveBound (n : ℕ) (a : ℤ) : ℤ := if a < 0 then max (a + n) 0 else min a n

/-- Python indexing: `point` raises `IndexError` outside `[-n, n)`. -/
def AxisIndex.valid (n : ℕ) : AxisIndex → Bool
  | .point i => decide (-(n : ℤ) ≤ i ∧ i < n)
  | .range _ _ => true

/-- Whether position `k` of an axis of length `n` is selected. -/
def AxisIndex.selects (n : ℕ) (k : ℕ) : AxisIndex → Bool
  | .point i => decide ((k : ℤ) = if i < 0 then i + n else i)
  | .range a b => decide (resolveBound n a ≤ k ∧ (k : ℤ) < resolveBound n b)

/-! ### Grid -/

/-- Index triple. -/
abbrev Idx3 := ℕ × ℕ × ℕ

/-- The state of a `Grid` that the modelled methods use (grid.py:53-87). `spacing3` is `none` on the
missing axes (`np.inf` in the code), `shape3` is one there. `eps` is the flat permittivity array read
through `shape3`; `epsShape` is the shape of the array object `self.eps`. -/
structure Grid where
  ndim : ℕ
  size : List ℚ
  spacing : List ℚ
  shape : List ℕ
  eps : Idx3 → ℚ
  epsShape : List ℕ

namespace Grid

/-- `shape3` (grid.py:69). -/
def shape3 (g : Grid) (ax : ℕ) : ℕ := g.shape.getD ax 1

/-- `center / spacing3` on one axis (grid.py:199): division by `np.inf` gives zero on missing axes. -/
def scaled (g : Grid) (ax : ℕ) (x : ℚ) : ℚ :=
  match g.spacing[ax]? with
  | some dx => x / dx
  | none => 0

/-- One axis of `Grid.slice(center, size, squeezed=True)` (grid.py:199-211). -/
def sliceAxis (g : Grid) (ax : ℕ) (center size : ℚ) : AxisIndex :=
  let c := around (g.scaled ax center)
  let s := around (g.scaled ax size)
  if 0 < s then .range (c - s / 2) (c - s / 2 + s) else .point c

/-- The three axes of a size-3 tuple. -/
structure V3 where
  x : ℚ
  y : ℚ
  z : ℚ

/-- The index tuple `self.slice(center, size)`. -/
def slice3 (g : Grid) (c s : V3) : AxisIndex × AxisIndex × AxisIndex :=
  (g.sliceAxis 0 c.x s.x, g.sliceAxis 1 c.y s.y, g.sliceAxis 2 c.z s.z)

/-- Whether the index tuple can be used without `IndexError`. -/
def validIdx (g : Grid) (t : AxisIndex × AxisIndex × AxisIndex) : Bool :=
  t.1.valid (g.shape3 0) && t.2.1.valid (g.shape3 1) && t.2.2.valid (g.shape3 2)

/-- Whether the index tuple selects a pixel. -/
def selected (g : Grid) (t : AxisIndex × AxisIndex × AxisIndex) (p : Idx3) : Bool :=
  t.1.selects (g.shape3 0) p.1 && t.2.1.selects (g.shape3 1) p.2.1 && t.2.2.selects (g.shape3 2) p.2.2

/-- `ndarray.squeeze()` on a shape. -/
def squeeze (s : List ℕ) : List ℕ := s.filter (· ≠ 1)

/-- `Grid.set_eps(center, size, eps)` (grid.py:133-149). `self.eps` is written through a reshaped
view and then replaced by the squeezed view. -/
def setEps (g : Grid) (c s : V3) (eps : ℚ) : Except PyError Grid :=
  let t := g.slice3 c s
  if g.validIdx t then
    .ok { g with
      eps := fun p => if g.selected t p then eps else g.eps p
      epsShape := squeeze [g.shape3 0, g.shape3 1, g.shape3 2] }
  else .error .indexError

/-- `Grid.mask(center, size)` (grid.py:151-166): the 0/1 array (before `squeeze`). -/
def mask (g : Grid) (c s : V3) : Except PyError (Idx3 → ℚ) :=
  let t := g.slice3 c s
  if g.validIdx t then .ok fun p => if g.selected t p then 1 else 0 else .error .indexError

/-- Component of an index triple along an axis. -/
def comp (p : Idx3) (ax : ℕ) : ℕ := if ax = 0 then p.1 else if ax = 1 then p.2.1 else p.2.2

/-- `Grid.fill(height, eps)` (grid.py:89-104) for a permittivity array that has the grid's own shape
(last axis `ndim - 1`). -/
def fill (g : Grid) (height eps : ℚ) : Grid :=
  if 0 < height then
    let k := pyInt (height / g.spacing.getLastD 1)
    { g with
      eps := fun p => if (comp p (g.ndim - 1) : ℤ) < resolveBound (g.shape3 (g.ndim - 1)) k then eps else g.eps p }
  else { g with eps := fun _ => eps }

/-- `self.spacing` (grid.py:62). -/
def spacingList (size : List ℚ) : ℚ ⊕ List ℚ → List ℚ
  | .inl d => size.map fun _ => d
  | .inr l => l

/-- `Grid.__init__` (grid.py:53-87), with `spacing` either a number (`inl`) or a sequence (`inr`) and
`eps` either a number or an array with a shape. Raises as the code does; `np.ones` of a negative shape
raises `ValueError`. -/
def make (size : List ℚ) (spacing : ℚ ⊕ List ℚ) (eps : ℚ ⊕ (List ℕ × (Idx3 → ℚ))) :
    Except PyError Grid :=
  let sp := spacingList size spacing
  if size.length ≠ sp.length then .error .attributeError
  else if 3 < size.length then .error .valueError
  else
    let shapeZ := List.zipWith (fun s d => around (s / d)) size sp
    if shapeZ.any (· < 0) then .error .valueError
    else
      let shape := shapeZ.map Int.toNat
      match eps with
      | .inl e => .ok ⟨size.length, size, sp, shape, fun _ => e, shape⟩
      | .inr (es, a) => if shape = es then .ok ⟨size.length, size, sp, shape, a, es⟩
                        else .error .attributeError

/-- `self.cells[i]` (grid.py:81-82). -/
def cells (g : Grid) (ax : ℕ) : List ℚ :=
  if ax < g.ndim then List.replicate (g.shape.getD ax 1) (g.spacing.getD ax 1) else [1]

/-- `self.pos[i]` (grid.py:83): `hstack((0, cumsum(dx)))` if there is more than one cell, else `[0]`. -/
def pos (g : Grid) (ax : ℕ) : List ℚ :=
  if 1 < (g.cells ax).length then (g.cells ax).scanl (· + ·) 0 else [0]

/-- `self.n` (grid.py:75). -/
def n (g : Grid) : ℕ := g.shape.prod

/-! ### Adding components -/

/-- What `Grid.add` uses of a dphox pattern: bounds, a pixel mask and the number of ports. -/
structure Component where
  b0 : ℚ
  b1 : ℚ
  b2 : ℚ
  b3 : ℚ
  mask : ℕ → ℕ → Bool
  nPorts : ℕ

/-- `not b[0] >= 0 and b[1] >= 0 and b[2] <= size[0] and b[3] <= size[1]` (grid.py:120), with
Python's precedence of `not` over `and`. -/
def addRejects (g : Grid) (c : Component) : Bool :=
  !decide (c.b0 ≥ 0) && decide (c.b1 ≥ 0) && decide (c.b2 ≤ g.size.getD 0 0) &&
    decide (c.b3 ≤ g.size.getD 1 0)

/-- `Grid.add` (grid.py:106-131). `z = none` models the default `zmin = thickness = None`: in 3d
`None / spacing` and, if the component has ports, `None + None / 2` raise `TypeError` (after `eps` has
been written in 2d; the model returns only the error). -/
def add (g : Grid) (c : Component) (eps : ℚ) (z : Option (ℚ × ℚ)) : Except PyError Grid :=
  if g.addRejects c then .error .valueError
  else if g.ndim = 2 then
    if z = none ∧ 0 < c.nPorts then .error .typeError
    else .ok { g with eps := fun p => if c.mask p.1 p.2.1 then eps else g.eps p }
  else match z with
    | none => .error .typeError
    | some (zmin, t) =>
      let a := pyInt (zmin / g.spacing.getD 0 1)
      let b := pyInt ((zmin + t) / g.spacing.getD 1 1)
      .ok { g with
        eps := fun p => if c.mask p.1 p.2.1 && (AxisIndex.range a b).selects (g.shape3 2) p.2.2 then eps else g.eps p }

/-! ### block_design -/

/-- The boxes written by `block_design` (grid.py:304-318). `whg = none` or `0` means no waveguide
height. -/
def blockBoxes (g : Grid) (wg0 : Box) (whg : ℚ) (gap : ℚ) (block : Option Box) (sep : ℚ × ℚ)
    (vertical : Bool) : Except PyError (List Box) :=
  let wg1 := wg0.align (g.size.getD 0 0 / 2) (g.size.getD 1 0 / 2)
  let wg := if whg ≠ 0 then wg1.valign (.num whg) true true else wg1
  let h := if whg ≠ 0 then whg else wg.minY
  let d := if 0 < gap then gap / 2 + wg.sizeX / 2 else 0
  let w0 := wg.translate (-d) 0
  let w1 := wg.translate d 0
  match vertical, block with
  | true, none => .error .attributeError
  | true, some b => .ok [w0, w1,
      ((b.align w0.centerX w0.centerY).valign (.box w0) true true).translate 0 sep.1,
      ((b.align w1.centerX w1.centerY).valign (.box w1) true true).translate 0 sep.2]
  | false, none => .ok [w0, w1]
  | false, some b => .ok [w0, w1,
      ((b.valign (.num h) true true).halign (.box w0) false true).translate (-sep.1) 0,
      ((b.valign (.num h) true true).halign (.box w1) true true).translate sep.2 0]

/-- The final loop of `block_design` (grid.py:319-320). -/
def setBoxes (g : Grid) : List Box → Except PyError Grid
  | [] => .ok g
  | b :: bs => do
    let g' ← g.setEps ⟨b.centerX, b.centerY, 0⟩ ⟨b.sizeX, b.sizeY, 0⟩ b.eps
    g'.setBoxes bs

/-- The two fills of `block_design` (grid.py:301-303). -/
def blockFill (g : Grid) (wgEps subEps subHeight ribY : ℚ) : Grid :=
  (if 0 < ribY then g.fill (ribY + subHeight) wgEps else g).fill subHeight subEps

/-- `Grid.block_design` (grid.py:280-321). -/
def blockDesign (g : Grid) (wg0 : Box) (whg subEps subHeight gap : ℚ) (block : Option Box)
    (sep : ℚ × ℚ) (vertical : Bool) (ribY : ℚ) : Except PyError Grid := do
  let boxes ← g.blockBoxes wg0 whg gap block sep vertical
  (g.blockFill wg0.eps subEps subHeight ribY).setBoxes boxes

end Grid

/-! ### YeeGrid: PML -/

/-- `pml_shape` and its validation in `YeeGrid.__init__` (grid.py:343-352): `pml / spacing`
truncated; every entry must be more than 3 and less than half the (integer-divided) shape. `pml` has
the grid's dimension (a different length raises). -/
def pmlShape (shape : List ℕ) (spacing : List ℚ) (pml : Option (List ℚ)) :
    Except PyError (Option (List ℤ)) :=
  match pml with
  | none => .ok none
  | some p =>
    if p.length ≠ spacing.length then .error .valueError
    else
      let ps := List.zipWith (fun a d => pyInt (a / d)) p spacing
      if (ps.any fun a => decide (a ≤ 3)) || (List.zipWith (fun (a : ℤ) (n : ℕ) => decide ((n / 2 : ℕ) ≤ a)) ps shape).any id then
        .error .attributeError
      else .ok (some ps)

/-- `FDFD.from_simgrid` (fdfd.py:113-120) passes `pml = simgrid.pml_shape`, so that the pixel counts
are divided by the spacing again. -/
def fromSimgridPml (shape : List ℕ) (spacing : List ℚ) (simShape : Option (List ℤ)) :
    Except PyError (Option (List ℤ)) :=
  pmlShape shape spacing (simShape.map fun (l : List ℤ) => l.map fun (z : ℤ) => (z : ℚ))

/-- One coordinate of `YeeGrid.pml_safe_placement` (grid.py:457-462): `p` is the PML thickness plus
separation in length units, `M = size - spacing`. -/
def safeCoord (p M x : ℚ) : ℚ := min (max x p) (M - p)

/-- `p` of one axis (grid.py:458): `(pml_shape + pml_sep) * spacing`, or 0 without PML. -/
def safeMargin (pmlPx : Option ℤ) (sep : ℤ) (spacing : ℚ) : ℚ :=
  match pmlPx with
  | some k => (k + sep : ℤ) * spacing
  | none => 0

end Simphox
