import Verif.Grid
import Mathlib.Tactic.Linarith
import Mathlib.Tactic.Ring
import Mathlib.Tactic.NormNum
import Mathlib.Tactic.FieldSimp
import Mathlib.Tactic.Positivity
import Mathlib.Tactic.SplitIfs
import Mathlib.Data.Rat.Floor

/-!
# C33-C39, C41-C43, C82: grids, boxes and the permittivity array
-/

namespace Simphox

open Grid

/-! ### Rounding -/

theorem around_near (q : ℚ) : |(around q : ℚ) - q| ≤ 1 / 2 := by
  have h1 := Int.floor_le q
  have h2 := Int.lt_floor_add_one q
  unfold around
  rw [abs_le]
  split_ifs with a b c <;> push_cast <;> constructor <;> linarith

theorem around_int (z : ℤ) : around (z : ℚ) = z := by
  unfold around
  simp

theorem pyInt_nonneg {q : ℚ} (h : 0 ≤ q) : pyInt q = ⌊q⌋ := if_pos h

/-! ### C41 boxes -/

/-- C41: for all boxes: every move keeps size, spacing and material; `align` makes the centres
coincide; `halign`/`valign` with a number put the chosen edge there; with a box and
`opposite = False` the same edges coincide, with `opposite = True` the chosen edge touches the other
box's opposite edge; the other coordinate is unchanged. -/
theorem C41_box_alignment (b c : Box) (dx dy p cx cy : ℚ) (first opposite : Bool) (r : Box.Ref) :
    (∀ b' ∈ [b.translate dx dy, b.align cx cy, b.halign r first opposite, b.valign r first opposite],
      b'.sizeX = b.sizeX ∧ b'.sizeY = b.sizeY ∧ b'.spacing = b.spacing ∧ b'.eps = b.eps) ∧
    ((b.translate dx dy).minX = b.minX + dx ∧ (b.translate dx dy).minY = b.minY + dy) ∧
    ((b.align cx cy).centerX = cx ∧ (b.align cx cy).centerY = cy) ∧
    ((b.halign r first opposite).minY = b.minY ∧ (b.valign r first opposite).minX = b.minX) ∧
    ((b.halign (.num p) true opposite).minX = p ∧ (b.halign (.num p) false opposite).maxX = p ∧
      (b.valign (.num p) true opposite).minY = p ∧ (b.valign (.num p) false opposite).maxY = p) ∧
    ((b.halign (.box c) true true).minX = c.maxX ∧ (b.halign (.box c) false true).maxX = c.minX ∧
      (b.halign (.box c) true false).minX = c.minX ∧ (b.halign (.box c) false false).maxX = c.maxX) ∧
    ((b.valign (.box c) true true).minY = c.maxY ∧ (b.valign (.box c) false true).maxY = c.minY ∧
      (b.valign (.box c) true false).minY = c.minY ∧ (b.valign (.box c) false false).maxY = c.maxY) := by
  refine ⟨?_, ⟨rfl, rfl⟩, ⟨?_, ?_⟩, ⟨?_, ?_⟩, ⟨?_, ?_, ?_, ?_⟩, ⟨?_, ?_, ?_, ?_⟩, ⟨?_, ?_, ?_, ?_⟩⟩
  · intro b' hb'
    simp only [List.mem_cons, List.not_mem_nil, or_false] at hb'
    rcases hb' with rfl | rfl | rfl | rfl <;> exact ⟨rfl, rfl, rfl, rfl⟩
  all_goals simp [Box.align, Box.translate, Box.centerX, Box.centerY, Box.halign, Box.valign, Box.maxX,
    Box.maxY]
  all_goals try ring

/-! ### C33, C34 set_eps -/

/-- Lower pixel index of a box along one axis: round the centre, step back half the rounded size. -/
def loPixel (x s dx : ℚ) : ℤ := around (x / dx) - around (s / dx) / 2
/-- Upper (exclusive) pixel index. -/
def hiPixel (x s dx : ℚ) : ℤ := loPixel x s dx + around (s / dx)

/-- Specification: the pixels of a box along one axis of the grid: for a box thicker than half a
pixel, those with `lo ≤ k < hi`; for a flat box the single pixel at the rounded centre; on an axis the
grid does not have, the only pixel `0`. -/
def InBoxAxis (g : Grid) (ax : ℕ) (x s : ℚ) (k : ℕ) : Prop :=
  match g.spacing[ax]? with
  | some dx => if 0 < around (s / dx) then loPixel x s dx ≤ k ∧ (k : ℤ) < hiPixel x s dx
               else (k : ℤ) = around (x / dx)
  | none => k = 0

/-- Specification: the rounded box lies inside the grid along an axis. -/
def FitsAxis (g : Grid) (ax : ℕ) (x s : ℚ) : Prop :=
  match g.spacing[ax]? with
  | some dx => if 0 < around (s / dx) then 0 ≤ loPixel x s dx ∧ hiPixel x s dx ≤ g.shape3 ax
               else 0 ≤ around (x / dx) ∧ around (x / dx) < g.shape3 ax
  | none => True

/-- Specification: the box may stick out at the upper end of the axis, but not at the lower end. -/
def ClipsAbove (g : Grid) (ax : ℕ) (x s : ℚ) : Prop :=
  match g.spacing[ax]? with
  | some dx => if 0 < around (s / dx) then 0 ≤ loPixel x s dx
               else 0 ≤ around (x / dx) ∧ around (x / dx) < g.shape3 ax
  | none => True

/-- A pixel of the grid. -/
def InGrid (g : Grid) (p : Idx3) : Prop := p.1 < g.shape3 0 ∧ p.2.1 < g.shape3 1 ∧ p.2.2 < g.shape3 2

/-- A grid whose lists have one entry per axis. -/
def Grid.Consistent (g : Grid) : Prop := g.spacing.length = g.ndim ∧ g.shape.length = g.ndim ∧ g.ndim ≤ 3

instance (g : Grid) : Decidable g.Consistent := by unfold Grid.Consistent; infer_instance
instance (g : Grid) (p : Idx3) : Decidable (InGrid g p) := by unfold InGrid; infer_instance

/-- The grid after `set_eps`. -/
def afterSet (g : Grid) (c s : V3) (eps : ℚ) : Grid :=
  { g with
    eps := fun p => if g.selected (g.slice3 c s) p then eps else g.eps p
    epsShape := squeeze [g.shape3 0, g.shape3 1, g.shape3 2] }

theorem setEps_eq (g : Grid) (c s : V3) (eps : ℚ) (hv : g.validIdx (g.slice3 c s) = true) :
    g.setEps c s eps = .ok (afterSet g c s eps) := by
  simp only [Grid.setEps, hv, if_true, afterSet]

theorem around_zero : around 0 = 0 := by simpa using around_int 0

theorem sliceAxis_correct (g : Grid) (hg : g.Consistent) (ax : ℕ) (x s : ℚ)
    (h : ClipsAbove g ax x s) :
    (g.sliceAxis ax x s).valid (g.shape3 ax) = true ∧
    ∀ k, k < g.shape3 ax → ((g.sliceAxis ax x s).selects (g.shape3 ax) k = true ↔ InBoxAxis g ax x s k) := by
  unfold ClipsAbove at h
  unfold InBoxAxis
  rcases hax : g.spacing[ax]? with _ | dx
  · have hn : g.shape3 ax = 1 := by
      unfold Grid.shape3
      rw [List.getElem?_eq_none_iff] at hax
      have h1 := hg.1; have h2 := hg.2.1
      rw [List.getD_eq_getElem?_getD, List.getElem?_eq_none (by omega)]; rfl
    simp only [Grid.sliceAxis, Grid.scaled, hax, around_zero, lt_self_iff_false, if_false, hn]
    refine ⟨by decide, fun k hk => ?_⟩
    have : k = 0 := by omega
    subst this
    simp [AxisIndex.selects]
  · rw [hax] at h
    simp only at h
    simp only [Grid.sliceAxis, Grid.scaled, hax]
    split_ifs at h ⊢ with hs
    · refine ⟨rfl, fun k hk => ?_⟩
      simp only [AxisIndex.selects, decide_eq_true_eq, hiPixel]
      have e1 : resolveBound (g.shape3 ax) (loPixel x s dx) = min (loPixel x s dx) (g.shape3 ax) := by
        unfold resolveBound; rw [if_neg (by omega)]
      have e2 : resolveBound (g.shape3 ax) (loPixel x s dx + around (s / dx)) =
          min (loPixel x s dx + around (s / dx)) (g.shape3 ax) := by
        unfold resolveBound; rw [if_neg (by omega)]
      show resolveBound (g.shape3 ax) (loPixel x s dx) ≤ k ∧
        (k : ℤ) < resolveBound (g.shape3 ax) (loPixel x s dx + around (s / dx)) ↔ _
      rw [e1, e2]
      omega
    · refine ⟨?_, fun k hk => ?_⟩
      · simp only [AxisIndex.valid, decide_eq_true_eq]; omega
      · simp only [AxisIndex.selects, decide_eq_true_eq]
        rw [if_neg (by omega)]

theorem setEps_clips (g : Grid) (hg : g.Consistent) (c s : V3) (eps : ℚ)
    (hx : ClipsAbove g 0 c.x s.x) (hy : ClipsAbove g 1 c.y s.y) (hz : ClipsAbove g 2 c.z s.z) :
    ∃ g', g.setEps c s eps = .ok g' ∧ g'.shape = g.shape ∧ g'.spacing = g.spacing ∧
      g'.ndim = g.ndim ∧ g'.size = g.size ∧
      g'.epsShape = squeeze [g.shape3 0, g.shape3 1, g.shape3 2] ∧
      ∀ p, InGrid g p →
        ((InBoxAxis g 0 c.x s.x p.1 ∧ InBoxAxis g 1 c.y s.y p.2.1 ∧ InBoxAxis g 2 c.z s.z p.2.2 →
          g'.eps p = eps) ∧
         (¬ (InBoxAxis g 0 c.x s.x p.1 ∧ InBoxAxis g 1 c.y s.y p.2.1 ∧ InBoxAxis g 2 c.z s.z p.2.2) →
          g'.eps p = g.eps p)) := by
  obtain ⟨v0, s0⟩ := sliceAxis_correct g hg 0 _ _ hx
  obtain ⟨v1, s1⟩ := sliceAxis_correct g hg 1 _ _ hy
  obtain ⟨v2, s2⟩ := sliceAxis_correct g hg 2 _ _ hz
  have hv : g.validIdx (g.slice3 c s) = true := by
    simp [Grid.validIdx, Grid.slice3, v0, v1, v2]
  refine ⟨_, setEps_eq g c s eps hv, rfl, rfl, rfl, rfl, rfl, ?_⟩
  rintro ⟨i, j, k⟩ ⟨hi, hj, hk⟩
  have hsel : g.selected (g.slice3 c s) (i, j, k) = true ↔
      InBoxAxis g 0 c.x s.x i ∧ InBoxAxis g 1 c.y s.y j ∧ InBoxAxis g 2 c.z s.z k := by
    simp only [Grid.selected, Grid.slice3, Bool.and_eq_true]
    rw [s0 i hi, s1 j hj, s2 k hk, and_assoc]
  refine ⟨fun h => ?_, fun h => ?_⟩
  · simp only [afterSet, hsel.2 h, if_true]
  · have : g.selected (g.slice3 c s) (i, j, k) ≠ true := fun h' => h (hsel.1 h')
    simp only [afterSet, this]; rfl

theorem FitsAxis.clips {g : Grid} {ax : ℕ} {x s : ℚ} (h : FitsAxis g ax x s) : ClipsAbove g ax x s := by
  unfold FitsAxis ClipsAbove at *
  rcases hsp : g.spacing[ax]? with _ | dx
  · trivial
  · rw [hsp] at h
    simp only at h ⊢
    split_ifs at h ⊢
    · exact h.1
    · exact h

theorem squeeze_shape (g : Grid) (hg : g.Consistent) (h1 : ∀ n ∈ g.shape, n ≠ 1) :
    squeeze [g.shape3 0, g.shape3 1, g.shape3 2] = g.shape := by
  obtain ⟨-, hs, hn⟩ := hg
  rcases hsh : g.shape with _ | ⟨a, _ | ⟨b, _ | ⟨c, _ | ⟨d, l⟩⟩⟩⟩
  · simp [squeeze, Grid.shape3, hsh]
  · rw [hsh] at h1; simp [squeeze, Grid.shape3, hsh, h1]
  · rw [hsh] at h1; simp [squeeze, Grid.shape3, hsh, h1]
  · rw [hsh] at h1; simp [squeeze, Grid.shape3, hsh, h1]
  · rw [hsh] at hs; simp at hs; omega

/-- C33: on every grid (1d, 2d, 3d) with more than one pixel per axis, for every box whose rounded
extent lies in the grid: exactly the pixels of the box get `eps`, all others keep their value, and
the array keeps the grid's shape. -/
theorem C33_set_eps_exact (g : Grid) (hg : g.Consistent) (h1 : ∀ n ∈ g.shape, n ≠ 1) (c s : V3) (eps : ℚ)
    (hx : FitsAxis g 0 c.x s.x) (hy : FitsAxis g 1 c.y s.y) (hz : FitsAxis g 2 c.z s.z) :
    ∃ g', g.setEps c s eps = .ok g' ∧ g'.epsShape = g.shape ∧ g'.shape = g.shape ∧
      ∀ p, InGrid g p →
        ((InBoxAxis g 0 c.x s.x p.1 ∧ InBoxAxis g 1 c.y s.y p.2.1 ∧ InBoxAxis g 2 c.z s.z p.2.2 →
          g'.eps p = eps) ∧
         (¬ (InBoxAxis g 0 c.x s.x p.1 ∧ InBoxAxis g 1 c.y s.y p.2.1 ∧ InBoxAxis g 2 c.z s.z p.2.2) →
          g'.eps p = g.eps p)) := by
  obtain ⟨g', h, e1, -, -, -, e2, e3⟩ := setEps_clips g hg c s eps hx.clips hy.clips hz.clips
  exact ⟨g', h, by rw [e2, squeeze_shape g hg h1], e1, e3⟩

/-- C33 (geometry): the pixel range of a box differs from the exact box by at most 1.25 pixels at
either end, has exactly the rounded size, and is exact for boxes on the pixel grid with an even number of pixels:
then a pixel is set iff its lower edge lies in `[centre - size/2, centre + size/2)`. -/
theorem C33_geometry (x s dx : ℚ) (hdx : 0 < dx) :
    |(loPixel x s dx : ℚ) - (x - s / 2) / dx| ≤ 5 / 4 ∧ |(hiPixel x s dx : ℚ) - (x + s / 2) / dx| ≤ 5 / 4 ∧
    hiPixel x s dx - loPixel x s dx = around (s / dx) ∧
    (∀ a m : ℤ, x = a * dx → s = 2 * m * dx → ∀ k : ℤ,
      (loPixel x s dx ≤ k ∧ k < hiPixel x s dx ↔ x - s / 2 ≤ k * dx ∧ k * dx < x + s / 2)) := by
  have hc := abs_le.1 (around_near (x / dx))
  have hs := abs_le.1 (around_near (s / dx))
  have e1 : (x - s / 2) / dx = x / dx - s / dx / 2 := by ring
  have e2 : (x + s / 2) / dx = x / dx + s / dx / 2 := by ring
  have d1 : 2 * (around (s / dx) / 2) ≤ around (s / dx) := by omega
  have d2 : around (s / dx) ≤ 2 * (around (s / dx) / 2) + 1 := by omega
  have d1' : (2 : ℚ) * ((around (s / dx) / 2 : ℤ) : ℚ) ≤ (around (s / dx) : ℚ) := by exact_mod_cast d1
  have d2' : (around (s / dx) : ℚ) ≤ 2 * ((around (s / dx) / 2 : ℤ) : ℚ) + 1 := by exact_mod_cast d2
  refine ⟨?_, ?_, by unfold hiPixel; ring, ?_⟩
  · rw [abs_le, e1]; unfold loPixel
    rw [Int.cast_sub]
    constructor <;> linarith [hc.1, hc.2, hs.1, hs.2]
  · rw [abs_le, e2]; unfold hiPixel loPixel
    rw [Int.cast_add, Int.cast_sub]
    constructor <;> linarith [hc.1, hc.2, hs.1, hs.2]
  · rintro a m rfl rfl k
    have q1 : (a : ℚ) * dx / dx = (a : ℤ) := by field_simp
    have q2 : 2 * (m : ℚ) * dx / dx = ((2 * m : ℤ) : ℚ) := by push_cast; field_simp
    unfold hiPixel loPixel
    rw [q1, q2, around_int, around_int]
    have r1 : (a : ℚ) * dx - 2 * m * dx / 2 = ((a - m : ℤ) : ℚ) * dx := by push_cast; ring
    have r2 : (a : ℚ) * dx + 2 * m * dx / 2 = ((a + m : ℤ) : ℚ) * dx := by push_cast; ring
    rw [r1, r2, mul_le_mul_iff_left₀ hdx, mul_lt_mul_iff_left₀ hdx, Int.cast_le, Int.cast_lt]
    omega

/-- A concrete two dimensional grid of `10 x 8` pixels of width `1/2`. -/
def demoGrid : Grid := ⟨2, [5, 4], [1 / 2, 1 / 2], [10, 8], fun _ => 1, [10, 8]⟩

example : demoGrid.Consistent ∧ (∀ n ∈ demoGrid.shape, n ≠ 1) ∧ FitsAxis demoGrid 0 2 1 ∧
    FitsAxis demoGrid 1 2 1 ∧ FitsAxis demoGrid 2 0 0 := by
  refine ⟨by decide, by decide, ?_, ?_, trivial⟩ <;>
  · norm_num [FitsAxis, demoGrid, loPixel, hiPixel, Grid.shape3, around]

/-- A grid with a one-pixel axis loses that axis: `set_eps` changes the shape of `eps` from
`(10, 1)` to `(10,)`. -/
theorem C33_singleton_axis_dropped :
    ∃ g' : Grid, (⟨2, [10, 1], [1, 1], [10, 1], fun _ => 1, [10, 1]⟩ : Grid).setEps ⟨5, 0, 0⟩ ⟨2, 0, 0⟩ 3 = .ok g' ∧
      g'.epsShape = [10] := by
  exact ⟨_, setEps_eq _ _ _ _ (by decide +kernel), by decide⟩

/-- C34 (partial): a box that sticks out of the grid only at upper ends is clipped correctly: exactly
the pixels of the grid inside the box are set. Missing: boxes crossing a lower boundary, for which the
claim is false (`C34_lower_counterexample`). -/
theorem C34_clip_upper_partial (g : Grid) (hg : g.Consistent) (c s : V3) (eps : ℚ)
    (hx : ClipsAbove g 0 c.x s.x) (hy : ClipsAbove g 1 c.y s.y) (hz : ClipsAbove g 2 c.z s.z) :
    ∃ g', g.setEps c s eps = .ok g' ∧ ∀ p, InGrid g p →
        ((InBoxAxis g 0 c.x s.x p.1 ∧ InBoxAxis g 1 c.y s.y p.2.1 ∧ InBoxAxis g 2 c.z s.z p.2.2 →
          g'.eps p = eps) ∧
         (¬ (InBoxAxis g 0 c.x s.x p.1 ∧ InBoxAxis g 1 c.y s.y p.2.1 ∧ InBoxAxis g 2 c.z s.z p.2.2) →
          g'.eps p = g.eps p)) := by
  obtain ⟨g', h, -, -, -, -, -, e3⟩ := setEps_clips g hg c s eps hx hy hz
  exact ⟨g', h, e3⟩

example : ClipsAbove demoGrid 0 5 2 ∧ ¬ FitsAxis demoGrid 0 5 2 := by
  constructor <;> norm_num [ClipsAbove, FitsAxis, demoGrid, loPixel, hiPixel, Grid.shape3, around]

/-- C34 is false at lower boundaries: on a `10`-pixel axis a box of 4 pixels centred at pixel 1 covers
pixels `-1..2`; the slice `-1:3` is empty and nothing is set. -/
theorem C34_lower_counterexample :
    ∃ (g : Grid) (c s : V3) (g' : Grid), g.Consistent ∧ g.setEps c s 5 = .ok g' ∧
      InGrid g (0, 0, 0) ∧ InBoxAxis g 0 c.x s.x 0 ∧ InBoxAxis g 1 c.y s.y 0 ∧ InBoxAxis g 2 c.z s.z 0 ∧
      g'.eps (0, 0, 0) = 1 := by
  refine ⟨⟨1, [10], [1], [10], fun _ => 1, [10]⟩, ⟨1, 0, 0⟩, ⟨4, 0, 0⟩, _, by decide,
    setEps_eq _ _ _ _ (by decide +kernel), by decide, ?_, ?_, ?_, ?_⟩
  · norm_num [InBoxAxis, loPixel, hiPixel, around]
  · norm_num [InBoxAxis]
  · norm_num [InBoxAxis]
  · decide +kernel

/-! ### C35 mask functions and aliasing -/

/-- The array objects reachable from a grid: `arrays r` is the content of array object `r`, `cur` is
the object `self.eps` refers to, `next` a fresh object. -/
structure EpsHeap where
  arrays : ℕ → Idx3 → ℚ
  cur : ℕ
  next : ℕ

/-- Changes of `eps` through the API, as effects on array objects: `set_eps`, `add` and
`fill(height > 0)` write into the current array (grid.py:100-101, 125, 128, 145-147: `reshape` and
`squeeze` are views); `fill(height ≤ 0)` binds a new array (grid.py:103). -/
inductive EpsOp where
  | write (sel : Idx3 → Bool) (e : ℚ)
  | rebind (e : ℚ)

/-- Effect of an operation. -/
def EpsOp.run (h : EpsHeap) : EpsOp → EpsHeap
  | .write sel e => { h with
      arrays := fun r p => if r = h.cur ∧ sel p = true then e else h.arrays r p }
  | .rebind e => { arrays := fun r => if r = h.next then fun _ => e else h.arrays r
                   cur := h.next
                   next := h.next + 1 }

/-- The closure returned by `grid.mask_fn(size, center)` (grid.py:261-278): it captures a reference to
the array and the 0/1 mask. -/
structure MaskFn where
  ref : ℕ
  mask : Idx3 → ℚ

/-- `mask_fn` (grid.py:275-277). -/
def makeMaskFn (h : EpsHeap) (mask : Idx3 → ℚ) : MaskFn := ⟨h.cur, mask⟩

/-- `lambda rho: jnp.array(rho_init) * (1 - mask) + rho * mask` (grid.py:278), evaluated when the heap
is `h`. -/
def MaskFn.call (f : MaskFn) (h : EpsHeap) (rho : Idx3 → ℚ) : Idx3 → ℚ :=
  fun p => h.arrays f.ref p * (1 - f.mask p) + rho p * f.mask p

/-- All references in use are older than `next`. -/
def EpsHeap.Ok (h : EpsHeap) : Prop := h.cur < h.next

theorem rebind_keeps (ops : List EpsOp) (h : EpsHeap) (r : ℕ) (hr : r < h.next) (hc : h.cur ≠ r) :
    (ops.foldl EpsOp.run h).arrays r = h.arrays r := by
  induction ops generalizing h with
  | nil => rfl
  | cons op ops ih =>
    cases op with
    | write sel e =>
      rw [List.foldl_cons, ih (EpsOp.run h (.write sel e)) hr hc]
      funext p
      simp [EpsOp.run, Ne.symm hc]
    | rebind e =>
      rw [List.foldl_cons, ih (EpsOp.run h (.rebind e)) (show r < h.next + 1 by omega)
        (show h.next ≠ r by omega)]
      simp [EpsOp.run, show r ≠ h.next by omega]

/-- C35 (partial): inside the box (mask 1) the returned function always returns `rho`; outside it
(mask 0) it returns the permittivity at the time of the call to `mask_fn`, provided `eps` was not
written in place in between (that is: no operation, or operations starting with a rebinding `fill`).
Missing: in-place changes, for which the claim is false (`C35_alias_counterexample`). -/
theorem C35_mask_fn_partial (h : EpsHeap) (hok : h.Ok) (mask : Idx3 → ℚ) (ops : List EpsOp)
    (rho : Idx3 → ℚ) (p : Idx3) :
    (mask p = 1 → (makeMaskFn h mask).call (ops.foldl EpsOp.run h) rho p = rho p) ∧
    (mask p = 0 → (ops = [] ∨ ∃ e ops', ops = .rebind e :: ops') →
      (makeMaskFn h mask).call (ops.foldl EpsOp.run h) rho p = h.arrays h.cur p) := by
  constructor
  · intro hm; simp [MaskFn.call, makeMaskFn, hm]
  · rintro hm (rfl | ⟨e, ops', rfl⟩)
    · simp [MaskFn.call, makeMaskFn, hm]
    · unfold EpsHeap.Ok at hok
      have := rebind_keeps ops' (EpsOp.run h (.rebind e)) h.cur
        (show h.cur < h.next + 1 by omega) (show h.next ≠ h.cur by omega)
      rw [List.foldl_cons]
      simp only [MaskFn.call, makeMaskFn, hm, this]
      simp [EpsOp.run, show h.cur ≠ h.next by omega]

/-- C35 with the mask the grid itself computes (partial): for a box of `center` `c` and `size` `s` that
does not stick out at the lower end of the grid, the function `mask_fn` returns gives `rho` exactly on
the pixels of the box and the permittivity at the time of the call on all other pixels. Missing: boxes
beyond the lower end (C34) and in-place changes (`C35_alias_counterexample`). -/
theorem C35_mask_box_partial (g : Grid) (hg : g.Consistent) (c s : V3) (h : EpsHeap) (hok : h.Ok)
    (hx : ClipsAbove g 0 c.x s.x) (hy : ClipsAbove g 1 c.y s.y) (hz : ClipsAbove g 2 c.z s.z)
    (ops : List EpsOp) (hops : ops = [] ∨ ∃ e ops', ops = .rebind e :: ops') (rho : Idx3 → ℚ) :
    ∃ mask, g.mask c s = .ok mask ∧ ∀ p, InGrid g p →
      (InBoxAxis g 0 c.x s.x p.1 ∧ InBoxAxis g 1 c.y s.y p.2.1 ∧ InBoxAxis g 2 c.z s.z p.2.2 →
        (makeMaskFn h mask).call (ops.foldl EpsOp.run h) rho p = rho p) ∧
      (¬ (InBoxAxis g 0 c.x s.x p.1 ∧ InBoxAxis g 1 c.y s.y p.2.1 ∧ InBoxAxis g 2 c.z s.z p.2.2) →
        (makeMaskFn h mask).call (ops.foldl EpsOp.run h) rho p = h.arrays h.cur p) := by
  obtain ⟨v0, s0⟩ := sliceAxis_correct g hg 0 _ _ hx
  obtain ⟨v1, s1⟩ := sliceAxis_correct g hg 1 _ _ hy
  obtain ⟨v2, s2⟩ := sliceAxis_correct g hg 2 _ _ hz
  have hv : g.validIdx (g.slice3 c s) = true := by
    simp [Grid.validIdx, Grid.slice3, v0, v1, v2]
  refine ⟨fun p => if g.selected (g.slice3 c s) p then 1 else 0, by simp only [Grid.mask, hv, if_true], ?_⟩
  rintro ⟨i, j, k⟩ ⟨hi, hj, hk⟩
  have hsel : g.selected (g.slice3 c s) (i, j, k) = true ↔
      InBoxAxis g 0 c.x s.x i ∧ InBoxAxis g 1 c.y s.y j ∧ InBoxAxis g 2 c.z s.z k := by
    simp only [Grid.selected, Grid.slice3, Bool.and_eq_true]
    rw [s0 i hi, s1 j hj, s2 k hk, and_assoc]
  have main := C35_mask_fn_partial h hok (fun p => if g.selected (g.slice3 c s) p then 1 else 0) ops rho (i, j, k)
  refine ⟨fun hb => main.1 ?_, fun hb => main.2 ?_ hops⟩
  · simp only [hsel.2 hb, if_true]
  · have : g.selected (g.slice3 c s) (i, j, k) ≠ true := fun h' => hb (hsel.1 h')
    simp only [this]; rfl

/-- C35 is false when `eps` is written in place after `mask_fn`: the value outside the box becomes
the new one. -/
theorem C35_alias_counterexample :
    ∃ (h : EpsHeap) (mask : Idx3 → ℚ) (op : EpsOp) (rho : Idx3 → ℚ) (p : Idx3), h.Ok ∧ mask p = 0 ∧
      (makeMaskFn h mask).call (op.run h) rho p ≠ h.arrays h.cur p := by
  refine ⟨⟨fun _ _ => 1, 0, 1⟩, fun _ => 0, .write (fun _ => true) 12, fun _ => 7, (0, 0, 0), ?_, rfl, ?_⟩
  · show 0 < 1; norm_num
  · norm_num [MaskFn.call, makeMaskFn, EpsOp.run]

/-- Mask of one `Box` on a two dimensional array (utils.py:115-118). -/
def boxMask (m n : ℕ) (b : Box) (i j : ℕ) : ℚ :=
  if (AxisIndex.range b.minI.1 b.maxI.1).selects m i && (AxisIndex.range b.minI.2 b.maxI.2).selects n j
  then 1 else 0

/-- `get_mask_fn(rho_init, boxes)` for a list of boxes (transform.py:62-74). -/
def getMaskFn (m n : ℕ) (init : ℕ → ℕ → ℚ) (boxes : List Box) (rho : ℕ → ℕ → ℚ) : ℕ → ℕ → ℚ :=
  fun i j =>
    let mk : ℚ := if 0 < (boxes.map fun b => boxMask m n b i j).sum then 1 else 0
    init i j * (1 - mk) + rho i j * mk

/-- C35 for `get_mask_fn`: for any list of boxes with nonnegative lower corners and any `rho`: a pixel
covered by some box gets `rho`, every other pixel the initial value. -/
theorem C35_get_mask_fn (m n : ℕ) (init rho : ℕ → ℕ → ℚ) (boxes : List Box)
    (hb : ∀ b ∈ boxes, 0 ≤ b.minI.1 ∧ 0 ≤ b.minI.2 ∧ 0 ≤ b.maxI.1 ∧ 0 ≤ b.maxI.2) (i j : ℕ)
    (hi : i < m) (hj : j < n) :
    ((∃ b ∈ boxes, b.minI.1 ≤ i ∧ (i : ℤ) < b.maxI.1 ∧ b.minI.2 ≤ j ∧ (j : ℤ) < b.maxI.2) →
      getMaskFn m n init boxes rho i j = rho i j) ∧
    ((¬ ∃ b ∈ boxes, b.minI.1 ≤ i ∧ (i : ℤ) < b.maxI.1 ∧ b.minI.2 ≤ j ∧ (j : ℤ) < b.maxI.2) →
      getMaskFn m n init boxes rho i j = init i j) := by
  have hm : ∀ b ∈ boxes, (b.minI.1 ≤ i ∧ (i : ℤ) < b.maxI.1 ∧ b.minI.2 ≤ j ∧ (j : ℤ) < b.maxI.2 →
      boxMask m n b i j = 1) ∧ (¬ (b.minI.1 ≤ i ∧ (i : ℤ) < b.maxI.1 ∧ b.minI.2 ≤ j ∧ (j : ℤ) < b.maxI.2) →
      boxMask m n b i j = 0) := by
    intro b hbm
    obtain ⟨h1, h2, h3, h4⟩ := hb b hbm
    have e : ((AxisIndex.range b.minI.1 b.maxI.1).selects m i &&
        (AxisIndex.range b.minI.2 b.maxI.2).selects n j) = true ↔
        (b.minI.1 ≤ i ∧ (i : ℤ) < b.maxI.1 ∧ b.minI.2 ≤ j ∧ (j : ℤ) < b.maxI.2) := by
      simp only [AxisIndex.selects, resolveBound, Bool.and_eq_true, decide_eq_true_eq,
        if_neg (not_lt.2 h1), if_neg (not_lt.2 h2), if_neg (not_lt.2 h3), if_neg (not_lt.2 h4)]
      omega
    exact ⟨fun h => by rw [boxMask, if_pos (e.2 h)], fun h => by rw [boxMask, if_neg (fun h' => h (e.1 h'))]⟩
  have h01 : ∀ b ∈ boxes, 0 ≤ boxMask m n b i j := by
    intro b _; unfold boxMask; split_ifs <;> norm_num
  constructor
  · rintro ⟨b, hbm, h⟩
    have h1 := (hm b hbm).1 h
    have : (1 : ℚ) ≤ (boxes.map fun b => boxMask m n b i j).sum := by
      rw [← h1]
      exact List.single_le_sum (by simpa using h01) _ (List.mem_map.2 ⟨b, hbm, rfl⟩)
    unfold getMaskFn
    simp only [if_pos (show 0 < (boxes.map fun b => boxMask m n b i j).sum by linarith)]
    ring
  · intro h
    have : (boxes.map fun b => boxMask m n b i j).sum = 0 := by
      apply List.sum_eq_zero
      intro x hx
      obtain ⟨b, hbm, rfl⟩ := List.mem_map.1 hx
      exact (hm b hbm).2 (fun h' => h ⟨b, hbm, h'⟩)
    unfold getMaskFn
    simp only [this, lt_self_iff_false, if_false]
    ring

/-! ### C36, C37 fill and block_design -/

theorem comp_last_lt (g : Grid) (hg : g.Consistent) (hd : 2 ≤ g.ndim) (p : Idx3) (hp : InGrid g p) :
    comp p (g.ndim - 1) < g.shape3 (g.ndim - 1) := by
  obtain ⟨h0, h1, h2⟩ := hp
  have := hg.2.2
  rcases (show g.ndim = 2 ∨ g.ndim = 3 by omega) with h | h <;> rw [h] <;> simp [comp, h0, h1, h2]

theorem fill_pos (g : Grid) (hg : g.Consistent) (hd : 2 ≤ g.ndim) (hdx : 0 < g.spacing.getLastD 1)
    (height eps : ℚ) (hh : 0 < height) (p : Idx3) (hp : InGrid g p) :
    (g.fill height eps).eps p =
      if (comp p (g.ndim - 1) : ℤ) < ⌊height / g.spacing.getLastD 1⌋ then eps else g.eps p := by
  have hq : 0 ≤ height / g.spacing.getLastD 1 := by positivity
  have hf : 0 ≤ ⌊height / g.spacing.getLastD 1⌋ := Int.floor_nonneg.2 hq
  have hl := comp_last_lt g hg hd p hp
  unfold Grid.fill
  rw [if_pos hh]
  simp only [pyInt_nonneg hq, resolveBound, if_neg (not_lt.2 hf)]
  have : ((comp p (g.ndim - 1) : ℤ) < min ⌊height / g.spacing.getLastD 1⌋ (g.shape3 (g.ndim - 1))) ↔
      (comp p (g.ndim - 1) : ℤ) < ⌊height / g.spacing.getLastD 1⌋ := by omega
  simp only [this]

/-- C36: on 2d and 3d grids, `fill(height > 0)` sets exactly the pixels whose index along the last
axis is below `floor(height / spacing)`; of two such fills the later one wins on the overlap;
`fill(height ≤ 0)` sets every pixel; grid shape and spacing are unchanged. -/
theorem C36_fill_prefix (g : Grid) (hg : g.Consistent) (hd : 2 ≤ g.ndim) (hdx : 0 < g.spacing.getLastD 1)
    (h1 h2 e1 e2 : ℚ) (p : Idx3) (hp : InGrid g p) :
    (0 < h1 → ((comp p (g.ndim - 1) : ℤ) < ⌊h1 / g.spacing.getLastD 1⌋ → (g.fill h1 e1).eps p = e1) ∧
      (⌊h1 / g.spacing.getLastD 1⌋ ≤ (comp p (g.ndim - 1) : ℤ) → (g.fill h1 e1).eps p = g.eps p)) ∧
    (0 < h1 → 0 < h2 → (comp p (g.ndim - 1) : ℤ) < ⌊h2 / g.spacing.getLastD 1⌋ →
      ((g.fill h1 e1).fill h2 e2).eps p = e2) ∧
    (h1 ≤ 0 → (g.fill h1 e1).eps p = e1) ∧
    ((g.fill h1 e1).shape = g.shape ∧ (g.fill h1 e1).spacing = g.spacing ∧ (g.fill h1 e1).ndim = g.ndim) := by
  have hsame : (g.fill h1 e1).shape = g.shape ∧ (g.fill h1 e1).spacing = g.spacing ∧
      (g.fill h1 e1).ndim = g.ndim := by
    unfold Grid.fill; split_ifs <;> exact ⟨rfl, rfl, rfl⟩
  refine ⟨fun hh => ⟨fun hl => ?_, fun hl => ?_⟩, fun hh1 hh2 hl => ?_, fun hh => ?_, hsame⟩
  · rw [fill_pos g hg hd hdx h1 e1 hh p hp, if_pos hl]
  · rw [fill_pos g hg hd hdx h1 e1 hh p hp, if_neg (not_lt.2 hl)]
  · obtain ⟨s1, s2, s3⟩ := hsame
    have hp' : InGrid (g.fill h1 e1) p := by unfold InGrid Grid.shape3; rw [s1]; exact hp
    have hg' : (g.fill h1 e1).Consistent := by unfold Grid.Consistent; rw [s1, s2, s3]; exact hg
    rw [fill_pos _ hg' (by rw [s3]; exact hd) (by rw [s2]; exact hdx) h2 e2 hh2 p hp', if_pos]
    rw [s2, s3]; exact hl
  · unfold Grid.fill; rw [if_neg (not_lt.2 hh)]

example : demoGrid.Consistent ∧ 2 ≤ demoGrid.ndim ∧ 0 < demoGrid.spacing.getLastD 1 ∧
    InGrid demoGrid (3, 2, 0) := by
  refine ⟨by decide, by decide, by norm_num [demoGrid], by decide⟩

theorem setEps_unselected (g g' : Grid) (c s : V3) (e : ℚ) (h : g.setEps c s e = .ok g') (p : Idx3)
    (hp : g.selected (g.slice3 c s) p = false) :
    g'.eps p = g.eps p ∧ g'.shape = g.shape ∧ g'.spacing = g.spacing := by
  by_cases hv : g.validIdx (g.slice3 c s) = true
  · rw [setEps_eq g c s e hv] at h
    injection h with h
    subst h
    exact ⟨by simp [afterSet, hp], rfl, rfl⟩
  · simp only [Grid.setEps, hv] at h
    cases h

/-- A pixel is written by a box: `set_eps` with the box's centre and size selects it. -/
def coveredBy (g : Grid) (b : Box) (p : Idx3) : Bool :=
  g.selected (g.slice3 ⟨b.centerX, b.centerY, 0⟩ ⟨b.sizeX, b.sizeY, 0⟩) p

theorem coveredBy_congr (g g' : Grid) (h1 : g'.shape = g.shape) (h2 : g'.spacing = g.spacing) (b : Box)
    (p : Idx3) : coveredBy g' b p = coveredBy g b p := by
  have e : ∀ ax, g'.shape3 ax = g.shape3 ax := fun ax => by unfold Grid.shape3; rw [h1]
  have e2 : ∀ ax x, g'.scaled ax x = g.scaled ax x := fun ax x => by unfold Grid.scaled; rw [h2]
  simp only [coveredBy, Grid.selected, Grid.slice3, Grid.sliceAxis, e, e2]

theorem setBoxes_uncovered (bs : List Box) (g g' : Grid) (h : g.setBoxes bs = .ok g') (p : Idx3)
    (hp : ∀ b ∈ bs, coveredBy g b p = false) : g'.eps p = g.eps p := by
  induction bs generalizing g with
  | nil => unfold Grid.setBoxes at h; injection h with h; rw [h]
  | cons b bs ih =>
    unfold Grid.setBoxes at h
    rcases h1 : g.setEps ⟨b.centerX, b.centerY, 0⟩ ⟨b.sizeX, b.sizeY, 0⟩ b.eps with e | g1
    · rw [h1] at h; exact absurd h (by intro h; cases h)
    · rw [h1] at h
      replace h : g1.setBoxes bs = .ok g' := h
      obtain ⟨e1, e2, e3⟩ := setEps_unselected g g1 _ _ _ h1 p (hp b (by simp))
      rw [ih g1 h, e1]
      intro b' hb'
      rw [← hp b' (by simp [hb'])]
      exact coveredBy_congr _ _ e2 e3 _ _

/-- C37 (partial): for `rib_y > 0` and a substrate of positive height, every pixel between
`floor(sub_height/dx)` and `floor((sub_height + rib_y)/dx)` along the last axis that no block covers
has the waveguide's permittivity; below it (uncovered) the substrate's. Missing: `sub_height = 0`
(the default), for which the claim is false (`C37_no_substrate_counterexample`). -/
theorem C37_rib_partial (g : Grid) (hg : g.Consistent) (hd : 2 ≤ g.ndim) (hdx : 0 < g.spacing.getLastD 1)
    (wg : Box) (whg subEps h gap : ℚ) (block : Option Box) (sep : ℚ × ℚ) (vertical : Bool) (rib : ℚ)
    (hrib : 0 < rib) (hh : 0 < h) (bs : List Box) (hbs : g.blockBoxes wg whg gap block sep vertical = .ok bs)
    (g' : Grid) (hres : g.blockDesign wg whg subEps h gap block sep vertical rib = .ok g')
    (p : Idx3) (hp : InGrid g p) (hcov : ∀ b ∈ bs, coveredBy g b p = false) :
    (⌊h / g.spacing.getLastD 1⌋ ≤ (comp p (g.ndim - 1) : ℤ) →
      (comp p (g.ndim - 1) : ℤ) < ⌊(h + rib) / g.spacing.getLastD 1⌋ → g'.eps p = wg.eps) ∧
    ((comp p (g.ndim - 1) : ℤ) < ⌊h / g.spacing.getLastD 1⌋ → g'.eps p = subEps) := by
  unfold Grid.blockDesign at hres
  rw [hbs] at hres
  have hres' : (g.blockFill wg.eps subEps h rib).setBoxes bs = .ok g' := hres
  have key : ∀ (a b : ℚ), (g.fill a b).shape = g.shape ∧ (g.fill a b).spacing = g.spacing ∧
      (g.fill a b).ndim = g.ndim := by
    intro a b; unfold Grid.fill; split_ifs <;> exact ⟨rfl, rfl, rfl⟩
  have hbf : g.blockFill wg.eps subEps h rib = (g.fill (rib + h) wg.eps).fill h subEps := by
    unfold Grid.blockFill; rw [if_pos hrib]
  obtain ⟨s1, s2, s3⟩ := key (rib + h) wg.eps
  have hp' : InGrid (g.fill (rib + h) wg.eps) p := by unfold InGrid Grid.shape3; rw [s1]; exact hp
  have hg' : (g.fill (rib + h) wg.eps).Consistent := by unfold Grid.Consistent; rw [s1, s2, s3]; exact hg
  have hfin : g'.eps p = ((g.fill (rib + h) wg.eps).fill h subEps).eps p := by
    rw [setBoxes_uncovered bs _ g' hres' p, hbf]
    intro b hb
    rw [← hcov b hb, hbf]
    have t : ((g.fill (rib + h) wg.eps).fill h subEps).shape = g.shape ∧
        ((g.fill (rib + h) wg.eps).fill h subEps).spacing = g.spacing := by
      rw [← s1, ← s2]
      unfold Grid.fill; split_ifs <;> exact ⟨rfl, rfl⟩
    exact coveredBy_congr _ _ t.1 t.2 _ _
  have f2 := fill_pos _ hg' (by rw [s3]; exact hd) (by rw [s2]; exact hdx) h subEps hh p hp'
  have f1 := fill_pos g hg hd hdx (rib + h) wg.eps (by linarith) p hp
  rw [s2, s3] at f2
  rw [hfin, f2, f1, add_comm rib h]
  constructor
  · intro a b; rw [if_neg (not_lt.2 a), if_pos b]
  · intro a; rw [if_pos a]

/-- C37 is false without a substrate (the default `sub_height = 0`): the second `fill` erases the
rib, whatever the rib height. Every uncovered pixel of the whole grid has the substrate's
permittivity. -/
theorem C37_no_substrate_counterexample (g : Grid)
    (wg : Box) (whg subEps gap : ℚ) (block : Option Box) (sep : ℚ × ℚ) (vertical : Bool) (rib : ℚ)
    (bs : List Box) (hbs : g.blockBoxes wg whg gap block sep vertical = .ok bs)
    (g' : Grid) (hres : g.blockDesign wg whg subEps 0 gap block sep vertical rib = .ok g')
    (p : Idx3) (hcov : ∀ b ∈ bs, coveredBy g b p = false) : g'.eps p = subEps := by
  unfold Grid.blockDesign at hres
  rw [hbs] at hres
  have hres' : (g.blockFill wg.eps subEps 0 rib).setBoxes bs = .ok g' := hres
  have t : (g.blockFill wg.eps subEps 0 rib).shape = g.shape ∧
      (g.blockFill wg.eps subEps 0 rib).spacing = g.spacing ∧
      (g.blockFill wg.eps subEps 0 rib).eps p = subEps := by
    unfold Grid.blockFill
    split_ifs
    · unfold Grid.fill
      simp only [lt_self_iff_false, if_false]
      split_ifs <;> exact ⟨rfl, rfl, trivial⟩
    · unfold Grid.fill
      simp
  rw [setBoxes_uncovered bs _ g' hres' p, t.2.2]
  intro b hb
  rw [← hcov b hb]
  exact coveredBy_congr _ _ t.1 t.2.1 _ _

/-- Non-vacuity: on the demo grid a one-by-one waveguide with substrate height 1 and rib 1. -/
example : (match demoGrid.blockBoxes ⟨1, 1, 0, 0, 1, 12⟩ 0 0 none (0, 0) false with
      | .ok bs => bs.all (fun b => !coveredBy demoGrid b (0, 3, 0)) | .error _ => false) = true ∧
    (match demoGrid.blockDesign ⟨1, 1, 0, 0, 1, 12⟩ 0 2 1 0 none (0, 0) false 1 with
      | .ok g' => decide (g'.eps (0, 3, 0) = 12 ∧ g'.eps (0, 1, 0) = 2) | .error _ => false) = true := by
  constructor <;> decide +kernel

/-! ### C38 add -/

/-- The component's bounds lie in `[0, size_x] x [0, size_y]`. -/
def Inside (g : Grid) (c : Component) : Prop :=
  0 ≤ c.b0 ∧ 0 ≤ c.b1 ∧ c.b2 ≤ g.size.getD 0 0 ∧ c.b3 ≤ g.size.getD 1 0

/-- C38 (partial): a component inside the grid is never rejected, and exactly the following
components are rejected: those with negative minimum `x` whose other three bounds are inside.
Missing: the rejection of every other component that leaves the grid (false, next theorem). -/
theorem C38_add_partial (g : Grid) (c : Component) (eps : ℚ) (z : Option (ℚ × ℚ)) :
    (Inside g c → g.add c eps z ≠ .error .valueError) ∧
    (g.add c eps z = .error .valueError ↔
      c.b0 < 0 ∧ 0 ≤ c.b1 ∧ c.b2 ≤ g.size.getD 0 0 ∧ c.b3 ≤ g.size.getD 1 0) := by
  have h : g.add c eps z = .error .valueError ↔
      c.b0 < 0 ∧ 0 ≤ c.b1 ∧ c.b2 ≤ g.size.getD 0 0 ∧ c.b3 ≤ g.size.getD 1 0 := by
    have e : g.addRejects c = true ↔
        c.b0 < 0 ∧ 0 ≤ c.b1 ∧ c.b2 ≤ g.size.getD 0 0 ∧ c.b3 ≤ g.size.getD 1 0 := by
      simp [Grid.addRejects, and_assoc]
    rw [← e]
    unfold Grid.add
    constructor
    · intro h
      by_contra hr
      rw [if_neg hr] at h
      rcases z with _ | ⟨zmin, t⟩ <;> simp at h <;> split_ifs at h <;> cases h
    · intro h; rw [if_pos h]
  refine ⟨fun hin hbad => ?_, h⟩
  have := h.1 hbad
  exact absurd hin.1 (not_le.2 this.1)

/-- C38 is false: a component that leaves the grid below (negative minimum `y`) or on the right is
accepted. -/
theorem C38_outside_accepted_counterexample :
    ∃ (g : Grid) (c₁ c₂ : Component), ¬ Inside g c₁ ∧ ¬ Inside g c₂ ∧
      (∃ g', g.add c₁ 2 none = .ok g') ∧ ∃ g', g.add c₂ 2 none = .ok g' := by
  refine ⟨demoGrid, ⟨0, -1, 1, 1, fun _ _ => false, 0⟩, ⟨0, 0, 100, 1, fun _ _ => false, 0⟩, ?_, ?_,
    ⟨_, rfl⟩, ⟨_, rfl⟩⟩ <;> norm_num [Inside, demoGrid]

/-! ### C82 extrusion along z -/

/-- C82 (partial): on a 3d grid with equal spacing `d` on all axes, `add` with `0 ≤ zmin`,
`0 ≤ thickness` sets exactly the masked pixels with `floor(zmin/d) ≤ k < floor((zmin+thickness)/d)`.
Missing: anisotropic spacing, for which the claim is false (`C82_anisotropic_counterexample`). -/
theorem C82_add_extrudes_partial (g : Grid) (hd : g.ndim = 3) (d : ℚ) (hd0 : 0 < d)
    (hs : g.spacing = [d, d, d]) (c : Component) (hin : Inside g c) (eps zmin t : ℚ) (hz : 0 ≤ zmin)
    (ht : 0 ≤ t) :
    ∃ g', g.add c eps (some (zmin, t)) = .ok g' ∧ ∀ p, InGrid g p →
      g'.eps p = if c.mask p.1 p.2.1 = true ∧ ⌊zmin / d⌋ ≤ (p.2.2 : ℤ) ∧
        (p.2.2 : ℤ) < ⌊(zmin + t) / d⌋ then eps else g.eps p := by
  have hrej : g.addRejects c = false := by
    simp [Grid.addRejects, hin.1]
  refine ⟨_, by unfold Grid.add; rw [hrej]; simp only [hd]; rfl, ?_⟩
  rintro ⟨i, j, k⟩ hp
  have q1 : 0 ≤ zmin / d := by positivity
  have q2 : 0 ≤ (zmin + t) / d := by positivity
  have f1 := Int.floor_nonneg.2 q1
  have f2 := Int.floor_nonneg.2 q2
  have hk : k < g.shape3 2 := hp.2.2
  simp only [hs, List.getD_cons_zero, List.getD_cons_succ, pyInt_nonneg q1, pyInt_nonneg q2,
    AxisIndex.selects, resolveBound, if_neg (not_lt.2 f1), if_neg (not_lt.2 f2), Bool.and_eq_true,
    decide_eq_true_eq]
  congr 1
  apply propext
  constructor
  · rintro ⟨a, b, c⟩; exact ⟨a, by omega, by omega⟩
  · rintro ⟨a, b, c⟩; exact ⟨a, by omega, by omega⟩

/-- C82 is false for anisotropic spacing: the z indices are computed with the x and y spacings. A
full-mask component with `zmin = 1`, `thickness = 1` on a grid with spacing `(1, 1, 1/2)` should fill
z pixels 2 and 3; the code fills pixel 1. -/
theorem C82_anisotropic_counterexample :
    ∃ (g : Grid) (c : Component) (g' : Grid), g.spacing = [1, 1, 1 / 2] ∧ Inside g c ∧
      g.add c 12 (some (1, 1)) = .ok g' ∧ g'.eps (0, 0, 2) = 1 ∧ g'.eps (0, 0, 3) = 1 ∧
      g'.eps (0, 0, 1) = 12 := by
  refine ⟨⟨3, [4, 4, 4], [1, 1, 1 / 2], [4, 4, 8], fun _ => 1, [4, 4, 8]⟩,
    ⟨0, 0, 4, 4, fun _ _ => true, 0⟩, _, rfl, ?_, rfl, ?_, ?_, ?_⟩
  · norm_num [Inside]
  all_goals norm_num [Grid.shape3, AxisIndex.selects, resolveBound, pyInt]

/-! ### C39 PML-safe placement -/

/-- C39 (partial): if the safe window is nonempty (`2 p ≤ M`), the returned coordinate lies in
`[p, M - p]`, safe coordinates are unchanged and the operation is idempotent. Missing: windows made
empty by the separation (`C39_empty_window_counterexample`); idempotence holds even then. -/
theorem C39_safe_placement_partial (p M x : ℚ) (h : 2 * p ≤ M) :
    (p ≤ safeCoord p M x ∧ safeCoord p M x ≤ M - p) ∧
    (p ≤ x → x ≤ M - p → safeCoord p M x = x) ∧
    safeCoord p M (safeCoord p M x) = safeCoord p M x := by
  unfold safeCoord
  refine ⟨⟨le_min (le_max_right _ _) (by linarith), min_le_right _ _⟩, fun h1 h2 => ?_, ?_⟩
  · rw [max_eq_left h1, min_eq_left h2]
  · rw [max_eq_left (le_min (le_max_right _ _) (by linarith)), min_eq_left (min_le_right _ _)]

theorem C39_idempotent (p M x : ℚ) : safeCoord p M (safeCoord p M x) = safeCoord p M x := by
  rcases le_total (2 * p) M with h | h
  · exact (C39_safe_placement_partial p M x h).2.2
  · unfold safeCoord
    have h1 : ∀ y, min (max y p) (M - p) = M - p := fun y =>
      min_eq_right (le_trans (by linarith) (le_max_right y p))
    rw [h1, h1]

/-- C39 is false on a valid grid whose PML plus separation exceeds half the grid: 20 pixels, 9 PML
pixels (allowed by the constructor), separation 5: every location is moved into the PML. -/
theorem C39_empty_window_counterexample :
    pmlShape [20] [1] (some [9]) = .ok (some [9]) ∧
    ∀ x, safeCoord (safeMargin (some 9) 5 1) (20 - 1) x = 5 ∧ (5 : ℚ) < 9 := by
  refine ⟨?_, fun x => ⟨?_, by norm_num⟩⟩
  · norm_num [pmlShape, pyInt]
  · have : safeMargin (some 9) 5 1 = 14 := by norm_num [safeMargin]
    rw [this]
    unfold safeCoord
    rw [min_eq_right (le_trans (by norm_num) (le_max_right x 14))]
    norm_num

/-! ### C42 grid construction -/

/-- C42: a constructed grid has `round(size/spacing)` pixels on every axis, an `eps` array of that
shape, `n` = product; on an axis with more than one pixel, `pos` has one more entry than there are
cells, the `k`-th being `k * spacing`, starting at 0; and inconsistent numbers of dimensions or an
`eps` array of another shape always raise. -/
theorem C42_construction (size : List ℚ) (spacing : ℚ ⊕ List ℚ) (eps : ℚ ⊕ (List ℕ × (Idx3 → ℚ))) :
    (∀ g, Grid.make size spacing eps = .ok g →
      g.ndim = size.length ∧ g.Consistent ∧ g.epsShape = g.shape ∧ g.size = size ∧
      (∀ ax (hax : ax < size.length), ∃ d, g.spacing[ax]? = some d ∧
        (g.shape.map (Nat.cast (R := ℤ)))[ax]? = some (around (size[ax] / d))) ∧
      g.n = g.shape.prod ∧
      (∀ ax, 1 < g.shape3 ax → ax < g.ndim → (g.pos ax).length = (g.cells ax).length + 1 ∧
        (g.cells ax).length = g.shape3 ax ∧
        ∀ k, k ≤ g.shape3 ax → (g.pos ax)[k]? = some (k * g.spacing.getD ax 1))) ∧
    (∀ l, spacing = .inr l → l.length ≠ size.length → ∃ e, Grid.make size spacing eps = .error e) ∧
    (∀ es a g0, eps = .inr (es, a) → Grid.make size spacing (.inl 1) = .ok g0 → es ≠ g0.shape →
      ∃ e, Grid.make size spacing eps = .error e) := by
  refine ⟨?_, ?_, ?_⟩
  · intro g hg
    unfold Grid.make at hg
    simp only at hg
    generalize hsp : spacingList size spacing = sp at hg
    split_ifs at hg with h1 h2 h3
    have hlen : size.length = sp.length := not_not.1 h1
    have main : ∀ (a : Idx3 → ℚ) (es : List ℕ),
        es = (List.zipWith (fun s d => around (s / d)) size sp).map Int.toNat →
        g = ⟨size.length, size, sp, (List.zipWith (fun s d => around (s / d)) size sp).map Int.toNat, a, es⟩ →
        g.ndim = size.length ∧ g.Consistent ∧ g.epsShape = g.shape ∧ g.size = size ∧
      (∀ ax (hax : ax < size.length), ∃ d, g.spacing[ax]? = some d ∧
        (g.shape.map (Nat.cast (R := ℤ)))[ax]? = some (around (size[ax] / d))) ∧
      g.n = g.shape.prod ∧
      (∀ ax, 1 < g.shape3 ax → ax < g.ndim → (g.pos ax).length = (g.cells ax).length + 1 ∧
        (g.cells ax).length = g.shape3 ax ∧
        ∀ k, k ≤ g.shape3 ax → (g.pos ax)[k]? = some (k * g.spacing.getD ax 1)) := by
      rintro a es rfl rfl
      refine ⟨rfl, ⟨hlen.symm, by simp [hlen], not_lt.1 h2⟩, rfl, rfl, ?_, rfl, ?_⟩
      · intro ax hax
        have hax' : ax < sp.length := by omega
        refine ⟨sp[ax], by simp [hax'], ?_⟩
        have hz : 0 ≤ around (size[ax] / sp[ax]) := by
          by_contra hneg
          apply h3
          rw [List.any_eq_true]
          refine ⟨around (size[ax] / sp[ax]), ?_, by simpa using hneg⟩
          rw [List.mem_iff_getElem]
          refine ⟨ax, by simp; omega, by simp⟩
        simp [hax, hax', hz]
      · intro ax h1 hax
        generalize (⟨size.length, size, sp,
          (List.zipWith (fun s d => around (s / d)) size sp).map Int.toNat, a,
          (List.zipWith (fun s d => around (s / d)) size sp).map Int.toNat⟩ : Grid) = g at h1 hax ⊢
        have hc : g.cells ax = List.replicate (g.shape3 ax) (g.spacing.getD ax 1) := by
          unfold Grid.cells Grid.shape3; rw [if_pos hax]
        have hp : g.pos ax = (g.cells ax).scanl (· + ·) 0 := by
          unfold Grid.pos; rw [if_pos]; rw [hc, List.length_replicate]; exact h1
        refine ⟨by rw [hp, List.length_scanl], by rw [hc, List.length_replicate], fun k hk => ?_⟩
        rw [hp, hc]
        have gen : ∀ (m : ℕ) (d b : ℚ) (k : ℕ), k ≤ m →
            ((List.replicate m d).scanl (· + ·) b)[k]? = some (b + k * d) := by
          intro m
          induction m with
          | zero => intro d b k hk; have : k = 0 := by omega
                    subst this; simp
          | succ m ih =>
            intro d b k hk
            rw [List.replicate_succ, List.scanl_cons]
            cases k with
            | zero => simp
            | succ k =>
              rw [List.getElem?_cons_succ, ih d (b + d) k (by omega)]
              push_cast; congr 1; ring
        rw [gen _ _ _ _ hk, zero_add]
    rcases eps with e | ⟨es, a⟩
    · simp only at hg; injection hg with hg
      exact main _ _ rfl hg.symm
    · simp only at hg
      split_ifs at hg with h4
      injection hg with hg
      exact main _ _ h4.symm hg.symm
  · rintro l rfl hl
    refine ⟨.attributeError, ?_⟩
    unfold Grid.make
    simp only [spacingList]
    simp [Ne.symm hl]
  · rintro es a g0 rfl hg0 hne
    unfold Grid.make at hg0 ⊢
    simp only at hg0 ⊢
    split_ifs at hg0 ⊢ with h1 h2 h3 h4
    · injection hg0 with hg0
      subst hg0
      exact absurd h4.symm hne
    · exact ⟨_, rfl⟩

example : (match Grid.make [5, 4] (.inl (1 / 2)) (.inl 1) with
    | .ok g => decide (g.shape = [10, 8]) | .error _ => false) = true := by decide +kernel

/-! ### C43 PML validation -/

/-- C43 (partial): whenever construction succeeds with a PML, every axis has more than 3 PML pixels
and strictly less than half the (integer-halved) number of pixels. And the hand-over to FDFD is
faithful when the spacing is one on every axis. Missing: other spacings (next theorem). -/
theorem C43_pml_partial (shape : List ℕ) (spacing pml : List ℚ) (ps : List ℤ)
    (hl : shape.length = spacing.length) (h : pmlShape shape spacing (some pml) = .ok (some ps)) :
    (∀ k (hk : k < ps.length), ∃ n, shape[k]? = some n ∧ 3 < ps[k] ∧ ps[k] < (n / 2 : ℕ)) ∧
    ps.length = spacing.length ∧
    ((∀ d ∈ spacing, d = 1) → fromSimgridPml shape spacing (some ps) = .ok (some ps)) := by
  unfold pmlShape at h
  simp only at h
  split_ifs at h with h1 h2
  injection h with h
  injection h with h
  have hps : ps.length = spacing.length := by rw [← h]; simp; omega
  rw [h] at h2
  simp only [Bool.or_eq_true, not_or] at h2
  have c1 : ∀ a ∈ ps, ¬ a ≤ 3 := by
    intro a ha hle
    exact h2.1 (List.any_eq_true.2 ⟨a, ha, by simpa using hle⟩)
  refine ⟨fun k hk => ?_, hps, fun hd => ?_⟩
  · have hk' : k < shape.length := by omega
    refine ⟨shape[k], by simp [hk'], by have := c1 _ (List.getElem_mem hk); omega, ?_⟩
    by_contra hc
    apply h2.2
    rw [List.any_eq_true]
    refine ⟨true, ?_, rfl⟩
    rw [List.mem_iff_getElem]
    refine ⟨k, by simp; omega, ?_⟩
    simp; omega
  · unfold fromSimgridPml pmlShape
    simp only [Option.map_some, List.length_map, hps, ne_eq, not_true_eq_false, if_false]
    have e : List.zipWith (fun a d => pyInt (a / d)) (ps.map fun (z : ℤ) => (z : ℚ)) spacing = ps := by
      apply List.ext_getElem
      · simp; omega
      · intro i h1 h2
        simp only [List.getElem_zipWith, List.getElem_map]
        have : spacing[i]'(by simp at h1; omega) = 1 := hd _ (List.getElem_mem _)
        rw [this, div_one]
        unfold pyInt
        split_ifs <;> simp
    rw [e, if_neg]
    simp only [Bool.or_eq_true, not_or]
    exact h2

/-- C43's hand-over is false for any other spacing, e.g. half-unit pixels: 5 PML pixels become 10. -/
theorem C43_handover_counterexample :
    pmlShape [100] [1 / 2] (some [5 / 2]) = .ok (some [5]) ∧
    fromSimgridPml [100] [1 / 2] (some [5]) = .ok (some [10]) := by
  constructor <;> norm_num [fromSimgridPml, pmlShape, pyInt]

end Simphox
