import Mathlib.Data.Real.Basic
import Mathlib.Data.Real.Sign
import Mathlib.Data.Fintype.Basic
import Mathlib.Data.Fin.VecNotation
import Mathlib.Tactic.FinCases
import Mathlib.Data.Finset.Lattice.Fold
import Mathlib.Order.Interval.Set.Basic
import Mathlib.Tactic.Linarith
import Mathlib.Tactic.FieldSimp
import Mathlib.Tactic.Ring
import Mathlib.Tactic.NormNum
import Mathlib.Tactic.Positivity

/-!
# Plots (C168, C169): `/repo/simphox/viz.py` and the live plots of `fdtd.py`

matplotlib, holoviews and k3d are outside the model. What they are told is modelled: an array and the
rectangle it fills. `Picture.cell` is their documented contract (`imshow` with `origin='lower'` puts row 0 at the
bottom, `hv.Image` of an array puts row 0 at the top; both divide the rectangle into equal cells).
-/

namespace Simphox

/-! ### Model -/

/-- `get_extent_2d(shape, spacing)` (viz.py:71-82): left, right, bottom, top; `spacing` is `None` or 0 for pixels. -/
noncomputable def getExtent2d (nx ny : ℕ) (spacing : Option ℝ) : ℝ × ℝ × ℝ × ℝ :=
  match spacing with
  | none => (0, nx, 0, ny)
  | some d => if d = 0 then (0, nx, 0, ny) else (0, nx * d, 0, ny * d)

/-- What an image routine is given: `rows × cols` values and the rectangle they fill. -/
structure Picture where
  rows : ℕ
  cols : ℕ
  data : ℕ → ℕ → ℝ
  left : ℝ
  right : ℝ
  bottom : ℝ
  top : ℝ
  originLower : Bool

/-- `(x0, x1, y0, y1)` of the cell in row `r` and column `c` (matplotlib `imshow`, holoviews `Image`). -/
noncomputable def Picture.cell (P : Picture) (r c : ℕ) : ℝ × ℝ × ℝ × ℝ :=
  let w := (P.right - P.left) / P.cols
  let h := (P.top - P.bottom) / P.rows
  let k := if P.originLower then r else P.rows - 1 - r
  (P.left + c * w, P.left + (c + 1) * w, P.bottom + k * h, P.bottom + (k + 1) * h)

/-- The image drawn by `plot_eps_2d`, `plot_field_2d` and `plot_power_2d` (viz.py:94-99, 115-125, 235-241) for an
array of `nx × ny` entries: `imshow(a.T, origin='lower', extent=get_extent_2d(a.shape, spacing))`. -/
noncomputable def plot2d (nx ny : ℕ) (a : ℕ → ℕ → ℝ) (spacing : Option ℝ) : Picture :=
  let (l, r, b, t) := getExtent2d nx ny spacing
  ⟨ny, nx, fun row col => a col row, l, r, b, t, true⟩

/-- The image drawn by `hv_field_2d` and `hv_power_2d` (viz.py:186-217), up to the common factor `max |a|`:
`hv.Image(a.T, bounds)` with `extent = get_extent_2d(a.T.shape, spacing)` and
`bounds = (extent[0], extent[2], extent[1], extent[3])`, read by holoviews as left, bottom, right, top. -/
noncomputable def hv2d (nx ny : ℕ) (a : ℕ → ℕ → ℝ) (spacing : Option ℝ) : Picture :=
  let (e0, e1, e2, e3) := getExtent2d ny nx spacing
  ⟨ny, nx, fun row col => a col row, e0, e1, e2, e3, false⟩

/-- What `k3d.volume` is given: values indexed `z, y, x` and bounds `x0 x1 y0 y1 z0 z1`. -/
structure Volume where
  nz : ℕ
  ny : ℕ
  nx : ℕ
  data : ℕ → ℕ → ℕ → ℝ
  bounds : Fin 6 → ℝ

/-- The volume drawn by `plot_power_3d`, `plot_field_3d` and `plot_eps_3d` (viz.py:244-379): `a.transpose((2, 1, 0))`
and the bounds from the shape. -/
noncomputable def plot3d (nx ny nz : ℕ) (a : ℕ → ℕ → ℕ → ℝ) (spacing : ℝ) : Volume :=
  ⟨nz, ny, nx, fun k j i => a i j k, ![0, nx * spacing, 0, ny * spacing, 0, nz * spacing]⟩

/-- Lower corner and upper corner along an axis of voxel `i` of `n` between two bounds (k3d). -/
noncomputable def voxel (lo hi : ℝ) (n i : ℕ) : ℝ × ℝ := (lo + i * ((hi - lo) / n), lo + (i + 1) * ((hi - lo) / n))

section colour
variable {ι : Type} [Fintype ι] [Nonempty ι]

/-- `np.max`. -/
noncomputable def arrayMax (f : ι → ℝ) : ℝ := Finset.univ.sup' Finset.univ_nonempty f

/-- `np.min`. -/
noncomputable def arrayMin (f : ι → ℝ) : ℝ := Finset.univ.inf' Finset.univ_nonempty f

/-- The colour scale of `plot_field_2d` (viz.py:122-124): `vmax = max(f * sign(f.flat[argmax |f|]))`, and
`TwoSlopeNorm(vcenter=0, vmin=-vmax, vmax=vmax)`, which raises `ValueError` (`none`) unless `-vmax < 0 < vmax`. `top` is
the index `argmax` returns. -/
noncomputable def fieldScale (f : ι → ℝ) (top : ι) : Option (ℝ × ℝ) :=
  let vmax := arrayMax fun i => f i * Real.sign (f top)
  if -vmax < 0 ∧ 0 < vmax then some (-vmax, vmax) else none

/-- The permittivity sent to the live plot (fdtd.py:300): `(eps - min) / (max - min)`; `none` is `0 / 0`. -/
noncomputable def vizEps (f : ι → ℝ) : Option (ι → ℝ) :=
  if arrayMax f - arrayMin f = 0 then none else some fun i => (f i - arrayMin f) / (arrayMax f - arrayMin f)

/-- The field sent to the live plot (fdtd.py:301): `re / max(re + eps)`, `re` the real parts; `none` is a
division by zero. -/
noncomputable def vizField (eps : ℝ) (re : ι → ℝ) : Option (ι → ℝ) :=
  if (arrayMax fun i => re i + eps) = 0 then none else some fun i => re i / arrayMax fun i => re i + eps

/-- The power sent to the live plot (fdtd.py:302-303): `p = |f|²`, `p / max(p + eps)`; `mag` are the moduli. -/
noncomputable def vizPower (eps : ℝ) (mag : ι → ℝ) : Option (ι → ℝ) :=
  if (arrayMax fun i => mag i ^ 2 + eps) = 0 then none
  else some fun i => mag i ^ 2 / arrayMax fun i => mag i ^ 2 + eps

end colour

/-! ### Specification -/

/-- Every array entry `a i j` is shown on the square `[i d, (i+1) d] × [j d, (j+1) d]`, and nothing else is shown. -/
structure ShowsInPlace (P : Picture) (nx ny : ℕ) (a : ℕ → ℕ → ℝ) (d : ℝ) : Prop where
  all : ∀ i < nx, ∀ j < ny, ∃ r < P.rows, ∃ c < P.cols, P.data r c = a i j ∧
    P.cell r c = (i * d, (i + 1) * d, j * d, (j + 1) * d)
  only : ∀ r < P.rows, ∀ c < P.cols, ∃ i < nx, ∃ j < ny, P.data r c = a i j ∧
    P.cell r c = (i * d, (i + 1) * d, j * d, (j + 1) * d)

/-- Length unit of a plot: the pixel size if given, otherwise one. -/
noncomputable def plotUnit : Option ℝ → ℝ
  | none => 1
  | some d => if d = 0 then 1 else d

/-! ### C168 -/

theorem getExtent2d_unit (nx ny : ℕ) (sp : Option ℝ) :
    getExtent2d nx ny sp = (0, nx * plotUnit sp, 0, ny * plotUnit sp) := by
  cases sp with
  | none => simp [getExtent2d, plotUnit]
  | some d => by_cases h : d = 0 <;> simp [getExtent2d, plotUnit, h]

theorem plotUnit_ne (sp : Option ℝ) : plotUnit sp ≠ 0 := by
  cases sp with
  | none => simp [plotUnit]
  | some d => by_cases h : d = 0 <;> simp [plotUnit, h]

/-- C168 for the matplotlib plots: every pixel is drawn at its place, in micrometres or pixels. -/
theorem C168_plot2d_partial (nx ny : ℕ) (a : ℕ → ℕ → ℝ) (sp : Option ℝ) :
    ShowsInPlace (plot2d nx ny a sp) nx ny a (plotUnit sp) := by
  have hcell : ∀ r < ny, ∀ c < nx, (plot2d nx ny a sp).cell r c =
      (c * plotUnit sp, (c + 1) * plotUnit sp, r * plotUnit sp, (r + 1) * plotUnit sp) := by
    intro r hr c hc
    have h1 : (nx : ℝ) ≠ 0 := by exact_mod_cast (by omega : nx ≠ 0)
    have h2 : (ny : ℝ) ≠ 0 := by exact_mod_cast (by omega : ny ≠ 0)
    simp only [plot2d, getExtent2d_unit, Picture.cell, if_true, sub_zero, zero_add, mul_div_cancel_left₀ _ h1,
      mul_div_cancel_left₀ _ h2]
  exact ⟨fun i hi j hj => ⟨j, hj, i, hi, rfl, hcell j hj i hi⟩, fun r hr c hc => ⟨c, hc, r, hr, rfl, hcell r hr c hc⟩⟩

/-- C168 for the volume plots: voxel `(i, j, k)` of the array is drawn at `(i, j, k)` times the pixel size. -/
theorem C168_plot3d (nx ny nz : ℕ) (a : ℕ → ℕ → ℕ → ℝ) (d : ℝ) (i j k : ℕ) (hi : i < nx) (hj : j < ny) (hk : k < nz) :
    let V := plot3d nx ny nz a d
    V.data k j i = a i j k ∧ (i < V.nx ∧ j < V.ny ∧ k < V.nz) ∧
      voxel (V.bounds 0) (V.bounds 1) V.nx i = (i * d, (i + 1) * d) ∧
      voxel (V.bounds 2) (V.bounds 3) V.ny j = (j * d, (j + 1) * d) ∧
      voxel (V.bounds 4) (V.bounds 5) V.nz k = (k * d, (k + 1) * d) := by
  have h1 : (nx : ℝ) ≠ 0 := by exact_mod_cast (by omega : nx ≠ 0)
  have h2 : (ny : ℝ) ≠ 0 := by exact_mod_cast (by omega : ny ≠ 0)
  have h3 : (nz : ℝ) ≠ 0 := by exact_mod_cast (by omega : nz ≠ 0)
  refine ⟨rfl, ⟨hi, hj, hk⟩, ?_, ?_, ?_⟩
  · simp [voxel, plot3d, h1]
  · simp [voxel, plot3d, h2]
  · simp [voxel, plot3d, h3]

/-- **C168, violated** by the holoviews plots: for every array that is not square (and not empty) the axes are
exchanged, so no cell has the right size; the picture is not in place, whatever the array. -/
theorem C168_hv_axes_counterexample (nx ny : ℕ) (hx : 0 < nx) (hy : 0 < ny) (hne : nx ≠ ny) (a : ℕ → ℕ → ℝ) (sp : Option ℝ) :
    ¬ ShowsInPlace (hv2d nx ny a sp) nx ny a (plotUnit sp) := by
  intro h
  obtain ⟨r, _, c, _, _, hc⟩ := h.all 0 hx 0 hy
  have h1 : (nx : ℝ) ≠ 0 := by exact_mod_cast (by omega : nx ≠ 0)
  simp only [hv2d, getExtent2d_unit, Picture.cell, sub_zero, zero_add, Prod.mk.injEq, Nat.cast_zero, zero_mul, one_mul] at hc
  have h2 : (ny : ℝ) * plotUnit sp / nx = plotUnit sp := by linarith [hc.1, hc.2.1]
  rw [div_eq_iff h1, mul_comm] at h2
  exact hne (by exact_mod_cast (mul_left_cancel₀ (plotUnit_ne sp) h2).symm)

/-- **C168, violated** by the holoviews plots of square arrays: they are upside down: `a i j` is drawn where
`a i (n - 1 - j)` belongs. -/
theorem C168_hv_flipped_counterexample (n : ℕ) (a : ℕ → ℕ → ℝ) (sp : Option ℝ) (i j : ℕ) (_hi : i < n) (hj : j < n) :
    let P := hv2d n n a sp
    P.data j i = a i j ∧
      P.cell j i = (i * plotUnit sp, (i + 1) * plotUnit sp, (n - 1 - j : ℕ) * plotUnit sp, ((n - 1 - j : ℕ) + 1) * plotUnit sp) := by
  have h1 : (n : ℝ) ≠ 0 := by exact_mod_cast (by omega : n ≠ 0)
  refine ⟨rfl, ?_⟩
  simp only [hv2d, getExtent2d_unit, Picture.cell, Bool.false_eq_true, if_false, sub_zero, zero_add,
    mul_div_cancel_left₀ _ h1]

/-! ### C169 -/

section colour
variable {ι : Type} [Fintype ι] [Nonempty ι]

theorem le_arrayMax (f : ι → ℝ) (i : ι) : f i ≤ arrayMax f := Finset.le_sup' f (Finset.mem_univ i)

theorem arrayMin_le (f : ι → ℝ) (i : ι) : arrayMin f ≤ f i := Finset.inf'_le f (Finset.mem_univ i)

theorem exists_arrayMax (f : ι → ℝ) : ∃ i, arrayMax f = f i := by
  obtain ⟨i, _, h⟩ := Finset.exists_mem_eq_sup' Finset.univ_nonempty f
  exact ⟨i, h⟩

theorem exists_arrayMin (f : ι → ℝ) : ∃ i, arrayMin f = f i := by
  obtain ⟨i, _, h⟩ := Finset.exists_mem_eq_inf' Finset.univ_nonempty f
  exact ⟨i, h⟩

/-- C169, still pictures: the colour scale of `plot_field_2d` is symmetric about zero and reaches exactly as far as the
largest modulus, so every entry is inside it, and one entry is at an end. It exists for every field that is not
identically zero. -/
theorem C169_field_scale_partial (f : ι → ℝ) (top : ι) (htop : ∀ i, |f i| ≤ |f top|) (hne : ∃ i, f i ≠ 0) :
    ∃ v, fieldScale f top = some (-v, v) ∧ v = |f top| ∧ 0 < v ∧ ∀ i, f i ∈ Set.Icc (-v) v := by
  have hpos : 0 < |f top| := by
    obtain ⟨i, hi⟩ := hne
    exact lt_of_lt_of_le (abs_pos.2 hi) (htop i)
  have hsgn : f top * Real.sign (f top) = |f top| := by
    rcases lt_trichotomy (f top) 0 with h | h | h
    · rw [Real.sign_of_neg h, abs_of_neg h]; ring
    · rw [h]; simp
    · rw [Real.sign_of_pos h, abs_of_pos h]; ring
  have hmax : (arrayMax fun i => f i * Real.sign (f top)) = |f top| := by
    apply le_antisymm
    · apply Finset.sup'_le
      intro i _
      refine le_trans (le_abs_self _) ?_
      rw [abs_mul]
      have : |Real.sign (f top)| ≤ 1 := by
        rcases Real.sign_apply_eq (f top) with h | h | h <;> rw [h] <;> norm_num
      calc |f i| * |Real.sign (f top)| ≤ |f i| * 1 := mul_le_mul_of_nonneg_left this (abs_nonneg _)
        _ ≤ |f top| := by rw [mul_one]; exact htop i
    · rw [← hsgn]
      exact le_arrayMax (fun i => f i * Real.sign (f top)) top
  refine ⟨|f top|, ?_, rfl, hpos, fun i => abs_le.1 (htop i)⟩
  unfold fieldScale
  rw [hmax]
  exact if_pos ⟨by linarith, hpos⟩

/-- C169, live power: what is sent lies in `[0, 1)` and keeps the order of the powers, for every field and every
positive regulariser. -/
theorem C169_live_power_partial (eps : ℝ) (heps : 0 < eps) (mag : ι → ℝ) :
    ∃ g, vizPower eps mag = some g ∧ (∀ i, g i ∈ Set.Ico (0 : ℝ) 1) ∧ ∀ i j, mag i ^ 2 ≤ mag j ^ 2 → g i ≤ g j := by
  set m := arrayMax fun i => mag i ^ 2 + eps with hm
  have hle : ∀ i, mag i ^ 2 + eps ≤ m := fun i => le_arrayMax (fun i => mag i ^ 2 + eps) i
  have hpos : 0 < m := by
    obtain ⟨i⟩ := ‹Nonempty ι›
    have := hle i
    have := sq_nonneg (mag i)
    linarith
  refine ⟨fun i => mag i ^ 2 / m, by unfold vizPower; rw [← hm, if_neg hpos.ne'], fun i => ⟨by positivity, ?_⟩, fun i j h => ?_⟩
  · rw [div_lt_one hpos]; linarith [hle i]
  · exact div_le_div_of_nonneg_right h hpos.le

/-- C169, live permittivity: what is sent fills `[0, 1]` for every structure that is not uniform. -/
theorem C169_live_eps_partial (f : ι → ℝ) (hne : ∃ i j, f i ≠ f j) :
    ∃ g, vizEps f = some g ∧ (∀ i, g i ∈ Set.Icc (0 : ℝ) 1) ∧ (∃ i, g i = 0) ∧ (∃ i, g i = 1) ∧
      ∀ i j, f i < f j → g i < g j := by
  have hlt : arrayMin f < arrayMax f := by
    obtain ⟨i, j, hij⟩ := hne
    have := arrayMin_le f i
    have := arrayMin_le f j
    have := le_arrayMax f i
    have := le_arrayMax f j
    rcases lt_or_gt_of_ne hij with h | h <;> linarith
  have hd : 0 < arrayMax f - arrayMin f := by linarith
  refine ⟨_, if_neg hd.ne', fun i => ⟨?_, ?_⟩, ?_, ?_, fun i j h => ?_⟩
  · exact div_nonneg (by linarith [arrayMin_le f i]) hd.le
  · rw [div_le_one hd]; linarith [le_arrayMax f i]
  · obtain ⟨i, hi⟩ := exists_arrayMin f
    exact ⟨i, by rw [← hi, sub_self, zero_div]⟩
  · obtain ⟨i, hi⟩ := exists_arrayMax f
    exact ⟨i, by rw [← hi, div_self hd.ne']⟩
  · exact div_lt_div_of_pos_right (by linarith) hd

/-- **C169, violated**: a uniform permittivity is sent as `0 / 0`, and a field that is zero everywhere has no colour
scale (`ValueError`). -/
theorem C169_uniform_counterexample (x : ℝ) (top : ι) :
    vizEps (fun _ : ι => x) = none ∧ fieldScale (fun _ : ι => 0) top = none := by
  obtain ⟨i, hi⟩ := exists_arrayMax fun _ : ι => x
  obtain ⟨j, hj⟩ := exists_arrayMin fun _ : ι => x
  constructor
  · unfold vizEps; rw [hi, hj]; simp
  · unfold fieldScale
    have : (arrayMax fun _ : ι => (0 : ℝ) * Real.sign 0) = 0 := by
      obtain ⟨i, hi⟩ := exists_arrayMax fun _ : ι => (0 : ℝ) * Real.sign 0
      rw [hi]; simp
    rw [this]; simp

/-- C169, live fields: as long as the most positive value is also the largest in modulus, what is sent lies in `[-1, 1]` up to
the regulariser and has the sign of the field. -/
theorem C169_live_field_partial (eps : ℝ) (heps : 0 < eps) (re : ι → ℝ) (top : ι) (htop : ∀ i, |re i| ≤ re top) :
    ∃ g, vizField eps re = some g ∧ (∀ i, g i ∈ Set.Ioo (-1 : ℝ) 1) ∧ ∀ i, (0 < re i → 0 < g i) ∧ (re i < 0 → g i < 0) := by
  set m := arrayMax fun i => re i + eps with hm
  have hle : ∀ i, re i + eps ≤ m := fun i => le_arrayMax (fun i => re i + eps) i
  have h0 : 0 ≤ re top := (abs_nonneg _).trans (htop top)
  have hpos : 0 < m := by linarith [hle top]
  refine ⟨fun i => re i / m, by unfold vizField; rw [← hm, if_neg hpos.ne'], fun i => ?_, fun i => ⟨fun h => div_pos h hpos, fun h => div_neg_of_neg_of_pos h hpos⟩⟩
  have hi := abs_le.1 (htop i)
  have := hle top
  exact ⟨by rw [lt_div_iff₀ hpos]; linarith, by rw [div_lt_one hpos]; linarith⟩

end colour

/-- **C169, violated** for live fields: the maximum, not the modulus, normalises. A field that is negative everywhere
is sent with its sign flipped and its order reversed, and with modulus above one. -/
theorem C169_live_field_counterexample (eps : ℝ) (heps : 0 < eps) (h1 : eps < 1) :
    ∃ g, vizField eps ![-1, -2] = some g ∧ 1 < g 0 ∧ 2 < g 1 := by
  have hm : (arrayMax fun i => (![-1, -2] : Fin 2 → ℝ) i + eps) = -1 + eps := by
    apply le_antisymm
    · apply Finset.sup'_le
      intro i _
      fin_cases i
      · simp
      · simp; linarith
    · exact le_arrayMax (fun i => (![-1, -2] : Fin 2 → ℝ) i + eps) 0
  have hneg : -1 + eps < 0 := by linarith
  refine ⟨_, by unfold vizField; rw [hm, if_neg hneg.ne], ?_, ?_⟩
  · simp only [Matrix.cons_val_zero]
    rw [lt_div_iff_of_neg hneg]; linarith
  · simp only [Matrix.cons_val_one, Matrix.cons_val_fin_one]
    rw [lt_div_iff_of_neg hneg]; linarith

/-- Nontrivial cases of the hypotheses. -/
example : (∀ i, |(![1, -3, 2] : Fin 3 → ℝ) i| ≤ |(![1, -3, 2] : Fin 3 → ℝ) 1|) ∧
    (∃ i j, (![1, -3, 2] : Fin 3 → ℝ) i ≠ (![1, -3, 2] : Fin 3 → ℝ) j) ∧
    (∀ i, |(![1, -3, 4] : Fin 3 → ℝ) i| ≤ (![1, -3, 4] : Fin 3 → ℝ) 2) := by
  refine ⟨?_, ⟨0, 1, by norm_num⟩, ?_⟩ <;> intro i <;> fin_cases i <;> norm_num [abs_le, Matrix.cons_val_two]

end Simphox
