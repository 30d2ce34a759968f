import Verif.GridProps
import Mathlib.Analysis.Complex.Norm
import Mathlib.Tactic.FieldSimp
import Mathlib.Tactic.Positivity

/-!
# Line plots and animated modes (C202, C203): `/repo/simphox/viz.py`, `ModeLibrary.evolve_viz`

matplotlib and holoviews are outside the model: the points handed to `ax.plot` or `hv.Curve` are modelled.
-/

namespace Simphox

/-! ### Model -/

/-- The points drawn by `plot_eps_1d` and `plot_field_1d` (viz.py:142-146, 164-168): `x = np.arange(n) * spacing`, which is a `TypeError`
for the default `spacing=None`, against the real parts. -/
def plot1d (xs : List ℂ) (spacing : Option ℝ) : Except PyError (List (ℝ × ℝ)) :=
  match spacing with
  | none => .error .typeError
  | some d => .ok (xs.mapIdx fun i x => (i * d, x.re))

/-- `np.max(np.abs(xs))`. -/
noncomputable def maxAbs : List ℂ → ℝ
  | [] => 0
  | x :: xs => max ‖x‖ (maxAbs xs)

/-- The points of the first curve of `hv_power_1d` (`field = false`, viz.py:198-203) and `hv_field_1d` (`field = true`, viz.py:177-180): the real
parts over the largest modulus, for fields moved from `[-1, 1]` to `[0, 1]`. `none` is the `nan` of `0 / 0`; `np.max` of no values is a
`ValueError`. -/
noncomputable def hv1d (field : Bool) (xs : List ℂ) (spacing : Option ℝ) : Except PyError (List (ℝ × Option ℝ)) :=
  match spacing with
  | none => .error .typeError
  | some d =>
    if xs = [] then .error .valueError
    else .ok (xs.mapIdx fun i x => (i * d,
      if maxAbs xs = 0 then none
      else some (if field then (x.re / maxAbs xs + 1) / 2 else x.re / maxAbs xs)))

/-- `np.linspace(0, stop, num)`. -/
def linspace0 (stop : ℚ) (num : ℤ) : Except PyError (List ℚ) :=
  if num < 0 then .error .valueError
  else .ok ((List.range num.toNat).map fun k : ℕ => if num = 1 then 0 else (k : ℚ) * (stop / (num - 1)))

/-- The lengths at which `evolve_viz(max_length)` shows the fields (mode.py:598-600): `np.linspace(0, max_length, int(max_length / spacing) + 1)`. -/
def evolveFrames (maxLength spacing : ℚ) : Except PyError (List ℚ) := linspace0 maxLength (pyInt (maxLength / spacing) + 1)

/-! ### C202 -/

theorem maxAbs_le {xs : List ℂ} {x : ℂ} (h : x ∈ xs) : ‖x‖ ≤ maxAbs xs := by
  induction xs with
  | nil => simp at h
  | cons a xs ih =>
    rcases List.mem_cons.1 h with rfl | h
    · exact le_max_left _ _
    · exact (ih h).trans (le_max_right _ _)

theorem maxAbs_attained (xs : List ℂ) (h : xs ≠ []) : ∃ x ∈ xs, maxAbs xs = ‖x‖ := by
  induction xs with
  | nil => exact absurd rfl h
  | cons a xs ih =>
    by_cases hx : xs = []
    · subst hx
      refine ⟨a, by simp, ?_⟩
      show max ‖a‖ 0 = _
      simp
    · obtain ⟨x, hm, e⟩ := ih hx
      show ∃ y ∈ a :: xs, max ‖a‖ (maxAbs xs) = ‖y‖
      rcases le_total ‖a‖ (maxAbs xs) with h' | h'
      · exact ⟨x, by simp [hm], by rw [max_eq_right h', e]⟩
      · exact ⟨a, by simp, by rw [max_eq_left h']⟩

theorem maxAbs_pos {xs : List ℂ} (h : ∃ x ∈ xs, x ≠ 0) : 0 < maxAbs xs := by
  obtain ⟨x, hm, hx⟩ := h
  exact (norm_pos_iff.2 hx).trans_le (maxAbs_le hm)

/-- C202, matplotlib: with a spacing `d`, sample `i` is drawn at `(i d, its real part)`, one point per sample; left out (the default), the call raises
`TypeError` whatever the samples. -/
theorem C202_plot (xs : List ℂ) :
    plot1d xs none = .error .typeError ∧
    ∀ d, ∃ pts, plot1d xs (some d) = .ok pts ∧ pts.length = xs.length ∧ ∀ i (h : i < xs.length), pts[i]? = some (i * d, (xs[i]).re) := by
  refine ⟨rfl, fun d => ⟨_, rfl, by simp, fun i h => ?_⟩⟩
  simp [h]

/-- C202, holoviews: for samples that are not all zero, sample `i` is drawn at `x = i d` and at a height in `[-1, 1]` (power) or `[0, 1]` (field) that
is an increasing function of the real part, with zero at 0 (power) or one half (field). For real samples the largest modulus is drawn at the edge of
that range. -/
theorem C202_holoviews (field : Bool) (xs : List ℂ) (hne : ∃ x ∈ xs, x ≠ 0) (d : ℝ) :
    ∃ y : ℕ → ℝ, ∃ pts, hv1d field xs (some d) = .ok pts ∧ pts.length = xs.length ∧
      (∀ i (_ : i < xs.length), pts[i]? = some (i * d, some (y i))) ∧
      (∀ i (_ : i < xs.length), y i ∈ Set.Icc (if field then 0 else -1) (1 : ℝ)) ∧
      (∀ i j (hi : i < xs.length) (hj : j < xs.length), y i ≤ y j ↔ (xs[i]).re ≤ (xs[j]).re) ∧
      (∀ i (hi : i < xs.length), (xs[i]).re = 0 → y i = if field then 1 / 2 else 0) ∧
      ((∀ x ∈ xs, x.im = 0) → ∃ i, ∃ _ : i < xs.length, y i = 1 ∨ y i = if field then 0 else -1) := by
  have hpos := maxAbs_pos hne
  have hx : xs ≠ [] := by rintro rfl; simp at hne
  have hm0 : maxAbs xs ≠ 0 := hpos.ne'
  refine ⟨fun i => if field then ((xs.getD i 0).re / maxAbs xs + 1) / 2 else (xs.getD i 0).re / maxAbs xs,
    xs.mapIdx fun i x => (i * d, some (if field then (x.re / maxAbs xs + 1) / 2 else x.re / maxAbs xs)), ?_, by simp, ?_, ?_, ?_, ?_, ?_⟩
  · simp [hv1d, hx, hm0]
  · intro i h
    simp [h, List.getD_eq_getElem?_getD]
  · intro i h
    have hb : |(xs.getD i 0).re / maxAbs xs| ≤ 1 := by
      rw [abs_div, abs_of_pos hpos, div_le_one hpos]
      refine (Complex.abs_re_le_norm _).trans (maxAbs_le ?_)
      simp [List.getD_eq_getElem?_getD, h]
    obtain ⟨h1, h2⟩ := abs_le.1 hb
    cases field
    · exact ⟨by simpa using h1, by simpa using h2⟩
    · constructor <;> simp only [if_true] <;> linarith
  · intro i j hi hj
    have e : ∀ k (hk : k < xs.length), xs.getD k 0 = xs[k] := fun k hk => by simp [List.getD_eq_getElem?_getD, hk]
    simp only [e i hi, e j hj]
    have hd : (xs[i]).re / maxAbs xs ≤ (xs[j]).re / maxAbs xs ↔ (xs[i]).re ≤ (xs[j]).re := div_le_div_iff_of_pos_right hpos
    rw [← hd]
    cases field
    · simp
    · simp only [if_true]
      constructor <;> intro h <;> linarith
  · intro i hi h
    have e : xs.getD i 0 = xs[i] := by simp [List.getD_eq_getElem?_getD, hi]
    simp only [e, h]
    cases field <;> simp
  · intro him
    obtain ⟨x, hm, e⟩ := maxAbs_attained xs hx
    obtain ⟨i, hi, rfl⟩ := List.mem_iff_getElem.1 hm
    refine ⟨i, hi, ?_⟩
    have e' : xs.getD i 0 = xs[i] := by simp [List.getD_eq_getElem?_getD, hi]
    have hn : ‖xs[i]‖ = |(xs[i]).re| := by
      rw [Complex.abs_re_eq_norm.2 (him _ hm)]
    simp only [e']
    rw [e, hn]
    rw [e, hn] at hpos
    have hr : (xs[i]).re ≠ 0 := fun h => by rw [h] at hpos; simp at hpos
    rcases lt_or_gt_of_ne hr with h | h
    · right
      have q : (xs[i]).re / |(xs[i]).re| = -1 := by rw [abs_of_neg h, div_neg, div_self hr]
      rw [q]
      cases field <;> norm_num
    · left
      have q : (xs[i]).re / |(xs[i]).re| = 1 := by rw [abs_of_pos h, div_self hr]
      rw [q]
      cases field <;> norm_num

/-- C202, the remaining inputs of the holoviews curves: without spacing `TypeError`; no samples `ValueError`; samples that are all zero have no
finite height. -/
theorem C202_degenerate (field : Bool) (xs : List ℂ) :
    hv1d field xs none = .error .typeError ∧ (∀ d, hv1d field [] (some d) = .error .valueError) ∧
    (xs ≠ [] → (∀ x ∈ xs, x = 0) → ∀ d, ∃ pts, hv1d field xs (some d) = .ok pts ∧ ∀ p ∈ pts, p.2 = none) := by
  refine ⟨rfl, fun d => by simp [hv1d], fun hx h0 d => ?_⟩
  have hm : maxAbs xs = 0 := by
    obtain ⟨x, hm, e⟩ := maxAbs_attained xs hx
    rw [e, h0 x hm, norm_zero]
  refine ⟨xs.mapIdx fun i _ => (i * d, none), by simp [hv1d, hx, hm], fun p hp => ?_⟩
  obtain ⟨i, hi, rfl⟩ := List.mem_mapIdx.1 hp
  rfl

example : hv1d true [1, -2] (some 3) = .ok [(0, some (3 / 4)), (3, some 0)] := by
  have : maxAbs [1, -2] = 2 := by
    show max ‖(1 : ℂ)‖ (max ‖(-2 : ℂ)‖ 0) = 2
    simp
  simp [hv1d, this]
  norm_num

/-! ### C203 -/

/-- C203: for a length of at least one cell, the animation starts at 0, ends exactly at `max_length`, and its frames are equally far apart: at least one
and less than two cells. -/
theorem C203_frames (L d : ℚ) (hd : 0 < d) (h : d ≤ L) :
    ∃ (fs : List ℚ) (step : ℚ), evolveFrames L d = .ok fs ∧ (∀ k, k < fs.length → fs[k]? = some ((k : ℚ) * step)) ∧ fs.getLast? = some L ∧
      d ≤ step ∧ step < 2 * d ∧ fs.length = ⌊L / d⌋.toNat + 1 := by
  have hq : 1 ≤ L / d := (one_le_div hd).2 h
  have hf : 1 ≤ ⌊L / d⌋ := Int.le_floor.2 (by simpa using hq)
  have hp : pyInt (L / d) = ⌊L / d⌋ := pyInt_nonneg (by linarith)
  obtain ⟨m, hm⟩ : ∃ m : ℕ, ⌊L / d⌋ = m := ⟨⌊L / d⌋.toNat, by omega⟩
  have hm1 : 1 ≤ m := by omega
  have hle : (m : ℚ) ≤ L / d := by
    have := Int.floor_le (L / d); rw [hm] at this; simpa using this
  have hlt : L / d < m + 1 := by
    have := Int.lt_floor_add_one (L / d); rw [hm] at this; simpa using this
  have hm0 : (0 : ℚ) < m := by exact_mod_cast hm1
  have hm1' : (1 : ℚ) ≤ m := by exact_mod_cast hm1
  have hne : ((m : ℤ) + 1 = 1) = False := by simp; omega
  have hfr : evolveFrames L d = .ok ((List.range (m + 1)).map fun k : ℕ => (k : ℚ) * (L / m)) := by
    unfold evolveFrames linspace0
    rw [hp, hm, if_neg (by omega)]
    congr 1
    rw [show ((m : ℤ) + 1).toNat = m + 1 by omega]
    refine List.map_congr_left fun k _ => ?_
    rw [if_neg (by omega)]
    push_cast
    ring
  refine ⟨_, L / m, hfr, ?_, ?_, ?_, ?_, by simp [hm]⟩
  · intro k hk
    rw [List.length_map, List.length_range] at hk
    simp [hk]
  · rw [List.range_succ, List.map_append, List.map_singleton, List.getLast?_append]
    simp
    field_simp
  · rw [le_div_iff₀ hm0]
    rw [le_div_iff₀ hd] at hle
    linarith
  · rw [div_lt_iff₀ hm0]
    rw [div_lt_iff₀ hd] at hlt
    nlinarith

/-- C203, shorter lengths: less than one cell shows the start only, minus one cell or less has no frames, minus two cells or less is refused. -/
theorem C203_short (L d : ℚ) (hd : 0 < d) :
    (-d < L → L < d → evolveFrames L d = .ok [0]) ∧ (L ≤ -(2 * d) → evolveFrames L d = .error .valueError) ∧
    (-(2 * d) < L → L ≤ -d → evolveFrames L d = .ok []) := by
  have e : ∀ z : ℤ, pyInt (L / d) = z → evolveFrames L d = linspace0 L (z + 1) := fun z h => by unfold evolveFrames; rw [h]
  refine ⟨fun h1 h2 => ?_, fun h1 => ?_, fun h1 h2 => ?_⟩
  · have : pyInt (L / d) = 0 := by
      unfold pyInt
      split_ifs with h
      · rw [Int.floor_eq_zero_iff]
        exact ⟨h, by rwa [div_lt_one hd]⟩
      · rw [Int.ceil_eq_zero_iff]
        refine ⟨?_, (not_le.1 h).le⟩
        rw [lt_div_iff₀ hd]; linarith
    rw [e 0 this]
    simp [linspace0]
  · have hneg : L / d ≤ -2 := by rw [div_le_iff₀ hd]; linarith
    have : pyInt (L / d) ≤ -2 := by
      unfold pyInt
      rw [if_neg (by linarith), Int.ceil_le]
      simpa using hneg
    rw [e _ rfl, linspace0, if_pos (by omega)]
  · have hneg : L / d ≤ -1 := by rw [div_le_iff₀ hd]; linarith
    have hgt : -2 < L / d := by rw [lt_div_iff₀ hd]; linarith
    have : pyInt (L / d) = -1 := by
      unfold pyInt
      rw [if_neg (by linarith), Int.ceil_eq_iff]
      constructor <;> push_cast <;> linarith
    rw [e _ this]
    simp [linspace0]

example : evolveFrames (7 / 2) 1 = .ok [0, 7 / 6, 7 / 3, 7 / 2] := by decide +kernel

end Simphox
