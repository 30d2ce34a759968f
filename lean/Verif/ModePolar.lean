import Verif.Mode
import Mathlib.Algebra.BigOperators.Field

/-!
# The polarisation of modes: `te_ratio` and its label in `plot_power` (C146)
-/

namespace Simphox

variable {s : Fin 3 → ℕ}

/-! ### Model -/

/-- `np.linalg.norm(np.abs(h)[c].flatten())` (mode.py:400-401). -/
noncomputable def componentNorm (h : VField s) (c : Fin 3) : ℝ := Real.sqrt (∑ i, ‖h c i‖ ^ 2)

/-- The entry that `te_ratio` computes (mode.py:401-402); `none` is `nan` (0/0). -/
noncomputable def teFraction (h : VField s) : Option ℝ :=
  let d := componentNorm h 0 ^ 2 + componentNorm h 1 ^ 2
  if d = 0 then none else some (componentNorm h 0 ^ 2 / d)

/-- `ModeLibrary.te_ratio` (mode.py:396-403); `ndim` is that of the grid. -/
noncomputable def ModeLib.teRatio [∀ a, NeZero (s a)] (L : ModeLib s) (ndim : ℕ) (idx : ℤ) : Except PyError (Option ℝ) :=
  if ndim ≠ 2 then .error .attributeError
  else do return teFraction (← L.h idx)

/-- The polarisation that `plot_power` prints (mode.py:426-428): `np.argmax((te, 1 - te)) > 0`, where `argmax` returns the first
largest index (and that of the first `nan`). -/
noncomputable def polarizationLabel (te : Option ℝ) : String :=
  match te with
  | none => "TM"
  | some t => if t < 1 - t then "TE" else "TM"

/-! ### Specification -/

/-- The energy of a component of the magnetic field. -/
noncomputable def energyH (h : VField s) (c : Fin 3) : ℝ := ∑ i, ‖h c i‖ ^ 2

theorem componentNorm_sq (h : VField s) (c : Fin 3) : componentNorm h c ^ 2 = energyH h c :=
  Real.sq_sqrt (Finset.sum_nonneg fun _ _ => by positivity)

theorem energyH_nonneg (h : VField s) (c : Fin 3) : 0 ≤ energyH h c := Finset.sum_nonneg fun _ _ => by positivity

theorem energyH_eq_zero (h : VField s) (c : Fin 3) : energyH h c = 0 ↔ ∀ i, h c i = 0 := by
  unfold energyH
  rw [Finset.sum_eq_zero_iff_of_nonneg (fun _ _ => by positivity)]
  simp

/-- C146: for every library of a two-dimensional cross section and every mode with a transverse magnetic field, `te_ratio` is the
share of the `x` component in the energy of the transverse magnetic field, a number between 0 and 1. -/
theorem C146_ratio_partial [∀ a, NeZero (s a)] (L : ModeLib s) (idx : ℤ) (h : VField s) (hh : L.h idx = .ok h) (ht : ∃ i, h 0 i ≠ 0 ∨ h 1 i ≠ 0) :
    ∃ t, L.teRatio 2 idx = .ok (some t) ∧ 0 ≤ t ∧ t ≤ 1 ∧ t * (energyH h 0 + energyH h 1) = energyH h 0 ∧
      (1 - t) * (energyH h 0 + energyH h 1) = energyH h 1 := by
  have h0 := energyH_nonneg h 0
  have h1 := energyH_nonneg h 1
  have hd : energyH h 0 + energyH h 1 ≠ 0 := by
    intro hz
    have e0 := (energyH_eq_zero h 0).1 (by linarith)
    have e1 := (energyH_eq_zero h 1).1 (by linarith)
    obtain ⟨i, hi⟩ := ht
    exact hi.elim (fun hi => hi (e0 i)) fun hi => hi (e1 i)
  refine ⟨energyH h 0 / (energyH h 0 + energyH h 1), ?_, by positivity, ?_, by field_simp, by field_simp; ring⟩
  · have ht : teFraction h = some (energyH h 0 / (energyH h 0 + energyH h 1)) := by
      unfold teFraction
      simp only [componentNorm_sq]
      rw [if_neg hd]
    unfold ModeLib.teRatio
    rw [if_neg (by simp), hh, ← ht]
    rfl
  · exact div_le_one_of_le₀ (by linarith) (by linarith)

/-- C146: the polarisation does not depend on the amplitude or phase of the mode. -/
theorem C146_scale_partial (h : VField s) (c : ℂ) (hc : c ≠ 0) : teFraction (c • h) = teFraction h := by
  have e : ∀ k, energyH (c • h) k = ‖c‖ ^ 2 * energyH h k := by
    intro k
    unfold energyH
    rw [Finset.mul_sum]
    refine Finset.sum_congr rfl fun i _ => ?_
    change ‖c * h k i‖ ^ 2 = _
    rw [norm_mul, mul_pow]
  have hn : ‖c‖ ^ 2 ≠ 0 := by simpa using hc
  unfold teFraction
  simp only [componentNorm_sq, e, ← mul_add]
  by_cases hz : energyH h 0 + energyH h 1 = 0
  · simp [hz]
  · rw [if_neg (mul_ne_zero hn hz), if_neg hz, mul_div_mul_left _ _ hn]

/-- C146: transverse electric fields of the library's one-dimensional kind (`e` along `y`, no `h_y`) have ratio 1, transverse
magnetic ones (`h` along `y`) have ratio 0, and only these. -/
theorem C146_pure_partial (h : VField s) :
    (teFraction h = some 1 ↔ (∃ i, h 0 i ≠ 0) ∧ ∀ i, h 1 i = 0) ∧ (teFraction h = some 0 ↔ (∃ i, h 1 i ≠ 0) ∧ ∀ i, h 0 i = 0) ∧
    (teFraction h = none ↔ ∀ i, h 0 i = 0 ∧ h 1 i = 0) := by
  have h0 := energyH_nonneg h 0
  have h1 := energyH_nonneg h 1
  have n0 : (∃ i, h 0 i ≠ 0) ↔ energyH h 0 ≠ 0 := by
    rw [ne_eq, energyH_eq_zero]; push Not; rfl
  have n1 : (∃ i, h 1 i ≠ 0) ↔ energyH h 1 ≠ 0 := by
    rw [ne_eq, energyH_eq_zero]; push Not; rfl
  rw [n0, n1, ← energyH_eq_zero h 0, ← energyH_eq_zero h 1, forall_and, ← energyH_eq_zero h 0, ← energyH_eq_zero h 1]
  unfold teFraction
  simp only [componentNorm_sq]
  by_cases hz : energyH h 0 + energyH h 1 = 0
  · have a : energyH h 0 = 0 := by linarith
    have b : energyH h 1 = 0 := by linarith
    simp [a, b]
  · rw [if_neg hz]
    simp only [Option.some.injEq, reduceCtorEq, false_iff]
    refine ⟨?_, ?_, ?_⟩
    · rw [div_eq_one_iff_eq hz]
      constructor
      · intro h; exact ⟨fun h' => hz (by linarith), by linarith⟩
      · rintro ⟨_, h⟩; linarith
    · rw [div_eq_zero_iff]
      constructor
      · rintro (h | h)
        · exact ⟨fun h' => hz (by linarith), h⟩
        · exact absurd h hz
      · rintro ⟨_, h⟩; exact Or.inl h
    · rintro ⟨a, b⟩
      exact hz (by linarith)

/-- C146: for cross sections that are not two-dimensional it raises. -/
theorem C146_ndim_partial [∀ a, NeZero (s a)] (L : ModeLib s) (ndim : ℕ) (hn : ndim ≠ 2) (idx : ℤ) : L.teRatio ndim idx = .error .attributeError := by
  unfold ModeLib.teRatio
  rw [if_pos hn]

/-- **C146, violated**: the label is the opposite of the ratio for every mode that is not exactly half and half: "TE" is printed
exactly when the TE ratio is below one half. -/
theorem C146_label_counterexample (t : ℝ) : polarizationLabel (some t) = "TE" ↔ t < 1 / 2 := by
  unfold polarizationLabel
  simp only
  split_ifs with h
  · exact ⟨fun _ => by linarith, fun _ => rfl⟩
  · exact ⟨fun h' => absurd h' (by decide), fun h' => absurd (by linarith) h⟩

/-- **C146, violated**: a transverse electric field with ratio 1 is labelled "TM". -/
theorem C146_pure_label_counterexample (h : VField s) (hx : ∃ i, h 0 i ≠ 0) (hy : ∀ i, h 1 i = 0) :
    teFraction h = some 1 ∧ polarizationLabel (teFraction h) = "TM" := by
  have h1 := (C146_pure_partial h).1.2 ⟨hx, hy⟩
  refine ⟨h1, ?_⟩
  rw [h1]
  unfold polarizationLabel
  norm_num

/-- A field of a 2 × 2 cross section that meets the hypotheses. -/
example : ∃ h : VField ![2, 2, 1], (∃ i, h 0 i ≠ 0) ∧ ∀ i, h 1 i = 0 :=
  ⟨fun c _ => if c = 0 then 1 else 0, ⟨fun a => ⟨0, by fin_cases a <;> decide⟩, by simp⟩, by simp⟩

end Simphox
