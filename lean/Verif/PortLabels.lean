import Verif.Sim
import Verif.Grid
import Mathlib.Analysis.SpecialFunctions.Trigonometric.Complex

/-!
# Ports and their planes (C150), labelled results (C151)
-/

namespace Simphox

/-! ### Model -/

/-- `Port` (grid.py:19-44); angles in degrees. -/
structure SimPort where
  x : ℚ
  y : ℚ
  a : ℚ := 0
  w : ℚ := 0
  z : ℚ := 0
  h : ℚ := 0

/-- `np.mod(a, m)` for positive `m`. -/
def npModQ (a m : ℚ) : ℚ := a - m * ⌊a / m⌋

/-- `Port.size` (grid.py:46-50). -/
def SimPort.size (p : SimPort) : Except PyError (Fin 3 → ℚ) :=
  if npModQ p.a 90 ≠ 0 then .error .valueError
  else .ok (if npModQ p.a 180 ≠ 0 then ![p.w, 0, p.h] else ![0, p.w, p.h])

/-- The size given to `SimGrid.modes` by `port_modes` (sim.py:142) and the propagation axis of the resulting cross section
(sim.py:43-51). -/
def SimPort.axis (p : SimPort) (factor : ℚ) : Except PyError (Fin 3) := do
  propAxis ((← p.size) · * factor)

/-! ### Specification -/

/-- The port faces along `x` or `y`: its direction `(cos a, sin a)` is along that axis. -/
def PointsAlong (p : SimPort) (axis : Fin 3) : Prop :=
  (axis = 0 ∧ Real.sin (p.a * Real.pi / 180) = 0) ∨ (axis = 1 ∧ Real.cos (p.a * Real.pi / 180) = 0)

theorem npModQ_eq_zero (a m : ℚ) (hm : 0 < m) : npModQ a m = 0 ↔ ∃ k : ℤ, a = k * m := by
  unfold npModQ
  constructor
  · intro h
    exact ⟨⌊a / m⌋, by linarith⟩
  · rintro ⟨k, rfl⟩
    rw [mul_div_cancel_right₀ _ hm.ne', Int.floor_intCast]
    ring

theorem pointsAlong_zero (p : SimPort) : PointsAlong p 0 ↔ ∃ k : ℤ, p.a = k * 180 := by
  unfold PointsAlong
  simp only [true_and, zero_ne_one, false_and, or_false, Real.sin_eq_zero_iff]
  constructor
  · rintro ⟨k, hk⟩
    refine ⟨k, ?_⟩
    have : ((k : ℝ) * 180 : ℝ) = p.a := by
      have hpi := Real.pi_ne_zero
      field_simp at hk
      linarith
    exact_mod_cast this.symm
  · rintro ⟨k, hk⟩
    refine ⟨k, ?_⟩
    rw [hk]
    push_cast
    ring

theorem pointsAlong_one (p : SimPort) : PointsAlong p 1 ↔ ∃ k : ℤ, p.a = (2 * k + 1) * 90 := by
  unfold PointsAlong
  simp only [true_and, one_ne_zero, false_and, false_or, Real.cos_eq_zero_iff]
  constructor
  · rintro ⟨k, hk⟩
    refine ⟨k, ?_⟩
    have : ((2 * (k : ℝ) + 1) * 90 : ℝ) = p.a := by
      have hpi := Real.pi_ne_zero
      field_simp at hk
      linarith
    exact_mod_cast this.symm
  · rintro ⟨k, hk⟩
    refine ⟨k, ?_⟩
    rw [hk]
    push_cast
    ring

theorem port_cases (p : SimPort) :
    (npModQ p.a 90 = 0 ↔ PointsAlong p 0 ∨ PointsAlong p 1) ∧ (npModQ p.a 180 = 0 ↔ PointsAlong p 0) := by
  rw [npModQ_eq_zero _ _ (by norm_num), npModQ_eq_zero _ _ (by norm_num), pointsAlong_zero, pointsAlong_one]
  refine ⟨⟨?_, ?_⟩, Iff.rfl⟩
  · rintro ⟨k, hk⟩
    obtain ⟨j, rfl | rfl⟩ := Int.even_or_odd' k
    · left; exact ⟨j, by rw [hk]; push_cast; ring⟩
    · right; exact ⟨j, by rw [hk]; push_cast; ring⟩
  · rintro (⟨k, hk⟩ | ⟨k, hk⟩)
    · exact ⟨2 * k, by rw [hk]; push_cast; ring⟩
    · exact ⟨2 * k + 1, by rw [hk]; push_cast; ring⟩

theorem not_both (p : SimPort) (h0 : PointsAlong p 0) (h1 : PointsAlong p 1) : False := by
  have e0 : Real.sin (p.a * Real.pi / 180) = 0 := h0.elim (fun h => h.2) fun h => absurd h.1 (by decide)
  have e1 : Real.cos (p.a * Real.pi / 180) = 0 := h1.elim (fun h => absurd h.1 (by decide)) fun h => h.2
  have := Real.sin_sq_add_cos_sq (p.a * Real.pi / 180)
  rw [e0, e1] at this
  norm_num at this

/-- C150: a port has a plane exactly when it points along `x` or `y`; the plane is perpendicular to its direction, as wide as the
port across and as high as the port. For every port and angle, also negative and beyond a full turn. -/
theorem C150_size_partial (p : SimPort) :
    (PointsAlong p 0 → p.size = .ok ![0, p.w, p.h]) ∧ (PointsAlong p 1 → p.size = .ok ![p.w, 0, p.h]) ∧
    (¬ PointsAlong p 0 → ¬ PointsAlong p 1 → p.size = .error .valueError) := by
  obtain ⟨h90, h180⟩ := port_cases p
  unfold SimPort.size
  refine ⟨fun h => ?_, fun h => ?_, fun h0 h1 => ?_⟩
  · rw [if_neg (not_not.2 (h90.2 (Or.inl h))), if_neg (not_not.2 (h180.2 h))]
  · rw [if_neg (not_not.2 (h90.2 (Or.inr h))), if_pos fun h' => not_both p (h180.1 h') h]
  · rw [if_pos fun h => (h90.1 h).elim h0 h1]

/-- C150: the modes of a port with a width propagate along its direction, for every nonzero size factor. -/
theorem C150_axis_partial (p : SimPort) (hw : p.w ≠ 0) (factor : ℚ) (hf : factor ≠ 0) (axis : Fin 3) (h : PointsAlong p axis) :
    p.axis factor = .ok axis := by
  have hl : List.finRange 3 = [0, 1, 2] := by decide
  obtain ⟨s0, s1, _⟩ := C150_size_partial p
  rcases h with ⟨rfl, h⟩ | ⟨rfl, h⟩
  · unfold SimPort.axis
    rw [s0 (Or.inl ⟨rfl, h⟩)]
    change propAxis (fun i => ![0, p.w, p.h] i * factor) = _
    unfold propAxis
    rw [hl]
    simp [List.filter]
  · unfold SimPort.axis
    rw [s1 (Or.inr ⟨rfl, h⟩)]
    change propAxis (fun i => ![p.w, 0, p.h] i * factor) = _
    unfold propAxis
    rw [hl]
    simp [List.filter, hw, hf]

/-- **C150, violated**: a port without width (the default) that points along `y` gets modes along `x`. -/
theorem C150_default_width_counterexample (p : SimPort) (hw : p.w = 0) (h : PointsAlong p 1) (factor : ℚ) : p.axis factor = .ok 0 := by
  have hl : List.finRange 3 = [0, 1, 2] := by decide
  unfold SimPort.axis
  rw [(C150_size_partial p).2.1 h]
  change propAxis (fun i => ![p.w, 0, p.h] i * factor) = _
  unfold propAxis
  rw [hl]
  simp [List.filter, hw]

/-- Ports at -90° and 450° point along `y`. -/
example : PointsAlong { x := 0, y := 0, a := -90, w := 1 } 1 ∧ PointsAlong { x := 0, y := 0, a := 450, w := 1 } 1 :=
  ⟨(pointsAlong_one _).2 ⟨-1, by norm_num⟩, (pointsAlong_one _).2 ⟨2, by norm_num⟩⟩

/-! ## Labelled results -/

/-- `self.pos[ax]` (grid.py:82-84) of an axis with `n` cells of length `d`: `n + 1` positions, or `[0]` for a single cell. -/
def posAxis (n : ℕ) (d : ℚ) : List ℚ := if 1 < n then (List.range (n + 1)).map fun (k : ℕ) => (k : ℚ) * d else [0]

/-- A coordinate of `decorate` (sim.py:447-449, 459-461): `pos[ax][:-1]`, shifted for the magnetic field, or `[0]`. -/
def coordAxis (n : ℕ) (d : ℚ) (shift : Bool) : List ℚ :=
  if 1 < (posAxis n d).length then (posAxis n d).dropLast.map fun x => if shift then x + d / 2 else x else [0]

/-- `xr.DataArray` with the given dimensions: raises `ValueError` unless every coordinate has the length of its dimension. -/
def dataArrayOk (dims : List ℕ) (coords : List ℕ) : Bool := decide (dims = coords)

/-- The labelled S-parameters, or the error of `decorate` (sim.py:434-440). -/
def decorateSparams {α : Type} (ports : List String) (sparams : List α) : Except PyError (List (String × α)) :=
  if dataArrayOk [sparams.length] [ports.length] then .ok (ports.zip sparams) else .error .valueError

/-- The coordinates of the electric or magnetic field (sim.py:441-462) for an array of shape `(3, fx, fy, fz)` on a grid with `n a`
cells of length `d a` on axis `a` (1 cell on missing axes). -/
def decorateField (n : Fin 3 → ℕ) (d : Fin 3 → ℚ) (fieldShape : Fin 3 → ℕ) (shift : Bool) : Except PyError (Fin 3 → List ℚ) :=
  if dataArrayOk (3 :: List.ofFn fieldShape) (3 :: List.ofFn fun a => (coordAxis (n a) (d a) shift).length)
  then .ok fun a => coordAxis (n a) (d a) shift else .error .valueError

theorem coordAxis_eq (n : ℕ) (hn : 1 < n) (d : ℚ) (shift : Bool) :
    coordAxis n d shift = (List.range n).map fun (k : ℕ) => if shift then ((k : ℚ) + 1 / 2) * d else (k : ℚ) * d := by
  unfold coordAxis posAxis
  rw [if_pos hn, List.length_map, List.length_range, if_pos (by omega), List.range_succ, List.map_append, List.map_cons, List.map_nil,
    List.dropLast_concat, List.map_map]
  apply List.map_congr_left
  intro k _
  simp only [Function.comp_apply]
  split_ifs
  · ring
  · rfl

/-- C151: for every grid (one to three dimensions, any number of cells) the fields of the grid are accepted; cell `k` of an axis with
more than one cell is labelled `k · spacing` for the electric and `(k + 1/2) · spacing` for the magnetic field. -/
theorem C151_fields_partial (n : Fin 3 → ℕ) (hn : ∀ a, 1 ≤ n a) (d : Fin 3 → ℚ) (shift : Bool) :
    ∃ c, decorateField n d n shift = .ok c ∧ ∀ a, (c a).length = n a ∧
      (1 < n a → ∀ k < n a, (c a)[k]? = some (if shift then ((k : ℚ) + 1 / 2) * d a else (k : ℚ) * d a)) ∧ (n a = 1 → c a = [0]) := by
  have hone : ∀ a, n a = 1 → coordAxis (n a) (d a) shift = [0] := by
    intro a ha
    unfold coordAxis posAxis
    rw [ha]
    rfl
  have hlen : ∀ a, (coordAxis (n a) (d a) shift).length = n a := by
    intro a
    rcases (hn a).eq_or_lt with h | h
    · rw [hone a h.symm, ← h]; rfl
    · rw [coordAxis_eq _ h]; simp
  refine ⟨fun a => coordAxis (n a) (d a) shift, ?_, fun a => ⟨hlen a, fun h k hk => ?_, hone a⟩⟩
  · unfold decorateField
    rw [if_pos]
    simp only [hlen, dataArrayOk, decide_true]
  · simp only [coordAxis_eq _ h]
    simp [hk]

/-- C151: one S-parameter per port, in the order of the ports, is labelled with its port. -/
theorem C151_sparams_partial {α : Type} (ports : List String) (s : String → α) :
    decorateSparams ports (ports.map s) = .ok (ports.map fun p => (p, s p)) := by
  unfold decorateSparams dataArrayOk
  rw [if_pos (by simp)]
  congr 1
  induction ports with
  | nil => rfl
  | cons p ports ih => simp only [List.map_cons, List.zip_cons_cons, ih]

/-- **C151, violated**: S-parameters measured for a different number of (port, mode) pairs are refused, and those measured in another
order carry the names of other ports: `decorate` labels by the order of the ports, not by what was measured. -/
theorem C151_order_counterexample {α : Type} (ports measured : List String) (s : String → α) :
    (measured.length ≠ ports.length → decorateSparams ports (measured.map s) = .error .valueError) ∧
    (measured.length = ports.length → decorateSparams ports (measured.map s) = .ok (ports.zip (measured.map s))) ∧
    decorateSparams ["a", "b"] (["b", "a"].map s) = .ok [("a", s "b"), ("b", s "a")] := by
  unfold decorateSparams dataArrayOk
  refine ⟨fun h => ?_, fun h => ?_, rfl⟩
  · rw [if_neg (by simpa using h)]
  · rw [if_pos (by simpa using h)]

/-- A 2D grid of 4 × 3 cells. -/
example : ∃ c, decorateField ![4, 3, 1] ![1 / 10, 1 / 10, 1] ![4, 3, 1] true = .ok c ∧ (c 0)[2]? = some (1 / 4) := by
  obtain ⟨c, h, hc⟩ := C151_fields_partial ![4, 3, 1] (by decide) ![1 / 10, 1 / 10, 1] true
  refine ⟨c, h, ?_⟩
  have := (hc 0).2.1 (by decide) 2 (by decide)
  rw [this]
  norm_num

end Simphox
