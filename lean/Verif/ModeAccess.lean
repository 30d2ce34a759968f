import Mathlib.Tactic.FieldSimp
import Verif.ModeProps

/-!
# Numbers (C165) and field components (C166) read off a `ModeLibrary`
-/

namespace Simphox

open Complex

variable {s : Fin 3 → ℕ} [∀ a, NeZero (s a)]

/-! ### Model -/

/-- `ModeLibrary.ns` (mode.py:379-386): `betas / k0`, entry by entry. -/
noncomputable def ModeLib.ns (L : ModeLib s) : List ℝ := L.betas.map (· / L.k0)

/-- `ModeLibrary.dbeta` (mode.py:388-390). -/
noncomputable def ModeLib.dbeta (L : ModeLib s) : Except PyError ℝ := do return (← L.beta 0) - (← L.beta 1)

/-- `ModeLibrary.dn` (mode.py:392-394). -/
noncomputable def ModeLib.dn (L : ModeLib s) : Except PyError ℝ := do return ((← L.beta 0) - (← L.beta 1)) / L.k0

/-- What a caller may pass as `axis`: a Python int, a NumPy integer, a string or a float (mode.py:434, 444). -/
inductive AxisArg where
  | int (k : ℤ)
  | npInt (k : ℤ)
  | str (t : String)
  | float (x : ℚ)
  deriving DecidableEq

/-- `axis in (0, 1, 2, 'x', 'y', 'z')` (mode.py:438): numbers compare by value whatever their type. -/
def AxisArg.known : AxisArg → Bool
  | .int k | .npInt k => k = 0 || k = 1 || k = 2
  | .str t => t = "x" || t = "y" || t = "z"
  | .float x => x = 0 || x = 1 || x = 2

/-- The label `a` (mode.py:440): letters for Python ints, otherwise the argument as it prints. -/
def AxisArg.label : AxisArg → String
  | .int k => ["x", "y", "z"].getD k.toNat ""
  | .npInt k => toString k
  | .str t => t
  | .float x => toString x

/-- The index `axis` used for the component (mode.py:441-442): letters are translated, ints kept; indexing with a float
raises `IndexError`. -/
def AxisArg.index : AxisArg → Except PyError (Fin 3)
  | .int k | .npInt k => if k = 0 then .ok 0 else if k = 1 then .ok 1 else .ok 2
  | .str t => if t = "x" then .ok 0 else if t = "y" then .ok 1 else .ok 2
  | .float _ => .error .indexError

/-- `ModeLibrary._get_field_component(idx, axis, use_h)` (mode.py:434-442); the label is `$h_a$` or `$e_a$`. `squeeze` drops
axes of length one, which changes no entry. The component is read before the index check of lines 436-437, which
therefore never fires (`h` and `e` have checked already). -/
noncomputable def ModeLib.component (L : ModeLib s) (idx : ℤ) (axis : AxisArg) (useH : Bool) :
    Except PyError (SField s × String) := do
  let field ← L.field useH idx
  if idx > (L.betas.length : ℤ) - 1 then .error .valueError
  else if !axis.known then .error .valueError
  else do
    let a ← axis.index
    return (field a, (if useH then "$h_" else "$e_") ++ axis.label ++ "$")

/-- What `plot_field` hands to the plotting routine: an image of the component (`ndim == 2`), or, for one dimensional
libraries, one entry of the squeezed component. -/
inductive Plotted (s : Fin 3 → ℕ) where
  | image (f : SField s) (label : String)
  | curve (f : SField s) (label : String)

/-- `plot_field(ax, idx, axis, use_h, include_n)` (mode.py:444-472) up to the call of the plotting routine. For
`ndim == 1` the component, a vector of pixels, is indexed once more with `axis`: a letter or a float is no index
for an array, an integer picks a single pixel (or none if there are too few), and `plot_field_1d` (viz.py:165)
asks that number for `shape[0]`, an `IndexError`. -/
noncomputable def ModeLib.plotField (L : ModeLib s) (idx : ℤ) (axis : AxisArg) (useH includeN : Bool) : Except PyError (Plotted s) := do
  if includeN then let _ ← L.neff idx
  let (f, label) ← L.component idx axis useH
  match L.modes with
  | .inr _ => return .image f label
  | .inl _ => .error .indexError

/-! ### Specification -/

/-- Axis names a user may write for component `c`. -/
def axisNames : Fin 3 → List AxisArg
  | 0 => [.int 0, .str "x"]
  | 1 => [.int 1, .str "y"]
  | 2 => [.int 2, .str "z"]

/-- The letter of component `c`. -/
def axisLetter : Fin 3 → String := ![ "x", "y", "z"]

/-! ### C165 -/

omit [∀ a, NeZero (s a)] in
theorem ModeLib.beta_get (L : ModeLib s) (i : ℕ) (hi : i < L.betas.length) : L.beta i = .ok L.betas[i] := by
  have h1 : ¬ ((i : ℤ) > (L.betas.length : ℤ) - 1) := by omega
  have h2 : ¬ ((i : ℤ) < -(L.betas.length : ℤ) ∨ (L.betas.length : ℤ) ≤ i) := by omega
  have h3 : ¬ ((i : ℤ) < 0) := by omega
  unfold ModeLib.beta ModeLib.check pyGet
  simp only [h1, if_false]
  change (if (i : ℤ) < -(L.betas.length : ℤ) ∨ (L.betas.length : ℤ) ≤ i then _ else _) = _
  rw [if_neg h2, if_neg h3]
  simp [hi]

omit [∀ a, NeZero (s a)] in
theorem ModeLib.beta_out (L : ModeLib s) (i : ℕ) (hi : L.betas.length ≤ i) : L.beta i = .error .valueError := by
  have h1 : (i : ℤ) > (L.betas.length : ℤ) - 1 := by omega
  unfold ModeLib.beta ModeLib.check
  rw [if_pos h1]
  rfl

omit [∀ a, NeZero (s a)] in
theorem ModeLib.neff_beta (L : ModeLib s) (i : ℤ) : L.neff i = (L.beta i).map (· / L.k0) := by
  unfold ModeLib.neff ModeLib.beta
  cases L.check i with
  | error e => rfl
  | ok j =>
    change (do return (← pyGet L.betas j) / L.k0) = (pyGet L.betas j).map (· / L.k0)
    cases pyGet L.betas j <;> rfl

omit [∀ a, NeZero (s a)] in
/-- C165: for every mode `i < m` of a library, `beta(i)`, `n(i)`, `ns[i]` and `phase(length, i)` describe the same number:
`n(i) = ns[i] = beta(i) / k0` and `phase(length, i) = beta(i) length`; from `m` on all of them raise `ValueError`. -/
theorem C165_accessors (L : ModeLib s) (hk : 0 < L.k0) (length : ℝ) (i : ℕ) :
    (∀ hi : i < L.betas.length,
      L.beta i = .ok L.betas[i] ∧ L.neff i = .ok (L.betas[i] / L.k0) ∧ L.ns[i]? = some (L.betas[i] / L.k0) ∧
        L.phase length i = .ok (L.betas[i] * length)) ∧
    (L.betas.length ≤ i → L.beta i = .error .valueError ∧ L.neff i = .error .valueError ∧
      L.phase length i = .error .valueError ∧ L.ns[i]? = none) := by
  have hk0 := hk.ne'
  constructor
  · intro hi
    have hb := L.beta_get i hi
    have hn : L.neff i = .ok (L.betas[i] / L.k0) := by rw [L.neff_beta, hb]; rfl
    refine ⟨hb, hn, by simp [ModeLib.ns, hi], ?_⟩
    unfold ModeLib.phase
    rw [hn]
    change Except.ok (L.k0 * length * (L.betas[i] / L.k0)) = _
    congr 1
    field_simp
  · intro hi
    have hb := L.beta_out i hi
    have hn : L.neff i = .error .valueError := by rw [L.neff_beta, hb]; rfl
    refine ⟨hb, hn, ?_, by simp [ModeLib.ns, hi]⟩
    unfold ModeLib.phase
    rw [hn]
    rfl

omit [∀ a, NeZero (s a)] in
/-- C165, splitting of the first two modes: `dbeta = beta(0) - beta(1)`, `dn = n(0) - n(1) = dbeta / k0`, and over one beat length
the two modes get exactly one period out of step: `phase(beat, 0) - phase(beat, 1) = 2 pi`. A library with fewer than
two modes raises `ValueError`. -/
theorem C165_splitting (L : ModeLib s) (hk : 0 < L.k0) :
    (∀ (h2 : 1 < L.betas.length),
      L.dbeta = .ok (L.betas[0] - L.betas[1]) ∧ L.dn = .ok (L.betas[0] / L.k0 - L.betas[1] / L.k0) ∧
      (L.betas[0] ≠ L.betas[1] → ∃ beat p0 p1, L.beatLength = .ok beat ∧ L.phase beat 0 = .ok p0 ∧ L.phase beat 1 = .ok p1 ∧
        p0 - p1 = 2 * Real.pi ∧ beat * (L.betas[0] - L.betas[1]) = 2 * Real.pi)) ∧
    (L.betas.length < 2 → L.dbeta = .error .valueError ∧ L.dn = .error .valueError ∧ L.beatLength = .error .valueError) := by
  constructor
  · intro h2
    have b0 := L.beta_get 0 (by omega)
    have b1 := L.beta_get 1 h2
    rw [Nat.cast_zero] at b0
    rw [Nat.cast_one] at b1
    refine ⟨?_, ?_, fun hne => ?_⟩
    · unfold ModeLib.dbeta; rw [b0, b1]; rfl
    · unfold ModeLib.dn; rw [b0, b1, ← sub_div]; rfl
    · have hd : L.betas[0] - L.betas[1] ≠ 0 := sub_ne_zero.2 hne
      refine ⟨2 * Real.pi / (L.betas[0] - L.betas[1]), _, _, ?_,
        by have := ((C165_accessors L hk (2 * Real.pi / (L.betas[0] - L.betas[1])) 0).1 (by omega)).2.2.2; rwa [Nat.cast_zero] at this,
        by have := ((C165_accessors L hk (2 * Real.pi / (L.betas[0] - L.betas[1])) 1).1 h2).2.2.2; rwa [Nat.cast_one] at this, ?_, ?_⟩
      · unfold ModeLib.beatLength; rw [b0, b1]; rfl
      · rw [← sub_mul, mul_comm, div_mul_cancel₀ _ hd]; norm_num
      · rw [div_mul_cancel₀ _ hd]; norm_num
  · intro h2
    have b1 : L.beta 1 = .error .valueError := by have := L.beta_out 1 (by omega); rwa [Nat.cast_one] at this
    by_cases h0 : 0 < L.betas.length
    · have b0 := L.beta_get 0 h0
      rw [Nat.cast_zero] at b0
      refine ⟨?_, ?_, ?_⟩
      · unfold ModeLib.dbeta; rw [b0, b1]; rfl
      · unfold ModeLib.dn; rw [b0, b1]; rfl
      · unfold ModeLib.beatLength; rw [b0, b1]; rfl
    · have b0 := L.beta_out 0 (by omega)
      rw [Nat.cast_zero] at b0
      refine ⟨?_, ?_, ?_⟩
      · unfold ModeLib.dbeta; rw [b0]; rfl
      · unfold ModeLib.dn; rw [b0]; rfl
      · unfold ModeLib.beatLength; rw [b0]; rfl

omit [∀ a, NeZero (s a)] in
/-- C165, phases add up along the waveguide. -/
theorem C165_phase_additive (L : ModeLib s) (hk : 0 < L.k0) (l1 l2 : ℝ) (i : ℕ) (hi : i < L.betas.length) :
    ∃ p1 p2, L.phase l1 i = .ok p1 ∧ L.phase l2 i = .ok p2 ∧ L.phase (l1 + l2) i = .ok (p1 + p2) := by
  refine ⟨_, _, ((C165_accessors L hk l1 i).1 hi).2.2.2, ((C165_accessors L hk l2 i).1 hi).2.2.2, ?_⟩
  rw [((C165_accessors L hk (l1 + l2) i).1 hi).2.2.2]
  congr 1
  ring

/-! ### C166 -/

/-- C166, library side: number and letter name the same component of the same field with the same label; every
other argument raises `ValueError`. -/
theorem C166_component_partial (L : ModeLib s) (idx : ℕ) (hi : idx < L.betas.length) (useH : Bool) (field : VField s)
    (hf : L.field useH idx = .ok field) :
    (∀ c, ∀ a ∈ axisNames c, L.component idx a useH = .ok (field c, (if useH then "$h_" else "$e_") ++ axisLetter c ++ "$")) ∧
    (∀ k : ℤ, (k < 0 ∨ 2 < k) → L.component idx (.int k) useH = .error .valueError) ∧
    (∀ t : String, t ∉ ["x", "y", "z"] → L.component idx (.str t) useH = .error .valueError) := by
  have hix : ¬ ((idx : ℤ) > (L.betas.length : ℤ) - 1) := by omega
  have key : ∀ a : AxisArg, L.component idx a useH = (if !a.known then .error .valueError
      else (a.index).map fun c => (field c, (if useH then "$h_" else "$e_") ++ a.label ++ "$")) := by
    intro a
    unfold ModeLib.component
    rw [hf]
    change (if (idx : ℤ) > (L.betas.length : ℤ) - 1 then _ else _) = _
    rw [if_neg hix]
    cases a.known
    · rfl
    · change (do let c ← a.index; return (field c, (if useH then "$h_" else "$e_") ++ a.label ++ "$")) = _
      cases a.index <;> rfl
  refine ⟨?_, ?_, ?_⟩
  · intro c a ha
    rw [key]
    fin_cases c
    all_goals
      simp only [axisNames, List.mem_cons, List.not_mem_nil, or_false] at ha
      rcases ha with rfl | rfl <;> rfl
  · intro k hk
    rw [key]
    have : AxisArg.known (.int k) = false := by
      simp only [AxisArg.known, Bool.or_eq_false_iff, decide_eq_false_iff_not]
      omega
    rw [this]; rfl
  · intro t ht
    rw [key]
    have : AxisArg.known (.str t) = false := by
      simp only [List.mem_cons, List.not_mem_nil, or_false, not_or] at ht
      simp [AxisArg.known, ht.1, ht.2.1, ht.2.2]
    rw [this]; rfl

/-- C166 on two dimensional cross sections: `plot_field` draws the requested component. -/
theorem C166_plot2d_partial (L : ModeLib s) (modes : List (VField s)) (h2 : L.modes = .inr modes) (hk : 0 < L.k0) (idx : ℕ)
    (hi : idx < L.betas.length) (useH includeN : Bool) (field : VField s)
    (hf : L.field useH idx = .ok field) (c : Fin 3) (a : AxisArg) (ha : a ∈ axisNames c) :
    L.plotField idx a useH includeN = .ok (.image (field c) ((if useH then "$h_" else "$e_") ++ axisLetter c ++ "$")) := by
  have h := (C166_component_partial L idx hi useH field hf).1 c a ha
  have hn := ((C165_accessors L hk 0 idx).1 hi).2.1
  unfold ModeLib.plotField
  rw [h, h2, hn]
  cases includeN <;> rfl

/-- **C166, violated** on one dimensional cross sections: `plot_field` never succeeds, for whatever mode, component and field. -/
theorem C166_plot1d_counterexample (L : ModeLib s) (modes : List (SField s)) (h1 : L.modes = .inl modes) (idx : ℤ)
    (a : AxisArg) (useH includeN : Bool) (p : Plotted s) : L.plotField idx a useH includeN ≠ .ok p := by
  unfold ModeLib.plotField
  rw [h1]
  cases includeN
  · cases L.component idx a useH with
    | error e => intro h; cases h
    | ok q => intro h; cases h
  · cases L.neff idx with
    | error e => intro h; cases h
    | ok b =>
      cases L.component idx a useH with
      | error e => intro h; cases h
      | ok q => intro h; cases h

/-- **C166, violated** for NumPy integers: the component is right, but the label prints the number instead of the letter. -/
theorem C166_npint_counterexample (L : ModeLib s) (idx : ℕ) (hi : idx < L.betas.length) (useH : Bool) (field : VField s)
    (hf : L.field useH idx = .ok field) :
    L.component idx (.npInt 1) useH = .ok (field 1, (if useH then "$h_" else "$e_") ++ "1" ++ "$") ∧ axisLetter 1 = "y" := by
  have hix : ¬ ((idx : ℤ) > (L.betas.length : ℤ) - 1) := by omega
  refine ⟨?_, rfl⟩
  unfold ModeLib.component
  rw [hf]
  change (if (idx : ℤ) > (L.betas.length : ℤ) - 1 then _ else _) = _
  rw [if_neg hix]
  rfl

/-- Nontrivial case for both properties: a slab library with two modes on four pixels. -/
example : let L : ModeLib (shapeOf 4 1 1) := ⟨uniformOps _ (fun _ => 1) (fun _ => 1), 4, fun _ _ => 2, [5, 4.5], .inl [fun _ => 1, fun i => (i 0).val]⟩
    0 < L.k0 ∧ 1 < L.betas.length ∧ L.betas[0]! ≠ L.betas[1]! ∧ L.h 1 = .ok ![0, fun i => ((i 0).val : ℂ), 0] := by
  intro L
  refine ⟨by norm_num [L], by norm_num [L], by norm_num [L], ?_⟩
  rfl

end Simphox
