import Verif.SimProps

/-! # Which axis `view_fn` and `profile` use (C40) -/

namespace Simphox

/-- `view_fn(center, size)` up to the choice of the view axis (grid.py:230-239): a size without zero entries is
rejected with `ValueError`. -/
def viewFnAxis (ndim : ℕ) (size : Fin 3 → ℚ) : Except PyError (Fin 3) :=
  if ((List.finRange 3).filter fun i => decide (size i ≠ 0)).length = 3 then .error .valueError
  else .ok (viewAxis ndim size)

theorem finRange_three : List.finRange 3 = [0, 1, 2] := by decide

/-- C40: `profile` uses the first axis of zero size (and raises `IndexError` without one), `view_fn` the last one
among the axes of the grid (and raises `ValueError` if no entry is zero). -/
theorem C40_axes_exact_partial (ndim : ℕ) (size : Fin 3 → ℚ) :
    (∀ a, propAxis size = .ok a ↔ size a = 0 ∧ ∀ b < a, size b ≠ 0) ∧
    (propAxis size = .error .indexError ↔ ∀ b, size b ≠ 0) ∧
    (viewFnAxis ndim size = .error .valueError ↔ ∀ b, size b ≠ 0) ∧
    ((∃ b : Fin 3, b.1 < ndim ∧ size b = 0) → ∀ a, viewFnAxis ndim size = .ok a ↔
      a.1 < ndim ∧ size a = 0 ∧ ∀ b : Fin 3, a < b → b.1 < ndim → size b ≠ 0) := by
  have f0 : ∀ p : Fin 3 → Prop, (∀ b, p b) ↔ p 0 ∧ p 1 ∧ p 2 := fun p => by
    rw [Fin.forall_fin_succ, Fin.forall_fin_succ, Fin.forall_fin_succ]; simp
  have g0 : ∀ p : Fin 3 → Prop, (∃ b, p b) ↔ p 0 ∨ p 1 ∨ p 2 := fun p => by
    rw [Fin.exists_fin_succ, Fin.exists_fin_succ, Fin.exists_fin_succ]; simp
  unfold viewFnAxis viewAxis propAxis
  rw [finRange_three]
  refine ⟨?_, ?_, ?_, ?_⟩
  · rw [f0]
    by_cases h0 : size 0 = 0 <;> by_cases h1 : size 1 = 0 <;> by_cases h2 : size 2 = 0 <;>
      simp [List.filter, h0, h1, h2, f0]
  · rw [f0]
    by_cases h0 : size 0 = 0 <;> by_cases h1 : size 1 = 0 <;> by_cases h2 : size 2 = 0 <;>
      simp [List.filter, h0, h1, h2]
  · rw [f0]
    by_cases h0 : size 0 = 0 <;> by_cases h1 : size 1 = 0 <;> by_cases h2 : size 2 = 0 <;>
      simp [List.filter, h0, h1, h2]
  · rw [g0, f0]
    by_cases h0 : size 0 = 0 <;> by_cases h1 : size 1 = 0 <;> by_cases h2 : size 2 = 0 <;>
    by_cases n0 : 0 < ndim <;> by_cases n1 : 1 < ndim <;> by_cases n2 : 2 < ndim <;>
      first
      | omega
      | simp [List.filter, h0, h1, h2, n0, n1, n2, f0]

/-- **C40, violated** for boxes with two zero sides: on a three dimensional grid a mode placed on a line along `z`
is oriented along `x` by `profile`, and along `y` by `view_fn`. -/
theorem C40_line_counterexample (s : ℚ) (hs : s ≠ 0) :
    propAxis ![0, 0, s] = .ok 0 ∧ viewFnAxis 3 ![0, 0, s] = .ok 1 := by
  unfold viewFnAxis viewAxis propAxis
  rw [finRange_three]
  simp [List.filter, hs]

end Simphox
