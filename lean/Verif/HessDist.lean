import Verif.HessianC105
import Verif.Utils

/-!
# `hessian_distribution` (C145)
-/

namespace Simphox

/-! ### Model -/

/-- `hessian_vector_unit(v)[0]` (vector.py:334): the first row of the `2(n-1) × 2(n-1)` array; without rows (`n ≤ 1`) an
`IndexError`. `none` stands for `nan` entries (zero vector). -/
noncomputable def hessianFirst (eps : ℝ) (n : ℕ) (balanced : Bool) (v : ℕ → ℂ) : Except PyError (Option (List ℝ)) :=
  if 2 * (n - 1) = 0 then .error .indexError
  else .ok ((hessianVectorUnit eps n balanced v).map fun H => (List.range (2 * (n - 1))).map (H 0))

/-- `random_vector(n, normed=True)` (utils.py:241-254) of a Gaussian draw `z` (`random_tensor`, utils.py:257-269). -/
noncomputable def normedVector (n : ℕ) (z : ℕ → ℂ) : ℕ → ℂ := fun i => z i / (Real.sqrt (∑ k ∈ Finset.range n, ‖z k‖ ^ 2) : ℝ)

/-- `hessian_distribution` (vector.py:317-335), the draws of the random number generator as a parameter: the rows of the
returned array. -/
noncomputable def hessianDistribution (eps : ℝ) (n : ℕ) (balanced : Bool) (draws : List (ℕ → ℂ)) :
    Except PyError (List (Option (List ℝ))) :=
  draws.mapM fun z => hessianFirst eps n balanced (normedVector n z)

/-! ### Properties -/

theorem normedVector_norm (n : ℕ) (z : ℕ → ℂ) (hz : ∑ i ∈ Finset.range n, ‖z i‖ ^ 2 ≠ 0) :
    ∑ i ∈ Finset.range n, ‖normedVector n z i‖ ^ 2 = 1 := by
  have h0 : 0 ≤ ∑ i ∈ Finset.range n, ‖z i‖ ^ 2 := Finset.sum_nonneg fun _ _ => by positivity
  have : ∀ i, ‖normedVector n z i‖ ^ 2 = ‖z i‖ ^ 2 / ∑ k ∈ Finset.range n, ‖z k‖ ^ 2 := by
    intro i
    unfold normedVector
    rw [norm_div, div_pow, Complex.norm_real, Real.norm_eq_abs, sq_abs, Real.sq_sqrt h0]
  simp only [this, ← Finset.sum_div]
  exact div_self hz

theorem hessMapM_ok {α β : Type} (f : α → Except PyError β) (g : α → β) (l : List α) (h : ∀ a ∈ l, f a = .ok (g a)) :
    l.mapM f = .ok (l.map g) := by
  induction l with
  | nil => rfl
  | cons a l ih =>
    rw [List.mapM_cons, h a List.mem_cons_self, ih fun b hb => h b (List.mem_cons_of_mem _ hb)]
    rfl

/-- C145, what holds (partial: one row instead of the Hessian). For every `n ≥ 2`, tree and list of draws, none of them zero,
one entry per draw is returned; it lists the second derivatives of the cost of the vector unit with respect to the phase
`θ_0` and every `θ_j`, then every pair `(θ_j, φ_0)` (`C105`: the blocks off the diagonal are transposed), at the phases
programmed for the normalised draw. -/
theorem C145_rows_partial (n : ℕ) (hn : 2 ≤ n) (b : Bool) (draws : List (ℕ → ℂ))
    (hd : ∀ z ∈ draws, ∑ i ∈ Finset.range n, ‖z i‖ ^ 2 ≠ 0) :
    ∃ rows : (ℕ → ℂ) → List ℝ, hessianDistribution 0 n b draws = .ok (draws.map fun z => some (rows z)) ∧
      ∀ z ∈ draws, (rows z).length = 2 * (n - 1) ∧ ∀ x, IsUnitConj n z x →
        ∃ M P w, vectorUnit 0 .top 0 n b x = some (M, P, w) ∧ ∀ j < n - 1,
          SecondPartial (vectorCost n M x) P (.theta 0) (.theta j) ((rows z).getD j 0) ∧
          SecondPartial (vectorCost n M x) P (.theta j) (.phi 0) ((rows z).getD (n - 1 + j) 0) := by
  classical
  have hx : ∀ z ∈ draws, ∀ x, IsUnitConj n z x → IsUnitConj n (normedVector n z) x := by
    intro z hz x h i
    rw [normedVector_norm n z (hd z hz), Real.sqrt_one, h i, normedVector, map_div₀, Complex.conj_ofReal, Complex.ofReal_one, div_one]
  have hv : ∀ z ∈ draws, ∑ i ∈ Finset.range n, ‖normedVector n z i‖ ^ 2 ≠ 0 := fun z hz => by
    rw [normedVector_norm n z (hd z hz)]; exact one_ne_zero
  refine ⟨fun z => (List.range (2 * (n - 1))).map (((hessianVectorUnit 0 n b (normedVector n z)).getD fun _ _ => 0) 0), ?_, ?_⟩
  · apply hessMapM_ok
    intro z hz
    obtain ⟨H, _, _, _, h, _⟩ := C105_hessian_partial n hn b _ (hv z hz) _ (fun _ => rfl)
    unfold hessianFirst
    rw [if_neg (by omega)]
    simp [h]
  · intro z hz
    refine ⟨by simp, fun x hxz => ?_⟩
    obtain ⟨H, M, P, w, h, hu, hp, hs⟩ := C105_hessian_partial n hn b _ (hv z hz) x (hx z hz x hxz)
    refine ⟨M, P, w, hu, fun j hj => ?_⟩
    have h1 : j < 2 * (n - 1) := by omega
    have h2 : n - 1 + j < 2 * (n - 1) := by omega
    have e1 : ((List.range (2 * (n - 1))).map (((hessianVectorUnit 0 n b (normedVector n z)).getD fun _ _ => 0) 0)).getD j 0 = H 0 j := by
      simp [h, List.getD, h1]
    have e2 : ((List.range (2 * (n - 1))).map (((hessianVectorUnit 0 n b (normedVector n z)).getD fun _ _ => 0) 0)).getD (n - 1 + j) 0
        = H 0 (n - 1 + j) := by
      simp [h, List.getD, h2]
    rw [e1, e2]
    refine ⟨(hp 0 j (by omega) hj).1, ?_⟩
    rw [hs 0 (n - 1 + j) (by omega) h2]
    exact (hp j 0 hj (by omega)).2.2.1

/-- **C145, violated**: the entries are never the Hessians (arrays with `2(n-1)` rows of `2(n-1)` numbers): an entry has
`2(n-1)` numbers, and `4(n-1)²` were promised. For every `n ≥ 2` and every draw. -/
theorem C145_shape_counterexample (eps : ℝ) (n : ℕ) (hn : 2 ≤ n) (b : Bool) (draws : List (ℕ → ℂ)) (out : List (Option (List ℝ)))
    (h : hessianDistribution eps n b draws = .ok out) : ∀ r ∈ out, ∀ l, r = some l → l.length < (2 * (n - 1)) * (2 * (n - 1)) := by
  have hok : hessianDistribution eps n b draws = .ok (draws.map fun z =>
      (hessianVectorUnit eps n b (normedVector n z)).map fun H => (List.range (2 * (n - 1))).map (H 0)) := by
    apply hessMapM_ok
    intro z _
    unfold hessianFirst
    rw [if_neg (by omega)]
  rw [hok] at h
  have := Except.ok.inj h
  subst this
  intro r hr l hl
  obtain ⟨z, _, rfl⟩ := List.mem_map.1 hr
  cases hH : hessianVectorUnit eps n b (normedVector n z) with
  | none => rw [hH] at hl; exact absurd hl (by simp)
  | some H =>
    rw [hH] at hl
    simp only [Option.map_some, Option.some.injEq] at hl
    subst hl
    rw [List.length_map, List.length_range]
    nlinarith [show 2 ≤ 2 * (n - 1) by omega]

/-- **C145, violated**: for one rail (no phases, an empty Hessian) it raises. -/
theorem C145_one_rail_counterexample (eps : ℝ) (b : Bool) (z : ℕ → ℂ) (draws : List (ℕ → ℂ)) :
    hessianDistribution eps 1 b (z :: draws) = .error .indexError := rfl

/-- Two draws on three rails. -/
example : ∃ rows, hessianDistribution 0 3 true [fun _ => 1, fun i => i] = .ok rows := by
  obtain ⟨rows, h, _⟩ := C145_rows_partial 3 (by norm_num) true [fun _ => 1, fun i => (i : ℂ)] (by
    intro z hz
    simp only [List.mem_cons, List.not_mem_nil, or_false] at hz
    rcases hz with rfl | rfl
    · norm_num [Finset.sum_range_succ]
    · norm_num [Finset.sum_range_succ])
  exact ⟨_, h⟩

end Simphox
