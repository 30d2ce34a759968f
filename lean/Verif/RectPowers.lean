import Verif.RectExtrasProps
import Verif.MeshProps

/-! # The powers at the phase shifters of a rectangular mesh (C104) -/

namespace Simphox

open Matrix Complex

/-- Specification: total power on the rails. -/
noncomputable def totalPower (n : ℕ) (f : ℕ → ℂ) : ℝ := ∑ k : Fin n, ‖f k‖ ^ 2

/-- A symmetric unitary step keeps the total power. -/
theorem SymStep.power {n : ℕ} {s : (ℕ → ℂ) → ℕ → ℂ} (h : SymStep n s) (g : ℕ → ℂ) :
    totalPower n (s g) = totalPower n g := by
  have e : ∀ f : ℕ → ℂ, ((totalPower n f : ℝ) : ℂ) = ∑ r ∈ Finset.range n, starRingEnd ℂ (f r) * f r := by
    intro f
    unfold totalPower
    rw [Fin.sum_univ_eq_sum_range (fun k => ‖f k‖ ^ 2) n]
    push_cast
    apply Finset.sum_congr rfl
    intro r _
    rw [conj_mul']
  have h1 := h.symm (fun r => starRingEnd ℂ (s g r)) g
  rw [h.unit] at h1
  exact_mod_cast (show ((totalPower n (s g) : ℝ) : ℂ) = (totalPower n g : ℝ) by rw [e, e, h1])

theorem runSteps_power {n : ℕ} {S : List ((ℕ → ℂ) → ℕ → ℂ)} (h : ∀ s ∈ S, SymStep n s) (v : ℕ → ℂ) :
    totalPower n (runSteps S v) = totalPower n v := by
  induction S generalizing v with
  | nil => rfl
  | cons s S ih =>
    rw [runSteps_cons, ih fun t ht => h t (by simp [ht]), (h s (by simp)).power]

/-- The ideal rectangular mesh on `n` rails, with any parameters. -/
def rectMesh (n : ℕ) : Mesh := idealMesh (rectNodes n n) .top

theorem rectMesh_wellFormed (n : ℕ) : (rectMesh n).WellFormed n :=
  rectangular_wellFormed n 0

theorem rectMesh_errorless (n : ℕ) : (rectMesh n).Errorless := by
  intro p hp
  simp only [rectMesh, idealMesh, List.mem_map] at hp
  obtain ⟨a, -, rfl⟩ := hp; rfl

theorem rectMesh_lossless (n : ℕ) : (rectMesh n).Lossless := by
  intro p hp
  simp only [rectMesh, idealMesh, List.mem_map] at hp
  obtain ⟨a, -, rfl⟩ := hp; rfl

theorem colsSteps_fieldAfter {n : ℕ} {M : Mesh} (hM : M.WellFormed n) (hs : M.style = .top)
    (he : M.Errorless) (hl : M.Lossless) (P : Params) (c : ℕ) (v : ℕ → ℂ) :
    runSteps (colsSteps P M.nodes (List.range c)) v = fieldAfter M P c v := by
  have hse : M.explicitMesh = M := by
    unfold Mesh.explicitMesh
    have e1 : (M.errors.map fun p => (-p.1, -p.2)) = M.errors := by
      conv_rhs => rw [← List.map_id M.errors]
      apply List.map_congr_left
      intro p hp
      rw [he p hp]; simp
    have e2 : (M.losses.map fun p => (p.2, p.1)) = M.losses := by
      conv_rhs => rw [← List.map_id M.losses]
      apply List.map_congr_left
      intro p hp
      rw [hl p hp]; simp
    rw [e1, e2]
  obtain ⟨snaps, h1, _⟩ := explicitLoop_out hM P (Or.inl hs) (List.range c) v
  rw [explicitLoop_steps hM hs he hl] at h1
  simp only [Option.some.injEq, Prod.mk.injEq, hse] at h1
  rw [h1.2]
  rfl

theorem colsSteps_take (P : Params) (nodes : List Node) (m c : ℕ) (hc : c < m) (rest : List ((ℕ → ℂ) → ℕ → ℂ))
    (t : ℕ) (ht : t ≤ 4) :
    (colsSteps P nodes (List.range m) ++ rest).take (4 * c + t) =
      colsSteps P nodes (List.range c) ++ (columnSteps P (columnNodes nodes c)).take t := by
  have hlen : ∀ k, (colsSteps P nodes (List.range k)).length = 4 * k := by
    intro k
    induction k with
    | zero => rfl
    | succ k ih =>
      have : colsSteps P nodes (List.range (k + 1)) =
          colsSteps P nodes (List.range k) ++ columnSteps P (columnNodes nodes k) := by
        simp [colsSteps, List.range_succ]
      rw [this, List.length_append, ih]
      simp [columnSteps]; omega
  obtain ⟨d, rfl⟩ : ∃ d, m = c + 1 + d := ⟨m - c - 1, by omega⟩
  have e : ∃ tail, colsSteps P nodes (List.range (c + 1 + d)) =
      colsSteps P nodes (List.range c) ++ (columnSteps P (columnNodes nodes c) ++ tail) := by
    refine ⟨colsSteps P nodes ((List.range d).map (c + 1 + ·)), ?_⟩
    rw [List.range_add, List.range_succ]
    simp [colsSteps]
  obtain ⟨tail, e⟩ := e
  rw [e, List.append_assoc, List.append_assoc, List.take_append, hlen, List.take_of_length_le (by rw [hlen]; omega),
    Nat.add_sub_cancel_left, List.take_append, show t - (columnSteps P (columnNodes nodes c)).length = 0 by
      simp [columnSteps]; omega]
  simp

/-- Specification: the field in the upper arm of a node, behind its `phi` phase shifter and its first
50:50 coupler, i.e. at its `theta` phase shifter. `f` is the field entering the node's column. -/
noncomputable def thetaArm (phi : ℝ) (f : ℕ → ℂ) (a : Node) : ℂ :=
  (exp (I * phi) * f a.top + I * f a.bottom) / Real.sqrt 2

/-- The snapshots read by `rectangular_phase_shift_powers`. -/
theorem rect_snaps {n : ℕ} (hn : 3 ≤ n) (P : Params) (v : ℕ → ℂ) (snaps : List (ℕ → ℂ))
    (h : (rectMesh n).propagateExplicit P v = some snaps) :
    snaps.length = 4 * n + 2 ∧
    (∀ c < n, ∃ f, snaps[4 * c]? = some f ∧ f = fieldAfter (rectMesh n) P c v ∧ totalPower n f = totalPower n v) ∧
    (∀ c < n, ∃ f, snaps[4 * c + 2]? = some f ∧ totalPower n f = totalPower n v ∧
      ∀ a ∈ rectNodes n n, a.column = c → f a.top = thetaArm (P.phis a.id) (fieldAfter (rectMesh n) P c v) a) ∧
    snaps.getLast? = some ((rectMesh n).apply P false v) ∧
    totalPower n ((rectMesh n).apply P false v) = totalPower n v := by
  have hM := rectMesh_wellFormed n
  have hs : (rectMesh n).style = .top := rfl
  have he := rectMesh_errorless n
  have hl := rectMesh_lossless n
  rw [propagateExplicit_steps hM hs he hl] at h
  simp only [Option.some.injEq] at h
  subst h
  have hcols : numColumns (rectMesh n).nodes = n := by
    rcases rectNodes_numColumns (show 2 ≤ n by omega) with ⟨h, -⟩ | ⟨-, h⟩
    · omega
    · exact h
  have hsteps : meshSteps P (rectMesh n).nodes =
      colsSteps P (rectMesh n).nodes (List.range n) ++ [gammaApply P.gammas] := by
    rw [meshSteps, hcols]
  have hlen : (meshSteps P (rectMesh n).nodes).length = 4 * n + 1 := by
    rw [hsteps]
    simp [colsSteps, columnSteps, List.length_flatMap]
    omega
  have hsym := meshSteps_sym hM P
  have htake : ∀ t, totalPower n (runSteps ((meshSteps P (rectMesh n).nodes).take t) v) = totalPower n v :=
    fun t => runSteps_power (fun s hs => hsym s (List.mem_of_mem_take hs)) v
  refine ⟨?_, ?_, ?_, ?_, ?_⟩
  · rw [List.length_cons, snapsOf_length, hlen]
  · intro c hc
    refine ⟨_, snapsOf_get _ v (4 * c) (by rw [hlen]; omega), ?_, htake _⟩
    have := colsSteps_take P (rectMesh n).nodes n c hc [gammaApply P.gammas] 0 (by omega)
    rw [hsteps, ← Nat.add_zero (4 * c), this, ← colsSteps_fieldAfter hM hs he hl]
    simp
  · intro c hc
    refine ⟨_, snapsOf_get _ v (4 * c + 2) (by rw [hlen]; omega), htake _, ?_⟩
    intro a ha hac
    have := colsSteps_take P (rectMesh n).nodes n c hc [gammaApply P.gammas] 2 (by omega)
    rw [hsteps, this, runSteps_append, colsSteps_fieldAfter hM hs he hl]
    set f := fieldAfter (rectMesh n) P c v
    show dcStep _ (phaseStep _ _ f) a.top = _
    have hmem : a ∈ columnNodes (rectMesh n).nodes c := mem_columnNodes.2 ⟨ha, hac⟩
    have hg := hM.goodColumn c
    have h1 := parallelTransform_result (el := fun k => phaseEl (exp (I * P.phis k)) 1) hg f
    have h2 := parallelTransform_result (el := fun _ => dcElements 0 0) hg (phaseStep P.phis (columnNodes (rectMesh n).nodes c) f)
    unfold dcStep
    rw [h2.top a hmem]
    unfold phaseStep
    rw [h1.top a hmem, h1.bottom a hmem]
    unfold thetaArm
    have hs2 : (Real.sqrt 2 : ℂ) * Real.sqrt 2 = 2 := by
      rw [← ofReal_mul, Real.mul_self_sqrt (by norm_num)]; norm_num
    have hs0 : (Real.sqrt 2 : ℂ) ≠ 0 := by
      intro h0; rw [h0] at hs2; norm_num at hs2
    simp only [phaseEl, dcElements, add_zero, Real.sin_pi_div_four, Real.cos_pi_div_four, mul_zero, zero_div,
      Real.exp_zero, ofReal_one, zero_mul, add_zero, zero_add, one_mul]
    push_cast
    field_simp
    linear_combination (exp (I * P.phis a.id) * f a.top + I * f a.bottom) * hs2
  · have := snapsOf_get (meshSteps P (rectMesh n).nodes) v (4 * n + 1) (by rw [hlen])
    rw [List.getLast?_eq_getElem?, List.length_cons, snapsOf_length, hlen, Nat.add_sub_cancel, this,
      List.take_of_length_le (by rw [hlen]), apply_steps hM hs he hl]
  · rw [apply_steps hM hs he hl]
    exact runSteps_power hsym v

/-- C104, the part that holds: for an even number `n ≥ 4` of rails, `rectangular_phase_shift_powers`
of the propagation of `v` gives, in node order, the share of the input power that hits the `theta` and
the `phi` phase shifter of each node, and the share on each rail at the output. -/
theorem C104_phase_shift_powers_partial (n : ℕ) (hn : 4 ≤ n) (hpar : n % 2 = 0) (P : Params) (v : ℕ → ℂ) :
    ∃ snaps th ph ga, (rectMesh n).propagateExplicit P v = some snaps ∧
      phaseShiftPowers n snaps = some (th, ph, ga) ∧
      th.length = (rectMesh n).nodes.length ∧ ph.length = (rectMesh n).nodes.length ∧
      (∀ a ∈ (rectMesh n).nodes,
        th.getD a.id 0 = ‖thetaArm (P.phis a.id) (fieldAfter (rectMesh n) P a.column v) a‖ ^ 2 / totalPower n v ∧
        ph.getD a.id 0 = ‖fieldAfter (rectMesh n) P a.column v a.top‖ ^ 2 / totalPower n v) ∧
      ∀ r, ga r = ‖(rectMesh n).apply P false v r‖ ^ 2 / totalPower n v := by
  have hM := rectMesh_wellFormed n
  have hprop := propagateExplicit_steps hM rfl (rectMesh_errorless n) (rectMesh_lossless n) P v
  obtain ⟨hlen, h0, h2, hlast, hpow⟩ := rect_snaps (by omega) P v _ hprop
  set snaps := v :: snapsOf (meshSteps P (rectMesh n).nodes) v with hsn
  have hy : ∀ f, normPower n f = fun r => ‖f r‖ ^ 2 / totalPower n f := fun f => rfl
  let cell : ℕ → ℕ → ℕ → ℝ := fun off r c => normPower n ((snaps[4 * c + off]?).getD v) r
  have hpair : ∀ off, (off = 0 ∨ off = 2) → (List.range (n / 2)).mapM (powerPair n snaps off (off + 4)) =
      some ((List.range (n / 2)).map fun i =>
        ((List.range (n / 2)).map (checkerboardToParam (cell off) (2 * i)) ++
          (List.range (n / 2)).map (checkerboardToParam (cell off) (2 * i + 1))).dropLast) := by
    intro off hoff
    apply mapM_some
    intro i hi
    rw [List.mem_range] at hi
    have g : ∀ c < n, ∃ f, snaps[4 * c + off]? = some f := by
      intro c hc
      rcases hoff with rfl | rfl
      · obtain ⟨f, hf, -⟩ := h0 c hc; exact ⟨f, hf⟩
      · obtain ⟨f, hf, -⟩ := h2 c hc; exact ⟨f, hf⟩
    obtain ⟨f1, e1⟩ := g (2 * i) (by omega)
    obtain ⟨f2, e2⟩ := g (2 * i + 1) (by omega)
    have r1 : powerRow snaps off i = some f1 := by
      unfold powerRow; rw [← e1]; congr 1; omega
    have r2 : powerRow snaps (off + 4) i = some f2 := by
      unfold powerRow; rw [← e2]; congr 1; omega
    unfold powerPair
    rw [r1, r2]
    simp only [Option.bind_eq_bind, Option.bind_some, Option.pure_def, Option.some.injEq]
    congr 2
    · rw [show (n + 1) / 2 = n / 2 by omega]
      apply List.map_congr_left
      intro j _
      simp only [checkerboardToParam, cell, e1, Option.getD_some, Nat.mul_mod_right, Nat.add_zero]
    · apply List.map_congr_left
      intro j _
      simp only [checkerboardToParam, cell, e2, Option.getD_some, show (2 * i + 1) % 2 = 1 by omega]
  have hflat : ∀ off, ((List.range (n / 2)).map fun i =>
        ((List.range (n / 2)).map (checkerboardToParam (cell off) (2 * i)) ++
          (List.range (n / 2)).map (checkerboardToParam (cell off) (2 * i + 1))).dropLast).flatten =
      rectParams n (checkerboardToParam (cell off)) n := by
    intro off
    rw [← List.flatMap_def]
    have := pair_rows (n := n) hpar (by omega) (checkerboardToParam (cell off))
      (rectParams n (checkerboardToParam (cell off))) rfl (fun i => rfl) (n / 2)
    rw [this, show 2 * (n / 2) = n by omega]
  refine ⟨snaps, rectParams n (checkerboardToParam (cell 2)) n, rectParams n (checkerboardToParam (cell 0)) n,
    normPower n ((rectMesh n).apply P false v), hprop, ?_, rectParams_length _ _ _, rectParams_length _ _ _, ?_, ?_⟩
  · unfold phaseShiftPowers
    rw [hpair 2 (.inr rfl), hpair 0 (.inl rfl), hlast]
    simp only [Option.bind_eq_bind, Option.bind_some, Option.pure_def, hflat]
  · intro a ha
    have hc := (rectNodes_spec n n a ha).2.2.2.2
    rw [rectParams_getD n (cell 2) n a ha, rectParams_getD n (cell 0) n a ha]
    obtain ⟨f0, e0, g0, p0⟩ := h0 a.column hc
    obtain ⟨f2, e2, p2, g2⟩ := h2 a.column hc
    simp only [cell, Nat.add_zero, e0, e2, Option.getD_some, hy]
    rw [p0, p2, g2 a ha rfl, g0]
    exact ⟨rfl, rfl⟩
  · intro r
    rw [hy, hpow]

/-- C104 fails for every odd number of rails: some nodes have no entry in the returned arrays. -/
theorem C104_odd_counterexample (n : ℕ) (hn : 3 ≤ n) (hpar : n % 2 = 1) (P : Params) (v : ℕ → ℂ) :
    ∃ snaps th ph ga, (rectMesh n).propagateExplicit P v = some snaps ∧
      phaseShiftPowers n snaps = some (th, ph, ga) ∧ th.length < (rectMesh n).nodes.length := by
  have hM := rectMesh_wellFormed n
  have hprop := propagateExplicit_steps hM rfl (rectMesh_errorless n) (rectMesh_lossless n) P v
  obtain ⟨hlen, -, -, hlast, -⟩ := rect_snaps hn P v _ hprop
  set snaps := v :: snapsOf (meshSteps P (rectMesh n).nodes) v with hsn
  have hpair : ∀ a b, a < 7 → b < 7 → ∃ l : ℕ → List ℝ,
      (List.range (n / 2)).mapM (powerPair n snaps a b) = some ((List.range (n / 2)).map l) ∧
      ∀ i, (l i).length = n - 1 := by
    intro a b ha hb
    refine ⟨fun i => ((List.range ((n + 1) / 2)).map (fun j => normPower n (snaps.getD (a + 8 * i) v) (2 * j)) ++
      (List.range (n / 2)).map fun j => normPower n (snaps.getD (b + 8 * i) v) (2 * j + 1)).dropLast, ?_, ?_⟩
    · apply mapM_some
      intro i hi
      rw [List.mem_range] at hi
      have r : ∀ x < 7, powerRow snaps x i = some (snaps.getD (x + 8 * i) v) := by
        intro x hx
        unfold powerRow
        rw [List.getElem?_eq_getElem (by omega), List.getD_eq_getElem?_getD, List.getElem?_eq_getElem (by omega)]
        rfl
      unfold powerPair
      rw [r a ha, r b hb]
      rfl
    · intro i
      simp
      omega
  obtain ⟨l1, e1, n1⟩ := hpair 2 6 (by norm_num) (by norm_num)
  obtain ⟨l2, e2, -⟩ := hpair 0 4 (by norm_num) (by norm_num)
  refine ⟨snaps, ((List.range (n / 2)).map l1).flatten, ((List.range (n / 2)).map l2).flatten,
    normPower n ((rectMesh n).apply P false v), hprop, ?_, ?_⟩
  · unfold phaseShiftPowers
    rw [e1, e2, hlast]
    rfl
  · have hcount : (rectMesh n).nodes.length = n * (n - 1) / 2 := (C18_rectangular_grid n (by omega) 0).2.2.2.1
    rw [hcount, List.length_flatten, List.map_map]
    have : (List.range (n / 2)).map (List.length ∘ l1) = List.replicate (n / 2) (n - 1) := by
      rw [List.eq_replicate_iff]
      refine ⟨by simp, ?_⟩
      intro x hx
      obtain ⟨i, -, rfl⟩ := List.mem_map.1 hx
      exact n1 i
    rw [this, List.sum_replicate, smul_eq_mul]
    obtain ⟨m, rfl⟩ : ∃ m, n = 2 * m + 1 := ⟨n / 2, by omega⟩
    rw [show (2 * m + 1) / 2 = m by omega, Nat.add_sub_cancel,
      show (2 * m + 1) * (2 * m) = 2 * ((2 * m + 1) * m) by ring, Nat.mul_div_cancel_left _ (by norm_num)]
    nlinarith

/-- C104 fails for two rails: `rectangular_phase_shift_powers` raises `IndexError`. -/
theorem C104_two_rails_counterexample (P : Params) (v : ℕ → ℂ) :
    ∃ snaps, (rectMesh 2).propagateExplicit P v = some snaps ∧ phaseShiftPowers 2 snaps = none := by
  refine ⟨_, propagateExplicit_steps (rectMesh_wellFormed 2) rfl (rectMesh_errorless 2) (rectMesh_lossless 2) P v, ?_⟩
  have hlen : (snapsOf (meshSteps P (rectMesh 2).nodes) v).length = 5 := by
    rw [snapsOf_length]; rfl
  unfold phaseShiftPowers
  have : (List.range (2 / 2)).mapM (powerPair 2 (v :: snapsOf (meshSteps P (rectMesh 2).nodes) v) 2 6) = none := by
    have : powerPair 2 (v :: snapsOf (meshSteps P (rectMesh 2).nodes) v) 2 6 0 = none := by
      unfold powerPair
      have : powerRow (v :: snapsOf (meshSteps P (rectMesh 2).nodes) v) 6 0 = none := by
        unfold powerRow
        rw [List.getElem?_eq_none]
        rw [List.length_cons, hlen]
      rw [this]
      cases powerRow (v :: snapsOf (meshSteps P (rectMesh 2).nodes) v) 2 0 <;> rfl
    rw [show List.range (2 / 2) = [0] from rfl, List.mapM_cons, this]; rfl
  rw [this]; rfl

end Simphox
