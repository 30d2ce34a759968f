import Verif.VectorReach
import Verif.HessianRun

/-! # Powers recorded by `vector_unit` (C179) -/

namespace Simphox

open Complex Matrix

/-- The arrays `mesh.pn`, `mesh.pnsn` after `vector_unit(v, balanced=balanced, phase_style=style,
bs_error_mean_std=(e, 0))` (simphox/circuit/vector.py:126-152, 163-190; they start as zeros,
simphox/circuit/forward.py:63-64). -/
noncomputable def vectorUnitRecord (eps : ℝ) (style : PhaseStyle) (e : ℝ) (n : ℕ) (balanced : Bool) (v : ℕ → ℂ) :
    Option ((ℕ → ℝ) × (ℕ → ℝ)) := do
  let nodes := tree n n balanced
  let ps ← powerLoop eps style e 0 nodes (List.range (numColumns nodes))
    ⟨⟨fun r _ => v r, fun _ => 0, fun _ => 0⟩, fun _ => 0, fun _ => 0⟩
  some (ps.pn, ps.pnsn)

/-- The powers that enter the Hessian (C105) are these. -/
theorem vectorUnitPowers_eq (eps : ℝ) (n : ℕ) (b : Bool) (v : ℕ → ℂ) :
    vectorUnitPowers eps n b v = vectorUnitRecord eps .top 0 n b v := rfl

/-- The powers recorded in the first `K` columns. -/
theorem powerLoop_inv {style : PhaseStyle} (hs : style = .top ∨ style = .bottom) {nodes : List Node} {lo : Node → ℕ}
    (L : Laminar nodes lo) (hid : (nodes.map Node.id).Nodup) (e : ℝ) (he : Real.cos (2 * e) ≠ 0) (v : ℕ → ℂ)
    (hshare : ∀ a ∈ nodes, railPower v (lo a) a.top ≤ Real.cos (2 * e) ^ 2 * railPower v (lo a) a.bottom) (K : ℕ) :
    ∃ ps, powerLoop 0 style e 0 nodes (List.range K)
        ⟨⟨fun r _ => v r, fun _ => 0, fun _ => 0⟩, fun _ => 0, fun _ => 0⟩ = some ps ∧
      nullLoop 0 style e 0 nodes (List.range K) ⟨fun r _ => v r, fun _ => 0, fun _ => 0⟩ = some ps.null ∧
      ∀ a ∈ nodes, a.column < K → ps.pn a.id = railPower v (lo a) a.bottom ∧
        ps.pnsn a.id = (if style = .top then railPower v (lo a) a.top
          else railPower v (lo a) a.bottom - railPower v (lo a) a.top) := by
  induction K with
  | zero => exact ⟨_, rfl, rfl, fun a _ h => absurd h (Nat.not_lt_zero _)⟩
  | succ K ih =>
    obtain ⟨ps, h1, h2, h3⟩ := ih
    have hidk : ((columnNodes nodes K).map Node.id).Nodup :=
      List.Nodup.sublist (List.Sublist.map _ List.filter_sublist) hid
    obtain ⟨st', g1, -, -, g4⟩ := nullColumn_spec hs 0 e 0 (columnNodes nodes K) hidk ps.null
    have hnull : nullLoop 0 style e 0 nodes (List.range (K + 1)) ⟨fun r _ => v r, fun _ => 0, fun _ => 0⟩ = some st' := by
      rw [List.range_succ, nullLoop_append, h2]
      simp [nullLoop, g1]
    have dark : ∀ (J : ℕ) (st : NullState),
        nullLoop 0 style e 0 nodes (List.range J) ⟨fun r _ => v r, fun _ => 0, fun _ => 0⟩ = some st →
        ∀ a ∈ nodes, a.column < J → st.w a.top 0 = 0 := by
      intro J st hst
      have := reach_run_dark hs L hid (fun _ => e) (fun _ _ => he) v hshare J st
      rw [nullLoopErr_const 0 style _ _ e 0 nodes (fun _ _ => rfl) (fun _ _ => rfl)] at this
      exact (this hst).1
    have wK : ∀ r, ps.null.w r 0 = columnsApply (storedElements style e ps.null) nodes (List.range K) v r := by
      obtain ⟨st2, k1, -, k3⟩ := nullLoop_spec hs 0 e 0 nodes hid (List.range K) List.nodup_range
        ⟨fun r _ => v r, fun _ => 0, fun _ => 0⟩
      rw [h2] at k1
      obtain rfl := Option.some.inj k1
      exact fun r => congrFun (k3 0) r
    refine ⟨⟨st', _, _⟩, by
      rw [List.range_succ, powerLoop_append, h1]
      simp only [Option.bind_some, powerLoop, powerColumn, g1, Option.bind_eq_bind]
      rfl, hnull, ?_⟩
    intro a ha hac
    by_cases hk : a.column = K
    · have hmem : a ∈ columnNodes nodes K := mem_columnNodes.2 ⟨ha, hk⟩
      have hinj : ∀ b ∈ columnNodes nodes K, b.id = a.id → b = a := fun b hb he =>
        List.inj_on_of_nodup_map hid (mem_columnNodes.1 hb).1 ha he
      obtain ⟨p1, p2⟩ := entering_power (el := storedElements style e ps.null) L
        (fun b _ => mziElements_unitary _ _ _ _ _ _) v ha (by
          intro b hb hc
          rw [hk] at hc ⊢
          rw [← wK]; exact dark K _ h2 b hb hc)
      rw [hk, ← wK] at p1
      rw [hk, ← wK, ← wK] at p2
      have R := parallelTransform_result (el := storedElements style e st') (L.good K) (fun r => ps.null.w r 0)
      have q1 : st'.w a.top 0 = _ := (congrFun (g4 0) a.top).trans (R.top a hmem)
      have q2 : st'.w a.bottom 0 = _ := (congrFun (g4 0) a.bottom).trans (R.bottom a hmem)
      have q3 := pair_power (m := storedElements style e st' a.id) (mziElements_unitary _ _ _ _ _ _)
        (ps.null.w a.top 0) (ps.null.w a.bottom 0)
      rw [← q1, ← q2, dark (K + 1) _ hnull a ha hac, p2] at q3
      constructor
      · have : ‖st'.w a.bottom 0‖ ^ 2 = railPower v (lo a) a.bottom := by simpa using q3
        rw [← this]
        apply assign_mem
        · exact List.mem_map.2 ⟨a, hmem, rfl⟩
        · intro y hy
          obtain ⟨b, hb, he'⟩ := List.mem_map.1 hy
          rw [Prod.mk.injEq] at he'
          rw [← he'.2, hinj b hb he'.1]
      · have : (if style = .top then railPower v (lo a) a.top else railPower v (lo a) a.bottom - railPower v (lo a) a.top) =
            ‖ps.null.w (if style = .top then a.top else a.bottom) 0‖ ^ 2 := by
          split_ifs with h
          · exact p1.symm
          · linarith
        rw [this]
        apply assign_mem
        · exact List.mem_map.2 ⟨a, hmem, rfl⟩
        · intro y hy
          obtain ⟨b, hb, he'⟩ := List.mem_map.1 hy
          rw [Prod.mk.injEq] at he'
          rw [← he'.2, hinj b hb he'.1]
    · have := h3 a ha (by omega)
      have hno : ∀ b ∈ columnNodes nodes K, b.id ≠ a.id := fun b hb he => by
        obtain ⟨hb, hbk⟩ := mem_columnNodes.1 hb
        have := List.inj_on_of_nodup_map hid hb ha he
        subst this; exact hk hbk
      constructor
      · simp only
        rw [assign_not_mem, this.1]
        simp only [List.mem_map]
        rintro _ ⟨b, hb, rfl⟩; exact hno b hb
      · simp only
        rw [assign_not_mem, this.2]
        simp only [List.mem_map]
        rintro _ ⟨b, hb, rfl⟩; exact hno b hb

theorem railPower_split (v : ℕ → ℂ) {lo t b : ℕ} (h1 : lo ≤ t) (h2 : t < b) :
    railPower v lo b - railPower v lo t = railPower v (t + 1) b := by
  unfold railPower
  have e1 : Finset.Icc lo b = Finset.Icc lo t ∪ Finset.Icc (t + 1) b := by
    ext x; simp only [Finset.mem_union, Finset.mem_Icc]; omega
  have e2 : Disjoint (Finset.Icc lo t) (Finset.Icc (t + 1) b) := by
    rw [Finset.disjoint_left]; intro x; simp only [Finset.mem_Icc]; omega
  rw [e1, Finset.sum_union e2]
  ring

/-- C179: for couplers with a common error `e` that can still route `v` (C174), `vector_unit` records for every node
in `mesh.pn` the power of `v` on all rails the node merges, and in `mesh.pnsn` the power on the rails merged into
its phase-shifted arm (the top one in style TOP, the bottom one in style BOTTOM). -/
theorem C179_recorded_powers (style : PhaseStyle) (hs : style = .top ∨ style = .bottom) (n : ℕ) (hn : 2 ≤ n)
    (balanced : Bool) (e : ℝ) (he : Real.cos (2 * e) ≠ 0) (v : ℕ → ℂ)
    (hv : ∀ a ∈ tree n n balanced, ShareFits balanced e v a) :
    ∃ pn pnsn, vectorUnitRecord 0 style e n balanced v = some (pn, pnsn) ∧
      ∀ a ∈ tree n n balanced,
        pn a.id = ∑ r ∈ Finset.Icc (firstInput balanced a) a.bottom, ‖v r‖ ^ 2 ∧
        pnsn a.id = if style = .top then ∑ r ∈ Finset.Icc (firstInput balanced a) a.top, ‖v r‖ ^ 2
          else ∑ r ∈ Finset.Icc (a.top + 1) a.bottom, ‖v r‖ ^ 2 := by
  have L := laminar_tree (R := n) hn balanced
  obtain ⟨ps, h1, -, h3⟩ := powerLoop_inv hs L ((tree_ids n n balanced).nodup_iff.2 List.nodup_range) e he v hv
    (numColumns (tree n n balanced))
  refine ⟨ps.pn, ps.pnsn, by simp only [vectorUnitRecord]; rw [h1]; rfl, fun a ha => ?_⟩
  obtain ⟨k1, k2⟩ := h3 a ha (column_lt_numColumns ha)
  refine ⟨k1, ?_⟩
  rw [k2, railPower_split v (L.le a ha).1 (L.le a ha).2]
  rfl

theorem shareFits_ideal {n : ℕ} (hn : 2 ≤ n) (balanced : Bool) (v : ℕ → ℂ) :
    ∀ a ∈ tree n n balanced, ShareFits balanced 0 v a := by
  intro a ha
  have L := laminar_tree (R := n) hn balanced
  have := railPower_split v (L.le a ha).1 (L.le a ha).2
  have h2 : 0 ≤ railPower v (a.top + 1) a.bottom := Finset.sum_nonneg fun _ _ => by positivity
  unfold ShareFits
  simp only [mul_zero, Real.cos_zero, one_pow, one_mul]
  linarith

/-- C179, ideal couplers: the recorded powers, for every vector; the largest `pn` is the total power, and the power
recorded at the last node visited. -/
theorem C179_ideal (style : PhaseStyle) (hs : style = .top ∨ style = .bottom) (n : ℕ) (hn : 2 ≤ n) (balanced : Bool)
    (v : ℕ → ℂ) :
    ∃ pn pnsn, vectorUnitRecord 0 style 0 n balanced v = some (pn, pnsn) ∧
      (∀ a ∈ tree n n balanced,
        pn a.id = ∑ r ∈ Finset.Icc (firstInput balanced a) a.bottom, ‖v r‖ ^ 2 ∧
        pnsn a.id = if style = .top then ∑ r ∈ Finset.Icc (firstInput balanced a) a.top, ‖v r‖ ^ 2
          else ∑ r ∈ Finset.Icc (a.top + 1) a.bottom, ‖v r‖ ^ 2) ∧
      ∀ a ∈ tree n n balanced, 0 ≤ pnsn a.id ∧ pnsn a.id ≤ pn a.id ∧ pn a.id ≤ ∑ r ∈ Finset.range n, ‖v r‖ ^ 2 := by
  obtain ⟨pn, pnsn, h1, h2⟩ := C179_recorded_powers style hs n hn balanced 0 (by simp) v (shareFits_ideal hn balanced v)
  refine ⟨pn, pnsn, h1, h2, fun a ha => ?_⟩
  have L := laminar_tree (R := n) hn balanced
  have hr := tree_rails hn balanced ha
  have hle := L.le a ha
  have mono : ∀ (s t : Finset ℕ), s ⊆ t → ∑ r ∈ s, ‖v r‖ ^ 2 ≤ ∑ r ∈ t, ‖v r‖ ^ 2 := fun s t h =>
    Finset.sum_le_sum_of_subset_of_nonneg h fun _ _ _ => by positivity
  obtain ⟨k1, k2⟩ := h2 a ha
  rw [k1, k2]
  refine ⟨?_, ?_, mono _ _ ?_⟩
  · split_ifs <;> exact Finset.sum_nonneg fun _ _ => by positivity
  · split_ifs
    · apply mono
      intro x; simp only [Finset.mem_Icc]; omega
    · apply mono
      intro x; simp only [Finset.mem_Icc]; omega
  · intro x; simp only [Finset.mem_Icc, Finset.mem_range]; omega

end Simphox
