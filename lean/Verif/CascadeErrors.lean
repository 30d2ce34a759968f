import Verif.CascadeProps
import Verif.VectorReach
import Verif.NullBasisLemmas

/-!
# Cascades of imperfect couplers: which unitaries survive (C175)

`cascade(u, error_mean_std=(e, 0))` (matrix.py:17-65) with the same splitting error `e` in every coupler, default
phase style TOP, regulariser `np.spacing(1)` taken as 0. The programming run with errors is compared, column by
column, with the run for ideal couplers: as long as no node is asked for more than it can do, the two runs agree up
to a phase on every rail.
-/

namespace Simphox

open Matrix Complex

/-! ### One node -/

/-- Two unit rows killing the same nonzero vector differ by a phase. -/
theorem parallel_rows {p q x y t b : ℂ} (hp : p * (starRingEnd ℂ) p + q * (starRingEnd ℂ) q = 1)
    (hx : x * (starRingEnd ℂ) x + y * (starRingEnd ℂ) y = 1) (h1 : p * t + q * b = 0) (h2 : x * t + y * b = 0)
    (h0 : t ≠ 0 ∨ b ≠ 0) : ∃ d : ℂ, ‖d‖ = 1 ∧ p = d * x ∧ q = d * y := by
  have hdet : p * y - q * x = 0 := by
    have e1 : (p * y - q * x) * t = 0 := by linear_combination y * h1 - q * h2
    have e2 : (p * y - q * x) * b = 0 := by linear_combination p * h2 - x * h1
    rcases h0 with h | h
    · exact (mul_eq_zero.1 e1).resolve_right h
    · exact (mul_eq_zero.1 e2).resolve_right h
  refine ⟨p * (starRingEnd ℂ) x + q * (starRingEnd ℂ) y, ?_, ?_, ?_⟩
  · set d := p * (starRingEnd ℂ) x + q * (starRingEnd ℂ) y with hd
    have e1 : p = d * x := by rw [hd]; linear_combination -p * hx + (starRingEnd ℂ) y * hdet
    have e2 : q = d * y := by rw [hd]; linear_combination -q * hx - (starRingEnd ℂ) x * hdet
    have e3 : d * (starRingEnd ℂ) d = 1 := by
      rw [e1, e2] at hp
      simp only [map_mul] at hp
      linear_combination hp - d * (starRingEnd ℂ) d * hx
    rw [mul_conj, normSq_eq_norm_sq] at e3
    have : ‖d‖ ^ 2 = 1 := by exact_mod_cast e3
    nlinarith [norm_nonneg d]
  · linear_combination -p * hx + (starRingEnd ℂ) y * hdet
  · linear_combination -q * hx - (starRingEnd ℂ) x * hdet

/-- Two lossless nodes that null the same input (up to phases `dt`, `db` on the inputs) are equal up to phases. -/
theorem elements_rel {m m' : Elements} (hm : m.mat ∈ unitaryGroup (Fin 2) ℂ) (hm' : m'.mat ∈ unitaryGroup (Fin 2) ℂ)
    {dt db t b : ℂ} (hdt : ‖dt‖ = 1) (hdb : ‖db‖ = 1) (h0 : t ≠ 0 ∨ b ≠ 0) (h : m.t11 * t + m.t21 * b = 0)
    (h' : m'.t11 * (dt * t) + m'.t21 * (db * b) = 0) :
    (∃ d : ℂ, ‖d‖ = 1 ∧ m'.t11 * dt = d * m.t11 ∧ m'.t21 * db = d * m.t21) ∧
    ∃ d : ℂ, ‖d‖ = 1 ∧ m'.t12 * dt = d * m.t12 ∧ m'.t22 * db = d * m.t22 := by
  obtain ⟨r1, r2, r3, r4⟩ := unitary2_rows hm
  obtain ⟨s1, s2, s3, s4⟩ := unitary2_rows hm'
  have ut : dt * (starRingEnd ℂ) dt = 1 := by rw [mul_conj, normSq_eq_norm_sq, hdt]; simp
  have ub : db * (starRingEnd ℂ) db = 1 := by rw [mul_conj, normSq_eq_norm_sq, hdb]; simp
  obtain ⟨d, hd, e1, e2⟩ := parallel_rows (p := m'.t11 * dt) (q := m'.t21 * db) (x := m.t11) (y := m.t21) (t := t) (b := b)
    (by simp only [map_mul]
        linear_combination s1 + m'.t11 * (starRingEnd ℂ) m'.t11 * ut + m'.t21 * (starRingEnd ℂ) m'.t21 * ub) r1
    (by linear_combination h') h h0
  refine ⟨⟨d, hd, e1, e2⟩, ?_⟩
  have hne : (starRingEnd ℂ) m.t11 ≠ 0 ∨ (starRingEnd ℂ) m.t21 ≠ 0 := by
    by_contra hc
    push Not at hc
    rw [hc.1, hc.2] at r1
    simp at r1
  have ud : d * (starRingEnd ℂ) d = 1 := by rw [mul_conj, normSq_eq_norm_sq, hd]; simp
  refine parallel_rows (t := (starRingEnd ℂ) m.t11) (b := (starRingEnd ℂ) m.t21)
    (by simp only [map_mul]
        linear_combination s4 + m'.t12 * (starRingEnd ℂ) m'.t12 * ut + m'.t22 * (starRingEnd ℂ) m'.t22 * ub) r4 ?_ r3 hne
  have c1 : (starRingEnd ℂ) m'.t11 * (starRingEnd ℂ) dt = (starRingEnd ℂ) d * (starRingEnd ℂ) m.t11 := by
    rw [← map_mul, e1, map_mul]
  have c2 : (starRingEnd ℂ) m'.t21 * (starRingEnd ℂ) db = (starRingEnd ℂ) d * (starRingEnd ℂ) m.t21 := by
    rw [← map_mul, e2, map_mul]
  linear_combination d * s3 - d * m'.t12 * dt * c1 - d * m'.t22 * db * c2
    + d * m'.t12 * (starRingEnd ℂ) m'.t11 * ut + d * m'.t22 * (starRingEnd ℂ) m'.t21 * ub
    - (m'.t12 * dt * (starRingEnd ℂ) m.t11 + m'.t22 * db * (starRingEnd ℂ) m.t21) * ud

/-- Programming a node with errors `e` and an ideal one with the same input up to phases: the same action up to
phases, if the ratio is within reach. -/
theorem node_rel {style : PhaseStyle} (hs : style = .top ∨ style = .bottom) {e : ℝ} (he : Real.cos (2 * e) ≠ 0)
    {t b dt db : ℂ} (hdt : ‖dt‖ = 1) (hdb : ‖db‖ = 1) (hT : directTransmissivity 0 t b ≤ Real.cos (2 * e) ^ 2)
    {th ph th' ph' : ℝ} (h : nullifyPhases 0 style 0 0 t b = some (th, ph))
    (h' : nullifyPhases 0 style e e (dt * t) (db * b) = some (th', ph')) :
    (∃ d : ℂ, ‖d‖ = 1 ∧ (mziElements style false e e 0 0 th' ph').t11 * dt = d * (mziElements style false 0 0 0 0 th ph).t11 ∧
      (mziElements style false e e 0 0 th' ph').t21 * db = d * (mziElements style false 0 0 0 0 th ph).t21) ∧
    ∃ d : ℂ, ‖d‖ = 1 ∧ (mziElements style false e e 0 0 th' ph').t12 * dt = d * (mziElements style false 0 0 0 0 th ph).t12 ∧
      (mziElements style false e e 0 0 th' ph').t22 * db = d * (mziElements style false 0 0 0 0 th ph).t22 := by
  have hT' : directTransmissivity 0 (dt * t) (db * b) = directTransmissivity 0 t b := by
    simp [directTransmissivity, hdt, hdb]
  have hu := mziElements_unitary style false 0 0 th ph
  have hu' := mziElements_unitary style false e e th' ph'
  by_cases h0 : t ≠ 0 ∨ b ≠ 0
  · have n1 := nullify_residual style hs le_rfl 0 (by simp) t b (by simpa using (directTransmissivity_mem le_rfl t b).2) h
    have n2 := nullify_residual style hs le_rfl e he (dt * t) (db * b) (by rw [hT']; exact hT) h'
    rw [Real.sqrt_zero] at n1 n2
    exact elements_rel hu hu' hdt hdb h0 (norm_le_zero_iff.1 n1) (norm_le_zero_iff.1 n2)
  · push Not at h0
    obtain ⟨rfl, rfl⟩ := h0
    have z : ∀ (x th ph : ℝ), Real.cos (2 * x) ≠ 0 → nullifyPhases 0 style x x 0 0 = some (th, ph) →
        (mziElements style false x x 0 0 th ph).t21 = 0 := by
      intro x th ph hx hh
      have h1 := norm_ampB_phase x 0 hx le_rfl (by positivity)
      have h2 : th = transmissivityToPhase 0 (mziTerms x x).cs (mziTerms x x).sc := by
        rcases hs with rfl | rfl <;>
        · simp only [nullifyPhases, Option.some.injEq, Prod.mk.injEq] at hh
          rw [← hh.1]; simp [directTransmissivity]
      have h3 := elements_norm_t21 hs x th ph
      rw [← h2] at h1
      rw [← norm_eq_zero, h3]
      exact pow_eq_zero_iff (by norm_num) |>.1 h1
    rw [mul_zero, mul_zero] at h'
    refine elements_rel (t := 0) (b := 1) hu hu' hdt hdb (Or.inr one_ne_zero) ?_ ?_
    · rw [z 0 th ph (by simp) h]; simp
    · rw [z e th' ph' he h']; simp

/-- The ideal phase tells whether the ratio is within reach of couplers with error `e`. -/
theorem theta_ge_iff {e T : ℝ} (he : |e| ≤ Real.pi / 4) (h0 : 0 ≤ T) (h1 : T ≤ 1) :
    4 * |e| ≤ transmissivityToPhase T (mziTerms 0 0).cs (mziTerms 0 0).sc ↔ T ≤ Real.cos (2 * e) ^ 2 := by
  set th := transmissivityToPhase T (mziTerms 0 0).cs (mziTerms 0 0).sc with hth
  have h2 := norm_ampB_phase 0 T (by simp) h0 (by simpa using h1)
  rw [← hth, norm_ampB_sq] at h2
  have h3 := four_cs_sq 0
  simp only [mul_zero, Real.cos_zero, one_pow] at h3
  have h4 : (1 + Real.cos th) / 2 = T := by
    rw [← h2]; linear_combination (-(1 + Real.cos th) / 2) * h3
  have h5 : Real.cos (2 * e) ^ 2 = (1 + Real.cos (4 * |e|)) / 2 := by
    have : Real.cos (4 * |e|) = Real.cos (2 * (2 * e)) := by
      rw [show 4 * |e| = |2 * (2 * e)| by rw [abs_mul, abs_mul]; norm_num; ring, Real.cos_abs]
    rw [this, Real.cos_sq]; ring
  have hr : 0 ≤ th ∧ th ≤ Real.pi := ⟨Real.arccos_nonneg _, Real.arccos_le_pi _⟩
  have hb : 0 ≤ 4 * |e| ∧ 4 * |e| ≤ Real.pi := ⟨by positivity, by linarith⟩
  rw [h5, ← h4, ← Real.strictAntiOn_cos.le_iff_ge ⟨hr.1, hr.2⟩ ⟨hb.1, hb.2⟩]
  constructor <;> intro h <;> linarith

/-! ### The programming run of one subunit -/

/-- The same matrix up to a phase on every row. -/
def RowPhases (w w' : ℕ → ℕ → ℂ) : Prop := ∀ r, ∃ d : ℂ, ‖d‖ = 1 ∧ ∀ j, w' r j = d * w r j

theorem RowPhases.refl (w : ℕ → ℕ → ℂ) : RowPhases w w := fun _ => ⟨1, by simp, by simp⟩

theorem RowPhases.transmissivity {w w' : ℕ → ℕ → ℂ} (h : RowPhases w w') (r s c : ℕ) :
    directTransmissivity 0 (w' r c) (w' s c) = directTransmissivity 0 (w r c) (w s c) := by
  obtain ⟨d, hd, h1⟩ := h r
  obtain ⟨f, hf, h2⟩ := h s
  rw [h1, h2]
  simp [directTransmissivity, hd, hf]

theorem nodePhases_theta {style : PhaseStyle} (hs : style = .top ∨ style = .bottom) (e : ℝ) (c : ℕ) (w : ℕ → ℕ → ℂ) (a : Node) :
    (nodePhases 0 style e c w a).1 = transmissivityToPhase (directTransmissivity 0 (w a.top c) (w a.bottom c))
      (mziTerms e e).cs (mziTerms e e).sc := by
  rcases hs with rfl | rfl <;> simp [nodePhases, nullifyPhases]

theorem stored_of_column {style : PhaseStyle} (hs : style = .top ∨ style = .bottom) {e : ℝ} {c : ℕ} {st st1 : NullState} {a : Node}
    (h : st1.thetas a.id = (nodePhases 0 style e c st.w a).1 ∧ st1.phis a.id = modTwoPi (nodePhases 0 style e c st.w a).2) :
    storedElements style e st1 a.id = mziElements style false e e 0 0 (nodePhases 0 style e c st.w a).1
      (nodePhases 0 style e c st.w a).2 := by
  unfold storedElements
  rw [h.1, h.2, mziElements_modTwoPi style hs]

/-- One column: if all its ratios are within reach, the two runs still agree up to phases. -/
theorem column_rel {style : PhaseStyle} (hs : style = .top ∨ style = .bottom) {e : ℝ} (he : Real.cos (2 * e) ≠ 0)
    {c : ℕ} {nodes : List Node} (hid : (nodes.map Node.id).Nodup) (hg : GoodColumn nodes) {st st' st1 st1' : NullState}
    (hrel : RowPhases st.w st'.w) (h : nullColumn 0 style 0 c nodes st = some st1)
    (h' : nullColumn 0 style e c nodes st' = some st1')
    (hT : ∀ a ∈ nodes, directTransmissivity 0 (st.w a.top c) (st.w a.bottom c) ≤ Real.cos (2 * e) ^ 2) :
    RowPhases st1.w st1'.w := by
  have hs' : style ≠ .symmetric := by rcases hs with rfl | rfl <;> simp
  obtain ⟨x, hx, -, hn, hw⟩ := nullColumn_spec hs 0 0 c nodes hid st
  rw [h] at hx; obtain rfl := Option.some.inj hx
  obtain ⟨x', hx', -, hn', hw'⟩ := nullColumn_spec hs 0 e c nodes hid st'
  rw [h'] at hx'; obtain rfl := Option.some.inj hx'
  have R := fun j => parallelTransform_result (el := storedElements style 0 st1) hg (fun r => st.w r j)
  have R' := fun j => parallelTransform_result (el := storedElements style e st1') hg (fun r => st'.w r j)
  have W : ∀ r j, st1.w r j = parallelTransform (storedElements style 0 st1) nodes (fun r => st.w r j) r :=
    fun r j => congrFun (hw j) r
  have W' : ∀ r j, st1'.w r j = parallelTransform (storedElements style e st1') nodes (fun r => st'.w r j) r :=
    fun r j => congrFun (hw' j) r
  have node : ∀ a ∈ nodes,
      (∃ d : ℂ, ‖d‖ = 1 ∧ ∀ j, st1'.w a.top j = d * st1.w a.top j) ∧ ∃ d : ℂ, ‖d‖ = 1 ∧ ∀ j, st1'.w a.bottom j = d * st1.w a.bottom j := by
    intro a ha
    obtain ⟨dt, hdt, et⟩ := hrel a.top
    obtain ⟨db, hdb, eb⟩ := hrel a.bottom
    have p' := nodePhases_some hs' 0 e c st'.w a
    rw [et, eb] at p'
    obtain ⟨⟨d, hd, e1, e2⟩, ⟨f, hf, e3, e4⟩⟩ := node_rel hs he
      (th := (nodePhases 0 style 0 c st.w a).1) (ph := (nodePhases 0 style 0 c st.w a).2)
      (th' := (nodePhases 0 style e c st'.w a).1) (ph' := (nodePhases 0 style e c st'.w a).2)
      hdt hdb (hT a ha) (nodePhases_some hs' 0 0 c st.w a) p'
    rw [← stored_of_column hs (hn a ha), ← stored_of_column hs (hn' a ha)] at e1 e2 e3 e4
    refine ⟨⟨d, hd, fun j => ?_⟩, ⟨f, hf, fun j => ?_⟩⟩
    · rw [W, W', (R j).top a ha, (R' j).top a ha, et, eb]
      linear_combination st.w a.top j * e1 + st.w a.bottom j * e2
    · rw [W, W', (R j).bottom a ha, (R' j).bottom a ha, et, eb]
      linear_combination st.w a.top j * e3 + st.w a.bottom j * e4
  intro r
  by_cases hr : ∀ a ∈ nodes, r ≠ a.top ∧ r ≠ a.bottom
  · obtain ⟨d, hd, e1⟩ := hrel r
    refine ⟨d, hd, fun j => ?_⟩
    rw [W, W', (R j).other r hr, (R' j).other r hr]
    exact e1 j
  · push Not at hr
    obtain ⟨a, ha, hr⟩ := hr
    by_cases h1 : r = a.top
    · rw [h1]; exact (node a ha).1
    · rw [hr h1]; exact (node a ha).2

/-- The whole run: the ideal phases are all at least `4|e|` iff the run with errors nulls every top rail; and then the
two runs agree up to phases. -/
theorem loop_rel {style : PhaseStyle} (hs : style = .top ∨ style = .bottom) {e : ℝ} (he : |e| < Real.pi / 4)
    {c : ℕ} {nodes : List Node} (hid : (nodes.map Node.id).Nodup) (hg : ∀ k, GoodColumn (columnNodes nodes k))
    (hdark : ∀ a ∈ nodes, ∀ b ∈ nodes, a.column < b.column → b.top ≠ a.top ∧ b.bottom ≠ a.top)
    {v v' : ℕ → ℕ → ℂ} (hv : RowPhases v v') (K : ℕ) :
    ∀ st st', nullLoop 0 style 0 c nodes (List.range K) ⟨v, fun _ => 0, fun _ => 0⟩ = some st →
      nullLoop 0 style e c nodes (List.range K) ⟨v', fun _ => 0, fun _ => 0⟩ = some st' →
      ((∀ a ∈ nodes, a.column < K → 4 * |e| ≤ st.thetas a.id) ↔ ∀ a ∈ nodes, a.column < K → st'.w a.top c = 0) ∧
      ((∀ a ∈ nodes, a.column < K → 4 * |e| ≤ st.thetas a.id) → RowPhases st.w st'.w) := by
  have hcos : Real.cos (2 * e) ≠ 0 := by
    rw [abs_lt] at he
    exact (Real.cos_pos_of_mem_Ioo ⟨by linarith, by linarith⟩).ne'
  have hs' : style ≠ .symmetric := by rcases hs with rfl | rfl <;> simp
  induction K with
  | zero =>
    intro st st' h h'
    simp only [List.range_zero, nullLoop, Option.some.injEq] at h h'
    subst h; subst h'
    exact ⟨⟨fun _ a _ h => by omega, fun _ a _ h => by omega⟩, fun _ => hv⟩
  | succ K ih =>
    intro st st' hst hst'
    rw [List.range_succ, nullLoop_append] at hst hst'
    obtain ⟨s0, h0, h1⟩ := Option.bind_eq_some_iff.1 hst
    obtain ⟨s0', h0', h1'⟩ := Option.bind_eq_some_iff.1 hst'
    simp only [nullLoop, Option.bind_eq_bind, Option.bind_eq_some_iff, Option.some.injEq] at h1 h1'
    obtain ⟨s1, h1, rfl⟩ := h1
    obtain ⟨s1', h1', rfl⟩ := h1'
    obtain ⟨ihi, ihr⟩ := ih s0 s0' h0 h0'
    have hidk : ((columnNodes nodes K).map Node.id).Nodup :=
      List.Nodup.sublist (List.Sublist.map _ List.filter_sublist) hid
    obtain ⟨x, hx, ho, hn, hw⟩ := nullColumn_spec hs 0 0 c (columnNodes nodes K) hidk s0
    rw [h1] at hx; obtain rfl := Option.some.inj hx
    obtain ⟨x', hx', -, hn', hw'⟩ := nullColumn_spec hs 0 e c (columnNodes nodes K) hidk s0'
    rw [h1'] at hx'; obtain rfl := Option.some.inj hx'
    have R' := parallelTransform_result (el := storedElements style e s1') (hg K) (fun r => s0'.w r c)
    have W' : ∀ r, s1'.w r c = parallelTransform (storedElements style e s1') (columnNodes nodes K) (fun r => s0'.w r c) r :=
      fun r => congrFun (hw' c) r
    -- earlier nodes
    have old : ∀ a ∈ nodes, a.column < K → s1.thetas a.id = s0.thetas a.id ∧ s1'.w a.top c = s0'.w a.top c := by
      intro a ha hK
      refine ⟨(ho a.id fun b hb hbe => ?_).1, ?_⟩
      · obtain ⟨hb, hbk⟩ := mem_columnNodes.1 hb
        have := List.inj_on_of_nodup_map hid hb ha hbe
        subst this; omega
      · rw [W', R'.other]
        intro b hb
        obtain ⟨hb, hbk⟩ := mem_columnNodes.1 hb
        have := hdark a ha b hb (by omega)
        exact ⟨this.1.symm, this.2.symm⟩
    have oldA : (∀ a ∈ nodes, a.column < K + 1 → 4 * |e| ≤ s1.thetas a.id) → ∀ a ∈ nodes, a.column < K → 4 * |e| ≤ s0.thetas a.id :=
      fun h a ha hK => by rw [← (old a ha hK).1]; exact h a ha (by omega)
    have new : ∀ a ∈ nodes, a.column = K →
        (4 * |e| ≤ s1.thetas a.id ↔ directTransmissivity 0 (s0.w a.top c) (s0.w a.bottom c) ≤ Real.cos (2 * e) ^ 2) := by
      intro a ha hK
      have := hn a (mem_columnNodes.2 ⟨ha, hK⟩)
      rw [this.1, nodePhases_theta hs]
      exact theta_ge_iff he.le (directTransmissivity_mem le_rfl _ _).1 (directTransmissivity_mem le_rfl _ _).2
    refine ⟨⟨?_, ?_⟩, ?_⟩
    · intro hA a ha hK
      rcases Nat.lt_succ_iff_lt_or_eq.1 hK with hlt | heq
      · rw [(old a ha hlt).2]
        exact ihi.1 (oldA hA) a ha hlt
      · have hac : a ∈ columnNodes nodes K := mem_columnNodes.2 ⟨ha, heq⟩
        rw [W', R'.top a hac, stored_of_column hs (hn' a hac)]
        have hT := (new a ha heq).1 (hA a ha hK)
        rw [← (ihr (oldA hA)).transmissivity] at hT
        have := nullify_residual style hs le_rfl e hcos _ _ hT (nodePhases_some hs' 0 e c s0'.w a)
        rw [Real.sqrt_zero] at this
        exact norm_le_zero_iff.1 this
    · intro hB
      have hB0 : ∀ a ∈ nodes, a.column < K → s0'.w a.top c = 0 := fun a ha hK => by
        rw [← (old a ha hK).2]; exact hB a ha (by omega)
      have hA0 := ihi.2 hB0
      intro a ha hK
      rcases Nat.lt_succ_iff_lt_or_eq.1 hK with hlt | heq
      · rw [(old a ha hlt).1]; exact hA0 a ha hlt
      · have hac : a ∈ columnNodes nodes K := mem_columnNodes.2 ⟨ha, heq⟩
        rw [new a ha heq, ← (ihr hA0).transmissivity]
        have h2 := hB a ha hK
        rw [W', R'.top a hac, stored_of_column hs (hn' a hac)] at h2
        have h3 := nulled_share hs _ _ _ _ _ h2
        unfold directTransmissivity
        rw [add_zero]
        exact div_le_of_le_mul₀ (by positivity) (by positivity) h3
    · intro hA
      exact column_rel hs hcos hidk (hg K) (ihr (oldA hA)) h1 h1' fun a ha => by
        obtain ⟨ha, hK⟩ := mem_columnNodes.1 ha
        exact (new a ha hK).1 (hA a ha (by omega))

/-- `_program_vector_unit` on a tree, any equal errors: structure of the result. -/
theorem programVectorUnit_struct {style : PhaseStyle} (hs : style = .top ∨ style = .bottom) (eps e : ℝ)
    (m R c : ℕ) (hm : 2 ≤ m) (balanced : Bool) (v : ℕ → ℕ → ℂ) :
    ∃ P w, programVectorUnit eps style e m c (tree m R balanced) v = some (P, w) ∧
      (∀ j, (fun r => w r j) =
        seqApply (programmedElements style e P) (executionOrder (tree m R balanced)) (fun r => v r j)) ∧
      P.gammas (m - 1) = -arg (w (m - 1) c) := by
  have hid : ((tree m R balanced).map Node.id).Nodup := (tree_ids m R balanced).nodup_iff.2 List.nodup_range
  obtain ⟨st, h1, h2, h3⟩ := nullLoop_spec hs eps e c (tree m R balanced) hid
    (List.range (numColumns (tree m R balanced))) List.nodup_range ⟨v, fun _ => 0, fun _ => 0⟩
  refine ⟨⟨st.thetas, st.phis, fun r => -arg ((if r = m - 1 then 1 else 0) * st.w (m - 1) c)⟩, st.w,
    by simp [programVectorUnit, h1], ?_, by simp⟩
  intro j
  rw [h3 j, columnsApply_eq_seq (fun k => tree_goodColumn hm balanced k)]
  rfl

theorem programVectorUnit_rel {style : PhaseStyle} (hs : style = .top ∨ style = .bottom) {e : ℝ} (he : |e| < Real.pi / 4)
    (m R c : ℕ) (hm : 2 ≤ m) (balanced : Bool) {v v' : ℕ → ℕ → ℂ} (hv : RowPhases v v') {P P' : Params} {w w' : ℕ → ℕ → ℂ}
    (h : programVectorUnit 0 style 0 m c (tree m R balanced) v = some (P, w))
    (h' : programVectorUnit 0 style e m c (tree m R balanced) v' = some (P', w')) :
    ((∀ k, k < m - 1 → 4 * |e| ≤ P.thetas k) ↔ ∀ r, r + 1 < m → w' r c = 0) ∧
    ((∀ k, k < m - 1 → 4 * |e| ≤ P.thetas k) → RowPhases w w') := by
  simp only [programVectorUnit, Option.bind_eq_bind, Option.bind_eq_some_iff, Option.some.injEq, Prod.mk.injEq] at h h'
  obtain ⟨st, h1, hP, rfl⟩ := h
  obtain ⟨st', h1', -, rfl⟩ := h'
  have hid : ((tree m R balanced).map Node.id).Nodup := (tree_ids m R balanced).nodup_iff.2 List.nodup_range
  obtain ⟨r1, r2⟩ := loop_rel hs he hid (tree_goodColumn hm balanced) (tree_dark hm balanced) hv _ st st' h1 h1'
  have hA : (∀ k, k < m - 1 → 4 * |e| ≤ P.thetas k) ↔
      ∀ a ∈ tree m R balanced, a.column < numColumns (tree m R balanced) → 4 * |e| ≤ st.thetas a.id := by
    rw [← hP]
    constructor
    · intro h a ha _
      apply h
      have : a.id ∈ (tree m R balanced).map Node.id := List.mem_map_of_mem ha
      rwa [(tree_ids m R balanced).mem_iff, List.mem_range] at this
    · intro h k hk
      have : k ∈ (tree m R balanced).map Node.id := (tree_ids m R balanced).mem_iff.2 (List.mem_range.2 hk)
      obtain ⟨a, ha, rfl⟩ := List.mem_map.1 this
      exact h a ha (column_lt_numColumns ha)
  have hB : (∀ r, r + 1 < m → st'.w r c = 0) ↔
      ∀ a ∈ tree m R balanced, a.column < numColumns (tree m R balanced) → st'.w a.top c = 0 := by
    constructor
    · intro h a ha _
      have := tree_rails hm balanced ha
      exact h _ (by omega)
    · intro h r hr
      have : r ∈ (tree m R balanced).map Node.top := (tree_tops m R balanced).mem_iff.2 (List.mem_range.2 (by omega))
      obtain ⟨a, ha, rfl⟩ := List.mem_map.1 this
      exact h a ha (column_lt_numColumns ha)
  rw [hA, hB]
  exact ⟨r1, r2⟩

/-! ### The loop of `cascade` -/

/-- Elements stored in the phase lists of a cascade with equal errors. -/
noncomputable def listElementsErr (style : PhaseStyle) (e : ℝ) (th ph : List ℝ) (k : ℕ) : Elements :=
  mziElements style false e e 0 0 (th.getD k 0) (ph.getD k 0)

/-- What the loop over `k, ..., 1` returns, for any equal errors. -/
theorem cascadeLoop_struct {style : PhaseStyle} (hs : style = .top ∨ style = .bottom) (eps e : ℝ)
    (n : ℕ) (b : Bool) : ∀ (k : ℕ) (st : CascadeState), st.thetas.length = st.numNodes →
      st.phis.length = st.numNodes →
    ∃ st' th ph g, cascadeLoop eps style e n b (downTo k) st = some st' ∧
      st'.nodes = st.nodes ++ parts n b k st.numNodes st.numColumns ∧
      st'.thetas = st.thetas ++ th ∧ th.length = tri k ∧ st'.phis = st.phis ++ ph ∧ ph.length = tri k ∧
      st'.gammas = g ++ st.gammas ∧ g.length = k ∧
      (∀ i, i < k → g.getD i 0 = -arg (st'.w (i + 1) (i + 1))) ∧
      (∀ j, (fun r => st'.w r j) = seqApply (listElementsErr style e st'.thetas st'.phis)
        (execParts n b k st.numNodes st.numColumns) (fun r => st.w r j)) := by
  intro k
  induction k with
  | zero =>
    intro st h1 h2
    exact ⟨st, [], [], [], rfl, by simp [parts], by simp, rfl, by simp, rfl, by simp, rfl, by simp, fun _ => rfl⟩
  | succ k ih =>
    intro st hth hph
    obtain ⟨P, w, hp, hpw, hpg⟩ := programVectorUnit_struct hs eps e (k + 1 + 1) n (k + 1) (by omega) b st.w
    set st1 : CascadeState :=
      { nodes := st.nodes ++ subunitNodes n (k + 1) b st.numNodes st.numColumns
        thetas := st.thetas ++ (List.range (k + 1)).map P.thetas
        phis := st.phis ++ (List.range (k + 1)).map P.phis
        gammas := P.gammas (k + 1) :: st.gammas
        numColumns := st.numColumns + Simphox.numColumns (tree (k + 1 + 1) n b)
        numNodes := st.numNodes + (tree (k + 1 + 1) n b).length
        w := w } with hst1
    have hstep : cascadeStep eps style e n b st (k + 1) = some st1 := by
      simp [cascadeStep, hp, hst1]
    have hN : st1.numNodes = st.numNodes + (k + 1) := by simp [hst1, tree_length]
    obtain ⟨st', th, ph, g, e1, e2, e3, e4, e5, e6, e7, e8, e9, e10⟩ := ih st1
      (by simp [hst1, hth, tree_length]) (by simp [hst1, hph, tree_length])
    have hrow : ∀ r j, k < r → st'.w r j = w r j := by
      intro r j hr
      have hc : st'.w r j = _ := congrFun (e10 j) r
      rw [hc, seqApply_other]
      intro a ha
      have := parts_rails ((execParts_perm n b k _ _).mem_iff.1 ha)
      omega
    have hel : ∀ i, i < k + 1 → listElementsErr style e st'.thetas st'.phis (i + st.numNodes) =
        programmedElements style e P i := by
      intro i hi
      have t1 : st'.thetas.getD (i + st.numNodes) 0 = P.thetas i := by
        rw [e3, ← hth]; exact getD_mid _ _ _ _ hi
      have t2 : st'.phis.getD (i + st.numNodes) 0 = P.phis i := by
        rw [e5, ← hph]; exact getD_mid _ _ _ _ hi
      unfold listElementsErr programmedElements
      rw [t1, t2]
    refine ⟨st', (List.range (k + 1)).map P.thetas ++ th, (List.range (k + 1)).map P.phis ++ ph,
      g ++ [P.gammas (k + 1)], ?_, ?_, ?_, ?_, ?_, ?_, ?_, ?_, ?_, ?_⟩
    · rw [downTo_succ]; simp [cascadeLoop, hstep, e1]
    · rw [e2, hN, parts, ← List.append_assoc]
    · rw [e3]; simp [hst1]
    · simp [e4, tri]; omega
    · rw [e5]; simp [hst1]
    · simp [e6, tri]; omega
    · rw [e7]; simp [hst1]
    · simp [e8]
    · intro i hi
      rcases Nat.lt_succ_iff_lt_or_eq.1 hi with h | rfl
      · rw [← e9 i h]
        simp [List.getD_eq_getElem?_getD, List.getElem?_append, e8, h]
      · have : (g ++ [P.gammas (i + 1)]).getD i 0 = P.gammas (i + 1) := by
          simp [List.getD_eq_getElem?_getD, e8]
        rw [this, hrow (i + 1) (i + 1) (by omega)]
        exact hpg
    · intro j
      rw [e10 j, execParts, seqApply_append, hN]
      congr 1
      rw [seqApply_shift _ (programmedElements style e P)]
      · exact hpw j
      · intro a ha
        apply hel
        have : a.id ∈ (tree (k + 2) n b).map Node.id := List.mem_map_of_mem (mem_executionOrder.1 ha)
        rw [(tree_ids (k + 2) n b).mem_iff, List.mem_range] at this
        exact this

/-- Comparison of the two loops: all phases the ideal loop adds are at least `4|e|` iff the loop with errors makes the
matrix triangular. -/
theorem cascadeLoop_rel {style : PhaseStyle} (hs : style = .top ∨ style = .bottom) {e : ℝ} (he : |e| < Real.pi / 4)
    (n : ℕ) (b : Bool) : ∀ (k : ℕ) (st st' f f' : CascadeState), st.thetas.length = st.numNodes →
      st.phis.length = st.numNodes → st'.thetas.length = st'.numNodes → st'.phis.length = st'.numNodes →
      RowPhases st.w st'.w → cascadeLoop 0 style 0 n b (downTo k) st = some f →
      cascadeLoop 0 style e n b (downTo k) st' = some f' →
      ∃ th, f.thetas = st.thetas ++ th ∧ ((∀ x ∈ th, 4 * |e| ≤ x) ↔ ∀ c, 1 ≤ c → c ≤ k → ∀ r, r < c → f'.w r c = 0) := by
  intro k
  induction k with
  | zero =>
    intro st st' f f' _ _ _ _ _ h _
    refine ⟨[], ?_, ?_⟩
    · have : some st = some f := h
      rw [← Option.some.inj this]; simp
    · constructor
      · intro _ c h1 h2; omega
      · intro _ x hx; simp at hx
  | succ k ih =>
    intro st st' f f' l1 l2 l3 l4 hrel hf hf'
    rw [downTo_succ] at hf hf'
    simp only [cascadeLoop, Option.bind_eq_bind, Option.bind_eq_some_iff] at hf hf'
    obtain ⟨s1, hs1, hf⟩ := hf
    obtain ⟨s1', hs1', hf'⟩ := hf'
    obtain ⟨P, w, hp, -, -⟩ := programVectorUnit_struct hs 0 0 (k + 1 + 1) n (k + 1) (by omega) b st.w
    obtain ⟨P', w', hp', -, -⟩ := programVectorUnit_struct hs 0 e (k + 1 + 1) n (k + 1) (by omega) b st'.w
    simp only [cascadeStep, hp, hp', Option.bind_eq_bind, Option.bind_some, Option.some.injEq] at hs1 hs1'
    obtain ⟨A, B⟩ := programVectorUnit_rel hs he (k + 1 + 1) n (k + 1) (by omega) b hrel hp hp'
    have hl1 : s1.thetas.length = s1.numNodes := by rw [← hs1]; simp [l1, tree_length]
    have hl2 : s1.phis.length = s1.numNodes := by rw [← hs1]; simp [l2, tree_length]
    have hl3 : s1'.thetas.length = s1'.numNodes := by rw [← hs1']; simp [l3, tree_length]
    have hl4 : s1'.phis.length = s1'.numNodes := by rw [← hs1']; simp [l4, tree_length]
    have hw1 : s1.w = w := by rw [← hs1]
    have hw1' : s1'.w = w' := by rw [← hs1']
    have ht1 : s1.thetas = st.thetas ++ (List.range (k + 1)).map P.thetas := by rw [← hs1]
    -- the last column of the subunit stays dark iff it was
    have hcol : (∀ r, r < k + 1 → f'.w r (k + 1) = 0) ↔ ∀ r, r + 1 < k + 1 + 1 → w' r (k + 1) = 0 := by
      obtain ⟨x, -, -, -, hx, -, -, -, -, -, -, -, -, e10⟩ := cascadeLoop_struct hs 0 e n b k s1' hl3 hl4
      rw [hf'] at hx
      obtain rfl := Option.some.inj hx
      have hpow := seqApply_power (listElementsErr style e f'.thetas f'.phis)
          (execParts n b k s1'.numNodes s1'.numColumns) (k + 1)
          (fun a ha => by have := parts_rails ((execParts_perm n b k _ _).mem_iff.1 ha); omega)
          (fun a _ => mziElements_unitary _ _ _ _ _ _) (fun r => w' r (k + 1))
      have hw : ∀ r : Fin (k + 1), seqApply (listElementsErr style e f'.thetas f'.phis)
          (execParts n b k s1'.numNodes s1'.numColumns) (fun r => w' r (k + 1)) r.val = f'.w r.val (k + 1) := by
        intro r
        have := congrFun (e10 (k + 1)) r.val
        rw [hw1'] at this
        exact this.symm
      simp only [hw] at hpow
      have zero_iff : ∀ g : ℕ → ℂ, (∑ r : Fin (k + 1), ‖g r.val‖ ^ 2 = 0) ↔ ∀ r, r < k + 1 → g r = 0 := by
        intro g
        rw [Finset.sum_eq_zero_iff_of_nonneg fun _ _ => sq_nonneg _]
        constructor
        · intro h r hr
          simpa using h ⟨r, hr⟩ (Finset.mem_univ _)
        · intro h r _
          simp [h r.val r.isLt]
      have z1 := zero_iff fun r => f'.w r (k + 1)
      have z2 := zero_iff fun r => w' r (k + 1)
      rw [← z1, hpow, z2]
      constructor <;> intro h r hr <;> exact h r (by omega)
    by_cases hA : ∀ x, x < k + 1 + 1 - 1 → 4 * |e| ≤ P.thetas x
    · obtain ⟨th, h1, h2⟩ := ih s1 s1' f f' hl1 hl2 hl3 hl4 (by rw [hw1, hw1']; exact B hA) hf hf'
      refine ⟨(List.range (k + 1)).map P.thetas ++ th, by rw [h1, ht1]; simp, ?_⟩
      have h3 : (∀ x ∈ (List.range (k + 1)).map P.thetas ++ th, 4 * |e| ≤ x) ↔ ∀ x ∈ th, 4 * |e| ≤ x := by
        constructor
        · intro h x hx; exact h x (by simp [hx])
        · intro h x hx
          rcases List.mem_append.1 hx with hx | hx
          · obtain ⟨i, hi, rfl⟩ := List.mem_map.1 hx
            exact hA i (by rw [List.mem_range] at hi; omega)
          · exact h x hx
      rw [h3, h2]
      constructor
      · intro h c hc1 hc2 r hr
        rcases Nat.lt_or_ge c (k + 1) with hlt | hge
        · exact h c hc1 (by omega) r hr
        · obtain rfl : c = k + 1 := by omega
          exact hcol.2 (A.1 hA) r hr
      · intro h c hc1 hc2; exact h c hc1 (by omega)
    · obtain ⟨x, th, -, -, hx, -, hth, -⟩ := cascadeLoop_struct hs 0 0 n b k s1 hl1 hl2
      rw [hf] at hx
      obtain rfl := Option.some.inj hx
      refine ⟨(List.range (k + 1)).map P.thetas ++ th, by rw [hth, ht1]; simp, ?_⟩
      constructor
      · intro h
        exact absurd (fun i hi => h _ (List.mem_append_left _ (List.mem_map_of_mem (List.mem_range.2 (by omega))))) hA
      · intro h
        exact absurd (A.2 (hcol.1 (h (k + 1) (by omega) le_rfl))) hA

/-! ### C175 -/

/-- What `cascade` returns for equal errors `e`, in terms of the final matrix of the run. -/
theorem cascade_err_matrix (e : ℝ) (n : ℕ) (hn : 2 ≤ n) (b : Bool) (u : Matrix (Fin n) (Fin n) ℂ) {st : CascadeState}
    (h : cascadeLoop 0 .top e n b (downTo (n - 1)) ⟨[], [], [], [], 0, 0,
      fun r c => if h : r < n ∧ c < n then (starRingEnd ℂ) (u ⟨c, h.2⟩ ⟨r, h.1⟩) else 0⟩ = some st) :
    ∃ P, cascade 0 .top e n b u = some (errorMesh (parts n b (n - 1) 0 0) e .top, P) ∧
      (∀ k, P.thetas k = st.thetas.getD k 0) ∧
      (errorMesh (parts n b (n - 1) 0 0) e .top).WellFormed n ∧
      (∀ r, r < n → P.gammas r = -arg (st.w r r)) ∧
      ∀ r c : Fin n, ((errorMesh (parts n b (n - 1) 0 0) e .top).matrix n P false * uᴴ) r c =
        exp (I * P.gammas r.val) * st.w r.val c.val := by
  obtain ⟨x, th, ph, g, e1, e2, e3, e4, e5, e6, e7, e8, e9, e10⟩ := cascadeLoop_struct (Or.inl rfl) 0 e n b (n - 1)
    ⟨[], [], [], [], 0, 0, fun r c => if h : r < n ∧ c < n then (starRingEnd ℂ) (u ⟨c, h.2⟩ ⟨r, h.1⟩) else 0⟩ rfl rfl
  rw [h] at e1
  obtain rfl := Option.some.inj e1
  simp only [List.nil_append, List.append_nil] at e2 e3 e5 e7
  set P : Params := ⟨fun k => st.thetas.getD k 0, fun k => st.phis.getD k 0,
    fun k => (-arg (st.w 0 0) :: st.gammas).getD k 0⟩ with hP
  have hwf : (errorMesh (parts n b (n - 1) 0 0) e .top).WellFormed n := by
    refine errorMesh_wellFormed e .top ?_ ?_ (parts_disjoint n b (n - 1) 0 0 (by omega))
    · intro a ha
      have : a.id ∈ (parts n b (n - 1) 0 0).map Node.id := List.mem_map_of_mem ha
      rw [(parts_ids n b (n - 1) 0 0).mem_iff, List.mem_range'_1] at this
      rw [parts_length]; omega
    · intro a ha
      have := parts_rails ha
      omega
  refine ⟨P, ?_, fun _ => rfl, hwf, ?_, ?_⟩
  · rw [downTo] at h
    simp [cascade, h, e2, hP]
  · intro r hr
    rcases r with _ | r
    · rfl
    · simp only [hP]
      rw [e7, ← e9 r (by omega)]
      rfl
  · intro r c
    set M := (errorMesh (parts n b (n - 1) 0 0) e .top) with hM
    have h1 : (M.matrix n P false * uᴴ) r c = (M.matrix n P false).mulVec ((uᴴ).col c) r := rfl
    rw [h1, ← cascade_w0_col, Mesh.matrix_mulVec hwf]
    simp only [Mesh.apply, Bool.false_eq_true, if_false]
    rw [columnsApply_eq_seq hwf.goodColumn]
    have h2 : (columnOrder M.nodes false).flatMap (columnNodes M.nodes) =
      executionOrder (parts n b (n - 1) 0 0) := rfl
    rw [h2, seqApply_parts _ n b (n - 1) 0 0 (by omega)]
    have h3 := congrFun (e10 c.val) r.val
    rw [h3]
    rw [seqApply_congr (el' := listElementsErr .top e st.thetas st.phis)]
    · simp only [restrict, gammaApply]
    · intro a ha
      have ha' := (execParts_perm n b (n - 1) 0 0).mem_iff.1 ha
      rw [hM, errorMesh_elements]
      · rfl
      · exact hwf.ids a ha'

/-- C175: for every coupler error `|e| < π/4`, every unitary `u` and both layouts: `cascade(u)` for couplers with error
`e` implements `u` exactly if and only if every internal phase `theta` that `cascade(u)` computes for ideal couplers is
at least `4 |e|`. -/
theorem C175_cascade_errors_iff (e : ℝ) (he : |e| < Real.pi / 4) (n : ℕ) (hn : 2 ≤ n) (balanced : Bool)
    (u : Matrix (Fin n) (Fin n) ℂ) (hu : u ∈ unitaryGroup (Fin n) ℂ) :
    ∃ M0 P0 M P, cascade 0 .top 0 n balanced u = some (M0, P0) ∧ cascade 0 .top e n balanced u = some (M, P) ∧
      M.nodes = M0.nodes ∧ (∀ p ∈ M.errors, p = (e, e)) ∧
      (M.matrix n P false = u ↔ ∀ a ∈ M0.nodes, 4 * |e| ≤ P0.thetas a.id) := by
  obtain ⟨st, _, _, _, h1, -⟩ := cascadeLoop_struct (Or.inl rfl) 0 0 n balanced (n - 1)
    ⟨[], [], [], [], 0, 0, fun r c => if h : r < n ∧ c < n then (starRingEnd ℂ) (u ⟨c, h.2⟩ ⟨r, h.1⟩) else 0⟩ rfl rfl
  obtain ⟨st', _, _, _, h1', -⟩ := cascadeLoop_struct (Or.inl rfl) 0 e n balanced (n - 1)
    ⟨[], [], [], [], 0, 0, fun r c => if h : r < n ∧ c < n then (starRingEnd ℂ) (u ⟨c, h.2⟩ ⟨r, h.1⟩) else 0⟩ rfl rfl
  obtain ⟨P0, c1, c2, c3, c4, c5⟩ := cascade_err_matrix 0 n hn balanced u h1
  obtain ⟨P, d1, d2, hwf, d4, hE⟩ := cascade_err_matrix e n hn balanced u h1'
  obtain ⟨th, t1, t2⟩ := cascadeLoop_rel (Or.inl rfl) he n balanced (n - 1) _ _ st st' rfl rfl rfl rfl
    (RowPhases.refl _) h1 h1'
  refine ⟨_, P0, _, P, c1, d1, rfl, by simp [errorMesh], ?_⟩
  set M := (errorMesh (parts n balanced (n - 1) 0 0) e .top) with hM
  have hMu := C06_lossless_unitary n M hwf (errorMesh_lossless _ _ _) P false
  have huu : uᴴ * u = 1 := by
    have := mem_unitaryGroup_iff'.1 hu
    rwa [star_eq_conjTranspose] at this
  have huu2 : u * uᴴ = 1 := by
    have := mem_unitaryGroup_iff.1 hu
    rwa [star_eq_conjTranspose] at this
  have huu' : uᴴ ∈ unitaryGroup (Fin n) ℂ := by
    have := Unitary.star_mem hu
    rwa [star_eq_conjTranspose] at this
  have hEu : M.matrix n P false * uᴴ ∈ unitaryGroup (Fin n) ℂ := mul_mem hMu huu'
  -- implementing `u` is the same as triangularising
  have hmat : M.matrix n P false = u ↔ ∀ c, 1 ≤ c → c ≤ n - 1 → ∀ r, r < c → st'.w r c = 0 := by
    constructor
    · intro h c hc1 hc2 r hr
      have := hE ⟨r, by omega⟩ ⟨c, by omega⟩
      rw [h, huu2, Matrix.one_apply_ne (by simp [Fin.ext_iff]; omega)] at this
      exact (mul_eq_zero.1 this.symm).resolve_left (exp_ne_zero _)
    · intro h
      have key := near_identity hEu le_rfl ?_ ?_
      · have h1 : M.matrix n P false - u = (M.matrix n P false * uᴴ - 1) * u := by
          rw [sub_mul, Matrix.mul_assoc, huu, Matrix.mul_one, Matrix.one_mul]
        apply eq_of_frobSq
        rw [h1, frobSq_mul_unitary hu]
        simpa using key
      · intro i
        refine ⟨‖st'.w i.val i.val‖, norm_nonneg _, ?_⟩
        rw [hE, d4 _ i.isLt]
        exact exp_neg_arg_mul _
      · intro c
        rw [mul_zero]
        apply le_of_eq
        apply Finset.sum_eq_zero
        intro r hr
        have hr' : r.val < c.val := by simpa using hr
        rw [hE, h c.val (by omega) (by omega) r.val hr']
        simp
  rw [hmat, ← t2]
  -- the list of ideal phases, by node
  have hlen : st.thetas.length = tri (n - 1) := by
    obtain ⟨x, th, _, _, hx, _, ht, hl, _⟩ := cascadeLoop_struct (Or.inl rfl) 0 0 n balanced (n - 1)
      ⟨[], [], [], [], 0, 0, fun r c => if h : r < n ∧ c < n then (starRingEnd ℂ) (u ⟨c, h.2⟩ ⟨r, h.1⟩) else 0⟩ rfl rfl
    rw [h1] at hx
    obtain rfl := Option.some.inj hx
    rw [ht]; simpa using hl
  rw [List.nil_append] at t1
  have hids : ∀ k, (∃ a ∈ parts n balanced (n - 1) 0 0, a.id = k) ↔ k < tri (n - 1) := by
    intro k
    rw [← List.mem_map (f := Node.id), (parts_ids n balanced (n - 1) 0 0).mem_iff, List.mem_range'_1]
    omega
  change (∀ x ∈ th, 4 * |e| ≤ x) ↔ ∀ a ∈ parts n balanced (n - 1) 0 0, 4 * |e| ≤ P0.thetas a.id
  rw [← t1]
  constructor
  · intro h a ha
    have hk := (hids a.id).1 ⟨a, ha, rfl⟩
    rw [c2, List.getD_eq_getElem?_getD, List.getElem?_eq_getElem (by omega), Option.getD_some]
    exact h _ (List.getElem_mem _)
  · intro h x hx
    obtain ⟨k, hk, rfl⟩ := List.getElem_of_mem hx
    obtain ⟨a, ha, hak⟩ := (hids k).2 (by omega)
    have := h a ha
    rwa [c2, hak, List.getD_eq_getElem?_getD, List.getElem?_eq_getElem hk, Option.getD_some] at this

/-- C175, monotone: a unitary that is implemented exactly with coupler errors `e` is implemented exactly with every
smaller error, of either sign. -/
theorem C175_smaller_errors (e e' : ℝ) (he : |e| < Real.pi / 4) (h' : |e'| ≤ |e|) (n : ℕ) (hn : 2 ≤ n) (balanced : Bool)
    (u : Matrix (Fin n) (Fin n) ℂ) (hu : u ∈ unitaryGroup (Fin n) ℂ)
    (h : ∃ M P, cascade 0 .top e n balanced u = some (M, P) ∧ M.matrix n P false = u) :
    ∃ M P, cascade 0 .top e' n balanced u = some (M, P) ∧ M.matrix n P false = u := by
  obtain ⟨M0, P0, M, P, h1, h2, -, -, h3⟩ := C175_cascade_errors_iff e he n hn balanced u hu
  obtain ⟨M0', P0', M', P', h1', h2', -, -, h3'⟩ := C175_cascade_errors_iff e' (h'.trans_lt he) n hn balanced u hu
  rw [h1] at h1'
  simp only [Option.some.injEq, Prod.mk.injEq] at h1'
  obtain ⟨rfl, rfl⟩ := h1'
  obtain ⟨Mx, Px, hx, hxu⟩ := h
  rw [h2] at hx
  simp only [Option.some.injEq, Prod.mk.injEq] at hx
  obtain ⟨rfl, rfl⟩ := hx
  exact ⟨M', P', h2', h3'.2 fun a ha => le_trans (by linarith) (h3.1 hxu a ha)⟩

/-- C175 for a 2x2 unitary: errors `e` of the couplers are harmless exactly if `|u[1, 0]| ≤ cos 2e`. -/
theorem C175_two_by_two (e : ℝ) (he : |e| < Real.pi / 4) (u : Matrix (Fin 2) (Fin 2) ℂ)
    (hu : u ∈ unitaryGroup (Fin 2) ℂ) :
    (∃ M P, cascade 0 .top e 2 false u = some (M, P) ∧ M.matrix 2 P false = u) ↔ ‖u 1 0‖ ≤ Real.cos (2 * e) := by
  obtain ⟨M0, P0, M, P, h1, h2, -, -, h3⟩ := C175_cascade_errors_iff e he 2 le_rfl false u hu
  have hsum : ‖u 1 0‖ ^ 2 + ‖u 1 1‖ ^ 2 = 1 := by
    have := congrFun (congrFun (mem_unitaryGroup_iff.1 hu) 1) 1
    simp only [star_eq_conjTranspose, Matrix.mul_apply, Fin.sum_univ_two, conjTranspose_apply, one_apply_eq] at this
    have h := congrArg Complex.re this
    simp only [RCLike.star_def, Complex.mul_conj, Complex.add_re, Complex.ofReal_re, Complex.one_re, Complex.normSq_eq_norm_sq] at h
    exact h
  have hc : 0 ≤ Real.cos (2 * e) := by
    apply Real.cos_nonneg_of_neg_pi_div_two_le_of_le <;> linarith [abs_lt.1 he]
  have hM : M.matrix 2 P false = u ↔ ‖u 1 0‖ ≤ Real.cos (2 * e) := by
    rw [h3]
    have hnodes : M0.nodes = parts 2 false 1 0 0 ∧ P0.thetas 0 =
        transmissivityToPhase (‖u 1 0‖ ^ 2) (mziTerms 0 0).cs (mziTerms 0 0).sc := by
      obtain ⟨st, _, _, _, k1, -⟩ := cascadeLoop_struct (Or.inl rfl) 0 0 2 false (2 - 1)
        ⟨[], [], [], [], 0, 0, fun r c => if h : r < 2 ∧ c < 2 then (starRingEnd ℂ) (u ⟨c, h.2⟩ ⟨r, h.1⟩) else 0⟩ rfl rfl
      obtain ⟨Q, c1, c2, -⟩ := cascade_err_matrix 0 2 le_rfl false u k1
      rw [h1] at c1
      simp only [Option.some.injEq, Prod.mk.injEq] at c1
      obtain ⟨rfl, rfl⟩ := c1
      refine ⟨rfl, ?_⟩
      rw [c2]
      have ht : tree 2 2 false = [⟨0, 0, 1, 2, 1, 1, 0⟩] := by decide
      have ht' : numColumns (tree 2 2 false) = 1 := by decide
      simp only [downTo, Nat.add_one_sub_one, List.range'_one, List.reverse_singleton, cascadeLoop, cascadeStep,
        programVectorUnit, Nat.reduceAdd, ht'] at k1
      have hcn : columnNodes [(⟨0, 0, 1, 2, 1, 1, 0⟩ : Node)] 0 = [⟨0, 0, 1, 2, 1, 1, 0⟩] := by decide
      simp only [ht, show List.range 1 = [0] from rfl, nullLoop, nullColumn, hcn, List.mapM_cons, List.mapM_nil, nullifyPhases,
        Option.bind_eq_bind, Option.bind_some, Option.pure_def, Option.some.injEq] at k1
      rw [← k1]
      simp [assign, directTransmissivity, hsum]
    obtain ⟨hn1, hth⟩ := hnodes
    have hp : parts 2 false 1 0 0 = [⟨0, 0, 1, 2, 1, 1, 0⟩] := by decide
    have hT : ∀ a ∈ M0.nodes, P0.thetas a.id =
        transmissivityToPhase (‖u 1 0‖ ^ 2) (mziTerms 0 0).cs (mziTerms 0 0).sc := by
      rw [hn1, hp]
      intro a ha
      rw [List.mem_singleton.1 ha]
      exact hth
    have hne : ∃ a, a ∈ M0.nodes := by
      rw [hn1, hp]
      exact ⟨_, List.mem_singleton_self _⟩
    have key := theta_ge_iff (T := ‖u 1 0‖ ^ 2) he.le (sq_nonneg _) (by nlinarith [sq_nonneg ‖u 1 1‖])
    rw [sq_le_sq₀ (norm_nonneg _) hc] at key
    rw [← key]
    obtain ⟨a, ha⟩ := hne
    exact ⟨fun h => hT a ha ▸ h a ha, fun h b hb => by rw [hT b hb]; exact h⟩
  rw [← hM]
  constructor
  · rintro ⟨M', P', h, h'⟩
    rw [h2] at h
    simp only [Option.some.injEq, Prod.mk.injEq] at h
    obtain ⟨rfl, rfl⟩ := h
    exact h'
  · exact fun h => ⟨M, P, h2, h⟩

/-- With `e = π/8` the identity is implemented exactly, the swap is not. -/
example : (∃ M P, cascade 0 .top (Real.pi / 8) 2 false 1 = some (M, P) ∧ M.matrix 2 P false = 1) ∧
    ¬ ∃ M P, cascade 0 .top (Real.pi / 8) 2 false !![0, 1; 1, 0] = some (M, P) ∧
      M.matrix 2 P false = !![0, 1; 1, 0] := by
  have he : |Real.pi / 8| < Real.pi / 4 := by
    rw [abs_of_pos (by positivity)]; linarith [Real.pi_pos]
  have hc : Real.cos (2 * (Real.pi / 8)) = Real.sqrt 2 / 2 := by
    rw [show 2 * (Real.pi / 8) = Real.pi / 4 by ring, Real.cos_pi_div_four]
  constructor
  · rw [C175_two_by_two _ he _ (one_mem _), hc]
    simp only [ne_eq, one_ne_zero, not_false_eq_true, Matrix.one_apply_ne, norm_zero]
    positivity
  · rw [C175_two_by_two _ he, hc]
    · have : Real.sqrt 2 < 2 := by
        rw [Real.sqrt_lt' (by norm_num)]; norm_num
      simp
      linarith
    · rw [mem_unitaryGroup_iff]
      ext i j
      fin_cases i <;> fin_cases j <;> simp [Matrix.mul_apply, star_eq_conjTranspose]

end Simphox
