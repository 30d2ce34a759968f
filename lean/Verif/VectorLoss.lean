import Verif.VectorErrors
import Verif.MeshLoss

/-!
# Vector units made of lossy components (C170)

`vector_unit(v, bs_error_mean_std=(e, 0), loss_mean_std=(l, 0))` (vector.py:163-186): `add_error_mean(e, l)`
(forward.py:555-575) gives every coupler the error `e` and both arms of every node the loss `l` (dB, `l ≤ 0`
attenuates, see C07). `parallel_nullify` chooses the phases as if there were no loss (its `mzi_terms` hold the
errors only), while `w` is updated with the lossy nodes (`nc.parallel_mzi`, forward.py:535-539).
-/

namespace Simphox

open Matrix Complex

/-! ### Model -/

/-- Body of the column loop of `_program_vector_unit` (vector.py:126-150) with losses: as `nullColumn`, but
`nc.parallel_mzi` has the losses `all_losses` of the column. -/
noncomputable def nullColumnLoss (eps : ℝ) (style : PhaseStyle) (e l : ℝ) (c : ℕ) (nodes : List Node)
    (st : NullState) : Option NullState := do
  let ph ← nodes.mapM fun a => nullifyPhases eps style e e (st.w a.top c) (st.w a.bottom c)
  let np := nodes.zip ph
  let el := np.map fun p => (p.1, mziElements style false e e l l p.2.1 p.2.2)
  some
    { w := fun r j => scatter (fun r => st.w r j)
        (el.map (fun p => (p.1.top, p.2.t11 * st.w p.1.top j + p.2.t21 * st.w p.1.bottom j)) ++
          el.map (fun p => (p.1.bottom, p.2.t12 * st.w p.1.top j + p.2.t22 * st.w p.1.bottom j))) r
      thetas := assign st.thetas (np.map fun p => (p.1.id, p.2.1))
      phis := assign st.phis (np.map fun p => (p.1.id, modTwoPi p.2.2)) }

/-- The loop `for nc in network.columns` (vector.py:126-150). -/
noncomputable def nullLoopLoss (eps : ℝ) (style : PhaseStyle) (e l : ℝ) (c : ℕ)
    (nodes : List Node) : List ℕ → NullState → Option NullState
  | [], st => some st
  | k :: ks, st => do
    let st' ← nullColumnLoss eps style e l c (columnNodes nodes k) st
    nullLoopLoss eps style e l c nodes ks st'

/-- `vector_unit(v, balanced=balanced, phase_style=style, bs_error_mean_std=(e, 0), loss_mean_std=(l, 0))`
(vector.py:163-186) for a vector `v` of length `n`: mesh, parameters and the transformed vector. -/
noncomputable def vectorUnitLoss (eps : ℝ) (style : PhaseStyle) (e l : ℝ) (n : ℕ) (balanced : Bool)
    (v : ℕ → ℂ) : Option (Mesh × Params × (ℕ → ℂ)) := do
  let nodes := tree n n balanced
  let st ← nullLoopLoss eps style e l 0 nodes (List.range (numColumns nodes))
    ⟨fun r _ => v r, fun _ => 0, fun _ => 0⟩
  some (⟨nodes, nodes.map fun _ => (e, e), nodes.map fun _ => (l, l), style⟩,
    ⟨st.thetas, st.phis, fun r => -arg ((if r = n - 1 then 1 else 0) * st.w (n - 1) 0)⟩,
    fun r => st.w r 0)

/-! ### One node -/

theorem mziElements_modTwoPi_loss (style : PhaseStyle) (hs : style = .top ∨ style = .bottom)
    (el er ll lr theta phi : ℝ) :
    mziElements style false el er ll lr theta (modTwoPi phi) = mziElements style false el er ll lr theta phi := by
  have h : ∀ x : ℂ, exp (I * (modTwoPi phi : ℝ) + x) = exp (I * phi + x) := by
    intro x; rw [exp_add, exp_add, exp_modTwoPi]
  rcases hs with rfl | rfl <;> simp [mziElements, h]

theorem cc_add_ss (e : ℝ) : (mziTerms e e).cc + (mziTerms e e).ss = 1 := by
  simp only [mziTerms]
  have := Real.sin_sq_add_cos_sq (Real.pi / 4 + e)
  nlinarith

theorem cc_nonneg (e : ℝ) : 0 ≤ (mziTerms e e).cc := mul_self_nonneg _

theorem ss_nonneg (e : ℝ) : 0 ≤ (mziTerms e e).ss := mul_self_nonneg _

theorem abs_cs_le (e : ℝ) : |(mziTerms e e).cs| ≤ 1 / 2 := by
  have h := four_cs_sq e
  have h2 := Real.cos_sq_le_one (2 * e)
  apply abs_le_of_sq_le_sq _ (by norm_num)
  norm_num
  linarith

/-- The amplitude one arm transmits. -/
noncomputable def armAmp (l : ℝ) : ℝ := Real.exp (Real.log 10 * l / 20)

theorem armAmp_pos (l : ℝ) : 0 < armAmp l := Real.exp_pos _

theorem armAmp_le {l : ℝ} (hl : l ≤ 0) : armAmp l ≤ 1 := by
  apply Real.exp_le_one_iff.2
  have : 0 < Real.log 10 := Real.log_pos (by norm_num)
  nlinarith

theorem armAmp_sq (l : ℝ) : armAmp l ^ 2 = afterDb (-l) := by
  unfold armAmp afterDb
  rw [← Real.exp_nat_mul, Real.rpow_def_of_pos (by norm_num)]
  congr 1
  push_cast; ring

theorem exp_armAmp (x l : ℝ) : exp (I * x + (Real.log 10 * l / 20 : ℝ)) = exp (I * x) * armAmp l := by
  rw [exp_add, armAmp, ofReal_exp]

theorem armAmp_zero : armAmp 0 = 1 := by simp [armAmp]

theorem lossy_t11_close {style : PhaseStyle} (hs : style = .top ∨ style = .bottom) (e : ℝ) {l : ℝ} (hl : l ≤ 0)
    (theta phi : ℝ) :
    ‖(mziElements style false e e l l theta phi).t11 - (mziElements style false e e 0 0 theta phi).t11‖ ≤
      1 - afterDb (-l) := by
  have q0 := armAmp_pos l
  have q1 := armAmp_le hl
  have hc := cc_nonneg e
  have hss := ss_nonneg e
  have h1 := cc_add_ss e
  rw [← armAmp_sq]
  set q := armAmp l with hq
  have key : ∀ a b : ℝ, 0 ≤ a → 0 ≤ b → a + b = 1 → ∀ z w : ℂ, ‖z‖ ≤ 1 - q ^ 2 → ‖w‖ ≤ 1 - q ^ 2 →
      ‖(a : ℂ) * z + b * w‖ ≤ 1 - q ^ 2 := by
    intro a b ha hb hab z w hz hw
    refine (norm_add_le _ _).trans ?_
    rw [norm_mul, norm_mul, norm_real, norm_real, Real.norm_of_nonneg ha, Real.norm_of_nonneg hb]
    nlinarith
  have hq2 : 0 ≤ 1 - q ^ 2 := by nlinarith
  have e1 : ‖(1 - q : ℂ)‖ ≤ 1 - q ^ 2 := by
    rw [show (1 - q : ℂ) = ((1 - q : ℝ) : ℂ) by push_cast; ring, norm_real, Real.norm_of_nonneg (by linarith)]
    nlinarith
  have e2 : ‖(q ^ 2 - 1 : ℂ)‖ ≤ 1 - q ^ 2 := by
    rw [show (q ^ 2 - 1 : ℂ) = ((q ^ 2 - 1 : ℝ) : ℂ) by push_cast; ring, norm_real, Real.norm_of_nonpos (by linarith)]
    linarith
  rcases hs with rfl | rfl
  · have : (mziElements .top false e e l l theta phi).t11 - (mziElements .top false e e 0 0 theta phi).t11 =
        ((mziTerms e e).cc : ℂ) * (exp (I * phi) * (exp (I * theta) * (q ^ 2 - 1))) +
          (mziTerms e e).ss * (exp (I * phi) * (1 - q)) := by
      simp only [mziElements, exp_armAmp, armAmp_zero, ← hq]
      simp only [ofReal_one, mul_one]
      ring
    rw [this]
    refine key _ _ hc hss h1 _ _ ?_ ?_
    · rw [norm_mul, norm_mul, norm_exp_I, norm_exp_I, one_mul, one_mul]; exact e2
    · rw [norm_mul, norm_exp_I, one_mul]; exact e1
  · have : (mziElements .bottom false e e l l theta phi).t11 - (mziElements .bottom false e e 0 0 theta phi).t11 =
        ((mziTerms e e).cc : ℂ) * 0 + (mziTerms e e).ss * (exp (I * theta) * (1 - q)) := by
      simp only [mziElements, exp_armAmp, armAmp_zero, ← hq]
      simp only [ofReal_one, mul_one]
      ring
    rw [this]
    refine key _ _ hc hss h1 _ _ (by simpa using hq2) ?_
    rw [norm_mul, norm_exp_I, one_mul]; exact e1

theorem lossy_t21_close {style : PhaseStyle} (hs : style = .top ∨ style = .bottom) (e : ℝ) {l : ℝ} (hl : l ≤ 0)
    (theta phi : ℝ) :
    ‖(mziElements style false e e l l theta phi).t21 - (mziElements style false e e 0 0 theta phi).t21‖ ≤
      1 - afterDb (-l) := by
  have q0 := armAmp_pos l
  have q1 := armAmp_le hl
  have hcs := abs_cs_le e
  rw [← armAmp_sq]
  set q := armAmp l with hq
  have key : ∀ z w : ℂ, ‖z‖ ≤ 1 - q ^ 2 → ‖w‖ ≤ 1 - q ^ 2 →
      ‖I * ((mziTerms e e).cs : ℂ) * (z + w)‖ ≤ 1 - q ^ 2 := by
    intro z w hz hw
    rw [norm_mul, norm_mul, norm_I, one_mul, norm_real, Real.norm_eq_abs]
    have h1 := norm_add_le z w
    have h2 := norm_nonneg (z + w)
    calc |(mziTerms e e).cs| * ‖z + w‖ ≤ 1 / 2 * ‖z + w‖ := mul_le_mul_of_nonneg_right hcs h2
      _ ≤ _ := by linarith
  have hq2 : 0 ≤ 1 - q ^ 2 := by nlinarith
  have e1 : ‖(q - 1 : ℂ)‖ ≤ 1 - q ^ 2 := by
    rw [show (q - 1 : ℂ) = ((q - 1 : ℝ) : ℂ) by push_cast; ring, norm_real, Real.norm_of_nonpos (by linarith)]
    nlinarith
  have e2 : ‖(q ^ 2 - 1 : ℂ)‖ ≤ 1 - q ^ 2 := by
    rw [show (q ^ 2 - 1 : ℂ) = ((q ^ 2 - 1 : ℝ) : ℂ) by push_cast; ring, norm_real, Real.norm_of_nonpos (by linarith)]
    linarith
  rcases hs with rfl | rfl
  · have : (mziElements .top false e e l l theta phi).t21 - (mziElements .top false e e 0 0 theta phi).t21 =
        I * ((mziTerms e e).cs : ℂ) * (exp (I * theta) * (q - 1) + 0) := by
      simp only [mziElements, exp_armAmp, armAmp_zero, ← hq]
      simp only [ofReal_one, mul_one, Bool.false_eq_true, if_false, mul_zero, exp_zero, sc_eq_cs]
      ring
    rw [this]
    refine key _ _ ?_ (by simpa using hq2)
    rw [norm_mul, norm_exp_I, one_mul]; exact e1
  · have : (mziElements .bottom false e e l l theta phi).t21 - (mziElements .bottom false e e 0 0 theta phi).t21 =
        I * ((mziTerms e e).cs : ℂ) * (exp (I * phi) * (exp (I * theta) * (q ^ 2 - 1)) + exp (I * phi) * (q - 1)) := by
      simp only [mziElements, exp_armAmp, armAmp_zero, ← hq, sc_eq_cs]
      simp only [ofReal_one, mul_one, Bool.false_eq_true, if_false, sub_zero, exp_armAmp, ← hq, armAmp_zero]
      ring
    rw [this]
    refine key _ _ ?_ ?_
    · rw [norm_mul, norm_mul, norm_exp_I, norm_exp_I, one_mul, one_mul]; exact e2
    · rw [norm_mul, norm_exp_I, one_mul]; exact e1

/-- A lossy node programmed as if it were lossless leaves on its top rail at most the regulariser's leakage plus the
power fraction one arm loses, times `√2` times the amplitude entering the node. -/
theorem nullify_residual_loss (style : PhaseStyle) (hs : style = .top ∨ style = .bottom) {eps : ℝ} (heps : 0 ≤ eps)
    (e : ℝ) (he : Real.cos (2 * e) ≠ 0) {l : ℝ} (hl : l ≤ 0) (t b : ℂ)
    (hreach : directTransmissivity eps t b ≤ Real.cos (2 * e) ^ 2)
    {theta phi : ℝ} (h : nullifyPhases eps style e e t b = some (theta, phi)) :
    ‖(mziElements style false e e l l theta phi).t11 * t + (mziElements style false e e l l theta phi).t21 * b‖ ≤
      Real.sqrt eps + (1 - afterDb (-l)) * Real.sqrt (2 * (‖t‖ ^ 2 + ‖b‖ ^ 2)) := by
  have h0 := nullify_residual style hs heps e he t b hreach h
  have h1 := lossy_t11_close hs e hl theta phi
  have h2 := lossy_t21_close hs e hl theta phi
  have hd : 0 ≤ 1 - afterDb (-l) := (norm_nonneg _).trans h1
  have h3 : ‖t‖ + ‖b‖ ≤ Real.sqrt (2 * (‖t‖ ^ 2 + ‖b‖ ^ 2)) := by
    apply Real.le_sqrt_of_sq_le
    nlinarith [sq_nonneg (‖t‖ - ‖b‖)]
  set A := mziElements style false e e l l theta phi
  set B := mziElements style false e e 0 0 theta phi
  calc ‖A.t11 * t + A.t21 * b‖ = ‖(B.t11 * t + B.t21 * b) + ((A.t11 - B.t11) * t + (A.t21 - B.t21) * b)‖ := by
        congr 1; ring
    _ ≤ ‖B.t11 * t + B.t21 * b‖ + (‖A.t11 - B.t11‖ * ‖t‖ + ‖A.t21 - B.t21‖ * ‖b‖) := by
        refine (norm_add_le _ _).trans (add_le_add_right ((norm_add_le _ _).trans ?_) _)
        rw [norm_mul, norm_mul]
    _ ≤ Real.sqrt eps + ((1 - afterDb (-l)) * ‖t‖ + (1 - afterDb (-l)) * ‖b‖) := by
        gcongr
    _ = Real.sqrt eps + (1 - afterDb (-l)) * (‖t‖ + ‖b‖) := by ring
    _ ≤ _ := by gcongr

/-! ### The loop -/

noncomputable def storedElementsLoss (style : PhaseStyle) (e l : ℝ) (st : NullState) (k : ℕ) : Elements :=
  mziElements style false e e l l (st.thetas k) (st.phis k)

theorem storedElementsLoss_passive (style : PhaseStyle) (e : ℝ) {l : ℝ} (hl : l ≤ 0) (st : NullState) (k : ℕ) :
    Passive (storedElementsLoss style e l st k).mat := mziElements_passive _ _ _ _ hl hl _ _

theorem nullColumnLoss_spec {style : PhaseStyle} (hs : style = .top ∨ style = .bottom) (eps e l : ℝ) (c : ℕ)
    (nodes : List Node) (hid : (nodes.map Node.id).Nodup) (st : NullState) :
    ∃ st', nullColumnLoss eps style e l c nodes st = some st' ∧
      (∀ k, (∀ a ∈ nodes, a.id ≠ k) → st'.thetas k = st.thetas k ∧ st'.phis k = st.phis k) ∧
      (∀ a ∈ nodes, st'.thetas a.id = (nodePhases eps style e c st.w a).1 ∧
        st'.phis a.id = modTwoPi (nodePhases eps style e c st.w a).2) ∧
      ∀ j, (fun r => st'.w r j) = parallelTransform (storedElementsLoss style e l st') nodes (fun r => st.w r j) := by
  have hs' : style ≠ .symmetric := by rcases hs with rfl | rfl <;> simp
  have hth : ∀ a ∈ nodes, assign st.thetas (nodes.map fun a => (a.id, (nodePhases eps style e c st.w a).1)) a.id =
      (nodePhases eps style e c st.w a).1 := by
    intro a ha
    apply assign_mem
    · exact List.mem_map.2 ⟨a, ha, rfl⟩
    · intro y hy
      obtain ⟨b, hb, h⟩ := List.mem_map.1 hy
      rw [Prod.mk.injEq] at h
      rw [← List.inj_on_of_nodup_map hid hb ha h.1]; exact h.2.symm
  have hph : ∀ a ∈ nodes, assign st.phis (nodes.map fun a => (a.id, modTwoPi (nodePhases eps style e c st.w a).2))
      a.id = modTwoPi (nodePhases eps style e c st.w a).2 := by
    intro a ha
    apply assign_mem
    · exact List.mem_map.2 ⟨a, ha, rfl⟩
    · intro y hy
      obtain ⟨b, hb, h⟩ := List.mem_map.1 hy
      rw [Prod.mk.injEq] at h
      rw [← List.inj_on_of_nodup_map hid hb ha h.1]; exact h.2.symm
  unfold nullColumnLoss
  rw [mapM_some _ (nodePhases eps style e c st.w) _ (fun a _ => nodePhases_some hs' eps e c st.w a)]
  simp only [Option.bind_eq_bind, Option.bind_some, zip_map_self, List.map_map, Function.comp_def]
  refine ⟨_, rfl, ?_, fun a ha => ⟨hth a ha, hph a ha⟩, ?_⟩
  · intro k hk
    constructor <;> apply assign_not_mem <;> simp only [List.mem_map] <;> rintro _ ⟨a, ha, rfl⟩ <;> exact hk a ha
  · intro j
    unfold parallelTransform columnWrites
    refine congrArg (scatter (fun r => st.w r j)) ?_
    congr 1 <;>
    · apply List.map_congr_left
      intro a ha
      simp only [storedElementsLoss, hth a ha, hph a ha, mziElements_modTwoPi_loss style hs]

theorem nullLoopLoss_spec {style : PhaseStyle} (hs : style = .top ∨ style = .bottom) (eps e l : ℝ) (c : ℕ)
    (nodes : List Node) (hid : (nodes.map Node.id).Nodup) (cols : List ℕ) (hcols : cols.Nodup) (st : NullState) :
    ∃ st', nullLoopLoss eps style e l c nodes cols st = some st' ∧
      (∀ k, (∀ a ∈ nodes, a.column ∈ cols → a.id ≠ k) → st'.thetas k = st.thetas k ∧ st'.phis k = st.phis k) ∧
      ∀ j, (fun r => st'.w r j) = columnsApply (storedElementsLoss style e l st') nodes cols (fun r => st.w r j) := by
  induction cols generalizing st with
  | nil => exact ⟨st, rfl, fun _ _ => ⟨rfl, rfl⟩, fun _ => rfl⟩
  | cons k ks ih =>
    have hidk : ((columnNodes nodes k).map Node.id).Nodup :=
      List.Nodup.sublist (List.Sublist.map _ List.filter_sublist) hid
    obtain ⟨st1, h1, h1o, h1n, h1w⟩ := nullColumnLoss_spec hs eps e l c (columnNodes nodes k) hidk st
    obtain ⟨st2, h2, h2o, h2w⟩ := ih (List.nodup_cons.1 hcols).2 st1
    refine ⟨st2, ?_, ?_, ?_⟩
    · simp [nullLoopLoss, h1, h2]
    · intro i hi
      have a1 := h2o i (fun a ha hc => hi a ha (by simp [hc]))
      have a2 := h1o i (fun a ha => hi a (mem_columnNodes.1 ha).1 (by simp [(mem_columnNodes.1 ha).2]))
      exact ⟨a1.1.trans a2.1, a1.2.trans a2.2⟩
    · intro j
      rw [h2w j, h1w j]
      unfold columnsApply
      rw [List.foldl_cons]
      congr 1
      unfold parallelTransform columnWrites
      have hel : ∀ a ∈ columnNodes nodes k, storedElementsLoss style e l st1 a.id = storedElementsLoss style e l st2 a.id := by
        intro a ha
        obtain ⟨ha', hak⟩ := mem_columnNodes.1 ha
        have := h2o a.id (fun b hb hc he => by
          have hba := List.inj_on_of_nodup_map hid hb ha' he
          subst hba
          rw [hak] at hc
          exact (List.nodup_cons.1 hcols).1 hc)
        unfold storedElementsLoss
        rw [this.1, this.2]
      congr 1
      congr 1 <;>
      · apply List.map_congr_left
        intro a ha
        rw [hel a ha]

theorem nullLoopLoss_append (eps : ℝ) (style : PhaseStyle) (e l : ℝ) (c : ℕ) (nodes : List Node)
    (k1 k2 : List ℕ) (st : NullState) :
    nullLoopLoss eps style e l c nodes (k1 ++ k2) st =
      (nullLoopLoss eps style e l c nodes k1 st).bind (nullLoopLoss eps style e l c nodes k2) := by
  induction k1 generalizing st with
  | nil => rfl
  | cons k ks ih =>
    simp only [List.cons_append, nullLoopLoss, Option.bind_eq_bind]
    cases nullColumnLoss eps style e l c (columnNodes nodes k) st with
    | none => rfl
    | some s => simp [ih]

/-- Ratios met while programming are reachable (`cos² 2e`); trivial for ideal couplers. -/
def ReachableLoss (eps : ℝ) (style : PhaseStyle) (e l : ℝ) (nodes : List Node) (v : ℕ → ℂ) : Prop :=
  ∀ k st, nullLoopLoss eps style e l 0 nodes (List.range k) ⟨fun r _ => v r, fun _ => 0, fun _ => 0⟩ = some st →
    ∀ a ∈ nodes, a.column = k →
      directTransmissivity eps (st.w a.top 0) (st.w a.bottom 0) ≤ Real.cos (2 * e) ^ 2

theorem reachableLoss_ideal {eps : ℝ} (heps : 0 ≤ eps) (style : PhaseStyle) (l : ℝ) (nodes : List Node)
    (v : ℕ → ℂ) : ReachableLoss eps style 0 l nodes v := by
  intro k st _ a _ _
  simpa using (directTransmissivity_mem heps _ _).2

/-- Power never grows along the columns. -/
theorem columnsApply_power_le {n : ℕ} {el : ℕ → Elements} {nodes : List Node}
    (hr : ∀ a ∈ nodes, a.top < n ∧ a.bottom < n ∧ a.top ≠ a.bottom) (hgood : ∀ k, GoodColumn (columnNodes nodes k))
    (hel : ∀ a ∈ nodes, Passive (el a.id).mat) (cols : List ℕ) (v : ℕ → ℂ) :
    ∑ i, ‖restrict n (columnsApply el nodes cols v) i‖ ^ 2 ≤ ∑ i, ‖restrict n v i‖ ^ 2 := by
  unfold columnsApply
  induction cols generalizing v with
  | nil => exact le_rfl
  | cons k cols ih =>
    rw [List.foldl_cons]
    refine (ih _).trans ?_
    rw [parallelTransform_eq_seq (hgood k), restrict_seqApply _ (fun a ha => hr a (mem_columnNodes.1 ha).1)]
    exact blockProduct_passive (fun a ha => hr a (mem_columnNodes.1 ha).1) (fun a ha => hel a (mem_columnNodes.1 ha).1) _

theorem two_le_sum {n : ℕ} (f : ℕ → ℂ) {i j : ℕ} (hi : i < n) (hj : j < n) (hij : i ≠ j) :
    ‖f i‖ ^ 2 + ‖f j‖ ^ 2 ≤ ∑ r, ‖restrict n f r‖ ^ 2 := by
  have h : ({⟨i, hi⟩, ⟨j, hj⟩} : Finset (Fin n)) ⊆ Finset.univ := Finset.subset_univ _
  have h2 := Finset.sum_le_sum_of_subset_of_nonneg (f := fun r : Fin n => ‖restrict n f r‖ ^ 2) h (fun _ _ _ => by positivity)
  rw [Finset.sum_pair (by intro h; exact hij (Fin.mk.inj h))] at h2
  exact h2

theorem nullLoopLoss_dark {style : PhaseStyle} (hs : style = .top ∨ style = .bottom) {eps : ℝ} (heps : 0 ≤ eps)
    (e : ℝ) (he : Real.cos (2 * e) ≠ 0) {l : ℝ} (hl : l ≤ 0) {n : ℕ} (nodes : List Node)
    (hr : ∀ a ∈ nodes, a.top < n ∧ a.bottom < n ∧ a.top ≠ a.bottom)
    (hid : (nodes.map Node.id).Nodup) (hgood : ∀ k, GoodColumn (columnNodes nodes k))
    (hdark : ∀ a ∈ nodes, ∀ b ∈ nodes, a.column < b.column → b.top ≠ a.top ∧ b.bottom ≠ a.top)
    (v : ℕ → ℂ) (hreach : ReachableLoss eps style e l nodes v) (K : ℕ) :
    ∀ st, nullLoopLoss eps style e l 0 nodes (List.range K) ⟨fun r _ => v r, fun _ => 0, fun _ => 0⟩ = some st →
      ∀ a ∈ nodes, a.column < K → ‖st.w a.top 0‖ ≤
        Real.sqrt eps + (1 - afterDb (-l)) * Real.sqrt (2 * ∑ r, ‖restrict n v r‖ ^ 2) := by
  induction K with
  | zero => intro st _ a _ h; omega
  | succ K ih =>
    intro st hst a ha hK
    rw [List.range_succ, nullLoopLoss_append] at hst
    obtain ⟨st0, h0, h1⟩ := Option.bind_eq_some_iff.1 hst
    simp only [nullLoopLoss, Option.bind_eq_bind, Option.bind_eq_some_iff, Option.some.injEq] at h1
    obtain ⟨st1, h1, rfl⟩ := h1
    have hidk : ((columnNodes nodes K).map Node.id).Nodup :=
      List.Nodup.sublist (List.Sublist.map _ List.filter_sublist) hid
    obtain ⟨st1', h1', _, hn, hw⟩ := nullColumnLoss_spec hs eps e l 0 (columnNodes nodes K) hidk st0
    rw [h1'] at h1
    obtain rfl := Option.some.inj h1
    have hw' : st1'.w a.top 0 = _ := congrFun (hw 0) a.top
    have R := parallelTransform_result (el := storedElementsLoss style e l st1') (hgood K) (fun r => st0.w r 0)
    rcases Nat.lt_succ_iff_lt_or_eq.1 hK with hlt | heq
    · rw [hw', R.other]
      · exact ih st0 h0 a ha hlt
      · intro b hb
        obtain ⟨hb', hbk⟩ := mem_columnNodes.1 hb
        have := hdark a ha b hb' (by omega)
        exact ⟨this.1.symm, this.2.symm⟩
    · have hac : a ∈ columnNodes nodes K := mem_columnNodes.2 ⟨ha, heq⟩
      rw [hw', R.top a hac]
      have hph := hn a hac
      have hsel : storedElementsLoss style e l st1' a.id = mziElements style false e e l l
          (nodePhases eps style e 0 st0.w a).1 (nodePhases eps style e 0 st0.w a).2 := by
        unfold storedElementsLoss
        rw [hph.1, hph.2, mziElements_modTwoPi_loss style hs]
      rw [hsel]
      have hs' : style ≠ .symmetric := by rcases hs with rfl | rfl <;> simp
      refine (nullify_residual_loss style hs heps e he hl _ _ (hreach K st0 h0 a ha heq)
        (nodePhases_some hs' eps e 0 st0.w a)).trans ?_
      have hd : 0 ≤ 1 - afterDb (-l) := by
        have := afterDb_le_one (a := -l) (by linarith)
        linarith
      obtain ⟨st0', h0', _, h0w⟩ := nullLoopLoss_spec hs eps e l 0 nodes hid (List.range K) List.nodup_range
        ⟨fun r _ => v r, fun _ => 0, fun _ => 0⟩
      rw [h0'] at h0
      obtain rfl := Option.some.inj h0
      obtain ⟨r1, r2, r3⟩ := hr a ha
      have hp1 := two_le_sum (fun r => st0'.w r 0) r1 r2 r3
      have hp2 : ∑ r, ‖restrict n (fun r => st0'.w r 0) r‖ ^ 2 ≤ ∑ r, ‖restrict n v r‖ ^ 2 := by
        rw [h0w 0]
        exact columnsApply_power_le hr hgood (fun b _ => storedElementsLoss_passive style e hl st0' b.id) _ _
      have hp := hp1.trans hp2
      gcongr

/-! ### C170 -/

/-- C170: `vector_unit` with lossy components (`l ≤ 0` dB per arm) and equal splitter errors `e`, all ratios reachable,
returns a mesh for which, on the programmed vector,

* every rail but the last carries at most the amplitude `√ε + (1 - 10^(l/10)) √2 ‖v‖`, i.e. the leakage is
  proportional to the power fraction one arm loses,
* the last output is real and nonnegative,
* the total output power is at most `‖v‖²` and at least `‖v‖²` less `2 |l|` dB per column. -/
theorem C170_lossy_vector_unit (eps : ℝ) (heps : 0 ≤ eps) (style : PhaseStyle) (hs : style = .top ∨ style = .bottom)
    (e : ℝ) (he : Real.cos (2 * e) ≠ 0) (l : ℝ) (hl : l ≤ 0) (n : ℕ) (hn : 2 ≤ n) (balanced : Bool) (v : ℕ → ℂ)
    (hreach : ReachableLoss eps style e l (tree n n balanced) v) :
    ∃ M P w, vectorUnitLoss eps style e l n balanced v = some (M, P, w) ∧
      let out := (M.matrix n P false).mulVec (restrict n v)
      out = restrict n (gammaApply P.gammas w) ∧
      (∀ r : Fin n, r.val + 1 < n → ‖out r‖ ≤
        Real.sqrt eps + (1 - 10 ^ (l / 10)) * Real.sqrt (2 * ∑ i, ‖restrict n v i‖ ^ 2)) ∧
      (∀ r : Fin n, r.val + 1 = n → (out r).im = 0 ∧ 0 ≤ (out r).re) ∧
      ∑ i, ‖out i‖ ^ 2 ≤ ∑ i, ‖restrict n v i‖ ^ 2 ∧
      afterDb ((if balanced then Nat.clog 2 n else n - 1 : ℕ) * (2 * |l|)) * ∑ i, ‖restrict n v i‖ ^ 2 ≤ ∑ i, ‖out i‖ ^ 2 := by
  have hid : ((tree n n balanced).map Node.id).Nodup := (tree_ids n n balanced).nodup_iff.2 List.nodup_range
  obtain ⟨st, h1, h2, h3⟩ := nullLoopLoss_spec hs eps e l 0 (tree n n balanced) hid
    (List.range (numColumns (tree n n balanced))) List.nodup_range ⟨fun r _ => v r, fun _ => 0, fun _ => 0⟩
  set M : Mesh := ⟨tree n n balanced, (tree n n balanced).map fun _ => (e, e), (tree n n balanced).map fun _ => (l, l), style⟩ with hM
  set P : Params := ⟨st.thetas, st.phis, fun r => -arg ((if r = n - 1 then 1 else 0) * st.w (n - 1) 0)⟩ with hP
  have hids : ∀ a ∈ tree n n balanced, a.id < (tree n n balanced).length := by
    intro a ha
    have : a.id ∈ (tree n n balanced).map Node.id := List.mem_map_of_mem ha
    rw [(tree_ids n n balanced).mem_iff, List.mem_range] at this
    rw [tree_length]; omega
  have hrails : ∀ a ∈ tree n n balanced, a.top < n ∧ a.bottom < n ∧ a.top ≠ a.bottom := by
    intro a ha
    have := tree_rails hn balanced ha
    omega
  have hwf : M.WellFormed n := ⟨by simp [hM], by simp [hM], hids, hrails, tree_disjoint n n balanced⟩
  have hloss : ∀ p ∈ M.losses, p = (l, l) := by
    intro p hp
    simp only [hM, List.mem_map] at hp
    obtain ⟨_, _, rfl⟩ := hp
    rfl
  have hneg : ∀ p ∈ M.losses, p.1 ≤ 0 ∧ p.2 ≤ 0 := by
    intro p hp
    rw [hloss p hp]
    exact ⟨hl, hl⟩
  have hout : (M.matrix n P false).mulVec (restrict n v) = restrict n (gammaApply P.gammas fun r => st.w r 0) := by
    rw [Mesh.matrix_mulVec hwf]
    simp only [Mesh.apply, Bool.false_eq_true, if_false]
    rw [columnsApply_eq_seq hwf.goodColumn, h3 0, columnsApply_eq_seq (fun k => tree_goodColumn hn balanced k)]
    congr 2
    refine seqApply_congr _ ?_ v
    intro a ha
    have := hids a (mem_executionOrder.1 ha)
    simp [Mesh.elements, storedElementsLoss, hM, hP, List.getD_eq_getElem?_getD, this]
  have h10 : (10 : ℝ) ^ (l / 10) = afterDb (-l) := by rw [afterDb, neg_neg]
  refine ⟨M, P, fun r => st.w r 0, ?_, hout, ?_, ?_, C07_lossy_passive n M hwf hneg P false _, ?_⟩
  · simp only [vectorUnitLoss]
    rw [h1]; rfl
  · intro r hr
    rw [hout, h10]
    simp only [restrict, gammaApply, norm_mul, norm_exp_I, one_mul]
    have : r.val ∈ (tree n n balanced).map Node.top := (tree_tops n n balanced).mem_iff.2 (List.mem_range.2 (by omega))
    obtain ⟨a, ha, ha'⟩ := List.mem_map.1 this
    rw [← ha']
    exact nullLoopLoss_dark hs heps e he hl _ hrails hid (fun k => tree_goodColumn hn balanced k) (tree_dark hn balanced) v
      hreach _ st h1 a ha (column_lt_numColumns ha)
  · intro r hr
    rw [hout]
    have : r.val = n - 1 := by omega
    simp only [restrict, gammaApply, this, hP, if_true, one_mul]
    rw [exp_neg_arg_mul]
    simp
  · refine C161_tree n hn balanced M rfl hwf hneg (2 * |l|) (by positivity) ?_ P false _
    intro a ha
    have hk := hids a ha
    simp only [Mesh.nodeLoss, hM, List.getD_eq_getElem?_getD, List.getElem?_map, List.getElem?_eq_getElem hk]
    simp only [Option.map_some, Option.getD_some]
    rw [abs_of_nonpos hl]
    linarith

/-- Non-vacuity: a three-rail unit of nodes with ideal couplers losing 1 dB per arm. -/
example : ∃ M P w, vectorUnitLoss 0 .top 0 (-1) 3 true (fun r => (r : ℂ) + I) = some (M, P, w) ∧
    ∀ r : Fin 3, r.val + 1 < 3 → ‖(M.matrix 3 P false).mulVec (restrict 3 fun r => (r : ℂ) + I) r‖ ≤
      Real.sqrt 0 + (1 - 10 ^ ((-1 : ℝ) / 10)) * Real.sqrt (2 * ∑ i, ‖restrict 3 (fun r => (r : ℂ) + I) i‖ ^ 2) := by
  obtain ⟨M, P, w, h, _, h2, _⟩ := C170_lossy_vector_unit 0 le_rfl .top (.inl rfl) 0 (by simp) (-1) (by norm_num) 3
    (by norm_num) true (fun r => (r : ℂ) + I) (reachableLoss_ideal le_rfl .top (-1) _ _)
  exact ⟨M, P, w, h, h2⟩

end Simphox
