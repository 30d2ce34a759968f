import Verif.VectorProps

/-!
# Vector units with a different splitting error in every node (C167)

`vector_unit(v, bs_error_mean_std=(mean, std))` (vector.py:163-186) with `std ≠ 0` draws one error per
node (`add_error_variance`, forward.py:579-605, `equal_splitter_error=True`: left and right agree). The
model takes the drawn errors as a list in *node-list order*, the order of `zip(new_nodes, error)`. Losses
are zero.

Two tables are in play and the model keeps them apart: `parallel_nullify(w, network.mzi_terms)`
(vector.py:132, forward.py:486) reads the network's table, built in list order, at the *node id*; the
update of `w` (`nc.parallel_mzi(theta, phi)`, vector.py:135) uses the errors of the column's own nodes.
-/

namespace Simphox

open Matrix Complex

/-- Body of the column loop of `_program_vector_unit` (vector.py:126-150) when the nodes differ: `own a`
is the splitting error of node `a` itself (`nc.parallel_mzi`), `tab k` the entry of `network.mzi_terms`
read at node id `k` (forward.py:486). -/
noncomputable def nullColumnErr (eps : ℝ) (style : PhaseStyle) (own : Node → ℝ) (tab : ℕ → ℝ) (c : ℕ)
    (nodes : List Node) (st : NullState) : Option NullState := do
  let ph ← nodes.mapM fun a =>
    nullifyPhases eps style (tab a.id) (tab a.id) (st.w a.top c) (st.w a.bottom c)
  let np := nodes.zip ph
  let el := np.map fun p => (p.1, mziElements style false (own p.1) (own p.1) 0 0 p.2.1 p.2.2)
  some
    { w := fun r j => scatter (fun r => st.w r j)
        (el.map (fun p => (p.1.top, p.2.t11 * st.w p.1.top j + p.2.t21 * st.w p.1.bottom j)) ++
          el.map (fun p => (p.1.bottom, p.2.t12 * st.w p.1.top j + p.2.t22 * st.w p.1.bottom j))) r
      thetas := assign st.thetas (np.map fun p => (p.1.id, p.2.1))
      phis := assign st.phis (np.map fun p => (p.1.id, modTwoPi p.2.2)) }

/-- The loop `for nc in network.columns` (vector.py:126-150). -/
noncomputable def nullLoopErr (eps : ℝ) (style : PhaseStyle) (own : Node → ℝ) (tab : ℕ → ℝ) (c : ℕ)
    (nodes : List Node) : List ℕ → NullState → Option NullState
  | [], st => some st
  | k :: ks, st => do
    let st' ← nullColumnErr eps style own tab c (columnNodes nodes k) st
    nullLoopErr eps style own tab c nodes ks st'

/-- The error drawn for node `a`: the entry of the list at the node's position (`zip(new_nodes, error)`,
forward.py:601-603). -/
def ownError (nodes : List Node) (errs : List ℝ) (a : Node) : ℝ := errs.getD (nodes.idxOf a) 0

/-- `vector_unit(v, balanced=balanced, phase_style=style, bs_error_mean_std=(mean, std))`
(vector.py:163-186) for a vector `v` of length `n`, when the drawn errors are `errs` (list order): mesh,
parameters and the transformed vector. -/
noncomputable def vectorUnitErr (eps : ℝ) (style : PhaseStyle) (errs : List ℝ) (n : ℕ) (balanced : Bool)
    (v : ℕ → ℂ) : Option (Mesh × Params × (ℕ → ℂ)) := do
  let nodes := tree n n balanced
  let st ← nullLoopErr eps style (ownError nodes errs) (fun k => errs.getD k 0) 0 nodes
    (List.range (numColumns nodes)) ⟨fun r _ => v r, fun _ => 0, fun _ => 0⟩
  some (⟨nodes, errs.map fun x => (x, x), nodes.map fun _ => (0, 0), style⟩,
    ⟨st.thetas, st.phis, fun r => -arg ((if r = n - 1 then 1 else 0) * st.w (n - 1) 0)⟩,
    fun r => st.w r 0)

/-! ### The loop when both tables agree -/

/-- Every node's own error is the one the network's table holds at its id. -/
def TableMatches (nodes : List Node) (errs : List ℝ) : Prop :=
  ∀ a ∈ nodes, ownError nodes errs a = errs.getD a.id 0

noncomputable def nodePhasesErr (eps : ℝ) (style : PhaseStyle) (f : ℕ → ℝ) (c : ℕ) (w : ℕ → ℕ → ℂ) (a : Node) :
    ℝ × ℝ :=
  nodePhases eps style (f a.id) c w a

noncomputable def storedElementsErr (style : PhaseStyle) (f : ℕ → ℝ) (st : NullState) (k : ℕ) : Elements :=
  mziElements style false (f k) (f k) 0 0 (st.thetas k) (st.phis k)

theorem nullColumnErr_eq {style : PhaseStyle} (hs : style ≠ .symmetric) (eps : ℝ) (own : Node → ℝ) (f : ℕ → ℝ)
    (c : ℕ) (nodes : List Node) (st : NullState) :
    nullColumnErr eps style own f c nodes st = some
      { w := fun r j => scatter (fun r => st.w r j)
          (nodes.map (fun a =>
              (a.top, (mziElements style false (own a) (own a) 0 0 (nodePhasesErr eps style f c st.w a).1
                (nodePhasesErr eps style f c st.w a).2).t11 * st.w a.top j +
                (mziElements style false (own a) (own a) 0 0 (nodePhasesErr eps style f c st.w a).1
                (nodePhasesErr eps style f c st.w a).2).t21 * st.w a.bottom j)) ++
            nodes.map (fun a =>
              (a.bottom, (mziElements style false (own a) (own a) 0 0 (nodePhasesErr eps style f c st.w a).1
                (nodePhasesErr eps style f c st.w a).2).t12 * st.w a.top j +
                (mziElements style false (own a) (own a) 0 0 (nodePhasesErr eps style f c st.w a).1
                (nodePhasesErr eps style f c st.w a).2).t22 * st.w a.bottom j))) r
        thetas := assign st.thetas (nodes.map fun a => (a.id, (nodePhasesErr eps style f c st.w a).1))
        phis := assign st.phis (nodes.map fun a => (a.id, modTwoPi (nodePhasesErr eps style f c st.w a).2)) } := by
  unfold nullColumnErr
  rw [mapM_some _ (nodePhasesErr eps style f c st.w) _ (fun a _ => nodePhases_some hs eps (f a.id) c st.w a)]
  simp only [Option.bind_eq_bind, Option.bind_some, zip_map_self, List.map_map, Function.comp_def]

theorem nullColumnErr_congr (eps : ℝ) (style : PhaseStyle) (own own' : Node → ℝ) (f : ℕ → ℝ) (c : ℕ)
    (nodes : List Node) (h : ∀ a ∈ nodes, own a = own' a) (st : NullState) :
    nullColumnErr eps style own f c nodes st = nullColumnErr eps style own' f c nodes st := by
  unfold nullColumnErr
  cases hm : nodes.mapM fun a => nullifyPhases eps style (f a.id) (f a.id) (st.w a.top c) (st.w a.bottom c) with
  | none => rfl
  | some ph =>
    simp only [Option.bind_eq_bind, Option.bind_some]
    have : ((nodes.zip ph).map fun p => (p.1, mziElements style false (own p.1) (own p.1) 0 0 p.2.1 p.2.2)) =
        (nodes.zip ph).map fun p => (p.1, mziElements style false (own' p.1) (own' p.1) 0 0 p.2.1 p.2.2) := by
      apply List.map_congr_left
      intro p hp
      rw [h p.1 (List.of_mem_zip hp).1]
    rw [this]

theorem nullLoopErr_congr (eps : ℝ) (style : PhaseStyle) (own own' : Node → ℝ) (f : ℕ → ℝ) (c : ℕ)
    (nodes : List Node) (h : ∀ a ∈ nodes, own a = own' a) (cols : List ℕ) (st : NullState) :
    nullLoopErr eps style own f c nodes cols st = nullLoopErr eps style own' f c nodes cols st := by
  induction cols generalizing st with
  | nil => rfl
  | cons k ks ih =>
    simp only [nullLoopErr]
    rw [nullColumnErr_congr eps style own own' f c _ (fun a ha => h a (mem_columnNodes.1 ha).1) st]
    simp only [ih]

theorem nullColumnErr_spec {style : PhaseStyle} (hs : style = .top ∨ style = .bottom) (eps : ℝ) (f : ℕ → ℝ) (c : ℕ)
    (nodes : List Node) (hid : (nodes.map Node.id).Nodup) (st : NullState) :
    ∃ st', nullColumnErr eps style (fun a => f a.id) f c nodes st = some st' ∧
      (∀ k, (∀ a ∈ nodes, a.id ≠ k) → st'.thetas k = st.thetas k ∧ st'.phis k = st.phis k) ∧
      (∀ a ∈ nodes, st'.thetas a.id = (nodePhasesErr eps style f c st.w a).1 ∧
        st'.phis a.id = modTwoPi (nodePhasesErr eps style f c st.w a).2) ∧
      ∀ j, (fun r => st'.w r j) = parallelTransform (storedElementsErr style f st') nodes (fun r => st.w r j) := by
  have hs' : style ≠ .symmetric := by rcases hs with rfl | rfl <;> simp
  have hth : ∀ a ∈ nodes, assign st.thetas (nodes.map fun a => (a.id, (nodePhasesErr eps style f c st.w a).1)) a.id =
      (nodePhasesErr eps style f c st.w a).1 := by
    intro a ha
    apply assign_mem
    · exact List.mem_map.2 ⟨a, ha, rfl⟩
    · intro y hy
      obtain ⟨b, hb, h⟩ := List.mem_map.1 hy
      rw [Prod.mk.injEq] at h
      rw [← List.inj_on_of_nodup_map hid hb ha h.1]; exact h.2.symm
  have hph : ∀ a ∈ nodes, assign st.phis (nodes.map fun a => (a.id, modTwoPi (nodePhasesErr eps style f c st.w a).2))
      a.id = modTwoPi (nodePhasesErr eps style f c st.w a).2 := by
    intro a ha
    apply assign_mem
    · exact List.mem_map.2 ⟨a, ha, rfl⟩
    · intro y hy
      obtain ⟨b, hb, h⟩ := List.mem_map.1 hy
      rw [Prod.mk.injEq] at h
      rw [← List.inj_on_of_nodup_map hid hb ha h.1]; exact h.2.symm
  refine ⟨_, nullColumnErr_eq hs' eps _ f c nodes st, ?_, fun a ha => ⟨hth a ha, hph a ha⟩, ?_⟩
  · intro k hk
    constructor <;> apply assign_not_mem <;> simp only [List.mem_map] <;> rintro _ ⟨a, ha, rfl⟩ <;> exact hk a ha
  · intro j
    unfold parallelTransform columnWrites
    refine congrArg (scatter (fun r => st.w r j)) ?_
    congr 1 <;>
    · apply List.map_congr_left
      intro a ha
      simp only [storedElementsErr, hth a ha, hph a ha, mziElements_modTwoPi style hs]

theorem nullLoopErr_spec {style : PhaseStyle} (hs : style = .top ∨ style = .bottom) (eps : ℝ) (f : ℕ → ℝ) (c : ℕ)
    (nodes : List Node) (hid : (nodes.map Node.id).Nodup) (cols : List ℕ) (hcols : cols.Nodup) (st : NullState) :
    ∃ st', nullLoopErr eps style (fun a => f a.id) f c nodes cols st = some st' ∧
      (∀ k, (∀ a ∈ nodes, a.column ∈ cols → a.id ≠ k) → st'.thetas k = st.thetas k ∧ st'.phis k = st.phis k) ∧
      ∀ j, (fun r => st'.w r j) = columnsApply (storedElementsErr style f st') nodes cols (fun r => st.w r j) := by
  induction cols generalizing st with
  | nil => exact ⟨st, rfl, fun _ _ => ⟨rfl, rfl⟩, fun _ => rfl⟩
  | cons k ks ih =>
    have hidk : ((columnNodes nodes k).map Node.id).Nodup :=
      List.Nodup.sublist (List.Sublist.map _ List.filter_sublist) hid
    obtain ⟨st1, h1, h1o, h1n, h1w⟩ := nullColumnErr_spec hs eps f c (columnNodes nodes k) hidk st
    obtain ⟨st2, h2, h2o, h2w⟩ := ih (List.nodup_cons.1 hcols).2 st1
    refine ⟨st2, ?_, ?_, ?_⟩
    · simp [nullLoopErr, h1, h2]
    · intro i hi
      have a1 := h2o i (fun a ha hc => hi a ha (by simp [hc]))
      have a2 := h1o i (fun a ha => hi a (mem_columnNodes.1 ha).1 (by simp [(mem_columnNodes.1 ha).2]))
      exact ⟨a1.1.trans a2.1, a1.2.trans a2.2⟩
    · intro j
      rw [h2w j, h1w j]
      unfold columnsApply
      rw [List.foldl_cons]
      congr 1
      unfold parallelTransform columnWrites
      have hel : ∀ a ∈ columnNodes nodes k, storedElementsErr style f st1 a.id = storedElementsErr style f st2 a.id := by
        intro a ha
        obtain ⟨ha', hak⟩ := mem_columnNodes.1 ha
        have := h2o a.id (fun b hb hc he => by
          have hba := List.inj_on_of_nodup_map hid hb ha' he
          subst hba
          rw [hak] at hc
          exact (List.nodup_cons.1 hcols).1 hc)
        unfold storedElementsErr
        rw [this.1, this.2]
      congr 1
      congr 1 <;>
      · apply List.map_congr_left
        intro a ha
        rw [hel a ha]

theorem nullLoopErr_append (eps : ℝ) (style : PhaseStyle) (own : Node → ℝ) (f : ℕ → ℝ) (c : ℕ) (nodes : List Node)
    (k1 k2 : List ℕ) (st : NullState) :
    nullLoopErr eps style own f c nodes (k1 ++ k2) st =
      (nullLoopErr eps style own f c nodes k1 st).bind (nullLoopErr eps style own f c nodes k2) := by
  induction k1 generalizing st with
  | nil => rfl
  | cons k ks ih =>
    simp only [List.cons_append, nullLoopErr, Option.bind_eq_bind]
    cases nullColumnErr eps style own f c (columnNodes nodes k) st with
    | none => rfl
    | some s => simp [ih]

/-- Ratios met while programming are reachable by the couplers the network believes in: the loop asks the
node with table entry `x` for a ratio of at most `cos² 2x`. -/
def ReachableErr (eps : ℝ) (style : PhaseStyle) (own : Node → ℝ) (tab : ℕ → ℝ) (nodes : List Node) (v : ℕ → ℂ) :
    Prop :=
  ∀ k st, nullLoopErr eps style own tab 0 nodes (List.range k) ⟨fun r _ => v r, fun _ => 0, fun _ => 0⟩ = some st →
    ∀ a ∈ nodes, a.column = k →
      directTransmissivity eps (st.w a.top 0) (st.w a.bottom 0) ≤ Real.cos (2 * tab a.id) ^ 2

theorem nullLoopErr_dark {style : PhaseStyle} (hs : style = .top ∨ style = .bottom) {eps : ℝ} (heps : 0 ≤ eps)
    (f : ℕ → ℝ) (nodes : List Node) (he : ∀ a ∈ nodes, Real.cos (2 * f a.id) ≠ 0)
    (hid : (nodes.map Node.id).Nodup) (hgood : ∀ k, GoodColumn (columnNodes nodes k))
    (hdark : ∀ a ∈ nodes, ∀ b ∈ nodes, a.column < b.column → b.top ≠ a.top ∧ b.bottom ≠ a.top)
    (v : ℕ → ℂ) (hr : ReachableErr eps style (fun a => f a.id) f nodes v) (K : ℕ) :
    ∀ st, nullLoopErr eps style (fun a => f a.id) f 0 nodes (List.range K) ⟨fun r _ => v r, fun _ => 0, fun _ => 0⟩ =
        some st →
      ∀ a ∈ nodes, a.column < K → ‖st.w a.top 0‖ ≤ Real.sqrt eps := by
  induction K with
  | zero => intro st _ a _ h; omega
  | succ K ih =>
    intro st hst a ha hK
    rw [List.range_succ, nullLoopErr_append] at hst
    obtain ⟨st0, h0, h1⟩ := Option.bind_eq_some_iff.1 hst
    simp only [nullLoopErr, Option.bind_eq_bind, Option.bind_eq_some_iff, Option.some.injEq] at h1
    obtain ⟨st1, h1, rfl⟩ := h1
    have hidk : ((columnNodes nodes K).map Node.id).Nodup :=
      List.Nodup.sublist (List.Sublist.map _ List.filter_sublist) hid
    obtain ⟨st1', h1', _, hn, hw⟩ := nullColumnErr_spec hs eps f 0 (columnNodes nodes K) hidk st0
    rw [h1'] at h1
    obtain rfl := Option.some.inj h1
    have hw' : st1'.w a.top 0 = _ := congrFun (hw 0) a.top
    have R := parallelTransform_result (el := storedElementsErr style f st1') (hgood K) (fun r => st0.w r 0)
    rcases Nat.lt_succ_iff_lt_or_eq.1 hK with hlt | heq
    · rw [hw', R.other]
      · exact ih st0 h0 a ha hlt
      · intro b hb
        obtain ⟨hb', hbk⟩ := mem_columnNodes.1 hb
        have := hdark a ha b hb' (by omega)
        exact ⟨this.1.symm, this.2.symm⟩
    · have hac : a ∈ columnNodes nodes K := mem_columnNodes.2 ⟨ha, heq⟩
      rw [hw', R.top a hac]
      have hph := hn a hac
      have hsel : storedElementsErr style f st1' a.id = mziElements style false (f a.id) (f a.id) 0 0
          (nodePhases eps style (f a.id) 0 st0.w a).1 (nodePhases eps style (f a.id) 0 st0.w a).2 := by
        unfold storedElementsErr
        rw [hph.1, hph.2, mziElements_modTwoPi style hs]; rfl
      rw [hsel]
      have hs' : style ≠ .symmetric := by rcases hs with rfl | rfl <;> simp
      exact nullify_residual style hs heps (f a.id) (he a ha) _ _ (hr K st0 h0 a ha heq)
        (nodePhases_some hs' eps (f a.id) 0 st0.w a)

/-- The output of a lossless mesh that leaves at most `√ε` on every rail but the last, and whose last
output is real and nonnegative, routes the input. -/
theorem routes_of_dark {n : ℕ} (hn : 2 ≤ n) {eps : ℝ} (heps : 0 ≤ eps) (v out : Fin n → ℂ)
    (hpow : ∑ i, ‖out i‖ ^ 2 = ∑ i, ‖v i‖ ^ 2) (x : ℝ) (hx : 0 ≤ x)
    (hlast : ∀ r : Fin n, r.val + 1 = n → out r = x)
    (hdark : ∀ r : Fin n, r.val + 1 < n → ‖out r‖ ≤ Real.sqrt eps) : RoutesToLast n eps v out := by
  refine ⟨hdark, ?_, ?_, ?_⟩
  · intro r hr
    rw [hlast r hr]; simpa using hx
  · intro r hr
    have : (out r).re ^ 2 ≤ ‖out r‖ ^ 2 := by
      rw [← sq_abs]; exact pow_le_pow_left₀ (abs_nonneg _) (abs_re_le_norm _) 2
    refine this.trans (hpow ▸ ?_)
    exact Finset.single_le_sum (f := fun i => ‖out i‖ ^ 2) (fun i _ => by positivity) (Finset.mem_univ r)
  · intro r hr
    have h6 : (out r).re ^ 2 = ‖out r‖ ^ 2 := by rw [hlast r hr]; simp
    rw [h6, ← hpow, ← Finset.add_sum_erase _ _ (Finset.mem_univ r)]
    have : ∑ i ∈ Finset.univ.erase r, ‖out i‖ ^ 2 ≤ ∑ i ∈ Finset.univ.erase r, eps := by
      apply Finset.sum_le_sum
      intro i hi
      have hne : i ≠ r := (Finset.mem_erase.1 hi).1
      have := hdark i (by have := i.isLt; have : i.val ≠ r.val := fun h => hne (Fin.ext h); omega)
      calc ‖out i‖ ^ 2 ≤ Real.sqrt eps ^ 2 := pow_le_pow_left₀ (norm_nonneg _) this 2
        _ = eps := Real.sq_sqrt heps
    rw [Finset.sum_const, Finset.card_erase_of_mem (Finset.mem_univ r), Finset.card_univ, Fintype.card_fin,
      nsmul_eq_mul, Nat.cast_sub (by omega), Nat.cast_one] at this
    linarith

/-- The mesh `vector_unit` builds from the drawn errors. -/
theorem errMesh_wellFormed {n : ℕ} (hn : 2 ≤ n) (balanced : Bool) (errs : List ℝ) (hlen : errs.length = n - 1)
    (style : PhaseStyle) :
    (⟨tree n n balanced, errs.map fun x => (x, x), (tree n n balanced).map fun _ => (0, 0), style⟩ : Mesh).WellFormed n := by
  refine ⟨by simp [hlen, tree_length], by simp, ?_, ?_, tree_disjoint n n balanced⟩
  · intro a ha
    have : a.id ∈ (tree n n balanced).map Node.id := List.mem_map_of_mem ha
    rw [(tree_ids n n balanced).mem_iff, List.mem_range] at this
    show a.id < (tree n n balanced).length
    rw [tree_length]; exact this
  · intro a ha
    have := tree_rails hn balanced ha
    omega

theorem errMesh_lossless (nodes : List Node) (errs : List ℝ) (style : PhaseStyle) :
    (⟨nodes, errs.map fun x => (x, x), nodes.map fun _ => (0, 0), style⟩ : Mesh).Lossless := by
  intro p hp
  simp only [List.mem_map] at hp
  obtain ⟨_, _, rfl⟩ := hp
  rfl

/-- C167, proved part: `vector_unit` with an individual error in every node still routes `v` to the last
rail — the phases are chosen to compensate the errors — whenever every node's own error is the entry of the
error table at its id, no coupler is a full cross/bar (`cos 2x ≠ 0`) and no node is asked for a ratio above
`cos² 2x`. Missing: nodes whose list position is not their id and whose errors differ, where it is false. -/
theorem C167_compensates_partial (eps : ℝ) (heps : 0 ≤ eps) (style : PhaseStyle) (hs : style = .top ∨ style = .bottom)
    (n : ℕ) (hn : 2 ≤ n) (balanced : Bool) (errs : List ℝ) (hlen : errs.length = n - 1)
    (hx : ∀ x ∈ errs, Real.cos (2 * x) ≠ 0) (hmatch : TableMatches (tree n n balanced) errs) (v : ℕ → ℂ)
    (hr : ReachableErr eps style (ownError (tree n n balanced) errs) (fun k => errs.getD k 0) (tree n n balanced) v) :
    ∃ M P w, vectorUnitErr eps style errs n balanced v = some (M, P, w) ∧
      (M.matrix n P false).mulVec (restrict n v) = restrict n (gammaApply P.gammas w) ∧
      RoutesToLast n eps (restrict n v) ((M.matrix n P false).mulVec (restrict n v)) := by
  set f : ℕ → ℝ := fun k => errs.getD k 0 with hf
  have hcongr : ∀ cols st, nullLoopErr eps style (ownError (tree n n balanced) errs) f 0 (tree n n balanced) cols st =
      nullLoopErr eps style (fun a => f a.id) f 0 (tree n n balanced) cols st :=
    fun cols st => nullLoopErr_congr eps style _ _ f 0 _ hmatch cols st
  have hid : ((tree n n balanced).map Node.id).Nodup := (tree_ids n n balanced).nodup_iff.2 List.nodup_range
  have hr' : ReachableErr eps style (fun a => f a.id) f (tree n n balanced) v := by
    intro k st hst
    rw [← hcongr] at hst
    exact hr k st hst
  have hids : ∀ a ∈ tree n n balanced, a.id < errs.length := by
    intro a ha
    have : a.id ∈ (tree n n balanced).map Node.id := List.mem_map_of_mem ha
    rw [(tree_ids n n balanced).mem_iff, List.mem_range] at this
    omega
  have he : ∀ a ∈ tree n n balanced, Real.cos (2 * f a.id) ≠ 0 := by
    intro a ha
    apply hx
    rw [hf]
    simp only [List.getD_eq_getElem?_getD, List.getElem?_eq_getElem (hids a ha), Option.getD_some]
    exact List.getElem_mem _
  obtain ⟨st, h1, h2, h3⟩ := nullLoopErr_spec hs eps f 0 (tree n n balanced) hid
    (List.range (numColumns (tree n n balanced))) List.nodup_range ⟨fun r _ => v r, fun _ => 0, fun _ => 0⟩
  have hwf := errMesh_wellFormed hn balanced errs hlen style
  have hout : ((⟨tree n n balanced, errs.map fun x => (x, x), (tree n n balanced).map fun _ => (0, 0), style⟩ : Mesh).matrix n
      ⟨st.thetas, st.phis, fun r => -arg ((if r = n - 1 then 1 else 0) * st.w (n - 1) 0)⟩ false).mulVec (restrict n v) =
      restrict n (gammaApply (fun r => -arg ((if r = n - 1 then 1 else 0) * st.w (n - 1) 0)) fun r => st.w r 0) := by
    rw [Mesh.matrix_mulVec hwf]
    simp only [Mesh.apply, Bool.false_eq_true, if_false]
    rw [columnsApply_eq_seq hwf.goodColumn, h3 0, columnsApply_eq_seq (fun k => tree_goodColumn hn balanced k)]
    congr 2
    refine seqApply_congr _ ?_ v
    intro a ha
    have := hids a (mem_executionOrder.1 ha)
    have h4 : a.id < (tree n n balanced).length := by rw [tree_length]; omega
    simp [Mesh.elements, storedElementsErr, hf, List.getD_eq_getElem?_getD, this, h4]
  refine ⟨_, _, _, ?_, hout, ?_⟩
  · simp only [vectorUnitErr]
    rw [hcongr, h1]; rfl
  · apply routes_of_dark hn heps _ _ (unitary_power (C06_lossless_unitary n _ hwf (errMesh_lossless _ _ _) _ false) _)
      ‖st.w (n - 1) 0‖ (norm_nonneg _)
    · intro r hr
      rw [hout]
      have : r.val = n - 1 := by omega
      simp only [restrict, gammaApply, this, if_true, one_mul]
      exact exp_neg_arg_mul _
    · intro r hr
      rw [hout]
      simp only [restrict, gammaApply, norm_mul, norm_exp_I, one_mul]
      have : r.val ∈ (tree n n balanced).map Node.top := (tree_tops n n balanced).mem_iff.2 (List.mem_range.2 (by omega))
      obtain ⟨a, ha, ha'⟩ := List.mem_map.1 this
      rw [← ha']
      exact nullLoopErr_dark hs heps f _ he hid (fun k => tree_goodColumn hn balanced k) (tree_dark hn balanced) v hr' _ st h1
        a ha (column_lt_numColumns ha)

/-! ### The failure -/

theorem elements_norm_t12 {style : PhaseStyle} (hs : style = .top ∨ style = .bottom) (e theta phi : ℝ) :
    ‖(mziElements style false e e 0 0 theta phi).t12‖ = ‖ampB e theta‖ := by
  rcases hs with rfl | rfl
  · simp [mziElements, ampB, sc_eq_cs]
  · simp [mziElements, ampB, sc_eq_cs, add_comm]

theorem elements_norm_t21 {style : PhaseStyle} (hs : style = .top ∨ style = .bottom) (e theta phi : ℝ) :
    ‖(mziElements style false e e 0 0 theta phi).t21‖ = ‖ampB e theta‖ := by
  rcases hs with rfl | rfl
  · simp [mziElements, ampB, sc_eq_cs]
  · simp [mziElements, ampB, sc_eq_cs, add_comm]

/-- The two nodes of the linear chain on three rails, in list order. -/
def chainNode1 : Node := ⟨1, 1, 2, 3, 1, 1, 1⟩
def chainNode0 : Node := ⟨0, 0, 1, 3, 1, 2, 0⟩

theorem chain3 : tree 3 3 false = [chainNode1, chainNode0] := by decide +kernel

theorem chain3_columns : numColumns (tree 3 3 false) = 2 ∧ columnNodes (tree 3 3 false) 0 = [chainNode0] ∧
    columnNodes (tree 3 3 false) 1 = [chainNode1] := by decide +kernel

theorem nodePhases_fst {style : PhaseStyle} (hs : style = .top ∨ style = .bottom) (eps e : ℝ) (c : ℕ) (w : ℕ → ℕ → ℂ)
    (a : Node) : (nodePhases eps style e c w a).1 =
      transmissivityToPhase (directTransmissivity eps (w a.top c) (w a.bottom c)) (mziTerms e e).cs (mziTerms e e).sc := by
  rcases hs with rfl | rfl <;> rfl

/-- One column holding a single node. -/
theorem nullColumnErr_single {style : PhaseStyle} (hs : style = .top ∨ style = .bottom) (eps : ℝ) (own : Node → ℝ)
    (f : ℕ → ℝ) (c : ℕ) (a : Node) (ha : a.top ≠ a.bottom) (st : NullState) :
    ∃ st' theta phi, nullColumnErr eps style own f c [a] st = some st' ∧
      nullifyPhases eps style (f a.id) (f a.id) (st.w a.top c) (st.w a.bottom c) = some (theta, phi) ∧
      theta = transmissivityToPhase (directTransmissivity eps (st.w a.top c) (st.w a.bottom c))
        (mziTerms (f a.id) (f a.id)).cs (mziTerms (f a.id) (f a.id)).sc ∧
      st'.thetas = Function.update st.thetas a.id theta ∧ st'.phis = Function.update st.phis a.id (modTwoPi phi) ∧
      (∀ j, st'.w a.top j = (mziElements style false (own a) (own a) 0 0 theta phi).t11 * st.w a.top j +
        (mziElements style false (own a) (own a) 0 0 theta phi).t21 * st.w a.bottom j) ∧
      (∀ j, st'.w a.bottom j = (mziElements style false (own a) (own a) 0 0 theta phi).t12 * st.w a.top j +
        (mziElements style false (own a) (own a) 0 0 theta phi).t22 * st.w a.bottom j) ∧
      ∀ r, r ≠ a.top → r ≠ a.bottom → ∀ j, st'.w r j = st.w r j := by
  have hs' : style ≠ .symmetric := by rcases hs with rfl | rfl <;> simp
  refine ⟨_, (nodePhasesErr eps style f c st.w a).1, (nodePhasesErr eps style f c st.w a).2,
    nullColumnErr_eq hs' eps own f c [a] st, nodePhases_some hs' eps (f a.id) c st.w a,
    nodePhases_fst hs eps (f a.id) c st.w a, rfl, rfl, ?_, ?_, ?_⟩
  · intro j
    simp [scatter, ha]
  · intro j
    simp [scatter]
  · intro r h1 h2 j
    simp [scatter, h1, h2]

theorem phase_one {s : ℝ} (hs : s = 1) : transmissivityToPhase s (mziTerms 0 0).cs (mziTerms 0 0).sc = 0 := by
  have h4 := four_cs_sq 0
  rw [mul_zero, Real.cos_zero, one_pow] at h4
  unfold transmissivityToPhase
  rw [sc_eq_cs, hs]
  have : (1 - (mziTerms 0 0).cs ^ 2 - (mziTerms 0 0).cs ^ 2) / (2 * (mziTerms 0 0).cs * (mziTerms 0 0).cs) = 1 := by
    have h5 : (mziTerms 0 0).cs ^ 2 = 1 / 4 := by linarith
    rw [mul_assoc, ← pow_two, h5]; norm_num
  rw [this]
  simp

/-- C167 fails: on the linear chain with three rails (`linear_tree`), the two nodes are listed in the order
1, 0, so the errors drawn for them are read crosswise when the phases are chosen. For every error `x` of the
first node that is neither zero nor a full cross/bar (`sin 2x ≠ 0`, `cos 2x ≠ 0`), all ratios asked for
are reachable, yet the unit programmed with `(1, 0, 1)` leaves light on rail 1 instead of routing everything to
the last rail. -/
theorem C167_list_order_counterexample (style : PhaseStyle) (hs : style = .top ∨ style = .bottom) (x : ℝ)
    (hsin : Real.sin (2 * x) ≠ 0) (hcos : Real.cos (2 * x) ≠ 0) :
    let v : ℕ → ℂ := fun r => if r = 1 then 0 else 1
    ReachableErr 0 style (ownError (tree 3 3 false) [0, x]) (fun k => [0, x].getD k 0) (tree 3 3 false) v ∧
    ∃ M P w, vectorUnitErr 0 style [0, x] 3 false v = some (M, P, w) ∧
      ((M.matrix 3 P false).mulVec (restrict 3 v)) 1 ≠ 0 := by
  intro v
  obtain ⟨hnc, hc0, hc1⟩ := chain3_columns
  have hown0 : ownError (tree 3 3 false) [0, x] chainNode0 = x := by
    have : (tree 3 3 false).idxOf chainNode0 = 1 := by decide +kernel
    rw [ownError, this]; rfl
  set own := ownError (tree 3 3 false) [0, x] with hown
  set f : ℕ → ℝ := fun k => [0, x].getD k 0 with hf
  have hf0 : f chainNode0.id = 0 := rfl
  have hf1 : f chainNode1.id = x := rfl
  obtain ⟨st1, th0, ph0, e1, -, hth0, ht1, hp1, -, hb1, ho1⟩ := nullColumnErr_single hs 0 own f 0 chainNode0 (by decide)
    ⟨fun r _ => v r, fun _ => 0, fun _ => 0⟩
  obtain ⟨st2, th1, ph1, e2, hn2, hth1, ht2, hp2, htop2, -, -⟩ := nullColumnErr_single hs 0 own f 0 chainNode1 (by decide) st1
  have hv0 : v chainNode0.top = 1 := by simp [v, chainNode0]
  have hv1 : v chainNode0.bottom = 0 := by simp [v, chainNode0]
  have hT0 : directTransmissivity 0 (v chainNode0.top) (v chainNode0.bottom) = 1 := by
    simp [directTransmissivity, hv0, hv1]
  rw [hf0, phase_one hT0] at hth0
  subst hth0
  have hw1 : st1.w 1 0 = (mziElements style false x x 0 0 0 ph0).t12 := by
    have := hb1 0
    simp only [hv0, hv1, hown0, mul_one, mul_zero, add_zero] at this
    exact this
  have hw1n : ‖st1.w 1 0‖ ^ 2 = Real.cos (2 * x) ^ 2 := by
    rw [hw1, elements_norm_t12 hs, norm_ampB_sq, ← four_cs_sq, Real.cos_zero]; ring
  have hw2 : st1.w 2 0 = 1 := by
    rw [ho1 2 (by decide) (by decide)]; simp [v]
  have hT1 : directTransmissivity 0 (st1.w chainNode1.top 0) (st1.w chainNode1.bottom 0) =
      Real.cos (2 * x) ^ 2 / (Real.cos (2 * x) ^ 2 + 1) := by
    show directTransmissivity 0 (st1.w 1 0) (st1.w 2 0) = _
    rw [directTransmissivity, hw1n, hw2]; simp
  have hc : 0 < Real.cos (2 * x) ^ 2 := by positivity
  have hreach1 : directTransmissivity 0 (st1.w chainNode1.top 0) (st1.w chainNode1.bottom 0) ≤ Real.cos (2 * x) ^ 2 := by
    rw [hT1, div_le_iff₀ (by positivity)]; nlinarith
  constructor
  · intro k st hst a ha hk
    rw [chain3] at ha
    simp only [List.mem_cons, List.not_mem_nil, or_false] at ha
    rcases ha with rfl | rfl
    · obtain rfl : k = 1 := hk.symm
      simp only [List.range_one, nullLoopErr, hc0, e1, Option.bind_eq_bind, Option.bind_some, Option.some.injEq] at hst
      subst hst
      exact hreach1
    · obtain rfl : k = 0 := hk.symm
      simp only [List.range_zero, nullLoopErr, Option.some.injEq] at hst
      subst hst
      rw [hT0, hf0]; simp
  · have hrange : List.range 2 = [0, 1] := rfl
    refine ⟨⟨tree 3 3 false, [0, x].map fun x => (x, x), (tree 3 3 false).map fun _ => (0, 0), style⟩,
      ⟨st2.thetas, st2.phis, fun r => -arg ((if r = 3 - 1 then 1 else 0) * st2.w (3 - 1) 0)⟩, fun r => st2.w r 0, ?_, ?_⟩
    · simp only [vectorUnitErr, hnc, hrange, nullLoopErr, hc0, hc1, ← hown, ← hf, e1, e2, Option.bind_eq_bind,
        Option.bind_some]
    · have hwf := errMesh_wellFormed (n := 3) (by norm_num) false [0, x] rfl style
      rw [Mesh.matrix_mulVec hwf]
      simp only [Mesh.apply, Bool.false_eq_true, if_false, restrict, gammaApply]
      apply mul_ne_zero (exp_ne_zero _)
      set M : Mesh := ⟨tree 3 3 false, [0, x].map fun x => (x, x), (tree 3 3 false).map fun _ => (0, 0), style⟩ with hM
      set P : Params := ⟨st2.thetas, st2.phis, fun r => -arg ((if r = 3 - 1 then 1 else 0) * st2.w (3 - 1) 0)⟩ with hP
      have hE0 : M.elements P false 0 = mziElements style false 0 0 0 0 0 (modTwoPi ph0) := by
        simp [Mesh.elements, hM, hP, ht2, hp2, ht1, hp1, chainNode0, chainNode1, chain3]
      have hE1 : M.elements P false 1 = mziElements style false x x 0 0 th1 ph1 := by
        simp [Mesh.elements, hM, hP, ht2, hp2, chainNode1, chain3, mziElements_modTwoPi style hs]
      have hout : columnsApply (M.elements P false) (tree 3 3 false) (List.range (numColumns (tree 3 3 false))) v 1 =
          (mziElements style false x x 0 0 th1 ph1).t11 * (mziElements style false 0 0 0 0 0 (modTwoPi ph0)).t12 +
            (mziElements style false x x 0 0 th1 ph1).t21 := by
        rw [hnc, hrange]
        simp [columnsApply, hc0, hc1, parallelTransform, columnWrites, scatter, chainNode0, chainNode1, hE0, hE1, v]
      have hres := nullify_residual style hs le_rfl x hcos _ _ hreach1 hn2
      rw [Real.sqrt_zero, norm_le_zero_iff] at hres
      have hres' : (mziElements style false x x 0 0 th1 ph1).t11 * st1.w 1 0 +
          (mziElements style false x x 0 0 th1 ph1).t21 = 0 := by
        have h2 : st1.w chainNode1.bottom 0 = 1 := hw2
        rw [h2, mul_one] at hres
        exact hres
      have ht21 : (mziElements style false x x 0 0 th1 ph1).t21 ≠ 0 := by
        intro h0
        have h1 := elements_norm_t21 hs x th1 ph1
        rw [h0, norm_zero] at h1
        have h2 := norm_ampB_phase x _ hcos (directTransmissivity_mem le_rfl _ _).1 hreach1
        rw [hf1] at hth1
        rw [← hth1, ← h1, hT1] at h2
        have : 0 < Real.cos (2 * x) ^ 2 / (Real.cos (2 * x) ^ 2 + 1) := by positivity
        rw [← h2] at this
        norm_num at this
      have ht11 : (mziElements style false x x 0 0 th1 ph1).t11 ≠ 0 := by
        intro h0
        rw [h0, zero_mul, zero_add] at hres'
        exact ht21 hres'
      show columnsApply (M.elements P false) (tree 3 3 false) (List.range (numColumns (tree 3 3 false))) v 1 ≠ 0
      rw [hout]
      intro h0
      have h1 : (mziElements style false x x 0 0 th1 ph1).t11 *
          ((mziElements style false 0 0 0 0 0 (modTwoPi ph0)).t12 - st1.w 1 0) = 0 := by
        linear_combination h0 - hres'
      rcases mul_eq_zero.1 h1 with h1 | h1
      · exact ht11 h1
      · have h2 : ‖(mziElements style false 0 0 0 0 0 (modTwoPi ph0)).t12‖ ^ 2 = 1 := by
          rw [elements_norm_t12 hs, norm_ampB_sq, Real.cos_zero]
          have := four_cs_sq 0
          rw [mul_zero, Real.cos_zero, one_pow] at this
          linarith
        rw [sub_eq_zero.1 h1, hw1n] at h2
        have := Real.sin_sq_add_cos_sq (2 * x)
        rw [h2] at this
        exact hsin (by nlinarith)

/-! ### When the tables agree -/

/-- Equal errors, or a node list in id order, make the tables agree; so does the smallest unit, and the
balanced unit on three rails with any two errors. -/
theorem tableMatches_replicate (n : ℕ) (hn : 2 ≤ n) (balanced : Bool) (x : ℝ) :
    TableMatches (tree n n balanced) (List.replicate (n - 1) x) := by
  intro a ha
  have h1 : (tree n n balanced).idxOf a < n - 1 := by
    have := List.idxOf_lt_length_of_mem ha
    rwa [tree_length] at this
  have h2 : a.id < n - 1 := by
    have : a.id ∈ (tree n n balanced).map Node.id := List.mem_map_of_mem ha
    rwa [(tree_ids n n balanced).mem_iff, List.mem_range] at this
  have _ := hn
  simp [ownError, List.getD_eq_getElem?_getD, h1, h2]

theorem tableMatches_balanced3 (x y : ℝ) : TableMatches (tree 3 3 true) [x, y] := by
  have h : tree 3 3 true = [⟨0, 0, 2, 3, 2, 1, 1⟩, ⟨1, 1, 2, 3, 1, 1, 0⟩] := by decide +kernel
  intro a ha
  rw [h] at ha
  simp only [List.mem_cons, List.not_mem_nil, or_false] at ha
  rcases ha with rfl | rfl
  · have : (tree 3 3 true).idxOf ⟨0, 0, 2, 3, 2, 1, 1⟩ = 0 := by decide +kernel
    rw [ownError, this]
  · have : (tree 3 3 true).idxOf ⟨1, 1, 2, 3, 1, 1, 0⟩ = 1 := by decide +kernel
    rw [ownError, this]

theorem mapM_congr_mem {α β : Type} (f g : α → Option β) (l : List α) (h : ∀ a ∈ l, f a = g a) : l.mapM f = l.mapM g := by
  induction l with
  | nil => rfl
  | cons a l ih =>
    rw [List.mapM_cons, List.mapM_cons, h a (by simp), ih (fun b hb => h b (by simp [hb]))]

theorem nullLoopErr_const (eps : ℝ) (style : PhaseStyle) (own : Node → ℝ) (f : ℕ → ℝ) (e : ℝ) (c : ℕ) (nodes : List Node)
    (ho : ∀ a ∈ nodes, own a = e) (hf : ∀ a ∈ nodes, f a.id = e) (cols : List ℕ) (st : NullState) :
    nullLoopErr eps style own f c nodes cols st = nullLoop eps style e c nodes cols st := by
  induction cols generalizing st with
  | nil => rfl
  | cons k ks ih =>
    have : nullColumnErr eps style own f c (columnNodes nodes k) st = nullColumn eps style e c (columnNodes nodes k) st := by
      rw [nullColumnErr_congr eps style own (fun _ => e) f c _ (fun a ha => ho a (mem_columnNodes.1 ha).1)]
      unfold nullColumnErr nullColumn
      rw [mapM_congr_mem _ (fun a => nullifyPhases eps style e e (st.w a.top c) (st.w a.bottom c)) _
        (fun a ha => by rw [hf a (mem_columnNodes.1 ha).1])]
    simp only [nullLoopErr, nullLoop, this, ih]

/-- With equal errors this is the `vectorUnit` of C14. -/
theorem C167_equal_errors (eps : ℝ) (style : PhaseStyle) (x : ℝ) (n : ℕ) (balanced : Bool) (v : ℕ → ℂ) :
    vectorUnitErr eps style (List.replicate (n - 1) x) n balanced v = vectorUnit eps style x n balanced v := by
  have hlt : ∀ a ∈ tree n n balanced, (tree n n balanced).idxOf a < n - 1 ∧ a.id < n - 1 := by
    intro a ha
    have h1 := List.idxOf_lt_length_of_mem ha
    have h2 : a.id ∈ (tree n n balanced).map Node.id := List.mem_map_of_mem ha
    rw [(tree_ids n n balanced).mem_iff, List.mem_range] at h2
    rw [tree_length] at h1
    exact ⟨h1, h2⟩
  unfold vectorUnitErr vectorUnit programVectorUnit
  simp only
  rw [nullLoopErr_const eps style _ _ x 0 _
    (fun a ha => by simp [ownError, List.getD_eq_getElem?_getD, hlt a ha])
    (fun a ha => by simp [List.getD_eq_getElem?_getD, hlt a ha])]
  cases nullLoop eps style x 0 (tree n n balanced) (List.range (numColumns (tree n n balanced)))
      ⟨fun r _ => v r, fun _ => 0, fun _ => 0⟩ with
  | none => rfl
  | some st =>
    simp only [Option.bind_eq_bind, Option.bind_some, errorMesh, Option.some.injEq, Prod.mk.injEq, and_true,
      Mesh.mk.injEq, true_and]
    rw [List.map_replicate, ← tree_length n n balanced, List.map_const']

/-- Non-vacuity: two different errors, power on two rails, and the unit compensates both. -/
example : ∃ M P w, vectorUnitErr 0 .top [Real.pi / 6, Real.pi / 12] 3 true (fun r => if r = 0 then 0 else 1) =
      some (M, P, w) ∧
    RoutesToLast 3 0 (restrict 3 fun r => if r = 0 then 0 else 1)
      ((M.matrix 3 P false).mulVec (restrict 3 fun r => if r = 0 then 0 else 1)) := by
  have h3 : tree 3 3 true = [⟨0, 0, 2, 3, 2, 1, 1⟩, ⟨1, 1, 2, 3, 1, 1, 0⟩] := by decide +kernel
  have hc : columnNodes (tree 3 3 true) 0 = [⟨1, 1, 2, 3, 1, 1, 0⟩] := by decide +kernel
  have h1 : Real.cos (2 * (Real.pi / 6)) = 1 / 2 := by
    rw [show 2 * (Real.pi / 6) = Real.pi / 3 by ring, Real.cos_pi_div_three]
  have h2 : Real.cos (2 * (Real.pi / 12)) ^ 2 = 3 / 4 := by
    rw [show 2 * (Real.pi / 12) = Real.pi / 6 by ring, Real.cos_pi_div_six, div_pow, Real.sq_sqrt (by norm_num)]
    norm_num
  obtain ⟨M, P, w, hu, _, hrt⟩ := C167_compensates_partial 0 le_rfl .top (Or.inl rfl) 3 (by norm_num) true
    [Real.pi / 6, Real.pi / 12] rfl (by
      intro x hx
      simp only [List.mem_cons, List.not_mem_nil, or_false] at hx
      rcases hx with rfl | rfl
      · rw [h1]; norm_num
      · intro h; rw [h] at h2; norm_num at h2) (tableMatches_balanced3 _ _) (fun r => if r = 0 then 0 else 1) (by
    intro k st hst a ha hk
    rw [h3] at ha
    simp only [List.mem_cons, List.not_mem_nil, or_false] at ha
    rcases ha with rfl | rfl
    · obtain rfl : k = 1 := hk.symm
      obtain ⟨st1, _, _, e1, -, -, -, -, -, -, ho⟩ := nullColumnErr_single (style := .top) (Or.inl rfl) 0
        (ownError (tree 3 3 true) [Real.pi / 6, Real.pi / 12]) (fun k => [Real.pi / 6, Real.pi / 12].getD k 0) 0
        ⟨1, 1, 2, 3, 1, 1, 0⟩ (by decide) ⟨fun r _ => if r = 0 then 0 else 1, fun _ => 0, fun _ => 0⟩
      simp only [List.range_one, nullLoopErr, hc, e1, Option.bind_eq_bind, Option.bind_some, Option.some.injEq] at hst
      subst hst
      have : st1.w 0 0 = 0 := by rw [ho 0 (by decide) (by decide)]; simp
      show directTransmissivity 0 (st1.w 0 0) (st1.w 2 0) ≤ _
      rw [this]
      simp only [directTransmissivity, norm_zero, ne_eq, OfNat.ofNat_ne_zero, not_false_eq_true, zero_pow, zero_div]
      positivity
    · obtain rfl : k = 0 := hk.symm
      simp only [List.range_zero, nullLoopErr, Option.some.injEq] at hst
      subst hst
      show _ ≤ Real.cos (2 * (Real.pi / 12)) ^ 2
      rw [h2]
      norm_num [directTransmissivity])
  exact ⟨M, P, w, hu, hrt⟩

/-- Non-vacuity of the failing case. -/
example : Real.sin (2 * (Real.pi / 12)) ≠ 0 ∧ Real.cos (2 * (Real.pi / 12)) ≠ 0 := by
  rw [show 2 * (Real.pi / 12) = Real.pi / 6 by ring, Real.cos_pi_div_six, Real.sin_pi_div_six]
  exact ⟨by norm_num, by positivity⟩

end Simphox
