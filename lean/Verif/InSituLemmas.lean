import Verif.InSitu

/-! # Lemmas on in-situ backpropagation -/

namespace Simphox

open Complex

/-! ### JAX explicit propagation = NumPy explicit propagation -/

theorem padColumn_pad_free {n : ℕ} {M : Mesh} (hM : M.WellFormed n) (k : ℕ)
    (hpos : 0 < maxWidth M.nodes - (columnNodes M.nodes k).length) :
    ∀ a ∈ columnNodes M.nodes k, (dummyRail n (columnNodes M.nodes k)).getD 0 ≠ a.top ∧
      (dummyRail n (columnNodes M.nodes k)).getD 0 ≠ a.bottom := by
  cases hdr : dummyRail n (columnNodes M.nodes k) with
  | none => have := pad_none hM k hdr; omega
  | some d' => exact (dummyRail_some hdr).2

/-- A scatter on a padded column that multiplies one rail of every node by a masked phase. -/
theorem jaxPhase_eq {n : ℕ} {M : Mesh} (hM : M.WellFormed n) (k : ℕ) (phases : ℕ → ℝ)
    {v u : ℕ → ℂ} (railN : Node → ℕ) (railE : PadEntry → ℕ)
    (hr : ∀ a : Node, railE ⟨a.top, a.bottom, a.id, 1⟩ = railN a)
    (hd : ∀ d, railE ⟨d, d, 0, 0⟩ = d)
    (hrail : ∀ a, railN a = a.top ∨ railN a = a.bottom)
    (hinj : ∀ a ∈ columnNodes M.nodes k, ∀ b ∈ columnNodes M.nodes k, railN a = railN b → a = b)
    (h : IsScatter v ((padColumn n (maxWidth M.nodes) (columnNodes M.nodes k)).map fun e =>
      (railE e, v (railE e) * exp (I * phases e.idx * e.mask))) u) :
    u = scatter v ((columnNodes M.nodes k).map fun a =>
      (railN a, v (railN a) * exp (I * phases a.id))) := by
  funext r
  by_cases hra : ∃ a ∈ columnNodes M.nodes k, railN a = r
  · obtain ⟨a, ha, rfl⟩ := hra
    rw [scatter_mem _ _ (railN a) (v (railN a) * exp (I * phases a.id))
      (List.mem_map.2 ⟨a, ha, rfl⟩)]
    · rcases h (railN a) with ⟨x, hx, hu⟩ | ⟨hno, _⟩
      · obtain ⟨e, he, hee⟩ := List.mem_map.1 hx
        rcases mem_padColumn he with ⟨b, hb, rfl⟩ | ⟨hpos, rfl⟩
        · simp only [hr, Prod.mk.injEq, Nat.cast_one, mul_one] at hee
          have := hinj b hb a ha hee.1
          subst this
          rw [hu, ← hee.2]
        · simp only [hd, Prod.mk.injEq] at hee
          have := padColumn_pad_free hM k hpos a ha
          rcases hrail a with h1 | h1 <;> rw [h1] at hee
          · exact absurd hee.1 this.1
          · exact absurd hee.1 this.2
      · exfalso
        refine hno (v (railN a) * exp (I * phases a.id)) (List.mem_map.2
          ⟨⟨a.top, a.bottom, a.id, 1⟩, ?_, ?_⟩)
        · exact List.mem_append_left _ (List.mem_map.2 ⟨a, ha, rfl⟩)
        · simp only [hr, Nat.cast_one, mul_one]
    · intro y hy
      obtain ⟨b, hb, hbe⟩ := List.mem_map.1 hy
      simp only [Prod.mk.injEq] at hbe
      have := hinj b hb a ha hbe.1
      subst this
      exact hbe.2.symm
  · rw [scatter_not_mem]
    · rcases h r with ⟨x, hx, hu⟩ | ⟨_, hu⟩
      · obtain ⟨e, he, hee⟩ := List.mem_map.1 hx
        rcases mem_padColumn he with ⟨b, hb, rfl⟩ | ⟨hpos, rfl⟩
        · simp only [hr, Prod.mk.injEq] at hee
          exact absurd ⟨b, hb, hee.1⟩ hra
        · simp only [hd, Prod.mk.injEq, Nat.cast_zero, mul_zero, exp_zero, mul_one] at hee
          rw [hu, ← hee.2, hee.1]
      · exact hu
    · intro p hp
      obtain ⟨b, hb, rfl⟩ := List.mem_map.1 hp
      exact fun e => hra ⟨b, hb, e⟩

theorem jaxMultiply_eq {n : ℕ} {M : Mesh} (hM : M.WellFormed n) (k : ℕ) (style : PhaseStyle)
    (phases : ℕ → ℝ) {v u : ℕ → ℂ}
    (h : JaxMultiply style phases (padColumn n (maxWidth M.nodes) (columnNodes M.nodes k)) v u) :
    parallelMultiply style phases (columnNodes M.nodes k) v = some u := by
  obtain ⟨writes, hw, hs⟩ := h
  have hg := hM.goodColumn k
  cases style with
  | top =>
    simp only [jaxMultiplyWrites, Option.some.injEq] at hw
    subst hw
    simp only [parallelMultiply, Option.some.injEq]
    exact (jaxPhase_eq hM k phases Node.top PadEntry.top (fun _ => rfl) (fun _ => rfl)
      (fun _ => Or.inl rfl) (fun a ha b hb e => hg.eq_of ha hb (Or.inl e)) hs).symm
  | bottom =>
    simp only [jaxMultiplyWrites, Option.some.injEq] at hw
    subst hw
    simp only [parallelMultiply, Option.some.injEq]
    exact (jaxPhase_eq hM k phases Node.bottom PadEntry.bottom (fun _ => rfl) (fun _ => rfl)
      (fun _ => Or.inr rfl) (fun a ha b hb e => hg.eq_of ha hb (Or.inr (Or.inr (Or.inr e))))
      hs).symm
  | _ => simp [jaxMultiplyWrites] at hw

theorem jaxExplicitColumn_eq {n : ℕ} {M : Mesh} (hM : M.WellFormed n) (P : Params) (k : ℕ)
    {v v1 v2 v3 v4 : ℕ → ℂ}
    (h : JaxExplicitColumn M P false (padColumn n (maxWidth M.nodes) (columnNodes M.nodes k))
      v v1 v2 v3 v4) :
    explicitColumn M P (columnNodes M.nodes k) v = some [v1, v2, v3, v4] := by
  simp only [JaxExplicitColumn, Bool.false_eq_true, if_false] at h
  obtain ⟨h1, h2, h3, h4⟩ := h
  have e1 := jaxMultiply_eq hM k _ _ h1
  have e2 := jaxColumn hM k h2
  have e3 := jaxMultiply_eq hM k _ _ h3
  have e4 := jaxColumn hM k h4
  subst e2 e4
  simp only [explicitColumn, e1, e3, Option.bind_eq_bind, Option.bind_some]
  rfl

theorem jaxExplicitColumnBack_eq {n : ℕ} {M : Mesh} (hM : M.WellFormed n) (P : Params) (k : ℕ)
    {v v1 v2 v3 v4 : ℕ → ℂ}
    (h : JaxExplicitColumn M P true (padColumn n (maxWidth M.nodes) (columnNodes M.nodes k))
      v v1 v2 v3 v4) :
    explicitColumnBack M P (columnNodes M.nodes k) v = some [v1, v2, v3, v4] := by
  simp only [JaxExplicitColumn, if_true] at h
  obtain ⟨h1, h2, h3, h4⟩ := h
  have e1 := jaxColumn hM k h1
  have e2 := jaxMultiply_eq hM k _ _ h2
  have e3 := jaxColumn hM k h3
  have e4 := jaxMultiply_eq hM k _ _ h4
  subst e1 e3
  simp only [explicitColumnBack, e2, e4, Option.bind_eq_bind, Option.bind_some]
  rfl

theorem jaxExplicitScan_eq {n : ℕ} {M : Mesh} (hM : M.WellFormed n) (P : Params) {cols : List ℕ}
    {v w : ℕ → ℂ} {snaps : List (ℕ → ℂ)} (h : JaxExplicitScan n M P false cols v snaps w) :
    explicitLoop M P cols v = some (snaps, w) := by
  induction h with
  | nil v => rfl
  | cons k cols v v1 v2 v3 v4 snaps w hc _ ih =>
    simp only [explicitLoop, jaxExplicitColumn_eq hM P k hc, Option.bind_eq_bind,
      Option.bind_some]
    simp only [List.getLast?_cons_cons, List.getLast?_singleton, Option.getD_some, ih,
      Option.bind_some]
    rfl

theorem jaxExplicitScanBack_eq {n : ℕ} {M : Mesh} (hM : M.WellFormed n) (P : Params)
    {cols : List ℕ} {v w : ℕ → ℂ} {snaps : List (ℕ → ℂ)}
    (h : JaxExplicitScan n M P true cols v snaps w) :
    explicitLoopBack M P cols v = some snaps := by
  induction h with
  | nil v => rfl
  | cons k cols v v1 v2 v3 v4 snaps w hc _ ih =>
    simp only [explicitLoopBack, jaxExplicitColumnBack_eq hM P k hc, Option.bind_eq_bind,
      Option.bind_some]
    simp only [List.getLast?_cons_cons, List.getLast?_singleton, Option.getD_some, ih,
      Option.bind_some]
    rfl

theorem jaxPropagate_eq {n : ℕ} {M : Mesh} (hM : M.WellFormed n) (P : Params) {v : ℕ → ℂ}
    {snaps : List (ℕ → ℂ)} (h : M.JaxPropagate n P false v snaps) :
    M.propagateExplicit P v = some snaps := by
  simp only [Mesh.JaxPropagate, Bool.false_eq_true, if_false] at h
  obtain ⟨s, w, hs, rfl⟩ := h
  simp only [Mesh.propagateExplicit, jaxExplicitScan_eq hM P hs, Option.bind_eq_bind,
    Option.bind_some]
  rfl

theorem jaxPropagateBack_eq {n : ℕ} {M : Mesh} (hM : M.WellFormed n) (P : Params) {v : ℕ → ℂ}
    {snaps : List (ℕ → ℂ)} (h : M.JaxPropagate n P true v snaps) :
    M.propagateExplicitBack P v = some snaps := by
  simp only [Mesh.JaxPropagate, if_true] at h
  obtain ⟨s, w, hs, rfl⟩ := h
  simp only [Mesh.propagateExplicitBack, jaxExplicitScanBack_eq hM P hs, Option.bind_eq_bind,
    Option.bind_some]
  rfl

theorem jaxMultiply_exists (style : PhaseStyle) (hs : style = .top ∨ style = .bottom)
    (phases : ℕ → ℝ) (row : List PadEntry) (v : ℕ → ℂ) : ∃ u, JaxMultiply style phases row v u := by
  rcases hs with rfl | rfl
  · exact ⟨_, _, rfl, scatter_isScatter _ _⟩
  · exact ⟨_, _, rfl, scatter_isScatter _ _⟩

theorem jaxExplicitColumn_exists (M : Mesh) (P : Params) (back : Bool)
    (hs : M.style = .top ∨ M.style = .bottom) (row : List PadEntry) (v : ℕ → ℂ) :
    ∃ v1 v2 v3 v4, JaxExplicitColumn M P back row v v1 v2 v3 v4 := by
  unfold JaxExplicitColumn
  cases back
  · simp only [Bool.false_eq_true, if_false]
    obtain ⟨v1, h1⟩ := jaxMultiply_exists M.style hs P.phis row v
    obtain ⟨v3, h3⟩ := jaxMultiply_exists M.style hs P.thetas row (scatter v1 (jaxWrites _ row v1))
    exact ⟨v1, _, v3, _, h1, scatter_isScatter _ _, h3, scatter_isScatter _ _⟩
  · simp only [if_true]
    obtain ⟨v2, h2⟩ := jaxMultiply_exists M.style hs P.thetas row (scatter v (jaxWrites _ row v))
    obtain ⟨v4, h4⟩ := jaxMultiply_exists M.style hs P.phis row (scatter v2 (jaxWrites _ row v2))
    exact ⟨_, v2, _, v4, scatter_isScatter _ _, h2, scatter_isScatter _ _, h4⟩

theorem jaxExplicitScan_exists (n : ℕ) (M : Mesh) (P : Params) (back : Bool)
    (hs : M.style = .top ∨ M.style = .bottom) (cols : List ℕ) (v : ℕ → ℂ) :
    ∃ snaps w, JaxExplicitScan n M P back cols v snaps w := by
  induction cols generalizing v with
  | nil => exact ⟨_, _, .nil v⟩
  | cons k cols ih =>
    obtain ⟨v1, v2, v3, v4, h⟩ := jaxExplicitColumn_exists M P back hs
      (padColumn n (maxWidth M.nodes) (columnNodes M.nodes k)) v
    obtain ⟨s, w, hs'⟩ := ih v4
    exact ⟨_, _, .cons k cols v v1 v2 v3 v4 s w h hs'⟩

theorem jaxPropagate_exists (n : ℕ) (M : Mesh) (P : Params) (back : Bool)
    (hs : M.style = .top ∨ M.style = .bottom) (v : ℕ → ℂ) :
    ∃ snaps, M.JaxPropagate n P back v snaps := by
  unfold Mesh.JaxPropagate
  cases back
  · obtain ⟨s, w, h⟩ := jaxExplicitScan_exists n M P false hs (columnOrder M.nodes false) v
    exact ⟨_, by simpa using ⟨s, w, h, rfl⟩⟩
  · obtain ⟨s, w, h⟩ := jaxExplicitScan_exists n M P true hs (columnOrder M.nodes true)
      (gammaApply P.gammas v)
    exact ⟨_, by simpa using ⟨s, ⟨w, h⟩, rfl⟩⟩

theorem inSituEngine_exists (n : ℕ) (M : Mesh) (P : Params)
    (hs : M.style = .top ∨ M.style = .bottom) : ∃ E : InSituEngine, E.Runs n M P := by
  choose f hf using jaxPropagate_exists n M P false hs
  choose b hb using jaxPropagate_exists n M P true hs
  have ha : ∀ v, ∃ w, M.JaxApply n P true v w := by
    intro v
    obtain ⟨w, hw⟩ := jaxScan_exists n (M.elements P true) M.nodes (columnOrder M.nodes true)
      (gammaApply P.gammas v)
    exact ⟨w, by simpa [Mesh.JaxApply] using hw⟩
  choose a ha using ha
  exact ⟨⟨f, b, a⟩, hf, hb, ha⟩

/-! ### Steps -/

/-- A symmetric unitary step on `n` rails. -/
structure SymStep (n : ℕ) (s : (ℕ → ℂ) → ℕ → ℂ) : Prop where
  add : ∀ x y, s (fun r => x r + y r) = fun r => s x r + s y r
  smul : ∀ (a : ℂ) x, s (fun r => a * x r) = fun r => a * s x r
  symm : ∀ g y, ∑ r ∈ Finset.range n, g r * s y r = ∑ r ∈ Finset.range n, s g r * y r
  unit : ∀ g, s (fun r => starRingEnd ℂ (s g r)) = fun r => starRingEnd ℂ (g r)

/-- Apply steps left to right. -/
def runSteps (S : List ((ℕ → ℂ) → ℕ → ℂ)) (v : ℕ → ℂ) : ℕ → ℂ := S.foldl (fun v s => s v) v

@[simp] theorem runSteps_nil (v : ℕ → ℂ) : runSteps [] v = v := rfl
@[simp] theorem runSteps_cons (s) (S : List ((ℕ → ℂ) → ℕ → ℂ)) (v : ℕ → ℂ) :
    runSteps (s :: S) v = runSteps S (s v) := rfl
theorem runSteps_append (S T : List ((ℕ → ℂ) → ℕ → ℂ)) (v : ℕ → ℂ) :
    runSteps (S ++ T) v = runSteps T (runSteps S v) := by simp [runSteps, List.foldl_append]

/-- The fields after each step. -/
def snapsOf : List ((ℕ → ℂ) → ℕ → ℂ) → (ℕ → ℂ) → List (ℕ → ℂ)
  | [], _ => []
  | s :: S, v => s v :: snapsOf S (s v)

theorem snapsOf_append (S T : List ((ℕ → ℂ) → ℕ → ℂ)) (v : ℕ → ℂ) :
    snapsOf (S ++ T) v = snapsOf S v ++ snapsOf T (runSteps S v) := by
  induction S generalizing v with
  | nil => rfl
  | cons s S ih => simp [snapsOf, ih]

theorem snapsOf_length (S : List ((ℕ → ℂ) → ℕ → ℂ)) (v : ℕ → ℂ) :
    (snapsOf S v).length = S.length := by
  induction S generalizing v with
  | nil => rfl
  | cons s S ih => simp [snapsOf, ih]

theorem snapsOf_get (S : List ((ℕ → ℂ) → ℕ → ℂ)) (v : ℕ → ℂ) (t : ℕ) (ht : t ≤ S.length) :
    (v :: snapsOf S v)[t]? = some (runSteps (S.take t) v) := by
  induction S generalizing v t with
  | nil => simp at ht; subst ht; rfl
  | cons s S ih =>
    cases t with
    | zero => rfl
    | succ t => simpa [snapsOf] using ih (s v) t (by simpa using ht)

theorem snapsOf_last (S : List ((ℕ → ℂ) → ℕ → ℂ)) (v w : ℕ → ℂ) :
    (snapsOf S v).getLast?.getD w = if S = [] then w else runSteps S v := by
  induction S generalizing v w with
  | nil => rfl
  | cons s S ih =>
    have := ih (s v) (s v)
    simp only [snapsOf, List.getLast?_cons, Option.getD_some, runSteps_cons, reduceCtorEq,
      if_false]
    rw [this]
    split_ifs with h
    · simp [h]
    · rfl

section
variable {n : ℕ} {S : List ((ℕ → ℂ) → ℕ → ℂ)}

theorem runSteps_add (h : ∀ s ∈ S, SymStep n s) (x y : ℕ → ℂ) :
    runSteps S (fun r => x r + y r) = fun r => runSteps S x r + runSteps S y r := by
  induction S generalizing x y with
  | nil => rfl
  | cons s S ih =>
    rw [runSteps_cons, (h s (by simp)).add, ih fun s hs => h s (by simp [hs])]
    rfl

theorem runSteps_smul (h : ∀ s ∈ S, SymStep n s) (a : ℂ) (x : ℕ → ℂ) :
    runSteps S (fun r => a * x r) = fun r => a * runSteps S x r := by
  induction S generalizing x with
  | nil => rfl
  | cons s S ih =>
    rw [runSteps_cons, (h s (by simp)).smul, ih fun s hs => h s (by simp [hs])]
    rfl

theorem runSteps_symm (h : ∀ s ∈ S, SymStep n s) (g y : ℕ → ℂ) :
    ∑ r ∈ Finset.range n, g r * runSteps S y r =
      ∑ r ∈ Finset.range n, runSteps S.reverse g r * y r := by
  induction S generalizing y with
  | nil => rfl
  | cons s S ih =>
    rw [runSteps_cons, ih fun s hs => h s (by simp [hs]), List.reverse_cons, runSteps_append,
      runSteps_cons, runSteps_nil, (h s (by simp)).symm]

/-- Sending the conjugate of the back-propagated field forward retraces it. -/
theorem runSteps_retrace (h : ∀ s ∈ S, SymStep n s) (g : ℕ → ℂ) :
    runSteps S (fun r => starRingEnd ℂ (runSteps S.reverse g r)) =
      fun r => starRingEnd ℂ (g r) := by
  induction S generalizing g with
  | nil => rfl
  | cons s S ih =>
    rw [List.reverse_cons, runSteps_append, runSteps_cons, runSteps_cons, runSteps_nil,
      (h s (by simp)).unit, ih fun s hs => h s (by simp [hs])]
end

/-- Blocks that are symmetric unitary. -/
structure SymBlock (m : Elements) : Prop where
  symm : m.t12 = m.t21
  u11 : m.t11 * starRingEnd ℂ m.t11 + m.t21 * starRingEnd ℂ m.t12 = 1
  u22 : m.t12 * starRingEnd ℂ m.t21 + m.t22 * starRingEnd ℂ m.t22 = 1
  u12 : m.t11 * starRingEnd ℂ m.t21 + m.t21 * starRingEnd ℂ m.t22 = 0
  u21 : m.t12 * starRingEnd ℂ m.t11 + m.t22 * starRingEnd ℂ m.t12 = 0

theorem sum_seqApply {n : ℕ} {el : ℕ → Elements} (nodes : List Node)
    (hr : ∀ a ∈ nodes, a.top < n ∧ a.bottom < n ∧ a.top ≠ a.bottom)
    (hel : ∀ a ∈ nodes, (el a.id).t12 = (el a.id).t21) (g y : ℕ → ℂ) :
    ∑ r ∈ Finset.range n, g r * seqApply el nodes y r =
      ∑ r ∈ Finset.range n, seqApply el nodes.reverse g r * y r := by
  induction nodes generalizing y with
  | nil => rfl
  | cons a l ih =>
    have e1 : seqApply el (a :: l) y = seqApply el l (nodeAct (el a.id) a.top a.bottom y) := rfl
    have e2 : seqApply el (a :: l).reverse g =
        nodeAct (el a.id) a.top a.bottom (seqApply el l.reverse g) := by
      simp [seqApply, List.foldl_append]
    rw [e1, e2, ih (fun b hb => hr b (by simp [hb])) (fun b hb => hel b (by simp [hb]))]
    generalize seqApply el l.reverse g = g'
    obtain ⟨ht, hb, hne⟩ := hr a (by simp)
    have hs := hel a (by simp)
    have split : ∀ f : ℕ → ℂ, ∑ r ∈ Finset.range n, f r = f a.top + f a.bottom +
        ∑ r ∈ ((Finset.range n).erase a.top).erase a.bottom, f r := by
      intro f
      rw [← Finset.add_sum_erase _ _ (Finset.mem_range.2 ht),
        ← Finset.add_sum_erase _ _ (Finset.mem_erase.2 ⟨hne.symm, Finset.mem_range.2 hb⟩)]
      ring
    rw [split, split]
    congr 1
    · simp only [nodeAct, if_true, hne.symm, if_false, hs]; ring
    · apply Finset.sum_congr rfl
      intro r hr
      simp only [Finset.mem_erase] at hr
      simp only [nodeAct, hr.1, hr.2.1, if_false]

/-- A parallel column of symmetric unitary blocks is a symmetric unitary step. -/
theorem parallelTransform_symStep {n : ℕ} {el : ℕ → Elements} {nodes : List Node}
    (hg : GoodColumn nodes) (hr : ∀ a ∈ nodes, a.top < n ∧ a.bottom < n)
    (hel : ∀ k, SymBlock (el k)) : SymStep n (parallelTransform el nodes) where
  add x y := by
    have h1 := parallelTransform_result (el := el) hg x
    have h2 := parallelTransform_result (el := el) hg y
    refine (parallelTransform_result (el := el) hg _).unique ⟨?_, ?_, ?_⟩
    · intro a ha; rw [h1.top a ha, h2.top a ha]; ring
    · intro a ha; rw [h1.bottom a ha, h2.bottom a ha]; ring
    · intro r hr; rw [h1.other r hr, h2.other r hr]
  smul c x := by
    have h1 := parallelTransform_result (el := el) hg x
    refine (parallelTransform_result (el := el) hg _).unique ⟨?_, ?_, ?_⟩
    · intro a ha; rw [h1.top a ha]; ring
    · intro a ha; rw [h1.bottom a ha]; ring
    · intro r hr; rw [h1.other r hr]
  symm g y := by
    rw [parallelTransform_eq_seq hg, sum_seqApply nodes
      (fun a ha => ⟨(hr a ha).1, (hr a ha).2, hg.ne a ha⟩) (fun a _ => (hel a.id).symm),
      parallelTransform_perm hg nodes.reverse_perm.symm g,
      parallelTransform_eq_seq (hg.perm nodes.reverse_perm.symm)]
  unit g := by
    have h1 := parallelTransform_result (el := el) hg g
    refine (parallelTransform_result (el := el) hg _).unique ⟨?_, ?_, ?_⟩
    · intro a ha
      rw [h1.top a ha, h1.bottom a ha]
      simp only [map_add, map_mul]
      linear_combination -(starRingEnd ℂ (g a.top)) * (hel a.id).u11 -
        (starRingEnd ℂ (g a.bottom)) * (hel a.id).u12
    · intro a ha
      rw [h1.top a ha, h1.bottom a ha]
      simp only [map_add, map_mul]
      linear_combination -(starRingEnd ℂ (g a.top)) * (hel a.id).u21 -
        (starRingEnd ℂ (g a.bottom)) * (hel a.id).u22
    · intro r hr; rw [h1.other r hr]

theorem exp_mul_conj (x : ℝ) : exp (I * x) * starRingEnd ℂ (exp (I * x)) = 1 := by
  rw [mul_conj, normSq_eq_norm_sq, norm_exp_I]; simp

theorem phaseEl_symBlock (x : ℝ) : SymBlock (phaseEl (exp (I * x)) 1) := by
  refine ⟨rfl, ?_, ?_, ?_, ?_⟩ <;> simp only [phaseEl]
  · rw [exp_mul_conj]; simp
  all_goals simp

theorem dcElements_symBlock : SymBlock (dcElements 0 0) := by
  have h2 : (Real.cos (Real.pi / 4) : ℂ) * Real.cos (Real.pi / 4) +
      Real.sin (Real.pi / 4) * Real.sin (Real.pi / 4) = 1 := by
    have := Real.cos_sq_add_sin_sq (Real.pi / 4)
    exact_mod_cast (by nlinarith : Real.cos (Real.pi / 4) * Real.cos (Real.pi / 4) +
      Real.sin (Real.pi / 4) * Real.sin (Real.pi / 4) = 1)
  refine ⟨?_, ?_, ?_, ?_, ?_⟩ <;>
    simp only [dcElements, mul_zero, zero_div, Real.exp_zero, ofReal_one, one_mul, add_zero,
      map_mul, conj_I, conj_ofReal]
  · linear_combination h2 - Real.cos (Real.pi / 4) ^ 2 * I_sq
  · linear_combination h2 - Real.cos (Real.pi / 4) ^ 2 * I_sq
  · ring
  · ring

theorem gammaApply_symStep (n : ℕ) (γ : ℕ → ℝ) : SymStep n (gammaApply γ) where
  add x y := by funext r; simp only [gammaApply]; ring
  smul a x := by funext r; simp only [gammaApply]; ring
  symm g y := by
    apply Finset.sum_congr rfl
    intro r _
    simp only [gammaApply]; ring
  unit g := by
    funext r
    simp only [gammaApply, map_mul]
    rw [← mul_assoc, exp_mul_conj, one_mul]

/-! ### The steps of an ideal TOP mesh -/

/-- Phases on the top rails of the nodes of a column. -/
noncomputable def phaseStep (phases : ℕ → ℝ) (nodes : List Node) : (ℕ → ℂ) → ℕ → ℂ :=
  parallelTransform (fun k => phaseEl (exp (I * phases k)) 1) nodes

/-- 50:50 couplers on the nodes of a column. -/
noncomputable def dcStep (nodes : List Node) : (ℕ → ℂ) → ℕ → ℂ :=
  parallelTransform (fun _ => dcElements 0 0) nodes

/-- The four steps of a column. -/
noncomputable def columnSteps (P : Params) (nodes : List Node) : List ((ℕ → ℂ) → ℕ → ℂ) :=
  [phaseStep P.phis nodes, dcStep nodes, phaseStep P.thetas nodes, dcStep nodes]

noncomputable def colsSteps (P : Params) (nodes : List Node) (cols : List ℕ) :
    List ((ℕ → ℂ) → ℕ → ℂ) := cols.flatMap fun k => columnSteps P (columnNodes nodes k)

/-- All steps of the mesh. -/
noncomputable def meshSteps (P : Params) (nodes : List Node) : List ((ℕ → ℂ) → ℕ → ℂ) :=
  colsSteps P nodes (List.range (numColumns nodes)) ++ [gammaApply P.gammas]

/-- No coupler errors. -/
def Mesh.Errorless (M : Mesh) : Prop := ∀ p ∈ M.errors, p = (0, 0)

theorem Mesh.Errorless.getD {M : Mesh} (h : M.Errorless) (k : ℕ) :
    M.errors.getD k (0, 0) = (0, 0) := by
  by_cases hk : k < M.errors.length
  · simpa [List.getD_eq_getElem?_getD, hk] using h _ (List.getElem_mem hk)
  · simp [List.getD_eq_getElem?_getD, hk]

section
variable {n : ℕ} {M : Mesh} (hM : M.WellFormed n) (hs : M.style = .top) (he : M.Errorless)
  (hl : M.Lossless)
include hM

theorem columnSteps_sym (P : Params) (k : ℕ) :
    ∀ s ∈ columnSteps P (columnNodes M.nodes k), SymStep n s := by
  have hg := hM.goodColumn k
  have hr : ∀ a ∈ columnNodes M.nodes k, a.top < n ∧ a.bottom < n := fun a ha => by
    have := hM.rails a (mem_columnNodes.1 ha).1; exact ⟨this.1, this.2.1⟩
  intro s hs
  simp only [columnSteps, List.mem_cons, List.not_mem_nil, or_false] at hs
  rcases hs with rfl | rfl | rfl | rfl
  · exact parallelTransform_symStep hg hr fun k => phaseEl_symBlock _
  · exact parallelTransform_symStep hg hr fun _ => dcElements_symBlock
  · exact parallelTransform_symStep hg hr fun k => phaseEl_symBlock _
  · exact parallelTransform_symStep hg hr fun _ => dcElements_symBlock

theorem colsSteps_sym (P : Params) (cols : List ℕ) :
    ∀ s ∈ colsSteps P M.nodes cols, SymStep n s := by
  intro s hs
  obtain ⟨k, _, hk⟩ := List.mem_flatMap.1 hs
  exact columnSteps_sym hM P k s hk

theorem meshSteps_sym (P : Params) : ∀ s ∈ meshSteps P M.nodes, SymStep n s := by
  intro s hs
  rcases List.mem_append.1 hs with hs | hs
  · exact colsSteps_sym hM P _ s hs
  · rw [List.mem_singleton.1 hs]; exact gammaApply_symStep n _

include hs he hl

theorem explicitColumn_steps (P : Params) (k : ℕ) (v : ℕ → ℂ) :
    explicitColumn M P (columnNodes M.nodes k) v =
      some (snapsOf (columnSteps P (columnNodes M.nodes k)) v) := by
  have hg := hM.goodColumn k
  simp only [explicitColumn, parallelMultiply, hs, Option.bind_eq_bind, Option.bind_some,
    he.getD, hl.getD]
  rw [scatter_top_eq hg (fun k => exp (I * P.phis k)),
    scatter_top_eq hg (fun k => exp (I * P.thetas k))]
  rfl

theorem explicitColumnBack_steps (P : Params) (k : ℕ) (v : ℕ → ℂ) :
    explicitColumnBack M P (columnNodes M.nodes k) v =
      some (snapsOf (columnSteps P (columnNodes M.nodes k)).reverse v) := by
  have hg := hM.goodColumn k
  simp only [explicitColumnBack, parallelMultiply, hs, Option.bind_eq_bind, Option.bind_some,
    he.getD, hl.getD]
  rw [scatter_top_eq hg (fun k => exp (I * P.phis k)),
    scatter_top_eq hg (fun k => exp (I * P.thetas k))]
  rfl

theorem explicitLoop_steps (P : Params) (cols : List ℕ) (v : ℕ → ℂ) :
    explicitLoop M P cols v =
      some (snapsOf (colsSteps P M.nodes cols) v, runSteps (colsSteps P M.nodes cols) v) := by
  induction cols generalizing v with
  | nil => rfl
  | cons k ks ih =>
    have e : colsSteps P M.nodes (k :: ks) =
        columnSteps P (columnNodes M.nodes k) ++ colsSteps P M.nodes ks := by simp [colsSteps]
    rw [e, snapsOf_append, runSteps_append]
    simp only [explicitLoop, explicitColumn_steps hM hs he hl P k v, Option.bind_eq_bind,
      Option.bind_some, snapsOf_last]
    rw [if_neg (by simp [columnSteps])]
    simp only [ih, Option.bind_some]
    rfl

theorem explicitLoopBack_steps (P : Params) (cols : List ℕ) (v : ℕ → ℂ) :
    explicitLoopBack M P cols v =
      some (snapsOf (colsSteps P M.nodes cols.reverse).reverse v) := by
  induction cols generalizing v with
  | nil => rfl
  | cons k ks ih =>
    have e : (colsSteps P M.nodes (k :: ks).reverse).reverse =
        (columnSteps P (columnNodes M.nodes k)).reverse ++
          (colsSteps P M.nodes ks.reverse).reverse := by simp [colsSteps]
    rw [e, snapsOf_append]
    simp only [explicitLoopBack, explicitColumnBack_steps hM hs he hl P k v, Option.bind_eq_bind,
      Option.bind_some, snapsOf_last]
    rw [if_neg (by simp [columnSteps])]
    simp only [ih, Option.bind_some]
    rfl

theorem propagateExplicit_steps (P : Params) (v : ℕ → ℂ) :
    M.propagateExplicit P v = some (v :: snapsOf (meshSteps P M.nodes) v) := by
  simp only [Mesh.propagateExplicit, explicitLoop_steps hM hs he hl, Option.bind_eq_bind,
    Option.bind_some, columnOrder, Bool.false_eq_true, if_false, meshSteps, snapsOf_append]
  rfl

theorem propagateExplicitBack_steps (P : Params) (v : ℕ → ℂ) :
    M.propagateExplicitBack P v = some (v :: snapsOf (meshSteps P M.nodes).reverse v) := by
  simp only [Mesh.propagateExplicitBack, explicitLoopBack_steps hM hs he hl, Option.bind_eq_bind,
    Option.bind_some, columnOrder, if_true, meshSteps, List.reverse_append, List.reverse_reverse]
  rfl

theorem apply_steps (P : Params) (v : ℕ → ℂ) :
    M.apply P false v = runSteps (meshSteps P M.nodes) v := by
  have hse : M.explicitMesh = M := by
    unfold Mesh.explicitMesh
    have e1 : (M.errors.map fun p => (-p.1, -p.2)) = M.errors := by
      conv_rhs => rw [← List.map_id M.errors]
      apply List.map_congr_left
      intro p hp
      rw [he p hp]; simp
    have e2 : (M.losses.map fun p => (p.2, p.1)) = M.losses := by
      conv_rhs => rw [← List.map_id M.losses]
      apply List.map_congr_left
      intro p hp
      rw [hl p hp]; simp
    rw [e1, e2]
  obtain ⟨snaps, h1, _⟩ := explicitLoop_out hM P (Or.inl hs) (columnOrder M.nodes false) v
  rw [explicitLoop_steps hM hs he hl] at h1
  simp only [Option.some.injEq, Prod.mk.injEq, hse] at h1
  simp only [Mesh.apply, Bool.false_eq_true, if_false, meshSteps, runSteps_append, ← h1.2]
  rfl

end

end Simphox
