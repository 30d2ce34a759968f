import Verif.HessianProps
import Mathlib.Analysis.Calculus.Deriv.Mul
import Mathlib.Analysis.Complex.RealDeriv
import Mathlib.Algebra.BigOperators.Field

/-! # `hessian_vector_unit` (C105): the theorems -/

namespace Simphox

open Complex

/-! ### Specification -/

/-- The cost whose second derivatives `hessian_vector_unit` tabulates, as `hessian_fd` spells it out:
`err(params) = 2 - 2 * mesh.matrix_fn()(params, v.conj())[-1]`, real part (vector.py:292-293, 309-312). -/
noncomputable def vectorCost (n : ℕ) (M : Mesh) (u : ℕ → ℂ) (P : Params) : ℝ :=
  2 - 2 * (M.apply P false u (n - 1)).re

/-- `H` is the mixed second partial derivative of `E` at `P` along the phases `p` and `q`. -/
def SecondPartial (E : Params → ℝ) (P : Params) (p q : Coord) (H : ℝ) : Prop :=
  ∃ g : ℝ → ℝ, (∀ s, HasDerivAt (fun t => E ((P.shift p s).shift q t)) (g s) 0) ∧ HasDerivAt g H 0

/-- `x` is the complex conjugate of the unit vector along `v`: the input that the vector unit programmed for `v / ‖v‖`
routes to its last output. -/
def IsUnitConj (n : ℕ) (v x : ℕ → ℂ) : Prop :=
  ∀ i, x i = (starRingEnd ℂ) (v i) / (Real.sqrt (∑ k ∈ Finset.range n, ‖v k‖ ^ 2) : ℝ)

theorem IsUnitConj.eq {n : ℕ} {v x : ℕ → ℂ} (h : IsUnitConj n v x) : x = unitConj n v := by
  funext i
  rw [h i, unitConj, map_div₀, Complex.conj_ofReal]

/-- A second partial derivative has one value. -/
theorem SecondPartial.unique {E : Params → ℝ} {P : Params} {p q : Coord} {H H' : ℝ}
    (h : SecondPartial E P p q H) (h' : SecondPartial E P p q H') : H = H' := by
  obtain ⟨g, g1, g2⟩ := h
  obtain ⟨g', g1', g2'⟩ := h'
  have : g = g' := funext fun s => (g1 s).unique (g1' s)
  subst this
  exact g2.unique g2'

/-! ### The last output of the mesh -/

theorem columnsApply_succ (el : ℕ → Elements) (nodes : List Node) (v : ℕ → ℂ) (K : ℕ) :
    columnsApply el nodes (List.range (K + 1)) v =
      parallelTransform el (columnNodes nodes K) (columnsApply el nodes (List.range K) v) := by
  simp [columnsApply, List.range_succ]

theorem mesh_last {n : ℕ} (hn : 2 ≤ n) (b : Bool) (Q : Params) (v : ℕ → ℂ) :
    (errorMesh (tree n n b) 0 .top).apply Q false v (n - 1) =
      exp (I * Q.gammas (n - 1)) * amp Q v (shape n b) 0 := by
  have hlen : ∀ a ∈ tree n n b, a.id < (tree n n b).length := by
    intro a ha
    have : a.id ∈ (tree n n b).map Node.id := List.mem_map_of_mem ha
    rw [(tree_ids n n b).mem_iff, List.mem_range] at this
    rw [tree_length]; exact this
  have key := trace_amp (el := (errorMesh (tree n n b) 0 .top).elements Q false) (nodes := tree n n b)
    (D := numColumns (tree n n b)) (P := Q) (v := v)
    (fun a ha => by
      rw [errorMesh_elements _ _ _ _ (hlen a ha)]
      exact top_elements Q a.id)
    (fun K => columnsApply ((errorMesh (tree n n b) 0 .top).elements Q false) (tree n n b) (List.range K) v)
    rfl
    (fun K _ => by
      rw [columnsApply_succ]
      exact parallelTransform_result (tree_goodColumn hn b K) _)
    (shape n b) 0 0 (Nat.zero_le _) (tree_subAt hn b)
  rw [shape_size n (by omega)] at key
  simp only [Mesh.apply, Bool.false_eq_true, if_false, gammaApply, columnOrder]
  rw [← key]
  simp [errorMesh]

/-! ### The programmed mesh is nulled -/

theorem run_dark {n : ℕ} (hn : 2 ≤ n) (b : Bool) (v : ℕ → ℂ) (K : ℕ) {a : Node} (ha : a ∈ tree n n b)
    (hK : a.column < K) : (runState 0 (tree n n b) v K).w a.top 0 = 0 := by
  have hid : ((tree n n b).map Node.id).Nodup := (tree_ids n n b).nodup_iff.2 List.nodup_range
  have := nullLoop_dark (Or.inl rfl) le_rfl 0 (by simp) 0 (tree n n b) hid (fun k => tree_goodColumn hn b k)
    (tree_dark hn b) (fun r _ => v r) (reachableRun_ideal le_rfl .top 0 _ _) K _ (runState_some 0 hid v K) a ha hK
  rw [Real.sqrt_zero] at this
  exact norm_le_zero_iff.1 this

theorem powers_nulled {n : ℕ} (hn : 2 ≤ n) (b : Bool) (v : ℕ → ℂ) :
    ∃ pn pnsn, vectorUnitPowers 0 n b v = some (pn, pnsn) ∧
      ∃ P w, vectorUnit 0 .top 0 n b v = some (errorMesh (tree n n b) 0 .top, P, w) ∧
        Nulled P v pn pnsn (shape n b) 0 ∧ P.gammas (n - 1) = -arg (amp P v (shape n b) 0) := by
  have hid : ((tree n n b).map Node.id).Nodup := (tree_ids n n b).nodup_iff.2 List.nodup_range
  obtain ⟨ps, h1, h2, h3⟩ := powerLoop_range 0 hid v (numColumns (tree n n b))
  set nodes := tree n n b with hnodes
  set D := numColumns nodes with hD
  refine ⟨ps.pn, ps.pnsn, by simp only [vectorUnitPowers]; rw [← hnodes, ← hD, h1]; rfl, ?_⟩
  set st := runState 0 nodes v D with hst
  set P : Params := ⟨st.thetas, st.phis, fun r => -arg ((if r = n - 1 then 1 else 0) * st.w (n - 1) 0)⟩ with hP
  have hel : ∀ a ∈ nodes, (storedElements .top 0 st a.id).t12 = cl P a.id ∧
      (storedElements .top 0 st a.id).t22 = cr P a.id := fun a _ => top_elements P a.id
  have hW : ∀ K < D, ColumnResult (storedElements .top 0 st) (columnNodes nodes K)
      (fun r => (runState 0 nodes v K).w r 0) (fun r => (runState 0 nodes v (K + 1)).w r 0) := fun K hK =>
    runState_column 0 hid (fun k => tree_goodColumn hn b k) v hK
  have h0 : (fun K r => (runState 0 nodes v K).w r 0) 0 = v := by
    funext r
    have := runState_some 0 hid v 0
    simp only [List.range_zero, nullLoop, Option.some.injEq] at this
    simp only [← this]
  have hamp := trace_amp (P := P) hel (fun K r => (runState 0 nodes v K).w r 0) h0 hW (shape n b) 0 0 (Nat.zero_le _)
    (tree_subAt hn b)
  rw [shape_size n (by omega)] at hamp
  refine ⟨P, fun r => st.w r 0, ?_, ?_, ?_⟩
  · have hs := runState_some 0 hid v D
    simp only [vectorUnit, programVectorUnit]
    rw [← hnodes, ← hD, hs]
    rfl
  · refine trace_nulled (P := P) hel ?_ (fun K r => (runState 0 nodes v K).w r 0) h0 hW
      (fun a ha => run_dark hn b v _ ha (Nat.lt_succ_self _))
      (fun a ha => (h3 a ha (column_lt_numColumns ha)).1)
      (fun a ha => (h3 a ha (column_lt_numColumns ha)).2) (shape n b) 0 0 (Nat.zero_le _) (tree_subAt hn b)
    intro a ha x y hd
    have := dark_inverse (st.thetas a.id) (st.phis a.id) x y hd
    rw [← (hel a ha).1, ← (hel a ha).2]
    exact this
  · rw [← hamp]
    simp [hP, hst]

/-! ### The closed form -/

theorem hessBlock_closed (pn pnsn : ℕ → ℝ) (n : ℕ) (hn : 2 ≤ n) (b : Bool) {i j : ℕ} (hi : i < n - 1) (hj : j < n - 1) :
    let H := hessBlock (n - 1) ((treeDesc n b).foldl (hessStep pn pnsn) (hessInit pn pnsn))
    let S := hspec pn pnsn ((shape n b).Top 0) ((shape n b).Bot 0)
    H i j = S (.theta i) (.theta j) ∧ H (n - 1 + i) (n - 1 + j) = S (.phi i) (.phi j) ∧
      H (n - 1 + i) j = S (.theta i) (.phi j) ∧ H j (n - 1 + i) = S (.theta i) (.phi j) := by
  intro H S
  have hinv := hessInv_fold pn pnsn [] (treeDesc n b) (by simpa using treeDesc_ok (by omega) b) _ (hessInv_init pn pnsn)
  rw [List.nil_append] at hinv
  have T : ∀ i j, TopDesc (treeDesc n b) i j = (shape n b).Top 0 i j := fun i j => propext (topDesc_iff (by omega) b i j)
  have B : ∀ i j, BotDesc (treeDesc n b) i j = (shape n b).Bot 0 i j := fun i j => propext (botDesc_iff (by omega) b i j)
  have tt := hinv.tt i j
  have pp := hinv.pp i j
  have tp := hinv.tp i j
  have pt := hinv.pt i j
  rw [T i j, B i j, T j i, B j i] at tt
  rw [T i j, T j i] at pp
  rw [T j i] at tp
  rw [T i j, B i j] at pt
  have hex := BT.desc_antisymm (shape n b) 0 i j
  have hne : (shape n b).Top 0 j i → i ≠ j := by
    intro h e
    have := h.bounds; omega
  have off : (List.foldl (hessStep pn pnsn) (hessInit pn pnsn) (treeDesc n b)).tp i j +
      (List.foldl (hessStep pn pnsn) (hessInit pn pnsn) (treeDesc n b)).pt i j = S (.theta i) (.phi j) := by
    simp only [S, hspec]
    rw [tp, pt]
    by_cases e : i = j
    · rw [if_pos e, if_pos e, if_neg (fun h => hne h e), zero_add]
    · rw [if_neg e, if_neg e]
      by_cases d : (shape n b).Top 0 i j ∨ (shape n b).Bot 0 i j
      · rw [if_pos d, if_pos d, if_neg (fun h => hex d (Or.inl h)), zero_add]
      · rw [if_neg d, if_neg d, add_zero]
  refine ⟨?_, ?_, ?_, ?_⟩
  · simp only [H, hessBlock, if_pos hi, if_pos hj, S, hspec]; exact tt
  · simp only [H, hessBlock, if_neg (show ¬ n - 1 + i < n - 1 by omega), if_neg (show ¬ n - 1 + j < n - 1 by omega), S,
      hspec, Nat.add_sub_cancel_left]
    exact pp
  · simp only [H, hessBlock, if_neg (show ¬ n - 1 + i < n - 1 by omega), if_pos hj, Nat.add_sub_cancel_left]
    exact off
  · simp only [H, hessBlock, if_neg (show ¬ n - 1 + i < n - 1 by omega), if_pos hj, Nat.add_sub_cancel_left]
    exact off

theorem hspec_comm (pn pnsn : ℕ → ℝ) (t : BT) (s : ℕ) (p q : Coord) :
    hspec pn pnsn (t.Top s) (t.Bot s) p q = hspec pn pnsn (t.Top s) (t.Bot s) q p := by
  have hex := fun i j => BT.desc_antisymm t s i j
  cases p with
  | theta i =>
    cases q with
    | theta j =>
      simp only [hspec]
      by_cases e : i = j
      · rw [if_pos e, if_pos e.symm, e]
      · rw [if_neg e, if_neg (Ne.symm e)]
        by_cases d : t.Top s i j ∨ t.Bot s i j
        · rw [if_pos d, if_neg (hex i j d), if_pos d]
        · rw [if_neg d, if_neg d]
    | phi j =>
      simp only [hspec]
      by_cases e : i = j
      · rw [if_pos e, if_pos e.symm, e]
      · rw [if_neg e, if_neg (Ne.symm e)]
  | phi i =>
    cases q with
    | theta j =>
      simp only [hspec]
      by_cases e : i = j
      · rw [if_pos e, if_pos e.symm, e]
      · rw [if_neg e, if_neg (Ne.symm e)]
    | phi j =>
      simp only [hspec]
      by_cases e : i = j
      · rw [if_pos e, if_pos e.symm, e]
      · rw [if_neg e, if_neg (Ne.symm e)]
        by_cases d : t.Top s i j
        · rw [if_pos d, if_neg (fun h => hex i j (Or.inl d) (Or.inl h)), if_pos d]
        · rw [if_neg d, if_neg d]

/-! ### The second derivatives of the cost -/

theorem cost_second {n : ℕ} (hn : 2 ≤ n) (b : Bool) (u : ℕ → ℂ) (P : Params) (pn pnsn : ℕ → ℝ)
    (hN : Nulled P u pn pnsn (shape n b) 0) (hg : P.gammas (n - 1) = -arg (amp P u (shape n b) 0))
    (h1 : ‖amp P u (shape n b) 0‖ = 1) {p q : Coord} (hp : p.idx < n - 1) (hq : q.idx < n - 1) :
    SecondPartial (vectorCost n (errorMesh (tree n n b) 0 .top) u) P p q
      (hspec pn pnsn ((shape n b).Top 0) ((shape n b).Bot 0) p q) := by
  have hgam : ∀ (Q : Params) (c : Coord) (x : ℝ), (Q.shift c x).gammas = Q.gammas := by
    intro Q c x; cases c <;> rfl
  set G := exp (I * P.gammas (n - 1)) with hG
  refine ⟨fun s => -2 * (G * damp (P.shift p s) u q (shape n b) 0).re, ?_, ?_⟩
  · intro s
    have ha := (amp_deriv (P.shift p s) u q (shape n b) 0).const_mul G
    have hr := hasDerivAt_const (0 : ℝ) (2 : ℝ) |>.sub ((Complex.reCLM.hasFDerivAt.comp_hasDerivAt 0 ha).const_mul 2)
    have : (fun t => vectorCost n (errorMesh (tree n n b) 0 .top) u ((P.shift p s).shift q t)) =
        fun t => 2 - 2 * (G * amp ((P.shift p s).shift q t) u (shape n b) 0).re := by
      funext t
      rw [vectorCost, mesh_last hn, hgam, hgam]
    rw [this]
    refine HasDerivAt.congr_deriv hr ?_
    simp only [Complex.reCLM_apply]
    ring
  · have ha := (damp_deriv P u p q (shape n b) 0).const_mul G
    have hr := (Complex.reCLM.hasFDerivAt.comp_hasDerivAt 0 ha).const_mul (-2)
    refine HasDerivAt.congr_deriv hr ?_
    obtain ⟨μ, m1, m2, _⟩ := d2amp_nulled P u pn pnsn p q (shape n b) 0 hN
    have hs := shape_size n (by omega) b
    rw [hval_eq _ _ _ _ _ _ ⟨Nat.zero_le _, by omega⟩ ⟨Nat.zero_le _, by omega⟩, h1] at m2
    rw [← m2, m1]
    have : G * (μ * amp P u (shape n b) 0) = μ := by
      rw [mul_left_comm, hG, hg, exp_neg_arg_mul, h1]; simp
    rw [Complex.reCLM_apply, this]
    ring

theorem unitConj_norm (n : ℕ) (v : ℕ → ℂ) (hv : ∑ i ∈ Finset.range n, ‖v i‖ ^ 2 ≠ 0) :
    ∑ i, ‖restrict n (unitConj n v) i‖ ^ 2 = 1 := by
  have hpos : 0 < ∑ i ∈ Finset.range n, ‖v i‖ ^ 2 :=
    lt_of_le_of_ne (Finset.sum_nonneg fun _ _ => by positivity) (Ne.symm hv)
  have : ∀ i : Fin n, ‖restrict n (unitConj n v) i‖ ^ 2 = ‖v i‖ ^ 2 / ∑ i ∈ Finset.range n, ‖v i‖ ^ 2 := by
    intro i
    simp only [restrict, unitConj, RCLike.norm_conj, norm_div, Complex.norm_real, Real.norm_eq_abs,
      abs_of_nonneg (Real.sqrt_nonneg _), div_pow, Real.sq_sqrt hpos.le]
  rw [Finset.sum_congr rfl fun i _ => this i, ← Finset.sum_div, Fin.sum_univ_eq_sum_range (fun i => ‖v i‖ ^ 2)]
  exact div_self hv

theorem hess_facts (n : ℕ) (hn : 2 ≤ n) (b : Bool) (v : ℕ → ℂ)
    (hv : ∑ i ∈ Finset.range n, ‖v i‖ ^ 2 ≠ 0) :
    ∃ pn pnsn P w, hessianVectorUnit 0 n b v =
        some (hessBlock (n - 1) ((treeDesc n b).foldl (hessStep pn pnsn) (hessInit pn pnsn))) ∧
      vectorUnit 0 .top 0 n b (unitConj n v) = some (errorMesh (tree n n b) 0 .top, P, w) ∧
      Nulled P (unitConj n v) pn pnsn (shape n b) 0 ∧
      P.gammas (n - 1) = -arg (amp P (unitConj n v) (shape n b) 0) ∧
      ‖amp P (unitConj n v) (shape n b) 0‖ = 1 := by
  obtain ⟨pn, pnsn, h1, P, w, h2, h3, h4⟩ := powers_nulled hn b (unitConj n v)
  have hout : ‖amp P (unitConj n v) (shape n b) 0‖ = 1 := by
    obtain ⟨M', P', w', e1, e2⟩ := C14_vector_unit_exact .top (Or.inl rfl) n hn b (unitConj n v)
    rw [h2] at e1
    simp only [Option.some.injEq, Prod.mk.injEq] at e1
    obtain ⟨rfl, rfl, rfl⟩ := e1
    have hwf : (errorMesh (tree n n b) 0 .top).WellFormed n := by
      refine errorMesh_wellFormed 0 .top ?_ ?_ (tree_disjoint n n b)
      · intro a ha
        have : a.id ∈ (tree n n b).map Node.id := List.mem_map_of_mem ha
        rw [(tree_ids n n b).mem_iff, List.mem_range] at this
        rw [tree_length]; exact this
      · intro a ha
        have := tree_rails hn b ha
        omega
    rw [Mesh.matrix_mulVec hwf, unitConj_norm n v hv] at e2
    have := congrFun e2 ⟨n - 1, by omega⟩
    simp only [restrict] at this
    rw [mesh_last hn, if_pos (by omega)] at this
    have := congrArg norm this
    rw [norm_mul, norm_exp_I, one_mul] at this
    rw [this]; simp
  refine ⟨pn, pnsn, P, w, ?_, h2, h3, h4, hout⟩
  simp only [hessianVectorUnit, if_neg hv, h1]
  rfl

theorem hess_core (n : ℕ) (hn : 2 ≤ n) (b : Bool) (v : ℕ → ℂ)
    (hv : ∑ i ∈ Finset.range n, ‖v i‖ ^ 2 ≠ 0) :
    ∃ pn pnsn P w, hessianVectorUnit 0 n b v =
        some (hessBlock (n - 1) ((treeDesc n b).foldl (hessStep pn pnsn) (hessInit pn pnsn))) ∧
      vectorUnit 0 .top 0 n b (unitConj n v) = some (errorMesh (tree n n b) 0 .top, P, w) ∧
      Nulled P (unitConj n v) pn pnsn (shape n b) 0 ∧
      ∀ p q : Coord, p.idx < n - 1 → q.idx < n - 1 →
        SecondPartial (vectorCost n (errorMesh (tree n n b) 0 .top) (unitConj n v)) P p q
          (hspec pn pnsn ((shape n b).Top 0) ((shape n b).Bot 0) p q) := by
  obtain ⟨pn, pnsn, P, w, h1, h2, h3, h4, h5⟩ := hess_facts n hn b v hv
  exact ⟨pn, pnsn, P, w, h1, h2, h3, fun p q hp hq => cost_second hn b (unitConj n v) P pn pnsn h3 h4 h5 hp hq⟩

/-- C105 (partial: the off-diagonal blocks come out transposed). For every vector `v ≠ 0` of length
`n ≥ 2`, balanced or chain, `hessian_vector_unit(v)` is a symmetric matrix whose θθ and φφ blocks are the
exact second derivatives of `2 - 2 Re(out[-1])` at the programmed phases; row `φ_i`, column `θ_j` (and its
mirror image) holds `∂²/∂θ_i∂φ_j`, in either order of differentiation. -/
theorem C105_hessian_partial (n : ℕ) (hn : 2 ≤ n) (b : Bool) (v : ℕ → ℂ)
    (hv : ∑ i ∈ Finset.range n, ‖v i‖ ^ 2 ≠ 0) (x : ℕ → ℂ) (hx : IsUnitConj n v x) :
    ∃ H M P w, hessianVectorUnit 0 n b v = some H ∧
      vectorUnit 0 .top 0 n b x = some (M, P, w) ∧
      (∀ i j, i < n - 1 → j < n - 1 →
        SecondPartial (vectorCost n M x) P (.theta i) (.theta j) (H i j) ∧
        SecondPartial (vectorCost n M x) P (.phi i) (.phi j) (H (n - 1 + i) (n - 1 + j)) ∧
        SecondPartial (vectorCost n M x) P (.theta i) (.phi j) (H (n - 1 + i) j) ∧
        SecondPartial (vectorCost n M x) P (.phi j) (.theta i) (H (n - 1 + i) j)) ∧
      ∀ r c, r < 2 * (n - 1) → c < 2 * (n - 1) → H r c = H c r := by
  obtain rfl := hx.eq
  obtain ⟨pn, pnsn, P, w, h1, h2, _, cs⟩ := hess_core n hn b v hv
  refine ⟨_, _, P, w, h1, h2, ?_, ?_⟩
  · intro i j hi hj
    obtain ⟨c1, c2, c3, c4⟩ := hessBlock_closed pn pnsn n hn b hi hj
    rw [c1, c2, c3]
    refine ⟨cs _ _ hi hj, cs _ _ hi hj, cs _ _ hi hj, ?_⟩
    rw [hspec_comm]
    exact cs _ _ hj hi
  · intro r c hr hc
    by_cases h1 : r < n - 1
    · by_cases h2 : c < n - 1
      · rw [(hessBlock_closed pn pnsn n hn b h1 h2).1, (hessBlock_closed pn pnsn n hn b h2 h1).1, hspec_comm]
      · obtain ⟨c, rfl⟩ := Nat.exists_eq_add_of_le (not_lt.1 h2)
        rw [(hessBlock_closed pn pnsn n hn b (i := c) (by omega) h1).2.2.1,
          (hessBlock_closed pn pnsn n hn b (i := c) (by omega) h1).2.2.2]
    · obtain ⟨r, rfl⟩ := Nat.exists_eq_add_of_le (not_lt.1 h1)
      by_cases h2 : c < n - 1
      · rw [(hessBlock_closed pn pnsn n hn b (i := r) (by omega) h2).2.2.1,
          (hessBlock_closed pn pnsn n hn b (i := r) (by omega) h2).2.2.2]
      · obtain ⟨c, rfl⟩ := Nat.exists_eq_add_of_le (not_lt.1 h2)
        rw [(hessBlock_closed pn pnsn n hn b (i := r) (j := c) (by omega) (by omega)).2.1,
          (hessBlock_closed pn pnsn n hn b (i := c) (j := r) (by omega) (by omega)).2.1, hspec_comm]

/-- A zero vector divides by zero. -/
theorem C105_zero_vector (eps : ℝ) (n : ℕ) (b : Bool) (v : ℕ → ℂ) (hv : ∀ i < n, v i = 0) :
    hessianVectorUnit eps n b v = none := by
  have : ∑ i ∈ Finset.range n, ‖v i‖ ^ 2 = 0 :=
    Finset.sum_eq_zero fun i hi => by rw [hv i (Finset.mem_range.1 hi)]; simp
  simp [hessianVectorUnit, this]

/-- C105 fails as documented: for the chain on three rails and any `v` with light on rail 1, the entry in
row `φ_1`, column `θ_0` is not the derivative `∂²/∂φ_1∂θ_0`. -/
theorem C105_counterexample (v : ℕ → ℂ) (hv : v 1 ≠ 0) (x : ℕ → ℂ) (hx : IsUnitConj 3 v x) :
    ∃ H M P w, hessianVectorUnit 0 3 false v = some H ∧
      vectorUnit 0 .top 0 3 false x = some (M, P, w) ∧
      ¬ SecondPartial (vectorCost 3 M x) P (.phi 1) (.theta 0) (H 3 0) := by
  obtain rfl := hx.eq
  have hv0 : 0 < ∑ i ∈ Finset.range 3, ‖v i‖ ^ 2 :=
    Finset.sum_pos' (fun _ _ => by positivity) ⟨1, by simp, by have := norm_pos_iff.2 hv; positivity⟩
  obtain ⟨pn, pnsn, P, w, h1, h2, h3, cs⟩ := hess_core 3 (by norm_num) false v hv0.ne'
  refine ⟨_, _, P, w, h1, h2, fun hbad => ?_⟩
  have hgood := cs (.phi 1) (.theta 0) (by norm_num [Coord.idx]) (by norm_num [Coord.idx])
  have e := hbad.unique hgood
  have hc := (hessBlock_closed pn pnsn 3 (by norm_num) false (i := 1) (j := 0) (by norm_num) (by norm_num)).2.2.1
  have hT : (shape 3 false).Top 0 1 0 := by simp [shape, shapeC, BT.Top, BT.size]
  have hT' : ¬ (shape 3 false).Top 0 0 1 := fun h => by have := h.bounds; omega
  have hB' : ¬ (shape 3 false).Bot 0 0 1 := by simp [shape, shapeC, BT.Bot, BT.size]
  have e1 : hspec pn pnsn ((shape 3 false).Top 0) ((shape 3 false).Bot 0) (.theta 1) (.phi 0) = pnsn 0 := by
    simp only [hspec]
    rw [if_neg (by norm_num), if_pos (Or.inl hT)]
  have e2 : hspec pn pnsn ((shape 3 false).Top 0) ((shape 3 false).Bot 0) (.phi 1) (.theta 0) = pn 0 := by
    simp only [hspec]
    rw [if_neg (by norm_num), if_neg (not_or.2 ⟨hT', hB'⟩), if_pos hT]
  have e3 : pnsn 0 = pn 0 := by
    rw [← e1, ← e2, ← hc]; exact e
  simp only [shape, shapeC, Bool.false_eq_true, if_false] at h3
  have hin := h3.2.2.2.2.1
  have nl := hin.norm_left
  have nr := hin.norm_right
  have p1 := hin.2.2.1
  have p2 := hin.2.2.2.1
  simp only [BT.size] at p1 p2 nl nr
  norm_num at p1 p2 nl nr
  have h0 : ‖amp P (unitConj 3 v) .leaf 1‖ ^ 2 = 0 := by
    have : ‖amp P (unitConj 3 v) .leaf 0‖ ^ 2 + ‖amp P (unitConj 3 v) .leaf 1‖ ^ 2 =
        ‖amp P (unitConj 3 v) (.node .leaf .leaf) 0‖ ^ 2 := by
      rw [nl, nr]; ring
    linarith
  simp only [amp] at h0
  have h0' := norm_eq_zero.1 (pow_eq_zero_iff (two_ne_zero) |>.1 h0)
  simp only [unitConj, map_eq_zero, div_eq_zero_iff, Complex.ofReal_eq_zero] at h0'
  rcases h0' with h | h
  · exact hv h
  · exact (Real.sqrt_pos.2 hv0).ne' h

/-- Non-vacuity: a vector with three nonzero entries meets the hypotheses of both theorems. -/
example : ∃ H, hessianVectorUnit 0 3 false (fun _ => 1) = some H := by
  obtain ⟨H, _, _, _, h, _⟩ := C105_hessian_partial 3 (by norm_num) false (fun _ => 1) (by norm_num) _ (fun _ => rfl)
  exact ⟨H, h⟩

end Simphox
