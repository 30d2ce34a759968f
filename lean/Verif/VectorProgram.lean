import Verif.HaarVector
import Mathlib.Data.List.TakeWhile

/-!
# Programming a vector unit with a random vector (C210)

`vector_unit(random_vector(n))` (vector.py:163-186, utils.py:241-271). The phases of a vector unit are determined by the direction of its vector (C176). If every
theta is drawn with the numbers of inputs merged into the two rails of its node, the last row of the matrix has the moments of a Haar-random row, and so
(`HaarMoments.direction`, `direction_unique`) its conjugate has the law of the direction of the vector.
-/

namespace Simphox

open Matrix Complex MeasureTheory ProbabilityTheory Set

local notation "conj" => starRingEnd ℂ

/-! ### Random settings with given parameters per node -/

/-- Phases from uniform draws; theta of node `k` is drawn with `inv k`. -/
noncomputable def drawnParams (inv : ℕ → ℝ → ℝ) (x : ℕ → ℝ × ℝ) (z : ℕ → ℝ) : Params where
  thetas := fun k => randTheta (inv k) 0 0 (x k).1
  phis := fun k => 2 * Real.pi * (x k).2
  gammas := fun r => 2 * Real.pi * z r

/-- The last row of the matrix of the unit under these phases. -/
noncomputable def drawnRow (inv : ℕ → ℝ → ℝ) (n : ℕ) (balanced : Bool) (w : (Fin (n - 1) → ℝ × ℝ) × (Fin n → ℝ)) (k : Fin n) : ℂ :=
  (errorMesh (tree n n balanced) 0 .top).apply (drawnParams inv (padFin (0, 0) w.1) (padFin 0 w.2)) false (fun r => if r = k.val then 1 else 0) (n - 1)

theorem drawnRow_eq {n : ℕ} (hn : 2 ≤ n) (inv : ℕ → ℝ → ℝ) (bal : Bool) (w : (Fin (n - 1) → ℝ × ℝ) × (Fin n → ℝ)) (k : Fin n) :
    drawnRow inv n bal w k = exp (I * ((2 * Real.pi * padFin 0 w.2 (n - 1) : ℝ) : ℂ)) *
      amp (drawnParams inv (padFin (0, 0) w.1) (padFin 0 w.2)) (unitIn k) (shape n bal) 0 := by
  rw [drawnRow, mesh_last hn]
  rfl

theorem drawn_moment {n : ℕ} (hn : 2 ≤ n) (inv : ℕ → ℝ → ℝ) (bal : Bool) (a b : ℕ → ℕ) :
    ∫ w, ∏ k : Fin n, (drawnRow inv n bal w k ^ a k * conj (drawnRow inv n bal w k) ^ b k) ∂freshDraws (n - 1) n =
      (∏ i ∈ Finset.range (n - 1), nodeE (inv i)
        (fac a b (shape n bal) 0 i)) * if tot a (shape n bal) 0 = tot b (shape n bal) 0 then 1 else 0 := by
  have hsz := shape_size n (by omega) bal
  have key : ∀ w : (Fin (n - 1) → ℝ × ℝ) × (Fin n → ℝ),
      ∏ k : Fin n, (drawnRow inv n bal w k ^ a k * conj (drawnRow inv n bal w k) ^ b k) =
      (∏ i : Fin (n - 1), fac a b (shape n bal) 0 i
        (drawL (inv i) (w.1 i))
        (drawR (inv i) (w.1 i))) *
      ∏ r : Fin n, if r.val = n - 1 then
        exp (I * ((2 * Real.pi * w.2 r : ℝ) : ℂ)) ^ tot a (shape n bal) 0 *
          conj (exp (I * ((2 * Real.pi * w.2 r : ℝ) : ℂ))) ^ tot b (shape n bal) 0 else 1 := by
    intro w
    set Q := drawnParams inv (padFin (0, 0) w.1) (padFin 0 w.2) with hQ
    set g := exp (I * ((2 * Real.pi * padFin 0 w.2 (n - 1) : ℝ) : ℂ)) with hg
    have m := monomial_eq a b Q (shape n bal) 0 (n - 1) (by omega)
    rw [hsz, Finset.prod_range, Finset.prod_range] at m
    simp only [Nat.zero_add] at m
    have e1 : ∀ k : Fin n, drawnRow inv n bal w k ^ a k * conj (drawnRow inv n bal w k) ^ b k =
        (g ^ a k * conj g ^ b k) * (amp Q (unitIn k) (shape n bal) 0 ^ a k *
          conj (amp Q (unitIn k) (shape n bal) 0) ^ b k) := by
      intro k
      rw [drawnRow_eq hn, ← hQ, ← hg]
      simp only [map_mul, mul_pow]; ring
    rw [Finset.prod_congr rfl fun k _ => e1 k, Finset.prod_mul_distrib, m, mul_comm]
    congr 1
    · refine Finset.prod_congr rfl fun i _ => ?_
      have hi : padFin ((0 : ℝ), (0 : ℝ)) w.1 i = w.1 i := by simp [padFin]
      congr 1
      · simp only [cl, drawL, armL, hQ, drawnParams, hi]
      · simp only [cr, drawR, armR, hQ, drawnParams, hi]
    · have hl : n - 1 < n := by omega
      symm
      rw [Finset.prod_eq_single (⟨n - 1, hl⟩ : Fin n)]
      · rw [if_pos rfl, Finset.prod_mul_distrib, Finset.prod_pow_eq_pow_sum, Finset.prod_pow_eq_pow_sum]
        have hgl : padFin (0 : ℝ) w.2 (n - 1) = w.2 ⟨n - 1, hl⟩ := by simp [padFin, hl]
        rw [hg, hgl]
        simp only [tot, hsz, Nat.zero_add]
        rw [Finset.sum_range, Finset.sum_range]
      · intro r _ hr
        rw [if_neg]; intro h; exact hr (Fin.ext h)
      · simp
  simp only [key]
  rw [freshDraws, integral_prod_mul (μ := Measure.pi fun _ : Fin (n - 1) => uniform01.prod uniform01)
    (ν := Measure.pi fun _ : Fin n => uniform01)
    (fun x => ∏ i : Fin (n - 1), fac a b (shape n bal) 0 i
        (drawL (inv i) (x i))
        (drawR (inv i) (x i)))
    (fun y => ∏ r : Fin n, if r.val = n - 1 then
        exp (I * ((2 * Real.pi * y r : ℝ) : ℂ)) ^ tot a (shape n bal) 0 *
          conj (exp (I * ((2 * Real.pi * y r : ℝ) : ℂ))) ^ tot b (shape n bal) 0 else 1)]
  congr 1
  · rw [Finset.prod_range]
    exact integral_fintype_prod_eq_prod (fun (i : Fin (n - 1)) (z : ℝ × ℝ) => fac a b (shape n bal) 0 i
        (drawL (inv i) z)
        (drawR (inv i) z))
  · rw [integral_fintype_prod_eq_prod (fun (r : Fin n) (y : ℝ) => if r.val = n - 1 then
        exp (I * ((2 * Real.pi * y : ℝ) : ℂ)) ^ tot a (shape n bal) 0 *
          conj (exp (I * ((2 * Real.pi * y : ℝ) : ℂ))) ^ tot b (shape n bal) 0 else 1)]
    have hl : n - 1 < n := by omega
    rw [Finset.prod_eq_single (⟨n - 1, hl⟩ : Fin n)]
    · simp only [if_true]
      exact uniform_phase _ _
    · intro r _ hr
      have : r.val ≠ n - 1 := fun h => hr (Fin.ext h)
      simp [this]
    · simp

theorem drawn_moment_val {n : ℕ} (hn : 2 ≤ n) {binv : ℕ → ℕ → ℝ → ℝ} (hb : IsBetaincinvFamily binv) (bal : Bool) (β α : ℕ → ℕ)
    (hp : ∀ i < n - 1, 1 ≤ β i ∧ 1 ≤ α i) (a b : ℕ → ℕ) :
    ∫ w, ∏ k : Fin n, (drawnRow (fun k => binv (β k) (α k)) n bal w k ^ a k * conj (drawnRow (fun k => binv (β k) (α k)) n bal w k) ^ b k) ∂freshDraws (n - 1) n =
      if ∀ k < n, a k = b k then
        ((momentVal β α a (shape n bal) 0 : ℝ) : ℂ) else 0 := by
  have hsz := shape_size n (by omega) bal
  have hp' : ParPos β α (shape n bal) 0 := by
    intro i _ h; exact hp i (by omega)
  rw [drawn_moment hn]
  split_ifs with h1 h2 h2
  · rw [mul_one]
    exact moment_eq hb β α a b _ 0 _ (by omega) hp' fun k _ h => h2 k (by omega)
  · rw [mul_one]
    push Not at h2
    obtain ⟨k, k1, k2⟩ := h2
    exact moment_zero hb β α a b _ 0 _ (by omega) hp' h1 ⟨k, by omega, by omega, k2⟩
  · exact absurd (tot_congr a b _ 0 fun k _ h => h2 k (by omega)) h1
  · rw [mul_zero]

theorem drawn_haar {n : ℕ} (hn : 2 ≤ n) {binv : ℕ → ℕ → ℝ → ℝ} (hb : IsBetaincinvFamily binv) (bal : Bool) (β α : ℕ → ℕ)
    (hp : ∀ i < n - 1, 1 ≤ β i ∧ 1 ≤ α i)
    (hf : Fair β α (shape n bal) 0) :
    HaarMoments (freshDraws (n - 1) n) n (drawnRow (fun k => binv (β k) (α k)) n bal) := by
  intro a b
  have hsz := shape_size n (by omega) bal
  have h := drawn_moment_val hn hb bal β α hp (padFin 0 a) (padFin 0 b)
  have pa : ∀ (c : Fin n → ℕ) (k : Fin n), padFin 0 c k = c k := by intro c k; simp [padFin]
  simp only [pa] at h
  rw [h]
  by_cases hab : a = b
  · rw [if_pos (by intro k _; rw [hab]), if_pos hab, fair_moment _ _ _ _ _ hf, hsz, tot, hsz, Finset.prod_range,
      Finset.sum_range]
    simp only [Nat.zero_add, pa]
    push_cast
    ring
  · rw [if_neg, if_neg hab]
    intro h'
    refine hab (funext fun k => ?_)
    have := h' k k.2
    simpa only [pa] using this

/-! ### The arms of the nodes -/

/-- The nodes light meets before `a`. -/
def nodesBefore (nodes : List Node) (a : Node) : List Node := (executionOrder nodes).takeWhile fun b => b.id != a.id

/-- Specification: the numbers of inputs merged into the top and the bottom rail of `a` when light reaches it. -/
def topInputs (nodes : List Node) (a : Node) : ℕ := mergedCount (nodesBefore nodes a) a.top
def bottomInputs (nodes : List Node) (a : Node) : ℕ := mergedCount (nodesBefore nodes a) a.bottom

theorem tree_id_inj {n : ℕ} {bal : Bool} {a b : Node} (ha : a ∈ tree n n bal) (hb : b ∈ tree n n bal) (h : a.id = b.id) : a = b := by
  have hnd : ((tree n n bal).map Node.id).Nodup := (tree_ids n n bal).nodup_iff.2 List.nodup_range
  exact List.inj_on_of_nodup_map hnd ha hb h

theorem nodesBefore_split {n : ℕ} {bal : Bool} {a : Node} (ha : a ∈ tree n n bal) :
    ∃ post, executionOrder (tree n n bal) = nodesBefore (tree n n bal) a ++ a :: post := by
  have hsplit := List.takeWhile_append_dropWhile (p := fun b : Node => b.id != a.id) (l := executionOrder (tree n n bal))
  have hne : (executionOrder (tree n n bal)).dropWhile (fun b : Node => b.id != a.id) ≠ [] := by
    intro h0
    rw [h0, List.append_nil] at hsplit
    have := List.mem_takeWhile_imp (hsplit.symm ▸ mem_executionOrder.2 ha : a ∈ (executionOrder (tree n n bal)).takeWhile fun b : Node => b.id != a.id)
    simp at this
  obtain ⟨b, post, hb⟩ := List.exists_cons_of_ne_nil hne
  have h1 := List.head_dropWhile_not (fun b : Node => b.id != a.id) hne
  simp only [hb, List.head_cons] at h1
  have hmem : b ∈ tree n n bal := mem_executionOrder.1 ((List.dropWhile_sublist _).subset (by rw [hb]; simp))
  have : b = a := tree_id_inj hmem ha (by simpa using h1)
  subst this
  exact ⟨post, by rw [nodesBefore, ← hb, hsplit]⟩

theorem inputs_eq {n : ℕ} (hn : 2 ≤ n) {bal : Bool} {a : Node} (ha : a ∈ tree n n bal) :
    topInputs (tree n n bal) a = (if bal then a.beta else a.top + 1) ∧ bottomInputs (tree n n bal) a = a.alpha := by
  obtain ⟨post, h⟩ := nodesBefore_split ha
  cases bal
  · have := C04_chain_counts_partial n hn _ post a h
    exact ⟨this.1, this.2.1⟩
  · exact C04_balanced_counts_partial n hn _ post a h

theorem treeBalanced_fair (β α : ℕ → ℕ) (R : ℕ) (n : ℕ) (hn : 1 ≤ n) (s c : ℕ)
    (h : ∀ a ∈ treeBalanced (List.range' s (n - 1)) R s c, β a.id = a.beta ∧ α a.id = a.alpha) : Fair β α (shapeB n) s := by
  induction n using Nat.strong_induction_on generalizing s c with
  | _ n ih =>
    rw [shapeB]
    split_ifs with h0
    · trivial
    · rw [treeBalanced] at h
      have hl : (List.range' s (n - 1)).length = n - 1 := by simp
      have h1 : n - 1 + 1 = n := by omega
      have h2 : ¬ (n - 1 = 0) := by omega
      have ht : (List.range' s (n - 1)).take (n / 2 - 1) = List.range' s (n / 2 - 1) := by
        rw [List.range'_eq_map_range, List.range'_eq_map_range, ← List.map_take, List.take_range]; congr 2; omega
      have hd : (List.range' s (n - 1)).drop (n / 2) = List.range' (s + n / 2) (n - n / 2 - 1) := by
        rw [List.drop_range']; congr 1 <;> omega
      have s1 := shapeB_size (n / 2) (by omega)
      have s2 := shapeB_size (n - n / 2) (by omega)
      simp only [hl, h2, dif_neg, not_false_iff, h1, ht, hd, List.mem_cons, List.mem_append, forall_eq_or_imp] at h
      have hid : (List.range' s (n - 1)).getD (n / 2 - 1) 0 = s + n / 2 - 1 := by
        simp only [List.getD_eq_getElem?_getD]
        rw [List.getElem?_range' (by omega)]
        simp; omega
      simp only [hid, List.length_range'] at h
      refine ⟨?_, ?_, ih (n / 2) (by omega) (by omega) s (c + 1) fun a ha => h.2 a (Or.inl ha), ?_⟩
      · rw [s1, h.1.1]; omega
      · rw [s1, s2, h.1.2]; omega
      · rw [s1]
        exact ih (n - n / 2) (by omega) (by omega) (s + n / 2) (c + 1) fun a ha => h.2 a (Or.inr ha)

theorem tree_fair {n : ℕ} (hn : 2 ≤ n) (bal : Bool) (β α : ℕ → ℕ)
    (h : ∀ a ∈ tree n n bal, β a.id = topInputs (tree n n bal) a ∧ α a.id = bottomInputs (tree n n bal) a) : Fair β α (shape n bal) 0 := by
  have h' : ∀ a ∈ tree n n bal, β a.id = (if bal then a.beta else a.top + 1) ∧ α a.id = a.alpha := by
    intro a ha
    obtain ⟨h1, h2⟩ := inputs_eq hn ha
    rw [← h1, ← h2]
    exact h a ha
  cases bal
  · refine shapeC_fair β α (n - 1) fun i hi => ?_
    have hm : { chainNode n n i with column := numColumns (treeChain n n) - 1 - (chainNode n n i).column } ∈ tree n n false := by
      simp only [tree, invertColumns, Bool.false_eq_true, if_false]
      refine List.mem_map_of_mem (f := fun a : Node => { a with column := numColumns (treeChain n n) - 1 - a.column }) ?_
      simp only [treeChain, List.mem_map, List.mem_reverse, List.mem_range]
      exact ⟨i, hi, rfl⟩
    exact h' _ hm
  · simp only [shape, if_true]
    refine treeBalanced_fair β α n n (by omega) 0 0 fun a ha => ?_
    rw [← List.range_eq_range'] at ha
    have hm : { a with column := numColumns (treeBalanced (List.range (n - 1)) n 0 0) - 1 - a.column } ∈ tree n n true := by
      simp only [tree, invertColumns, if_true]
      exact List.mem_map_of_mem (f := fun a : Node => { a with column := numColumns (treeBalanced (List.range (n - 1)) n 0 0) - 1 - a.column }) ha
    have := h' _ hm
    simpa using this

theorem inputs_pos {n : ℕ} (hn : 2 ≤ n) {bal : Bool} {a : Node} (ha : a ∈ tree n n bal) :
    1 ≤ topInputs (tree n n bal) a ∧ 1 ≤ bottomInputs (tree n n bal) a := by
  obtain ⟨h1, h2⟩ := inputs_eq hn ha
  rw [h1, h2]
  cases bal
  · simp only [tree, invertColumns, Bool.false_eq_true, if_false] at ha
    obtain ⟨b, hb, rfl⟩ := List.mem_map.1 ha
    obtain ⟨i, -, rfl⟩ := List.mem_map.1 hb
    exact ⟨Nat.le_add_left _ _, le_rfl⟩
  · simp only [tree, invertColumns, if_true] at ha
    obtain ⟨b, hb, rfl⟩ := List.mem_map.1 ha
    obtain ⟨-, -, -, -, -, -, -, h3, h4⟩ := treeBalanced_bounds n _ _ _ b hb
    exact ⟨h4, h3⟩

/-! ### Settings and their vectors -/

/-- The unit vector that the setting sends to the last rail: the conjugate of the last row of the matrix. -/
noncomputable def tipVec (n : ℕ) (bal : Bool) (P : Params) : Fin n → ℂ :=
  fun k => conj ((errorMesh (tree n n bal) 0 .top).apply P false (fun r => if r = k.val then 1 else 0) (n - 1))

theorem tipVec_row {n : ℕ} (hn : 2 ≤ n) (bal : Bool) (P : Params) (k : Fin n) :
    tipVec n bal P k = conj ((idealMesh (tree n n bal) .top).matrix n P false ⟨n - 1, by omega⟩ k) := rfl

theorem tree_matrix_unitary {n : ℕ} (hn : 2 ≤ n) (bal : Bool) (P : Params) : (idealMesh (tree n n bal) .top).matrix n P false ∈ unitaryGroup (Fin n) ℂ :=
  C06_lossless_unitary n _ (tree_wellFormed n hn bal .top) (errorMesh_lossless (tree n n bal) 0 .top) P false

theorem matrix_tipVec {n : ℕ} (hn : 2 ≤ n) (bal : Bool) (P : Params) :
    (idealMesh (tree n n bal) .top).matrix n P false *ᵥ tipVec n bal P = fun r : Fin n => if r.val + 1 = n then 1 else 0 := by
  have hU := mem_unitaryGroup_iff.1 (tree_matrix_unitary hn bal P)
  funext r
  have h := congrFun (congrFun hU r) ⟨n - 1, by omega⟩
  rw [star_eq_conjTranspose, mul_apply, one_apply] at h
  have e : (r = (⟨n - 1, by omega⟩ : Fin n)) ↔ r.val + 1 = n := by
    rw [Fin.ext_iff]
    show r.val = n - 1 ↔ _
    omega
  simp only [e] at h
  rw [← h]
  rfl

theorem tipVec_norm {n : ℕ} (hn : 2 ≤ n) (bal : Bool) (P : Params) : ∑ i, ‖tipVec n bal P i‖ ^ 2 = 1 := by
  have h := unitary_power (tree_matrix_unitary hn bal P) (tipVec n bal P)
  rw [← h, matrix_tipVec hn, Finset.sum_eq_single (⟨n - 1, by omega⟩ : Fin n)]
  · beta_reduce
    rw [if_pos (by show n - 1 + 1 = n; omega)]; simp
  · intro r _ hr
    beta_reduce
    rw [if_neg]
    · simp
    · intro h2
      exact hr (Fin.ext (by show r.val = n - 1; omega))
  · simp

/-- `vector_unit` of a vector returns the setting behind its direction. -/
theorem unit_recover {n : ℕ} (hn : 2 ≤ n) (bal : Bool) (v : Fin n → ℂ) (P : Params) (hP : GenericPhases (tree n n bal) P)
    (h1 : -Real.pi ≤ P.gammas (n - 1)) (h2 : P.gammas (n - 1) < Real.pi) (hu : finUnit v = tipVec n bal P) :
    ∃ P' w, vectorUnit 0 .top 0 n bal (padFin 0 v) = some (errorMesh (tree n n bal) 0 .top, P', w) ∧
      (∀ a ∈ tree n n bal, P'.thetas a.id = P.thetas a.id ∧ P'.phis a.id = P.phis a.id) ∧ P'.gammas (n - 1) = P.gammas (n - 1) ∧
      ∀ r, r ≠ n - 1 → P'.gammas r = 0 := by
  have hr : restrict n (padFin 0 v) = v := by funext i; simp [restrict, padFin]
  have hv : v ≠ 0 := by
    rintro rfl
    have := tipVec_norm hn bal P
    rw [← hu] at this
    simp [finUnit] at this
  have hN := finNorm_pos hv
  have hN' : (finNorm v : ℂ) ≠ 0 := by exact_mod_cast hN.ne'
  have hvt : v = (finNorm v : ℂ) • tipVec n bal P := by
    rw [← hu]
    funext i
    simp only [finUnit, Pi.smul_apply, smul_eq_mul]
    field_simp
  have hMv : (idealMesh (tree n n bal) .top).matrix n P false *ᵥ v = fun r : Fin n => if r.val + 1 = n then (finNorm v : ℂ) else 0 := by
    conv_lhs => rw [hvt]
    rw [mulVec_smul, matrix_tipVec hn]
    funext r
    simp only [Pi.smul_apply, smul_eq_mul, mul_ite, mul_one, mul_zero]
  obtain ⟨P', w, e1, hrec⟩ := C176_vector_unit_recovers .top (Or.inl rfl) 0 (by simp) n hn bal (padFin 0 v) (by rw [hr]; exact hv) P hP (by
    intro r hrn
    rw [hr]
    have := congrFun hMv r
    rw [if_neg (by omega)] at this
    exact this)
  obtain ⟨M2, P2, w2, e2, -, -, -, e3, e4, e5, e6⟩ := vectorUnit_spec (Or.inl rfl) (le_refl (0 : ℝ)) 0 (by simp) n hn bal (padFin 0 v)
    (reachableRun_ideal le_rfl .top 0 _ _)
  rw [e1] at e2
  obtain ⟨rfl, rfl, rfl⟩ : errorMesh (tree n n bal) 0 .top = M2 ∧ P' = P2 ∧ w = w2 := by
    simpa only [Option.some.injEq, Prod.mk.injEq] using e2
  refine ⟨P', w, e1, hrec, ?_, e6⟩
  have hwf := tree_wellFormed n hn bal .top
  -- both settings have the same product of blocks
  have hrow : ∀ Q : Params, ∀ r : Fin n, ((idealMesh (tree n n bal) .top).matrix n Q false *ᵥ v) r = exp (I * Q.gammas r) *
      (blockProduct n ((idealMesh (tree n n bal) .top).elements Q false) (executionOrder (tree n n bal)) *ᵥ v) r := by
    intro Q r
    rw [Mesh.matrix_eq hwf, if_neg (by decide), visitOrder_false, ← mulVec_mulVec, mulVec_diagonal]
    rfl
  have hblock : blockProduct n ((idealMesh (tree n n bal) .top).elements P' false) (executionOrder (tree n n bal)) =
      blockProduct n ((idealMesh (tree n n bal) .top).elements P false) (executionOrder (tree n n bal)) := by
    unfold blockProduct
    congr 2
    refine List.map_congr_left fun a ha => ?_
    obtain ⟨q1, q2⟩ := hrec a (mem_executionOrder.1 ha)
    rw [ideal_elements, ideal_elements, q1, q2]
  have l1 := hrow P ⟨n - 1, by omega⟩
  rw [hMv] at l1
  beta_reduce at l1
  rw [if_pos (by show n - 1 + 1 = n; omega)] at l1
  have l2 := hrow P' ⟨n - 1, by omega⟩
  rw [hblock] at l2
  rw [hr] at e3
  have l3 : ((idealMesh (tree n n bal) .top).matrix n P' false *ᵥ v) ⟨n - 1, by omega⟩ = exp (I * P'.gammas (n - 1)) * w (n - 1) := congrFun e3 ⟨n - 1, by omega⟩
  rw [l3] at l2
  have hw : w (n - 1) = (blockProduct n ((idealMesh (tree n n bal) .top).elements P false) (executionOrder (tree n n bal)) *ᵥ v) ⟨n - 1, by omega⟩ :=
    mul_left_cancel₀ (exp_ne_zero _) l2
  rw [← hw] at l1
  have l4 : w (n - 1) = (finNorm v : ℂ) * exp ((-P.gammas (n - 1) : ℝ) * I) := by
    rw [l1]
    show w (n - 1) = exp (I * P.gammas (n - 1)) * w (n - 1) * _
    rw [mul_comm (exp _), mul_assoc, ← Complex.exp_add]
    push_cast
    rw [show I * (P.gammas (n - 1) : ℂ) + -(P.gammas (n - 1) : ℂ) * I = 0 by ring, Complex.exp_zero, mul_one]
  rw [e5, l4, Complex.arg_real_mul _ hN, Complex.arg_exp_mul_I, (toIocMod_eq_self _).2 ⟨by linarith, by linarith⟩, neg_neg]

/-! ### The law of the phases found -/

/-- As `law_of_program`, for random elements of any space. -/
theorem law_of_recover {Ω Ω' S T : Type} [MeasurableSpace Ω] [MeasurableSpace Ω'] [MeasurableSpace S] [StandardBorelSpace S] [MeasurableSpace T]
    [MeasurableSpace.CountablySeparated T] {Pr : Measure Ω} [IsProbabilityMeasure Pr] {Pr' : Measure Ω'} [IsProbabilityMeasure Pr'] {U : Ω → T}
    (hU : AEMeasurable U Pr) {V : Ω' → T} (hV : AEMeasurable V Pr') (hlaw : Pr.map U = Pr'.map V) (mat : S → T) (hm : Measurable mat) {G : Set S}
    (hG : MeasurableSet G) (hinj : InjOn mat G) (prog : Ω → S) (hprog : ∀ ω, ∀ s ∈ G, U ω = mat s → prog ω = s) {X : Ω' → S} (hX : AEMeasurable X Pr')
    (hXG : ∀ᵐ ω ∂Pr', X ω ∈ G) (hVX : ∀ᵐ ω ∂Pr', V ω = mat (X ω)) {B : Set S} (hB : MeasurableSet B) :
    Pr {ω | prog ω ∈ B} = Pr' {ω | X ω ∈ B} := by
  have key : ∀ C : Set S, MeasurableSet C → NullMeasurableSet {ω | U ω ∈ mat '' (C ∩ G)} Pr ∧ Pr {ω | U ω ∈ mat '' (C ∩ G)} = Pr' {ω | X ω ∈ C} := by
    intro C hC
    have hI : MeasurableSet (mat '' (C ∩ G)) := (hC.inter hG).image_of_measurable_injOn hm (hinj.mono inter_subset_right)
    refine ⟨hU.nullMeasurable hI, ?_⟩
    have h0 := congrArg (fun μ => μ (mat '' (C ∩ G))) hlaw
    simp only [Measure.map_apply_of_aemeasurable hU hI, Measure.map_apply_of_aemeasurable hV hI] at h0
    refine h0.trans (measure_congr ?_)
    filter_upwards [hXG, hVX] with ω h1 h2
    refine propext ?_
    show V ω ∈ mat '' (C ∩ G) ↔ X ω ∈ C
    rw [h2]
    constructor
    · rintro ⟨s, ⟨hs, hsG⟩, he⟩
      rw [← hinj hsG h1 he]
      exact hs
    · exact fun h => ⟨_, ⟨h, h1⟩, rfl⟩
  obtain ⟨-, b1⟩ := key B hB
  obtain ⟨c0, c1⟩ := key Bᶜ hB.compl
  refine le_antisymm ?_ ?_
  · have h1 : {ω | prog ω ∈ B} ⊆ {ω | U ω ∈ mat '' (Bᶜ ∩ G)}ᶜ := by
      rintro ω hω ⟨s, ⟨hs, hsG⟩, he⟩
      refine hs ?_
      rw [← hprog ω s hsG he.symm]
      exact hω
    have h2 : NullMeasurableSet {ω | X ω ∈ B} Pr' := hX.nullMeasurable hB
    calc Pr {ω | prog ω ∈ B} ≤ Pr {ω | U ω ∈ mat '' (Bᶜ ∩ G)}ᶜ := measure_mono h1
      _ = 1 - Pr {ω | U ω ∈ mat '' (Bᶜ ∩ G)} := prob_compl_eq_one_sub₀ c0
      _ = 1 - Pr' {ω | X ω ∈ B}ᶜ := by rw [c1]; rfl
      _ = Pr' {ω | X ω ∈ B} := by
        rw [prob_compl_eq_one_sub₀ h2, ENNReal.sub_sub_cancel (by simp) prob_le_one]
  · rw [← b1]
    refine measure_mono ?_
    rintro ω ⟨s, ⟨hs, hsG⟩, he⟩
    show prog ω ∈ B
    rw [hprog ω s hsG he.symm]
    exact hs

/-- Specification: the law of theta at a node that merges `b` inputs of its top rail with `a` inputs of its bottom rail, of density
`(a+b-1)!/((a-1)!(b-1)!) cos(t/2)^(2b-1) sin(t/2)^(2a-1)` between 0 and π. -/
noncomputable def splitLaw (b a : ℕ) : Measure ℝ :=
  (volume.restrict (Ioo 0 Real.pi)).withDensity fun t => ENNReal.ofReal
    ((a + b - 1).factorial / ((a - 1).factorial * (b - 1).factorial) * Real.cos (t / 2) ^ (2 * b - 1) * Real.sin (t / 2) ^ (2 * a - 1))

theorem randTheta_split {a b : ℕ} (ha : 1 ≤ a) (hb : 1 ≤ b) {inv : ℝ → ℝ} (h : IsBetaincinv b a inv) :
    Measure.map (randTheta inv 0 0) uniform01 = splitLaw b a := by
  have ha0 : (0 : ℝ) < a := by exact_mod_cast ha
  have hb0 : (0 : ℝ) < b := by exact_mod_cast hb
  rw [(C119_rand_theta_law b a hb0 ha0 inv h).1]
  unfold splitLaw
  refine withDensity_congr_ae ?_
  filter_upwards [ae_restrict_mem measurableSet_Ioo] with t ht
  congr 1
  have hc : 0 < Real.cos (t / 2) := Real.cos_pos_of_mem_Ioo ⟨by linarith [ht.1, Real.pi_pos], by linarith [ht.2]⟩
  have hs : 0 < Real.sin (t / 2) := Real.sin_pos_of_pos_of_lt_pi (by linarith [ht.1]) (by linarith [ht.2, Real.pi_pos])
  have hp := Real.pi_pos
  have e1 : (Real.cos (t / 2) ^ 2) ^ ((b : ℝ) - 1) = Real.cos (t / 2) ^ (2 * (b - 1)) := by
    rw [show ((b : ℝ) - 1) = ((b - 1 : ℕ) : ℝ) by push_cast [hb]; ring, Real.rpow_natCast, ← pow_mul]
  have e2 : (1 - Real.cos (t / 2) ^ 2) ^ ((a : ℝ) - 1) = Real.sin (t / 2) ^ (2 * (a - 1)) := by
    rw [show ((a : ℝ) - 1) = ((a - 1 : ℕ) : ℝ) by push_cast [ha]; ring, Real.rpow_natCast, ← Real.sin_sq, ← pow_mul]
  have G : ∀ m : ℕ, 1 ≤ m → Real.Gamma m = (m - 1).factorial := by
    intro m hm
    obtain ⟨k, rfl⟩ := Nat.exists_eq_add_of_le' hm
    rw [Nat.cast_add, Nat.cast_one, Real.Gamma_nat_eq_factorial]; simp
  have e3 : beta (b : ℝ) a = (b - 1).factorial * (a - 1).factorial / ((a + b - 1).factorial : ℝ) := by
    unfold beta
    rw [← Nat.cast_add, G _ hb, G _ ha, G _ (by omega), Nat.add_comm b a]
  unfold betaPhase betaPdf
  rw [e1, e2, e3, show 2 * b - 1 = 2 * (b - 1) + 1 by omega, show 2 * a - 1 = 2 * (a - 1) + 1 by omega, pow_succ, pow_succ]
  have q1 : ((a + b - 1).factorial : ℝ) ≠ 0 := by positivity
  have q2 : ((a - 1).factorial : ℝ) ≠ 0 := by positivity
  have q3 : ((b - 1).factorial : ℝ) ≠ 0 := by positivity
  field_simp

/-- Settings that agree at the nodes, with the same phase factor at the last output, have the same vector. -/
theorem tipVec_congr {n : ℕ} (hn : 2 ≤ n) (bal : Bool) {P P' : Params}
    (h : ∀ k, k < n - 1 → P'.thetas k = P.thetas k ∧ P'.phis k = P.phis k) (hg : exp (I * P'.gammas (n - 1)) = exp (I * P.gammas (n - 1))) :
    tipVec n bal P' = tipVec n bal P := by
  have hwf := tree_wellFormed n hn bal .top
  have hblock : blockProduct n ((idealMesh (tree n n bal) .top).elements P' false) (executionOrder (tree n n bal)) =
      blockProduct n ((idealMesh (tree n n bal) .top).elements P false) (executionOrder (tree n n bal)) := by
    unfold blockProduct
    congr 2
    refine List.map_congr_left fun a ha => ?_
    obtain ⟨q1, q2⟩ := h a.id (tree_id_lt (mem_executionOrder.1 ha))
    rw [ideal_elements, ideal_elements, q1, q2]
  funext k
  rw [tipVec_row hn, tipVec_row hn, Mesh.matrix_eq hwf, Mesh.matrix_eq hwf, if_neg (by decide), if_neg (by decide), visitOrder_false, diagonal_mul,
    diagonal_mul]
  have e : blockProduct n ((idealMesh (tree n n bal) .top).elements P' false) (executionOrder (idealMesh (tree n n bal) .top).nodes) =
      blockProduct n ((idealMesh (tree n n bal) .top).elements P false) (executionOrder (idealMesh (tree n n bal) .top).nodes) := hblock
  rw [e]
  congr 2

theorem measurable_tipVec {n : ℕ} (hn : 2 ≤ n) (bal : Bool) : Measurable fun s : Setting (n - 1) n => tipVec n bal (paramsOf s) := by
  have h := measurable_setting (N := n - 1) (tree_wellFormed n hn bal .top)
  refine measurable_pi_iff.2 fun k => ?_
  exact Complex.continuous_conj.measurable.comp (measurable_entry h ⟨n - 1, by omega⟩ k)

theorem finUnit_self {n : ℕ} {v : Fin n → ℂ} (h : ∑ i, ‖v i‖ ^ 2 = 1) : finUnit v = v := by
  funext i
  simp [finUnit, finNorm, h]

/-- The node with id `k`. -/
def nodeAt (nodes : List Node) (k : ℕ) : Node := (nodes.find? fun a => a.id == k).getD default

theorem nodeAt_id {n : ℕ} {bal : Bool} {a : Node} (ha : a ∈ tree n n bal) : nodeAt (tree n n bal) a.id = a := by
  unfold nodeAt
  cases h : (tree n n bal).find? fun b => b.id == a.id with
  | none =>
    have := List.find?_eq_none.1 h a ha
    simp at this
  | some b =>
    have h1 := List.find?_some h
    have h2 := List.mem_of_find?_eq_some h
    exact tree_id_inj h2 ha (by simpa using h1)

/-- A random setting as numbers. -/
noncomputable def drawnSetting (inv : ℕ → ℝ → ℝ) (n : ℕ) (g : ℕ → ℝ → ℝ) (w : (Fin (n - 1) → ℝ × ℝ) × (Fin n → ℝ)) : Setting (n - 1) n :=
  (fun k => (randTheta (inv k) 0 0 (w.1 k).1, 2 * Real.pi * (w.1 k).2), fun r => g r (w.2 r))

theorem measurable_drawnSetting {inv : ℕ → ℝ → ℝ} {n : ℕ} {g : ℕ → ℝ → ℝ} (hinv : ∀ k < n - 1, Measurable (randTheta (inv k) 0 0)) (hg : ∀ r, Measurable (g r)) :
    Measurable (drawnSetting inv n g) := by
  refine Measurable.prodMk (measurable_pi_iff.2 fun k => Measurable.prodMk ?_ ?_) (measurable_pi_iff.2 fun r => ?_)
  · exact (hinv k k.2).comp (measurable_fst.comp ((measurable_pi_apply k).comp measurable_fst))
  · exact (measurable_snd.comp ((measurable_pi_apply k).comp measurable_fst)).const_mul _
  · exact (hg r).comp ((measurable_pi_apply r).comp measurable_snd)

/-- The law of a random setting. -/
theorem drawnSetting_law {inv : ℕ → ℝ → ℝ} {n : ℕ} {g : ℕ → ℝ → ℝ} {A F G : ℕ → Set ℝ} :
    freshDraws (n - 1) n {w | (∀ k : Fin (n - 1), ((drawnSetting inv n g w).1 k).1 ∈ A k ∧ ((drawnSetting inv n g w).1 k).2 ∈ F k) ∧
      ∀ r : Fin n, (drawnSetting inv n g w).2 r ∈ G r} =
      (∏ k : Fin (n - 1), (uniform01 (randTheta (inv k) 0 0 ⁻¹' A k) * uniform01 ((fun u => 2 * Real.pi * u) ⁻¹' F k))) *
        ∏ r : Fin n, uniform01 (g r ⁻¹' G r) := by
  have e : {w | (∀ k : Fin (n - 1), ((drawnSetting inv n g w).1 k).1 ∈ A k ∧ ((drawnSetting inv n g w).1 k).2 ∈ F k) ∧
      ∀ r : Fin n, (drawnSetting inv n g w).2 r ∈ G r} =
      (univ.pi fun k : Fin (n - 1) => (randTheta (inv k) 0 0 ⁻¹' A k) ×ˢ ((fun u => 2 * Real.pi * u) ⁻¹' F k)) ×ˢ (univ.pi fun r : Fin n => g r ⁻¹' G r) := by
    ext w
    simp only [mem_prod, mem_univ_pi, mem_preimage]
    rfl
  rw [e, freshDraws, Measure.prod_prod, Measure.pi_pi, Measure.pi_pi]
  simp only [Measure.prod_prod]

theorem prod_fin_range (N : ℕ) (g : ℕ → ENNReal) (f : Fin N → ENNReal) (h : ∀ k : Fin N, g k = f k) :
    ∏ k : Fin N, f k = ((List.range N).map g).prod := by
  have e : f = fun k : Fin N => g k := funext fun k => (h k).symm
  rw [e, ← Finset.prod_range g, Finset.prod_eq_multiset_prod]
  rfl

/-- C210: `vector_unit` of a random vector whose law no unitary changes. -/
theorem C210_vector_unit {Ω : Type} [MeasurableSpace Ω] (Pr : Measure Ω) [IsProbabilityMeasure Pr] (n : ℕ) (hn : 2 ≤ n) (balanced : Bool)
    (v : Ω → Fin n → ℂ) (hv : RandomDirection Pr v) (A F : ℕ → Set ℝ) (C : Set ℝ) (hA : ∀ k, MeasurableSet (A k)) (hF : ∀ k, MeasurableSet (F k))
    (hC : MeasurableSet C) :
    Pr {ω | ∃ P w, vectorUnit 0 .top 0 n balanced (padFin 0 (v ω)) = some (errorMesh (tree n n balanced) 0 .top, P, w) ∧
      (∀ a ∈ tree n n balanced, P.thetas a.id ∈ A a.id ∧ P.phis a.id ∈ F a.id) ∧ P.gammas (n - 1) ∈ C} =
      ((tree n n balanced).map fun a => splitLaw (topInputs (tree n n balanced) a) (bottomInputs (tree n n balanced) a) (A a.id) * turnLaw 0 (F a.id)).prod *
        turnLaw (-Real.pi) C := by
  obtain ⟨binv, hb, hbm⟩ := exists_measurable_betaincinv
  set nodes := tree n n balanced with hnodes
  have hpi := Real.pi_pos
  let β : ℕ → ℕ := fun k => topInputs nodes (nodeAt nodes k)
  let α : ℕ → ℕ := fun k => bottomInputs nodes (nodeAt nodes k)
  let inv : ℕ → ℝ → ℝ := fun k => binv (β k) (α k)
  have hids : ∀ k < n - 1, ∃ a ∈ nodes, a.id = k := ids_of_perm (tree_ids n n balanced)
  have hpos : ∀ k < n - 1, 1 ≤ β k ∧ 1 ≤ α k := by
    intro k hk
    obtain ⟨a, ha, rfl⟩ := hids k hk
    simp only [β, α]
    rw [nodeAt_id ha]
    exact inputs_pos hn ha
  have hfair : Fair β α (shape n balanced) 0 := tree_fair hn balanced β α fun a ha => by
    simp only [β, α]
    rw [nodeAt_id ha]
    exact ⟨rfl, rfl⟩
  have hinv : ∀ k < n - 1, Measurable (randTheta (inv k) 0 0) := by
    intro k hk
    obtain ⟨h1, h2⟩ := hpos k hk
    have : randTheta (inv k) 0 0 = idealPhase ∘ inv k := by
      funext u; exact randTheta_ideal _ u
    rw [this]
    exact measurable_idealPhase.comp (hbm _ _ h1 h2)
  have hprob : IsProbabilityMeasure (freshDraws (n - 1) n) := by
    unfold freshDraws; infer_instance
  -- the random row
  have hmom : HaarMoments (freshDraws (n - 1) n) n (drawnRow inv n balanced) := drawn_haar hn hb balanced β α hpos hfair
  have hrowY : ∀ w, star (drawnRow inv n balanced w) = tipVec n balanced (paramsOf (drawnSetting inv n (fun _ u => 2 * Real.pi * u) w)) := by
    intro w
    have e1 : star (drawnRow inv n balanced w) = tipVec n balanced (drawnParams inv (padFin (0, 0) w.1) (padFin 0 w.2)) := rfl
    rw [e1]
    refine tipVec_congr hn balanced (fun k hk => ?_) ?_
    · simp only [drawnParams, paramsOf, drawnSetting, padFin, dif_pos hk]
      exact ⟨trivial, trivial⟩
    · simp only [drawnParams, paramsOf, drawnSetting, padFin, dif_pos (show n - 1 < n by omega)]
  have mst : Measurable fun v : Fin n → ℂ => star v := measurable_pi_iff.2 fun i => Complex.continuous_conj.measurable.comp (measurable_pi_apply i)
  have mV : Measurable fun w => star (drawnRow inv n balanced w) := by
    simp only [hrowY]
    exact (measurable_tipVec hn balanced).comp (measurable_drawnSetting hinv fun _ => by fun_prop)
  have mrow : Measurable (drawnRow inv n balanced) := by
    have := mst.comp mV
    have e : (fun v : Fin n → ℂ => star v) ∘ (fun w => star (drawnRow inv n balanced w)) = drawnRow inv n balanced := by
      funext w; exact star_star _
    rwa [e] at this
  have hnorm : ∀ w, ∑ i, ‖drawnRow inv n balanced w i‖ ^ 2 = 1 := by
    intro w
    have h := tipVec_norm hn balanced (paramsOf (drawnSetting inv n (fun _ u => 2 * Real.pi * u) w))
    rw [← hrowY] at h
    simpa only [Pi.star_apply, norm_star] using h
  have hdirV := hmom.direction mrow hnorm
  have hnormV : ∀ᵐ w ∂freshDraws (n - 1) n, ∑ i, ‖(star (drawnRow inv n balanced w)) i‖ ^ 2 = 1 := by
    refine Filter.Eventually.of_forall fun w => ?_
    simp only [Pi.star_apply, norm_star, hnorm]
  have hlaw := direction_unique hn hv.unit (by filter_upwards [hv.nonzero] with ω h0 using finNorm_finUnit h0) hdirV hnormV
  -- the program
  let progV : (Fin n → ℂ) → Setting (n - 1) n := fun x => ((vectorUnit 0 .top 0 n balanced (padFin 0 x)).map fun y => settingOf (n - 1) n y.2.1).getD 0
  let GS : ℕ → Set ℝ := fun r => if r + 1 = n then Ico (-Real.pi) Real.pi else {0}
  let G : Set (Setting (n - 1) n) := {s | (∀ k : Fin (n - 1), (s.1 k).1 ∈ Ioo 0 Real.pi ∧ (s.1 k).2 ∈ Ico 0 (2 * Real.pi)) ∧ ∀ r : Fin n, s.2 r ∈ GS r}
  have hGS : ∀ r, MeasurableSet (GS r) := by
    intro r
    simp only [GS]
    split_ifs
    · exact measurableSet_Ico
    · exact measurableSet_singleton 0
  have hG : MeasurableSet G := measurable_rect (A := fun _ => Ioo 0 Real.pi) (F := fun _ => Ico 0 (2 * Real.pi)) (G := GS) (fun _ => measurableSet_Ioo)
    (fun _ => measurableSet_Ico) hGS
  have hrec : ∀ (x : Fin n → ℂ) (s), s ∈ G → finUnit x = tipVec n balanced (paramsOf s) → progV x = s := by
    intro x s hs hx
    have hl : s.2 ⟨n - 1, by omega⟩ ∈ Ico (-Real.pi) Real.pi := by
      have := hs.2 ⟨n - 1, by omega⟩
      simp only [GS] at this
      rwa [if_pos (by omega)] at this
    have hgl : (paramsOf s).gammas (n - 1) = s.2 ⟨n - 1, by omega⟩ := by simp only [paramsOf, padFin, dif_pos (show n - 1 < n by omega)]
    obtain ⟨P', w, e1, e2, e3, e4⟩ := unit_recover hn balanced x (paramsOf s) (fun a ha => by
      have hk : a.id < n - 1 := tree_id_lt ha
      have := hs.1 ⟨a.id, hk⟩
      simpa only [paramsOf, padFin, dif_pos hk, mem_Ioo, mem_Ico, and_assoc] using this) (by rw [hgl]; exact hl.1) (by rw [hgl]; exact hl.2) hx
    have e5 : progV x = settingOf (n - 1) n P' := by
      simp only [progV]
      rw [e1]; rfl
    rw [e5]
    refine Prod.ext (funext fun k => ?_) (funext fun r => ?_)
    · obtain ⟨a, ha, e⟩ := hids k.val k.isLt
      have h := e2 a ha
      rw [e] at h
      simp only [paramsOf, padFin, dif_pos k.isLt] at h
      exact Prod.ext h.1 h.2
    · by_cases hr : r.val + 1 = n
      · have hr' : r = ⟨n - 1, by omega⟩ := Fin.ext (by show r.val = n - 1; omega)
        show P'.gammas r.val = s.2 r
        rw [hr', e3, hgl]
      · have h0 := hs.2 r
        simp only [GS, if_neg hr, mem_singleton_iff] at h0
        rw [h0]
        exact e4 r.val (by omega)
  have hinj : InjOn (fun s : Setting (n - 1) n => tipVec n balanced (paramsOf s)) G := by
    intro s hs s' hs' h
    have e : ∀ t : Setting (n - 1) n, finUnit (tipVec n balanced (paramsOf t)) = tipVec n balanced (paramsOf t) := fun t => finUnit_self (tipVec_norm hn balanced _)
    rw [← hrec _ s hs (e s), ← hrec _ s' hs' (e s')]
    exact congrArg progV h
  -- the random setting
  let gw : ℕ → ℝ → ℝ := fun r u => if r + 1 = n then wrapPi (2 * Real.pi * u) else 0
  have mlin : Measurable fun u : ℝ => 2 * Real.pi * u := by fun_prop
  have mwr : Measurable fun u : ℝ => wrapPi (2 * Real.pi * u) := measurable_wrapPi.comp mlin
  have hgw : ∀ r, Measurable (gw r) := by
    intro r
    simp only [gw]
    split_ifs
    · exact mwr
    · exact measurable_const
  have mX := measurable_drawnSetting hinv hgw
  have hu : ∀ᵐ u ∂uniform01, u ∈ Ico (0 : ℝ) 1 := ae_restrict_mem measurableSet_Ico
  have hwrap : ∀ u ∈ Ico (0 : ℝ) 1, wrapPi (2 * Real.pi * u) ∈ Ico (-Real.pi) Real.pi ∧
      exp (I * (wrapPi (2 * Real.pi * u) : ℝ)) = exp (I * ((2 * Real.pi * u : ℝ) : ℂ)) := by
    intro u hu
    have h1 := hu.1
    have h2 := hu.2
    unfold wrapPi
    split_ifs with hc
    · exact ⟨⟨by nlinarith, by linarith⟩, rfl⟩
    · refine ⟨⟨by linarith, by nlinarith⟩, ?_⟩
      rw [Complex.exp_eq_exp_iff_exists_int]
      exact ⟨-1, by push_cast; ring⟩
  have hthae : ∀ k : Fin (n - 1), ∀ᵐ u ∂uniform01, randTheta (inv k) 0 0 u ∈ Ioo 0 Real.pi := by
    intro k
    obtain ⟨h1, h2⟩ := hpos k k.2
    exact (ae_theta (by exact_mod_cast h1) (by exact_mod_cast h2) (hb _ _ h1 h2)).2
  have ae1 : ∀ᵐ w ∂freshDraws (n - 1) n, (∀ k : Fin (n - 1), randTheta (inv k) 0 0 (w.1 k).1 ∈ Ioo 0 Real.pi ∧ (w.1 k).2 ∈ Ico (0 : ℝ) 1) ∧
      ∀ r : Fin n, w.2 r ∈ Ico (0 : ℝ) 1 := by
    have q1 : ∀ k : Fin (n - 1), ∀ᵐ z ∂(uniform01.prod uniform01), randTheta (inv k) 0 0 z.1 ∈ Ioo 0 Real.pi ∧ z.2 ∈ Ico (0 : ℝ) 1 := fun k =>
      (Measure.quasiMeasurePreserving_fst.ae (hthae k)).and (Measure.quasiMeasurePreserving_snd.ae hu)
    have q2 : ∀ᵐ x ∂(Measure.pi fun _ : Fin (n - 1) => uniform01.prod uniform01), ∀ k : Fin (n - 1), randTheta (inv k) 0 0 (x k).1 ∈ Ioo 0 Real.pi ∧
        (x k).2 ∈ Ico (0 : ℝ) 1 := ae_all_iff.2 fun k => (Measure.quasiMeasurePreserving_eval (fun _ : Fin (n - 1) => uniform01.prod uniform01) k).ae (q1 k)
    have q3 : ∀ᵐ y ∂(Measure.pi fun _ : Fin n => uniform01), ∀ r : Fin n, y r ∈ Ico (0 : ℝ) 1 :=
      ae_all_iff.2 fun r => (Measure.quasiMeasurePreserving_eval (fun _ : Fin n => uniform01) r).ae hu
    exact (Measure.quasiMeasurePreserving_fst.ae q2).and (Measure.quasiMeasurePreserving_snd.ae q3)
  have hXG : ∀ᵐ w ∂freshDraws (n - 1) n, drawnSetting inv n gw w ∈ G := by
    filter_upwards [ae1] with w hw
    refine ⟨fun k => ⟨(hw.1 k).1, ?_, ?_⟩, fun r => ?_⟩
    · have := (hw.1 k).2.1
      show 0 ≤ 2 * Real.pi * (w.1 k).2
      positivity
    · have := (hw.1 k).2.2
      show 2 * Real.pi * (w.1 k).2 < 2 * Real.pi
      nlinarith
    · show gw r (w.2 r) ∈ GS r
      simp only [gw, GS]
      split_ifs with h
      · exact (hwrap _ (hw.2 r)).1
      · rfl
  have hVX : ∀ᵐ w ∂freshDraws (n - 1) n, star (drawnRow inv n balanced w) = tipVec n balanced (paramsOf (drawnSetting inv n gw w)) := by
    filter_upwards [ae1] with w hw
    rw [hrowY]
    refine tipVec_congr hn balanced (fun k hk => ?_) ?_
    · simp only [paramsOf, drawnSetting, padFin, dif_pos hk]
      exact ⟨trivial, trivial⟩
    · simp only [paramsOf, drawnSetting, padFin, dif_pos (show n - 1 < n by omega), gw, if_pos (show n - 1 + 1 = n by omega)]
      exact (hwrap _ (hw.2 ⟨n - 1, by omega⟩)).2.symm
  let GC : ℕ → Set ℝ := fun r => if r + 1 = n then C else univ
  have hGC : ∀ r, MeasurableSet (GC r) := by
    intro r
    simp only [GC]
    split_ifs
    · exact hC
    · exact MeasurableSet.univ
  have main := law_of_recover hv.unit.measurable mV.aemeasurable hlaw _ (measurable_tipVec hn balanced) hG hinj (fun ω => progV (v ω))
    (fun ω s hs h => hrec (v ω) s hs h) mX.aemeasurable hXG hVX (measurable_rect hA hF hGC)
  have lawX := drawnSetting_law (inv := inv) (n := n) (g := gw) (A := A) (F := F) (G := GC)
  refine Eq.trans (congrArg Pr ?_) (main.trans (lawX.trans ?_))
  · ext ω
    obtain ⟨M2, P2, w2, e2, -⟩ := vectorUnit_spec (Or.inl rfl) (le_refl (0 : ℝ)) 0 (by simp) n hn balanced (padFin 0 (v ω))
      (reachableRun_ideal le_rfl .top 0 _ _)
    obtain rfl : errorMesh nodes 0 .top = M2 := by
      have h3 := e2
      simp only [vectorUnit, Option.bind_eq_bind, Option.bind_eq_some_iff] at h3
      obtain ⟨⟨P', w'⟩, -, h5⟩ := h3
      simp only [Option.some.injEq, Prod.mk.injEq] at h5
      exact h5.1
    have eP : progV (v ω) = settingOf (n - 1) n P2 := by
      simp only [progV]
      rw [e2]; rfl
    simp only [mem_ofPred_eq]
    rw [eP]
    constructor
    · rintro ⟨P, w, h0, h1, h2⟩
      rw [e2] at h0
      obtain ⟨rfl, rfl⟩ : P2 = P ∧ w2 = w := by
        simpa only [Option.some.injEq, Prod.mk.injEq, true_and] using h0
      refine ⟨fun k => ?_, fun r => ?_⟩
      · obtain ⟨a, ha, e⟩ := hids k.val k.isLt
        have h := h1 a ha
        rw [e] at h
        exact h
      · simp only [GC]
        split_ifs with hr
        · have hr' : r = ⟨n - 1, by omega⟩ := Fin.ext (by show r.val = n - 1; omega)
          show P2.gammas r.val ∈ C
          rw [hr']
          exact h2
        · trivial
    · rintro ⟨h1, h2⟩
      refine ⟨P2, w2, e2, fun a ha => ?_, ?_⟩
      · exact h1 ⟨a.id, tree_id_lt ha⟩
      · have := h2 ⟨n - 1, by omega⟩
        simp only [GC] at this
        rw [if_pos (by omega)] at this
        exact this
  · congr 1
    · have e1 : (nodes.map fun a => splitLaw (topInputs nodes a) (bottomInputs nodes a) (A a.id) * turnLaw 0 (F a.id)) =
          (nodes.map Node.id).map fun k => splitLaw (β k) (α k) (A k) * turnLaw 0 (F k) := by
        rw [List.map_map]
        refine List.map_congr_left fun a ha => ?_
        simp only [Function.comp, β, α]
        rw [nodeAt_id ha]
      rw [e1, ((tree_ids n n balanced).map _).prod_eq]
      exact (prod_fin_range (n - 1) (fun k => splitLaw (β k) (α k) (A k) * turnLaw 0 (F k)) _ fun k => by
        obtain ⟨h1, h2⟩ := hpos k k.isLt
        rw [← randTheta_split h2 h1 (hb _ _ h1 h2), Measure.map_apply (hinv k k.isLt) (hA k), ← uniform_law, Measure.map_apply mlin (hF k)])
    · rw [Finset.prod_eq_single (⟨n - 1, by omega⟩ : Fin n)]
      · rw [← wrap_law, Measure.map_apply mwr hC]
        simp only [gw, GC]
        rw [if_pos (by omega)]
        simp only [if_pos (show n - 1 + 1 = n by omega)]
      · intro r _ hr
        have hr' : ¬ (r.val + 1 = n) := fun h => hr (Fin.ext (by show r.val = n - 1; omega))
        simp only [GC, if_neg hr', preimage_univ]
        exact measure_univ
      · simp

end Simphox
