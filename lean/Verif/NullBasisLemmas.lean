import Verif.NullBasis
import Mathlib.Analysis.InnerProductSpace.PiL2

/-! # Lemmas for the null-basis round trip -/

namespace Simphox

open Matrix Complex

/-- 2-norm of the first `n` rails. -/
noncomputable def nrm (n : ℕ) (v : ℕ → ℂ) : ℝ := Real.sqrt (∑ r : Fin n, ‖v r.val‖ ^ 2)

theorem nrm_eq (n : ℕ) (v : ℕ → ℂ) : nrm n v = ‖WithLp.toLp 2 (restrict n v)‖ := by
  rw [EuclideanSpace.norm_eq]; rfl

theorem nrm_nonneg (n : ℕ) (v : ℕ → ℂ) : 0 ≤ nrm n v := Real.sqrt_nonneg _

theorem nrm_add_le (n : ℕ) (u v : ℕ → ℂ) : nrm n (fun r => u r + v r) ≤ nrm n u + nrm n v := by
  rw [nrm_eq, nrm_eq, nrm_eq]
  exact norm_add_le (WithLp.toLp 2 (restrict n u)) (WithLp.toLp 2 (restrict n v))

theorem norm_le_nrm {n : ℕ} (v : ℕ → ℂ) {r : ℕ} (hr : r < n) : ‖v r‖ ≤ nrm n v := by
  apply Real.le_sqrt_of_sq_le
  exact Finset.single_le_sum (f := fun r : Fin n => ‖v r.val‖ ^ 2) (fun _ _ => by positivity)
    (Finset.mem_univ (⟨r, hr⟩ : Fin n))

theorem nrm_le_of {n : ℕ} {v : ℕ → ℂ} {b : ℝ} (hb : 0 ≤ b) (h : ∀ r, r < n → ‖v r‖ ≤ b) :
    nrm n v ≤ Real.sqrt n * b := by
  have h1 : ∑ r : Fin n, ‖v r.val‖ ^ 2 ≤ n * b ^ 2 := by
    calc ∑ r : Fin n, ‖v r.val‖ ^ 2 ≤ ∑ _r : Fin n, b ^ 2 :=
          Finset.sum_le_sum fun r _ => pow_le_pow_left₀ (norm_nonneg _) (h r.val r.isLt) 2
      _ = n * b ^ 2 := by simp
  calc nrm n v ≤ Real.sqrt (n * b ^ 2) := Real.sqrt_le_sqrt h1
    _ = Real.sqrt n * b := by rw [Real.sqrt_mul (by positivity), Real.sqrt_sq hb]

theorem nrm_columns {n : ℕ} {el : ℕ → Elements} {nodes : List Node}
    (hg : ∀ k, GoodColumn (columnNodes nodes k))
    (hr : ∀ a ∈ nodes, a.top < n ∧ a.bottom < n ∧ a.top ≠ a.bottom)
    (hel : ∀ k, (el k).mat ∈ unitaryGroup (Fin 2) ℂ) (cols : List ℕ) (v : ℕ → ℂ) :
    nrm n (columnsApply el nodes cols v) = nrm n v := by
  unfold nrm
  rw [columnsApply_eq_seq hg, seqApply_power el _ n _ (fun a _ => hel a.id)]
  intro a ha
  obtain ⟨k, _, hk⟩ := List.mem_flatMap.1 ha
  exact hr a (mem_columnNodes.1 hk).1

theorem columnsApply_single (el : ℕ → Elements) (nodes : List Node) (k : ℕ) (v : ℕ → ℂ) :
    columnsApply el nodes [k] v = parallelTransform el (columnNodes nodes k) v := rfl

theorem columnsApply_append (el : ℕ → Elements) (nodes : List Node) (c c' : List ℕ) (v : ℕ → ℂ) :
    columnsApply el nodes (c ++ c') v = columnsApply el nodes c' (columnsApply el nodes c v) := by
  simp [columnsApply]

theorem parallelTransform_sub {el : ℕ → Elements} {nodes : List Node} (h : GoodColumn nodes) (u v : ℕ → ℂ) :
    parallelTransform el nodes (fun r => u r - v r) =
      fun r => parallelTransform el nodes u r - parallelTransform el nodes v r := by
  have h1 := parallelTransform_result (el := el) h u
  have h2 := parallelTransform_result (el := el) h v
  refine (parallelTransform_result h _).unique ⟨?_, ?_, ?_⟩
  · intro a ha; rw [h1.top a ha, h2.top a ha]; ring
  · intro a ha; rw [h1.bottom a ha, h2.bottom a ha]; ring
  · intro r hr; rw [h1.other r hr, h2.other r hr]

theorem unitary2_rows {m : Elements} (h : m.mat ∈ unitaryGroup (Fin 2) ℂ) :
    m.t11 * (starRingEnd ℂ) m.t11 + m.t21 * (starRingEnd ℂ) m.t21 = 1 ∧
    m.t11 * (starRingEnd ℂ) m.t12 + m.t21 * (starRingEnd ℂ) m.t22 = 0 ∧
    m.t12 * (starRingEnd ℂ) m.t11 + m.t22 * (starRingEnd ℂ) m.t21 = 0 ∧
    m.t12 * (starRingEnd ℂ) m.t12 + m.t22 * (starRingEnd ℂ) m.t22 = 1 := by
  rw [mem_unitaryGroup_iff] at h
  have e := fun i j => congrFun (congrFun h i) j
  have e00 := e 0 0
  have e01 := e 0 1
  have e10 := e 1 0
  have e11 := e 1 1
  simp [Elements.mat, star_eq_conjTranspose, Matrix.mul_apply, Fin.sum_univ_two] at e00 e01 e10 e11
  exact ⟨e00, e01, e10, e11⟩

theorem mat_transpose {m m' : Elements} (h : m'.mat = m.matᵀ) :
    m'.t11 = m.t11 ∧ m'.t12 = m.t21 ∧ m'.t21 = m.t12 ∧ m'.t22 = m.t22 := by
  have e := fun i j => congrFun (congrFun h i) j
  have e00 := e 0 0
  have e01 := e 0 1
  have e10 := e 1 0
  have e11 := e 1 1
  simp [Elements.mat] at e00 e01 e10 e11
  exact ⟨e00, e10, e01, e11⟩

/-- A column undoes the conjugate of its reversed transform. -/
theorem column_undo {el elT : ℕ → Elements} {nodes : List Node} (h : GoodColumn nodes)
    (hu : ∀ a ∈ nodes, (el a.id).mat ∈ unitaryGroup (Fin 2) ℂ)
    (hT : ∀ a ∈ nodes, (elT a.id).mat = (el a.id).matᵀ) (u : ℕ → ℂ) :
    parallelTransform el nodes (fun r => (starRingEnd ℂ) (parallelTransform elT nodes u r)) =
      fun r => (starRingEnd ℂ) (u r) := by
  have h1 := parallelTransform_result (el := elT) h u
  refine (parallelTransform_result h _).unique ⟨?_, ?_, ?_⟩
  · intro a ha
    obtain ⟨q1, q2, q3, q4⟩ := unitary2_rows (hu a ha)
    obtain ⟨p1, p2, p3, p4⟩ := mat_transpose (hT a ha)
    rw [h1.top a ha, h1.bottom a ha, p1, p2, p3, p4]
    simp only [map_add, map_mul]
    linear_combination -(starRingEnd ℂ) (u a.top) * q1 - (starRingEnd ℂ) (u a.bottom) * q2
  · intro a ha
    obtain ⟨q1, q2, q3, q4⟩ := unitary2_rows (hu a ha)
    obtain ⟨p1, p2, p3, p4⟩ := mat_transpose (hT a ha)
    rw [h1.top a ha, h1.bottom a ha, p1, p2, p3, p4]
    simp only [map_add, map_mul]
    linear_combination -(starRingEnd ℂ) (u a.top) * q3 - (starRingEnd ℂ) (u a.bottom) * q4
  · intro r hr; rw [h1.other r hr]

theorem columns_undo {el elT : ℕ → Elements} {nodes : List Node} (h : ∀ k, GoodColumn (columnNodes nodes k))
    (hu : ∀ k, (el k).mat ∈ unitaryGroup (Fin 2) ℂ)
    (hT : ∀ k, (elT k).mat = (el k).matᵀ) (cols : List ℕ) (u : ℕ → ℂ) :
    columnsApply el nodes cols (fun r => (starRingEnd ℂ) (columnsApply elT nodes cols.reverse u r)) =
      fun r => (starRingEnd ℂ) (u r) := by
  induction cols generalizing u with
  | nil => rfl
  | cons k ks ih =>
    rw [List.reverse_cons, columnsApply_append, columnsApply_single]
    rw [show k :: ks = [k] ++ ks from rfl, columnsApply_append, columnsApply_single,
      column_undo (h k) (fun a _ => hu a.id) (fun a _ => hT a.id), ih]

theorem filter_reverse_range (L k : ℕ) (hk : k < L) :
    (List.range L).reverse.filter (fun j => !decide (k < j)) = (List.range (k + 1)).reverse := by
  rw [List.filter_reverse]
  congr 1
  have : (fun j => !decide (k < j)) = fun j => decide (j < k + 1) := by
    funext j; by_cases h : k < j <;> (simp [h]; try omega)
  rw [this]
  obtain ⟨d, rfl⟩ : ∃ d, L = (k + 1) + d := ⟨L - (k + 1), by omega⟩
  rw [List.range_add, List.filter_append, List.filter_eq_self.2, List.filter_eq_nil_iff.2, List.append_nil]
  · intro x hx
    obtain ⟨y, _, rfl⟩ := List.mem_map.1 hx
    simp; omega
  · intro x hx
    simpa using List.mem_range.1 hx

/-- The reversed propagation from column `k` of the null basis. -/
theorem propagate_back_cutoff (M : Mesh) (P : Params) (k : ℕ) (hk : k < numColumns M.nodes) (v : ℕ → ℂ) :
    (M.propagate P true (some ((numColumns M.nodes : ℤ) - (k : ℤ))) v).getLast? =
      some (columnsApply (M.elements P true) M.nodes (List.range (k + 1)).reverse v) := by
  have key := propagate_loop
    (fun k v => parallelTransform (M.elements P true) (columnNodes M.nodes k) v)
    (fun j : ℕ => decide ((k : ℤ) < (j : ℤ))) (List.range (numColumns M.nodes)).reverse v v []
  have e0 : (fun j : ℕ => !decide ((k : ℤ) < (j : ℤ))) = fun j => !decide (k < j) := by
    funext j; simp
  rw [e0, filter_reverse_range _ _ hk, scanl_eq_map] at key
  simp only [List.nil_append, decide_eq_true_eq] at key
  have h1 : ¬ ((numColumns M.nodes : ℤ) - (k : ℤ) = -1) := by omega
  simp only [Mesh.propagate, Option.getD_some, true_and, h1, if_false, not_true_eq_false, false_and,
    columnOrder, if_true]
  rw [show ∀ (a b : ℤ), a - (a - b) = b from fun a b => by ring, key]
  generalize (List.range (k + 1)).reverse = R
  rw [List.range_succ, List.map_append, List.map_singleton, List.getLast?_concat, List.take_length]
  rfl

theorem propagate_forward_last (M : Mesh) (P : Params) (k : ℕ) (hk : k < numColumns M.nodes) (v : ℕ → ℂ) :
    (M.propagate P false (some (k : ℤ)) v).getLast? =
      some (columnsApply (M.elements P false) M.nodes (List.range k) v) := by
  rw [propagate_forward M P k hk.le]
  simp only [Nat.ne_of_lt hk, if_false, List.append_nil]
  rw [List.range_succ, List.map_append, List.map_singleton, List.getLast?_concat]
  rfl

/-- The row of the basis of column `k` is what columns `0..k` turn into `bottomOnes`. -/
theorem nullificationBasis_spec {n : ℕ} {M : Mesh} (hM : M.WellFormed n) (P : Params)
    (hu : ∀ k, (M.elements P false k).mat ∈ unitaryGroup (Fin 2) ℂ)
    (hT : ∀ k, (M.elements P true k).mat = (M.elements P false k).matᵀ)
    (k : ℕ) (hk : k < numColumns M.nodes) :
    columnsApply (M.elements P false) M.nodes (List.range (k + 1)) (M.nullificationBasis P k) =
      bottomOnes M.nodes k := by
  unfold Mesh.nullificationBasis
  simp only [propagate_back_cutoff M P k hk, Option.getD_some]
  rw [columns_undo hM.goodColumn hu hT]
  funext r
  unfold bottomOnes
  split_ifs <;> simp

/-- An almost triangular 2×2 unitary is almost a diagonal of phases. -/
theorem unitary2_near_diag {a b c d : ℂ} {s : ℝ} (h1 : ‖a‖ ^ 2 + ‖b‖ ^ 2 = 1) (h2 : ‖c‖ ^ 2 + ‖d‖ ^ 2 = 1)
    (h3 : ‖a‖ ^ 2 + ‖c‖ ^ 2 = 1) (hs : ‖b‖ ≤ s) :
    ‖c‖ ≤ s ∧ (∃ u : ℂ, ‖u‖ = 1 ∧ ‖a - u‖ ≤ s) ∧ ∃ u : ℂ, ‖u‖ = 1 ∧ ‖d - u‖ ≤ s := by
  have hcb : ‖c‖ = ‖b‖ := by
    have : ‖c‖ ^ 2 = ‖b‖ ^ 2 := by linarith
    exact (pow_left_inj₀ (norm_nonneg _) (norm_nonneg _) (by norm_num)).1 this
  have phase : ∀ z : ℂ, ‖z‖ ^ 2 + ‖b‖ ^ 2 = 1 → ∃ u : ℂ, ‖u‖ = 1 ∧ ‖z - u‖ ≤ s := by
    intro z hz
    have hb1 : ‖b‖ ≤ 1 := by nlinarith [sq_nonneg ‖z‖, norm_nonneg b]
    have hz1 : ‖z‖ ≤ 1 := by nlinarith [sq_nonneg ‖b‖, norm_nonneg z]
    have hlow : 1 - ‖b‖ ≤ ‖z‖ := by
      have : (1 - ‖b‖) ^ 2 ≤ ‖z‖ ^ 2 := by nlinarith [norm_nonneg b]
      exact (abs_le_of_sq_le_sq' this (norm_nonneg _)).2
    refine ⟨exp (I * arg z), norm_exp_I _, ?_⟩
    have e := norm_mul_exp_arg z
    have : z - exp (I * arg z) = ((‖z‖ - 1 : ℝ) : ℂ) * exp (I * arg z) := by
      push_cast
      linear_combination -e
    rw [this, norm_mul, norm_exp_I, mul_one, Complex.norm_real, Real.norm_eq_abs, abs_le]
    constructor <;> linarith [norm_nonneg b]
  refine ⟨hcb ▸ hs, phase a h1, phase d ?_⟩
  rw [hcb] at h2; linarith

theorem Elements.row_norm {m : Elements} (h : m.mat ∈ unitaryGroup (Fin 2) ℂ) :
    ‖m.t11‖ ^ 2 + ‖m.t21‖ ^ 2 = 1 ∧ ‖m.t12‖ ^ 2 + ‖m.t22‖ ^ 2 = 1 ∧ ‖m.t11‖ ^ 2 + ‖m.t12‖ ^ 2 = 1 := by
  have h1 := unitary_row_norm h 0
  have h2 := unitary_row_norm h 1
  have h3 := unitary_col_norm h 0
  simp [Fin.sum_univ_two, Elements.mat] at h1 h2 h3
  exact ⟨h1, h2, h3⟩

/-- One node: if the new block `m'` nearly nulls what the old block `m` sent to the bottom (with phases
`D`), then `m'` is nearly the old block up to phases. -/
theorem node_near {m m' : Elements} (hm : m.mat ∈ unitaryGroup (Fin 2) ℂ)
    (hm' : m'.mat ∈ unitaryGroup (Fin 2) ℂ) {dt db : ℂ} (hdt : ‖dt‖ = 1) (hdb : ‖db‖ = 1) {s : ℝ}
    (hs : ‖m'.t11 * (dt * (starRingEnd ℂ) m.t12) + m'.t21 * (db * (starRingEnd ℂ) m.t22)‖ ≤ s) :
    (∃ u : ℂ, ‖u‖ = 1 ∧ ∀ x y : ℂ, ‖m'.t11 * (dt * x) + m'.t21 * (db * y) - u * (m.t11 * x + m.t21 * y)‖ ≤
      s * (‖m.t11 * x + m.t21 * y‖ + ‖m.t12 * x + m.t22 * y‖)) ∧
    ∃ u : ℂ, ‖u‖ = 1 ∧ ∀ x y : ℂ, ‖m'.t12 * (dt * x) + m'.t22 * (db * y) - u * (m.t12 * x + m.t22 * y)‖ ≤
      s * (‖m.t11 * x + m.t21 * y‖ + ‖m.t12 * x + m.t22 * y‖) := by
  obtain ⟨q1, q2, q3, q4⟩ := unitary2_rows hm
  -- the columns of `m`
  have hm2 : m.matᴴ ∈ unitaryGroup (Fin 2) ℂ := by
    have := Unitary.star_mem hm
    rwa [star_eq_conjTranspose] at this
  -- W = m' D m^†
  set W00 := m'.t11 * (dt * (starRingEnd ℂ) m.t11) + m'.t21 * (db * (starRingEnd ℂ) m.t21) with hW00
  set W01 := m'.t11 * (dt * (starRingEnd ℂ) m.t12) + m'.t21 * (db * (starRingEnd ℂ) m.t22) with hW01
  set W10 := m'.t12 * (dt * (starRingEnd ℂ) m.t11) + m'.t22 * (db * (starRingEnd ℂ) m.t21) with hW10
  set W11 := m'.t12 * (dt * (starRingEnd ℂ) m.t12) + m'.t22 * (db * (starRingEnd ℂ) m.t22) with hW11
  have hD : (diagonal ![dt, db] : Matrix (Fin 2) (Fin 2) ℂ) ∈ unitaryGroup (Fin 2) ℂ := by
    have key : ∀ z : ℂ, ‖z‖ = 1 → z * (starRingEnd ℂ) z = 1 := by
      intro z hz; rw [mul_conj, normSq_eq_norm_sq, hz]; norm_num
    rw [mem_unitaryGroup_iff, star_eq_conjTranspose, diagonal_conjTranspose, diagonal_mul_diagonal]
    ext i j
    fin_cases i <;> fin_cases j <;> simp [key _ hdt, key _ hdb]
  have hW : (!![W00, W01; W10, W11] : Matrix (Fin 2) (Fin 2) ℂ) ∈ unitaryGroup (Fin 2) ℂ := by
    have : (!![W00, W01; W10, W11] : Matrix (Fin 2) (Fin 2) ℂ) = m'.mat * (diagonal ![dt, db] * m.matᴴ) := by
      rw [hW00, hW01, hW10, hW11]
      ext i j
      fin_cases i <;> fin_cases j <;>
        simp [Elements.mat, Matrix.mul_apply, Fin.sum_univ_two, diagonal_apply]
    rw [this]
    exact mul_mem hm' (mul_mem hD hm2)
  have r0 := unitary_row_norm hW 0
  have r1 := unitary_row_norm hW 1
  have r2 := unitary_col_norm hW 0
  simp [Fin.sum_univ_two] at r0 r1 r2
  obtain ⟨hc, ⟨u, hu, hua⟩, ⟨v, hv, hvd⟩⟩ := unitary2_near_diag r0 r1 r2 hs
  -- columns of m: x = conj t11 * p + conj t12 * q
  have c1 := congrFun (congrFun ((mem_unitaryGroup_iff').1 hm) 0) 0
  have c2 := congrFun (congrFun ((mem_unitaryGroup_iff').1 hm) 0) 1
  have c3 := congrFun (congrFun ((mem_unitaryGroup_iff').1 hm) 1) 0
  have c4 := congrFun (congrFun ((mem_unitaryGroup_iff').1 hm) 1) 1
  simp [Elements.mat, star_eq_conjTranspose, Matrix.mul_apply, Fin.sum_univ_two] at c1 c2 c3 c4
  have ex : ∀ x y : ℂ, (starRingEnd ℂ) m.t11 * (m.t11 * x + m.t21 * y) +
      (starRingEnd ℂ) m.t12 * (m.t12 * x + m.t22 * y) = x := by
    intro x y; linear_combination x * c1 + y * c2
  have ey : ∀ x y : ℂ, (starRingEnd ℂ) m.t21 * (m.t11 * x + m.t21 * y) +
      (starRingEnd ℂ) m.t22 * (m.t12 * x + m.t22 * y) = y := by
    intro x y; linear_combination x * c3 + y * c4
  have hs0 : 0 ≤ s := le_trans (norm_nonneg _) hs
  have bound : ∀ α β p q : ℂ, ‖α‖ ≤ s → ‖β‖ ≤ s → ‖α * p + β * q‖ ≤ s * (‖p‖ + ‖q‖) := by
    intro α β p q hα hβ
    calc ‖α * p + β * q‖ ≤ ‖α * p‖ + ‖β * q‖ := norm_add_le _ _
      _ = ‖α‖ * ‖p‖ + ‖β‖ * ‖q‖ := by rw [norm_mul, norm_mul]
      _ ≤ s * ‖p‖ + s * ‖q‖ := by gcongr
      _ = _ := by ring
  refine ⟨⟨u, hu, ?_⟩, ⟨v, hv, ?_⟩⟩
  · intro x y
    have e : m'.t11 * (dt * x) + m'.t21 * (db * y) - u * (m.t11 * x + m.t21 * y) =
        (W00 - u) * (m.t11 * x + m.t21 * y) + W01 * (m.t12 * x + m.t22 * y) := by
      rw [hW00, hW01]
      linear_combination -m'.t11 * dt * ex x y - m'.t21 * db * ey x y
    rw [e]
    exact bound _ _ _ _ hua hs
  · intro x y
    have e : m'.t12 * (dt * x) + m'.t22 * (db * y) - v * (m.t12 * x + m.t22 * y) =
        W10 * (m.t11 * x + m.t21 * y) + (W11 - v) * (m.t12 * x + m.t22 * y) := by
      rw [hW10, hW11]
      linear_combination -m'.t12 * dt * ex x y - m'.t22 * db * ey x y
    rw [e]
    exact bound _ _ _ _ hc hvd

end Simphox
