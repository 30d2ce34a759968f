import Verif.CascadeLemmas
import Verif.VectorProps

/-!
# Properties of `cascade`, `triangular`, `tree_cascade` (C15 – C17)

`frobSq A` is the squared Frobenius norm `∑ |A i j|²`.
-/

namespace Simphox

open Matrix Complex

theorem cascade_w0_col {n : ℕ} (u : Matrix (Fin n) (Fin n) ℂ) (c : Fin n) :
    restrict n (fun r => if h : r < n ∧ c.val < n then (starRingEnd ℂ) (u ⟨c.val, h.2⟩ ⟨r, h.1⟩) else 0) =
      (uᴴ).col c := by
  funext r
  simp [restrict, conjTranspose_apply, Matrix.col]

/-- What `cascade` returns: nodes, style and the near-equality, for the mesh read in the style it was
programmed for. -/
theorem cascade_spec {style : PhaseStyle} (hs : style = .top ∨ style = .bottom) {eps : ℝ} (heps : 0 ≤ eps)
    (n : ℕ) (hn : 2 ≤ n) (b : Bool) (u : Matrix (Fin n) (Fin n) ℂ) (hu : u ∈ unitaryGroup (Fin n) ℂ) :
    ∃ P, cascade eps style 0 n b u = some (errorMesh (parts n b (n - 1) 0 0) 0 .top, P) ∧
      (errorMesh (parts n b (n - 1) 0 0) 0 style).WellFormed n ∧
      frobSq ((errorMesh (parts n b (n - 1) 0 0) 0 style).matrix n P false - u) ≤ n ^ 2 * (n - 1) * eps := by
  set w0 : ℕ → ℕ → ℂ := fun r c =>
    if h : r < n ∧ c < n then (starRingEnd ℂ) (u ⟨c, h.2⟩ ⟨r, h.1⟩) else 0 with hw0
  obtain ⟨st, th, ph, g, e1, e2, e3, e4, e5, e6, e7, e8, e9, e10, e11⟩ := cascadeLoop_spec hs heps n b (n - 1)
    ⟨[], [], [], [], 0, 0, w0⟩ rfl rfl
  simp only [List.nil_append, List.append_nil] at e2 e3 e5 e7
  set P : Params := ⟨fun k => st.thetas.getD k 0, fun k => st.phis.getD k 0,
    fun k => (-arg (st.w 0 0) :: st.gammas).getD k 0⟩ with hP
  have hwf : (errorMesh (parts n b (n - 1) 0 0) 0 style).WellFormed n := by
    refine errorMesh_wellFormed 0 style ?_ ?_ (parts_disjoint n b (n - 1) 0 0 (by omega))
    · intro a ha
      have : a.id ∈ (parts n b (n - 1) 0 0).map Node.id := List.mem_map_of_mem ha
      rw [(parts_ids n b (n - 1) 0 0).mem_iff, List.mem_range'_1] at this
      rw [parts_length]; omega
    · intro a ha
      have := parts_rails ha
      omega
  refine ⟨P, ?_, hwf, ?_⟩
  · rw [downTo] at e1
    simp [cascade, ← hw0, e1, e2, hP]
  set M := (errorMesh (parts n b (n - 1) 0 0) 0 style) with hM
  have hMu := C06_lossless_unitary n M hwf (errorMesh_lossless _ _ _) P false
  have huu : uᴴ * u = 1 := by
    have := mem_unitaryGroup_iff'.1 hu
    rwa [star_eq_conjTranspose] at this
  have huu' : uᴴ ∈ unitaryGroup (Fin n) ℂ := by
    have := Unitary.star_mem hu
    rwa [star_eq_conjTranspose] at this
  have hEu : M.matrix n P false * uᴴ ∈ unitaryGroup (Fin n) ℂ := mul_mem hMu huu'
  have hE : ∀ r c : Fin n, (M.matrix n P false * uᴴ) r c = exp (I * P.gammas r.val) * st.w r.val c.val := by
    intro r c
    have h1 : (M.matrix n P false * uᴴ) r c = (M.matrix n P false).mulVec ((uᴴ).col c) r := rfl
    rw [h1, ← cascade_w0_col, Mesh.matrix_mulVec hwf]
    simp only [Mesh.apply, Bool.false_eq_true, if_false]
    rw [columnsApply_eq_seq hwf.goodColumn]
    have h2 : (columnOrder M.nodes false).flatMap (columnNodes M.nodes) =
      executionOrder (parts n b (n - 1) 0 0) := rfl
    rw [h2, seqApply_parts _ n b (n - 1) 0 0 (by omega)]
    have h3 := congrFun (e10 c.val) r.val
    simp only at h3
    rw [h3]
    rw [seqApply_congr (el' := listElements style st.thetas st.phis)]
    · simp only [restrict, gammaApply]
      rfl
    · intro a ha
      have ha' := (execParts_perm n b (n - 1) 0 0).mem_iff.1 ha
      rw [hM, errorMesh_elements]
      · rfl
      · exact hwf.ids a ha'
  have key := near_identity hEu heps ?_ ?_
  · have h1 : M.matrix n P false - u = (M.matrix n P false * uᴴ - 1) * u := by
      rw [sub_mul, Matrix.mul_assoc, huu, Matrix.mul_one, Matrix.one_mul]
    rw [h1, frobSq_mul_unitary hu]
    exact key
  · intro i
    refine ⟨‖st.w i.val i.val‖, norm_nonneg _, ?_⟩
    rw [hE]
    have : P.gammas i.val = -arg (st.w i.val i.val) := by
      obtain ⟨i, hi⟩ := i
      rcases i with _ | i
      · rfl
      · simp only [hP]
        rw [e7, ← e9 i (by omega)]
        rfl
    rw [this]
    exact exp_neg_arg_mul _
  · intro c
    have h1 : ∀ r : Fin n, ‖(M.matrix n P false * uᴴ) r c‖ ^ 2 = ‖st.w r.val c.val‖ ^ 2 := by
      intro r
      rw [hE, norm_mul, norm_exp_I, one_mul]
    simp only [h1]
    rcases Nat.eq_zero_or_pos c.val with h | h
    · have : Finset.univ.filter (fun r : Fin n => r < c) = ∅ := by
        apply Finset.filter_eq_empty_iff.2
        intro r _ hr
        have : r.val < c.val := hr
        omega
      rw [this, h]; simp
    · refine le_trans (le_of_eq ?_) (e11 c.val h (by omega))
      refine Finset.sum_bij' (fun r hr => (⟨r.val, by simpa using hr⟩ : Fin c.val))
        (fun r _ => (⟨r.val, by omega⟩ : Fin n)) ?_ ?_ ?_ ?_ ?_
      · intro r _; exact Finset.mem_univ _
      · intro r _; exact Finset.mem_filter.2 ⟨Finset.mem_univ _, r.isLt⟩
      · intro r _; rfl
      · intro r _; rfl
      · intro r _; rfl

/-- C15: `cascade(u)` (both layouts, default style) implements `u`: it always returns a mesh, whose
matrix differs from `u` in squared Frobenius norm by at most `n²(n-1)·ε`, where `ε = np.spacing(1)`
is the regulariser in `direct_transmissivity`. -/
theorem C15_cascade (eps : ℝ) (heps : 0 ≤ eps) (n : ℕ) (hn : 2 ≤ n) (balanced : Bool)
    (u : Matrix (Fin n) (Fin n) ℂ) (hu : u ∈ unitaryGroup (Fin n) ℂ) :
    ∃ M P, cascade eps .top 0 n balanced u = some (M, P) ∧ M.WellFormed n ∧
      ∑ i, ∑ j, ‖(M.matrix n P false - u) i j‖ ^ 2 ≤ n ^ 2 * (n - 1) * eps := by
  obtain ⟨P, h1, h2, h3⟩ := cascade_spec (Or.inl rfl) heps n hn balanced u hu
  exact ⟨_, P, h1, h2, h3⟩

theorem eq_of_frobSq {n : ℕ} {A B : Matrix (Fin n) (Fin n) ℂ} (h : frobSq (A - B) ≤ 0) : A = B := by
  unfold frobSq at h
  have h0 : ∑ i, ∑ j, ‖(A - B) i j‖ ^ 2 = 0 := le_antisymm h (Finset.sum_nonneg fun _ _ =>
    Finset.sum_nonneg fun _ _ => sq_nonneg _)
  rw [Finset.sum_eq_zero_iff_of_nonneg fun _ _ => Finset.sum_nonneg fun _ _ => sq_nonneg _] at h0
  ext i j
  have h1 := h0 i (Finset.mem_univ _)
  rw [Finset.sum_eq_zero_iff_of_nonneg fun _ _ => sq_nonneg _] at h1
  have h2 := h1 j (Finset.mem_univ _)
  have h3 : (A - B) i j = 0 := by simpa using h2
  exact sub_eq_zero.1 h3

/-- C15 without the regulariser: exact equality. -/
theorem C15_cascade_exact (n : ℕ) (hn : 2 ≤ n) (balanced : Bool)
    (u : Matrix (Fin n) (Fin n) ℂ) (hu : u ∈ unitaryGroup (Fin n) ℂ) :
    ∃ M P, cascade 0 .top 0 n balanced u = some (M, P) ∧ M.matrix n P false = u := by
  obtain ⟨P, h1, h2, h3⟩ := cascade_spec (Or.inl rfl) le_rfl n hn balanced u hu
  rw [mul_zero] at h3
  exact ⟨_, P, h1, eq_of_frobSq h3⟩

/-- Non-vacuity: a 3-rail unitary that is not the identity (a cyclic permutation). -/
example : ∃ M P, cascade 0 .top 0 3 false
      (Matrix.of fun i j : Fin 3 => if i = j + 1 then (1 : ℂ) else 0) = some (M, P) ∧
    M.matrix 3 P false = Matrix.of fun i j : Fin 3 => if i = j + 1 then (1 : ℂ) else 0 := by
  apply C15_cascade_exact 3 (by norm_num)
  rw [mem_unitaryGroup_iff, star_eq_conjTranspose]
  ext i j
  fin_cases i <;> fin_cases j <;> simp [Matrix.mul_apply, Fin.sum_univ_three, conjTranspose_apply]

/-! ### C16 -/

/-- C16, what holds: the phases are right for a mesh with the same nodes in the requested style; for
`TOP` (`C15_cascade`) this is the mesh returned. Missing: for `BOTTOM` the returned mesh itself. -/
theorem C16_phases_partial (eps : ℝ) (heps : 0 ≤ eps) (style : PhaseStyle) (hs : style = .top ∨ style = .bottom)
    (n : ℕ) (hn : 2 ≤ n) (balanced : Bool) (u : Matrix (Fin n) (Fin n) ℂ) (hu : u ∈ unitaryGroup (Fin n) ℂ) :
    ∃ M P, cascade eps style 0 n balanced u = some (M, P) ∧ M.style = .top ∧
      ∑ i, ∑ j, ‖(Mesh.matrix n { M with style := style } P false - u) i j‖ ^ 2 ≤ n ^ 2 * (n - 1) * eps := by
  obtain ⟨P, h1, h2, h3⟩ := cascade_spec hs heps n hn balanced u hu
  exact ⟨_, P, h1, rfl, h3⟩

theorem parts_two (b : Bool) : parts 2 b (2 - 1) 0 0 = [⟨0, 0, 1, 2, 1, 1, 0⟩] := by
  cases b <;> decide +kernel

theorem matrix_two (style : PhaseStyle) (P : Params) :
    (errorMesh [⟨0, 0, 1, 2, 1, 1, 0⟩] 0 style).matrix 2 P false =
      (diagonal fun i : Fin 2 => exp (I * P.gammas i.val)) *
        (mziElements style false 0 0 0 0 (P.thetas 0) (P.phis 0)).mat := by
  have hwf : (errorMesh [⟨0, 0, 1, 2, 1, 1, 0⟩] 0 style).WellFormed 2 := by
    refine errorMesh_wellFormed 0 style ?_ ?_ ?_ <;> simp [ColumnsDisjoint]
  rw [Mesh.matrix_eq hwf]
  have h1 : visitOrder (errorMesh [⟨0, 0, 1, 2, 1, 1, 0⟩] 0 style).nodes false = [⟨0, 0, 1, 2, 1, 1, 0⟩] := rfl
  rw [h1]
  simp [blockProduct, embed2_two, Mesh.elements, errorMesh]

theorem elements_style_eq {theta phi : ℝ}
    (h : (mziElements .top false 0 0 0 0 theta phi).mat = (mziElements .bottom false 0 0 0 0 theta phi).mat) :
    (mziElements .bottom false 0 0 0 0 theta phi).mat 0 0 = 0 ∨
      (mziElements .bottom false 0 0 0 0 theta phi).mat 0 1 = 0 := by
  have h00 := congrFun (congrFun h 0) 0
  have h01 := congrFun (congrFun h 0) 1
  simp only [Elements.mat, mziElements, mziTerms, of_apply, cons_val', cons_val_zero, cons_val_one, empty_val',
    cons_val_fin_one, add_zero, mul_zero, zero_div, ofReal_zero, sub_zero, mul_one, exp_zero,
    Bool.false_eq_true, if_false, Real.cos_pi_div_four, Real.sin_pi_div_four] at h00 h01 ⊢
  set s : ℂ := ((Real.sqrt 2 / 2 * (Real.sqrt 2 / 2) : ℝ) : ℂ)
  set p := exp (I * phi)
  set q := exp (I * theta)
  by_cases hp : p = 1
  · left
    rw [hp, mul_one] at h00
    linear_combination (1 / 2) * (-h00) + (1/2) * h00 + (-(1 : ℂ) / 2) * h00
  · right
    have : (p - 1) * (I * (s * q + s)) = 0 := by linear_combination -h01
    rcases mul_eq_zero.1 this with h' | h'
    · exact absurd (sub_eq_zero.1 h') hp
    · rw [h', zero_mul]

/-- C16 fails for `phase_style=BOTTOM`: for every 2x2 unitary without zero entries in its first row,
the returned mesh has style TOP and implements a matrix different from `u`. -/
theorem C16_bottom_counterexample (balanced : Bool) (u : Matrix (Fin 2) (Fin 2) ℂ)
    (hu : u ∈ unitaryGroup (Fin 2) ℂ) (h0 : u 0 0 ≠ 0) (h1 : u 0 1 ≠ 0) :
    ∃ M P, cascade 0 .bottom 0 2 balanced u = some (M, P) ∧ M.style = .top ∧ M.matrix 2 P false ≠ u := by
  obtain ⟨P, e1, _, e3⟩ := cascade_spec (style := .bottom) (Or.inr rfl) le_rfl 2 le_rfl balanced u hu
  refine ⟨_, P, e1, rfl, ?_⟩
  rw [mul_zero] at e3
  have e4 := eq_of_frobSq e3
  rw [parts_two, matrix_two] at e4 ⊢
  intro hc
  have hg := gamma_unitary 2 P.gammas
  have hcancel : (mziElements .top false 0 0 0 0 (P.thetas 0) (P.phis 0)).mat =
      (mziElements .bottom false 0 0 0 0 (P.thetas 0) (P.phis 0)).mat := by
    have := congrArg (fun A => star (diagonal fun i : Fin 2 => exp (I * (P.gammas i.val : ℂ))) * A)
      (hc.trans e4.symm)
    simp only [← Matrix.mul_assoc, mem_unitaryGroup_iff'.1 hg, Matrix.one_mul] at this
    exact this
  rcases elements_style_eq hcancel with h | h
  · apply h0
    rw [← e4, diagonal_mul, h, mul_zero]
  · apply h1
    rw [← e4, diagonal_mul, h, mul_zero]

/-- The counterexample is inhabited: the real beam splitter `[[3/5, 4/5], [-4/5, 3/5]]`. -/
example : ∃ M P, cascade 0 .bottom 0 2 true !![(3 / 5 : ℂ), 4 / 5; -4 / 5, 3 / 5] = some (M, P) ∧
    M.style = .top ∧ M.matrix 2 P false ≠ !![(3 / 5 : ℂ), 4 / 5; -4 / 5, 3 / 5] := by
  apply C16_bottom_counterexample
  · rw [mem_unitaryGroup_iff, star_eq_conjTranspose]
    ext i j
    fin_cases i <;> fin_cases j <;>
      simp [Matrix.mul_apply, Fin.sum_univ_two, conjTranspose_apply, map_ofNat] <;> norm_num
  · simp
  · simp

/-- `SYMMETRIC` cascades raise `NotImplementedError`. -/
theorem C16_symmetric_raises (eps e : ℝ) (n : ℕ) (hn : 2 ≤ n) (balanced : Bool) (u : Matrix (Fin n) (Fin n) ℂ) :
    cascade eps .symmetric e n balanced u = none := by
  obtain ⟨k, rfl⟩ : ∃ k, n = k + 2 := ⟨n - 2, by omega⟩
  have : (List.range' 1 (k + 2 - 1)).reverse = (k + 1) :: downTo k := by
    rw [← downTo_succ]; rfl
  simp only [cascade]
  rw [this]
  simp [cascadeLoop, cascadeStep,
    programVectorUnit_symmetric eps e (k + 2) (k + 2) (k + 1) (by omega) balanced]

/-! ### C17 -/

/-- Specification of a feed-forward layout on `n` rails with `m` nodes and `d` columns. -/
structure CascadeLayout (n m d : ℕ) (nodes : List Node) : Prop where
  count : nodes.length = m
  /-- the ids are `0, ..., m - 1` -/
  ids : (nodes.map Node.id).Perm (List.range m)
  rails : ∀ a ∈ nodes, a.top < a.bottom ∧ a.bottom < n
  /-- exactly the columns `0, ..., d - 1` are inhabited -/
  columns : ∀ k, (∃ a ∈ nodes, a.column = k) ↔ k < d
  disjoint : nodes.Pairwise fun a b => a.column = b.column →
    a.top ≠ b.top ∧ a.top ≠ b.bottom ∧ a.bottom ≠ b.top ∧ a.bottom ≠ b.bottom

/-- Specification of the order: the nodes are those of the trees analysing `n, n-1, ..., 2` inputs,
in this order, up to offsets of ids and columns; and when nodes of two different trees share a
rail, the one of the earlier tree is in an earlier column. -/
def CascadeOrder (n : ℕ) (balanced : Bool) (nodes : List Node) : Prop :=
  ∃ blocks : List (List Node), nodes = blocks.flatten ∧ blocks.length = n - 1 ∧
    (∀ k, k < n - 1 → ∃ N C, blocks[k]? =
      some ((tree (n - k) n balanced).map fun a => { a with id := a.id + N, column := a.column + C })) ∧
    blocks.Pairwise fun X Y => ∀ a ∈ X, ∀ b ∈ Y,
      (a.top = b.top ∨ a.top = b.bottom ∨ a.bottom = b.top ∨ a.bottom = b.bottom) → a.column < b.column

theorem numColumns_tree {m R : ℕ} (hm : 2 ≤ m) (b : Bool) : numColumns (tree m R b) = treeDepth m b := by
  rw [tree_eq, numColumns_invertColumns (preTree_root hm b), numColumns_preTree hm]

theorem tree_column_iff {m R : ℕ} (hm : 2 ≤ m) (b : Bool) (k : ℕ) :
    (∃ a ∈ tree m R b, a.column = k) ↔ k < treeDepth m b := by
  constructor
  · rintro ⟨a, ha, rfl⟩; rw [← numColumns_tree hm b]; exact column_lt_numColumns ha
  · intro hk
    obtain ⟨a, ha, hak⟩ := preTree_columns (R := R) hm b (k := treeDepth m b - 1 - k) (by omega)
    exact ⟨_, (mem_tree hm).2 ⟨a, ha, rfl⟩, by simp only; omega⟩

/-- Total depth of the trees analysing `k + 1, ..., 2` inputs. -/
def depthSum : ℕ → ℕ
  | 0 => 0
  | k + 1 => depthSum k + Nat.clog 2 (k + 2)

theorem parts_columns_balanced (n : ℕ) : ∀ k N C c,
    (∃ a ∈ parts n true k N C, a.column = c) ↔ C ≤ c ∧ c < C + depthSum k
  | 0, N, C, c => by simp only [parts, List.not_mem_nil, false_and, exists_false, depthSum, false_iff]; omega
  | k + 1, N, C, c => by
    have ih := parts_columns_balanced n k (N + (k + 1)) (C + numColumns (tree (k + 2) n true)) c
    have ht := tree_column_iff (R := n) (m := k + 2) (by omega) true (c - C)
    rw [numColumns_tree (by omega)] at ih
    simp only [treeDepth, if_true] at ih ht
    have : (∃ a ∈ parts n true (k + 1) N C, a.column = c) ↔
        (C ≤ c ∧ ∃ a ∈ tree (k + 2) n true, a.column = c - C) ∨
        ∃ a ∈ parts n true k (N + (k + 1)) (C + Nat.clog 2 (k + 2)), a.column = c := by
      rw [parts, numColumns_tree (by omega), subunitNodes_eq]
      simp only [List.mem_append, List.mem_map, treeDepth, if_true]
      constructor
      · rintro ⟨a, ⟨x, hx, rfl⟩ | h, hc⟩
        · left
          simp only [shiftNode, colOffset, if_true] at hc
          exact ⟨by omega, x, hx, by omega⟩
        · exact Or.inr ⟨a, h, hc⟩
      · rintro (⟨h, x, hx, hc⟩ | ⟨a, h, hc⟩)
        · exact ⟨_, Or.inl ⟨x, hx, rfl⟩, by simp only [shiftNode, colOffset, if_true]; omega⟩
        · exact ⟨a, Or.inr h, hc⟩
    rw [this, ih, ht, depthSum]
    omega

theorem parts_columns_chain (n : ℕ) : ∀ k N C c, k + 1 ≤ n →
    ((∃ a ∈ parts n false k N C, a.column = c) ↔ 0 < k ∧ 2 * (n - 1 - k) ≤ c ∧ c < 2 * n - 3)
  | 0, N, C, c, _ => by simp [parts]
  | k + 1, N, C, c, hk => by
    have ih := parts_columns_chain n k (N + (k + 1)) (C + numColumns (tree (k + 2) n false)) c (by omega)
    have ht := tree_column_iff (R := n) (m := k + 2) (by omega) false (c - 2 * (n - 1 - (k + 1)))
    simp only [treeDepth, Bool.false_eq_true, if_false] at ht
    have : (∃ a ∈ parts n false (k + 1) N C, a.column = c) ↔
        (2 * (n - 1 - (k + 1)) ≤ c ∧ ∃ a ∈ tree (k + 2) n false, a.column = c - 2 * (n - 1 - (k + 1))) ∨
        ∃ a ∈ parts n false k (N + (k + 1)) (C + numColumns (tree (k + 2) n false)), a.column = c := by
      rw [parts, subunitNodes_eq]
      simp only [List.mem_append, List.mem_map]
      constructor
      · rintro ⟨a, ⟨x, hx, rfl⟩ | h, hc⟩
        · left
          simp only [shiftNode, colOffset, Bool.false_eq_true, if_false] at hc
          exact ⟨by omega, x, hx, by omega⟩
        · exact Or.inr ⟨a, h, hc⟩
      · rintro (⟨h, x, hx, hc⟩ | ⟨a, h, hc⟩)
        · exact ⟨_, Or.inl ⟨x, hx, rfl⟩, by simp only [shiftNode, colOffset, Bool.false_eq_true, if_false]; omega⟩
        · exact ⟨a, Or.inr h, hc⟩
    rw [this, ih, ht]
    omega

theorem parts_order (n : ℕ) (b : Bool) : ∀ k N C, k + 1 ≤ n →
    ∃ blocks : List (List Node), parts n b k N C = blocks.flatten ∧ blocks.length = k ∧
      (∀ j, j < k → ∃ N C, blocks[j]? = some ((tree (k + 1 - j) n b).map (shiftNode N C))) ∧
      blocks.Pairwise fun X Y => ∀ x ∈ X, ∀ y ∈ Y, RailDisjoint x y ∨ x.column < y.column
  | 0, N, C, _ => ⟨[], rfl, rfl, by simp, List.Pairwise.nil⟩
  | k + 1, N, C, hk => by
    obtain ⟨B, h1, h2, h3, h4⟩ := parts_order n b k (N + (k + 1)) (C + numColumns (tree (k + 2) n b)) (by omega)
    refine ⟨(tree (k + 2) n b).map (shiftNode N (colOffset n (k + 1) b C)) :: B, ?_, by simp [h2], ?_, ?_⟩
    · rw [parts, h1, subunitNodes_eq]; rfl
    · intro j hj
      rcases j with _ | j
      · exact ⟨_, _, rfl⟩
      · obtain ⟨N', C', h⟩ := h3 j (by omega)
        refine ⟨N', C', ?_⟩
        rw [List.getElem?_cons_succ, h]
        congr 3
        omega
    · refine List.Pairwise.cons ?_ h4
      intro Y hY x hx y hy
      have hy' : y ∈ execParts n b k (N + (k + 1)) (C + numColumns (tree (k + 2) n b)) := by
        rw [(execParts_perm n b k _ _).mem_iff, h1]
        exact List.mem_flatten.2 ⟨Y, hY, hy⟩
      have h := execParts_ordered n b (k + 1) N C hk
      rw [execParts, List.pairwise_append] at h
      refine h.2.2 x ?_ y hy'
      obtain ⟨z, hz, rfl⟩ := List.mem_map.1 hx
      exact List.mem_map_of_mem (mem_executionOrder.2 hz)

theorem parts_cascadeOrder (n : ℕ) (hn : 2 ≤ n) (b : Bool) : CascadeOrder n b (parts n b (n - 1) 0 0) := by
  obtain ⟨B, h1, h2, h3, h4⟩ := parts_order n b (n - 1) 0 0 (by omega)
  refine ⟨B, h1, h2, ?_, ?_⟩
  · intro k hk
    obtain ⟨N, C, h⟩ := h3 k hk
    rw [show n - 1 + 1 - k = n - k by omega] at h
    exact ⟨N, C, h⟩
  · refine h4.imp ?_
    intro X Y h a ha c hc hs
    rcases h a ha c hc with hd | hd
    · obtain ⟨g1, g2, g3, g4⟩ := hd
      omega
    · exact hd

theorem parts_layout (n : ℕ) (hn : 2 ≤ n) (b : Bool) (d : ℕ)
    (hd : ∀ c, (∃ a ∈ parts n b (n - 1) 0 0, a.column = c) ↔ c < d) :
    CascadeLayout n (n * (n - 1) / 2) d (parts n b (n - 1) 0 0) where
  count := by rw [parts_length, ← tri_eq]; omega
  ids := by
    rw [← tri_eq, Nat.mul_div_cancel_left _ (by norm_num), List.range_eq_range']
    exact parts_ids n b (n - 1) 0 0
  rails a ha := by have := parts_rails ha; omega
  columns := hd
  disjoint := parts_disjoint n b (n - 1) 0 0 (by omega)

theorem cascade_nodes {style : PhaseStyle} (hs : style = .top ∨ style = .bottom) {eps : ℝ} (heps : 0 ≤ eps)
    (n : ℕ) (b : Bool) (u : Matrix (Fin n) (Fin n) ℂ) :
    ∃ M P, cascade eps style 0 n b u = some (M, P) ∧ M.nodes = parts n b (n - 1) 0 0 := by
  obtain ⟨st, th, ph, g, e1, e2, _⟩ := cascadeLoop_spec hs heps n b (n - 1)
    ⟨[], [], [], [], 0, 0, fun r c => if h : r < n ∧ c < n then (starRingEnd ℂ) (u ⟨c, h.2⟩ ⟨r, h.1⟩) else 0⟩ rfl rfl
  rw [downTo] at e1
  simp [cascade, e1, errorMesh, e2]

/-- C17, triangular mesh: `n(n-1)/2` nodes in exactly `2n-3` columns. -/
theorem C17_triangular_layout (eps : ℝ) (heps : 0 ≤ eps) (style : PhaseStyle) (hs : style = .top ∨ style = .bottom)
    (n : ℕ) (hn : 2 ≤ n) (u : Matrix (Fin n) (Fin n) ℂ) :
    ∃ M P, cascade eps style 0 n false u = some (M, P) ∧
      CascadeLayout n (n * (n - 1) / 2) (2 * n - 3) M.nodes ∧ CascadeOrder n false M.nodes := by
  obtain ⟨M, P, h1, h2⟩ := cascade_nodes hs heps n false u
  refine ⟨M, P, h1, ?_, h2 ▸ parts_cascadeOrder n hn false⟩
  rw [h2]
  refine parts_layout n hn false _ fun c => ?_
  rw [parts_columns_chain n (n - 1) 0 0 c (by omega)]
  omega

/-- C17, tree cascade: the number of columns is `∑ ⌈log₂ i⌉` over `i = 2, ..., n`. -/
theorem C17_tree_cascade_layout (eps : ℝ) (heps : 0 ≤ eps) (style : PhaseStyle)
    (hs : style = .top ∨ style = .bottom) (n : ℕ) (hn : 2 ≤ n) (u : Matrix (Fin n) (Fin n) ℂ) :
    ∃ M P, cascade eps style 0 n true u = some (M, P) ∧
      CascadeLayout n (n * (n - 1) / 2) (∑ i ∈ Finset.Icc 2 n, Nat.clog 2 i) M.nodes ∧
      CascadeOrder n true M.nodes := by
  obtain ⟨M, P, h1, h2⟩ := cascade_nodes hs heps n true u
  refine ⟨M, P, h1, ?_, h2 ▸ parts_cascadeOrder n hn true⟩
  rw [h2]
  refine parts_layout n hn true _ fun c => ?_
  rw [parts_columns_balanced n (n - 1) 0 0 c]
  have : ∀ k, depthSum k = ∑ i ∈ Finset.Icc 2 (k + 1), Nat.clog 2 i := by
    intro k
    induction k with
    | zero => rfl
    | succ k ih => rw [depthSum, ih, ← Finset.sum_Icc_succ_top (by omega)]
  rw [this, show n - 1 + 1 = n by omega]
  omega

/-- Non-vacuity: the layout of the 4-rail triangle has 6 nodes in 5 columns. -/
example : CascadeLayout 4 6 5 (parts 4 false 3 0 0) ∧ (parts 4 false 3 0 0).map Node.column = [2, 1, 0, 3, 2, 4] :=
  ⟨parts_layout 4 (by norm_num) false 5 fun c => by
    rw [parts_columns_chain 4 (4 - 1) 0 0 c (by omega)]; omega, by decide +kernel⟩

end Simphox
