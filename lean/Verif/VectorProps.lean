import Verif.VectorLemmas

/-! # Vector units (C14) -/

namespace Simphox

open Matrix Complex

theorem errorMesh_elements (nodes : List Node) (e : ℝ) (style : PhaseStyle) (P : Params) {k : ℕ}
    (hk : k < nodes.length) :
    (errorMesh nodes e style).elements P false k = programmedElements style e P k := by
  simp [Mesh.elements, errorMesh, programmedElements, List.getD_eq_getElem?_getD, hk]

theorem errorMesh_wellFormed {nodes : List Node} (e : ℝ) (style : PhaseStyle) {n : ℕ}
    (hid : ∀ a ∈ nodes, a.id < nodes.length)
    (hr : ∀ a ∈ nodes, a.top < n ∧ a.bottom < n ∧ a.top ≠ a.bottom) (hd : ColumnsDisjoint nodes) :
    (errorMesh nodes e style).WellFormed n :=
  ⟨by simp [errorMesh], by simp [errorMesh], hid, hr, hd⟩

theorem errorMesh_lossless (nodes : List Node) (e : ℝ) (style : PhaseStyle) : (errorMesh nodes e style).Lossless := by
  intro p hp
  simp only [errorMesh, List.mem_map] at hp
  obtain ⟨_, _, rfl⟩ := hp
  rfl

theorem seqApply_congr {el el' : ℕ → Elements} (nodes : List Node) (h : ∀ a ∈ nodes, el a.id = el' a.id)
    (v : ℕ → ℂ) : seqApply el nodes v = seqApply el' nodes v := by
  unfold seqApply
  induction nodes generalizing v with
  | nil => rfl
  | cons a l ih =>
    rw [List.foldl_cons, List.foldl_cons, h a (by simp), ih (fun b hb => h b (by simp [hb]))]

/-- `vector_unit` with equal errors `e`, all ratios reachable: the full statement behind C14. -/
theorem vectorUnit_spec {style : PhaseStyle} (hs : style = .top ∨ style = .bottom) {eps : ℝ} (heps : 0 ≤ eps)
    (e : ℝ) (he : Real.cos (2 * e) ≠ 0) (n : ℕ) (hn : 2 ≤ n) (balanced : Bool) (v : ℕ → ℂ)
    (hr : ReachableRun eps style e 0 (tree n n balanced) fun r _ => v r) :
    ∃ M P w, vectorUnit eps style e n balanced v = some (M, P, w) ∧ M.WellFormed n ∧ M.Lossless ∧
      M.style = style ∧
      (M.matrix n P false).mulVec (restrict n v) = restrict n (gammaApply P.gammas w) ∧
      (∀ r, r + 1 < n → ‖w r‖ ≤ Real.sqrt eps) ∧
      P.gammas (n - 1) = -arg (w (n - 1)) ∧ ∀ r, r ≠ n - 1 → P.gammas r = 0 := by
  obtain ⟨P, w, h1, h2, h3, h4, h5⟩ := programVectorUnit_spec hs heps e he n n 0 hn balanced (fun r _ => v r) hr
  have hwf : (errorMesh (tree n n balanced) e style).WellFormed n := by
    refine errorMesh_wellFormed e style ?_ ?_ (tree_disjoint n n balanced)
    · intro a ha
      have : a.id ∈ (tree n n balanced).map Node.id := List.mem_map_of_mem ha
      rw [(tree_ids n n balanced).mem_iff, List.mem_range] at this
      rw [tree_length]; exact this
    · intro a ha
      have := tree_rails hn balanced ha
      omega
  refine ⟨errorMesh (tree n n balanced) e style, P, fun r => w r 0, by simp [vectorUnit, h1], hwf,
    errorMesh_lossless _ _ _, rfl, ?_, h3, h4, h5⟩
  rw [Mesh.matrix_mulVec hwf]
  simp only [Mesh.apply, Bool.false_eq_true, if_false]
  rw [columnsApply_eq_seq hwf.goodColumn]
  congr 2
  rw [h2 0]
  refine seqApply_congr _ ?_ v
  intro a ha
  apply errorMesh_elements
  exact hwf.ids a (mem_executionOrder.1 ha)

/-- Specification of C14: `out` carries `‖v‖` on the last rail, up to leakage of at most `√ε` on each
other rail; the last entry is real and nonnegative. -/
structure RoutesToLast (n : ℕ) (eps : ℝ) (v out : Fin n → ℂ) : Prop where
  dark : ∀ r : Fin n, r.val + 1 < n → ‖out r‖ ≤ Real.sqrt eps
  last_real : ∀ r : Fin n, r.val + 1 = n → (out r).im = 0 ∧ 0 ≤ (out r).re
  last_le : ∀ r : Fin n, r.val + 1 = n → (out r).re ^ 2 ≤ ∑ i, ‖v i‖ ^ 2
  last_ge : ∀ r : Fin n, r.val + 1 = n → ∑ i, ‖v i‖ ^ 2 - (n - 1) * eps ≤ (out r).re ^ 2

theorem exp_neg_arg_mul (z : ℂ) : exp (I * ((-arg z : ℝ) : ℂ)) * z = ‖z‖ := by
  conv_lhs => rw [← norm_mul_exp_arg z]
  have : arg ((‖z‖ : ℂ) * exp (I * arg z)) = arg z := by rw [norm_mul_exp_arg]
  rw [this, mul_comm, mul_assoc, ← exp_add]
  push_cast
  simp

theorem vectorUnit_routes {style : PhaseStyle} (hs : style = .top ∨ style = .bottom) {eps : ℝ} (heps : 0 ≤ eps)
    (e : ℝ) (he : Real.cos (2 * e) ≠ 0) (n : ℕ) (hn : 2 ≤ n) (balanced : Bool) (v : ℕ → ℂ)
    (hr : ReachableRun eps style e 0 (tree n n balanced) fun r _ => v r) :
    ∃ M P w, vectorUnit eps style e n balanced v = some (M, P, w) ∧ M.style = style ∧
      (M.matrix n P false).mulVec (restrict n v) = restrict n (gammaApply P.gammas w) ∧
      RoutesToLast n eps (restrict n v) ((M.matrix n P false).mulVec (restrict n v)) := by
  obtain ⟨M, P, w, h1, hwf, hl, hst, h2, h3, h4, h5⟩ := vectorUnit_spec hs heps e he n hn balanced v hr
  refine ⟨M, P, w, h1, hst, h2, ?_⟩
  set out := (M.matrix n P false).mulVec (restrict n v) with hout
  have hpow : ∑ i, ‖out i‖ ^ 2 = ∑ i, ‖restrict n v i‖ ^ 2 :=
    unitary_power (C06_lossless_unitary n M hwf hl P false) _
  have hlast : ∀ r : Fin n, r.val + 1 = n → out r = ‖w (n - 1)‖ := by
    intro r hr
    rw [h2]
    have : r.val = n - 1 := by omega
    simp only [restrict, gammaApply, this, h4]
    exact exp_neg_arg_mul _
  have hdark : ∀ r : Fin n, r.val + 1 < n → ‖out r‖ ≤ Real.sqrt eps := by
    intro r hr
    rw [h2]
    simp only [restrict, gammaApply, norm_mul, norm_exp_I, one_mul]
    exact h3 r.val hr
  refine ⟨hdark, ?_, ?_, ?_⟩
  · intro r hr
    rw [hlast r hr]; simp
  · intro r hr
    have : (out r).re ^ 2 ≤ ‖out r‖ ^ 2 := by
      rw [← sq_abs]; exact pow_le_pow_left₀ (abs_nonneg _) (abs_re_le_norm _) 2
    refine this.trans (hpow ▸ ?_)
    exact Finset.single_le_sum (f := fun i => ‖out i‖ ^ 2) (fun i _ => by positivity) (Finset.mem_univ r)
  · intro r hr
    have h6 : (out r).re ^ 2 = ‖out r‖ ^ 2 := by rw [hlast r hr]; simp
    rw [h6, ← hpow, ← Finset.add_sum_erase _ _ (Finset.mem_univ r)]
    have : ∑ i ∈ Finset.univ.erase r, ‖out i‖ ^ 2 ≤ ∑ i ∈ Finset.univ.erase r, eps := by
      apply Finset.sum_le_sum
      intro i hi
      have hne : i ≠ r := (Finset.mem_erase.1 hi).1
      have := hdark i (by have := i.isLt; have : i.val ≠ r.val := fun h => hne (Fin.ext h); omega)
      calc ‖out i‖ ^ 2 ≤ Real.sqrt eps ^ 2 := pow_le_pow_left₀ (norm_nonneg _) this 2
        _ = eps := Real.sq_sqrt heps
    rw [Finset.sum_const, Finset.card_erase_of_mem (Finset.mem_univ r), Finset.card_univ, Fintype.card_fin,
      nsmul_eq_mul, Nat.cast_sub (by omega), Nat.cast_one] at this
    linarith

/-- C14: `vector_unit(v, balanced, phase_style)` with ideal couplers succeeds for TOP and BOTTOM, for
every vector `v` of length `n ≥ 2` and both shapes; the mesh it returns routes `v` to the last rail, and
the vector it returns is the mesh's output before the output phases. `eps` is `np.spacing(1)`. -/
theorem C14_vector_unit (eps : ℝ) (heps : 0 ≤ eps) (style : PhaseStyle) (hs : style = .top ∨ style = .bottom)
    (n : ℕ) (hn : 2 ≤ n) (balanced : Bool) (v : ℕ → ℂ) :
    ∃ M P w, vectorUnit eps style 0 n balanced v = some (M, P, w) ∧ M.style = style ∧
      (M.matrix n P false).mulVec (restrict n v) = restrict n (gammaApply P.gammas w) ∧
      RoutesToLast n eps (restrict n v) ((M.matrix n P false).mulVec (restrict n v)) :=
  vectorUnit_routes hs heps 0 (by simp) n hn balanced v (reachableRun_ideal heps style 0 _ _)

/-- C14 without the regulariser: exactly `‖v‖` on the last rail, zero elsewhere. -/
theorem C14_vector_unit_exact (style : PhaseStyle) (hs : style = .top ∨ style = .bottom)
    (n : ℕ) (hn : 2 ≤ n) (balanced : Bool) (v : ℕ → ℂ) :
    ∃ M P w, vectorUnit 0 style 0 n balanced v = some (M, P, w) ∧
      (M.matrix n P false).mulVec (restrict n v) =
        fun r => if r.val + 1 = n then (Real.sqrt (∑ i, ‖restrict n v i‖ ^ 2) : ℂ) else 0 := by
  obtain ⟨M, P, w, h1, _, _, h⟩ := C14_vector_unit 0 le_rfl style hs n hn balanced v
  refine ⟨M, P, w, h1, ?_⟩
  funext r
  by_cases hr : r.val + 1 = n
  · rw [if_pos hr]
    have hre := h.last_real r hr
    have h2 := h.last_le r hr
    have h3 := h.last_ge r hr
    simp only [mul_zero, sub_zero] at h3
    have : (((M.matrix n P false).mulVec (restrict n v)) r).re = Real.sqrt (∑ i, ‖restrict n v i‖ ^ 2) := by
      rw [le_antisymm h3 h2, Real.sqrt_sq hre.2]
    apply Complex.ext
    · rw [this, ofReal_re]
    · rw [hre.1, ofReal_im]
  · rw [if_neg hr]
    have := h.dark r (by have := r.isLt; omega)
    rw [Real.sqrt_zero] at this
    exact norm_le_zero_iff.1 this

/-- C14 with equal splitting errors `e ≠ 0` everywhere (`bs_error_mean_std=(e, 0)`): the same holds as
long as no node is asked for a ratio above `cos² 2e` (see `ReachableRun`). -/
theorem C14_vector_unit_errors (eps : ℝ) (heps : 0 ≤ eps) (style : PhaseStyle) (hs : style = .top ∨ style = .bottom)
    (e : ℝ) (he : Real.cos (2 * e) ≠ 0) (n : ℕ) (hn : 2 ≤ n) (balanced : Bool) (v : ℕ → ℂ)
    (hr : ReachableRun eps style e 0 (tree n n balanced) fun r _ => v r) :
    ∃ M P w, vectorUnit eps style e n balanced v = some (M, P, w) ∧
      RoutesToLast n eps (restrict n v) ((M.matrix n P false).mulVec (restrict n v)) := by
  obtain ⟨M, P, w, h1, _, _, h⟩ := vectorUnit_routes hs heps e he n hn balanced v hr
  exact ⟨M, P, w, h1, h⟩

/-- SYMMETRIC vector units raise `NotImplementedError`. -/
theorem C14_symmetric_raises (eps e : ℝ) (n : ℕ) (hn : 2 ≤ n) (balanced : Bool) (v : ℕ → ℂ) :
    vectorUnit eps .symmetric e n balanced v = none := by
  simp [vectorUnit, programVectorUnit_symmetric eps e n n 0 hn balanced]

/-- Non-vacuity of `RoutesToLast`: a vector with power on two rails. -/
example : ∃ M P w, vectorUnit 0 .bottom 0 3 true (fun r => (r : ℂ)) = some (M, P, w) ∧
    ‖((M.matrix 3 P false).mulVec (restrict 3 fun r => (r : ℂ))) 2‖ = Real.sqrt 5 := by
  obtain ⟨M, P, w, h, h2⟩ := C14_vector_unit_exact .bottom (Or.inr rfl) 3 (by norm_num) true (fun r => (r : ℂ))
  refine ⟨M, P, w, h, ?_⟩
  rw [h2]
  have : ∑ i : Fin 3, ‖restrict 3 (fun r => (r : ℂ)) i‖ ^ 2 = 5 := by
    simp [Fin.sum_univ_three, restrict]; norm_num
  rw [this]
  simp [Real.sqrt_nonneg, abs_of_nonneg]

end Simphox
