import Mathlib.Analysis.SpecialFunctions.Pow.Real
import Verif.MeshProps
import Verif.TreeProps

/-!
# Insertion loss of a mesh (C161)
-/

namespace Simphox

open Matrix Complex

/-! ### Specification -/

/-- The power that is left of one unit after `L` decibels of loss. -/
noncomputable def afterDb (L : ℝ) : ℝ := (10 : ℝ) ^ (-L / 10)

/-- The total loss in dB (a number `>= 0` for lossy nodes) of one node: minus the two entries the mesh
uses for it (forward.py:205-211; the code's sign convention is negative for attenuation). -/
noncomputable def Mesh.nodeLoss (M : Mesh) (a : Node) : ℝ :=
  -((M.losses.getD a.id (0, 0)).1 + (M.losses.getD a.id (0, 0)).2)

/-! ### Lemmas -/

theorem afterDb_pos (L : ℝ) : 0 < afterDb L := Real.rpow_pos_of_pos (by norm_num) _

theorem afterDb_add (a b : ℝ) : afterDb (a + b) = afterDb a * afterDb b := by
  unfold afterDb
  rw [← Real.rpow_add (by norm_num)]
  congr 1; ring

theorem afterDb_zero : afterDb 0 = 1 := by simp [afterDb]

theorem afterDb_anti {a b : ℝ} (h : a ≤ b) : afterDb b ≤ afterDb a :=
  Real.rpow_le_rpow_of_exponent_le (by norm_num) (by linarith)

theorem afterDb_le_one {a : ℝ} (h : 0 ≤ a) : afterDb a ≤ 1 := by
  rw [← afterDb_zero]; exact afterDb_anti h

theorem shifter_afterDb (x l : ℝ) : ‖shifter x l‖ ^ 2 = afterDb (-l) := by
  rw [norm_shifter, ← Real.exp_nat_mul]
  unfold afterDb
  rw [Real.rpow_def_of_pos (by norm_num)]
  congr 1
  push_cast; ring

/-- At least the fraction `q` of the power of every input comes out. -/
def Keeps (q : ℝ) {n : ℕ} (A : Matrix (Fin n) (Fin n) ℂ) : Prop :=
  ∀ v : Fin n → ℂ, q * ∑ i, ‖v i‖ ^ 2 ≤ ∑ i, ‖A.mulVec v i‖ ^ 2

theorem Keeps.mul {p q : ℝ} (hp : 0 ≤ p) {n : ℕ} {A B : Matrix (Fin n) (Fin n) ℂ} (hA : Keeps p A) (hB : Keeps q B) :
    Keeps (p * q) (A * B) := by
  intro v
  rw [← mulVec_mulVec, mul_assoc]
  exact (mul_le_mul_of_nonneg_left (hB v) hp).trans (hA _)

theorem unitary_keeps {n : ℕ} {A : Matrix (Fin n) (Fin n) ℂ} (hA : A ∈ unitaryGroup (Fin n) ℂ) : Keeps 1 A := by
  intro v; rw [one_mul, unitary_power hA v]

theorem diag2_keeps {q : ℝ} {a b : ℂ} (ha : q ≤ ‖a‖ ^ 2) (hb : q ≤ ‖b‖ ^ 2) : Keeps q (diag2 a b) := by
  intro v
  rw [diag2_eq, Finset.mul_sum]
  refine Finset.sum_le_sum fun i _ => ?_
  rw [mulVec_diagonal, norm_mul, mul_pow]
  refine mul_le_mul_of_nonneg_right ?_ (by positivity)
  fin_cases i
  · exact ha
  · exact hb

theorem mziElements_keeps (style : PhaseStyle) (back : Bool) (el er : ℝ) {ll lr : ℝ}
    (hl : ll ≤ 0) (hr : lr ≤ 0) (theta phi : ℝ) :
    Keeps (afterDb (-(ll + lr))) (mziElements style back el er ll lr theta phi).mat := by
  have h1 : afterDb (-ll) ≤ 1 := afterDb_le_one (by linarith)
  have h2 : afterDb (-lr) ≤ 1 := afterDb_le_one (by linarith)
  have hcore : Keeps (afterDb (-ll)) (mziCore style el er ll theta) := by
    unfold mziCore
    have hd : Keeps (afterDb (-ll)) (match style with
      | .bottom => diag2 1 (shifter theta ll)
      | _ => diag2 (shifter theta ll) 1) := by
      cases style <;> apply diag2_keeps <;> simp [shifter_afterDb, h1]
    have := ((unitary_keeps (coupler_unitary (Real.pi / 4 + er))).mul zero_le_one hd).mul
      (by rw [one_mul]; exact (afterDb_pos _).le) (unitary_keeps (coupler_unitary (Real.pi / 4 + el)))
    rw [one_mul, mul_one] at this
    exact this
  have houter : Keeps (afterDb (-lr)) (mziOuter style back lr theta phi) := by
    cases style <;> cases back <;> apply diag2_keeps <;> simp [shifter_afterDb, h2]
  have hq : afterDb (-(ll + lr)) = afterDb (-ll) * afterDb (-lr) := by rw [← afterDb_add]; congr 1; ring
  rw [mziElements_factor, hq]
  split_ifs
  · rw [mul_comm]
    exact houter.mul (afterDb_pos _).le hcore
  · exact hcore.mul (afterDb_pos _).le houter

/-- A column of nodes on different rails loses no more than its worst node: weights `q` on the rails that are still to be processed, 1 on the others. -/
theorem column_weight {n : ℕ} {el : ℕ → Elements} {q : ℝ} (nodes : List Node)
    (hr : ∀ a ∈ nodes, a.top < n ∧ a.bottom < n ∧ a.top ≠ a.bottom)
    (hd : nodes.Pairwise RailDisjoint)
    (hel : ∀ a ∈ nodes, Keeps q (el a.id).mat) (v : ℕ → ℂ) (wt : ℕ → ℝ) (hwt : ∀ r, wt r = q ∨ wt r = 1)
    (hun : ∀ a ∈ nodes, wt a.top = q ∧ wt a.bottom = q) (hq1 : q ≤ 1) :
    ∑ r ∈ Finset.range n, wt r * ‖v r‖ ^ 2 ≤ ∑ r ∈ Finset.range n, ‖seqApply el nodes v r‖ ^ 2 := by
  induction nodes generalizing v wt with
  | nil =>
    refine Finset.sum_le_sum fun r _ => ?_
    change _ ≤ ‖v r‖ ^ 2
    rcases hwt r with h | h <;> rw [h]
    · have : 0 ≤ ‖v r‖ ^ 2 := by positivity
      nlinarith
    · rw [one_mul]
  | cons a l ih =>
    obtain ⟨ht, hb, hne⟩ := hr a List.mem_cons_self
    obtain ⟨ha, hl⟩ := List.pairwise_cons.1 hd
    set wt' : ℕ → ℝ := fun r => if r = a.top ∨ r = a.bottom then 1 else wt r with hwt'
    refine le_trans ?_ (ih (fun b hb => hr b (List.mem_cons_of_mem _ hb)) hl
      (fun b hb => hel b (List.mem_cons_of_mem _ hb)) (nodeAct (el a.id) a.top a.bottom v) wt' ?_ ?_)
    · have split : ∀ f : ℕ → ℝ, ∑ r ∈ Finset.range n, f r = f a.top + (f a.bottom +
          ∑ r ∈ ((Finset.range n).erase a.top).erase a.bottom, f r) := by
        intro f
        rw [Finset.add_sum_erase _ _ (Finset.mem_erase.2 ⟨hne.symm, Finset.mem_range.2 hb⟩),
          Finset.add_sum_erase _ _ (Finset.mem_range.2 ht)]
      rw [split, split fun r => wt' r * ‖nodeAct (el a.id) a.top a.bottom v r‖ ^ 2]
      have hrest : ∑ r ∈ ((Finset.range n).erase a.top).erase a.bottom, wt' r * ‖nodeAct (el a.id) a.top a.bottom v r‖ ^ 2
          = ∑ r ∈ ((Finset.range n).erase a.top).erase a.bottom, wt r * ‖v r‖ ^ 2 := by
        refine Finset.sum_congr rfl fun r hr => ?_
        have h1 := (Finset.mem_erase.1 hr).1
        have h2 := (Finset.mem_erase.1 (Finset.mem_erase.1 hr).2).1
        rw [hwt', nodeAct]
        simp only [h1, h2, or_self, if_false]
      rw [hrest]
      have key := hel a List.mem_cons_self ![v a.top, v a.bottom]
      simp only [Fin.sum_univ_two, mulVec, dotProduct, cons_val_zero, cons_val_one, Elements.mat, Matrix.of_apply,
        cons_val'] at key
      have e1 : wt' a.top = 1 := by rw [hwt']; simp
      have e2 : wt' a.bottom = 1 := by rw [hwt']; simp
      have e3 : nodeAct (el a.id) a.top a.bottom v a.top = (el a.id).t11 * v a.top + (el a.id).t21 * v a.bottom := by simp [nodeAct]
      have e4 : nodeAct (el a.id) a.top a.bottom v a.bottom = (el a.id).t12 * v a.top + (el a.id).t22 * v a.bottom := by
        simp [nodeAct, hne.symm]
      rw [(hun a List.mem_cons_self).1, (hun a List.mem_cons_self).2, e1, e2, e3, e4]
      linarith
    · intro r
      rw [hwt']
      dsimp only
      split_ifs
      · right; rfl
      · exact hwt r
    · intro b hb
      have hdis := ha b hb
      have hub := hun b (List.mem_cons_of_mem _ hb)
      unfold RailDisjoint at hdis
      rw [hwt']
      dsimp only
      rw [if_neg (by omega), if_neg (by omega)]
      exact hub

theorem column_keeps {n : ℕ} {el : ℕ → Elements} {q : ℝ} (nodes : List Node)
    (hr : ∀ a ∈ nodes, a.top < n ∧ a.bottom < n ∧ a.top ≠ a.bottom) (hd : nodes.Pairwise RailDisjoint)
    (hel : ∀ a ∈ nodes, Keeps q (el a.id).mat) (hq1 : q ≤ 1) (v : ℕ → ℂ) :
    q * ∑ r ∈ Finset.range n, ‖v r‖ ^ 2 ≤ ∑ r ∈ Finset.range n, ‖seqApply el nodes v r‖ ^ 2 := by
  rw [Finset.mul_sum]
  exact column_weight nodes hr hd hel v (fun _ => q) (fun _ => Or.inl rfl) (fun _ _ => ⟨rfl, rfl⟩) hq1

theorem columns_keep {n : ℕ} {M : Mesh} (hM : M.WellFormed n) {el : ℕ → Elements} (Lc : ℕ → ℝ) (hL : ∀ k, 0 ≤ Lc k)
    (hel : ∀ a ∈ M.nodes, Keeps (afterDb (Lc a.column)) (el a.id).mat) (cols : List ℕ) (v : ℕ → ℂ) :
    afterDb (cols.map Lc).sum * ∑ r ∈ Finset.range n, ‖v r‖ ^ 2
      ≤ ∑ r ∈ Finset.range n, ‖columnsApply el M.nodes cols v r‖ ^ 2 := by
  unfold columnsApply
  induction cols generalizing v with
  | nil => simp [afterDb_zero]
  | cons k cols ih =>
    rw [List.foldl_cons, List.map_cons, List.sum_cons, add_comm, afterDb_add, mul_assoc]
    refine le_trans (mul_le_mul_of_nonneg_left ?_ (afterDb_pos _).le) (ih _)
    rw [parallelTransform_eq_seq (hM.goodColumn k)]
    refine column_keeps _ (fun a ha => hM.rails a (mem_columnNodes.1 ha).1) (hM.goodColumn k).pw (fun a ha => ?_)
      (afterDb_le_one (hL k)) v
    obtain ⟨h1, h2⟩ := mem_columnNodes.1 ha
    rw [← h2]
    exact hel a h1

/-! ### C161 -/

/-- C161: if the nodes of column `k` of a mesh have at most `Lc k` dB of loss each (no node amplifies),
the mesh as a whole has at most `sum over the columns of Lc k` dB of insertion loss, for every input and
all phases, coupler errors and phase styles, forward and backward. -/
theorem C161_insertion_loss (n : ℕ) (M : Mesh) (hM : M.WellFormed n)
    (hneg : ∀ p ∈ M.losses, p.1 ≤ 0 ∧ p.2 ≤ 0) (Lc : ℕ → ℝ) (hL : ∀ k, 0 ≤ Lc k)
    (hnode : ∀ a ∈ M.nodes, M.nodeLoss a ≤ Lc a.column) (P : Params) (back : Bool) (v : Fin n → ℂ) :
    afterDb (∑ k ∈ Finset.range (numColumns M.nodes), Lc k) * ∑ i, ‖v i‖ ^ 2
      ≤ ∑ i, ‖(M.matrix n P back).mulVec v i‖ ^ 2 := by
  have hel : ∀ b, ∀ a ∈ M.nodes, Keeps (afterDb (Lc a.column)) (M.elements P b a.id).mat := by
    intro b a ha x
    have : (M.losses.getD a.id (0, 0)).1 ≤ 0 ∧ (M.losses.getD a.id (0, 0)).2 ≤ 0 := by
      by_cases hk : a.id < M.losses.length
      · simpa [List.getD_eq_getElem?_getD, hk] using hneg _ (List.getElem_mem hk)
      · simp [List.getD_eq_getElem?_getD, hk]
    refine le_trans (mul_le_mul_of_nonneg_right (afterDb_anti (hnode a ha))
      (Finset.sum_nonneg fun _ _ => sq_nonneg _)) ?_
    exact mziElements_keeps _ _ _ _ this.1 this.2 _ _ x
  obtain ⟨u, rfl⟩ : ∃ u : ℕ → ℂ, v = restrict n u := by
    refine ⟨fun r => if h : r < n then v ⟨r, h⟩ else 0, ?_⟩
    funext i
    simp [restrict]
  have hrange : ∀ w : ℕ → ℂ, ∑ i, ‖restrict n w i‖ ^ 2 = ∑ r ∈ Finset.range n, ‖w r‖ ^ 2 :=
    fun w => Fin.sum_univ_eq_sum_range (fun r => ‖w r‖ ^ 2) n
  have hgam : ∀ w : ℕ → ℂ, ∑ r ∈ Finset.range n, ‖gammaApply P.gammas w r‖ ^ 2 = ∑ r ∈ Finset.range n, ‖w r‖ ^ 2 := by
    intro w
    refine Finset.sum_congr rfl fun r _ => ?_
    rw [gammaApply, norm_mul, norm_exp_I, one_mul]
  have hsum : ∀ b, ((columnOrder M.nodes b).map Lc).sum = ∑ k ∈ Finset.range (numColumns M.nodes), Lc k := by
    intro b
    have h0 : ∀ m : ℕ, ((List.range m).map Lc).sum = ∑ k ∈ Finset.range m, Lc k := by
      intro m
      induction m with
      | zero => rfl
      | succ m ih => rw [List.range_succ, List.map_append, List.sum_append, ih, Finset.sum_range_succ]; simp
    cases b
    · exact h0 _
    · change ((List.range _).reverse.map Lc).sum = _
      rw [List.map_reverse, List.sum_reverse, h0]
  rw [Mesh.matrix_mulVec hM, hrange, hrange]
  cases back
  · change _ ≤ ∑ r ∈ Finset.range n, ‖gammaApply P.gammas (columnsApply (M.elements P false) M.nodes (columnOrder M.nodes false) u) r‖ ^ 2
    rw [hgam, ← hsum false]
    exact columns_keep hM Lc hL (hel false) _ u
  · change _ ≤ ∑ r ∈ Finset.range n, ‖columnsApply (M.elements P true) M.nodes (columnOrder M.nodes true) (gammaApply P.gammas u) r‖ ^ 2
    rw [← hgam u, ← hsum true]
    exact columns_keep hM Lc hL (hel true) _ _

/-- C161 for one loss bound: with at most `L` dB per node a mesh with `C` columns has at most `C * L` dB. -/
theorem C161_uniform (n : ℕ) (M : Mesh) (hM : M.WellFormed n) (hneg : ∀ p ∈ M.losses, p.1 ≤ 0 ∧ p.2 ≤ 0) (L : ℝ)
    (hL : 0 ≤ L) (hnode : ∀ a ∈ M.nodes, M.nodeLoss a ≤ L) (P : Params) (back : Bool) (v : Fin n → ℂ) :
    afterDb (numColumns M.nodes * L) * ∑ i, ‖v i‖ ^ 2 ≤ ∑ i, ‖(M.matrix n P back).mulVec v i‖ ^ 2 := by
  have h := C161_insertion_loss n M hM hneg (fun _ => L) (fun _ => hL) hnode P back v
  rw [Finset.sum_const, Finset.card_range, nsmul_eq_mul] at h
  exact h

/-- C161 for the balanced tree on `n` inputs: `ceil(log2 n) * L` dB, against `(n - 1) * L` for the chain. -/
theorem C161_tree (n : ℕ) (hn : 2 ≤ n) (balanced : Bool) (M : Mesh) (hnodes : M.nodes = tree n n balanced) (hM : M.WellFormed n)
    (hneg : ∀ p ∈ M.losses, p.1 ≤ 0 ∧ p.2 ≤ 0) (L : ℝ) (hL : 0 ≤ L) (hnode : ∀ a ∈ M.nodes, M.nodeLoss a ≤ L)
    (P : Params) (back : Bool) (v : Fin n → ℂ) :
    afterDb ((if balanced then Nat.clog 2 n else n - 1 : ℕ) * L) * ∑ i, ‖v i‖ ^ 2
      ≤ ∑ i, ‖(M.matrix n P back).mulVec v i‖ ^ 2 := by
  have h := C161_uniform n M hM hneg L hL hnode P back v
  rw [hnodes] at h
  cases balanced
  · rw [(C03_tree_depth n hn).2.1] at h; exact h
  · rw [(C03_tree_depth n hn).1] at h; exact h

/-- C161, the bound is attained: a node whose left coupler has error `-pi/4` loses exactly its two losses
for light entering at the top. -/
theorem C161_sharp (er ll lr theta phi : ℝ) :
    ∑ i, ‖((singleMesh .top (-(Real.pi / 4), er) (ll, lr)).matrix 2 (singleParams theta phi) false).mulVec ![1, 0] i‖ ^ 2
      = afterDb ((singleMesh .top (-(Real.pi / 4), er) (ll, lr)).nodeLoss ⟨0, 0, 1, 2, 1, 1, 0⟩) * ∑ i, ‖(![1, 0] : Fin 2 → ℂ) i‖ ^ 2 := by
  have hloss : (singleMesh .top (-(Real.pi / 4), er) (ll, lr)).nodeLoss ⟨0, 0, 1, 2, 1, 1, 0⟩ = -ll + -lr := by
    change -(ll + lr) = _; ring
  have hc : coupler (Real.pi / 4 + -(Real.pi / 4)) = 1 := by
    rw [add_neg_cancel, coupler]
    ext i j; fin_cases i <;> fin_cases j <;> simp
  rw [singleMesh_matrix, mziElements_factor, hloss, afterDb_add, ← shifter_afterDb theta, ← shifter_afterDb phi]
  simp only [outerLast, Bool.false_and, Bool.false_eq_true, if_false, mziCore, hc, mul_one, mziOuter]
  rw [mul_assoc, ← mulVec_mulVec, unitary_power (coupler_unitary _)]
  simp [diag2, mulVec, dotProduct, Fin.sum_univ_two, mul_pow]

/-- Nontrivial case: a lossy balanced tree on 5 rails with 0.3 dB per node. -/
example : let M : Mesh := { idealMesh (tree 5 5 true) .top with losses := (tree 5 5 true).map fun _ => (-0.1, -0.2) }
    M.WellFormed 5 ∧ (∀ p ∈ M.losses, p.1 ≤ 0 ∧ p.2 ≤ 0) ∧ ∀ a ∈ M.nodes, M.nodeLoss a ≤ 0.3 := by
  intro M
  have h := tree_wellFormed 5 (by norm_num) true .top
  have hlen : M.losses.length = M.nodes.length := by simp [M, idealMesh]
  refine ⟨⟨h.errors_length, hlen, h.ids, h.rails, h.disjoint⟩, ?_, ?_⟩
  · intro p hp
    obtain ⟨a, _, rfl⟩ := List.mem_map.1 hp
    norm_num
  · intro a ha
    have hid : a.id < M.losses.length := by rw [hlen]; exact h.ids a ha
    unfold Mesh.nodeLoss
    rw [List.getD_eq_getElem?_getD, List.getElem?_eq_getElem hid, Option.getD_some]
    simp only [M, List.getElem_map]
    norm_num

end Simphox
