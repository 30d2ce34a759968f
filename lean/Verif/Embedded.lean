import Verif.CascadeProps
import Verif.Utils

/-! # Vector units inside larger systems, and cascades of several vectors (C152, C153, C154)

`tree`, `vector_unit` take `n_rails` to embed the tree in a larger system; `cascade` is documented for `k` orthonormal
vectors of length `n`. The other modules model the square case (`n_rails = n`, unitary `u`); here the shapes of the arrays
are tracked, because the output phases `gammas` are multiplied by NumPy broadcasting. -/

namespace Simphox

open Matrix Complex

/-- A programmed network as the caller holds it: nodes, `mesh.n`, parameters, and the length of the array `mesh.gammas`
(`ForwardMesh.params` stores what it is given, forward.py:504-506). -/
structure Programmed where
  mesh : Mesh
  rails : ℕ
  params : Params
  gammaLen : ℕ

open Classical in
/-- `network.matrix_fn()(network.params, x)` (forward.py:172-231), one column of the input. `columns` raises `ValueError` on an
empty column (forward.py:152-167, `ForwardMesh([])` fails to unpack the errors, forward.py:735), `idx` and the column loop raise
`IndexError` on rails outside the mesh, and `np.exp(1j * gammas) * outputs.T` broadcasts: the lengths must agree, or one of them
is 1 (meshes have at least two rails, so only the length of `gammas` can be 1). Simplified: node ids are in range. -/
noncomputable def Programmed.evaluate (p : Programmed) (x : ℕ → ℂ) : Except PyError (ℕ → ℂ) :=
  if ∃ k < numColumns p.mesh.nodes, ∀ a ∈ p.mesh.nodes, a.column ≠ k then .error .valueError
  else if ∃ a ∈ p.mesh.nodes, p.rails ≤ a.top ∨ p.rails ≤ a.bottom then .error .indexError
  else if p.gammaLen = p.rails then .ok (p.mesh.apply p.params false x)
  else if p.gammaLen = 1 then .ok (p.mesh.apply { p.params with gammas := fun _ => p.params.gammas 0 } false x)
  else .error .valueError

/-- `tree(n, n_rails, balanced, phase_style)` with parameters `P` (vector.py:76-90): `__post_init__` draws `mesh.n = n_rails`
output phases (forward.py:58). -/
def embeddedTree (style : PhaseStyle) (n N : ℕ) (balanced : Bool) (P : Params) : Programmed :=
  ⟨errorMesh (tree n N balanced) 0 style, N, P, N⟩

/-- `vector_unit(v, n_rails, balanced, phase_style)` with ideal couplers (vector.py:164-188): `_program_vector_unit` returns
`gammas` of length `v.shape[0]` (vector.py:154-158). A tree on fewer than two rails has no nodes, for which the constructor
raises `ValueError`; SYMMETRIC raises `NotImplementedError` (a `RuntimeError`). -/
noncomputable def vectorUnitIn (eps : ℝ) (style : PhaseStyle) (n N : ℕ) (balanced : Bool) (v : ℕ → ℂ) :
    Except PyError (Programmed × (ℕ → ℂ)) :=
  if n < 2 then .error .valueError
  else
    match programVectorUnit eps style 0 n 0 (tree n N balanced) fun r _ => v r with
    | none => .error .runtimeError
    | some (P, w) => .ok (⟨errorMesh (tree n N balanced) 0 style, N, P, n⟩, fun r => w r 0)

/-- `balanced_tree(v)` and `unbalanced_tree(v)` (vector.py:191-226) for a vector: `vector_unit(v.conj().T)[0]`. -/
noncomputable def treeOf (eps : ℝ) (style : PhaseStyle) (n : ℕ) (balanced : Bool) (v : ℕ → ℂ) : Except PyError Programmed := do
  return (← vectorUnitIn eps style n n balanced fun r => (starRingEnd ℂ) (v r)).1

/-- Length of `a[:stop]` for an array with `len` entries (NumPy basic slicing). -/
def sliceLen (len : ℕ) (stop : ℤ) : ℕ := if 0 ≤ stop then min len stop.toNat else len - (-stop).toNat

/-- The loop variables of `cascade` for an array of any shape, with the shape of `w`. -/
structure ShapedState where
  st : CascadeState
  rows : ℕ
  cols : ℕ

/-- One iteration of the loop of `cascade` (matrix.py:43-63) on an array of any shape, `n = n_rails = u.shape[0]`:
`vector_unit(w[:i + 1, :i + 1], ...)` programs a tree with as many inputs as the slice has rows with the last column of the
slice. (`w.squeeze()` is the identity here: two or more rows and columns whenever it is reached.) -/
noncomputable def shapedStep (eps : ℝ) (style : PhaseStyle) (n : ℕ) (balanced : Bool) (S : ShapedState) (i : ℤ) :
    Except PyError ShapedState :=
  let m := sliceLen S.rows (i + 1)
  let k := sliceLen S.cols (i + 1)
  if m < 2 then .error .valueError
  else if k = 0 then .error .indexError
  else
    match programVectorUnit eps style 0 m (k - 1) (tree m n balanced) S.st.w with
    | none => .error .runtimeError
    | some (P, w) => .ok
      { st :=
          { nodes := S.st.nodes ++ (tree m n balanced).map
              (shiftNode S.st.numNodes (if balanced then S.st.numColumns else (2 * ((n : ℤ) - 1 - i)).toNat))
            thetas := S.st.thetas ++ (List.range (m - 1)).map P.thetas
            phis := S.st.phis ++ (List.range (m - 1)).map P.phis
            gammas := P.gammas (m - 1) :: S.st.gammas
            numColumns := S.st.numColumns + numColumns (tree m n balanced)
            numNodes := S.st.numNodes + (tree m n balanced).length
            w := w }
        rows := m
        cols := k }

/-- The loop of `cascade` over the given values of `i`. -/
noncomputable def shapedLoop (eps : ℝ) (style : PhaseStyle) (n : ℕ) (balanced : Bool) : List ℤ → ShapedState → Except PyError ShapedState
  | [], S => .ok S
  | i :: is, S => do shapedLoop eps style n balanced is (← shapedStep eps style n balanced S i)

/-- `cascade(u, balanced, phase_style)` for an array `u` of shape `(R, C)` (matrix.py:17-66), ideal couplers: `i` runs down from
`R - 1` to `R + 1 - C`; an empty list of subunits raises in the constructor; the aggregate has the default style TOP (C16). -/
noncomputable def cascadeAny (eps : ℝ) (style : PhaseStyle) (R C : ℕ) (balanced : Bool) (u : ℕ → ℕ → ℂ) : Except PyError Programmed := do
  let w0 : ℕ → ℕ → ℂ := fun r c => if r < C ∧ c < R then (starRingEnd ℂ) (u c r) else 0
  let S ← shapedLoop eps style R balanced ((List.range (C - 1)).map fun t : ℕ => (R : ℤ) - 1 - t) ⟨⟨[], [], [], [], 0, 0, w0⟩, C, R⟩
  if S.st.nodes = [] then .error .valueError
  else
    let gammas := -arg (S.st.w 0 0) :: S.st.gammas
    return ⟨errorMesh S.st.nodes 0 .top, R,
      ⟨fun k => S.st.thetas.getD k 0, fun k => S.st.phis.getD k 0, fun k => gammas.getD k 0⟩, gammas.length⟩

/-! ### Embedded trees (C152) -/

theorem tree_evaluate_ok {n N : ℕ} (hn : 2 ≤ n) (hN : n ≤ N) (b : Bool) (style : PhaseStyle) :
    (¬ ∃ k < numColumns (errorMesh (tree n N b) 0 style).nodes, ∀ a ∈ (errorMesh (tree n N b) 0 style).nodes, a.column ≠ k) ∧
    ¬ ∃ a ∈ (errorMesh (tree n N b) 0 style).nodes, N ≤ a.top ∨ N ≤ a.bottom := by
  constructor
  · rintro ⟨k, hk, h⟩
    change k < numColumns (tree n N b) at hk
    rw [numColumns_tree hn] at hk
    obtain ⟨a, ha, hak⟩ := (tree_column_iff (R := N) hn b k).2 hk
    exact h a ha hak
  · rintro ⟨a, ha, h⟩
    have := tree_rails hn b (show a ∈ tree n N b from ha)
    omega

theorem evaluate_own (p : Programmed) (h1 : ¬ ∃ k < numColumns p.mesh.nodes, ∀ a ∈ p.mesh.nodes, a.column ≠ k)
    (h2 : ¬ ∃ a ∈ p.mesh.nodes, p.rails ≤ a.top ∨ p.rails ≤ a.bottom) (h3 : p.gammaLen = p.rails) (x : ℕ → ℂ) :
    p.evaluate x = .ok (p.mesh.apply p.params false x) := by
  unfold Programmed.evaluate
  rw [if_neg h1, if_neg h2, if_pos h3]

theorem embedded_wellFormed {n N : ℕ} (hn : 2 ≤ n) (hN : n ≤ N) (b : Bool) (style : PhaseStyle) :
    (errorMesh (tree n N b) 0 style).WellFormed N := by
  refine errorMesh_wellFormed 0 style ?_ ?_ (tree_disjoint n N b)
  · intro a ha
    have : a.id ∈ (tree n N b).map Node.id := List.mem_map_of_mem ha
    rw [(tree_ids n N b).mem_iff, List.mem_range] at this
    rw [tree_length]; exact this
  · intro a ha
    have := tree_rails hn b ha
    omega

theorem embedded_apply {n N : ℕ} (hn : 2 ≤ n) (hN : n ≤ N) (b : Bool) (style : PhaseStyle) (P : Params) (x : ℕ → ℂ) :
    (errorMesh (tree n N b) 0 style).apply P false x
      = gammaApply P.gammas (seqApply (programmedElements style 0 P) (executionOrder (tree n N b)) x) := by
  have hwf := embedded_wellFormed hn hN b style
  simp only [Mesh.apply, Bool.false_eq_true, if_false]
  rw [columnsApply_eq_seq hwf.goodColumn]
  congr 1
  refine seqApply_congr _ ?_ x
  intro a ha
  exact errorMesh_elements _ _ _ _ (hwf.ids a (mem_executionOrder.1 ha))

theorem seqApply_congr_rails (el : ℕ → Elements) (l : List Node) (k : ℕ) (hr : ∀ a ∈ l, a.top < k ∧ a.bottom < k) (x y : ℕ → ℂ)
    (h : ∀ r < k, x r = y r) : ∀ r < k, seqApply el l x r = seqApply el l y r := by
  induction l generalizing x y with
  | nil => exact h
  | cons a l ih =>
    rw [seqApply_cons, seqApply_cons]
    refine ih (fun b hb => hr b (by simp [hb])) _ _ fun r hrk => ?_
    have := hr a (by simp)
    simp only [nodeAct]
    rw [h _ this.1, h _ this.2, h r hrk]

/-- The rail count of a node. -/
def setRails (N : ℕ) (a : Node) : Node := { a with n := N }

theorem treeBalanced_rails (indices : List ℕ) (n N s c : ℕ) :
    treeBalanced indices N s c = (treeBalanced indices n s c).map (setRails N) := by
  induction hl : indices.length using Nat.strong_induction_on generalizing indices s c with
  | _ l ih =>
    rw [treeBalanced, treeBalanced]
    by_cases h : indices.length = 0
    · simp [h]
    · rw [dif_neg h, dif_neg h]
      simp only [List.map_cons, List.map_append]
      congr 1
      rw [← ih _ (by rw [List.length_take]; omega) _ _ _ rfl, ← ih _ (by rw [List.length_drop]; omega) _ _ _ rfl]

theorem numColumns_setRails (l : List Node) (N : ℕ) : numColumns (l.map (setRails N)) = numColumns l := by
  unfold numColumns
  rw [List.map_map]
  simp [Function.comp_def, setRails]

theorem tree_setRails (n R N : ℕ) (b : Bool) : tree n N b = (tree n R b).map (setRails N) := by
  unfold tree
  have h : (if b then treeBalanced (List.range (n - 1)) N 0 0 else treeChain n N)
      = (if b then treeBalanced (List.range (n - 1)) R 0 0 else treeChain n R).map (setRails N) := by
    cases b
    · simp only [Bool.false_eq_true, if_false, treeChain, List.map_map]
      rfl
    · simp only [if_true]
      exact treeBalanced_rails _ _ _ _ _
  rw [h]
  unfold invertColumns
  rw [numColumns_setRails, List.map_map, List.map_map]
  rfl

theorem executionOrder_setRails (l : List Node) (N : ℕ) : executionOrder (l.map (setRails N)) = (executionOrder l).map (setRails N) := by
  unfold executionOrder
  rw [numColumns_setRails, List.map_flatMap]
  congr 1
  funext k
  unfold columnNodes
  rw [List.filter_map]
  rfl

theorem seqApply_setRails (el : ℕ → Elements) (l : List Node) (N : ℕ) (v : ℕ → ℂ) :
    seqApply el (l.map (setRails N)) v = seqApply el l v := by
  induction l generalizing v with
  | nil => rfl
  | cons a l ih => rw [List.map_cons, seqApply_cons, seqApply_cons, ih]; rfl

/-- C152, what holds: `tree(n, n_rails)` with any parameters is the tree on `n` rails on the first `n` rails, and every other rail
only gets its output phase. -/
theorem C152_tree_partial (style : PhaseStyle) (n N : ℕ) (hn : 2 ≤ n) (hN : n ≤ N) (balanced : Bool) (P : Params) (x : ℕ → ℂ) :
    ∃ y z, (embeddedTree style n N balanced P).evaluate x = .ok y ∧ (embeddedTree style n n balanced P).evaluate x = .ok z ∧
      (∀ r < n, y r = z r) ∧ ∀ r, n ≤ r → y r = exp (I * P.gammas r) * x r := by
  obtain ⟨h1, h2⟩ := tree_evaluate_ok hn hN balanced style
  obtain ⟨h3, h4⟩ := tree_evaluate_ok hn le_rfl balanced style
  refine ⟨_, _, evaluate_own (embeddedTree style n N balanced P) h1 h2 rfl x,
    evaluate_own (embeddedTree style n n balanced P) h3 h4 rfl x, ?_, ?_⟩
  · intro r _
    change (errorMesh (tree n N balanced) 0 style).apply P false x r = (errorMesh (tree n n balanced) 0 style).apply P false x r
    rw [embedded_apply hn hN, embedded_apply hn le_rfl, tree_setRails n n N, executionOrder_setRails, seqApply_setRails]
  · intro r hr
    change (errorMesh (tree n N balanced) 0 style).apply P false x r = _
    rw [embedded_apply hn hN]
    simp only [gammaApply]
    rw [seqApply_other]
    intro a ha
    have := tree_rails hn balanced (mem_executionOrder.1 ha)
    omega

/-- Non-vacuity of C152: the tree on 3 rails inside 5. -/
example (P : Params) (x : ℕ → ℂ) : ∃ y z, (embeddedTree .top 3 5 true P).evaluate x = .ok y ∧
    (embeddedTree .top 3 3 true P).evaluate x = .ok z ∧ (∀ r < 3, y r = z r) ∧ ∀ r, 3 ≤ r → y r = exp (I * P.gammas r) * x r :=
  C152_tree_partial .top 3 5 (by norm_num) (by norm_num) true P x

/-- Power of the first `n` entries. -/
noncomputable def powerOf (n : ℕ) (v : ℕ → ℂ) : ℝ := ∑ r : Fin n, ‖v r.val‖ ^ 2

theorem seq_power {n N : ℕ} (hn : 2 ≤ n) (b : Bool) (style : PhaseStyle) (P : Params) (x : ℕ → ℂ) :
    powerOf n (seqApply (programmedElements style 0 P) (executionOrder (tree n N b)) x) = powerOf n x := by
  have hel : ∀ a ∈ executionOrder (tree n N b), (programmedElements style 0 P a.id).mat ∈ unitaryGroup (Fin 2) ℂ :=
    fun a _ => mziElements_unitary style false 0 0 (P.thetas a.id) (P.phis a.id)
  unfold powerOf
  refine seqApply_power (programmedElements style 0 P) (executionOrder (tree n N b)) n ?_ hel x
  intro a ha
  have := tree_rails hn b (mem_executionOrder.1 ha)
  omega

/-- C152, one output phase for all rails: a network with a single entry in `gammas` can be evaluated and multiplies every output by it. -/
theorem C152_one_phase_partial (style : PhaseStyle) (n N : ℕ) (hn : 2 ≤ n) (hN : n ≤ N) (balanced : Bool) (P : Params) (x : ℕ → ℂ) :
    ∃ y z, ({ embeddedTree style n N balanced P with gammaLen := 1 } : Programmed).evaluate x = .ok y ∧
      (embeddedTree style n N balanced { P with gammas := fun _ => 0 }).evaluate x = .ok z ∧ ∀ r, y r = exp (I * P.gammas 0) * z r := by
  obtain ⟨h1, h2⟩ := tree_evaluate_ok hn hN balanced style
  refine ⟨(errorMesh (tree n N balanced) 0 style).apply { P with gammas := fun _ => P.gammas 0 } false x,
    (errorMesh (tree n N balanced) 0 style).apply { P with gammas := fun _ => 0 } false x, ?_,
    evaluate_own (embeddedTree style n N balanced { P with gammas := fun _ => 0 }) h1 h2 rfl x, fun r => ?_⟩
  · unfold Programmed.evaluate
    dsimp only [embeddedTree]
    exact (if_neg h1).trans ((if_neg h2).trans ((if_neg (show (1 : ℕ) ≠ N by omega)).trans (if_pos rfl)))
  · rw [embedded_apply hn hN, embedded_apply hn hN]
    simp only [gammaApply, ofReal_zero, mul_zero, exp_zero, one_mul]
    rfl

/-- C152, what holds: `vector_unit(v, n_rails)` programs the tree so that, with output phases of the right length (`γ`, agreeing
with the programmed phase of rail `n - 1`), light with the amplitudes `v` on the first `n` rails leaves on rail `n - 1` with a
real amplitude, up to `√ε` on every other of these rails, and the other rails keep their light. -/
theorem C152_vector_unit_partial (eps : ℝ) (heps : 0 ≤ eps) (style : PhaseStyle) (hs : style = .top ∨ style = .bottom) (n N : ℕ)
    (hn : 2 ≤ n) (hN : n ≤ N) (balanced : Bool) (v : ℕ → ℂ) :
    ∃ p w, vectorUnitIn eps style n N balanced v = .ok (p, w) ∧
      ∀ γ : ℕ → ℝ, γ (n - 1) = p.params.gammas (n - 1) → ∀ x : ℕ → ℂ, (∀ r < n, x r = v r) →
        ∃ y, ({ p with params := { p.params with gammas := γ }, gammaLen := N } : Programmed).evaluate x = .ok y ∧
          (∀ r, r + 1 < n → ‖y r‖ ≤ Real.sqrt eps) ∧ y (n - 1) = (‖y (n - 1)‖ : ℂ) ∧
          powerOf n v - (n - 1) * eps ≤ ‖y (n - 1)‖ ^ 2 ∧ ‖y (n - 1)‖ ^ 2 ≤ powerOf n v ∧
          ∀ r, n ≤ r → y r = exp (I * γ r) * x r := by
  obtain ⟨P, w, h1, h2, h3, h4, h5⟩ := programVectorUnit_spec hs heps 0 (by simp) n N 0 hn balanced (fun r _ => v r)
    (reachableRun_ideal heps style 0 _ _)
  refine ⟨⟨errorMesh (tree n N balanced) 0 style, N, P, n⟩, fun r => w r 0, ?_, ?_⟩
  · unfold vectorUnitIn
    rw [if_neg (by omega), h1]
  intro γ hγ x hx
  obtain ⟨c1, c2⟩ := tree_evaluate_ok hn hN balanced style
  have hrails : ∀ a ∈ executionOrder (tree n N balanced), a.top < n ∧ a.bottom < n := by
    intro a ha
    have := tree_rails hn balanced (mem_executionOrder.1 ha)
    omega
  have hel : programmedElements style 0 { P with gammas := γ } = programmedElements style 0 P := rfl
  have hw : ∀ r < n, seqApply (programmedElements style 0 P) (executionOrder (tree n N balanced)) x r = w r 0 := by
    intro r hr
    rw [seqApply_congr_rails _ _ n hrails x v hx r hr]
    exact (congrFun (h2 0) r).symm
  refine ⟨_, evaluate_own _ c1 c2 rfl x, ?_⟩
  simp only
  rw [embedded_apply hn hN, hel]
  have hy : ∀ r < n, gammaApply γ (seqApply (programmedElements style 0 P) (executionOrder (tree n N balanced)) x) r
      = exp (I * γ r) * w r 0 := by
    intro r hr
    simp only [gammaApply]
    rw [hw r hr]
  have hlast : gammaApply γ (seqApply (programmedElements style 0 P) (executionOrder (tree n N balanced)) x) (n - 1)
      = (‖w (n - 1) 0‖ : ℂ) := by
    rw [hy _ (by omega), hγ, show P.gammas (n - 1) = _ from h4]
    exact exp_neg_arg_mul _
  have hpow : powerOf n (fun r => w r 0) = powerOf n v := by
    rw [h2 0]
    exact seq_power hn balanced style P v
  simp only [hlast, norm_real, norm_norm]
  have hsplit : powerOf n (fun r => w r 0) = (∑ r : Fin (n - 1), ‖w r.val 0‖ ^ 2) + ‖w (n - 1) 0‖ ^ 2 := by
    obtain ⟨k, rfl⟩ : ∃ k, n = k + 1 := ⟨n - 1, by omega⟩
    unfold powerOf
    rw [Fin.sum_univ_castSucc]
    simp
  have hb : ∑ r : Fin (n - 1), ‖w r.val 0‖ ^ 2 ≤ (n - 1) * eps := by
    calc ∑ r : Fin (n - 1), ‖w r.val 0‖ ^ 2 ≤ ∑ _r : Fin (n - 1), eps := by
          refine Finset.sum_le_sum fun r _ => ?_
          have := h3 r.val (by have := r.isLt; omega)
          calc ‖w r.val 0‖ ^ 2 ≤ Real.sqrt eps ^ 2 := by gcongr
            _ = eps := Real.sq_sqrt heps
      _ = (n - 1) * eps := by
          rw [Finset.sum_const, Finset.card_univ, Fintype.card_fin, nsmul_eq_mul, Nat.cast_sub (by omega), Nat.cast_one]
  have hnn : 0 ≤ ∑ r : Fin (n - 1), ‖w r.val 0‖ ^ 2 := Finset.sum_nonneg fun _ _ => sq_nonneg _
  refine ⟨?_, trivial, by linarith, by linarith, ?_⟩
  · intro r hr
    rw [hy r (by omega), norm_mul, norm_exp_I, one_mul]
    exact h3 r hr
  · intro r hr
    simp only [gammaApply]
    rw [seqApply_other]
    intro a ha
    have := hrails a ha
    omega

/-- **C152, violated**: `vector_unit(v, n_rails)` returns a network that cannot be evaluated on any input unless `n_rails` is the
length of `v`: the output phases have the length of `v` (`ValueError`), or nodes leave the system (`IndexError`). -/
theorem C152_vector_unit_counterexample (eps : ℝ) (heps : 0 ≤ eps) (style : PhaseStyle) (hs : style = .top ∨ style = .bottom) (n N : ℕ)
    (hn : 2 ≤ n) (hN : N ≠ n) (balanced : Bool) (v : ℕ → ℂ) :
    ∃ p w, vectorUnitIn eps style n N balanced v = .ok (p, w) ∧
      ∀ x, p.evaluate x = .error (if N < n then .indexError else .valueError) := by
  obtain ⟨P, w, h1, h2, h3, h4, h5⟩ := programVectorUnit_spec hs heps 0 (by simp) n N 0 hn balanced (fun r _ => v r)
    (reachableRun_ideal heps style 0 _ _)
  refine ⟨⟨errorMesh (tree n N balanced) 0 style, N, P, n⟩, fun r => w r 0, ?_, fun x => ?_⟩
  · unfold vectorUnitIn
    rw [if_neg (by omega), h1]
  have c1 : ¬ ∃ k < numColumns (errorMesh (tree n N balanced) 0 style).nodes,
      ∀ a ∈ (errorMesh (tree n N balanced) 0 style).nodes, a.column ≠ k := by
    rintro ⟨k, hk, h⟩
    change k < numColumns (tree n N balanced) at hk
    rw [numColumns_tree hn] at hk
    obtain ⟨a, ha, hak⟩ := (tree_column_iff (R := N) hn balanced k).2 hk
    exact h a ha hak
  unfold Programmed.evaluate
  simp only
  rw [if_neg c1]
  rcases Nat.lt_or_ge N n with h | h
  · have : n - 2 ∈ (tree n N balanced).map Node.top := (tree_tops n N balanced).mem_iff.2 (List.mem_range.2 (by omega))
    obtain ⟨a, ha, hat⟩ := List.mem_map.1 this
    have hr := tree_rails hn balanced ha
    rw [if_pos ⟨a, ha, by omega⟩, if_pos h]
  · rw [if_neg (tree_evaluate_ok hn h balanced style).2, if_neg (show ¬ n = N by omega), if_neg (show ¬ n = 1 by omega), if_neg (by omega)]

/-! ### Trees as inner products (C154) -/

/-- C154: `balanced_tree(v)` and `unbalanced_tree(v)` compute the inner product with `v`: the light on the last rail is
`Σ v_r x_r` over a real number `s` with `‖v‖² - (n-1) ε ≤ s² ≤ ‖v‖²`, up to `√((n-1) ε) ‖x‖` (`ε = np.spacing(1)`). -/
theorem C154_inner_product (eps : ℝ) (heps : 0 ≤ eps) (style : PhaseStyle) (hs : style = .top ∨ style = .bottom) (n : ℕ) (hn : 2 ≤ n)
    (balanced : Bool) (v : ℕ → ℂ) :
    ∃ p, treeOf eps style n balanced v = .ok p ∧ ∃ s : ℝ, 0 ≤ s ∧ powerOf n v - (n - 1) * eps ≤ s ^ 2 ∧ s ^ 2 ≤ powerOf n v ∧
      ∀ x, ∃ y, p.evaluate x = .ok y ∧ powerOf n y = powerOf n x ∧
        ‖∑ r : Fin n, v r * x r - s * y (n - 1)‖ ≤ Real.sqrt ((n - 1) * eps) * Real.sqrt (powerOf n x) := by
  obtain ⟨p, w, h1, h2⟩ := C152_vector_unit_partial eps heps style hs n n hn le_rfl balanced fun r => (starRingEnd ℂ) (v r)
  have hp : p.rails = n ∧ p.gammaLen = n ∧ p.mesh = errorMesh (tree n n balanced) 0 style := by
    unfold vectorUnitIn at h1
    rw [if_neg (by omega)] at h1
    cases hq : programVectorUnit eps style 0 n 0 (tree n n balanced) (fun r _ => (starRingEnd ℂ) (v r)) with
    | none => rw [hq] at h1; cases h1
    | some q =>
      rw [hq] at h1
      simp only [Except.ok.injEq, Prod.mk.injEq] at h1
      rw [← h1.1]
      exact ⟨rfl, rfl, rfl⟩
  have hpe : ({ p with params := { p.params with gammas := p.params.gammas }, gammaLen := n } : Programmed) = p := by
    obtain ⟨m, r, q, g⟩ := p
    obtain ⟨-, rfl, -⟩ := hp
    rfl
  have hev : ∀ x, p.evaluate x = .ok (p.mesh.apply p.params false x) := by
    intro x
    unfold Programmed.evaluate
    obtain ⟨c1, c2⟩ := tree_evaluate_ok hn le_rfl balanced style
    rw [← hp.2.2] at c1 c2
    rw [if_neg c1, if_neg (by rw [hp.1]; exact c2), if_pos (hp.2.1.trans hp.1.symm)]
  have h3 := h2 p.params.gammas rfl (fun r => (starRingEnd ℂ) (v r)) fun r _ => rfl
  rw [hpe] at h3
  obtain ⟨out, hout, hdark, hreal, hlow, hup, -⟩ := h3
  have hpv : powerOf n (fun r => (starRingEnd ℂ) (v r)) = powerOf n v := by
    unfold powerOf
    simp
  rw [hpv] at hlow hup
  refine ⟨p, ?_, ‖out (n - 1)‖, norm_nonneg _, hlow, hup, fun x => ⟨_, hev x, ?_, ?_⟩⟩
  · unfold treeOf
    rw [h1]; rfl
  · rw [hp.2.2, embedded_apply hn le_rfl]
    rw [← seq_power (N := n) hn balanced style p.params x]
    unfold powerOf
    simp [gammaApply]
  · rw [hev] at hout
    have hout' : out = p.mesh.apply p.params false fun r => (starRingEnd ℂ) (v r) := by
      injection hout with h; exact h.symm
    set y := p.mesh.apply p.params false x with hy
    have hwf : p.mesh.WellFormed n := by rw [hp.2.2]; exact embedded_wellFormed hn le_rfl balanced style
    have hU := C06_lossless_unitary n p.mesh hwf (by rw [hp.2.2]; exact errorMesh_lossless _ _ _) p.params false
    have hinner : ∑ r : Fin n, v r * x r = ∑ r : Fin n, (starRingEnd ℂ) (out r) * y r := by
      have e1 : (p.mesh.matrix n p.params false).mulVec (restrict n fun r => (starRingEnd ℂ) (v r)) = restrict n out := by
        rw [Mesh.matrix_mulVec hwf, hout']
      have e2 : (p.mesh.matrix n p.params false).mulVec (restrict n x) = restrict n y := Mesh.matrix_mulVec hwf _ _ _
      have e3 : star (restrict n out) ⬝ᵥ restrict n y = star (restrict n fun r => (starRingEnd ℂ) (v r)) ⬝ᵥ restrict n x := by
        rw [← e1, ← e2, star_mulVec, ← dotProduct_mulVec, mulVec_mulVec]
        rw [show (p.mesh.matrix n p.params false)ᴴ * p.mesh.matrix n p.params false = 1 from mem_unitaryGroup_iff'.1 hU, one_mulVec]
      simp only [dotProduct, restrict, Pi.star_apply, RCLike.star_def, starRingEnd_self_apply] at e3
      exact e3.symm
    obtain ⟨k, rfl⟩ : ∃ k, n = k + 1 := ⟨n - 1, by omega⟩
    have hsum : ∑ r : Fin (k + 1), v r * x r - ‖out k‖ * y k = ∑ r : Fin k, (starRingEnd ℂ) (out r) * y r := by
      rw [hinner, Fin.sum_univ_castSucc]
      simp only [Fin.val_castSucc, Fin.val_last]
      have : (starRingEnd ℂ) (out k) = (‖out k‖ : ℂ) := by
        have hk : out k = (‖out k‖ : ℂ) := hreal
        conv_lhs => rw [hk]
        exact conj_ofReal _
      rw [this]; ring
    have hpy : powerOf (k + 1) y = powerOf (k + 1) x := by
      rw [hy, hp.2.2, embedded_apply hn le_rfl, ← seq_power (N := k + 1) hn balanced style p.params x]
      unfold powerOf
      simp [gammaApply]
    simp only [Nat.add_sub_cancel]
    rw [hsum]
    have hcs : ‖∑ r : Fin k, (starRingEnd ℂ) (out r) * y r‖ ≤ Real.sqrt (∑ r : Fin k, ‖out r‖ ^ 2) * Real.sqrt (∑ r : Fin k, ‖y r‖ ^ 2) := by
      refine (norm_sum_le _ _).trans ?_
      simp only [norm_mul, RCLike.norm_conj]
      exact Real.sum_mul_le_sqrt_mul_sqrt _ _ _
    refine hcs.trans (mul_le_mul (Real.sqrt_le_sqrt ?_) (Real.sqrt_le_sqrt ?_) (Real.sqrt_nonneg _) (Real.sqrt_nonneg _))
    · calc ∑ r : Fin k, ‖out r‖ ^ 2 ≤ ∑ _r : Fin k, eps := by
            refine Finset.sum_le_sum fun r _ => ?_
            have := hdark r.val (by have := r.isLt; omega)
            calc ‖out r.val‖ ^ 2 ≤ Real.sqrt eps ^ 2 := by gcongr
              _ = eps := Real.sq_sqrt heps
        _ = ((k + 1 : ℕ) - 1 : ℝ) * eps := by simp
    · rw [← hpy]
      unfold powerOf
      rw [Fin.sum_univ_castSucc]
      simp only [Fin.val_castSucc]
      have := sq_nonneg ‖y (Fin.last k).val‖
      linarith

/-- C154 without the regulariser: the last rail carries exactly `Σ v_r x_r / ‖v‖`. -/
theorem C154_inner_product_exact (style : PhaseStyle) (hs : style = .top ∨ style = .bottom) (n : ℕ) (hn : 2 ≤ n) (balanced : Bool)
    (v : ℕ → ℂ) (hv : ∃ r < n, v r ≠ 0) :
    ∃ p, treeOf 0 style n balanced v = .ok p ∧
      ∀ x, ∃ y, p.evaluate x = .ok y ∧ y (n - 1) = (∑ r : Fin n, v r * x r) / (Real.sqrt (∑ r : Fin n, ‖v r‖ ^ 2) : ℝ) := by
  obtain ⟨p, hp, s, h0, h1, h2, h⟩ := C154_inner_product 0 le_rfl style hs n hn balanced v
  refine ⟨p, hp, fun x => ?_⟩
  obtain ⟨y, hy, -, hle⟩ := h x
  refine ⟨y, hy, ?_⟩
  have hs2 : s ^ 2 = powerOf n v := by
    rw [mul_zero, sub_zero] at h1
    exact le_antisymm h2 h1
  have hpos : 0 < powerOf n v := by
    obtain ⟨r, hr, hne⟩ := hv
    exact Finset.sum_pos' (fun _ _ => sq_nonneg _) ⟨⟨r, hr⟩, Finset.mem_univ _, by positivity⟩
  have hsq : Real.sqrt (∑ r : Fin n, ‖v r‖ ^ 2) = s := by
    change Real.sqrt (powerOf n v) = s
    rw [← hs2, Real.sqrt_sq h0]
  have hsne : (s : ℂ) ≠ 0 := by
    intro h0
    have : s = 0 := by exact_mod_cast h0
    rw [this] at hs2
    norm_num at hs2
    linarith
  rw [mul_zero, Real.sqrt_zero, zero_mul] at hle
  have h3 := sub_eq_zero.1 (norm_le_zero_iff.1 hle)
  rw [hsq, h3]
  field_simp

/-- Non-vacuity of C154: the tree analysing `(3, 4i, 0)` puts `(3 x_0 + 4i x_1)/5` on the last rail. -/
example : ∃ p, treeOf 0 .top 3 true (fun r => if r = 0 then 3 else if r = 1 then 4 * I else 0) = .ok p ∧
    ∀ x, ∃ y, p.evaluate x = .ok y ∧ y 2 = (3 * x 0 + 4 * I * x 1) / 5 := by
  obtain ⟨p, hp, h⟩ := C154_inner_product_exact .top (Or.inl rfl) 3 (by norm_num) true
    (fun r => if r = 0 then 3 else if r = 1 then 4 * I else 0) ⟨0, by norm_num, by norm_num⟩
  refine ⟨p, hp, fun x => ?_⟩
  obtain ⟨y, hy, e⟩ := h x
  refine ⟨y, hy, ?_⟩
  have h25 : Real.sqrt (3 ^ 2 + 4 ^ 2) = 5 := by
    rw [show (3 : ℝ) ^ 2 + 4 ^ 2 = 5 ^ 2 by norm_num, Real.sqrt_sq (by norm_num)]
  simp [Fin.sum_univ_three, h25] at e
  exact e

/-! ### Cascades of several vectors (C153) -/

theorem shaped_wide {style : PhaseStyle} (hs : style = .top ∨ style = .bottom) {eps : ℝ} (heps : 0 ≤ eps) (n : ℕ) (b : Bool) :
    ∀ (j : ℕ) (is : List ℤ) (S : ShapedState), j < S.rows → j < S.cols →
      shapedLoop eps style n b ((List.range (j + 1)).map (fun t : ℕ => (j : ℤ) - t) ++ is) S = .error .valueError := by
  intro j
  induction j with
  | zero =>
    intro is S hr hc
    rw [show (List.range (0 + 1)).map (fun t : ℕ => ((0 : ℕ) : ℤ) - t) ++ is = (((0 : ℕ) : ℤ) - (0 : ℕ)) :: is from rfl, shapedLoop]
    have : shapedStep eps style n b S ((0 : ℕ) - (0 : ℕ) : ℤ) = .error .valueError := by
      unfold shapedStep
      have : sliceLen S.rows (((0 : ℕ) : ℤ) - (0 : ℕ) + 1) < 2 := by
        unfold sliceLen
        rw [if_pos (by norm_num)]
        simp only [Nat.cast_zero]
        omega
      rw [if_pos this]
    rw [this]; rfl
  | succ j ih =>
    intro is S hr hc
    have hlist : (List.range (j + 1 + 1)).map (fun t : ℕ => ((j + 1 : ℕ) : ℤ) - t)
        = ((j + 1 : ℕ) : ℤ) :: (List.range (j + 1)).map (fun t : ℕ => (j : ℤ) - t) := by
      rw [List.range_succ_eq_map, List.map_cons, List.map_map]
      exact congrArg₂ List.cons (by simp) (List.map_congr_left fun t _ => by simp)
    rw [hlist, List.cons_append, shapedLoop]
    have hm : sliceLen S.rows (((j + 1 : ℕ) : ℤ) + 1) = j + 2 := by
      unfold sliceLen
      rw [if_pos (by omega)]
      omega
    have hk : sliceLen S.cols (((j + 1 : ℕ) : ℤ) + 1) = j + 2 := by
      unfold sliceLen
      rw [if_pos (by omega)]
      omega
    obtain ⟨P, w, h1, -⟩ := programVectorUnit_spec hs heps 0 (by simp) (j + 2) n (j + 2 - 1) (by omega) b S.st.w
      (reachableRun_ideal heps style _ _ _)
    have hstep : ∃ S', shapedStep eps style n b S ((j + 1 : ℕ) : ℤ) = .ok S' ∧ S'.rows = j + 2 ∧ S'.cols = j + 2 := by
      unfold shapedStep
      rw [hm, hk, if_neg (by omega), if_neg (by omega), h1]
      exact ⟨_, rfl, rfl, rfl⟩
    obtain ⟨S', hS', hr', hc'⟩ := hstep
    rw [hS']
    exact ih is S' (by omega) (by omega)

/-- **C153, violated**: `cascade(u)` raises `ValueError` for every `k × n` array with `k < n`, the documented input ("the
`k × n` mutually orthogonal basis vectors"), e.g. for a single row vector or the first rows of a unitary matrix. -/
theorem C153_rows_counterexample (eps : ℝ) (heps : 0 ≤ eps) (style : PhaseStyle) (hs : style = .top ∨ style = .bottom) (k n : ℕ)
    (hk : 1 ≤ k) (hkn : k < n) (balanced : Bool) (u : ℕ → ℕ → ℂ) : cascadeAny eps style k n balanced u = .error .valueError := by
  unfold cascadeAny
  have hsplit : (List.range (n - 1)).map (fun t : ℕ => (k : ℤ) - 1 - t)
      = (List.range (k - 1 + 1)).map (fun t : ℕ => ((k - 1 : ℕ) : ℤ) - t) ++
        ((List.range (n - 1 - k)).map (fun t : ℕ => t + k)).map (fun t : ℕ => (k : ℤ) - 1 - t) := by
    have e : n - 1 = k + (n - 1 - k) := by omega
    have e2 : k - 1 + 1 = k := by omega
    conv_lhs => rw [e, List.range_add, List.map_append]
    rw [e2]
    congr 1
    · refine List.map_congr_left fun t _ => ?_
      push_cast [hk]
      ring
    · congr 1
      refine List.map_congr_left fun t _ => ?_
      omega
  simp only [hsplit]
  rw [shaped_wide hs heps k balanced (k - 1) _ _ (by simp only; omega) (by simp only; omega)]
  rfl

theorem shaped_tall {style : PhaseStyle} (hs : style = .top ∨ style = .bottom) {eps : ℝ} (heps : 0 ≤ eps) (n : ℕ) (b : Bool) :
    ∀ (is : List ℤ) (S : ShapedState), (∀ i ∈ is, 1 ≤ i) → 2 ≤ S.rows → 2 ≤ S.cols →
      ∃ S', shapedLoop eps style n b is S = .ok S' ∧ S'.st.gammas.length = S.st.gammas.length + is.length ∧
        (∀ a ∈ S'.st.nodes, (a ∈ S.st.nodes) ∨ (a.top < S.rows ∧ a.bottom < S.rows)) ∧
        S.st.nodes.length + is.length ≤ S'.st.nodes.length := by
  intro is
  induction is with
  | nil => intro S _ _ _; exact ⟨S, rfl, rfl, fun a ha => Or.inl ha, le_rfl⟩
  | cons i is ih =>
    intro S hi hr hc
    have hi1 := hi i (by simp)
    have hm : sliceLen S.rows (i + 1) = min S.rows (i + 1).toNat := by unfold sliceLen; rw [if_pos (by omega)]
    have hk : sliceLen S.cols (i + 1) = min S.cols (i + 1).toNat := by unfold sliceLen; rw [if_pos (by omega)]
    set m := min S.rows (i + 1).toNat with hmdef
    set k := min S.cols (i + 1).toNat with hkdef
    obtain ⟨P, w, h1, -⟩ := programVectorUnit_spec hs heps 0 (by simp) m n (k - 1) (by omega) b S.st.w
      (reachableRun_ideal heps style _ _ _)
    have hstep : ∃ S1, shapedStep eps style n b S i = .ok S1 ∧ S1.rows = m ∧ S1.cols = k ∧
        S1.st.gammas.length = S.st.gammas.length + 1 ∧
        (∃ N C, S1.st.nodes = S.st.nodes ++ (tree m n b).map (shiftNode N C)) := by
      unfold shapedStep
      rw [hm, hk, if_neg (by omega), if_neg (by omega), h1]
      exact ⟨_, rfl, rfl, rfl, by simp, _, _, rfl⟩
    obtain ⟨S1, e1, e2, e3, e4, N, C, e5⟩ := hstep
    obtain ⟨S', f1, f2, f3, f4⟩ := ih S1 (fun j hj => hi j (by simp [hj])) (by omega) (by omega)
    refine ⟨S', ?_, ?_, ?_, ?_⟩
    · rw [shapedLoop, e1]; exact f1
    · rw [f2, e4, List.length_cons]; omega
    · intro a ha
      rcases f3 a ha with h | h
      · rw [e5, List.mem_append] at h
        rcases h with h | h
        · exact Or.inl h
        · obtain ⟨a', ha', rfl⟩ := List.mem_map.1 h
          have := tree_rails (show 2 ≤ m by omega) b ha'
          right
          simp only [shiftNode]
          omega
      · right; omega
    · rw [e5, List.length_append, List.length_map, tree_length] at f4
      rw [List.length_cons]
      omega

/-- **C153, violated**: vectors given as columns (`n × k`, `k < n`) do not work either: one vector raises, and for two or more the
returned mesh cannot be evaluated on any input, because it has `k` output phases for `n` rails. -/
theorem C153_columns_counterexample (eps : ℝ) (heps : 0 ≤ eps) (style : PhaseStyle) (hs : style = .top ∨ style = .bottom) (n k : ℕ)
    (hk : 1 ≤ k) (hkn : k < n) (balanced : Bool) (u : ℕ → ℕ → ℂ) :
    (k = 1 → cascadeAny eps style n k balanced u = .error .valueError) ∧
    (2 ≤ k → ∃ p, cascadeAny eps style n k balanced u = .ok p ∧ ∀ x, p.evaluate x = .error .valueError) := by
  constructor
  · rintro rfl
    unfold cascadeAny
    rfl
  · intro h2
    unfold cascadeAny
    simp only
    obtain ⟨S', f1, f2, f3, f4⟩ := shaped_tall hs heps n balanced ((List.range (k - 1)).map fun t : ℕ => (n : ℤ) - 1 - t)
      ⟨⟨[], [], [], [], 0, 0, fun r c => if r < k ∧ c < n then (starRingEnd ℂ) (u c r) else 0⟩, k, n⟩
      (by
        intro i hi
        obtain ⟨t, ht, rfl⟩ := List.mem_map.1 hi
        rw [List.mem_range] at ht
        omega) h2 (by simp only; omega)
    rw [f1]
    simp only [List.length_nil, List.length_map, List.length_range, Nat.zero_add, List.not_mem_nil, false_or] at f2 f3 f4
    have hne : S'.st.nodes ≠ [] := by
      intro h0
      rw [h0] at f4
      simp at f4
      omega
    refine ⟨⟨errorMesh S'.st.nodes 0 .top, n, ⟨fun k => S'.st.thetas.getD k 0, fun k => S'.st.phis.getD k 0,
      fun k => (-arg (S'.st.w 0 0) :: S'.st.gammas).getD k 0⟩, (-arg (S'.st.w 0 0) :: S'.st.gammas).length⟩, ?_, fun x => ?_⟩
    · change (if S'.st.nodes = [] then _ else _) = _
      rw [if_neg hne]
      rfl
    · unfold Programmed.evaluate
      simp only [List.length_cons, f2]
      split_ifs with h1 h3 h4 h5
      · rfl
      · obtain ⟨a, ha, h⟩ := h3
        have := f3 a ha
        omega
      · omega
      · omega
      · rfl

/-- The square case of the shape-aware loop. -/
theorem shaped_square (eps : ℝ) (style : PhaseStyle) (n : ℕ) (b : Bool) : ∀ (j : ℕ) (S : ShapedState), j < S.rows → j < S.cols →
    j < n →
    (match cascadeLoop eps style 0 n b (downTo j) S.st with
      | none => ∃ e, shapedLoop eps style n b ((List.range j).map fun t : ℕ => (j : ℤ) - t) S = .error e
      | some st => ∃ S', shapedLoop eps style n b ((List.range j).map fun t : ℕ => (j : ℤ) - t) S = .ok S' ∧ S'.st = st) := by
  intro j
  induction j with
  | zero => intro S _ _ _; exact ⟨S, rfl, rfl⟩
  | succ j ih =>
    intro S hr hc hjn
    have hlist : (List.range (j + 1)).map (fun t : ℕ => ((j + 1 : ℕ) : ℤ) - t)
        = ((j + 1 : ℕ) : ℤ) :: (List.range j).map (fun t : ℕ => (j : ℤ) - t) := by
      rw [List.range_succ_eq_map, List.map_cons, List.map_map]
      exact congrArg₂ List.cons (by simp) (List.map_congr_left fun t _ => by simp)
    have hm : sliceLen S.rows (((j + 1 : ℕ) : ℤ) + 1) = j + 2 := by
      unfold sliceLen
      rw [if_pos (by omega)]
      omega
    have hk : sliceLen S.cols (((j + 1 : ℕ) : ℤ) + 1) = j + 2 := by
      unfold sliceLen
      rw [if_pos (by omega)]
      omega
    rw [hlist, downTo_succ]
    have hshift : ((2 : ℤ) * ((n : ℤ) - 1 - ((j + 1 : ℕ) : ℤ))).toNat = 2 * (n - 1 - (j + 1)) := by omega
    cases hp : programVectorUnit eps style 0 (j + 2) (j + 1) (tree (j + 2) n b) S.st.w with
    | none =>
      have h1 : cascadeLoop eps style 0 n b ((j + 1) :: downTo j) S.st = none := by
        simp [cascadeLoop, cascadeStep, hp]
      rw [h1]
      refine ⟨.runtimeError, ?_⟩
      rw [shapedLoop]
      have : shapedStep eps style n b S ((j + 1 : ℕ) : ℤ) = .error .runtimeError := by
        unfold shapedStep
        rw [hm, hk, if_neg (by omega), if_neg (by omega), show j + 2 - 1 = j + 1 by omega, hp]
      rw [this]; rfl
    | some q =>
      obtain ⟨P, w⟩ := q
      set st1 : CascadeState :=
        { nodes := S.st.nodes ++ subunitNodes n (j + 1) b S.st.numNodes S.st.numColumns
          thetas := S.st.thetas ++ (List.range (j + 1)).map P.thetas
          phis := S.st.phis ++ (List.range (j + 1)).map P.phis
          gammas := P.gammas (j + 1) :: S.st.gammas
          numColumns := S.st.numColumns + Simphox.numColumns (tree (j + 1 + 1) n b)
          numNodes := S.st.numNodes + (tree (j + 1 + 1) n b).length
          w := w } with hst1
      have h1 : cascadeLoop eps style 0 n b ((j + 1) :: downTo j) S.st = cascadeLoop eps style 0 n b (downTo j) st1 := by
        simp [cascadeLoop, cascadeStep, hp, hst1]
      have h2 : shapedStep eps style n b S ((j + 1 : ℕ) : ℤ) = .ok ⟨st1, j + 2, j + 2⟩ := by
        unfold shapedStep
        rw [hm, hk, if_neg (by omega), if_neg (by omega), show j + 2 - 1 = j + 1 by omega, hp, hshift]
        rfl
      rw [h1, shapedLoop, h2]
      exact ih ⟨st1, j + 2, j + 2⟩ (by simp only; omega) (by simp only; omega) (by omega)

/-- A matrix as an array indexed by naturals. -/
noncomputable def arrayOf {n : ℕ} (u : Matrix (Fin n) (Fin n) ℂ) : ℕ → ℕ → ℂ :=
  fun r c => if h : r < n ∧ c < n then u ⟨r, h.1⟩ ⟨c, h.2⟩ else 0

theorem parts_evaluable (n : ℕ) (hn : 2 ≤ n) (b : Bool) :
    (¬ ∃ k < numColumns (parts n b (n - 1) 0 0), ∀ a ∈ parts n b (n - 1) 0 0, a.column ≠ k) ∧
    ¬ ∃ a ∈ parts n b (n - 1) 0 0, n ≤ a.top ∨ n ≤ a.bottom := by
  have hd : ∃ d, 0 < d ∧ ∀ c, (∃ a ∈ parts n b (n - 1) 0 0, a.column = c) ↔ c < d := by
    cases b
    · refine ⟨2 * n - 3, by omega, fun c => ?_⟩
      rw [parts_columns_chain n (n - 1) 0 0 c (by omega)]
      omega
    · refine ⟨depthSum (n - 1), ?_, fun c => ?_⟩
      · have h0 : ∃ a ∈ parts n true (n - 1) 0 0, a.column < 0 + depthSum (n - 1) := by
          have hl : 0 < (parts n true (n - 1) 0 0).length := by
            have := (parts_length n true (n - 1) 0 0)
            rw [this]
            have h2 := tri_eq (n - 1 + 1)
            obtain ⟨m, rfl⟩ : ∃ m, n = m + 2 := ⟨n - 2, by omega⟩
            simp [tri]
          obtain ⟨a, ha⟩ := List.exists_mem_of_length_pos hl
          exact ⟨a, ha, ((parts_columns_balanced n (n - 1) 0 0 a.column).1 ⟨a, ha, rfl⟩).2⟩
        obtain ⟨a, -, h⟩ := h0
        omega
      · rw [parts_columns_balanced n (n - 1) 0 0 c]
        omega
  obtain ⟨d, hd0, hd⟩ := hd
  constructor
  · rintro ⟨k, hk, h⟩
    obtain ⟨a0, ha0, hc0⟩ := (hd (d - 1)).2 (by omega)
    have hn' : numColumns (parts n b (n - 1) 0 0) = d :=
      numColumns_eq_of (fun a ha => (hd a.column).1 ⟨a, ha, rfl⟩) ⟨a0, ha0, by omega⟩
    rw [hn'] at hk
    obtain ⟨a, ha, e⟩ := (hd k).2 hk
    exact h a ha e
  · rintro ⟨a, ha, h⟩
    have := parts_rails ha
    omega

/-- C153, what holds: for a square unitary matrix `cascade(u)` returns a mesh that can be evaluated and implements `u`. -/
theorem C153_square_partial (eps : ℝ) (heps : 0 ≤ eps) (n : ℕ) (hn : 2 ≤ n) (balanced : Bool)
    (u : Matrix (Fin n) (Fin n) ℂ) (hu : u ∈ unitaryGroup (Fin n) ℂ) :
    ∃ p, cascadeAny eps .top n n balanced (arrayOf u) = .ok p ∧ p.rails = n ∧
      (∀ x, ∃ y, p.evaluate x = .ok y ∧ restrict n y = (p.mesh.matrix n p.params false).mulVec (restrict n x)) ∧
      ∑ i, ∑ j, ‖(p.mesh.matrix n p.params false - u) i j‖ ^ 2 ≤ n ^ 2 * (n - 1) * eps := by
  have hs : PhaseStyle.top = .top ∨ PhaseStyle.top = .bottom := Or.inl rfl
  obtain ⟨P, h1, hwf, h3⟩ := cascade_spec hs heps n hn balanced u hu
  have hw0 : (fun r c => if r < n ∧ c < n then (starRingEnd ℂ) (arrayOf u c r) else 0 : ℕ → ℕ → ℂ)
      = fun r c => if h : r < n ∧ c < n then (starRingEnd ℂ) (u ⟨c, h.2⟩ ⟨r, h.1⟩) else 0 := by
    funext r c
    unfold arrayOf
    by_cases h : r < n ∧ c < n
    · rw [if_pos h, dif_pos h, dif_pos ⟨h.2, h.1⟩]
    · rw [if_neg h, dif_neg h]
  set w0 : ℕ → ℕ → ℂ := fun r c => if h : r < n ∧ c < n then (starRingEnd ℂ) (u ⟨c, h.2⟩ ⟨r, h.1⟩) else 0 with hw0d
  obtain ⟨st, th, ph, g, e1, e2, e3, e4, e5, e6, e7, e8, -⟩ := cascadeLoop_spec hs heps n balanced (n - 1)
    ⟨[], [], [], [], 0, 0, w0⟩ rfl rfl
  simp only [List.nil_append, List.append_nil] at e2 e7
  have hsq := shaped_square eps .top n balanced (n - 1) ⟨⟨[], [], [], [], 0, 0, w0⟩, n, n⟩ (by simp only; omega) (by simp only; omega)
    (by omega)
  simp only [e1] at hsq
  obtain ⟨S', f1, rfl⟩ := hsq
  have hP : P = ⟨fun k => S'.st.thetas.getD k 0, fun k => S'.st.phis.getD k 0,
      fun k => (-arg (S'.st.w 0 0) :: S'.st.gammas).getD k 0⟩ := by
    rw [downTo] at e1
    simp [cascade, ← hw0d, e1] at h1
    exact h1.2.symm
  have hne : S'.st.nodes ≠ [] := by
    rw [e2]
    intro h0
    have h4 : (parts n balanced (n - 1) 0 0).length = 0 := by rw [h0]; rfl
    rw [parts_length] at h4
    obtain ⟨m, rfl⟩ : ∃ m, n = m + 2 := ⟨n - 2, by omega⟩
    simp [tri] at h4
  refine ⟨⟨errorMesh (parts n balanced (n - 1) 0 0) 0 .top, n, P, n⟩, ?_, rfl, ?_, h3⟩
  · unfold cascadeAny
    simp only [hw0]
    have hl : ((List.range (n - 1)).map fun t : ℕ => (n : ℤ) - 1 - t) = (List.range (n - 1)).map fun t : ℕ => ((n - 1 : ℕ) : ℤ) - t :=
      List.map_congr_left fun t _ => by omega
    rw [hl, f1]
    change (if S'.st.nodes = [] then _ else _) = _
    rw [if_neg hne, hP]
    have hlen : (-arg (S'.st.w 0 0) :: S'.st.gammas).length = n := by rw [List.length_cons, e7, e8]; omega
    simp only [hlen, e2]
    rfl
  · intro x
    obtain ⟨c1, c2⟩ := parts_evaluable n hn balanced
    refine ⟨_, evaluate_own _ c1 c2 rfl x, ?_⟩
    exact (Mesh.matrix_mulVec hwf _ _ _).symm

/-- Non-vacuity of C153: swapping two modes. -/
example : ∃ p, cascadeAny 0 .top 2 2 true (arrayOf !![0, 1; 1, 0]) = .ok p ∧ p.mesh.matrix 2 p.params false = !![0, 1; 1, 0] := by
  obtain ⟨p, hp, -, -, h⟩ := C153_square_partial 0 le_rfl 2 le_rfl true !![0, 1; 1, 0] (by
    rw [mem_unitaryGroup_iff, star_eq_conjTranspose]
    ext i j
    fin_cases i <;> fin_cases j <;> simp [Matrix.mul_apply, conjTranspose_apply])
  rw [mul_zero] at h
  exact ⟨p, hp, eq_of_frobSq h⟩

/-- Non-vacuity of the counterexamples of C153: two orthonormal vectors of length 3, as rows and as columns. -/
example : cascadeAny 0 .top 2 3 true (fun r c => if r = c then 1 else 0) = .error .valueError ∧
    ∃ p, cascadeAny 0 .top 3 2 true (fun r c => if r = c then 1 else 0) = .ok p ∧ ∀ x, p.evaluate x = .error .valueError :=
  ⟨C153_rows_counterexample 0 le_rfl .top (Or.inl rfl) 2 3 (by norm_num) (by norm_num) true _,
    (C153_columns_counterexample 0 le_rfl .top (Or.inl rfl) 3 2 (by norm_num) (by norm_num) true _).2 le_rfl⟩

end Simphox
