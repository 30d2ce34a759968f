import Verif.HaarNetworks

/-!
# Random networks of crossing lines (C207): rectangular meshes
-/

namespace Simphox

open Matrix Complex MeasureTheory ProbabilityTheory ComplexConjugate Law
open scoped BoundedContinuousFunction ENNReal

/-! ### The triangular network -/

/-- The rails and indices of a triangular network of `k` chains. -/
def triWord : ℕ → List (ℕ × ℕ)
  | 0 => []
  | k + 1 => (List.range (k + 1)).map (fun i => (i, i)) ++ triWord k

theorem exec_word (n : ℕ) : ∀ k N C : ℕ, k + 1 ≤ n → (execParts n false k N C).map (fun a => (a.top, a.top)) = triWord k
  | 0, _, _, _ => rfl
  | k + 1, N, C, h => by
    rw [execParts, chain_exec (k + 2) n (by omega), List.map_append, exec_word n k _ _ (by omega), triWord, List.map_map, List.map_map]
    rfl

theorem exec_bottom (n : ℕ) : ∀ k N C : ℕ, k + 1 ≤ n → ∀ a ∈ execParts n false k N C, a.bottom = a.top + 1 ∧ N ≤ a.id
  | 0, _, _, _, a, h => absurd h (by simp [execParts])
  | k + 1, N, C, hk, a, h => by
    rw [execParts, chain_exec (k + 2) n (by omega), List.map_map] at h
    rcases List.mem_append.1 h with h | h
    · obtain ⟨i, -, rfl⟩ := List.mem_map.1 h
      exact ⟨rfl, Nat.le_add_left N i⟩
    · have := exec_bottom n k _ _ (by omega) a h
      exact ⟨this.1, by omega⟩

theorem exec_nodup (n : ℕ) : ∀ k N C : ℕ, k + 1 ≤ n → ((execParts n false k N C).map Node.id).Nodup
  | 0, _, _, _ => List.nodup_nil
  | k + 1, N, C, h => by
    rw [execParts, chain_exec (k + 2) n (by omega), List.map_append, List.map_map, List.map_map]
    refine List.Nodup.append ?_ (exec_nodup n k _ _ (by omega)) ?_
    · refine List.Nodup.map ?_ List.nodup_range
      intro i j hij
      simpa [shiftNode, chainNode] using hij
    · intro c h1 h2
      obtain ⟨i, hi, rfl⟩ := List.mem_map.1 h1
      obtain ⟨a, ha, e⟩ := List.mem_map.1 h2
      have := (exec_bottom n k _ _ (by omega) a ha).2
      have h3 := List.mem_range.1 hi
      simp only [Function.comp, shiftNode, chainNode] at e
      omega

theorem exec_haar (n : ℕ) (X : ℕ → ℝ × ℝ → Elements) : ∀ k N C : ℕ, k + 1 ≤ n → (∀ a ∈ execParts n false k N C, HaarNode (X a.id) a.top) → HaarNodes X (k + 1) N
  | 0, N, _, _, _ => ⟨fun i hi => absurd hi (Nat.not_lt_zero i), trivial⟩
  | k + 1, N, C, h, hX => by
    rw [execParts, chain_exec (k + 2) n (by omega), List.map_map] at hX
    refine ⟨fun i hi => ?_, exec_haar n X k _ _ (by omega) fun a ha => hX a (List.mem_append_right _ ha)⟩
    have := hX _ (List.mem_append_left _ (List.mem_map_of_mem (List.mem_range.2 (show i < k + 2 - 1 by omega))))
    rw [Nat.add_comm N i]
    exact this

theorem law_node (n i k : ℕ) : ∃ Y : ℝ × ℝ → Elements, HaarNode Y k ∧
    (uniform01.prod uniform01).map (fun x : ℝ × ℝ => embed2 n i (i + 1) (Y x).mat) = (nodeLaw n i k).1 := by
  obtain ⟨inv, h⟩ := exists_betaincinv ((k + 1 : ℕ) : ℝ) ((1 : ℕ) : ℝ) (by positivity) (by norm_num)
  have m := h.aemeasurable
  exact ⟨_, haar_node k inv h (m.mk _) m.measurable_mk m.ae_eq_mk, node_drawn n i k inv h (m.mk _) m.measurable_mk m.ae_eq_mk⟩

theorem HaarNode.measurable_mat {X : ℝ × ℝ → Elements} {k : ℕ} (h : HaarNode X k) (i j : Fin 2) : Measurable fun x => (X x).mat i j := by
  fin_cases i <;> fin_cases j <;> simp only [Elements.mat] <;> simp
  exacts [h.m11, h.m21, h.m12, h.m22]

/-- The law of the triangular network is invariant under all unitary matrices. -/
theorem tri_word_right {n : ℕ} (hn : 1 ≤ n) {g : Matrix (Fin n) (Fin n) ℂ} (hg : g ∈ HeadUnitary n n) :
    torus n * wordLaw n (triWord (n - 1)) * pt g = torus n * wordLaw n (triWord (n - 1)) := by
  set L := execParts n false (n - 1) 0 0 with hL
  have hnd := exec_nodup n (n - 1) 0 0 (by omega)
  rw [← hL] at hnd
  have hinj := List.inj_on_of_nodup_map hnd
  have hx : ∀ k : ℕ, ∃ Y : ℝ × ℝ → Elements, (∃ j, HaarNode Y j) ∧ ∀ a ∈ L, a.id = k → HaarNode Y a.top ∧
      (uniform01.prod uniform01).map (fun x : ℝ × ℝ => embed2 n a.top (a.top + 1) (Y x).mat) = (nodeLaw n a.top a.top).1 := by
    intro k
    by_cases h : ∃ a ∈ L, a.id = k
    · obtain ⟨a, ha, hk⟩ := h
      obtain ⟨Y, h1, h2⟩ := law_node n a.top a.top
      exact ⟨Y, ⟨_, h1⟩, fun b hb hbk => by rw [hinj hb ha (hbk.trans hk.symm)]; exact ⟨h1, h2⟩⟩
    · obtain ⟨Y, h1, -⟩ := law_node n 0 0
      exact ⟨Y, ⟨_, h1⟩, fun a ha hk => absurd ⟨a, ha, hk⟩ h⟩
  choose X hX1 hX2 using hx
  have hXm : ∀ k i j, Measurable fun x => (X k x).mat i j := fun k i j => (hX1 k).choose_spec.measurable_mat i j
  have hX : HaarNodes X n 0 := by
    have := exec_haar n X (n - 1) 0 0 (by omega) fun a ha => (hX2 a.id a ha rfl).1
    rwa [Nat.sub_add_cancel hn] at this
  have hD : UniformDraws (Measure.infinitePi fun _ : Fin 3 × ℕ => uniform01) (fun i ω => ω i) :=
    ⟨fun i => measurable_pi_apply i, fun i => Measure.infinitePi_map_eval _ i, iIndepFun_infinitePi (X := fun _ x => x) fun _ => measurable_id⟩
  have mG : Measurable fun x : Fin 3 × ℕ → ℝ => (diagonal fun i : Fin n => phaseOf (x (2, i.val)) : Matrix (Fin n) (Fin n) ℂ) :=
    measurable_diagonal fun i => measurable_phaseOf.comp (measurable_pi_apply _)
  have hlaw := network_law hD (n := n) X hXm Node.top (fun x => diagonal fun i : Fin n => phaseOf (x (2, i.val))) mG (fun x y h => by
      congr 1
      funext i
      rw [h i.val i.isLt]) (torus n) (gamma_law hD n) L (fun a ha => ⟨(exec_bottom n (n - 1) 0 0 (by omega) a ha).1, (hX2 a.id a ha rfl).2⟩) hnd
  rw [hL, exec_word n (n - 1) 0 0 (by omega), ← hL] at hlaw
  have hre : ∀ x, (diagonal fun i : Fin n => phaseOf (x (2, i.val))) * blockProduct n (drawnEl X x) L = randomHead n X n 0 x := by
    intro x
    have := triangular_random n X x (n - 1) 0 0 (by omega) (by rwa [Nat.sub_add_cancel hn])
    rw [Nat.sub_add_cancel hn] at this
    rw [← this]
    congr 2
    funext i
    rw [if_pos (by have := i.isLt; omega)]
    rfl
  have hlaw : (Measure.infinitePi fun _ : Fin 3 × ℕ => uniform01).map (fun x => randomHead n X n 0 x) = (torus n * wordLaw n (triWord (n - 1))).1 := by
    rw [← hlaw]
    congr 1
    funext x
    exact (hre x).symm
  have h1 := law_of_right (measurable_randomHead n 0 hX) (randomHead_inv hD X n 0 le_rfl hX) hg
  have h2 : Law.of (Measure.infinitePi fun _ : Fin 3 × ℕ => uniform01) _ (measurable_randomHead n 0 hX) = torus n * wordLaw n (triWord (n - 1)) := Subtype.ext hlaw
  rw [← h2]
  exact h1

/-- Numbers on the rails in front of the last `k` chains. -/
def chainLabel (n k r : ℕ) : ℕ := if r ≤ k then n - 1 - k + r else if r < n then n - 1 - r else r

/-- Numbers on the rails after `i` nodes of a chain of `k` nodes. -/
def chainMid (n k i r : ℕ) : ℕ := if r < i then n - 1 - k + r + 1 else if r = i then n - 1 - k else chainLabel n k r

theorem sorts_chain {n k : ℕ} (hk : k < n) (w : List (ℕ × ℕ)) (hw : Sorts n w (chainMid n k k)) : ∀ d i : ℕ, d + i = k →
    Sorts n ((List.range' i d).map (fun j => (j, j)) ++ w) (chainMid n k i)
  | 0, i, h => by
    obtain rfl : i = k := by omega
    exact hw
  | d + 1, i, h => by
    rw [List.range'_succ, List.map_cons, List.cons_append]
    refine ⟨by show i + 1 < n; omega, ?_, ?_⟩
    · show chainMid n k i (i + 1) = chainMid n k i i + i + 1
      unfold chainMid chainLabel
      rw [if_neg (by omega), if_neg (by omega), if_pos (by omega), if_neg (by omega), if_pos rfl]
      omega
    · have e : crossed (chainMid n k i) i = chainMid n k (i + 1) := by
        funext r
        by_cases h0 : r = i
        · subst h0
          rw [crossed_left]
          unfold chainMid chainLabel
          rw [if_neg (by omega), if_neg (by omega), if_pos (by omega), if_pos (by omega)]
          omega
        by_cases h1 : r = i + 1
        · subst h1
          rw [crossed_right]
          unfold chainMid
          rw [if_neg (by omega), if_pos rfl, if_neg (by omega), if_pos rfl]
        · rw [crossed_ne _ h0 h1]
          unfold chainMid
          split_ifs <;> omega
      show Sorts n _ (crossed (chainMid n k i) i)
      rw [e]
      exact sorts_chain hk w hw d (i + 1) (by omega)

theorem sorts_tri {n : ℕ} : ∀ k < n, Sorts n (triWord k) (chainLabel n k)
  | 0, h => by
    intro i hi
    unfold chainLabel
    split_ifs <;> omega
  | k + 1, h => by
    have h1 := sorts_chain h (triWord k) (by
      have e : chainMid n (k + 1) (k + 1) = chainLabel n k := by
        funext r
        unfold chainMid chainLabel
        split_ifs <;> omega
      rw [e]
      exact sorts_tri k (by omega)) (k + 1) 0 (by omega)
    have e : chainMid n (k + 1) 0 = chainLabel n (k + 1) := by
      funext r
      unfold chainMid chainLabel
      split_ifs <;> omega
    rw [e] at h1
    rw [triWord, List.range_eq_range']
    exact h1

/-- The law of every network that reverses the lines is invariant under all unitary matrices. -/
theorem word_right {n : ℕ} (hn : 1 ≤ n) {w : List (ℕ × ℕ)} (hw : Sorts n w id) {g : Matrix (Fin n) (Fin n) ℂ} (hg : g ∈ HeadUnitary n n) :
    torus n * wordLaw n w * pt g = torus n * wordLaw n w := by
  have e : chainLabel n (n - 1) = id := by
    funext r
    unfold chainLabel
    split_ifs <;> simp only [id] <;> omega
  rw [sorts_law id w (triWord (n - 1)) hw (e ▸ sorts_tri (n - 1) (by omega)), tri_word_right hn hg]

/-! ### Meshes -/

theorem measurable_node {g : ℝ → ℝ} (hg : Measurable g) (i j : Fin 2) :
    Measurable fun x : ℝ × ℝ => (mziElements .top false 0 0 0 0 (idealPhase (g x.1)) (2 * Real.pi * x.2)).mat i j := by
  have mt : Measurable fun x : ℝ × ℝ => idealPhase (g x.1) := measurable_idealPhase.comp (hg.comp measurable_fst)
  have mp : Measurable fun x : ℝ × ℝ => 2 * Real.pi * x.2 := by fun_prop
  have cont : (Continuous fun y : ℝ × ℝ => (mziElements .top false 0 0 0 0 y.1 y.2).t11) ∧ (Continuous fun y : ℝ × ℝ => (mziElements .top false 0 0 0 0 y.1 y.2).t12) ∧
      (Continuous fun y : ℝ × ℝ => (mziElements .top false 0 0 0 0 y.1 y.2).t21) ∧ (Continuous fun y : ℝ × ℝ => (mziElements .top false 0 0 0 0 y.1 y.2).t22) := by
    simp only [mziElements]; refine ⟨?_, ?_, ?_, ?_⟩ <;> fun_prop
  have mX : ∀ (f : ℝ × ℝ → ℂ), Continuous f → Measurable fun x : ℝ × ℝ => f (idealPhase (g x.1), 2 * Real.pi * x.2) :=
    fun f hf => hf.measurable.comp (mt.prodMk mp)
  obtain ⟨c1, c2, c3, c4⟩ := cont
  rcases (show i = 0 ∨ i = 1 by omega) with rfl | rfl <;> rcases (show j = 0 ∨ j = 1 by omega) with rfl | rfl
  exacts [mX _ c1, mX _ c3, mX _ c2, mX _ c4]

theorem sorts_of_lines {n : ℕ} (b : Node → ℕ) : ∀ (L : List Node) (x : ℕ → ℕ),
    (∀ L1 a L2, L = L1 ++ a :: L2 → a.bottom = a.top + 1 ∧ a.top + 1 < n ∧ L1.foldl (fun x a => x ∘ Equiv.swap a.top a.bottom) x a.bottom =
      L1.foldl (fun x a => x ∘ Equiv.swap a.top a.bottom) x a.top + b a + 1) →
    (∀ i, i + 1 < n → L.foldl (fun x a => x ∘ Equiv.swap a.top a.bottom) x (i + 1) ≤ L.foldl (fun x a => x ∘ Equiv.swap a.top a.bottom) x i) →
    Sorts n (L.map fun a => (a.top, b a)) x
  | [], x, _, h => h
  | a :: L, x, h, h' => by
    obtain ⟨h1, h2, h3⟩ := h [] a L rfl
    rw [h1] at h3
    refine ⟨h2, h3, ?_⟩
    have e : crossed x a.top = x ∘ Equiv.swap a.top a.bottom := by rw [h1]; rfl
    show Sorts n _ (crossed x a.top)
    rw [e]
    exact sorts_of_lines b L _ (fun L1 c L2 hL => h (a :: L1) c L2 (by rw [hL]; rfl)) h'

/-- C207: a mesh whose lines each cross once, every node crossing two lines in their original order and with a sensitivity index that is the distance of
their inputs, set at random with `mesh.thetas = mesh.rand_theta()` and uniform external and output phases, is a Haar-random unitary matrix. -/
theorem C207_network {Ω : Type} [MeasurableSpace Ω] (Pr : Measure Ω) [IsProbabilityMeasure Pr] (n : ℕ) (hn : 1 ≤ n) (nodes : List Node)
    (hM : (idealMesh nodes .top).WellFormed n) (hid : (nodes.map Node.id).Nodup)
    (hnode : ∀ L a L', executionOrder nodes = L ++ a :: L' → a.bottom = a.top + 1 ∧ (nodes.getD a.id default).alpha = 1 ∧
      1 ≤ (nodes.getD a.id default).beta ∧ lineOn L a.bottom = lineOn L a.top + (nodes.getD a.id default).beta)
    (hout : ∀ r < n, lineOn (executionOrder nodes) r = n - 1 - r) (binv : ℕ → ℕ → ℝ → ℝ) (hb : IsBetaincinvFamily binv)
    (D : Fin 3 × ℕ → Ω → ℝ) (hD : UniformDraws Pr D) :
    HaarRandom Pr fun ω => (idealMesh nodes .top).matrix n (freshParams binv nodes (fun k => (D (0, k) ω, D (1, k) ω)) (fun r => D (2, r) ω)) false := by
  have hmem : ∀ a ∈ nodes, a.bottom = a.top + 1 ∧ (nodes.getD a.id default).alpha = 1 ∧ 1 ≤ (nodes.getD a.id default).beta := by
    intro a ha
    obtain ⟨L, L', e⟩ := List.append_of_mem ((executionOrder_perm nodes).mem_iff.2 ha)
    exact ⟨(hnode L a L' e).1, (hnode L a L' e).2.1, (hnode L a L' e).2.2.1⟩
  have hinv : ∀ k, ∃ g : ℝ → ℝ, Measurable g ∧ ((∃ a ∈ nodes, a.id = k) → ∀ᵐ u ∂uniform01, binv (nodes.getD k default).beta (nodes.getD k default).alpha u = g u) := by
    intro k
    by_cases hk : ∃ a ∈ nodes, a.id = k
    · obtain ⟨a, ha, rfl⟩ := hk
      have h := hmem a ha
      have hm := (hb _ _ h.2.2 (show 1 ≤ (nodes.getD a.id default).alpha by omega)).aemeasurable
      exact ⟨hm.mk _, hm.measurable_mk, fun _ => hm.ae_eq_mk⟩
    · exact ⟨fun _ => 0, measurable_const, fun h => absurd h hk⟩
  choose g hg hge using hinv
  let X : ℕ → ℝ × ℝ → Elements := fun k x => mziElements .top false 0 0 0 0 (idealPhase (g k x.1)) (2 * Real.pi * x.2)
  let b : Node → ℕ := fun a => (nodes.getD a.id default).beta - 1
  have hXm : ∀ k i j, Measurable fun x => (X k x).mat i j := by
    exact fun k => measurable_node (hg k)
  have hL : ∀ a ∈ executionOrder nodes, a.bottom = a.top + 1 ∧
      (uniform01.prod uniform01).map (fun x : ℝ × ℝ => embed2 n a.top (a.top + 1) (X a.id x).mat) = (nodeLaw n a.top (b a)).1 := by
    intro a ha
    have ha' := (executionOrder_perm nodes).mem_iff.1 ha
    have h := hmem a ha'
    have hbi := hb _ _ h.2.2 (show 1 ≤ (nodes.getD a.id default).alpha by omega)
    rw [h.2.1, show (nodes.getD a.id default).beta = b a + 1 by show _ = _ - 1 + 1; omega] at hbi
    have hgk := hge a.id ⟨a, ha', rfl⟩
    rw [h.2.1, show (nodes.getD a.id default).beta = b a + 1 by show _ = _ - 1 + 1; omega] at hgk
    exact ⟨h.1, node_drawn n a.top (b a) _ hbi (g a.id) (hg a.id) hgk⟩
  have hnd : ((executionOrder nodes).map Node.id).Nodup := (((executionOrder_perm nodes).map Node.id).nodup_iff).2 hid
  have mG : Measurable fun x : Fin 3 × ℕ → ℝ => (diagonal fun i : Fin n => phaseOf (x (2, i.val)) : Matrix (Fin n) (Fin n) ℂ) :=
    measurable_diagonal fun i => measurable_phaseOf.comp (measurable_pi_apply _)
  have hlaw := network_law hD (n := n) X hXm b (fun x => diagonal fun i : Fin n => phaseOf (x (2, i.val))) mG (fun x y h => by
      congr 1
      funext i
      rw [h i.val i.isLt]) (torus n) (gamma_law hD n) (executionOrder nodes) hL hnd
  have hsort : Sorts n ((executionOrder nodes).map fun a => (a.top, b a)) id := by
    refine sorts_of_lines b _ id (fun L1 a L2 e => ?_) fun i hi => ?_
    · obtain ⟨h1, -, h2, h3⟩ := hnode L1 a L2 e
      refine ⟨h1, ?_, ?_⟩
      · have := (hM.rails a ((executionOrder_perm nodes).mem_iff.1 (by rw [e]; simp))).2.1
        omega
      · show lineOn L1 a.bottom = lineOn L1 a.top + ((nodes.getD a.id default).beta - 1) + 1
        omega
    · have h1 := hout (i + 1) hi
      have h2 := hout i (by omega)
      show lineOn (executionOrder nodes) (i + 1) ≤ lineOn (executionOrder nodes) i
      omega
  have mW : Measurable fun x : Fin 3 × ℕ → ℝ => (diagonal fun i : Fin n => phaseOf (x (2, i.val))) * blockProduct n (drawnEl X x) (executionOrder nodes) :=
    measurable_mat_mul mG (measurable_block X hXm _)
  have mW' := hD.comp _ mW
  have hae : ∀ᵐ ω ∂Pr, ∀ k : ℕ, (∃ a ∈ nodes, a.id = k) → binv (nodes.getD k default).beta (nodes.getD k default).alpha (D (0, k) ω) = g k (D (0, k) ω) := by
    rw [ae_all_iff]
    intro k
    by_cases hk : ∃ a ∈ nodes, a.id = k
    · have h1 := hge k hk
      rw [← hD.law (0, k)] at h1
      filter_upwards [ae_of_ae_map (hD.meas (0, k)).aemeasurable h1] with ω hω _ using hω
    · exact Filter.Eventually.of_forall fun ω h => absurd h hk
  refine haar_of_right mW' ?_ ?_ (right_of_law mW' fun h hh => ?_)
  · filter_upwards [hae] with ω hω
    show (idealMesh nodes .top).matrix n (freshParams binv nodes (fun k => (D (0, k) ω, D (1, k) ω)) (fun r => D (2, r) ω)) false = _
    rw [Mesh.matrix_eq hM, if_neg (by decide), visitOrder_false]
    congr 1
    show blockProduct n _ (executionOrder nodes) = _
    unfold blockProduct
    congr 2
    refine List.map_congr_left fun a ha => ?_
    rw [ideal_elements]
    simp only [freshParams, X, drawnEl]
    rw [randTheta_ideal, hω _ ⟨a, (executionOrder_perm nodes).mem_iff.1 ha, rfl⟩]
  · intro ω
    show (idealMesh nodes .top).matrix n (freshParams binv nodes (fun k => (D (0, k) ω, D (1, k) ω)) (fun r => D (2, r) ω)) false ∈ _
    rw [Mesh.matrix_eq hM, if_neg (by decide)]
    refine mul_mem (gamma_unitary n _) (blockProduct_unitary (fun a ha => hM.rails a (mem_visitOrder.1 ha)) fun a _ => ?_)
    rw [ideal_elements]
    exact mziElements_unitary _ _ _ _ _ _
  · have e : Law.of Pr _ mW' = torus n * wordLaw n ((executionOrder nodes).map fun a => (a.top, b a)) := Subtype.ext hlaw
    rw [e]
    exact word_right hn hsort hh

/-- C207: the rectangular mesh, set at random with `mesh.thetas = mesh.rand_theta()` and uniform external and output phases, is a Haar-random unitary
matrix. -/
theorem C207_rectangular {Ω : Type} [MeasurableSpace Ω] (Pr : Measure Ω) [IsProbabilityMeasure Pr] (n : ℕ) (hn : 1 ≤ n) (u : Matrix (Fin n) (Fin n) ℂ)
    (binv : ℕ → ℕ → ℝ → ℝ) (hb : IsBetaincinvFamily binv) (D : Fin 3 × ℕ → Ω → ℝ) (hD : UniformDraws Pr D) :
    HaarRandom Pr fun ω => (rectangular n u).1.matrix n
      (freshParams binv (rectangular n u).1.nodes (fun k => (D (0, k) ω, D (1, k) ω)) (fun r => D (2, r) ω)) false := by
  have h := C205_distance n u
  refine C207_network Pr n hn (rectangular n u).1.nodes (rectangular_wellFormed n u) ?_ (fun L a L' e => ?_) h.2 binv hb D hD
  · show ((rectNodes n n).map Node.id).Nodup
    rw [rectNodes_ids]
    exact List.nodup_range
  · have ha : a ∈ rectNodes n n := (executionOrder_perm _).mem_iff.1 (by show a ∈ executionOrder (rectangular n u).1.nodes; rw [e]; simp)
    have h1 : (rectangular n u).1.nodes.getD a.id default = a := rectNodes_get n n a ha
    rw [h1]
    exact ⟨(rectNodes_spec n n a ha).2.2.1, rectNodes_alpha n n a ha, (h.1 L a L' e).2, (h.1 L a L' e).1⟩

/-- C207: the triangular and the rectangular mesh of one size, set at random, have the same law. -/
theorem C207_same_law {Ω : Type} [MeasurableSpace Ω] (Pr : Measure Ω) [IsProbabilityMeasure Pr] (eps : ℝ) (heps : 0 ≤ eps) (n : ℕ) (hn : 2 ≤ n)
    (u : Matrix (Fin n) (Fin n) ℂ) (hu : u ∈ unitaryGroup (Fin n) ℂ) (binv : ℕ → ℕ → ℝ → ℝ) (hb : IsBetaincinvFamily binv)
    (D : Fin 3 × ℕ → Ω → ℝ) (hD : UniformDraws Pr D) :
    ∃ M P, cascade eps .top 0 n false u = some (M, P) ∧ ∀ B : Set (Matrix (Fin n) (Fin n) ℂ), MeasurableSet B →
      Pr {ω | M.matrix n (freshParams binv M.nodes (fun k => (D (0, k) ω, D (1, k) ω)) (fun r => D (2, r) ω)) false ∈ B} =
      Pr {ω | (rectangular n u).1.matrix n (freshParams binv (rectangular n u).1.nodes (fun k => (D (0, k) ω, D (1, k) ω)) (fun r => D (2, r) ω)) false ∈ B} := by
  obtain ⟨M, P, h1, h2⟩ := C206_triangular Pr eps heps n hn u hu binv hb D hD
  exact ⟨M, P, h1, fun B hB => h2.law_unique (C207_rectangular Pr n (by omega) u binv hb D hD) B hB⟩

/-- C207, the hypotheses can be met: there are a `betaincinv` and independent uniform draws, for which the 5-rail rectangular mesh is Haar-random. -/
theorem C207_case : ∃ (binv : ℕ → ℕ → ℝ → ℝ) (Ω : Type) (_ : MeasurableSpace Ω) (Pr : Measure Ω) (D : Fin 3 × ℕ → Ω → ℝ), IsBetaincinvFamily binv ∧
    UniformDraws Pr D ∧ HaarRandom Pr fun ω => (rectangular 5 1).1.matrix 5
      (freshParams binv (rectangular 5 1).1.nodes (fun k => (D (0, k) ω, D (1, k) ω)) (fun r => D (2, r) ω)) false := by
  have h : ∀ a b : ℕ, ∃ inv, (1 ≤ a → 1 ≤ b → IsBetaincinv a b inv) := by
    intro a b
    by_cases h1 : 1 ≤ a ∧ 1 ≤ b
    · obtain ⟨inv, hi⟩ := exists_betaincinv a b (by exact_mod_cast h1.1) (by exact_mod_cast h1.2)
      exact ⟨inv, fun _ _ => hi⟩
    · exact ⟨fun _ => 0, fun h2 h3 => absurd ⟨h2, h3⟩ h1⟩
  choose binv hb using h
  have hD : UniformDraws (Measure.infinitePi fun _ : Fin 3 × ℕ => uniform01) (fun i ω => ω i) :=
    ⟨fun i => measurable_pi_apply i, fun i => Measure.infinitePi_map_eval _ i, iIndepFun_infinitePi (X := fun _ x => x) fun _ => measurable_id⟩
  have := C207_rectangular (Measure.infinitePi fun _ : Fin 3 × ℕ => uniform01) 5 (by norm_num) 1 binv hb _ hD
  exact ⟨binv, Fin 3 × ℕ → ℝ, inferInstance, Measure.infinitePi fun _ : Fin 3 × ℕ => uniform01, fun i ω => ω i, hb, hD, this⟩

end Simphox
