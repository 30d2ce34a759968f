import Verif.CascadeNodes
import Verif.FrobLemmas

/-! # The programming loop of `cascade` (ideal couplers) -/

namespace Simphox

open Matrix Complex

/-- Elements stored in the phase lists of a cascade. -/
noncomputable def listElements (style : PhaseStyle) (th ph : List ℝ) (k : ℕ) : Elements :=
  mziElements style false 0 0 0 0 (th.getD k 0) (ph.getD k 0)

/-- Nodes on rails below `k` leave other rails alone. -/
theorem seqApply_other (el : ℕ → Elements) (l : List Node) (r : ℕ) (h : ∀ a ∈ l, r ≠ a.top ∧ r ≠ a.bottom)
    (v : ℕ → ℂ) : seqApply el l v r = v r := by
  induction l generalizing v with
  | nil => rfl
  | cons a l ih =>
    rw [seqApply_cons, ih (fun b hb => h b (by simp [hb]))]
    have := h a (by simp)
    simp [nodeAct, this.1, this.2]

/-- Lossless nodes on rails below `k` conserve the power on these rails. -/
theorem seqApply_power (el : ℕ → Elements) (l : List Node) (k : ℕ)
    (hr : ∀ a ∈ l, a.top < k ∧ a.bottom < k ∧ a.top ≠ a.bottom)
    (hel : ∀ a ∈ l, (el a.id).mat ∈ unitaryGroup (Fin 2) ℂ) (v : ℕ → ℂ) :
    ∑ r : Fin k, ‖seqApply el l v r.val‖ ^ 2 = ∑ r : Fin k, ‖v r.val‖ ^ 2 := by
  have h1 := restrict_seqApply (el := el) l hr v
  have h2 := unitary_power (blockProduct_unitary (n := k) hr hel) (restrict k v)
  have h3 : ∀ r : Fin k, seqApply el l v r.val = (blockProduct k el l).mulVec (restrict k v) r := by
    intro r
    exact congrFun h1 r
  simp only [h3]
  exact h2

theorem seqApply_shift (el el' : ℕ → Elements) (N C : ℕ) (l : List Node)
    (h : ∀ a ∈ l, el (a.id + N) = el' a.id) (v : ℕ → ℂ) :
    seqApply el (l.map (shiftNode N C)) v = seqApply el' l v := by
  induction l generalizing v with
  | nil => rfl
  | cons a l ih =>
    rw [List.map_cons, seqApply_cons, seqApply_cons, ih (fun b hb => h b (by simp [hb]))]
    simp only [shiftNode, h a (by simp)]

theorem getD_mid (l th : List ℝ) (f : ℕ → ℝ) {i : ℕ} (m : ℕ) (hi : i < m) :
    (l ++ (List.range m).map f ++ th).getD (i + l.length) 0 = f i := by
  rw [List.getD_eq_getElem?_getD, List.append_assoc, List.getElem?_append_right (by omega), Nat.add_sub_cancel,
    List.getElem?_append_left (by simpa using hi)]
  simp [hi]

/-- What the loop of `cascade` over `k, ..., 1` does, starting in a consistent state. -/
theorem cascadeLoop_spec {style : PhaseStyle} (hs : style = .top ∨ style = .bottom) {eps : ℝ} (heps : 0 ≤ eps)
    (n : ℕ) (b : Bool) : ∀ (k : ℕ) (st : CascadeState), st.thetas.length = st.numNodes →
      st.phis.length = st.numNodes →
    ∃ st' th ph g, cascadeLoop eps style 0 n b (downTo k) st = some st' ∧
      st'.nodes = st.nodes ++ parts n b k st.numNodes st.numColumns ∧
      st'.thetas = st.thetas ++ th ∧ th.length = tri k ∧ st'.phis = st.phis ++ ph ∧ ph.length = tri k ∧
      st'.gammas = g ++ st.gammas ∧ g.length = k ∧
      (∀ i, i < k → g.getD i 0 = -arg (st'.w (i + 1) (i + 1))) ∧
      (∀ j, (fun r => st'.w r j) = seqApply (listElements style st'.thetas st'.phis)
        (execParts n b k st.numNodes st.numColumns) (fun r => st.w r j)) ∧
      (∀ c, 1 ≤ c → c ≤ k → ∑ r : Fin c, ‖st'.w r.val c‖ ^ 2 ≤ c * eps) := by
  intro k
  induction k with
  | zero =>
    intro st h1 h2
    refine ⟨st, [], [], [], rfl, by simp [parts], by simp, rfl, by simp, rfl, by simp, rfl, by simp, fun _ => rfl, ?_⟩
    intro c h1 h2; omega
  | succ k ih =>
    intro st hth hph
    obtain ⟨P, w, hp, hpw, hpd, hpg, _⟩ := programVectorUnit_spec hs heps 0 (by simp) (k + 1 + 1) n (k + 1)
      (by omega) b st.w (reachableRun_ideal heps style _ _ _)
    set st1 : CascadeState :=
      { nodes := st.nodes ++ subunitNodes n (k + 1) b st.numNodes st.numColumns
        thetas := st.thetas ++ (List.range (k + 1)).map P.thetas
        phis := st.phis ++ (List.range (k + 1)).map P.phis
        gammas := P.gammas (k + 1) :: st.gammas
        numColumns := st.numColumns + Simphox.numColumns (tree (k + 1 + 1) n b)
        numNodes := st.numNodes + (tree (k + 1 + 1) n b).length
        w := w } with hst1
    have hstep : cascadeStep eps style 0 n b st (k + 1) = some st1 := by
      simp [cascadeStep, hp, hst1]
    have hN : st1.numNodes = st.numNodes + (k + 1) := by simp [hst1, tree_length]
    obtain ⟨st', th, ph, g, e1, e2, e3, e4, e5, e6, e7, e8, e9, e10, e11⟩ := ih st1
      (by simp [hst1, hth, tree_length]) (by simp [hst1, hph, tree_length])
    have hrow : ∀ r j, k < r → st'.w r j = w r j := by
      intro r j hr
      have hc : st'.w r j = _ := congrFun (e10 j) r
      rw [hc, seqApply_other]
      intro a ha
      have := parts_rails ((execParts_perm n b k _ _).mem_iff.1 ha)
      omega
    have hel : ∀ i, i < k + 1 → listElements style st'.thetas st'.phis (i + st.numNodes) =
        programmedElements style 0 P i := by
      intro i hi
      have t1 : st'.thetas.getD (i + st.numNodes) 0 = P.thetas i := by
        rw [e3, ← hth]; exact getD_mid _ _ _ _ hi
      have t2 : st'.phis.getD (i + st.numNodes) 0 = P.phis i := by
        rw [e5, ← hph]; exact getD_mid _ _ _ _ hi
      unfold listElements programmedElements
      rw [t1, t2]
    refine ⟨st', (List.range (k + 1)).map P.thetas ++ th, (List.range (k + 1)).map P.phis ++ ph,
      g ++ [P.gammas (k + 1)], ?_, ?_, ?_, ?_, ?_, ?_, ?_, ?_, ?_, ?_, ?_⟩
    · rw [downTo_succ]; simp [cascadeLoop, hstep, e1]
    · rw [e2, hN, parts, ← List.append_assoc]
    · rw [e3]; simp [hst1]
    · simp [e4, tri]; omega
    · rw [e5]; simp [hst1]
    · simp [e6, tri]; omega
    · rw [e7]; simp [hst1]
    · simp [e8]
    · intro i hi
      rcases Nat.lt_succ_iff_lt_or_eq.1 hi with h | rfl
      · rw [← e9 i h]
        simp [List.getD_eq_getElem?_getD, List.getElem?_append, e8, h]
      · have : (g ++ [P.gammas (i + 1)]).getD i 0 = P.gammas (i + 1) := by
          simp [List.getD_eq_getElem?_getD, e8]
        rw [this, hrow (i + 1) (i + 1) (by omega)]
        exact hpg
    · intro j
      rw [e10 j, execParts, seqApply_append, hN]
      congr 1
      rw [seqApply_shift _ (programmedElements style 0 P)]
      · exact hpw j
      · intro a ha
        apply hel
        have : a.id ∈ (tree (k + 2) n b).map Node.id := List.mem_map_of_mem (mem_executionOrder.1 ha)
        rw [(tree_ids (k + 2) n b).mem_iff, List.mem_range] at this
        exact this
    · intro c hc1 hc2
      rcases Nat.lt_or_ge c (k + 1) with h | h
      · exact e11 c hc1 (by omega)
      · obtain rfl : c = k + 1 := by omega
        have hpow := seqApply_power (listElements style st'.thetas st'.phis)
          (execParts n b k st1.numNodes st1.numColumns) (k + 1)
          (fun a ha => by have := parts_rails ((execParts_perm n b k _ _).mem_iff.1 ha); omega)
          (fun a _ => mziElements_unitary _ _ _ _ _ _) (fun r => w r (k + 1))
        have hw : ∀ r : Fin (k + 1), st'.w r.val (k + 1) = seqApply (listElements style st'.thetas st'.phis)
          (execParts n b k st1.numNodes st1.numColumns) (fun r => w r (k + 1)) r.val :=
          fun r => congrFun (e10 (k + 1)) r.val
        simp only [hw]
        rw [hpow]
        calc ∑ r : Fin (k + 1), ‖w r.val (k + 1)‖ ^ 2 ≤ ∑ _r : Fin (k + 1), eps := by
              apply Finset.sum_le_sum
              intro r _
              have := hpd r.val (by have := r.isLt; omega)
              calc ‖w r.val (k + 1)‖ ^ 2 ≤ Real.sqrt eps ^ 2 := pow_le_pow_left₀ (norm_nonneg _) this 2
                _ = eps := Real.sq_sqrt heps
          _ = _ := by simp

end Simphox
