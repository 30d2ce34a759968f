import Verif.Bowtie
import Verif.CosSineProps
import Verif.TreeLemmas
import Verif.VectorLemmas
import Mathlib.Tactic.LinearCombination
import Mathlib.Tactic.IntervalCases

/-!
# Properties of the bowtie mesh (C115)
-/

namespace Simphox

open Matrix Complex

/-- One call `cs(u)` behaved as documented: `svd` and `qr` returned factorisations of what they were given and the
result is computed from them. -/
def CsAt (cs : (n : ℕ) → Matrix (Fin n) (Fin n) ℂ → CsOut (n / 2) (n - n / 2)) {n : ℕ}
    (u : Matrix (Fin n) (Fin n) ℂ) : Prop :=
  ∃ (l0 : Matrix (Fin (n / 2)) (Fin (n / 2)) ℂ) (d00 : Fin (n / 2) → ℝ) (r0 : Matrix (Fin (n / 2)) (Fin (n / 2)) ℂ)
    (r1hp : Matrix (Fin (n - n / 2)) (Fin (n - n / 2)) ℂ) (dr1 : Fin (n / 2) → ℝ)
    (l1p : Matrix (Fin (n - n / 2)) (Fin (n - n / 2)) ℂ) (dl1 : Fin (n / 2) → ℝ),
    CsRun (csSplit u) l0 d00 r0 r1hp dr1 l1p dl1 ∧ cs n u = csDecomp (csSplit u) l0 d00 r0 r1hp dr1 l1p dl1

/-- The node list `_bowtie` returns depends on the sizes only. -/
def bowtieLayout (n start : ℕ) (layer : ℤ) : List BowtieNode :=
  if n < 2 then [] else
    (List.range (n / 2)).map (fun k => ⟨start + k, start + k + n / 2, layer⟩) ++
      (bowtieLayout (n / 2) start (layer - (n / 2 : ℕ)) ++
        (bowtieLayout (n / 2) start (layer + (n / 2 : ℕ)) ++
          (bowtieLayout (n - n / 2) (start + n / 2) (layer - (n / 2 : ℕ)) ++
            bowtieLayout (n - n / 2) (start + n / 2) (layer + (n / 2 : ℕ)))))
termination_by n
decreasing_by all_goals omega

theorem pyRow_ok {rows : ℕ} {i : ℤ} (h1 : -(rows : ℤ) ≤ i) (h2 : i < rows) : ∃ r, pyRow rows i = .ok r := by
  unfold pyRow
  by_cases h : 0 ≤ i
  · exact ⟨_, if_pos ⟨h, h2⟩⟩
  · rw [if_neg (by omega), if_pos ⟨h1, by omega⟩]; exact ⟨_, rfl⟩

theorem bowtieRec_ok (cs : (n : ℕ) → Matrix (Fin n) (Fin n) ℂ → CsOut (n / 2) (n - n / 2)) (N : ℕ) :
    ∀ (n : ℕ) (u : Matrix (Fin n) (Fin n) ℂ) (start : ℕ) (layer : ℤ) (s : BowtieState), 1 ≤ n → 2 ≤ N →
      start + n ≤ N → (N : ℤ) - 2 - layer + n ≤ N → layer - ((N : ℤ) - 2) + n ≤ N →
      ∃ s', bowtieRec cs N n u start layer s = .ok (s', bowtieLayout n start layer) := by
  intro n
  induction n using Nat.strong_induction_on with
  | _ n ih =>
    intro u start layer s hn hN hs hl1 hl2
    rw [bowtieRec, bowtieLayout, dif_neg (by omega)]
    by_cases h1 : n = 1
    · rw [dif_pos h1, if_pos (by omega)]
      obtain ⟨r, hr⟩ := pyRow_ok (rows := 2 * N - 1) (i := layer) (by omega) (by omega)
      rw [hr]
      simp only [bind, Except.bind]
      rw [if_pos (by omega)]
      exact ⟨_, rfl⟩
    · rw [dif_neg h1, if_neg (by omega)]
      obtain ⟨r, hr⟩ := pyRow_ok (rows := 2 * N - 3) (i := layer) (by omega) (by omega)
      obtain ⟨th, hth⟩ : ∃ th, writeTheta N s.thetas r start (cs n u).theta = .ok th := by
        unfold writeTheta
        rw [if_pos (by unfold stridedCount; rw [min_eq_right (by omega)]; omega)]
        exact ⟨_, rfl⟩
      obtain ⟨s1, e1⟩ := ih (n / 2) (by omega) (cs n u).l0 start (layer - (n / 2 : ℕ)) { s with thetas := th }
        (by omega) hN (by omega) (by omega) (by omega)
      obtain ⟨s2, e2⟩ := ih (n / 2) (by omega) (cs n u).r0 start (layer + (n / 2 : ℕ)) s1
        (by omega) hN (by omega) (by omega) (by omega)
      obtain ⟨s3, e3⟩ := ih (n - n / 2) (by omega) (cs n u).l1 (start + n / 2) (layer - (n / 2 : ℕ)) s2
        (by omega) hN (by omega) (by omega) (by omega)
      obtain ⟨s4, e4⟩ := ih (n - n / 2) (by omega) (cs n u).r1 (start + n / 2) (layer + (n / 2 : ℕ)) s3
        (by omega) hN (by omega) (by omega) (by omega)
      refine ⟨s4, ?_⟩
      simp only [bind, Except.bind, pure, Except.pure, hr, hth, e1, e2, e3, e4]

theorem bowtieLayout_bound : ∀ (n start : ℕ) (layer : ℤ), ∀ a ∈ bowtieLayout n start layer,
    layer - (n : ℤ) + 2 ≤ a.column ∧ a.column ≤ layer + n - 2 ∧ a.top < start + n ∧ a.bottom < start + n ∧
      start ≤ a.top ∧ a.top < a.bottom := by
  intro n
  induction n using Nat.strong_induction_on with
  | _ n ih =>
    intro start layer a ha
    rw [bowtieLayout] at ha
    split_ifs at ha with h
    · simp at ha
    · simp only [List.mem_append, List.mem_map, List.mem_range] at ha
      rcases ha with ⟨k, hk, rfl⟩ | ha | ha | ha | ha
      · refine ⟨?_, ?_, ?_, ?_, ?_, ?_⟩ <;> dsimp only <;> omega
      all_goals
        have := ih _ (by omega) _ _ _ ha
        omega

/-- The first node `_bowtie` makes is on the given layer. -/
theorem bowtieLayout_head {n : ℕ} (hn : 2 ≤ n) (start : ℕ) (layer : ℤ) :
    ∃ a ∈ bowtieLayout n start layer, a.column = layer := by
  rw [bowtieLayout, if_neg (by omega)]
  refine ⟨⟨start + 0, start + 0 + n / 2, layer⟩, ?_, rfl⟩
  apply List.mem_append_left
  exact List.mem_map.2 ⟨0, List.mem_range.2 (by omega), rfl⟩

theorem mem_bowtieNodes {N : ℕ} {raw : List BowtieNode} {a : Node} (h : a ∈ bowtieNodes N raw) :
    ∃ b ∈ raw, a.column = b.column.toNat ∧ a.top = b.top ∧ a.bottom = b.bottom := by
  unfold bowtieNodes at h
  rw [List.mem_mapIdx] at h
  obtain ⟨i, hi, rfl⟩ := h
  exact ⟨raw[i], List.getElem_mem hi, rfl, rfl, rfl⟩

theorem bowtieNodes_mem {N : ℕ} {raw : List BowtieNode} {b : BowtieNode} (h : b ∈ raw) :
    ∃ a ∈ bowtieNodes N raw, a.column = b.column.toNat ∧ a.top = b.top ∧ a.bottom = b.bottom := by
  obtain ⟨i, hi, rfl⟩ := List.getElem_of_mem h
  refine ⟨⟨i, raw[i].top, raw[i].bottom, N, 1, 1, raw[i].column.toNat⟩, ?_, rfl, rfl, rfl⟩
  unfold bowtieNodes
  rw [List.mem_mapIdx]
  exact ⟨i, hi, rfl⟩

/-- For an even size at least 4, the column before the middle one is empty. -/
theorem bowtieLayout_gap {n : ℕ} (hn : 4 ≤ n) (he : n % 2 = 0) : ∀ a ∈ bowtieLayout n 0 ((n : ℤ) - 2),
    a.column ≠ (n : ℤ) - 3 := by
  intro a ha
  rw [bowtieLayout, if_neg (by omega)] at ha
  simp only [List.mem_append, List.mem_map, List.mem_range] at ha
  rcases ha with ⟨k, hk, rfl⟩ | ha | ha | ha | ha
  · dsimp only; omega
  all_goals
    have := bowtieLayout_bound _ _ _ _ ha
    omega

/-- **C115.** `bowtie(u)` raises `ValueError` for every even size from 4 on, whatever the matrix and whatever
the factorisation routines return. -/
theorem C115_even_counterexample (cs : (n : ℕ) → Matrix (Fin n) (Fin n) ℂ → CsOut (n / 2) (n - n / 2)) (n : ℕ)
    (hn : 4 ≤ n) (he : Even n) (u : Matrix (Fin n) (Fin n) ℂ) : bowtie cs n u = .error .valueError := by
  have he' : n % 2 = 0 := Nat.even_iff.1 he
  obtain ⟨s, hs⟩ := bowtieRec_ok cs n n u 0 ((n : ℤ) - 2) ⟨fun _ _ => 0, fun _ _ => 0⟩ (by omega) (by omega) (by omega)
    (by omega) (by omega)
  unfold bowtie
  rw [if_neg (by omega), hs]
  simp only [bind, Except.bind]
  rw [if_pos]
  rw [List.any_eq_true]
  refine ⟨n - 3, ?_, ?_⟩
  · rw [List.mem_range]
    obtain ⟨b, hb, hbc⟩ := bowtieLayout_head (n := n) (by omega) 0 ((n : ℤ) - 2)
    obtain ⟨a, ha, hac, -, -⟩ := bowtieNodes_mem (N := n) hb
    have := column_lt_numColumns ha
    omega
  · rw [List.isEmpty_iff, columnNodes, List.filter_eq_nil_iff]
    intro a ha
    obtain ⟨b, hb, hbc, -, -⟩ := mem_bowtieNodes ha
    have h1 := bowtieLayout_gap hn he' b hb
    have h2 := bowtieLayout_bound _ _ _ b hb
    simp only [decide_eq_true_eq]
    omega

/-- **C115.** For sizes 0 and 1 the allocation of the phase arrays raises. -/
theorem C115_small_counterexample (cs : (n : ℕ) → Matrix (Fin n) (Fin n) ℂ → CsOut (n / 2) (n - n / 2)) (n : ℕ)
    (hn : n < 2) (u : Matrix (Fin n) (Fin n) ℂ) : bowtie cs n u = .error .valueError := by
  unfold bowtie; rw [if_pos hn]

/-- Every column of the layout of an odd size is used. -/
theorem bowtieLayout_odd : ∀ (n start : ℕ) (layer c : ℤ), 2 ≤ n → n % 2 = 1 ∨ c = layer - n + 2 ∨ c = layer + n - 2 →
    layer - n + 2 ≤ c → c ≤ layer + n - 2 → ∃ a ∈ bowtieLayout n start layer, a.column = c := by
  intro n
  induction n using Nat.strong_induction_on with
  | _ n ih =>
    intro start layer c hn hodd h1 h2
    by_cases hc : c = layer
    · subst hc; exact bowtieLayout_head hn start c
    rw [bowtieLayout, if_neg (by omega)]
    simp only [List.mem_append]
    have hn3 : 3 ≤ n := by omega
    -- the larger child reaches the ends, one of the two children is odd
    have key : ∀ lay : ℤ, (lay - (n - n / 2 : ℕ) + 2 ≤ c ∧ c ≤ lay + (n - n / 2 : ℕ) - 2) →
        (n % 2 = 1 ∨ c = lay - (n - n / 2 : ℕ) + 2 ∨ c = lay + (n - n / 2 : ℕ) - 2) →
        (∃ a ∈ bowtieLayout (n / 2) start lay, a.column = c) ∨
          (∃ a ∈ bowtieLayout (n - n / 2) (start + n / 2) lay, a.column = c) := by
      intro lay hb hor
      by_cases hp : (n - n / 2) % 2 = 1 ∨ c = lay - (n - n / 2 : ℕ) + 2 ∨ c = lay + (n - n / 2 : ℕ) - 2
      · exact Or.inr (ih _ (by omega) _ _ _ (by omega) hp hb.1 hb.2)
      · exact Or.inl (ih _ (by omega) _ _ _ (by omega) (by omega) (by omega) (by omega))
    rcases lt_or_gt_of_ne hc with hlt | hgt
    · rcases key (layer - (n / 2 : ℕ)) (by omega) (by omega) with ⟨a, ha, e⟩ | ⟨a, ha, e⟩
      · exact ⟨a, Or.inr (Or.inl ha), e⟩
      · exact ⟨a, Or.inr (Or.inr (Or.inr (Or.inl ha))), e⟩
    · rcases key (layer + (n / 2 : ℕ)) (by omega) (by omega) with ⟨a, ha, e⟩ | ⟨a, ha, e⟩
      · exact ⟨a, Or.inr (Or.inr (Or.inl ha)), e⟩
      · exact ⟨a, Or.inr (Or.inr (Or.inr (Or.inr ha))), e⟩

/-- `_bowtie` makes `n (n - 1) / 2` nodes. -/
theorem bowtieLayout_length : ∀ (n start : ℕ) (layer : ℤ), 2 * (bowtieLayout n start layer).length = n * (n - 1) := by
  intro n
  induction n using Nat.strong_induction_on with
  | _ n ih =>
    intro start layer
    rw [bowtieLayout]
    split_ifs with h
    · interval_cases n <;> simp
    · simp only [List.length_append, List.length_map, List.length_range, mul_add]
      rw [ih (n / 2) (by omega), ih (n / 2) (by omega), ih (n - n / 2) (by omega), ih (n - n / 2) (by omega)]
      obtain ⟨m, hm | hm⟩ := Nat.even_or_odd' n
      · subst hm
        obtain ⟨j, rfl⟩ : ∃ j, m = j + 1 := ⟨m - 1, by omega⟩
        have e1 : 2 * (j + 1) / 2 = j + 1 := by omega
        have e2 : 2 * (j + 1) - (j + 1) = j + 1 := by omega
        have e3 : 2 * (j + 1) - 1 = 2 * j + 1 := by omega
        rw [e1, e2, e3]; simp only [Nat.add_sub_cancel]; ring
      · subst hm
        obtain ⟨j, rfl⟩ : ∃ j, m = j + 1 := ⟨m - 1, by omega⟩
        have e1 : (2 * (j + 1) + 1) / 2 = j + 1 := by omega
        have e2 : 2 * (j + 1) + 1 - (j + 1) = j + 2 := by omega
        have e3 : j + 2 - 1 = j + 1 := by omega
        rw [e1, e2, e3]; simp only [Nat.add_sub_cancel]; ring

/-- The turn of the loop for a column with a single node, when the row of `thetas` has one nonzero entry. -/
theorem bowtieColumn_single {N : ℕ} {nodes : List Node} {thetas : ℕ → ℕ → ℝ} (st : BowtieLoop) {k : ℕ} {a : Node}
    {x : ℝ} (hcol : columnNodes nodes k = [a]) (hx : x ≠ 0) (i : ℕ) (hi : i < N) (hxi : thetas k i = x)
    (hz : ∀ j < N, j ≠ i → thetas k j = 0) :
    bowtieColumn N nodes thetas st k = .ok
      { theta := Function.update st.theta a.id x
        phi := Function.update st.phi a.id (st.phis k a.top - st.phis k a.bottom)
        phis := Function.update (Function.update st.phis k (Function.update (st.phis k) a.top (st.phis k a.bottom)))
          (k + 1) (fun r => modTwoPi (st.phis (k + 1) r +
            Function.update (st.phis k) a.top (st.phis k a.bottom) r)) } := by
  classical
  have hv : ((List.range N).map (thetas k)).filter (fun x => decide (x ≠ 0)) = [x] := by
    have e : List.range N = List.range i ++ (i :: (List.range (N - i - 1)).map (fun j => i + 1 + j)) := by
      apply List.ext_getElem
      · simp; omega
      · intro m h1 h2
        simp only [List.length_range] at h1
        rw [List.getElem_range, List.getElem_append]
        split_ifs with h
        · simp
        · simp only [List.length_range, not_lt] at h
          rw [List.getElem_cons]
          split_ifs with h'
          · simp only [List.length_range] at h'; omega
          · simp only [List.length_range] at h'
            simp only [List.length_range, List.getElem_map, List.getElem_range]; omega
    rw [e, List.map_append, List.filter_append, List.map_cons, List.filter_cons_of_pos (by simpa [hxi] using hx)]
    rw [List.filter_eq_nil_iff.2, List.filter_eq_nil_iff.2]
    · simp [hxi]
    · intro y hy
      simp only [List.mem_map, List.mem_range, exists_exists_and_eq_and] at hy
      obtain ⟨j, hj, rfl⟩ := hy
      simp [hz (i + 1 + j) (by omega) (by omega)]
    · intro y hy
      simp only [List.mem_map, List.mem_range] at hy
      obtain ⟨j, hj, rfl⟩ := hy
      simp [hz j (by omega) (by omega)]
  have hv' : ∀ (inst : DecidablePred fun x : ℝ => x ≠ 0),
      ((List.range N).map (thetas k)).filter (fun x => @decide (x ≠ 0) (inst x)) = [x] := by
    intro inst; convert hv
  unfold bowtieColumn
  simp only [hcol]
  rw [hv']
  simp [assign]

/-- A row of zeros is rejected. -/
theorem bowtieColumn_zero {N : ℕ} {nodes : List Node} {thetas : ℕ → ℕ → ℝ} (st : BowtieLoop) {k : ℕ}
    (hcol : columnNodes nodes k ≠ []) (hz : ∀ j < N, thetas k j = 0) :
    bowtieColumn N nodes thetas st k = .error .valueError := by
  have hv' : ∀ (inst : DecidablePred fun x : ℝ => x ≠ 0),
      ((List.range N).map (thetas k)).filter (fun x => @decide (x ≠ 0) (inst x)) = [] := by
    intro inst
    rw [List.filter_eq_nil_iff]
    intro y hy
    simp only [List.mem_map, List.mem_range] at hy
    obtain ⟨j, hj, rfl⟩ := hy
    simp [hz j hj]
  unfold bowtieColumn
  simp only []
  rw [hv']
  rw [if_neg, if_neg]
  · simp
  · intro h; exact hcol (List.length_eq_zero_iff.1 h.symm)

theorem bowtie_two (cs : (n : ℕ) → Matrix (Fin n) (Fin n) ℂ → CsOut (n / 2) (n - n / 2))
    (u : Matrix (Fin 2) (Fin 2) ℂ) :
    ((cs 2 u).theta ⟨0, by decide⟩ = 0 → bowtie cs 2 u = .error .valueError) ∧
    ((cs 2 u).theta ⟨0, by decide⟩ ≠ 0 → ∃ P : Params,
      bowtie cs 2 u = .ok (idealMesh [⟨0, 0, 1, 2, 1, 1, 0⟩] .top, P) ∧
      P.thetas 0 = (cs 2 u).theta ⟨0, by decide⟩ * 2 ∧
      P.phis 0 = arg ((cs 2 u).r0 ⟨0, by decide⟩ ⟨0, by decide⟩) - arg ((cs 2 u).r1 ⟨0, by decide⟩ ⟨0, by decide⟩) ∧
      P.gammas 0 = modTwoPi (arg ((cs 2 u).l0 ⟨0, by decide⟩ ⟨0, by decide⟩) +
        arg ((cs 2 u).r1 ⟨0, by decide⟩ ⟨0, by decide⟩)) ∧
      P.gammas 1 = modTwoPi (arg ((cs 2 u).l1 ⟨0, by decide⟩ ⟨0, by decide⟩) +
        arg ((cs 2 u).r1 ⟨0, by decide⟩ ⟨0, by decide⟩))) := by
  have hrec : ∃ s : BowtieState, bowtieRec cs 2 2 u 0 ((2 : ℕ) - 2 : ℤ) ⟨fun _ _ => 0, fun _ _ => 0⟩ =
      .ok (s, [⟨0, 1, 0⟩]) ∧ s.thetas 0 0 = (cs 2 u).theta ⟨0, by decide⟩ ∧ s.thetas 0 1 = 0 ∧
      s.phis 1 0 = arg ((cs 2 u).r0 ⟨0, by decide⟩ ⟨0, by decide⟩) ∧
      s.phis 1 1 = arg ((cs 2 u).r1 ⟨0, by decide⟩ ⟨0, by decide⟩) ∧
      s.phis 2 0 = arg ((cs 2 u).l0 ⟨0, by decide⟩ ⟨0, by decide⟩) ∧
      s.phis 2 1 = arg ((cs 2 u).l1 ⟨0, by decide⟩ ⟨0, by decide⟩) := by
    refine ⟨?_, ?_, ?_⟩
    rotate_left
    · rw [bowtieRec, dif_neg (by decide), dif_neg (by decide)]
      have e1 : pyRow (2 * 2 - 3) ((2 : ℕ) - 2 : ℤ) = .ok 0 := by decide
      have e2 : ∀ (th : Fin (2 / 2) → ℝ) (a : ℕ → ℕ → ℝ), writeTheta 2 a 0 0 th = .ok (set2 a 0 0 (th ⟨0, by decide⟩)) := by
        intro th a
        unfold writeTheta
        rw [if_pos (by decide)]
        rfl
      have leaf : ∀ (w : Matrix (Fin 1) (Fin 1) ℂ) (st : ℕ) (hst : st < 2) (lay : ℤ) (r : ℕ) (s : BowtieState),
          pyRow 3 lay = .ok r → bowtieRec cs 2 1 w st lay s =
            .ok ({ s with phis := set2 s.phis r st (s.phis r st + arg (w 0 0)) }, []) := by
        intro w st hst lay r s hr
        rw [bowtieRec, dif_neg (by decide), dif_pos rfl]
        show (pyRow 3 lay >>= _) = _
        rw [hr]
        simp only [bind, Except.bind]
        rw [if_pos hst]
        rfl
      simp only [e1, bind, Except.bind, e2]
      erw [leaf _ 0 (by decide) _ 2 _ (by decide)]
      simp only
      erw [leaf _ 0 (by decide) _ 1 _ (by decide)]
      simp only
      erw [leaf _ 1 (by decide) _ 2 _ (by decide)]
      simp only
      erw [leaf _ 1 (by decide) _ 1 _ (by decide)]
      rfl
    · refine ⟨?_, ?_, ?_, ?_, ?_, ?_⟩ <;> simp [set2]
  obtain ⟨s, hs, t0, t1, p10, p11, p20, p21⟩ := hrec
  have hnodes : bowtieNodes 2 [⟨0, 1, 0⟩] = [⟨0, 0, 1, 2, 1, 1, 0⟩] := rfl
  have hcols : numColumns [(⟨0, 0, 1, 2, 1, 1, 0⟩ : Node)] = 1 := by decide
  have hcol : columnNodes [(⟨0, 0, 1, 2, 1, 1, 0⟩ : Node)] 0 = [⟨0, 0, 1, 2, 1, 1, 0⟩] := by decide
  have hrange : List.range 2 = [0, 1] := rfl
  unfold bowtie
  rw [if_neg (by decide), hs]
  simp only [bind, Except.bind, hnodes, hcols, List.range_one, hcol, List.any_cons, List.any_nil, List.isEmpty_cons,
    Bool.or_self, Bool.false_eq_true, if_false, List.foldlM_cons, List.foldlM_nil, pure, Except.pure]
  constructor
  · intro h0
    rw [bowtieColumn_zero _ (by rw [hcol]; simp)]
    intro j hj
    interval_cases j
    · rw [t0, h0]
    · exact t1
  · intro h0
    rw [bowtieColumn_single _ hcol h0 0 (by decide) t0 (by
      intro j hj hj0
      interval_cases j
      · exact absurd rfl hj0
      · exact t1)]
    refine ⟨_, rfl, ?_, ?_, ?_, ?_⟩
    · simp
    · simp only [Function.update_self, p10, p11, zero_add]
    · simp only [show 2 * 2 - 3 = 0 + 1 from rfl, Function.update_self]
      rw [p11, show (0 : ℕ) + 1 + 1 = 2 from rfl, p20]
    · simp only [show 2 * 2 - 3 = 0 + 1 from rfl, Function.update_self, ne_eq, one_ne_zero, not_false_eq_true,
        Function.update_of_ne]
      rw [p11, show (0 : ℕ) + 1 + 1 = 2 from rfl, p21]

/-- The elements of an ideal top-style node with `theta = 2 t`. -/
noncomputable def topEl (t phi : ℝ) : Elements where
  t11 := I * exp (I * t) * Real.sin t * exp (I * phi)
  t12 := I * exp (I * t) * Real.cos t * exp (I * phi)
  t21 := I * exp (I * t) * Real.cos t
  t22 := -(I * exp (I * t) * Real.sin t)

theorem topElements (t phi : ℝ) : mziElements .top false 0 0 0 0 (t * 2) phi = topEl t phi := by
  have h2 : ((Real.sqrt 2 : ℝ) : ℂ) * (Real.sqrt 2 : ℝ) = 2 := by
    rw [← ofReal_mul, Real.mul_self_sqrt (by norm_num)]; norm_num
  have he : exp (I * ((t * 2 : ℝ) : ℂ)) = exp (I * t) * exp (I * t) := by
    rw [← exp_add]; congr 1; push_cast; ring
  have hinv : exp (I * t) * exp (-(I * t)) = 1 := by rw [← exp_add]; simp
  have hs : (Real.sin t : ℂ) = (exp (-(I * t)) - exp (I * t)) * I / 2 := by
    rw [ofReal_sin, Complex.sin]; congr 3 <;> congr 1 <;> ring
  have hc : (Real.cos t : ℂ) = (exp (I * t) + exp (-(I * t))) / 2 := by
    rw [ofReal_cos, Complex.cos]; congr 3 <;> ring
  simp only [topEl, mziElements, mziTerms, add_zero, Real.cos_pi_div_four, Real.sin_pi_div_four, mul_zero, zero_div,
    ofReal_zero, he, hs, hc, Bool.false_eq_true, if_false, sub_zero, mul_one, exp_zero, Elements.mk.injEq]
  push_cast
  have hI : I * I = -1 := I_mul_I
  generalize exp (I * (t : ℂ)) = e at *
  generalize exp (-(I * (t : ℂ))) = f at *
  refine ⟨?_, ?_, ?_, ?_⟩
  · linear_combination ((e * e - 1) / 4 * exp (I * phi)) * h2 - (e * (f - e) / 2 * exp (I * phi)) * hI +
      (1 / 2 * exp (I * phi)) * hinv
  · linear_combination (I * (1 + e * e) / 4 * exp (I * phi)) * h2 - (I / 2 * exp (I * phi)) * hinv
  · linear_combination (I * (1 + e * e) / 4) * h2 - (I / 2) * hinv
  · linear_combination ((1 - e * e) / 4) * h2 + (e * (f - e) / 2) * hI - 1 / 2 * hinv

/-- The matrix of a mesh with one top-style node on two rails. -/
theorem bowtie_two_matrix (P : Params) (t : ℝ) (ht : P.thetas 0 = t * 2) :
    (idealMesh [⟨0, 0, 1, 2, 1, 1, 0⟩] .top).matrix 2 P false =
      (I * exp (I * t)) • !![exp (I * P.gammas 0) * Real.sin t * exp (I * P.phis 0), exp (I * P.gammas 0) * Real.cos t;
        exp (I * P.gammas 1) * Real.cos t * exp (I * P.phis 0), -(exp (I * P.gammas 1) * Real.sin t)] := by
  have hcols : numColumns [(⟨0, 0, 1, 2, 1, 1, 0⟩ : Node)] = 1 := by decide
  have hcol : columnNodes [(⟨0, 0, 1, 2, 1, 1, 0⟩ : Node)] 0 = [⟨0, 0, 1, 2, 1, 1, 0⟩] := by decide
  have hel : (idealMesh [⟨0, 0, 1, 2, 1, 1, 0⟩] .top).elements P false 0 = topEl t (P.phis 0) := by
    show mziElements .top false 0 0 0 0 (P.thetas 0) (P.phis 0) = _
    rw [ht]; exact topElements t (P.phis 0)
  ext i j
  show (idealMesh [⟨0, 0, 1, 2, 1, 1, 0⟩] .top).apply P false _ _ = _
  unfold Mesh.apply
  rw [if_neg (by decide)]
  show gammaApply P.gammas (columnsApply _ [⟨0, 0, 1, 2, 1, 1, 0⟩] (columnOrder [⟨0, 0, 1, 2, 1, 1, 0⟩] false) _) _ = _
  unfold columnOrder gammaApply columnsApply
  rw [if_neg (by decide), hcols]
  simp only [List.range_one, List.foldl_cons, List.foldl_nil, hcol]
  unfold parallelTransform columnWrites scatter
  simp only [List.map_cons, List.map_nil, List.cons_append, List.nil_append, List.foldl_cons, List.foldl_nil, hel]
  fin_cases i <;> fin_cases j <;> simp [topEl] <;> ring

theorem one_unitary_norm {a : Matrix (Fin 1) (Fin 1) ℂ} (h : a ∈ unitaryGroup (Fin 1) ℂ) : ‖a 0 0‖ = 1 := by
  have h1 := congrFun (congrFun (mem_unitaryGroup_iff.1 h) 0) 0
  rw [mul_apply, Fin.sum_univ_one, star_apply, one_apply_eq, RCLike.star_def, mul_conj] at h1
  have h2 : normSq (a 0 0) = 1 := by exact_mod_cast h1
  rw [normSq_eq_norm_sq] at h2
  nlinarith [norm_nonneg (a 0 0)]

theorem eq_exp_arg {z : ℂ} (h : ‖z‖ = 1) : exp (I * arg z) = z := by
  have := norm_mul_exp_arg_mul_I z
  rw [h] at this
  simpa [mul_comm] using this

/-- What a run of `cs` gives when the upper block has size 1. -/
theorem csOne {p : ℕ} {u : Matrix (Fin 1 ⊕ Fin p) (Fin 1 ⊕ Fin p) ℂ} {l0 : Matrix (Fin 1) (Fin 1) ℂ} {d00 : Fin 1 → ℝ}
    {r0 : Matrix (Fin 1) (Fin 1) ℂ} {r1hp : Matrix (Fin p) (Fin p) ℂ} {dr1 : Fin 1 → ℝ}
    {l1p : Matrix (Fin p) (Fin p) ℂ} {dl1 : Fin 1 → ℝ} (h : CsRun u l0 d00 r0 r1hp dr1 l1p dl1)
    (o : CsOut 1 p) (ho : o = csDecomp u l0 d00 r0 r1hp dr1 l1p dl1) :
    ‖o.l0 0 0‖ = 1 ∧ ‖o.r0 0 0‖ = 1 ∧ u (.inl 0) (.inl 0) = o.l0 0 0 * Real.sin (o.theta 0) * o.r0 0 0 ∧
      0 ≤ o.theta 0 ∧ o.theta 0 ≤ Real.pi / 2 ∧
      (o.theta 0 ≠ Real.pi / 2 → o.l1 ∈ unitaryGroup (Fin p) ℂ ∧ o.r1 ∈ unitaryGroup (Fin p) ℂ ∧
        csinv o.l0 o.l1 o.r0 o.r1 o.theta = .ok u) := by
  have hd := h.le_one 0
  have h0 := h.svd.nonneg 0
  have hl0 : o.l0 = l0 := by rw [ho]; rfl
  have hr0 : o.r0 = r0 := by rw [ho]; rfl
  have hth : o.theta 0 = Real.arcsin (d00 0) := by rw [ho]; rfl
  refine ⟨?_, ?_, ?_, ?_, ?_, ?_⟩
  · rw [hl0]; exact one_unitary_norm h.svd.left
  · rw [hr0]; exact one_unitary_norm h.svd.right
  · rw [hl0, hr0, hth, Real.sin_arcsin (by linarith) hd]
    have := congrFun (congrFun h.svd.prod 0) 0
    exact (by simpa [mul_apply] using this : u.toBlocks₁₁ 0 0 = _)
  · rw [hth]; exact Real.arcsin_nonneg.2 h0
  · rw [hth]; exact Real.arcsin_le_pi_div_two _
  · intro hne
    have hne' : ∀ i, d00 i ≠ 1 := by
      intro i hi
      have : i = 0 := Subsingleton.elim _ _
      subst this
      apply hne
      rw [hth, hi, Real.arcsin_one]
    obtain ⟨-, hb1, -, hb2, -⟩ := C94_blocks_partial h hne' o ho.symm
    exact ⟨hb1, hb2, (C94_roundtrip_iff_partial h o ho.symm).2 hne'⟩

/-- The entries of `u` in terms of the result of `cs` when both blocks have size 1. -/
theorem csTwo {u : Matrix (Fin 1 ⊕ Fin 1) (Fin 1 ⊕ Fin 1) ℂ} {l0 r0 l1 r1 : Matrix (Fin 1) (Fin 1) ℂ}
    {theta : Fin 1 → ℝ} (h : csinv l0 l1 r0 r1 theta = .ok u) :
    u (.inl 0) (.inl 0) = l0 0 0 * Real.sin (theta 0) * r0 0 0 ∧
    u (.inl 0) (.inr 0) = l0 0 0 * Real.cos (theta 0) * r1 0 0 ∧
    u (.inr 0) (.inl 0) = l1 0 0 * Real.cos (theta 0) * r0 0 0 ∧
    u (.inr 0) (.inr 0) = -(l1 0 0 * Real.sin (theta 0) * r1 0 0) := by
  rw [C28_blocks] at h
  have h' := Except.ok.inj h
  subst h'
  simp [mul_apply]

/-- The entry `[1, 0]` of a 3 x 3 matrix in terms of the result of `cs`. -/
theorem csThree {u : Matrix (Fin 1 ⊕ Fin 2) (Fin 1 ⊕ Fin 2) ℂ} {l0 r0 : Matrix (Fin 1) (Fin 1) ℂ}
    {l1 r1 : Matrix (Fin 2) (Fin 2) ℂ} {theta : Fin 1 → ℝ} (h : csinv l0 l1 r0 r1 theta = .ok u) :
    u (.inr 0) (.inl 0) = l1 0 0 * Real.cos (theta 0) * r0 0 0 := by
  rw [csinv, if_pos (Or.inr rfl)] at h
  have h' := Except.ok.inj h
  subst h'
  simp [mul_apply, csMiddle, Fin.sum_univ_two]

/-- The call `cs(u)` for a 2 x 2 matrix. -/
theorem CsAt.two {cs : (n : ℕ) → Matrix (Fin n) (Fin n) ℂ → CsOut (n / 2) (n - n / 2)} {u : Matrix (Fin 2) (Fin 2) ℂ}
    (h : CsAt cs u) :
    let o : CsOut 1 1 := cs 2 u
    ‖o.l0 0 0‖ = 1 ∧ ‖o.r0 0 0‖ = 1 ∧ u 0 0 = o.l0 0 0 * Real.sin (o.theta 0) * o.r0 0 0 ∧
      0 ≤ o.theta 0 ∧ o.theta 0 ≤ Real.pi / 2 ∧
      (o.theta 0 ≠ Real.pi / 2 → ‖o.l1 0 0‖ = 1 ∧ ‖o.r1 0 0‖ = 1 ∧ u 0 1 = o.l0 0 0 * Real.cos (o.theta 0) * o.r1 0 0 ∧
        u 1 0 = o.l1 0 0 * Real.cos (o.theta 0) * o.r0 0 0 ∧
        u 1 1 = -(o.l1 0 0 * Real.sin (o.theta 0) * o.r1 0 0)) := by
  obtain ⟨l0, d00, r0, r1hp, dr1, l1p, dl1, hrun, ho⟩ := h
  intro o
  obtain ⟨h1, h2, h3, h4, h5, h6⟩ := csOne (p := 1) hrun o ho
  refine ⟨h1, h2, h3, h4, h5, fun hne => ?_⟩
  obtain ⟨h7, h8, h9⟩ := h6 hne
  obtain ⟨-, e2, e3, e4⟩ := csTwo h9
  exact ⟨one_unitary_norm h7, one_unitary_norm h8, e2, e3, e4⟩

/-- **C115.** On two modes: when the top left entry is zero `bowtie(u)` raises `ValueError`; when it is neither zero nor
of modulus 1 the mesh returned implements `u` up to the global phase `i exp(i theta)`, `sin theta = |u[0, 0]|`. -/
theorem C115_two_partial (cs : (n : ℕ) → Matrix (Fin n) (Fin n) ℂ → CsOut (n / 2) (n - n / 2))
    (u : Matrix (Fin 2) (Fin 2) ℂ) (h : CsAt cs u) :
    (u 0 0 = 0 → bowtie cs 2 u = .error .valueError) ∧
    (u 0 0 ≠ 0 → ‖u 0 0‖ ≠ 1 → ∃ (M : Mesh) (P : Params), bowtie cs 2 u = .ok (M, P) ∧
      M.matrix 2 P false = (I * exp (I * Real.arcsin ‖u 0 0‖)) • u) := by
  obtain ⟨h1, h2, h3, h4, h5, h6⟩ := h.two
  obtain ⟨b1, b2⟩ := bowtie_two cs u
  generalize cs 2 u = o' at *
  obtain ⟨o, rfl⟩ : ∃ o : CsOut 1 1, o = o' := ⟨o', rfl⟩
  change o.theta 0 = 0 → _ at b1
  change o.theta 0 ≠ 0 → _ at b2
  have hs0 : 0 ≤ Real.sin (o.theta 0) := Real.sin_nonneg_of_nonneg_of_le_pi h4 (by linarith [Real.pi_pos])
  have hnorm : ‖u 0 0‖ = Real.sin (o.theta 0) := by
    rw [h3, norm_mul, norm_mul, h1, h2, norm_real, Real.norm_of_nonneg hs0]; ring
  have harc : Real.arcsin ‖u 0 0‖ = o.theta 0 := by
    rw [hnorm]; exact Real.arcsin_sin (by linarith [Real.pi_pos]) h5
  constructor
  · intro hu
    apply b1
    rw [← harc, hu, norm_zero, Real.arcsin_zero]
  · intro hu hu1
    have hne0 : o.theta 0 ≠ 0 := by
      intro e; apply hu; rw [h3, e]; simp
    have hne1 : o.theta 0 ≠ Real.pi / 2 := by
      intro e; apply hu1; rw [hnorm, e, Real.sin_pi_div_two]
    obtain ⟨n1, n2, e01, e10, e11⟩ := h6 hne1
    obtain ⟨P, hP, q1, q2, q3, q4⟩ := b2 hne0
    refine ⟨_, P, hP, ?_⟩
    rw [bowtie_two_matrix P (o.theta 0) q1, q2, q3, q4, harc]
    congr 1
    rw [exp_modTwoPi, exp_modTwoPi]
    change !![exp (I * ((arg (o.l0 0 0) + arg (o.r1 0 0) : ℝ) : ℂ)) * _ * exp (I * ((arg (o.r0 0 0) - arg (o.r1 0 0) : ℝ) : ℂ)), _;
      exp (I * ((arg (o.l1 0 0) + arg (o.r1 0 0) : ℝ) : ℂ)) * _ * _, _] = u
    push_cast
    rw [mul_add, mul_add, mul_sub, exp_add, exp_add, exp_sub, eq_exp_arg h1, eq_exp_arg h2, eq_exp_arg n1, eq_exp_arg n2]
    have hr : o.r1 0 0 ≠ 0 := by rw [← norm_pos_iff, n2]; exact one_pos
    ext i j
    fin_cases i <;> fin_cases j
    · simp [h3]; field_simp
    · simp [e01]; ring
    · simp [e10]; field_simp
    · simp [e11]; ring

/-- **C115.** On two modes no unitary matrix is implemented: whenever `bowtie(u)` returns a mesh, its matrix is not `u`. -/
theorem C115_two_counterexample (cs : (n : ℕ) → Matrix (Fin n) (Fin n) ℂ → CsOut (n / 2) (n - n / 2))
    (u : Matrix (Fin 2) (Fin 2) ℂ) (h : CsAt cs u) (M : Mesh) (P : Params) (hok : bowtie cs 2 u = .ok (M, P)) :
    M.matrix 2 P false ≠ u := by
  obtain ⟨h1, h2, h3, h4, h5, h6⟩ := h.two
  obtain ⟨b1, b2⟩ := bowtie_two cs u
  generalize cs 2 u = o' at *
  obtain ⟨o, rfl⟩ : ∃ o : CsOut 1 1, o = o' := ⟨o', rfl⟩
  change o.theta 0 = 0 → _ at b1
  change o.theta 0 ≠ 0 → _ at b2
  have hne0 : o.theta 0 ≠ 0 := by
    intro e; rw [b1 e] at hok; exact absurd hok (by simp)
  obtain ⟨P', hP, q1, q2, q3, q4⟩ := b2 hne0
  rw [hP] at hok
  obtain ⟨rfl, rfl⟩ := Prod.mk.inj (Except.ok.inj hok)
  have hs : 0 < Real.sin (o.theta 0) :=
    Real.sin_pos_of_pos_of_lt_pi (lt_of_le_of_ne h4 (Ne.symm hne0)) (by linarith [Real.pi_pos])
  intro heq
  have h00 := congrFun (congrFun heq 0) 0
  rw [bowtie_two_matrix P' (o.theta 0) q1, q2, q3, exp_modTwoPi] at h00
  change (I * exp (I * (o.theta 0 : ℂ))) * (exp (I * ((arg (o.l0 0 0) + arg (o.r1 0 0) : ℝ) : ℂ)) * _ *
    exp (I * ((arg (o.r0 0 0) - arg (o.r1 0 0) : ℝ) : ℂ))) = u 0 0 at h00
  have hu : exp (I * ((arg (o.l0 0 0) + arg (o.r1 0 0) : ℝ) : ℂ)) * (Real.sin (o.theta 0) : ℂ) *
      exp (I * ((arg (o.r0 0 0) - arg (o.r1 0 0) : ℝ) : ℂ)) = u 0 0 := by
    push_cast
    rw [mul_add, mul_sub, exp_add, exp_sub, eq_exp_arg h1, eq_exp_arg h2, h3]
    have := exp_ne_zero (I * (arg (o.r1 0 0) : ℂ))
    field_simp
    rw [ofReal_sin]; ring
  rw [hu] at h00
  have hu0 : u 0 0 ≠ 0 := by
    rw [← norm_pos_iff, h3, norm_mul, norm_mul, h1, h2, norm_real, Real.norm_of_nonneg hs.le]
    simpa using hs
  have h1' : I * exp (I * (o.theta 0 : ℂ)) = 1 := mul_right_cancel₀ hu0 (by rw [h00, one_mul])
  have hre := congrArg Complex.re h1'
  rw [mul_comm I (o.theta 0 : ℂ), exp_mul_I] at hre
  simp [← ofReal_sin, ← ofReal_cos] at hre
  linarith

/-- `_bowtie` on three rails: the layout and the coupling angles. -/
theorem bowtieRec_three (cs : (n : ℕ) → Matrix (Fin n) (Fin n) ℂ → CsOut (n / 2) (n - n / 2))
    (u : Matrix (Fin 3) (Fin 3) ℂ) :
    ∃ s : BowtieState, bowtieRec cs 3 3 u 0 ((3 : ℕ) - 2 : ℤ) ⟨fun _ _ => 0, fun _ _ => 0⟩ =
      .ok (s, [⟨0, 1, 1⟩, ⟨1, 2, 0⟩, ⟨1, 2, 2⟩]) ∧
      s.thetas = set2 (set2 (set2 (fun _ _ => 0) 1 0 ((cs 3 u).theta ⟨0, by decide⟩))
        0 1 ((cs 2 (cs 3 u).l1).theta ⟨0, by decide⟩)) 2 1 ((cs 2 (cs 3 u).r1).theta ⟨0, by decide⟩) := by
  have leaf : ∀ (w : Matrix (Fin 1) (Fin 1) ℂ) (st : ℕ), st < 3 → ∀ (lay : ℤ) (r : ℕ) (s : BowtieState),
      pyRow 5 lay = .ok r → ∃ s' : BowtieState, bowtieRec cs 3 1 w st lay s = .ok (s', []) ∧ s'.thetas = s.thetas := by
    intro w st hst lay r s hr
    rw [bowtieRec, dif_neg (by decide), dif_pos rfl]
    have : pyRow (2 * 3 - 1) lay = .ok r := hr
    rw [this]
    simp only [bind, Except.bind]
    rw [if_pos hst]
    exact ⟨_, rfl, rfl⟩
  have hw : ∀ (th : Fin 1 → ℝ) (a : ℕ → ℕ → ℝ) (r st : ℕ), st + 2 ≤ 3 → writeTheta 3 a r st th = .ok (set2 a r st (th 0)) := by
    intro th a r st hst
    unfold writeTheta
    rw [if_pos (by unfold stridedCount; omega)]
    rfl
  have block : ∀ (w : Matrix (Fin 2) (Fin 2) ℂ) (lay : ℤ) (r rm rp : ℕ) (s : BowtieState),
      pyRow 3 lay = .ok r → pyRow 5 (lay - 1) = .ok rm → pyRow 5 (lay + 1) = .ok rp →
      ∃ s' : BowtieState, bowtieRec cs 3 2 w 1 lay s = .ok (s', [⟨1, 2, lay⟩]) ∧
        s'.thetas = set2 s.thetas r 1 ((cs 2 w).theta ⟨0, by decide⟩) := by
    intro w lay r rm rp s hr hm hp
    rw [bowtieRec, dif_neg (by decide), dif_neg (by decide)]
    have h0 : pyRow (2 * 3 - 3) lay = .ok r := hr
    have hw1 := hw (cs 2 w).theta s.thetas r 1 (by decide)
    obtain ⟨s1, e1, f1⟩ := leaf (cs 2 w).l0 1 (by decide) (lay - 1) rm
      ⟨set2 s.thetas r 1 ((cs 2 w).theta ⟨0, by decide⟩), s.phis⟩ hm
    obtain ⟨s2, e2, f2⟩ := leaf (cs 2 w).r0 1 (by decide) (lay + 1) rp s1 hp
    obtain ⟨s3, e3, f3⟩ := leaf (cs 2 w).l1 2 (by decide) (lay - 1) rm s2 hm
    obtain ⟨s4, e4, f4⟩ := leaf (cs 2 w).r1 2 (by decide) (lay + 1) rp s3 hp
    refine ⟨s4, ?_, by rw [f4, f3, f2, f1]⟩
    simp only [bind, Except.bind, pure, Except.pure, h0]
    erw [hw1]
    simp only
    erw [e1]
    simp only
    erw [e2]
    simp only
    erw [e3]
    simp only
    erw [e4]
    rfl
  rw [bowtieRec, dif_neg (by decide), dif_neg (by decide)]
  have h0 : pyRow (2 * 3 - 3) ((3 : ℕ) - 2 : ℤ) = .ok 1 := by decide
  have hw1 := hw (cs 3 u).theta (fun _ _ => 0) 1 0 (by decide)
  obtain ⟨s1, e1, f1⟩ := leaf (cs 3 u).l0 0 (by decide) 0 0
    ⟨set2 (fun _ _ => 0) 1 0 ((cs 3 u).theta ⟨0, by decide⟩), fun _ _ => 0⟩ (by decide)
  obtain ⟨s2, e2, f2⟩ := leaf (cs 3 u).r0 0 (by decide) 2 2 s1 (by decide)
  obtain ⟨s3, e3, f3⟩ := block (cs 3 u).l1 0 0 4 1 s2 (by decide) (by decide) (by decide)
  obtain ⟨s4, e4, f4⟩ := block (cs 3 u).r1 2 2 1 3 s3 (by decide) (by decide) (by decide)
  refine ⟨s4, ?_, by rw [f4, f3, f2, f1]⟩
  simp only [bind, Except.bind, pure, Except.pure, h0]
  erw [hw1]
  simp only
  erw [e1]
  simp only
  erw [e2]
  simp only
  erw [e3]
  simp only
  erw [e4]
  rfl

/-- The nodes of the bowtie on three rails. -/
def bowtie3 : List Node := [⟨0, 0, 1, 3, 1, 1, 1⟩, ⟨1, 1, 2, 3, 1, 1, 0⟩, ⟨2, 1, 2, 3, 1, 1, 2⟩]

theorem bowtie_three (cs : (n : ℕ) → Matrix (Fin n) (Fin n) ℂ → CsOut (n / 2) (n - n / 2))
    (u : Matrix (Fin 3) (Fin 3) ℂ) :
    ((cs 3 u).theta ⟨0, by decide⟩ = 0 ∨ (cs 2 (cs 3 u).l1).theta ⟨0, by decide⟩ = 0 ∨
      (cs 2 (cs 3 u).r1).theta ⟨0, by decide⟩ = 0 → bowtie cs 3 u = .error .valueError) ∧
    ((cs 3 u).theta ⟨0, by decide⟩ ≠ 0 → (cs 2 (cs 3 u).l1).theta ⟨0, by decide⟩ ≠ 0 →
      (cs 2 (cs 3 u).r1).theta ⟨0, by decide⟩ ≠ 0 → ∃ P : Params, bowtie cs 3 u = .ok (idealMesh bowtie3 .top, P) ∧
      P.thetas 0 = (cs 3 u).theta ⟨0, by decide⟩ * 2 ∧ P.thetas 1 = (cs 2 (cs 3 u).l1).theta ⟨0, by decide⟩ * 2 ∧
      P.thetas 2 = (cs 2 (cs 3 u).r1).theta ⟨0, by decide⟩ * 2) := by
  obtain ⟨s, hs, hth⟩ := bowtieRec_three cs u
  generalize (cs 3 u).theta ⟨0, _⟩ = t0 at *
  generalize (cs 2 (cs 3 u).l1).theta ⟨0, _⟩ = t1 at *
  generalize (cs 2 (cs 3 u).r1).theta ⟨0, _⟩ = t2 at *
  have hnodes : bowtieNodes 3 [⟨0, 1, 1⟩, ⟨1, 2, 0⟩, ⟨1, 2, 2⟩] = bowtie3 := rfl
  have hcols : numColumns bowtie3 = 3 := by decide
  have hrange : List.range 3 = [0, 1, 2] := rfl
  have c0 : columnNodes bowtie3 0 = [⟨1, 1, 2, 3, 1, 1, 0⟩] := by decide
  have c1 : columnNodes bowtie3 1 = [⟨0, 0, 1, 3, 1, 1, 1⟩] := by decide
  have c2 : columnNodes bowtie3 2 = [⟨2, 1, 2, 3, 1, 1, 2⟩] := by decide
  have v0 : s.thetas 0 1 = t1 ∧ ∀ j < 3, j ≠ 1 → s.thetas 0 j = 0 := by
    rw [hth]; refine ⟨by simp [set2], fun j hj hne => ?_⟩
    interval_cases j <;> simp [set2] at hne ⊢
  have v1 : s.thetas 1 0 = t0 ∧ ∀ j < 3, j ≠ 0 → s.thetas 1 j = 0 := by
    rw [hth]; refine ⟨by simp [set2], fun j hj hne => ?_⟩
    interval_cases j <;> simp [set2] at hne ⊢
  have v2 : s.thetas 2 1 = t2 ∧ ∀ j < 3, j ≠ 1 → s.thetas 2 j = 0 := by
    rw [hth]; refine ⟨by simp [set2], fun j hj hne => ?_⟩
    interval_cases j <;> simp [set2] at hne ⊢
  have allz : ∀ (k i : ℕ) (x : ℝ), s.thetas k i = x ∧ (∀ j < 3, j ≠ i → s.thetas k j = 0) → x = 0 →
      ∀ j < 3, s.thetas k j = 0 := by
    intro k i x h hx j hj
    by_cases e : j = i
    · rw [e, h.1, hx]
    · exact h.2 j hj e
  unfold bowtie
  rw [if_neg (by decide), hs]
  simp only [bind, Except.bind, hnodes, hcols, hrange, List.any_cons, List.any_nil, c0, c1, c2, List.isEmpty_cons,
    Bool.or_self, Bool.false_eq_true, if_false, List.foldlM_cons, List.foldlM_nil, pure, Except.pure]
  constructor
  · intro h
    by_cases h1 : t1 = 0
    · rw [bowtieColumn_zero _ (by rw [c0]; simp) (allz 0 1 t1 v0 h1)]
    rw [bowtieColumn_single _ c0 h1 1 (by decide) v0.1 v0.2]
    simp only
    by_cases h0 : t0 = 0
    · rw [bowtieColumn_zero _ (by rw [c1]; simp) (allz 1 0 t0 v1 h0)]
    rw [bowtieColumn_single _ c1 h0 0 (by decide) v1.1 v1.2]
    simp only
    have h2 : t2 = 0 := by tauto
    rw [bowtieColumn_zero _ (by rw [c2]; simp) (allz 2 1 t2 v2 h2)]
  · intro h0 h1 h2
    rw [bowtieColumn_single _ c0 h1 1 (by decide) v0.1 v0.2]
    simp only
    rw [bowtieColumn_single _ c1 h0 0 (by decide) v1.1 v1.2]
    simp only
    rw [bowtieColumn_single _ c2 h2 1 (by decide) v2.1 v2.2]
    refine ⟨_, rfl, ?_, ?_, ?_⟩ <;> simp

/-- The entry `[0, 1]` of the matrix of the bowtie on three rails. -/
theorem bowtie3_entry (P : Params) (t0 t1 : ℝ) (h0 : P.thetas 0 = t0 * 2) (h1 : P.thetas 1 = t1 * 2) :
    ‖(idealMesh bowtie3 .top).matrix 3 P false 0 1‖ = |Real.cos t0| * |Real.sin t1| := by
  have hcols : numColumns bowtie3 = 3 := by decide
  have hrange : List.range 3 = [0, 1, 2] := rfl
  have c0 : columnNodes bowtie3 0 = [⟨1, 1, 2, 3, 1, 1, 0⟩] := by decide
  have c1 : columnNodes bowtie3 1 = [⟨0, 0, 1, 3, 1, 1, 1⟩] := by decide
  have c2 : columnNodes bowtie3 2 = [⟨2, 1, 2, 3, 1, 1, 2⟩] := by decide
  have e0 : (idealMesh bowtie3 .top).elements P false 0 = topEl t0 (P.phis 0) := by
    show mziElements .top false 0 0 0 0 (P.thetas 0) (P.phis 0) = _
    rw [h0]; exact topElements t0 (P.phis 0)
  have e1 : (idealMesh bowtie3 .top).elements P false 1 = topEl t1 (P.phis 1) := by
    show mziElements .top false 0 0 0 0 (P.thetas 1) (P.phis 1) = _
    rw [h1]; exact topElements t1 (P.phis 1)
  have hval : (idealMesh bowtie3 .top).matrix 3 P false 0 1 =
      exp (I * P.gammas 0) * ((topEl t0 (P.phis 0)).t21 * (topEl t1 (P.phis 1)).t11) := by
    show (idealMesh bowtie3 .top).apply P false _ _ = _
    unfold Mesh.apply
    rw [if_neg (by decide)]
    show gammaApply P.gammas (columnsApply _ bowtie3 (columnOrder bowtie3 false) _) _ = _
    unfold columnOrder gammaApply columnsApply
    rw [if_neg (by decide), hcols, hrange]
    simp only [List.foldl_cons, List.foldl_nil, c0, c1, c2]
    unfold parallelTransform columnWrites scatter
    simp only [List.map_cons, List.map_nil, List.cons_append, List.nil_append, List.foldl_cons, List.foldl_nil, e0, e1]
    simp
  have nI : ∀ x : ℝ, ‖exp (I * x)‖ = 1 := fun x => by rw [mul_comm]; exact norm_exp_ofReal_mul_I x
  rw [hval]
  simp only [topEl, norm_mul, nI, norm_I, norm_real, Real.norm_eq_abs, one_mul, mul_one]

/-- **C115.** On three modes the mesh has its factors in the wrong order: whenever `bowtie(u)` returns a mesh (and
`|u[0, 0]| < 1`), the modulus of its entry `[0, 1]` is that of `u[1, 0]`; so `u` is not implemented, not even up to
phases on inputs and outputs, unless `|u[0, 1]| = |u[1, 0]|`. -/
theorem C115_three_counterexample (cs : (n : ℕ) → Matrix (Fin n) (Fin n) ℂ → CsOut (n / 2) (n - n / 2))
    (u : Matrix (Fin 3) (Fin 3) ℂ) (h : CsAt cs u) (hl : CsAt cs (n := 2) (cs 3 u).l1) (h1 : ‖u 0 0‖ ≠ 1)
    (M : Mesh) (P : Params) (hok : bowtie cs 3 u = .ok (M, P)) :
    ‖M.matrix 3 P false 0 1‖ = ‖u 1 0‖ ∧ (‖u 0 1‖ ≠ ‖u 1 0‖ → M.matrix 3 P false ≠ u) := by
  have key : ‖M.matrix 3 P false 0 1‖ = ‖u 1 0‖ := by
    obtain ⟨b1, b2⟩ := bowtie_three cs u
    by_cases hz : (cs 3 u).theta ⟨0, by decide⟩ = 0 ∨ (cs 2 (cs 3 u).l1).theta ⟨0, by decide⟩ = 0 ∨
      (cs 2 (cs 3 u).r1).theta ⟨0, by decide⟩ = 0
    · rw [b1 hz] at hok; exact absurd hok (by simp)
    push Not at hz
    obtain ⟨P', hP, q0, q1, -⟩ := b2 hz.1 hz.2.1 hz.2.2
    rw [hP] at hok
    obtain ⟨rfl, rfl⟩ := Prod.mk.inj (Except.ok.inj hok)
    rw [bowtie3_entry P' _ _ q0 q1]
    obtain ⟨m1, m2, m3, m4, m5, -⟩ := hl.two
    obtain ⟨l0, d00, r0, r1hp, dr1, l1p, dl1, hrun, ho⟩ := h
    obtain ⟨n1, n2, n3, n4, n5, n6⟩ := csOne (p := 2) hrun (cs 3 u) ho
    have hne : (cs 3 u).theta ⟨0, by decide⟩ ≠ Real.pi / 2 := by
      intro e
      apply h1
      have n3' : u 0 0 = _ := n3
      rw [n3', norm_mul, norm_mul, n1, n2, norm_real]
      erw [e]
      simp
    obtain ⟨-, -, n7⟩ := n6 hne
    have hu : ‖u 1 0‖ = ‖(cs 3 u).l1 ⟨0, by decide⟩ ⟨0, by decide⟩‖ * |Real.cos ((cs 3 u).theta ⟨0, by decide⟩)| := by
      have e : u 1 0 = _ := csThree n7
      rw [e, norm_mul, norm_mul, n2, norm_real, Real.norm_eq_abs, mul_one]
      rfl
    have hl' : ‖(cs 3 u).l1 ⟨0, by decide⟩ ⟨0, by decide⟩‖ =
        |Real.sin ((cs 2 (cs 3 u).l1).theta ⟨0, by decide⟩)| := by
      have e : (cs 3 u).l1 ⟨0, by decide⟩ ⟨0, by decide⟩ = _ := m3
      rw [e, norm_mul, norm_mul, m1, m2, norm_real, Real.norm_eq_abs, one_mul, mul_one]
      rfl
    rw [hu, hl', mul_comm]
  exact ⟨key, fun hne e => hne (by rw [← key, e])⟩

/-! ### Concrete cases -/

/-- The routines on the matrices below: every factor of size 1 is 1 and the angle is `arcsin u[0, 0]`. -/
noncomputable def csEx : (n : ℕ) → Matrix (Fin n) (Fin n) ℂ → CsOut (n / 2) (n - n / 2)
  | 2, w => { l0 := 1, l1 := 1, r0 := 1, r1 := 1, theta := fun _ => Real.arcsin (w 0 0).re }
  | 3, w =>
    { l0 := 1, r0 := 1, theta := fun _ => Real.arcsin (w 0 0).re
      l1 := (!![3 / 5, 4 / 5; 4 / 5, -3 / 5] : Matrix (Fin 2) (Fin 2) ℂ)
      r1 := (!![5 / 13, 12 / 13; 12 / 13, -5 / 13] : Matrix (Fin 2) (Fin 2) ℂ) }
  | _, _ => { l0 := 1, l1 := 1, r0 := 1, r1 := 1, theta := fun _ => 0 }

/-- The blocks of a real symmetric 2 x 2 reflection. -/
noncomputable def reflBlocks (s c : ℝ) : Matrix (Fin 1 ⊕ Fin 1) (Fin 1 ⊕ Fin 1) ℂ :=
  fromBlocks (Matrix.of fun _ _ => (s : ℂ)) (Matrix.of fun _ _ => (c : ℂ)) (Matrix.of fun _ _ => (c : ℂ))
    (Matrix.of fun _ _ => (-s : ℂ))

theorem csRun_refl (s c : ℝ) (hs : 0 ≤ s) (h : s * s + c * c = 1) :
    CsRun (reflBlocks s c) 1 (fun _ => s) 1 1 (fun _ => c) 1 (fun _ => c) := by
  have hC : (s : ℂ) * s + c * c = 1 := by exact_mod_cast h
  unfold reflBlocks
  have he : ∀ a b : Fin 1, (1 : Matrix (Fin 1) (Fin 1) ℂ) a b = 1 := fun a b => by
    rw [Subsingleton.elim a b, one_apply_eq]
  refine ⟨Or.inl rfl, ?_, ⟨one_mem _, one_mem _, fun _ => hs, ?_⟩,
    ⟨Matrix.of fun _ _ => (c : ℂ), one_mem _, ?_, ?_, ?_⟩, ⟨Matrix.of fun _ _ => (c : ℂ), one_mem _, ?_, ?_, ?_⟩⟩
  · rw [mem_unitaryGroup_iff, star_eq_conjTranspose, fromBlocks_conjTranspose, fromBlocks_multiply, ← fromBlocks_one]
    congr 1 <;> ext a b
    · simp [mul_apply, he, hC]
    · simp [mul_apply]; ring
    · simp [mul_apply]; ring
    · simp [mul_apply, he]; linear_combination hC
  · ext a b
    rw [Subsingleton.elim a b]
    simp
  · intro a b hab; omega
  · intro a b hab; rfl
  · ext a b; simp
  · intro a b hab; omega
  · intro a b hab; rfl
  · ext a b; simp

theorem csEx_two (s c : ℝ) (hs : 0 ≤ s) (hc : 0 < c) (h : s * s + c * c = 1) :
    CsAt csEx (n := 2) !![(s : ℂ), c; c, -s] := by
  have e : csSplit (n := 2) !![(s : ℂ), c; c, -s] = reflBlocks s c := by
    ext a b; rcases a with a | a <;> rcases b with b | b <;> fin_cases a <;> fin_cases b <;> rfl
  refine ⟨1, fun _ => s, 1, 1, fun _ => c, 1, fun _ => c, ?_, ?_⟩
  · rw [e]; exact csRun_refl s c hs h
  · have hcs : csEx 2 !![(s : ℂ), c; c, -s] =
        ({ l0 := 1, l1 := 1, r0 := 1, r1 := 1, theta := fun _ => Real.arcsin s } : CsOut 1 1) := by
      simp [csEx]
    have hd : csDecomp (reflBlocks s c) 1 (fun _ => s) 1 1 (fun _ => c) 1 (fun _ => c) =
        ({ l0 := 1, l1 := 1, r0 := 1, r1 := 1, theta := fun _ => Real.arcsin s } : CsOut 1 1) := by
      have hsg : ∀ j : Fin 1, signDiag (m := 1) (fun _ => c) j = 1 := by
        intro j; simp [signDiag, sign_pos hc]
      unfold csDecomp
      simp only [hsg, CsOut.mk.injEq, true_and, and_true]
      constructor
      · ext a b; simp
      · ext a b
        rw [Subsingleton.elim a b]
        simp
    rw [e]
    exact hcs.trans hd.symm

/-- A 3 x 3 orthogonal matrix. -/
noncomputable def bowtieU3 : Matrix (Fin 3) (Fin 3) ℂ :=
  !![3 / 5, 4 / 13, 48 / 65; 12 / 25, 3 / 5, -16 / 25; 16 / 25, -48 / 65, -69 / 325]

theorem refl_unitary (a b : ℝ) (h : a * a + b * b = 1) :
    (!![(a : ℂ), b; b, -a] : Matrix (Fin 2) (Fin 2) ℂ) ∈ unitaryGroup (Fin 2) ℂ := by
  have hC : (a : ℂ) * a + b * b = 1 := by exact_mod_cast h
  rw [mem_unitaryGroup_iff, star_eq_conjTranspose]
  ext i j
  fin_cases i <;> fin_cases j <;> simp [mul_apply, Fin.sum_univ_two] <;>
    first | linear_combination hC | ring1

/-- Its blocks. -/
noncomputable def bowtieB3 : Matrix (Fin 1 ⊕ Fin 2) (Fin 1 ⊕ Fin 2) ℂ :=
  fromBlocks (Matrix.of fun _ _ => 3 / 5) (!![4 / 13, 48 / 65]) (!![12 / 25; 16 / 25])
    (!![3 / 5, -16 / 25; -48 / 65, -69 / 325])

noncomputable def bowtieL3 : Matrix (Fin 2) (Fin 2) ℂ := !![3 / 5, 4 / 5; 4 / 5, -3 / 5]
noncomputable def bowtieR3 : Matrix (Fin 2) (Fin 2) ℂ := !![5 / 13, 12 / 13; 12 / 13, -5 / 13]

theorem csRun_three : CsRun bowtieB3 1 (fun _ => 3 / 5) 1 bowtieR3 (fun _ => 4 / 5) bowtieL3 (fun _ => 4 / 5) := by
  have hL : bowtieL3 ∈ unitaryGroup (Fin 2) ℂ := by
    have := refl_unitary (3 / 5) (4 / 5) (by norm_num)
    push_cast at this
    rwa [show -(3 / 5 : ℂ) = -3 / 5 by ring] at this
  have hR : bowtieR3 ∈ unitaryGroup (Fin 2) ℂ := by
    have := refl_unitary (5 / 13) (12 / 13) (by norm_num)
    push_cast at this
    rwa [show -(5 / 13 : ℂ) = -5 / 13 by ring] at this
  refine ⟨Or.inr rfl, ?_, ⟨one_mem _, one_mem _, fun _ => by norm_num, ?_⟩, ⟨!![4 / 5; 0], hR, ?_, ?_, ?_⟩,
    ⟨!![4 / 5; 0], hL, ?_, ?_, ?_⟩⟩
  · rw [mem_unitaryGroup_iff, star_eq_conjTranspose, bowtieB3, fromBlocks_conjTranspose, fromBlocks_multiply,
      ← fromBlocks_one]
    congr 1 <;> ext a b <;> fin_cases a <;> fin_cases b <;>
      simp [mul_apply, vecMul, dotProduct, Fin.sum_univ_two] <;> simp only [map_ofNat] <;> norm_num
  · ext a b
    rw [Subsingleton.elim a b]
    simp [bowtieB3]
  · intro a b hab
    fin_cases a <;> fin_cases b <;> simp at hab ⊢
  · intro a b hab
    fin_cases a <;> fin_cases b <;> simp at hab ⊢
  · ext a b
    fin_cases a <;> fin_cases b <;> simp [bowtieB3, bowtieR3, mul_apply, Fin.sum_univ_two] <;> norm_num
  · intro a b hab
    fin_cases a <;> fin_cases b <;> simp at hab ⊢
  · intro a b hab
    fin_cases a <;> fin_cases b <;> simp at hab ⊢
  · ext a b
    fin_cases a <;> fin_cases b <;> simp [bowtieB3, bowtieL3, mul_apply, Fin.sum_univ_two] <;> norm_num

theorem csDecomp_three :
    csDecomp bowtieB3 1 (fun _ => 3 / 5) 1 bowtieR3 (fun _ => 4 / 5) bowtieL3 (fun _ => 4 / 5) =
      { l0 := 1, r0 := 1, theta := fun _ => Real.arcsin (3 / 5), l1 := bowtieL3, r1 := bowtieR3 } := by
  have hsg : ∀ j : Fin 2, signDiag (m := 1) (fun _ => 4 / 5) j = 1 := by
    intro j
    fin_cases j <;> simp [signDiag]
  have h1 : (Matrix.of fun i j => bowtieL3 i j * (signDiag (m := 1) (fun _ => 4 / 5) j : ℂ)) = bowtieL3 := by
    ext i j; simp [hsg]
  have h2 : (Matrix.of fun i j => bowtieR3 i j * (signDiag (m := 1) (fun _ => 4 / 5) j : ℂ))ᴴ = bowtieR3 := by
    ext i j
    fin_cases i <;> fin_cases j <;> simp [hsg, bowtieR3]
  have h3 : (bowtieL3ᴴ * bowtieB3.toBlocks₂₂ * bowtieR3ᴴ) 1 1 = 1 := by
    simp [bowtieL3, bowtieR3, bowtieB3, mul_apply, Fin.sum_univ_two]; simp only [map_ofNat]; norm_num
  unfold csDecomp
  simp only [h1, h2, CsOut.mk.injEq, true_and, and_true]
  ext i j
  fin_cases i
  · simp
  · show (if 1 ≤ 1 then (bowtieL3ᴴ * bowtieB3.toBlocks₂₂ * bowtieR3ᴴ) 1 1 * bowtieR3 1 j else bowtieR3 1 j) = bowtieR3 1 j
    rw [if_pos le_rfl, h3, one_mul]

theorem csEx_three : CsAt csEx bowtieU3 := by
  have e : csSplit bowtieU3 = bowtieB3 := by
    ext a b; rcases a with a | a <;> rcases b with b | b <;> fin_cases a <;> fin_cases b <;> rfl
  refine ⟨1, fun _ => 3 / 5, 1, bowtieR3, fun _ => 4 / 5, bowtieL3, fun _ => 4 / 5, ?_, ?_⟩
  · rw [e]; exact csRun_three
  · rw [e]
    have : (bowtieU3 0 0).re = 3 / 5 := by simp [bowtieU3]
    have hcs : csEx 3 bowtieU3 = ({ l0 := 1, r0 := 1, theta := fun _ => Real.arcsin (3 / 5)
                                    l1 := bowtieL3, r1 := bowtieR3 } : CsOut 1 2) := by
      simp only [csEx, this]
      rfl
    exact hcs.trans csDecomp_three.symm

/-- `bowtie` on this matrix returns a mesh, and the mesh does not implement the matrix. -/
example : ∃ (M : Mesh) (P : Params), bowtie csEx 3 bowtieU3 = .ok (M, P) ∧ M.matrix 3 P false ≠ bowtieU3 := by
  have a1 : (bowtieU3 0 0).re = 3 / 5 := by simp [bowtieU3]
  have hl : CsAt csEx (n := 2) (csEx 3 bowtieU3).l1 := by
    have := csEx_two (3 / 5) (4 / 5) (by norm_num) (by norm_num) (by norm_num)
    push_cast at this
    rwa [show -(3 / 5 : ℂ) = -3 / 5 by ring] at this
  have p1 : (0 : ℝ) < Real.arcsin (3 / 5) := Real.arcsin_pos.2 (by norm_num)
  have p2 : (0 : ℝ) < Real.arcsin (5 / 13) := Real.arcsin_pos.2 (by norm_num)
  have t0 : (csEx 3 bowtieU3).theta ⟨0, by decide⟩ = Real.arcsin (3 / 5) := by
    show Real.arcsin (bowtieU3 0 0).re = _
    rw [a1]
  have t1 : (csEx 2 (csEx 3 bowtieU3).l1).theta ⟨0, by decide⟩ = Real.arcsin (3 / 5) := by
    show Real.arcsin (bowtieL3 0 0).re = _
    simp [bowtieL3]
  have t2 : (csEx 2 (csEx 3 bowtieU3).r1).theta ⟨0, by decide⟩ = Real.arcsin (5 / 13) := by
    show Real.arcsin (bowtieR3 0 0).re = _
    simp [bowtieR3]
  obtain ⟨P, hP, -⟩ := (bowtie_three csEx bowtieU3).2 (by rw [t0]; exact p1.ne') (by rw [t1]; exact p1.ne')
    (by rw [t2]; exact p2.ne')
  refine ⟨_, P, hP, (C115_three_counterexample csEx bowtieU3 csEx_three hl ?_ _ P hP).2 ?_⟩
  · simp [bowtieU3]; norm_num
  · simp [bowtieU3]; norm_num

/-- A two-mode case of `C115_two_partial`. -/
example : ∃ (M : Mesh) (P : Params), bowtie csEx 2 !![((3 / 5 : ℝ) : ℂ), ((4 / 5 : ℝ) : ℂ); ((4 / 5 : ℝ) : ℂ), -((3 / 5 : ℝ) : ℂ)] = .ok (M, P) := by
  obtain ⟨M, P, h, -⟩ := (C115_two_partial csEx _ (csEx_two (3 / 5) (4 / 5) (by norm_num) (by norm_num) (by norm_num))).2
    (by simp) (by simp; norm_num)
  exact ⟨M, P, h⟩

/-- **C115.** For odd sizes from 3 on the layout is sound: `_bowtie` succeeds with `n (n - 1) / 2` nodes on different rails below `n`,
and every column from 0 to `2 n - 4` is used, so `circuit.columns` does not raise. -/
theorem C115_odd_layout_partial (cs : (n : ℕ) → Matrix (Fin n) (Fin n) ℂ → CsOut (n / 2) (n - n / 2)) (n : ℕ)
    (hn : 3 ≤ n) (hodd : Odd n) (u : Matrix (Fin n) (Fin n) ℂ) :
    ∃ (s : BowtieState) (raw : List BowtieNode),
      bowtieRec cs n n u 0 ((n : ℤ) - 2) ⟨fun _ _ => 0, fun _ _ => 0⟩ = .ok (s, raw) ∧
      2 * raw.length = n * (n - 1) ∧ (∀ a ∈ raw, a.top < a.bottom ∧ a.bottom < n ∧ 0 ≤ a.column ∧ a.column ≤ 2 * (n : ℤ) - 4) ∧
      ∀ c : ℤ, 0 ≤ c → c ≤ 2 * (n : ℤ) - 4 → ∃ a ∈ raw, a.column = c := by
  obtain ⟨s, hs⟩ := bowtieRec_ok cs n n u 0 ((n : ℤ) - 2) ⟨fun _ _ => 0, fun _ _ => 0⟩ (by omega) (by omega) (by omega)
    (by omega) (by omega)
  refine ⟨s, _, hs, bowtieLayout_length _ _ _, ?_, ?_⟩
  · intro a ha
    have := bowtieLayout_bound _ _ _ a ha
    omega
  · intro c h1 h2
    exact bowtieLayout_odd n 0 _ c (by omega) (Or.inl (Nat.odd_iff.1 hodd)) (by omega) (by omega)

end Simphox
