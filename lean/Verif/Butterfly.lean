import Verif.TreeExec
import Mathlib.Tactic.Ring

/-!
# Model of `butterfly` (`/repo/simphox/circuit/vector.py`) and of the renumbering in `ForwardMesh`
-/

namespace Simphox

/-- `_butterfly(n, n_rails, start, column)` (vector.py:48-73). All nodes get the default
`node_id = 0`. The Python recursion does not end for `n = 0`; here it returns no nodes. -/
def butterflyNodes (n nRails start column : ℕ) : List Node :=
  if _h : n ≤ 1 then []
  else
    let m := n / 2
    (List.range m).reverse.map (fun i =>
      { id := 0, top := start + i, bottom := start + m + i, n := nRails, alpha := m + 1,
        beta := m + 1, column := column }) ++
    (butterflyNodes m nRails start (column + 1) ++
      butterflyNodes (n - m) nRails (start + m) (column + 1))
termination_by n
decreasing_by all_goals omega

/-- The renumbering of node ids in `ForwardMesh.__post_init__` (forward.py:51-55): if all ids sum to
zero, ids become list positions. -/
def renumber (nodes : List Node) : List Node :=
  if (nodes.map Node.id).sum = 0 then nodes.zipIdx.map fun p => { p.1 with id := p.2 } else nodes

/-- `butterfly(n, n_rails)` (vector.py:93-105); the default is `n_rails = n`. -/
def butterfly (n nRails : ℕ) : List Node := invertColumns (renumber (butterflyNodes n nRails 0 0))

/-! ### Lemmas -/

theorem butterflyNodes_one {n : ℕ} (h : n ≤ 1) (R s c : ℕ) : butterflyNodes n R s c = [] := by
  rw [butterflyNodes, dif_pos h]

theorem butterflyNodes_step {n : ℕ} (h : 2 ≤ n) (R s c : ℕ) : butterflyNodes n R s c =
    (List.range (n / 2)).reverse.map (fun i =>
      { id := 0, top := s + i, bottom := s + n / 2 + i, n := R, alpha := n / 2 + 1,
        beta := n / 2 + 1, column := c }) ++
    (butterflyNodes (n / 2) R s (c + 1) ++ butterflyNodes (n - n / 2) R (s + n / 2) (c + 1)) := by
  rw [butterflyNodes, dif_neg (by omega)]

theorem butterflyNodes_mem {n : ℕ} (h : 2 ≤ n) {R s c : ℕ} {a : Node} : a ∈ butterflyNodes n R s c ↔
    (∃ i < n / 2, a = ⟨0, s + i, s + n / 2 + i, R, n / 2 + 1, n / 2 + 1, c⟩) ∨
    a ∈ butterflyNodes (n / 2) R s (c + 1) ∨ a ∈ butterflyNodes (n - n / 2) R (s + n / 2) (c + 1) := by
  rw [butterflyNodes_step h]
  simp only [List.mem_append, List.mem_map, List.mem_reverse, List.mem_range]
  constructor
  · rintro (⟨i, hi, rfl⟩ | h)
    · exact Or.inl ⟨i, hi, rfl⟩
    · exact Or.inr h
  · rintro (⟨i, hi, rfl⟩ | h)
    · exact Or.inl ⟨i, hi, rfl⟩
    · exact Or.inr h

theorem butterflyNodes_bounds (R : ℕ) : ∀ n s c, ∀ a ∈ butterflyNodes n R s c,
    a.id = 0 ∧ a.n = R ∧ s ≤ a.top ∧ a.top < a.bottom ∧ a.bottom < s + n ∧ c ≤ a.column := by
  intro n
  induction n using Nat.strong_induction_on with
  | _ n ih =>
    intro s c a ha
    by_cases h : n ≤ 1
    · rw [butterflyNodes_one h] at ha; simp at ha
    · rcases (butterflyNodes_mem (by omega)).1 ha with ⟨i, hi, rfl⟩ | ha | ha
      · exact ⟨rfl, rfl, by simp only; omega, by simp only; omega, by simp only; omega, le_rfl⟩
      · have := ih (n / 2) (by omega) _ _ a ha; omega
      · have := ih (n - n / 2) (by omega) _ _ a ha; omega

theorem butterflyNodes_disjoint (R : ℕ) : ∀ n s c, ColumnsDisjoint (butterflyNodes n R s c) := by
  intro n
  induction n using Nat.strong_induction_on with
  | _ n ih =>
    intro s c
    by_cases h : n ≤ 1
    · rw [butterflyNodes_one h]; exact List.Pairwise.nil
    · rw [butterflyNodes_step (by omega)]
      unfold ColumnsDisjoint
      rw [List.pairwise_append, List.pairwise_append]
      refine ⟨?_, ⟨ih _ (by omega) _ _, ih _ (by omega) _ _, ?_⟩, ?_⟩
      · rw [List.pairwise_map]
        have : (List.range (n / 2)).reverse.Nodup := List.nodup_reverse.2 List.nodup_range
        refine List.Pairwise.imp_of_mem ?_ this
        intro i j hi hj hne _
        have hi' := List.mem_range.1 (List.mem_reverse.1 hi)
        have hj' := List.mem_range.1 (List.mem_reverse.1 hj)
        have : i ≠ j := hne
        refine ⟨?_, ?_, ?_, ?_⟩ <;> simp only <;> omega
      · intro a ha b hb _
        have := butterflyNodes_bounds R _ _ _ a ha
        have := butterflyNodes_bounds R _ _ _ b hb
        refine ⟨?_, ?_, ?_, ?_⟩ <;> omega
      · intro a ha b hb hc
        obtain ⟨i, _, rfl⟩ := List.mem_map.1 ha
        have : c + 1 ≤ b.column := by
          rcases List.mem_append.1 hb with hb | hb
          · exact (butterflyNodes_bounds R _ _ _ b hb).2.2.2.2.2
          · exact (butterflyNodes_bounds R _ _ _ b hb).2.2.2.2.2
        simp only at hc
        omega

/-- The powers of two: level `c + j` has stride `2^(k-1-j)` and touches every rail. -/
theorem butterflyNodes_pow (R : ℕ) : ∀ k s c,
    (butterflyNodes (2 ^ k) R s c).length * 2 = k * 2 ^ k ∧
    (∀ a ∈ butterflyNodes (2 ^ k) R s c, a.column < c + k ∧ a.bottom = a.top + 2 ^ (k - 1 - (a.column - c))) ∧
    ∀ j < k, ∀ r, s ≤ r → r < s + 2 ^ k → ∃ a ∈ butterflyNodes (2 ^ k) R s c, a.column = c + j ∧
      (r = a.top ∨ r = a.bottom)
  | 0, s, c => by
    rw [butterflyNodes_one (by norm_num)]
    simp
  | k + 1, s, c => by
    have hk : 2 ≤ 2 ^ (k + 1) := by
      rw [pow_succ]; have := Nat.one_le_two_pow (n := k); omega
    have h2 : 2 ^ (k + 1) / 2 = 2 ^ k := by rw [pow_succ]; omega
    have h3 : 2 ^ (k + 1) - 2 ^ k = 2 ^ k := by rw [pow_succ]; omega
    obtain ⟨l1, m1, t1⟩ := butterflyNodes_pow R k s (c + 1)
    obtain ⟨l2, m2, t2⟩ := butterflyNodes_pow R k (s + 2 ^ k) (c + 1)
    refine ⟨?_, ?_, ?_⟩
    · rw [butterflyNodes_step hk, h2, h3]
      simp only [List.length_append, List.length_map, List.length_reverse, List.length_range, add_mul, l1, l2]
      rw [pow_succ]; ring
    · intro a ha
      rw [butterflyNodes_mem hk, h2, h3] at ha
      rcases ha with ⟨i, hi, rfl⟩ | ha | ha
      · refine ⟨by simp, ?_⟩
        simp only [Nat.sub_self, Nat.add_sub_cancel]
        simp only [Nat.sub_zero]
        omega
      · obtain ⟨g1, g2⟩ := m1 a ha
        have := butterflyNodes_bounds R _ _ _ a ha
        refine ⟨by omega, ?_⟩
        rw [g2]; congr 2; omega
      · obtain ⟨g1, g2⟩ := m2 a ha
        have := butterflyNodes_bounds R _ _ _ a ha
        refine ⟨by omega, ?_⟩
        rw [g2]; congr 2; omega
    · intro j hj r hr1 hr2
      simp only [butterflyNodes_mem hk, h2, h3]
      have hp : 2 ^ (k + 1) = 2 ^ k + 2 ^ k := by rw [pow_succ]; omega
      rcases j with _ | j
      · by_cases h : r < s + 2 ^ k
        · exact ⟨_, Or.inl ⟨r - s, by omega, rfl⟩, rfl, Or.inl (by simp only; omega)⟩
        · exact ⟨_, Or.inl ⟨r - s - 2 ^ k, by omega, rfl⟩, rfl, Or.inr (by simp only; omega)⟩
      · by_cases h : r < s + 2 ^ k
        · obtain ⟨a, ha, hc, hrr⟩ := t1 j (by omega) r hr1 h
          exact ⟨a, Or.inr (Or.inl ha), by omega, hrr⟩
        · obtain ⟨a, ha, hc, hrr⟩ := t2 j (by omega) r (by omega) (by omega)
          exact ⟨a, Or.inr (Or.inr ha), by omega, hrr⟩

/-! ### Renumbering -/

theorem renumber_of_zero {nodes : List Node} (h : ∀ a ∈ nodes, a.id = 0) :
    renumber nodes = nodes.zipIdx.map fun p => { p.1 with id := p.2 } := by
  unfold renumber
  rw [if_pos]
  rw [List.sum_eq_zero]
  intro x hx
  obtain ⟨a, ha, rfl⟩ := List.mem_map.1 hx
  exact h a ha

/-- Renumbering changes ids only. -/
theorem renumber_map {α : Type} (f : Node → α) (hf : ∀ a i, f { a with id := i } = f a) (nodes : List Node) :
    (renumber nodes).map f = nodes.map f := by
  unfold renumber
  split_ifs
  · rw [List.map_map]
    have : (f ∘ fun p : Node × ℕ => { p.1 with id := p.2 }) = f ∘ Prod.fst := by
      funext p; exact hf _ _
    rw [this, ← List.map_map, List.zipIdx_map_fst]
  · rfl

theorem renumber_ids {nodes : List Node} (h : ∀ a ∈ nodes, a.id = 0) :
    (renumber nodes).map Node.id = List.range nodes.length := by
  rw [renumber_of_zero h, List.map_map]
  have : (Node.id ∘ fun p : Node × ℕ => { p.1 with id := p.2 }) = Prod.snd := by funext p; rfl
  rw [this, List.zipIdx_map_snd, List.range_eq_range']

/-- The data of a node other than its id. -/
def Node.key (a : Node) : ℕ × ℕ × ℕ × ℕ × ℕ × ℕ := (a.top, a.bottom, a.n, a.alpha, a.beta, a.column)

theorem renumber_key (nodes : List Node) : (renumber nodes).map Node.key = nodes.map Node.key :=
  renumber_map Node.key (fun _ _ => rfl) nodes

theorem mem_renumber {nodes : List Node} {a : Node} (h : a ∈ renumber nodes) : ∃ b ∈ nodes, a.key = b.key := by
  have : a.key ∈ (renumber nodes).map Node.key := List.mem_map_of_mem h
  rw [renumber_key] at this
  obtain ⟨b, hb, e⟩ := List.mem_map.1 this
  exact ⟨b, hb, e.symm⟩

theorem mem_renumber' {nodes : List Node} {a : Node} (h : a ∈ nodes) : ∃ b ∈ renumber nodes, b.key = a.key := by
  have : a.key ∈ nodes.map Node.key := List.mem_map_of_mem h
  rw [← renumber_key] at this
  obtain ⟨b, hb, e⟩ := List.mem_map.1 this
  exact ⟨b, hb, e⟩

theorem renumber_disjoint {nodes : List Node} (h : ColumnsDisjoint nodes) : ColumnsDisjoint (renumber nodes) := by
  have key : ∀ l : List Node, ColumnsDisjoint l ↔ (l.map Node.key).Pairwise fun x y =>
      x.2.2.2.2.2 = y.2.2.2.2.2 → x.1 ≠ y.1 ∧ x.1 ≠ y.2.1 ∧ x.2.1 ≠ y.1 ∧ x.2.1 ≠ y.2.1 := by
    intro l
    rw [List.pairwise_map]
    rfl
  rw [key, renumber_key, ← key]
  exact h

end Simphox
