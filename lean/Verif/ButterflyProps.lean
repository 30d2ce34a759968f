import Verif.Butterfly

/-! # Butterfly structure (C24) -/

namespace Simphox

theorem mem_butterfly {n R : ℕ} {a : Node} (h : a ∈ butterfly n R) :
    ∃ b ∈ butterflyNodes n R 0 0, a.top = b.top ∧ a.bottom = b.bottom ∧ a.n = b.n ∧
      a.column = numColumns (renumber (butterflyNodes n R 0 0)) - 1 - b.column := by
  unfold butterfly invertColumns at h
  obtain ⟨c, hc, rfl⟩ := List.mem_map.1 h
  obtain ⟨b, hb, e⟩ := mem_renumber hc
  simp only [Node.key, Prod.mk.injEq] at e
  exact ⟨b, hb, e.1, e.2.1, e.2.2.1, by simp only; rw [e.2.2.2.2.2]⟩

theorem mem_butterfly' {n R : ℕ} {b : Node} (h : b ∈ butterflyNodes n R 0 0) :
    ∃ a ∈ butterfly n R, a.top = b.top ∧ a.bottom = b.bottom ∧ a.n = b.n ∧
      a.column = numColumns (renumber (butterflyNodes n R 0 0)) - 1 - b.column := by
  obtain ⟨c, hc, e⟩ := mem_renumber' h
  simp only [Node.key, Prod.mk.injEq] at e
  exact ⟨_, List.mem_map.2 ⟨c, hc, rfl⟩, e.1, e.2.1, e.2.2.1, by simp only; rw [e.2.2.2.2.2]⟩

theorem butterfly_ids (n R : ℕ) : (butterfly n R).map Node.id = List.range (butterfly n R).length := by
  have h := renumber_ids fun a ha => (butterflyNodes_bounds R n 0 0 a ha).1
  have e : (butterfly n R).map Node.id = (renumber (butterflyNodes n R 0 0)).map Node.id := by
    unfold butterfly invertColumns
    rw [List.map_map]; rfl
  rw [e, h]
  congr 1
  have := congrArg List.length e
  have h2 := congrArg List.length h
  simp only [List.length_map, List.length_range] at this h2
  omega

theorem butterfly_length (n R : ℕ) : (butterfly n R).length = (butterflyNodes n R 0 0).length := by
  have := congrArg List.length (renumber_key (butterflyNodes n R 0 0))
  simpa [butterfly, invertColumns] using this

theorem butterfly_numColumns (k R : ℕ) (hk : 1 ≤ k) :
    numColumns (renumber (butterflyNodes (2 ^ k) R 0 0)) = k := by
  obtain ⟨_, h2, h3⟩ := butterflyNodes_pow R k 0 0
  apply numColumns_eq_of
  · intro a ha
    obtain ⟨b, hb, e⟩ := mem_renumber ha
    simp only [Node.key, Prod.mk.injEq] at e
    have := (h2 b hb).1
    omega
  · obtain ⟨a, ha, hc, _⟩ := h3 (k - 1) (by omega) 0 le_rfl (by simp)
    obtain ⟨b, hb, e⟩ := mem_renumber' ha
    simp only [Node.key, Prod.mk.injEq] at e
    exact ⟨b, hb, by omega⟩

/-- C24: `butterfly(2^k)` has `k·2^(k-1)` nodes with ids `0, 1, ...` in list order, exactly the
columns `0, ..., k-1`, in every column every rail is touched by exactly one node, and nodes of
column `j` have stride `2^j`. -/
theorem C24_butterfly (k : ℕ) (hk : 1 ≤ k) :
    (butterfly (2 ^ k) (2 ^ k)).length = k * 2 ^ (k - 1) ∧
    (butterfly (2 ^ k) (2 ^ k)).map Node.id = List.range (k * 2 ^ (k - 1)) ∧
    numColumns (butterfly (2 ^ k) (2 ^ k)) = k ∧
    (∀ a ∈ butterfly (2 ^ k) (2 ^ k), a.column < k ∧ a.bottom < 2 ^ k ∧ a.bottom = a.top + 2 ^ a.column) ∧
    ∀ j < k, ∀ r < 2 ^ k, ∃! a, a ∈ butterfly (2 ^ k) (2 ^ k) ∧ a.column = j ∧ (r = a.top ∨ r = a.bottom) := by
  set R := 2 ^ k with hR
  obtain ⟨h1, h2, h3⟩ := butterflyNodes_pow R k 0 0
  have hnc := butterfly_numColumns k R hk
  have hlen : (butterfly (2 ^ k) R).length = k * 2 ^ (k - 1) := by
    rw [butterfly_length]
    obtain ⟨m, rfl⟩ : ∃ m, k = m + 1 := ⟨k - 1, by omega⟩
    have : (m + 1) * 2 ^ (m + 1) = ((m + 1) * 2 ^ m) * 2 := by rw [pow_succ]; ring
    rw [this] at h1
    simp only [Nat.add_sub_cancel]
    omega
  have hmem : ∀ a ∈ butterfly (2 ^ k) R, a.column < k ∧ a.bottom < 2 ^ k ∧ a.bottom = a.top + 2 ^ a.column := by
    intro a ha
    obtain ⟨b, hb, e1, e2, e3, e4⟩ := mem_butterfly ha
    rw [hnc] at e4
    obtain ⟨g1, g2⟩ := h2 b hb
    have := butterflyNodes_bounds R _ _ _ b hb
    refine ⟨by omega, by omega, ?_⟩
    rw [e2, g2, e1]
    congr 2
    omega
  have hex : ∀ j < k, ∀ r < 2 ^ k, ∃ a, a ∈ butterfly (2 ^ k) R ∧ a.column = j ∧ (r = a.top ∨ r = a.bottom) := by
    intro j hj r hr
    obtain ⟨b, hb, hc, hrr⟩ := h3 (k - 1 - j) (by omega) r (by omega) (by omega)
    obtain ⟨a, ha, e1, e2, e3, e4⟩ := mem_butterfly' hb
    rw [hnc] at e4
    exact ⟨a, ha, by omega, by rw [e1, e2]; exact hrr⟩
  refine ⟨hlen, by rw [butterfly_ids, hlen], ?_, hmem, ?_⟩
  · apply numColumns_eq_of
    · intro a ha; exact (hmem a ha).1
    · obtain ⟨a, ha, hc, _⟩ := hex (k - 1) (by omega) 0 (by positivity)
      exact ⟨a, ha, by omega⟩
  · intro j hj r hr
    obtain ⟨a, ha, hc, hrr⟩ := hex j hj r hr
    refine ⟨a, ⟨ha, hc, hrr⟩, ?_⟩
    rintro b ⟨hb, hbc, hbr⟩
    by_contra hne
    have hd : ColumnsDisjoint (butterfly (2 ^ k) R) :=
      invertColumns_disjoint (renumber_disjoint (butterflyNodes_disjoint R _ _ _))
    haveI : Std.Symm fun x y : Node => x.column = y.column → RailDisjoint x y :=
      ⟨fun x y h hc => (h hc.symm).symm⟩
    obtain ⟨d1, d2, d3, d4⟩ := List.Pairwise.forall hd hb ha hne (by omega)
    omega

/-- C24 for every size: the butterfly is a legal mesh: distinct ids, rails in range, no rail used
twice in a column. -/
theorem C24_any_size (n R : ℕ) :
    (butterfly n R).map Node.id = List.range (butterfly n R).length ∧
    (∀ a ∈ butterfly n R, a.top < a.bottom ∧ a.bottom < n ∧ a.n = R) ∧
    (butterfly n R).Pairwise fun a b => a.column = b.column →
      a.top ≠ b.top ∧ a.top ≠ b.bottom ∧ a.bottom ≠ b.top ∧ a.bottom ≠ b.bottom := by
  refine ⟨butterfly_ids n R, ?_, invertColumns_disjoint (renumber_disjoint (butterflyNodes_disjoint R _ _ _))⟩
  intro a ha
  obtain ⟨b, hb, e1, e2, e3, _⟩ := mem_butterfly ha
  have := butterflyNodes_bounds R _ _ _ b hb
  omega

example : (butterfly 4 4).map (fun a => (a.id, a.top, a.bottom, a.column)) =
    [(0, 1, 3, 1), (1, 0, 2, 1), (2, 0, 1, 0), (3, 2, 3, 0)] := by decide +kernel

end Simphox
