import Verif.HessianRun
import Mathlib.Analysis.Calculus.Deriv.Add

/-! # `hessian_vector_unit` (C105) -/

namespace Simphox

open Complex

/-! ### Descendants in the binary tree -/

/-- `j` is below the top input of `i`. -/
def BT.Top : BT → ℕ → ℕ → ℕ → Prop
  | .leaf, _, _, _ => False
  | .node l r, s, i, j => (i = s + l.size - 1 ∧ s ≤ j ∧ j < i) ∨ l.Top s i j ∨ r.Top (s + l.size) i j

/-- `j` is below the bottom input of `i`. -/
def BT.Bot : BT → ℕ → ℕ → ℕ → Prop
  | .leaf, _, _, _ => False
  | .node l r, s, i, j =>
    (i = s + l.size - 1 ∧ i < j ∧ j + 1 < s + (l.size + r.size)) ∨ l.Bot s i j ∨ r.Bot (s + l.size) i j

theorem skel_top (t : BT) (s c i j : ℕ) : (∃ x ∈ t.skel s c, x.id = i ∧ j ∈ x.td) ↔ t.Top s i j := by
  induction t generalizing s c with
  | leaf => simp [BT.skel, BT.Top]
  | node l r h1 h2 =>
    have := l.size_pos
    simp only [BT.skel, BT.Top, List.mem_cons, List.mem_append, ← h1 s (c + 1), ← h2 (s + l.size) (c + 1)]
    constructor
    · rintro ⟨x, rfl | hx | hx, h3, h4⟩
      · left
        simp only [List.mem_range'_1] at h3 h4
        omega
      · exact Or.inr (Or.inl ⟨x, hx, h3, h4⟩)
      · exact Or.inr (Or.inr ⟨x, hx, h3, h4⟩)
    · rintro (h | ⟨x, hx, h3, h4⟩ | ⟨x, hx, h3, h4⟩)
      · exact ⟨_, Or.inl rfl, h.1.symm, by simp only [List.mem_range'_1]; omega⟩
      · exact ⟨x, Or.inr (Or.inl hx), h3, h4⟩
      · exact ⟨x, Or.inr (Or.inr hx), h3, h4⟩

theorem skel_bot (t : BT) (s c i j : ℕ) : (∃ x ∈ t.skel s c, x.id = i ∧ j ∈ x.bd) ↔ t.Bot s i j := by
  induction t generalizing s c with
  | leaf => simp [BT.skel, BT.Bot]
  | node l r h1 h2 =>
    have := l.size_pos
    have := r.size_pos
    simp only [BT.skel, BT.Bot, List.mem_cons, List.mem_append, ← h1 s (c + 1), ← h2 (s + l.size) (c + 1)]
    constructor
    · rintro ⟨x, rfl | hx | hx, h3, h4⟩
      · left
        simp only [List.mem_range'_1] at h3 h4
        omega
      · exact Or.inr (Or.inl ⟨x, hx, h3, h4⟩)
      · exact Or.inr (Or.inr ⟨x, hx, h3, h4⟩)
    · rintro (h | ⟨x, hx, h3, h4⟩ | ⟨x, hx, h3, h4⟩)
      · exact ⟨_, Or.inl rfl, h.1.symm, by simp only [List.mem_range'_1]; omega⟩
      · exact ⟨x, Or.inr (Or.inl hx), h3, h4⟩
      · exact ⟨x, Or.inr (Or.inr hx), h3, h4⟩

theorem topDesc_iff {n : ℕ} (hn : 1 ≤ n) (b : Bool) (i j : ℕ) :
    TopDesc (treeDesc n b) i j ↔ (shape n b).Top 0 i j := by
  rw [← skel_top _ 0 0, ← treeDesc_sk n hn b]
  simp only [TopDesc, List.mem_map, exists_exists_and_eq_and]
  rfl

theorem botDesc_iff {n : ℕ} (hn : 1 ≤ n) (b : Bool) (i j : ℕ) :
    BotDesc (treeDesc n b) i j ↔ (shape n b).Bot 0 i j := by
  rw [← skel_bot _ 0 0, ← treeDesc_sk n hn b]
  simp only [BotDesc, List.mem_map, exists_exists_and_eq_and]
  rfl

theorem BT.Top.bounds {t : BT} {s i j : ℕ} (h : t.Top s i j) :
    s ≤ i ∧ i + 1 < s + t.size ∧ s ≤ j ∧ j + 1 < s + t.size ∧ j < i := by
  induction t generalizing s with
  | leaf => exact h.elim
  | node l r h1 h2 =>
    have := l.size_pos
    have := r.size_pos
    simp only [BT.size]
    rcases h with h | h | h
    · omega
    · have := h1 h; omega
    · have := h2 h; omega

theorem BT.Bot.bounds {t : BT} {s i j : ℕ} (h : t.Bot s i j) :
    s ≤ i ∧ i + 1 < s + t.size ∧ s ≤ j ∧ j + 1 < s + t.size ∧ i < j := by
  induction t generalizing s with
  | leaf => exact h.elim
  | node l r h1 h2 =>
    have := l.size_pos
    have := r.size_pos
    simp only [BT.size]
    rcases h with h | h | h
    · omega
    · have := h1 h; omega
    · have := h2 h; omega

/-- Nobody is above and below the same node. -/
theorem BT.desc_antisymm (t : BT) (s i j : ℕ) (h : t.Top s i j ∨ t.Bot s i j) : ¬ (t.Top s j i ∨ t.Bot s j i) := by
  induction t generalizing s with
  | leaf => rcases h with h | h <;> exact h.elim
  | node l r h1 h2 =>
    have := l.size_pos
    have := r.size_pos
    have e1 := h1 s
    have e2 := h2 (s + l.size)
    have bl1 : ∀ i j, l.Top s i j → _ := fun i j => BT.Top.bounds
    have bl2 : ∀ i j, l.Bot s i j → _ := fun i j => BT.Bot.bounds
    have br1 : ∀ i j, r.Top (s + l.size) i j → _ := fun i j => BT.Top.bounds
    have br2 : ∀ i j, r.Bot (s + l.size) i j → _ := fun i j => BT.Bot.bounds
    intro h'
    simp only [BT.Top, BT.Bot] at h h'
    rcases h with (h | h | h) | (h | h | h) <;> rcases h' with (h' | h' | h') | (h' | h' | h') <;>
    first
    | omega
    | (have a := bl1 _ _ h; first
        | omega
        | (have b := bl1 _ _ h'; omega)
        | (have b := bl2 _ _ h'; first | omega | exact e1 (Or.inl h) (Or.inr h'))
        | (have b := br1 _ _ h'; omega)
        | (have b := br2 _ _ h'; omega))
    | (have a := bl2 _ _ h; first
        | omega
        | (have b := bl1 _ _ h'; first | omega | exact e1 (Or.inr h) (Or.inl h'))
        | (have b := bl2 _ _ h'; omega)
        | (have b := br1 _ _ h'; omega)
        | (have b := br2 _ _ h'; omega))
    | (have a := br1 _ _ h; first
        | omega
        | (have b := bl1 _ _ h'; omega)
        | (have b := bl2 _ _ h'; omega)
        | (have b := br1 _ _ h'; omega)
        | (have b := br2 _ _ h'; first | omega | exact e2 (Or.inl h) (Or.inr h')))
    | (have a := br2 _ _ h; first
        | omega
        | (have b := bl1 _ _ h'; omega)
        | (have b := bl2 _ _ h'; omega)
        | (have b := br1 _ _ h'; first | omega | exact e2 (Or.inr h) (Or.inl h'))
        | (have b := br2 _ _ h'; omega))
    | (have b := bl1 _ _ h'; omega)
    | (have b := bl2 _ _ h'; omega)
    | (have b := br1 _ _ h'; omega)
    | (have b := br2 _ _ h'; omega)

theorem treeDesc_ok {n : ℕ} (hn : 1 ≤ n) (b : Bool) : DescOK (treeDesc n b) := by
  intro k m h
  rw [topDesc_iff hn, botDesc_iff hn] at *
  refine ⟨?_, BT.desc_antisymm _ _ _ _ h⟩
  rcases h with h | h
  · have := h.bounds; omega
  · have := h.bounds; omega

open Classical in
/-- The second derivatives, by position of the nodes. -/
noncomputable def hspec (pn pnsn : ℕ → ℝ) (T B : ℕ → ℕ → Prop) (p q : Coord) : ℝ :=
  match p, q with
  | .theta i, .theta j => if i = j then pn i else
      if T i j ∨ B i j then pn j / 2 else if T j i ∨ B j i then pn i / 2 else 0
  | .phi i, .phi j => if i = j then 2 * pnsn i else
      if T i j then 2 * pnsn j else if T j i then 2 * pnsn i else 0
  | .theta i, .phi j => if i = j then pnsn i else
      if T i j ∨ B i j then pnsn j else if T j i then pn i else 0
  | .phi i, .theta j => if i = j then pnsn i else
      if T j i ∨ B j i then pnsn i else if T i j then pn j else 0

theorem hval_zero (pn pnsn : ℕ → ℝ) (t : BT) (s : ℕ) (p q : Coord) (h : ¬ t.Has s p ∨ ¬ t.Has s q) :
    hval pn pnsn t s p q = 0 := by
  induction t generalizing s with
  | leaf => rfl
  | node l r h1 h2 =>
    rw [has_node, has_node] at h
    have hh : ∀ {x : Coord}, ¬ (x.idx = s + l.size - 1 ∨ l.Has s x ∨ r.Has (s + l.size) x) →
        kap pn pnsn l s x = 0 ∧ kap pn pnsn r (s + l.size) x = 0 := fun hx =>
      ⟨kap_eq_zero fun e => hx (Or.inr (Or.inl e)), kap_eq_zero fun e => hx (Or.inr (Or.inr e))⟩
    simp only [hval]
    by_cases hp : p.idx = s + l.size - 1
    · have hq := h.resolve_left (not_not.2 (Or.inl hp))
      have hq1 : ¬ q.idx = s + l.size - 1 := fun e => hq (Or.inl e)
      rw [if_pos hp, if_neg hq1, (hh hq).1, (hh hq).2]
      cases p <;> simp
    · by_cases hq : q.idx = s + l.size - 1
      · have hp1 := h.resolve_right (not_not.2 (Or.inl hq))
        rw [if_neg hp, if_pos hq, (hh hp1).1, (hh hp1).2]
        cases q <;> simp
      · rw [if_neg hp, if_neg hq, h1 s (h.imp (fun e e' => e (Or.inr (Or.inl e'))) (fun e e' => e (Or.inr (Or.inl e')))),
          h2 (s + l.size) (h.imp (fun e e' => e (Or.inr (Or.inr e'))) (fun e e' => e (Or.inr (Or.inr e')))), add_zero]

theorem hspec_congr (pn pnsn : ℕ → ℝ) {T B T' B' : ℕ → ℕ → Prop} (p q : Coord)
    (h1 : T p.idx q.idx ↔ T' p.idx q.idx) (h2 : T q.idx p.idx ↔ T' q.idx p.idx)
    (h3 : B p.idx q.idx ↔ B' p.idx q.idx) (h4 : B q.idx p.idx ↔ B' q.idx p.idx) :
    hspec pn pnsn T B p q = hspec pn pnsn T' B' p q := by
  cases p <;> cases q <;> simp only [Coord.idx] at h1 h2 h3 h4 <;> simp only [hspec] <;> split_ifs <;>
    first | rfl | (exfalso; simp_all)

theorem hspec_none (pn pnsn : ℕ → ℝ) {T B : ℕ → ℕ → Prop} (p q : Coord) (hne : p.idx ≠ q.idx)
    (h1 : ¬ T p.idx q.idx) (h2 : ¬ T q.idx p.idx) (h3 : ¬ B p.idx q.idx) (h4 : ¬ B q.idx p.idx) :
    hspec pn pnsn T B p q = 0 := by
  cases p <;> cases q <;> simp only [Coord.idx] at h1 h2 h3 h4 hne <;>
    simp only [hspec, h1, h2, h3, h4, hne, if_false, or_self]

theorem hval_eq (pn pnsn : ℕ → ℝ) (t : BT) (s : ℕ) (p q : Coord) (hp : t.Has s p) (hq : t.Has s q) :
    hval pn pnsn t s p q = hspec pn pnsn (t.Top s) (t.Bot s) p q := by
  induction t generalizing s with
  | leaf => simp only [BT.Has, BT.size] at hp; omega
  | node l r h1 h2 =>
    have := l.size_pos
    have := r.size_pos
    have bl1 : ∀ {i j}, l.Top s i j → _ := BT.Top.bounds
    have bl2 : ∀ {i j}, l.Bot s i j → _ := BT.Bot.bounds
    have br1 : ∀ {i j}, r.Top (s + l.size) i j → _ := BT.Top.bounds
    have br2 : ∀ {i j}, r.Bot (s + l.size) i j → _ := BT.Bot.bounds
    -- nothing is above the root
    have root1 : ∀ {i j}, j = s + l.size - 1 → ¬ (BT.node l r).Top s i j := by
      rintro i j hj (h | h | h)
      · omega
      · have := bl1 h; omega
      · have := br1 h; omega
    have root2 : ∀ {i j}, j = s + l.size - 1 → ¬ (BT.node l r).Bot s i j := by
      rintro i j hj (h | h | h)
      · omega
      · have := bl2 h; omega
      · have := br2 h; omega
    -- below the root
    have below : ∀ {p q : Coord}, p.idx = s + l.size - 1 → q.idx ≠ s + l.size - 1 → (BT.node l r).Has s q →
        (l.Has s q ∧ (BT.node l r).Top s p.idx q.idx) ∨
        (r.Has (s + l.size) q ∧ ¬ (BT.node l r).Top s p.idx q.idx ∧ (BT.node l r).Bot s p.idx q.idx) := by
      intro p q hpe hqe hq
      rcases has_node.1 hq with h | h | h
      · exact absurd h hqe
      · left
        simp only [BT.Has] at h
        exact ⟨h, Or.inl (by omega)⟩
      · right
        simp only [BT.Has] at h
        refine ⟨h, ?_, Or.inl (by omega)⟩
        rintro (h' | h' | h')
        · omega
        · have := bl1 h'; omega
        · have := br1 h'; omega
    by_cases ep : p.idx = s + l.size - 1
    · by_cases eq : q.idx = s + l.size - 1
      · simp only [hval]
        rw [if_pos ep, if_pos eq]
        have e : p.idx = q.idx := ep.trans eq.symm
        cases p <;> cases q <;> simp only [Coord.idx] at e <;> simp only [hspec, e, if_true]
      · simp only [hval]
        rw [if_pos ep, if_neg eq]
        have n1 := root1 (i := q.idx) ep
        have n2 := root2 (i := q.idx) ep
        have ne : p.idx ≠ q.idx := fun e => eq (e ▸ ep)
        rcases below ep eq hq with ⟨hl, ht⟩ | ⟨hr, hnt, hb⟩
        · have hr := has_excl (r := r) hl
          cases p <;> cases q <;> simp only [Coord.idx] at n1 n2 ne ht <;>
            simp only [hspec, ne, n1, n2, ht, if_false, if_true, or_self, true_or, kap_eq_zero hr, add_zero]
          · rw [kap_theta hl]
          · rw [kap_phi hl]
          · rw [kap_theta hl]; ring
          · rw [kap_phi hl]
        · have hl : ¬ l.Has s q := fun e => has_excl e hr
          cases p <;> cases q <;> simp only [Coord.idx] at n1 n2 ne hnt hb <;>
            simp only [hspec, ne, n1, n2, hnt, hb, if_false, if_true, or_self, or_true, kap_eq_zero hl, zero_add,
              mul_zero]
          · rw [kap_theta hr]
          · rw [kap_phi hr]
    · by_cases eq : q.idx = s + l.size - 1
      · simp only [hval]
        rw [if_neg ep, if_pos eq]
        have n1 := root1 (i := p.idx) eq
        have n2 := root2 (i := p.idx) eq
        have ne : p.idx ≠ q.idx := fun e => ep (e.symm ▸ eq)
        rcases below eq ep hp with ⟨hl, ht⟩ | ⟨hr, hnt, hb⟩
        · have hr := has_excl (r := r) hl
          cases p <;> cases q <;> simp only [Coord.idx] at n1 n2 ne ht <;>
            simp only [hspec, ne, n1, n2, ht, if_false, if_true, or_self, true_or, kap_eq_zero hr, add_zero]
          · rw [kap_theta hl]
          · rw [kap_theta hl]; ring
          · rw [kap_phi hl]
          · rw [kap_phi hl]
        · have hl : ¬ l.Has s p := fun e => has_excl e hr
          cases p <;> cases q <;> simp only [Coord.idx] at n1 n2 ne hnt hb <;>
            simp only [hspec, ne, n1, n2, hnt, hb, if_false, if_true, or_self, or_true, kap_eq_zero hl, zero_add,
              mul_zero]
          · rw [kap_theta hr]
          · rw [kap_phi hr]
      · simp only [hval]
        rw [if_neg ep, if_neg eq]
        have stepT : ∀ {i j}, i ≠ s + l.size - 1 → ((BT.node l r).Top s i j ↔ l.Top s i j ∨ r.Top (s + l.size) i j) := by
          intro i j hi
          simp only [BT.Top]
          exact ⟨fun h => h.resolve_left fun e => hi e.1, Or.inr⟩
        have stepB : ∀ {i j}, i ≠ s + l.size - 1 → ((BT.node l r).Bot s i j ↔ l.Bot s i j ∨ r.Bot (s + l.size) i j) := by
          intro i j hi
          simp only [BT.Bot]
          exact ⟨fun h => h.resolve_left fun e => hi e.1, Or.inr⟩
        rcases has_node.1 hp with h | hpl | hpr
        · exact absurd h ep
        · rcases has_node.1 hq with h | hql | hqr
          · exact absurd h eq
          · rw [h1 s hpl hql, hval_zero pn pnsn r _ p q (Or.inl (has_excl hpl)), add_zero]
            simp only [BT.Has] at hpl hql
            apply hspec_congr
            · rw [stepT ep]; exact ⟨Or.inl, fun h => h.resolve_right fun e => by have := br1 e; omega⟩
            · rw [stepT eq]; exact ⟨Or.inl, fun h => h.resolve_right fun e => by have := br1 e; omega⟩
            · rw [stepB ep]; exact ⟨Or.inl, fun h => h.resolve_right fun e => by have := br2 e; omega⟩
            · rw [stepB eq]; exact ⟨Or.inl, fun h => h.resolve_right fun e => by have := br2 e; omega⟩
          · rw [hval_zero pn pnsn l _ p q (Or.inr fun e => has_excl e hqr),
              hval_zero pn pnsn r _ p q (Or.inl (has_excl hpl)), add_zero]
            simp only [BT.Has] at hpl hqr
            symm
            apply hspec_none
            · omega
            · rw [stepT ep]; rintro (e | e)
              · have := bl1 e; omega
              · have := br1 e; omega
            · rw [stepT eq]; rintro (e | e)
              · have := bl1 e; omega
              · have := br1 e; omega
            · rw [stepB ep]; rintro (e | e)
              · have := bl2 e; omega
              · have := br2 e; omega
            · rw [stepB eq]; rintro (e | e)
              · have := bl2 e; omega
              · have := br2 e; omega
        · rcases has_node.1 hq with h | hql | hqr
          · exact absurd h eq
          · rw [hval_zero pn pnsn l _ p q (Or.inl fun e => has_excl e hpr),
              hval_zero pn pnsn r _ p q (Or.inr (has_excl hql)), add_zero]
            simp only [BT.Has] at hpr hql
            symm
            apply hspec_none
            · omega
            · rw [stepT ep]; rintro (e | e)
              · have := bl1 e; omega
              · have := br1 e; omega
            · rw [stepT eq]; rintro (e | e)
              · have := bl1 e; omega
              · have := br1 e; omega
            · rw [stepB ep]; rintro (e | e)
              · have := bl2 e; omega
              · have := br2 e; omega
            · rw [stepB eq]; rintro (e | e)
              · have := bl2 e; omega
              · have := br2 e; omega
          · rw [h2 (s + l.size) hpr hqr, hval_zero pn pnsn l _ p q (Or.inl fun e => has_excl e hpr), zero_add]
            simp only [BT.Has] at hpr hqr
            apply hspec_congr
            · rw [stepT ep]; exact ⟨Or.inr, fun h => h.resolve_left fun e => by have := bl1 e; omega⟩
            · rw [stepT eq]; exact ⟨Or.inr, fun h => h.resolve_left fun e => by have := bl1 e; omega⟩
            · rw [stepB ep]; exact ⟨Or.inr, fun h => h.resolve_left fun e => by have := bl2 e; omega⟩
            · rw [stepB eq]; exact ⟨Or.inr, fun h => h.resolve_left fun e => by have := bl2 e; omega⟩

end Simphox
