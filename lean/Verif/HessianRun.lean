import Verif.HessianTree

/-! # The recorded powers, and the closed form of the Hessian the code builds (for C105) -/

namespace Simphox

open Complex

/-! ### The programming run -/

theorem powerLoop_append (eps : ℝ) (style : PhaseStyle) (e : ℝ) (c : ℕ) (nodes : List Node) (k1 k2 : List ℕ)
    (ps : PowerState) :
    powerLoop eps style e c nodes (k1 ++ k2) ps =
      (powerLoop eps style e c nodes k1 ps).bind (powerLoop eps style e c nodes k2) := by
  induction k1 generalizing ps with
  | nil => rfl
  | cons k ks ih =>
    simp only [List.cons_append, powerLoop, Option.bind_eq_bind]
    cases powerColumn eps style e c (columnNodes nodes k) ps with
    | none => rfl
    | some s => simp [ih]

/-- The state of the programming loop after `K` columns. -/
noncomputable def runState (eps : ℝ) (nodes : List Node) (v : ℕ → ℂ) (K : ℕ) : NullState :=
  (nullLoop eps .top 0 0 nodes (List.range K) ⟨fun r _ => v r, fun _ => 0, fun _ => 0⟩).getD
    ⟨fun _ _ => 0, fun _ => 0, fun _ => 0⟩

theorem runState_some (eps : ℝ) {nodes : List Node} (hid : (nodes.map Node.id).Nodup) (v : ℕ → ℂ) (K : ℕ) :
    nullLoop eps .top 0 0 nodes (List.range K) ⟨fun r _ => v r, fun _ => 0, fun _ => 0⟩ =
      some (runState eps nodes v K) := by
  obtain ⟨st, h, _⟩ := nullLoop_spec (Or.inl rfl) eps 0 0 nodes hid (List.range K) List.nodup_range
    ⟨fun r _ => v r, fun _ => 0, fun _ => 0⟩
  rw [runState, h]; rfl

theorem runState_succ (eps : ℝ) {nodes : List Node} (hid : (nodes.map Node.id).Nodup) (v : ℕ → ℂ) (K : ℕ) :
    nullColumn eps .top 0 0 (columnNodes nodes K) (runState eps nodes v K) = some (runState eps nodes v (K + 1)) := by
  have h := runState_some eps hid v (K + 1)
  rw [List.range_succ, nullLoop_append, runState_some eps hid v K] at h
  simp only [nullLoop, Option.bind_eq_bind, Option.bind_some, Option.bind_eq_some_iff, Option.some.injEq] at h
  obtain ⟨st, h1, h2⟩ := h
  rw [h1, h2]

/-- Once its column is done, the phases of a node do not change. -/
theorem runState_stable (eps : ℝ) {nodes : List Node} (hid : (nodes.map Node.id).Nodup) (v : ℕ → ℂ) {K D : ℕ}
    (hKD : K ≤ D) {a : Node} (ha : a ∈ nodes) (hc : a.column < K) :
    (runState eps nodes v D).thetas a.id = (runState eps nodes v K).thetas a.id ∧
      (runState eps nodes v D).phis a.id = (runState eps nodes v K).phis a.id := by
  obtain ⟨d, rfl⟩ := Nat.exists_eq_add_of_le hKD
  induction d with
  | zero => exact ⟨rfl, rfl⟩
  | succ d ih =>
    have ih := ih (by omega)
    obtain ⟨st', h1, h2, _⟩ := nullColumn_spec (Or.inl rfl) eps 0 0 (columnNodes nodes (K + d))
      (List.Nodup.sublist (List.Sublist.map _ List.filter_sublist) hid) (runState eps nodes v (K + d))
    rw [runState_succ eps hid v (K + d)] at h1
    have h1 := Option.some.inj h1
    rw [← h1] at h2
    have := h2 a.id (fun b hb he => by
      obtain ⟨hb, hbk⟩ := mem_columnNodes.1 hb
      have := List.inj_on_of_nodup_map hid hb ha he
      subst this; omega)
    rw [← Nat.add_assoc]
    exact ⟨this.1.trans ih.1, this.2.trans ih.2⟩

/-- Each column acts with the final phases. -/
theorem runState_column (eps : ℝ) {nodes : List Node} (hid : (nodes.map Node.id).Nodup)
    (hgood : ∀ k, GoodColumn (columnNodes nodes k)) (v : ℕ → ℂ) {K D : ℕ} (hK : K < D) :
    ColumnResult (storedElements .top 0 (runState eps nodes v D)) (columnNodes nodes K)
      (fun r => (runState eps nodes v K).w r 0) (fun r => (runState eps nodes v (K + 1)).w r 0) := by
  obtain ⟨st', h1, _, _, h4⟩ := nullColumn_spec (Or.inl rfl) eps 0 0 (columnNodes nodes K)
    (List.Nodup.sublist (List.Sublist.map _ List.filter_sublist) hid) (runState eps nodes v K)
  rw [runState_succ eps hid v K] at h1
  have h1 := Option.some.inj h1
  rw [← h1] at h4
  have R := parallelTransform_result (el := storedElements .top 0 (runState eps nodes v (K + 1))) (hgood K)
    (fun r => (runState eps nodes v K).w r 0)
  have hel : ∀ a ∈ columnNodes nodes K, storedElements .top 0 (runState eps nodes v (K + 1)) a.id =
      storedElements .top 0 (runState eps nodes v D) a.id := by
    intro a ha
    obtain ⟨ha, hak⟩ := mem_columnNodes.1 ha
    have := runState_stable eps hid v (K := K + 1) (D := D) (by omega) ha (by omega)
    unfold storedElements
    rw [this.1, this.2]
  rw [h4 0]
  exact ⟨fun a ha => by rw [R.top a ha, hel a ha], fun a ha => by rw [R.bottom a ha, hel a ha], R.other⟩

/-- The recorded powers are those of the run. -/
theorem powerLoop_range (eps : ℝ) {nodes : List Node} (hid : (nodes.map Node.id).Nodup) (v : ℕ → ℂ) (K : ℕ) :
    ∃ ps, powerLoop eps .top 0 0 nodes (List.range K)
        ⟨⟨fun r _ => v r, fun _ => 0, fun _ => 0⟩, fun _ => 0, fun _ => 0⟩ = some ps ∧
      ps.null = runState eps nodes v K ∧
      ∀ a ∈ nodes, a.column < K →
        ps.pn a.id = ‖(runState eps nodes v (a.column + 1)).w a.bottom 0‖ ^ 2 ∧
        ps.pnsn a.id = ‖(runState eps nodes v a.column).w a.top 0‖ ^ 2 := by
  induction K with
  | zero => exact ⟨_, rfl, rfl, fun a _ h => absurd h (Nat.not_lt_zero _)⟩
  | succ K ih =>
    obtain ⟨ps, h1, h2, h3⟩ := ih
    have hs := runState_succ eps hid v K
    rw [← h2] at hs
    refine ⟨⟨runState eps nodes v (K + 1),
        assign ps.pn ((columnNodes nodes K).map fun a => (a.id, ‖(runState eps nodes v (K + 1)).w a.bottom 0‖ ^ 2)),
        assign ps.pnsn ((columnNodes nodes K).map fun a => (a.id, ‖ps.null.w a.top 0‖ ^ 2))⟩, ?_, rfl, ?_⟩
    · rw [List.range_succ, powerLoop_append, h1]
      simp [powerLoop, powerColumn, hs]
    · intro a ha hac
      by_cases hk : a.column = K
      · have hmem : a ∈ columnNodes nodes K := mem_columnNodes.2 ⟨ha, hk⟩
        have hinj : ∀ b ∈ columnNodes nodes K, b.id = a.id → b = a := fun b hb he =>
          List.inj_on_of_nodup_map hid (mem_columnNodes.1 hb).1 ha he
        constructor
        · apply assign_mem
          · exact List.mem_map.2 ⟨a, hmem, by rw [hk]⟩
          · intro y hy
            obtain ⟨b, hb, he⟩ := List.mem_map.1 hy
            rw [Prod.mk.injEq] at he
            have := hinj b hb he.1
            rw [← he.2, this, hk]
        · apply assign_mem
          · exact List.mem_map.2 ⟨a, hmem, by rw [hk, h2]⟩
          · intro y hy
            obtain ⟨b, hb, he⟩ := List.mem_map.1 hy
            rw [Prod.mk.injEq] at he
            have := hinj b hb he.1
            rw [← he.2, this, hk, h2]
      · have := h3 a ha (by omega)
        have hno : ∀ b ∈ columnNodes nodes K, b.id ≠ a.id := fun b hb he => by
          obtain ⟨hb, hbk⟩ := mem_columnNodes.1 hb
          have := List.inj_on_of_nodup_map hid hb ha he
          subst this; exact hk hbk
        constructor
        · simp only
          rw [assign_not_mem, this.1]
          simp only [List.mem_map]
          rintro _ ⟨b, hb, rfl⟩; exact hno b hb
        · simp only
          rw [assign_not_mem, this.2]
          simp only [List.mem_map]
          rintro _ ⟨b, hb, rfl⟩; exact hno b hb

/-- The couplings of a stored node to its bottom output, and the inverse of a dark node. -/
theorem top_elements (P : Params) (k : ℕ) :
    (mziElements .top false 0 0 0 0 (P.thetas k) (P.phis k)).t12 = cl P k ∧
      (mziElements .top false 0 0 0 0 (P.thetas k) (P.phis k)).t22 = cr P k := by
  have h2 : Real.cos (Real.pi / 4) * Real.sin (Real.pi / 4) = 1 / 2 := by
    rw [Real.cos_pi_div_four, Real.sin_pi_div_four]
    have := Real.mul_self_sqrt (show (0 : ℝ) ≤ 2 by norm_num)
    linarith
  have h3 : Real.cos (Real.pi / 4) * Real.cos (Real.pi / 4) = 1 / 2 := by
    rw [Real.cos_pi_div_four]
    have := Real.mul_self_sqrt (show (0 : ℝ) ≤ 2 by norm_num)
    linarith
  have h4 : Real.sin (Real.pi / 4) * Real.sin (Real.pi / 4) = 1 / 2 := by
    rw [Real.sin_pi_div_four]
    have := Real.mul_self_sqrt (show (0 : ℝ) ≤ 2 by norm_num)
    linarith
  constructor
  · simp only [mziElements, mziTerms, add_zero, cl, mul_comm (Real.sin (Real.pi / 4)) (Real.cos (Real.pi / 4)), h2]
    simp
    ring
  · simp only [mziElements, mziTerms, add_zero, cr, h3, h4]
    simp
    ring

theorem dark_inverse (theta phi : ℝ) (x y : ℂ)
    (h : (mziElements .top false 0 0 0 0 theta phi).t11 * x + (mziElements .top false 0 0 0 0 theta phi).t21 * y = 0) :
    let m := mziElements .top false 0 0 0 0 theta phi
    x = (starRingEnd ℂ) m.t12 * (m.t12 * x + m.t22 * y) ∧ y = (starRingEnd ℂ) m.t22 * (m.t12 * x + m.t22 * y) := by
  intro m
  have hu := mziElements_unitary .top false 0 0 theta phi
  rw [Matrix.mem_unitaryGroup_iff'] at hu
  have e00 := congrFun (congrFun hu 0) 0
  have e01 := congrFun (congrFun hu 0) 1
  have e10 := congrFun (congrFun hu 1) 0
  have e11 := congrFun (congrFun hu 1) 1
  simp [Matrix.mul_apply, Fin.sum_univ_two, Elements.mat, Matrix.star_apply] at e00 e01 e10 e11
  change m.t11 * x + m.t21 * y = 0 at h
  constructor
  · linear_combination -(e00) * x - e01 * y + (starRingEnd ℂ) m.t11 * h
  · linear_combination -(e10) * x - e11 * y + (starRingEnd ℂ) m.t21 * h

/-! ### The closed form of the code's Hessian -/

/-- `m` is a top descendant of `k` in the list. -/
def TopDesc (l : List DescNode) (k m : ℕ) : Prop := ∃ d ∈ l, d.node.id = k ∧ m ∈ d.topDesc
/-- `m` is a bottom descendant of `k` in the list. -/
def BotDesc (l : List DescNode) (k m : ℕ) : Prop := ∃ d ∈ l, d.node.id = k ∧ m ∈ d.botDesc

theorem topDesc_append (l : List DescNode) (d : DescNode) (k m : ℕ) :
    TopDesc (l ++ [d]) k m ↔ TopDesc l k m ∨ (k = d.node.id ∧ m ∈ d.topDesc) := by
  simp only [TopDesc, List.mem_append, List.mem_singleton]
  constructor
  · rintro ⟨x, hx | rfl, h1, h2⟩
    · exact Or.inl ⟨x, hx, h1, h2⟩
    · exact Or.inr ⟨h1.symm, h2⟩
  · rintro (⟨x, hx, h1, h2⟩ | ⟨h1, h2⟩)
    · exact ⟨x, Or.inl hx, h1, h2⟩
    · exact ⟨d, Or.inr rfl, h1.symm, h2⟩

theorem botDesc_append (l : List DescNode) (d : DescNode) (k m : ℕ) :
    BotDesc (l ++ [d]) k m ↔ BotDesc l k m ∨ (k = d.node.id ∧ m ∈ d.botDesc) := by
  simp only [BotDesc, List.mem_append, List.mem_singleton]
  constructor
  · rintro ⟨x, hx | rfl, h1, h2⟩
    · exact Or.inl ⟨x, hx, h1, h2⟩
    · exact Or.inr ⟨h1.symm, h2⟩
  · rintro (⟨x, hx, h1, h2⟩ | ⟨h1, h2⟩)
    · exact ⟨x, Or.inl hx, h1, h2⟩
    · exact ⟨d, Or.inr rfl, h1.symm, h2⟩

open Classical in
/-- What the four arrays hold after the nodes of `l` are done. -/
structure HessInv (pn pnsn : ℕ → ℝ) (l : List DescNode) (h : HessState) : Prop where
  tt : ∀ r c, h.tt r c = if r = c then pn r else
    if TopDesc l r c ∨ BotDesc l r c then pn c / 2 else if TopDesc l c r ∨ BotDesc l c r then pn r / 2 else 0
  pp : ∀ r c, h.pp r c = if r = c then 2 * pnsn r else
    if TopDesc l r c then 2 * pnsn c else if TopDesc l c r then 2 * pnsn r else 0
  tp : ∀ r c, h.tp r c = if TopDesc l c r then pn r else 0
  pt : ∀ r c, h.pt r c = if r = c then pnsn r else if TopDesc l r c ∨ BotDesc l r c then pnsn c else 0

theorem hessInv_init (pn pnsn : ℕ → ℝ) : HessInv pn pnsn [] (hessInit pn pnsn) := by
  constructor <;> intro r c <;> simp [hessInit, TopDesc, BotDesc]

/-- The descendant relations of the list are irreflexive and antisymmetric. -/
def DescOK (l : List DescNode) : Prop :=
  ∀ k m, TopDesc l k m ∨ BotDesc l k m → k ≠ m ∧ ¬ (TopDesc l m k ∨ BotDesc l m k)

theorem hessInv_step (pn pnsn : ℕ → ℝ) (l : List DescNode) (d : DescNode) (hok : DescOK (l ++ [d]))
    (h : HessState) (hi : HessInv pn pnsn l h) : HessInv pn pnsn (l ++ [d]) (hessStep pn pnsn h d) := by
  classical
  have T := topDesc_append l d
  have B := botDesc_append l d
  constructor
  · intro r c
    have o1 := hok r c
    have o2 := hok c r
    simp only [hessStep, mirrorRow, setRow, hi.tt, T, B] at o1 o2 ⊢
    by_cases hc : c = d.node.id
    · subst hc
      by_cases hr : r = d.node.id
      · subst hr
        have o3 : d.node.id ∉ d.topDesc := fun hh => (o1 (Or.inl (Or.inr ⟨rfl, hh⟩))).1 rfl
        have o4 : d.node.id ∉ d.botDesc := fun hh => (o1 (Or.inr (Or.inr ⟨rfl, hh⟩))).1 rfl
        simp [o3, o4]
      · have hr' : ¬ d.node.id = r := fun e => hr e.symm
        simp only [if_true, true_and, hr, hr', if_false, false_and, or_false]
        by_cases p1 : r ∈ d.topDesc <;> by_cases p2 : r ∈ d.botDesc <;>
        by_cases p3 : TopDesc l r d.node.id <;> by_cases p4 : BotDesc l r d.node.id <;>
        by_cases p5 : TopDesc l d.node.id r <;> by_cases p6 : BotDesc l d.node.id r <;>
        simp_all
    · by_cases hr : r = d.node.id
      · subst hr
        have hc' : ¬ d.node.id = c := fun e => hc e.symm
        simp only [true_and, hc, hc', if_false, false_and, or_false]
        by_cases p1 : c ∈ d.topDesc <;> by_cases p2 : c ∈ d.botDesc <;>
        by_cases p3 : TopDesc l c d.node.id <;> by_cases p4 : BotDesc l c d.node.id <;>
        by_cases p5 : TopDesc l d.node.id c <;> by_cases p6 : BotDesc l d.node.id c <;>
        simp_all
      · simp only [hc, hr, if_false, false_and, or_false]
  · intro r c
    have o1 := hok r c
    have o2 := hok c r
    simp only [hessStep, mirrorRow, setRow, hi.pp, T, B] at o1 o2 ⊢
    by_cases hc : c = d.node.id
    · subst hc
      by_cases hr : r = d.node.id
      · subst hr
        have o3 : d.node.id ∉ d.topDesc := fun hh => (o1 (Or.inl (Or.inr ⟨rfl, hh⟩))).1 rfl
        simp [o3]
      · have hr' : ¬ d.node.id = r := fun e => hr e.symm
        simp only [if_true, true_and, hr, hr', if_false, false_and, or_false]
        by_cases p1 : r ∈ d.topDesc <;>
        by_cases p3 : TopDesc l r d.node.id <;>
        by_cases p5 : TopDesc l d.node.id r <;>
        simp_all
    · by_cases hr : r = d.node.id
      · subst hr
        have hc' : ¬ d.node.id = c := fun e => hc e.symm
        simp only [true_and, hc, hc', if_false, false_and, or_false]
        by_cases p1 : c ∈ d.topDesc <;>
        by_cases p3 : TopDesc l c d.node.id <;>
        by_cases p5 : TopDesc l d.node.id c <;>
        simp_all
      · simp only [hc, hr, if_false, false_and, or_false]
  · intro r c
    simp only [hessStep, setCol, hi.tp, T]
    by_cases p1 : c = d.node.id ∧ r ∈ d.topDesc
    · simp [p1]
    · simp [p1]
  · intro r c
    have o1 := hok r c
    simp only [hessStep, setRow, hi.pt, T, B] at o1 ⊢
    by_cases p1 : r = d.node.id ∧ c ∈ d.topDesc
    · have := (o1 (Or.inl (Or.inr p1))).1
      simp [p1]
      intro e
      rw [← p1.1] at e; exact absurd e this
    · by_cases p2 : r = d.node.id ∧ c ∈ d.botDesc
      · have := (o1 (Or.inr (Or.inr p2))).1
        simp [p2]
        intro e
        rw [← p2.1] at e; exact absurd e this
      · simp only [p1, p2, if_false, or_false]

theorem hessInv_fold (pn pnsn : ℕ → ℝ) (l l' : List DescNode) (hok : DescOK (l ++ l'))
    (h : HessState) (hi : HessInv pn pnsn l h) : HessInv pn pnsn (l ++ l') (l'.foldl (hessStep pn pnsn) h) := by
  induction l' generalizing l h with
  | nil => simpa using hi
  | cons d l' ih =>
    have e : l ++ d :: l' = (l ++ [d]) ++ l' := by simp
    rw [List.foldl_cons, e]
    rw [e] at hok
    refine ih _ hok _ (hessInv_step pn pnsn l d ?_ h hi)
    have mono : ∀ k m, (TopDesc (l ++ [d]) k m → TopDesc (l ++ [d] ++ l') k m) ∧
        (BotDesc (l ++ [d]) k m → BotDesc (l ++ [d] ++ l') k m) := fun k m =>
      ⟨fun ⟨x, hx, hh⟩ => ⟨x, List.mem_append_left _ hx, hh⟩, fun ⟨x, hx, hh⟩ => ⟨x, List.mem_append_left _ hx, hh⟩⟩
    intro k m hkm
    have := hok k m (hkm.imp (mono k m).1 (mono k m).2)
    exact ⟨this.1, fun hh => this.2 (hh.imp (mono m k).1 (mono m k).2)⟩

end Simphox
