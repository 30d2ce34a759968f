import Verif.RectLoop
import Verif.RectFlow
import Verif.NullBasisProps

/-! # `rectangular(u)` implements `u` (C18) -/

namespace Simphox

open Matrix Complex

/-! ### Reordering a circuit -/

theorem run_move {α σ : Type} (act : α → σ → σ) (a : α) (p : List α)
    (h : ∀ b ∈ p, ∀ v, act a (act b v) = act b (act a v)) (v : σ) :
    p.foldl (fun v g => act g v) (act a v) = act a (p.foldl (fun v g => act g v) v) := by
  induction p generalizing v with
  | nil => rfl
  | cons b p ih =>
    simp only [List.foldl_cons]
    rw [← h b (by simp), ih fun c hc => h c (by simp [hc])]

/-- Two orders of the same gates that both respect the keys of non-commuting gates do the same. -/
theorem run_reorder {α σ : Type} (act : α → σ → σ) (key : α → ℕ) (comm : α → α → Prop)
    (hsymm : ∀ a b, comm a b → comm b a)
    (hcomm : ∀ a b, comm a b → ∀ v, act a (act b v) = act b (act a v)) (l l' : List α) (hp : l.Perm l')
    (h : l.Pairwise fun a b => comm a b ∨ key a < key b)
    (h' : l'.Pairwise fun a b => comm a b ∨ key a < key b) (v : σ) :
    l.foldl (fun v g => act g v) v = l'.foldl (fun v g => act g v) v := by
  induction l generalizing l' v with
  | nil => rw [List.Perm.nil_eq hp]
  | cons a l ih =>
    obtain ⟨p, q, rfl⟩ := List.append_of_mem (hp.mem_iff.1 (List.mem_cons_self : a ∈ a :: l))
    have hp2 : l.Perm (p ++ q) := List.Perm.cons_inv (hp.trans List.perm_middle)
    have hrd : ∀ b ∈ p, comm a b := by
      intro b hb
      have h1 := (List.pairwise_cons.1 h).1 b (hp2.mem_iff.2 (by simp [hb]))
      have h2 := (List.pairwise_append.1 h').2.2 b hb a (by simp)
      rcases h1 with h1 | h1
      · exact h1
      · rcases h2 with h2 | h2
        · exact hsymm _ _ h2
        · omega
    rw [List.foldl_cons, ih (p ++ q) hp2 (List.pairwise_cons.1 h).2, List.foldl_append, List.foldl_append,
      List.foldl_cons, run_move act a p (fun b hb => hcomm a b (hrd b hb))]
    rw [List.pairwise_append, List.pairwise_cons] at h'
    rw [List.pairwise_append]
    exact ⟨h'.1, h'.2.1.2, fun x hx y hy => h'.2.2 x hx y (by simp [hy])⟩

theorem perm_groups {α : Type} (key : α → ℕ) (N : ℕ) (l : List α) (h : ∀ a ∈ l, key a < N) :
    l.Perm ((List.range N).flatMap fun k => l.filter fun a => key a = k) := by
  induction N generalizing l with
  | zero =>
    cases l with
    | nil => simp
    | cons a l => exact absurd (h a (by simp)) (by omega)
  | succ N ih =>
    rw [List.range_succ, List.flatMap_append]
    have h1 := ih (l.filter fun a => key a < N) (by
      intro a ha; simpa using (List.mem_filter.1 ha).2)
    have h2 : (l.filter (fun a => key a < N) ++ l.filter (fun a => !decide (key a < N))).Perm l :=
      List.filter_append_perm _ _
    refine h2.symm.trans (List.Perm.append ?_ ?_)
    · refine h1.trans (List.Perm.of_eq ?_)
      apply List.flatMap_congr
      intro k hk
      rw [List.mem_range] at hk
      rw [List.filter_filter]
      apply List.filter_congr
      intro a _
      by_cases hak : key a = k
      · simp [hak, hk]
      · simp [hak]
    · refine List.Perm.of_eq ?_
      simp only [List.flatMap_cons, List.flatMap_nil, List.append_nil]
      apply List.filter_congr
      intro a ha
      have := h a ha
      by_cases hN : key a = N
      · simp [hN]
      · simp [hN]; omega

/-! ### The gates of the checkerboard circuit -/

/-- A phase of `phi_checkerboard`, a phase of the final diagonal, an MZI of `theta_checkerboard`. -/
inductive RGate where
  | ph (r c : ℕ)
  | dg (r : ℕ)
  | mz (r c : ℕ)
deriving DecidableEq

/-- Multiply rail `r` by `exp(i x)`. -/
noncomputable def phaseAct (r : ℕ) (x : ℝ) (v : ℕ → ℂ) : ℕ → ℂ :=
  fun k => if k = r then exp (I * x) * v k else v k

noncomputable def RGate.act {n : ℕ} (s : RectState n) : RGate → (ℕ → ℂ) → ℕ → ℂ
  | .ph r c => phaseAct r (s.phi r c)
  | .dg r => phaseAct r (arg (entry s.u r r))
  | .mz r c => nodeAct (mziElements .top false 0 0 0 0 (s.theta r c) 0) r (r + 1)

/-- Position along the rails: phases of column `c` at `2c`, MZIs of column `c` at `2c + 1`. -/
def RGate.key (n : ℕ) : RGate → ℕ
  | .ph _ c => 2 * c
  | .dg r => 2 * diagColumn n r
  | .mz _ c => 2 * c + 1

/-- Two gates that commute: both phases, or on different rails. -/
def RGate.comm : RGate → RGate → Prop
  | .mz r _, .mz r' _ => r + 1 < r' ∨ r' + 1 < r
  | .mz r _, .ph r' _ => r' ≠ r ∧ r' ≠ r + 1
  | .mz r _, .dg r' => r' ≠ r ∧ r' ≠ r + 1
  | .ph r' _, .mz r _ => r' ≠ r ∧ r' ≠ r + 1
  | .dg r', .mz r _ => r' ≠ r ∧ r' ≠ r + 1
  | _, _ => True

theorem phaseAct_comm (r r' : ℕ) (x x' : ℝ) (v : ℕ → ℂ) :
    phaseAct r x (phaseAct r' x' v) = phaseAct r' x' (phaseAct r x v) := by
  funext k
  unfold phaseAct
  split_ifs <;> ring

theorem phaseAct_nodeAct {r t b : ℕ} (h1 : r ≠ t) (h2 : r ≠ b) (x : ℝ) (m : Elements) (v : ℕ → ℂ) :
    phaseAct r x (nodeAct m t b v) = nodeAct m t b (phaseAct r x v) := by
  funext k
  unfold phaseAct nodeAct
  by_cases hk : k = r
  · subst hk; simp [h1, h2]
  · simp [hk, h1.symm, h2.symm]

theorem RGate.comm_symm (a b : RGate) (h : a.comm b) : b.comm a := by
  cases a <;> cases b <;> simp only [RGate.comm] at h ⊢ <;> first | exact h | (exact h.symm)

theorem RGate.comm_act {n : ℕ} (s : RectState n) (a b : RGate) (h : a.comm b) (v : ℕ → ℂ) :
    a.act s (b.act s v) = b.act s (a.act s v) := by
  cases a <;> cases b <;> simp only [RGate.comm] at h <;> simp only [RGate.act]
  · exact phaseAct_comm _ _ _ _ _
  · exact phaseAct_comm _ _ _ _ _
  · exact phaseAct_nodeAct h.1 h.2 _ _ _
  · exact phaseAct_comm _ _ _ _ _
  · exact phaseAct_comm _ _ _ _ _
  · exact phaseAct_nodeAct h.1 h.2 _ _ _
  · exact (phaseAct_nodeAct h.1 h.2 _ _ _).symm
  · exact (phaseAct_nodeAct h.1 h.2 _ _ _).symm
  · rename_i r c r' c'
    exact nodeAct_comm (a := ⟨0, r, r + 1, 0, 0, 0, 0⟩) (b := ⟨0, r', r' + 1, 0, 0, 0, 0⟩)
      (by unfold RailDisjoint; simp only; omega) v

/-- Gates of the inverse of a right (even) step. -/
def gatesR (n : ℕ) (x : ℕ × ℕ) : List RGate :=
  [.ph (stepRail n x) (stepCol n x), .mz (stepRail n x) (stepCol n x)]

/-- Gates of the inverse of a left (odd) step. -/
def gatesL (n : ℕ) (x : ℕ × ℕ) : List RGate :=
  [.mz (stepRail n x) (stepCol n x), .ph (stepRail n x) (stepCol n x + 1),
    .ph (stepRail n x + 1) (stepCol n x + 1)]

def evenSteps (n : ℕ) : List (ℕ × ℕ) := (rectSteps n).filter fun x => ¬ x.1 % 2 = 1
def oddSteps (n : ℕ) : List (ℕ × ℕ) := ((rectSteps n).filter fun x => x.1 % 2 = 1).reverse

/-- All gates, in the order in which `u = L₁⁻¹ ⋯ D ⋯ R₁` applies them. -/
def rectGates (n : ℕ) : List RGate :=
  (evenSteps n).flatMap (gatesR n) ++ ((List.range n).map RGate.dg ++ (oddSteps n).flatMap (gatesL n))

noncomputable def runGates {n : ℕ} (s : RectState n) (l : List RGate) (v : ℕ → ℂ) : ℕ → ℂ :=
  l.foldl (fun v g => g.act s v) v

theorem runGates_append {n : ℕ} (s : RectState n) (l l' : List RGate) (v : ℕ → ℂ) :
    runGates s (l ++ l') v = runGates s l' (runGates s l v) := by simp [runGates]

/-! ### The gates compute `u` -/

theorem restrict_phaseAct2 {n p : ℕ} (hp : p + 1 < n) (x y : ℝ) (v : ℕ → ℂ) :
    restrict n (phaseAct (p + 1) y (phaseAct p x v)) =
      (embed2 n p (p + 1) (phaseMatrix x y)).mulVec (restrict n v) := by
  funext a
  rw [embed2_mulVec (by omega) hp (by omega)]
  unfold restrict phaseAct phaseMatrix
  simp only [of_apply, cons_val_zero, cons_val_one, cons_val', cons_val_fin_one, Fin.isValue]
  by_cases h1 : a.val = p
  · simp [h1]
  · by_cases h2 : a.val = p + 1
    · simp [h2]
    · simp [h1, h2]

theorem phaseAct_zero (r : ℕ) (v : ℕ → ℂ) : phaseAct r 0 v = v := by
  funext k; unfold phaseAct; simp

theorem restrict_gatesR {n : ℕ} (s : RectState n) {x : ℕ × ℕ} (hx : StepValid n x) (v : ℕ → ℂ) :
    restrict n (runGates s (gatesR n x) v) = (gateR n s x).mulVec (restrict n v) := by
  have hb := (step_bounds hx).1
  simp only [runGates, gatesR, List.foldl_cons, List.foldl_nil, RGate.act, gateR]
  rw [restrict_nodeAct _ (by omega) hb (by omega), mziElements_top_eq, mziNode_split _ (s.phi _ _),
    embed2_mul (by omega) hb (by omega), ← mulVec_mulVec, ← restrict_phaseAct2 hb, phaseAct_zero]

theorem restrict_gatesL {n : ℕ} (s : RectState n) {x : ℕ × ℕ} (hx : StepValid n x) (v : ℕ → ℂ) :
    restrict n (runGates s (gatesL n x) v) = (gateL n s x).mulVec (restrict n v) := by
  have hb := (step_bounds hx).1
  simp only [runGates, gatesL, List.foldl_cons, List.foldl_nil, RGate.act, gateL]
  rw [restrict_phaseAct2 hb, restrict_nodeAct _ (by omega) hb (by omega), mziElements_top_eq,
    embed2_mul (by omega) hb (by omega), ← mulVec_mulVec]

theorem runGates_diag {n : ℕ} (s : RectState n) (m : ℕ) (v : ℕ → ℂ) (k : ℕ) :
    runGates s ((List.range m).map RGate.dg) v k =
      if k < m then exp (I * (arg (entry s.u k k) : ℂ)) * v k else v k := by
  induction m generalizing k with
  | zero => simp [runGates]
  | succ m ih =>
    rw [List.range_succ, List.map_append, runGates_append]
    have hrw : ∀ w, runGates s (List.map RGate.dg [m]) w = phaseAct m (arg (entry s.u m m)) w := fun _ => rfl
    rw [hrw]
    unfold phaseAct
    rw [ih k]
    by_cases h1 : k = m
    · subst h1; simp
    · by_cases h2 : k < m
      · simp [h1, h2, show k < m + 1 by omega]
      · simp [h1, h2, show ¬ k < m + 1 by omega]

theorem restrict_gates {n : ℕ} (hn : 1 ≤ n) {u : Matrix (Fin n) (Fin n) ℂ}
    (hu : u ∈ unitaryGroup (Fin n) ℂ) (v : ℕ → ℂ) :
    restrict n (runGates (rectLoop n u) (rectGates n) v) = u.mulVec (restrict n v) := by
  set s := rectLoop n u with hs
  have hR : ∀ (l : List (ℕ × ℕ)), (∀ x ∈ l, StepValid n x) → ∀ v,
      restrict n (runGates s (l.flatMap (gatesR n)) v) = ((l.map (gateR n s)).reverse.prod).mulVec (restrict n v) := by
    intro l
    induction l with
    | nil => intro _ v; simp [runGates]
    | cons x l ih =>
      intro hv v
      rw [List.flatMap_cons, runGates_append, ih (fun y hy => hv y (by simp [hy])),
        restrict_gatesR s (hv x (by simp)), List.map_cons, List.reverse_cons, List.prod_append,
        List.prod_singleton, mulVec_mulVec]
  have hL : ∀ (l : List (ℕ × ℕ)), (∀ x ∈ l, StepValid n x) → ∀ v,
      restrict n (runGates s (l.flatMap (gatesL n)) v) = ((l.map (gateL n s)).reverse.prod).mulVec (restrict n v) := by
    intro l
    induction l with
    | nil => intro _ v; simp [runGates]
    | cons x l ih =>
      intro hv v
      rw [List.flatMap_cons, runGates_append, ih (fun y hy => hv y (by simp [hy])),
        restrict_gatesL s (hv x (by simp)), List.map_cons, List.reverse_cons, List.prod_append,
        List.prod_singleton, mulVec_mulVec]
  have hD : ∀ v, restrict n (runGates s ((List.range n).map RGate.dg) v) = s.u.mulVec (restrict n v) := by
    intro v
    rw [rectLoop_diagonal hn hu]
    funext k
    rw [mulVec_diagonal]
    simp only [restrict]
    rw [runGates_diag, if_pos k.2]
  have hve : ∀ x ∈ evenSteps n, StepValid n x := fun x hx =>
    mem_rectSteps.1 (List.mem_filter.1 hx).1
  have hvo : ∀ x ∈ oddSteps n, StepValid n x := fun x hx =>
    mem_rectSteps.1 (List.mem_filter.1 (List.mem_reverse.1 hx)).1
  unfold rectGates
  rw [runGates_append, runGates_append, hL _ hvo, hD, hR _ hve, mulVec_mulVec, mulVec_mulVec]
  congr 1
  have := foldl_undo (rectSteps n) (fun x hx => mem_rectSteps.1 hx) (rectSteps_pairwise n)
    ⟨u, fun _ _ => 0, fun _ _ => 0⟩
  unfold oddSteps evenSteps
  rw [List.map_reverse, List.reverse_reverse]
  exact this.symm

/-! ### The gates in column order -/

theorem rectGates_pairwise (n : ℕ) :
    (rectGates n).Pairwise fun a b => (a.comm b ∨ a.key n < b.key n) ∧ a ≠ b := by
  have hve : ∀ x ∈ evenSteps n, StepValid n x ∧ ¬ x.1 % 2 = 1 := fun x hx =>
    ⟨mem_rectSteps.1 (List.mem_filter.1 hx).1, by simpa using (List.mem_filter.1 hx).2⟩
  have hvo : ∀ x ∈ oddSteps n, StepValid n x ∧ x.1 % 2 = 1 := fun x hx =>
    ⟨mem_rectSteps.1 (List.mem_filter.1 (List.mem_reverse.1 hx)).1,
      by simpa using (List.mem_filter.1 (List.mem_reverse.1 hx)).2⟩
  have hpe : (evenSteps n).Pairwise StepLt := (rectSteps_pairwise n).filter _
  have hpo : (oddSteps n).Pairwise fun x y => StepLt y x := by
    unfold oddSteps
    rw [List.pairwise_reverse]
    exact (rectSteps_pairwise n).filter _
  unfold rectGates
  rw [List.pairwise_append, List.pairwise_append, List.pairwise_flatMap, List.pairwise_flatMap,
    List.pairwise_map]
  refine ⟨⟨?_, ?_⟩, ⟨?_, ⟨?_, ?_⟩, ?_⟩, ?_⟩
  · intro x _
    simp [gatesR, RGate.comm, RGate.key]
  · refine hpe.imp_of_mem ?_
    intro x y hx hy hxy a ha b hb
    obtain ⟨hx1, hx2⟩ := hve x hx
    obtain ⟨hy1, hy2⟩ := hve y hy
    have bx := step_bounds hx1
    have byy := step_bounds hy1
    have cx : stepCol n x = x.2 := if_neg hx2
    have cy : stepCol n y = y.2 := if_neg hy2
    obtain ⟨vx1, vx2⟩ := hx1
    obtain ⟨vy1, vy2⟩ := hy1
    have bx5 := bx.2.2.2.2 hx2
    have by5 := byy.2.2.2.2 hy2
    unfold StepLt at hxy
    simp only [gatesR, List.mem_cons, List.not_mem_nil, or_false] at ha hb
    rcases ha with rfl | rfl <;> rcases hb with rfl | rfl <;>
      simp only [RGate.comm, RGate.key, ne_eq, RGate.ph.injEq, RGate.mz.injEq, reduceCtorEq,
        true_or, true_and, not_false_eq_true, and_true, not_and] <;> omega
  · refine (List.pairwise_lt_range).imp ?_
    intro a b hab
    simp only [RGate.comm, ne_eq, RGate.dg.injEq, true_or, true_and]
    omega
  · intro x _
    simp [gatesL, RGate.comm, RGate.key]
    omega
  · refine hpo.imp_of_mem ?_
    intro x y hx hy hxy a ha b hb
    obtain ⟨hx1, hx2⟩ := hvo x hx
    obtain ⟨hy1, hy2⟩ := hvo y hy
    have bx := step_bounds hx1
    have byy := step_bounds hy1
    have cx : stepCol n x = n - 1 - x.2 := if_pos hx2
    have cy : stepCol n y = n - 1 - y.2 := if_pos hy2
    have bx5 := bx.2.2.2.1 hx2
    have by5 := byy.2.2.2.1 hy2
    obtain ⟨vx1, vx2⟩ := hx1
    obtain ⟨vy1, vy2⟩ := hy1
    unfold StepLt at hxy
    simp only [gatesL, List.mem_cons, List.not_mem_nil, or_false] at ha hb
    rcases ha with rfl | rfl | rfl <;> rcases hb with rfl | rfl | rfl <;>
      simp only [RGate.comm, RGate.key, ne_eq, RGate.ph.injEq, RGate.mz.injEq, reduceCtorEq,
        true_or, true_and, not_false_eq_true, and_true, not_and] <;> omega
  · intro a ha b hb
    obtain ⟨r, hr, rfl⟩ := List.mem_map.1 ha
    rw [List.mem_range] at hr
    obtain ⟨y, hy, hb⟩ := List.mem_flatMap.1 hb
    obtain ⟨hy1, hy2⟩ := hvo y hy
    have byy := step_bounds hy1
    have by5 := byy.2.2.2.1 hy2
    obtain ⟨vy1, vy2⟩ := hy1
    simp only [gatesL, List.mem_cons, List.not_mem_nil, or_false] at hb
    rcases hb with rfl | rfl | rfl <;>
      simp only [RGate.comm, RGate.key, diagColumn, ne_eq, reduceCtorEq, true_or, not_false_eq_true, and_self, and_true] <;>
      split_ifs <;> omega
  · intro a ha b hb
    obtain ⟨x, hx, ha⟩ := List.mem_flatMap.1 ha
    obtain ⟨hx1, hx2⟩ := hve x hx
    have bx := step_bounds hx1
    have bx5 := bx.2.2.2.2 hx2
    obtain ⟨vx1, vx2⟩ := hx1
    simp only [gatesR, List.mem_cons, List.not_mem_nil, or_false] at ha
    rcases List.mem_append.1 hb with hb | hb
    · obtain ⟨r, hr, rfl⟩ := List.mem_map.1 hb
      rw [List.mem_range] at hr
      rcases ha with rfl | rfl <;>
        simp only [RGate.comm, RGate.key, diagColumn, ne_eq, reduceCtorEq, true_or, not_false_eq_true, and_self, and_true] <;>
        split_ifs <;> omega
    · obtain ⟨y, hy, hb⟩ := List.mem_flatMap.1 hb
      obtain ⟨hy1, hy2⟩ := hvo y hy
      have byy := step_bounds hy1
      have by5 := byy.2.2.2.1 hy2
      obtain ⟨vy1, vy2⟩ := hy1
      simp only [gatesL, List.mem_cons, List.not_mem_nil, or_false] at hb
      rcases ha with rfl | rfl <;> rcases hb with rfl | rfl | rfl <;>
        simp only [RGate.comm, RGate.key, ne_eq, RGate.ph.injEq, RGate.mz.injEq, reduceCtorEq,
        true_or, true_and, not_false_eq_true, and_true, not_and] <;> omega

/-! ### The layers of the checkerboard circuit -/

/-- The coupling layer `c`: the MZI of `theta r c` (with `phi = 0`) on each pair `r, r + 1` of the layer. -/
noncomputable def couple (n : ℕ) (θ : ℕ → ℕ → ℝ) (c : ℕ) (v : ℕ → ℂ) : ℕ → ℂ := fun r =>
  if r % 2 = c % 2 ∧ r + 1 < n then
    (mziElements .top false 0 0 0 0 (θ r c) 0).t11 * v r +
      (mziElements .top false 0 0 0 0 (θ r c) 0).t21 * v (r + 1)
  else if 1 ≤ r ∧ r % 2 ≠ c % 2 ∧ r < n then
    (mziElements .top false 0 0 0 0 (θ (r - 1) c) 0).t12 * v (r - 1) +
      (mziElements .top false 0 0 0 0 (θ (r - 1) c) 0).t22 * v r
  else v r

/-- A list of nodes covering exactly the pairs of layer `c` computes `couple`. -/
theorem couple_result {n c : ℕ} (θ : ℕ → ℕ → ℝ) {nodes : List Node} {el : ℕ → Elements}
    (h1 : ∀ a ∈ nodes, a.top % 2 = c % 2 ∧ a.bottom = a.top + 1 ∧ a.top + 1 < n ∧
      el a.id = mziElements .top false 0 0 0 0 (θ a.top c) 0)
    (h2 : ∀ r, r % 2 = c % 2 → r + 1 < n → ∃ a ∈ nodes, a.top = r) (v : ℕ → ℂ) :
    ColumnResult el nodes v (couple n θ c v) where
  top a ha := by
    obtain ⟨e1, e2, e3, e4⟩ := h1 a ha
    unfold couple
    rw [if_pos ⟨e1, e3⟩, e4, e2]
  bottom a ha := by
    obtain ⟨e1, e2, e3, e4⟩ := h1 a ha
    unfold couple
    rw [e2, if_neg (by omega), if_pos ⟨by omega, by omega, e3⟩, e4, Nat.add_sub_cancel]
  other r hr := by
    unfold couple
    rw [if_neg, if_neg]
    · rintro ⟨x1, x2, x3⟩
      obtain ⟨a, ha, e⟩ := h2 (r - 1) (by omega) (by omega)
      have := (h1 a ha).2.1
      exact (hr a ha).2 (by omega)
    · rintro ⟨x1, x2⟩
      obtain ⟨a, ha, e⟩ := h2 r x1 x2
      exact (hr a ha).1 e.symm

/-- A phase front common to the pairs of layer `c` passes through the layer. -/
theorem couple_gamma {n : ℕ} (θ : ℕ → ℕ → ℝ) (c : ℕ) (d : ℕ → ℝ)
    (hd : ∀ r, r % 2 = c % 2 → r + 1 < n → exp (I * d r) = exp (I * d (r + 1))) (v : ℕ → ℂ) :
    couple n θ c (gammaApply d v) = gammaApply d (couple n θ c v) := by
  funext r
  simp only [couple, gammaApply]
  split_ifs with h1 h2
  · rw [← hd r h1.1 h1.2]; ring
  · have := hd (r - 1) (by omega) (by omega)
    rw [Nat.sub_add_cancel h2.1] at this
    rw [this]; ring
  · rfl

/-- The phases of one column, in any order. -/
theorem run_phases {n : ℕ} (s : RectState n) (c : ℕ) (l : List RGate) (hnd : l.Nodup)
    (hl : ∀ g ∈ l, (∃ r, g = .ph r c) ∨ ∃ r, g = .dg r) (v : ℕ → ℂ) (k : ℕ) :
    runGates s l v k = exp (I * (((if RGate.ph k c ∈ l then s.phi k c else 0) +
      if RGate.dg k ∈ l then arg (entry s.u k k) else 0 : ℝ) : ℂ)) * v k := by
  induction l generalizing v with
  | nil => simp [runGates]
  | cons g l ih =>
    have hnd' := List.nodup_cons.1 hnd
    have hr : runGates s (g :: l) v = runGates s l (g.act s v) := rfl
    rw [hr, ih hnd'.2 (fun g' hg' => hl g' (by simp [hg']))]
    rcases hl g (by simp) with ⟨r, rfl⟩ | ⟨r, rfl⟩
    · simp only [RGate.act, phaseAct, List.mem_cons, RGate.ph.injEq, and_true, reduceCtorEq, false_or]
      by_cases h : k = r
      · subst h
        rw [if_pos rfl, if_neg hnd'.1, if_pos (Or.inl rfl), ← mul_assoc, ← exp_add]
        congr 2; push_cast; ring
      · simp only [h, if_false, false_or]
    · simp only [RGate.act, phaseAct, List.mem_cons, RGate.dg.injEq, reduceCtorEq, false_or]
      by_cases h : k = r
      · subst h
        rw [if_pos rfl, if_neg hnd'.1, if_pos (Or.inl rfl), ← mul_assoc, ← exp_add]
        congr 2; push_cast; ring
      · simp only [h, if_false, false_or]

/-- The MZIs of one column, in any order. -/
theorem run_mzis {n : ℕ} (s : RectState n) (c : ℕ) (l : List RGate) (hnd : l.Nodup)
    (hl : ∀ g, g ∈ l ↔ ∃ r, r % 2 = c % 2 ∧ r + 1 < n ∧ g = .mz r c) (v : ℕ → ℂ) :
    runGates s l v = couple n s.theta c v := by
  let node : RGate → Node := fun g => match g with
    | .mz r _ => ⟨r, r, r + 1, 0, 0, 0, 0⟩
    | _ => ⟨0, 0, 0, 0, 0, 0, 0⟩
  let el : ℕ → Elements := fun r => mziElements .top false 0 0 0 0 (s.theta r c) 0
  have e : ∀ (l : List RGate), (∀ g ∈ l, ∃ r, r % 2 = c % 2 ∧ r + 1 < n ∧ g = .mz r c) → ∀ v,
      runGates s l v = seqApply el (l.map node) v := by
    intro l
    induction l with
    | nil => intro _ v; rfl
    | cons g l ih =>
      intro h v
      obtain ⟨r, -, -, rfl⟩ := h g (by simp)
      show runGates s l _ = seqApply el (l.map node) _
      rw [ih fun g' hg' => h g' (by simp [hg'])]
      rfl
  rw [e l fun g hg => (hl g).1 hg]
  have hg : GoodColumn (l.map node) := by
    refine ⟨?_, ?_⟩
    · intro a ha
      obtain ⟨g, hg, rfl⟩ := List.mem_map.1 ha
      obtain ⟨r, -, -, rfl⟩ := (hl g).1 hg
      simp [node]
    · rw [List.pairwise_map]
      refine (List.nodup_iff_pairwise_ne.1 hnd).imp_of_mem ?_
      intro g g' hg hg' hne
      obtain ⟨r, h1, h2, rfl⟩ := (hl g).1 hg
      obtain ⟨r', h1', h2', rfl⟩ := (hl g').1 hg'
      have : r ≠ r' := fun h => hne (by rw [h])
      simp only [node, RailDisjoint]
      omega
  refine (seqApply_result hg v).unique (couple_result _ ?_ ?_ v)
  · intro a ha
    obtain ⟨g, hg, rfl⟩ := List.mem_map.1 ha
    obtain ⟨r, h1, h2, rfl⟩ := (hl g).1 hg
    exact ⟨h1, rfl, h2, rfl⟩
  · intro r h1 h2
    exact ⟨_, List.mem_map_of_mem ((hl (.mz r c)).2 ⟨r, h1, h2, rfl⟩), rfl⟩

/-! ### The gates of each column -/

theorem mem_rectGates {n : ℕ} {g : RGate} : g ∈ rectGates n ↔
    (∃ x, StepValid n x ∧ ¬ x.1 % 2 = 1 ∧ g ∈ gatesR n x) ∨ (∃ r < n, g = .dg r) ∨
      ∃ x, StepValid n x ∧ x.1 % 2 = 1 ∧ g ∈ gatesL n x := by
  unfold rectGates evenSteps oddSteps
  simp only [List.mem_append, List.mem_flatMap, List.mem_map, List.mem_range, List.mem_filter,
    List.mem_reverse, mem_rectSteps, decide_eq_true_eq]
  constructor
  · rintro (⟨x, ⟨h1, h2⟩, h3⟩ | ⟨r, h, rfl⟩ | ⟨x, ⟨h1, h2⟩, h3⟩)
    · exact .inl ⟨x, h1, h2, h3⟩
    · exact .inr (.inl ⟨r, h, rfl⟩)
    · exact .inr (.inr ⟨x, h1, h2, h3⟩)
  · rintro (⟨x, h1, h2, h3⟩ | ⟨r, h, rfl⟩ | ⟨x, h1, h2, h3⟩)
    · exact .inl ⟨x, ⟨h1, h2⟩, h3⟩
    · exact .inr (.inl ⟨r, h, rfl⟩)
    · exact .inr (.inr ⟨x, ⟨h1, h2⟩, h3⟩)

theorem ph_mem_rectGates {n r c : ℕ} :
    RGate.ph r c ∈ rectGates n ↔ ∃ x, StepValid n x ∧ StepWrites n x r c := by
  rw [mem_rectGates]
  unfold StepWrites
  simp only [gatesR, gatesL, List.mem_cons, RGate.ph.injEq, reduceCtorEq, List.not_mem_nil, or_false,
    false_or, and_false, exists_const]
  constructor
  · rintro (⟨x, h1, h2, h3⟩ | ⟨x, h1, h2, h3⟩)
    · exact ⟨x, h1, by rw [if_neg h2]; exact h3⟩
    · exact ⟨x, h1, by rw [if_pos h2]; tauto⟩
  · rintro ⟨x, h1, h3⟩
    by_cases h2 : x.1 % 2 = 1
    · rw [if_pos h2] at h3; exact .inr ⟨x, h1, h2, by tauto⟩
    · rw [if_neg h2] at h3; exact .inl ⟨x, h1, h2, h3⟩

theorem dg_mem_rectGates {n r : ℕ} : RGate.dg r ∈ rectGates n ↔ r < n := by
  rw [mem_rectGates]
  simp [gatesR, gatesL]

theorem mz_mem_rectGates {n r c : ℕ} :
    RGate.mz r c ∈ rectGates n ↔ r % 2 = c % 2 ∧ r + 1 < n ∧ c < n := by
  rw [mem_rectGates]
  simp only [gatesR, gatesL, List.mem_cons, RGate.mz.injEq, reduceCtorEq, List.not_mem_nil, or_false,
    false_or, and_false, exists_const]
  constructor
  · rintro (⟨x, h1, h2, h3, h4⟩ | ⟨x, h1, h2, h3, h4⟩) <;>
    · have := step_bounds h1
      subst h3 h4
      exact ⟨this.2.2.1, this.1, this.2.1⟩
  · rintro ⟨h1, h2, h3⟩
    by_cases h : r + c + 1 < n
    · refine .inl ⟨(r + c, c), ⟨by simp only; omega, by simp only; omega⟩, by simp only; omega, ?_⟩
      have h' : ¬ (r + c) % 2 = 1 := by omega
      unfold stepRail stepCol
      simp [h']
    · refine .inr ⟨(2 * n - 3 - r - c, n - 1 - c), ⟨by simp only; omega, by simp only; omega⟩,
        by simp only; omega, ?_⟩
      have h' : (2 * n - 3 - r - c) % 2 = 1 := by omega
      unfold stepRail stepCol
      simp only [if_pos h']
      omega

theorem rectGates_key {n : ℕ} (g : RGate) (h : g ∈ rectGates n) : g.key n < 2 * n + 1 := by
  cases g with
  | ph r c =>
    obtain ⟨x, h1, h2⟩ := ph_mem_rectGates.1 h
    have := step_bounds h1
    unfold StepWrites at h2
    simp only [RGate.key]
    split_ifs at h2 <;> omega
  | dg r =>
    simp only [RGate.key, diagColumn]
    split_ifs <;> omega
  | mz r c =>
    have := mz_mem_rectGates.1 h
    simp only [RGate.key]; omega

/-- All gates, column after column, computing `u`. -/
theorem restrict_columns {n : ℕ} (hn : 1 ≤ n) {u : Matrix (Fin n) (Fin n) ℂ}
    (hu : u ∈ unitaryGroup (Fin n) ℂ) (v : ℕ → ℂ) :
    restrict n (gammaApply (fun r => rectPhi n (rectLoop n u) r n)
      ((List.range n).foldl (fun v c => couple n (rectLoop n u).theta c
        (gammaApply (fun r => rectPhi n (rectLoop n u) r c) v)) v)) = u.mulVec (restrict n v) := by
  rw [← restrict_gates hn hu]
  set s := rectLoop n u with hs
  congr 1
  have hpw := rectGates_pairwise n
  have hnd : (rectGates n).Nodup := List.nodup_iff_pairwise_ne.2 (hpw.imp fun h => h.2)
  have hre : ∀ v, runGates s (rectGates n) v = runGates s ((List.range (2 * n + 1)).flatMap fun k =>
      (rectGates n).filter fun a => a.key n = k) v := by
    intro v
    have hperm := perm_groups (RGate.key n) (2 * n + 1) (rectGates n) rectGates_key
    refine run_reorder (RGate.act s) (RGate.key n) RGate.comm RGate.comm_symm (RGate.comm_act s) _ _
      hperm (hpw.imp fun h => h.1) ?_ v
    rw [List.pairwise_flatMap]
    refine ⟨?_, ?_⟩
    · intro k _
      refine (hpw.filter _).imp_of_mem ?_
      intro a b ha hb hab
      have h1 : a.key n = k := by simpa using (List.mem_filter.1 ha).2
      have h2 : b.key n = k := by simpa using (List.mem_filter.1 hb).2
      rcases hab.1 with h | h
      · exact .inl h
      · omega
    · refine (List.pairwise_lt_range).imp ?_
      intro k k' hkk a ha b hb
      have h1 : a.key n = k := by simpa using (List.mem_filter.1 ha).2
      have h2 : b.key n = k' := by simpa using (List.mem_filter.1 hb).2
      exact .inr (by omega)
  have hphase : ∀ c v, runGates s ((rectGates n).filter fun a => a.key n = 2 * c) v =
      gammaApply (fun r => rectPhi n s r c) v := by
    intro c v
    funext k
    rw [run_phases s c _ (hnd.filter _)]
    · simp only [gammaApply, rectPhi]
      congr 4
      congr 1
      · by_cases h : RGate.ph k c ∈ rectGates n
        · rw [if_pos (List.mem_filter.2 ⟨h, by simp [RGate.key]⟩)]
        · rw [if_neg fun h' => h (List.mem_filter.1 h').1]
          rw [ph_mem_rectGates] at h
          push Not at h
          exact ((foldl_cells (rectSteps n) (fun x hx => mem_rectSteps.1 hx)
            ⟨u, fun _ _ => 0, fun _ _ => 0⟩).2 k c
            fun x hx => h x (mem_rectSteps.1 hx)).symm
      · by_cases h : k < n
        · have : RGate.dg k ∈ (rectGates n).filter (fun a => a.key n = 2 * c) ↔ c = diagColumn n k := by
            rw [List.mem_filter, dg_mem_rectGates, decide_eq_true_eq]
            simp only [h, RGate.key, true_and]
            omega
          simp only [this]
        · rw [if_neg fun h' => h (dg_mem_rectGates.1 (List.mem_filter.1 h').1)]
          simp [entry, h]
    · intro g hg
      obtain ⟨h1, h2⟩ := List.mem_filter.1 hg
      have h2 : g.key n = 2 * c := by simpa using h2
      cases g with
      | ph r c' => simp only [RGate.key] at h2; exact .inl ⟨r, by rw [show c' = c by omega]⟩
      | dg r => exact .inr ⟨r, rfl⟩
      | mz r c' => simp only [RGate.key] at h2; omega
  have hmzi : ∀ c < n, ∀ v, runGates s ((rectGates n).filter fun a => a.key n = 2 * c + 1) v =
      couple n s.theta c v := by
    intro c hc v
    refine run_mzis s c _ (hnd.filter _) ?_ v
    intro g
    rw [List.mem_filter, decide_eq_true_eq]
    cases g with
    | ph r c' =>
      simp only [RGate.key, reduceCtorEq, and_false, exists_const, iff_false]
      omega
    | dg r =>
      simp only [RGate.key, reduceCtorEq, and_false, exists_const, iff_false]
      omega
    | mz r c' =>
      rw [mz_mem_rectGates]
      simp only [RGate.key, RGate.mz.injEq]
      constructor
      · rintro ⟨⟨h1, h2, h3⟩, h4⟩
        have : c' = c := by omega
        subst this
        exact ⟨r, h1, h2, rfl, rfl⟩
      · rintro ⟨r', h1, h2, rfl, rfl⟩
        exact ⟨⟨h1, h2, hc⟩, rfl⟩
  rw [hre, List.range_succ, List.flatMap_append, runGates_append]
  rw [show ((List.range (2 * n)).flatMap fun k => (rectGates n).filter fun a => a.key n = k) =
    ((List.range (2 * n)).flatMap fun k => (rectGates n).filter fun a => a.key n = k) from rfl]
  simp only [List.flatMap_cons, List.flatMap_nil, List.append_nil]
  rw [hphase]
  congr 1
  have : ∀ m ≤ n, (List.range m).foldl (fun v c => couple n s.theta c
      (gammaApply (fun r => rectPhi n s r c) v)) v =
      runGates s ((List.range (2 * m)).flatMap fun k => (rectGates n).filter fun a => a.key n = k) v := by
    intro m
    induction m with
    | zero => intro _; rfl
    | succ m ih =>
      intro hm
      rw [show 2 * (m + 1) = 2 * m + 1 + 1 by ring, List.range_succ, List.range_succ, List.range_succ,
        List.foldl_append, ih (by omega), List.flatMap_append, List.flatMap_append, runGates_append,
        runGates_append]
      simp only [List.flatMap_cons, List.flatMap_nil, List.append_nil, List.foldl_cons, List.foldl_nil]
      rw [hphase, hmzi m (by omega)]
  exact this n le_rfl

/-! ### The mesh of `rectangular` -/

theorem rectParams_length (n : ℕ) (p : ℕ → ℕ → ℝ) (k : ℕ) :
    (rectParams n p k).length = (rectNodes n k).length := by
  induction k with
  | zero => rfl
  | succ k ih => simp [rectParams, rectNodes, ih]

theorem rectNodes_spec (n k : ℕ) (a : Node) (ha : a ∈ rectNodes n k) :
    a.id < (rectNodes n k).length ∧ a.top % 2 = a.column % 2 ∧ a.bottom = a.top + 1 ∧ a.top + 1 < n ∧
      a.column < k := by
  induction k with
  | zero => simp [rectNodes] at ha
  | succ k ih =>
    rw [rectNodes] at ha ⊢
    rw [List.length_append]
    rcases List.mem_append.1 ha with ha | ha
    · have := ih ha; omega
    · obtain ⟨j, hj, rfl⟩ := List.mem_map.1 ha
      rw [List.mem_range] at hj
      simp only [List.length_map, List.length_range]
      refine ⟨by omega, by omega, by omega, ?_, by omega⟩
      unfold rectWidth at hj
      rcases Nat.mod_two_eq_zero_or_one k with h | h <;> rcases Nat.mod_two_eq_zero_or_one n with h' | h' <;>
        simp only [h, h'] at hj ⊢ <;> omega

theorem rectNodes_mem (n k r c : ℕ) (hc : c < k) (h : r % 2 = c % 2) (hr : r + 1 < n) :
    ∃ a ∈ rectNodes n k, a.top = r ∧ a.column = c := by
  induction k with
  | zero => omega
  | succ k ih =>
    rw [rectNodes]
    by_cases hck : c < k
    · obtain ⟨a, ha, h1⟩ := ih hck
      exact ⟨a, List.mem_append_left _ ha, h1⟩
    · have : c = k := by omega
      subst this
      refine ⟨_, List.mem_append_right _ (List.mem_map.2 ⟨r / 2, ?_, rfl⟩), by simp only; omega, rfl⟩
      rw [List.mem_range]
      unfold rectWidth
      rcases Nat.mod_two_eq_zero_or_one c with h1 | h1 <;> rcases Nat.mod_two_eq_zero_or_one n with h' | h' <;>
        simp only [h1, h'] <;> omega

theorem rectParams_getD (n : ℕ) (cb : ℕ → ℕ → ℝ) (k : ℕ) (a : Node) (ha : a ∈ rectNodes n k) :
    (rectParams n (checkerboardToParam cb) k).getD a.id 0 = cb a.top a.column := by
  induction k with
  | zero => simp [rectNodes] at ha
  | succ k ih =>
    rw [rectNodes] at ha
    rw [rectParams]
    rcases List.mem_append.1 ha with ha | ha
    · have := (rectNodes_spec n k a ha).1
      rw [List.getD_eq_getElem?_getD, List.getElem?_append_left (by rwa [rectParams_length]),
        ← List.getD_eq_getElem?_getD, ih ha]
    · obtain ⟨j, hj, rfl⟩ := List.mem_map.1 ha
      rw [List.mem_range] at hj
      simp only
      rw [List.getD_eq_getElem?_getD, List.getElem?_append_right (by rw [rectParams_length]; omega),
        rectParams_length, Nat.add_sub_cancel_left, List.getElem?_eq_getElem (by simpa using hj)]
      simp [checkerboardToParam]

theorem rectNodes_disjoint (n k : ℕ) : ColumnsDisjoint (rectNodes n k) := by
  unfold ColumnsDisjoint
  induction k with
  | zero => simp [rectNodes]
  | succ k ih =>
    rw [rectNodes, List.pairwise_append]
    refine ⟨ih, ?_, ?_⟩
    · rw [List.pairwise_map]
      refine (List.pairwise_lt_range).imp ?_
      intro i j hij _
      simp only [RailDisjoint]
      omega
    · intro a ha b hb hab
      have := (rectNodes_spec n k a ha).2.2.2.2
      obtain ⟨j, -, rfl⟩ := List.mem_map.1 hb
      simp only at hab
      omega

theorem rectNodes_numColumns {n : ℕ} (hn : 2 ≤ n) :
    n = 2 ∧ numColumns (rectNodes n n) = 1 ∨ 3 ≤ n ∧ numColumns (rectNodes n n) = n := by
  by_cases h : n = 2
  · subst h
    refine .inl ⟨rfl, numColumns_eq_of ?_ ?_⟩
    · intro a ha
      have := rectNodes_spec 2 2 a ha
      omega
    · obtain ⟨a, ha, -, h3⟩ := rectNodes_mem 2 2 0 0 (by omega) (by omega) (by omega)
      exact ⟨a, ha, by omega⟩
  · refine .inr ⟨by omega, numColumns_eq_of (fun a ha => (rectNodes_spec n n a ha).2.2.2.2) ?_⟩
    obtain ⟨a, ha, -, h3⟩ := rectNodes_mem n n ((n - 1) % 2) (n - 1) (by omega) (by omega) (by omega)
    exact ⟨a, ha, by omega⟩

theorem rectangular_wellFormed (n : ℕ) (u : Matrix (Fin n) (Fin n) ℂ) :
    (rectangular n u).1.WellFormed n where
  errors_length := by simp [rectangular, idealMesh]
  losses_length := by simp [rectangular, idealMesh]
  ids a ha := (rectNodes_spec n n a ha).1
  rails a ha := by
    have := rectNodes_spec n n a ha
    omega
  disjoint := rectNodes_disjoint n n

theorem rectangular_column (n : ℕ) (u : Matrix (Fin n) (Fin n) ℂ) (c : ℕ) (hc : c < n) (v : ℕ → ℂ) :
    parallelTransform ((rectangular n u).1.elements (rectangular n u).2 false)
      (columnNodes (rectangular n u).1.nodes c) v =
    couple n (rectLoop n u).theta c (gammaApply (fun r => (commonModeFlow n n (rectPhi n (rectLoop n u))
      (fun r => rectPhi n (rectLoop n u) r n)).1 r c) v) := by
  set M := (rectangular n u).1 with hM
  set P := (rectangular n u).2 with hP
  set s := rectLoop n u with hs
  set flow := commonModeFlow n n (rectPhi n s) (fun r => rectPhi n s r n) with hflow
  have htop := (C30_flow_top_only n n (rectPhi n s) (fun r => rectPhi n s r n)).1
  rw [← hflow] at htop
  have hg : GoodColumn (columnNodes M.nodes c) := (rectangular_wellFormed n u).goodColumn c
  have hmem : ∀ a ∈ columnNodes M.nodes c, a ∈ rectNodes n n ∧ a.column = c := fun a ha => mem_columnNodes.1 ha
  have hel : ∀ a ∈ columnNodes M.nodes c,
      M.elements P false a.id = mziElements .top false 0 0 0 0 (s.theta a.top c) (flow.1 a.top c) := by
    intro a ha
    obtain ⟨h1, h2⟩ := hmem a ha
    have ht : P.thetas a.id = s.theta a.top a.column := rectParams_getD n s.theta n a h1
    have hp : P.phis a.id = flow.1 a.top a.column := rectParams_getD n flow.1 n a h1
    have he : M.errors.getD a.id (0, 0) = (0, 0) := by
      simp only [hM, rectangular, idealMesh, List.getD_eq_getElem?_getD, List.getElem?_map]
      cases (rectNodes n n)[a.id]? <;> rfl
    have hl : M.losses.getD a.id (0, 0) = (0, 0) := by
      simp only [hM, rectangular, idealMesh, List.getD_eq_getElem?_getD, List.getElem?_map]
      cases (rectNodes n n)[a.id]? <;> rfl
    unfold Mesh.elements
    rw [ht, hp, he, hl, h2]
    rfl
  refine (parallelTransform_result hg v).unique ?_
  -- elements with phi absorbed into the input phase front
  let w := gammaApply (fun r => flow.1 r c) v
  have hw : ∀ r, w r = exp (I * flow.1 r c) * v r := fun _ => rfl
  have hbot : ∀ a ∈ columnNodes M.nodes c, w a.bottom = v a.bottom := by
    intro a ha
    obtain ⟨h1, h2⟩ := hmem a ha
    have := rectNodes_spec n n a h1
    rw [hw, htop _ _ (by omega)]; simp
  let el0 : ℕ → Elements := fun k => mziElements .top false 0 0 0 0 (P.thetas k) 0
  have R : ColumnResult el0 (columnNodes M.nodes c) w (couple n s.theta c w) := by
    apply couple_result
    · intro a ha
      obtain ⟨h1, h2⟩ := hmem a ha
      have h := rectNodes_spec n n a h1
      refine ⟨by omega, h.2.2.1, h.2.2.2.1, ?_⟩
      have ht : P.thetas a.id = s.theta a.top a.column := rectParams_getD n s.theta n a h1
      simp only [el0]
      rw [ht, h2]
    · intro r h1 h2
      obtain ⟨a, ha, h3, h4⟩ := rectNodes_mem n n r c hc h1 h2
      exact ⟨a, mem_columnNodes.2 ⟨ha, h4⟩, h3⟩
  have ht0 : ∀ a ∈ columnNodes M.nodes c, P.thetas a.id = s.theta a.top c := by
    intro a ha
    obtain ⟨h1, h2⟩ := hmem a ha
    rw [← h2]
    exact rectParams_getD n s.theta n a h1
  refine ⟨?_, ?_, ?_⟩
  · intro a ha
    rw [R.top a ha, hbot a ha, hw, hel a ha]
    simp only [el0]
    rw [ht0 a ha]
    simp [mziElements]
    ring
  · intro a ha
    rw [R.bottom a ha, hbot a ha, hw, hel a ha]
    simp only [el0]
    rw [ht0 a ha]
    simp [mziElements]
    ring
  · intro r hr
    rw [R.other r hr, hw, htop, ofReal_zero, mul_zero, exp_zero, one_mul]
    rintro ⟨h1, h2⟩
    obtain ⟨a, ha, h3, h4⟩ := rectNodes_mem n n r c hc h1 h2
    exact (hr a (mem_columnNodes.2 ⟨ha, h4⟩)).1 h3.symm

theorem rectangular_apply {n : ℕ} (hn : 1 ≤ n) {u : Matrix (Fin n) (Fin n) ℂ}
    (hu : u ∈ unitaryGroup (Fin n) ℂ) (v : ℕ → ℂ) :
    restrict n ((rectangular n u).1.apply (rectangular n u).2 false v) = u.mulVec (restrict n v) := by
  rw [← restrict_columns hn hu]
  set s := rectLoop n u with hs
  congr 1
  have hft := flow_transfer gammaApply
    (fun a b v => by funext r; simp only [gammaApply]; rw [← mul_assoc, ← exp_add]; push_cast; ring_nf)
    (fun a b h => by funext v r; simp only [gammaApply, h])
    n n (couple n s.theta) (fun c _ d hd v => couple_gamma s.theta c d hd v)
    (rectPhi n s) (fun r => rectPhi n s r n) v
  rw [← hft]
  simp only [Mesh.apply, Bool.false_eq_true, if_false, columnOrder]
  have hnum : numColumns (rectangular n u).1.nodes ≤ n := by
    unfold numColumns
    split
    · omega
    · rename_i hne
      obtain ⟨a, ha⟩ := List.exists_mem_of_ne_nil _ hne
      have : ∀ (l : List ℕ), (∀ x ∈ l, x < n) → l ≠ [] → l.foldr max 0 < n := by
        intro l
        induction l with
        | nil => intro _ h; exact absurd rfl h
        | cons x l ih =>
          intro h _
          have hx := h x (by simp)
          by_cases hl : l = []
          · subst hl; simp; omega
          · have := ih (fun y hy => h y (by simp [hy])) hl
            simp only [List.foldr_cons]; omega
      apply this
      · intro x hx
        obtain ⟨a, ha, rfl⟩ := List.mem_map.1 hx
        exact (rectNodes_spec n n a ha).2.2.2.2
      · simpa using hne
  have hext : columnsApply ((rectangular n u).1.elements (rectangular n u).2 false)
      (rectangular n u).1.nodes (List.range (numColumns (rectangular n u).1.nodes)) v =
      columnsApply ((rectangular n u).1.elements (rectangular n u).2 false)
      (rectangular n u).1.nodes (List.range n) v := by
    have : ∀ d, columnsApply ((rectangular n u).1.elements (rectangular n u).2 false)
      (rectangular n u).1.nodes (List.range (numColumns (rectangular n u).1.nodes + d)) v =
      columnsApply ((rectangular n u).1.elements (rectangular n u).2 false)
      (rectangular n u).1.nodes (List.range (numColumns (rectangular n u).1.nodes)) v := by
      intro d
      induction d with
      | zero => rfl
      | succ d ih =>
        rw [← Nat.add_assoc, List.range_succ, columnsApply_append, ih, columnsApply_single]
        have : columnNodes (rectangular n u).1.nodes (numColumns (rectangular n u).1.nodes + d) = [] := by
          rw [List.eq_nil_iff_forall_not_mem]
          intro a ha
          have := column_lt_numColumns (mem_columnNodes.1 ha).1
          have := (mem_columnNodes.1 ha).2
          omega
        rw [this]
        rfl
    rw [← this (n - numColumns (rectangular n u).1.nodes), Nat.add_sub_cancel' hnum]
  rw [hext]
  show gammaApply (commonModeFlow n n (rectPhi n s) (fun r => rectPhi n s r n)).2 _ = _
  congr 1
  unfold columnsApply
  apply List.foldl_ext
  intro w c hc
  rw [List.mem_range] at hc
  exact rectangular_column n u c hc w

/-- C18: for every unitary `u`, the mesh and parameters returned by `rectangular(u)` implement `u`:
`mesh.matrix()` is `u`. (For `n = 1` the Python raises, as `ForwardMesh([])` does, forward.py:735.) -/
theorem C18_rectangular_matrix (n : ℕ) (_h2 : 2 ≤ n) (u : Matrix (Fin n) (Fin n) ℂ) (hu : u ∈ unitaryGroup (Fin n) ℂ) :
    (rectangular n u).1.matrix n (rectangular n u).2 false = u := by
  ext i j
  have hn : 1 ≤ n := by have := i.2; omega
  have h := rectangular_apply hn hu (fun r => if r = j.val then 1 else 0)
  rw [restrict_basis, mulVec_single_one] at h
  exact congrFun h i

/-- C18: the mesh is the Clements grid: `n(n-1)/2` MZIs on neighbouring rails in at most `n` columns,
no two of a column sharing a rail, each pair `(r, r+1)` occupied exactly in the columns of its parity.
No column is empty (an empty one would make `mesh.columns` raise, forward.py:166, 735). -/
theorem C18_rectangular_grid (n : ℕ) (h2 : 2 ≤ n) (u : Matrix (Fin n) (Fin n) ℂ) :
    ColumnsDisjoint (rectangular n u).1.nodes ∧
      (∀ a ∈ (rectangular n u).1.nodes, a.bottom = a.top + 1 ∧ a.bottom < n ∧ a.column < n ∧
        a.top % 2 = a.column % 2) ∧
      (∀ r c, r + 1 < n → c < n → r % 2 = c % 2 → ∃ a ∈ (rectangular n u).1.nodes, a.top = r ∧ a.column = c) ∧
      (rectangular n u).1.nodes.length = n * (n - 1) / 2 ∧
      ∀ c < numColumns (rectangular n u).1.nodes, columnNodes (rectangular n u).1.nodes c ≠ [] := by
  refine ⟨rectNodes_disjoint n n, ?_, ?_, ?_, ?_⟩
  · intro a ha
    have := rectNodes_spec n n a ha
    omega
  · intro r c h1 h2 h3
    exact rectNodes_mem n n r c h2 h3 h1
  · show (rectNodes n n).length = _
    have h : ∀ k, 2 * (rectNodes n (2 * k)).length = 2 * k * (n - 1) ∧
        2 * (rectNodes n (2 * k + 1)).length = 2 * k * (n - 1) + 2 * (n / 2) := by
      intro k
      induction k with
      | zero => simp [rectNodes, rectWidth]
      | succ k ih =>
        have h1 : (rectNodes n (2 * (k + 1))).length = (rectNodes n (2 * k + 1)).length + rectWidth n (2 * k + 1) := by
          rw [show 2 * (k + 1) = (2 * k + 1) + 1 by ring, rectNodes]; simp
        have h2 : (rectNodes n (2 * (k + 1) + 1)).length = (rectNodes n (2 * (k + 1))).length + rectWidth n (2 * (k + 1)) := by
          rw [rectNodes]; simp
        have w1 : rectWidth n (2 * (k + 1)) = n / 2 := by
          unfold rectWidth; rw [Nat.mul_mod_right]; simp
        have w2 : 2 * (n / 2) + 2 * rectWidth n (2 * k + 1) = 2 * (n - 1) := by
          unfold rectWidth
          rw [show (2 * k + 1) % 2 = 1 by omega, one_mul]
          omega
        have e : 2 * (k + 1) * (n - 1) = 2 * k * (n - 1) + 2 * (n - 1) := by ring
        rw [h2, h1, w1, e]
        omega
    obtain ⟨m, hm | hm⟩ : ∃ m, n = 2 * m ∨ n = 2 * m + 1 := ⟨n / 2, by omega⟩
    · have := (h m).1
      rw [← hm] at this
      omega
    · have := (h m).2
      rw [← hm] at this
      have e : n / 2 = m := by omega
      have e2 : n * (n - 1) = 2 * m * (n - 1) + (n - 1) := by
        conv_lhs => rw [hm]
        rw [Nat.add_mul, one_mul, ← hm]
      omega
  · intro c hc
    have hn := rectNodes_numColumns h2
    rw [show (rectangular n u).1.nodes = rectNodes n n from rfl] at hc ⊢
    obtain ⟨a, ha, -, h3⟩ : ∃ a ∈ rectNodes n n, a.top = c % 2 ∧ a.column = c := by
      rcases hn with ⟨rfl, h⟩ | ⟨h, h'⟩
      · exact rectNodes_mem 2 2 (c % 2) c (by omega) (by omega) (by omega)
      · exact rectNodes_mem n n (c % 2) c (by omega) (by omega) (by omega)
    exact List.ne_nil_of_mem (mem_columnNodes.2 ⟨ha, h3⟩)

/-- Non-vacuity: the cyclic shift of three rails. -/
example : (rectangular 3 !![0, 1, 0; 0, 0, 1; 1, 0, 0]).1.matrix 3 (rectangular 3 !![0, 1, 0; 0, 0, 1; 1, 0, 0]).2 false =
    !![0, 1, 0; 0, 0, 1; 1, 0, 0] := by
  apply C18_rectangular_matrix 3 (by norm_num)
  rw [mem_unitaryGroup_iff]
  ext i j
  fin_cases i <;> fin_cases j <;> simp [Matrix.mul_apply, Fin.sum_univ_three, star_apply]

end Simphox
