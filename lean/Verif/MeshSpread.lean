import Verif.MeshClassical
import Verif.CascadeProps
import Verif.RectExtrasProps
import Verif.ButterflyLimits

/-!
# Power spread of randomly initialised meshes (C204, C205)

`rand_theta` draws the split ratio of node `k` from the beta distribution with the sensitivity indices `beta[k]`, `alpha[k]`
(forward.py:112-130), and the external phases are uniform (forward.py:61).
-/

namespace Simphox

open Complex MeasureTheory ProbabilityTheory ComplexConjugate

/-! ### Lines that cross -/

/-- A node of integer sensitivity `u`: it passes the share `u / (1 + u)` to the other rail. -/
def CrossesWith (m : Elements) (u : ℂ) : Prop :=
  1 + u ≠ 0 ∧ m.t11 = 1 / (1 + u) ∧ m.t22 = 1 / (1 + u) ∧ m.t12 = u / (1 + u) ∧ m.t21 = u / (1 + u)

/-- The vector whose evolution only permutes the labels `x` of the lines. -/
noncomputable def lineVec (n : ℕ) (z : ℂ) (x : ℕ → ℤ) (k : ℕ) : ℂ :=
  if k < n then (∏ j ∈ Finset.range k, (z - x j + 1)) * ∏ j ∈ Finset.Ioo k n, (z - x j) else 0

theorem prod_swap (S : Finset ℕ) (t : ℕ) (h : t ∈ S ↔ t + 1 ∈ S) (f : ℤ → ℂ) (x : ℕ → ℤ) :
    ∏ j ∈ S, f (x (Equiv.swap t (t + 1) j)) = ∏ j ∈ S, f (x j) := by
  refine Finset.prod_equiv (Equiv.swap t (t + 1)) (fun i => ?_) fun i _ => rfl
  by_cases h1 : i = t
  · subst h1; rw [Equiv.swap_apply_left]; exact h
  · by_cases h2 : i = t + 1
    · subst h2; rw [Equiv.swap_apply_right]; exact h.symm
    · rw [Equiv.swap_apply_of_ne_of_ne h1 h2]

theorem lineVec_node (n : ℕ) (z : ℂ) (x : ℕ → ℤ) (t : ℕ) (ht : t + 1 < n) (m : Elements) (hm : CrossesWith m (x (t + 1) - x t)) :
    nodeAct m t (t + 1) (lineVec n z x) = lineVec n z (x ∘ Equiv.swap t (t + 1)) := by
  obtain ⟨h0, e11, e22, e12, e21⟩ := hm
  have hIoo : Finset.Ioo t n = insert (t + 1) (Finset.Ioo (t + 1) n) := by
    ext j; simp; omega
  have outR : ∀ r, r < t ∨ t + 1 < r → ∏ j ∈ Finset.range r, (z - x (Equiv.swap t (t + 1) j) + 1) = ∏ j ∈ Finset.range r, (z - x j + 1) :=
    fun r hr => prod_swap _ t (by simp; omega) (fun y => z - y + 1) x
  have outI : ∀ r, r < t ∨ t + 1 < r → ∏ j ∈ Finset.Ioo r n, (z - x (Equiv.swap t (t + 1) j)) = ∏ j ∈ Finset.Ioo r n, (z - x j) :=
    fun r hr => prod_swap _ t (by simp; omega) (fun y => z - y) x
  have inR : ∏ j ∈ Finset.range t, (z - x (Equiv.swap t (t + 1) j) + 1) = ∏ j ∈ Finset.range t, (z - x j + 1) :=
    prod_swap _ t (by simp) (fun y => z - y + 1) x
  have inI : ∏ j ∈ Finset.Ioo (t + 1) n, (z - x (Equiv.swap t (t + 1) j)) = ∏ j ∈ Finset.Ioo (t + 1) n, (z - x j) :=
    prod_swap _ t (by simp) (fun y => z - y) x
  have vt : ∀ y : ℕ → ℤ, lineVec n z y t = (∏ j ∈ Finset.range t, (z - y j + 1)) * ((z - y (t + 1)) * ∏ j ∈ Finset.Ioo (t + 1) n, (z - y j)) := by
    intro y
    rw [lineVec, if_pos (by omega), hIoo, Finset.prod_insert (by simp)]
  have vb : ∀ y : ℕ → ℤ, lineVec n z y (t + 1) = ((∏ j ∈ Finset.range t, (z - y j + 1)) * (z - y t + 1)) * ∏ j ∈ Finset.Ioo (t + 1) n, (z - y j) := by
    intro y
    rw [lineVec, if_pos ht, Finset.prod_range_succ]
  funext r
  simp only [nodeAct]
  by_cases h1 : r = t
  · subst h1
    rw [if_pos rfl, vt, vb, vt, e11, e21]
    simp only [Function.comp, Equiv.swap_apply_right]
    rw [inR, inI]
    field_simp
    ring
  · by_cases h2 : r = t + 1
    · subst h2
      rw [if_neg (by omega), if_pos rfl, vt, vb, vb, e12, e22]
      simp only [Function.comp, Equiv.swap_apply_left]
      rw [inR, inI]
      field_simp
      ring
    · rw [if_neg h1, if_neg h2]
      simp only [lineVec, Function.comp]
      rw [outR r (by omega), outI r (by omega)]

/-- The labels along a list of nodes: each node crosses the lines on its two neighbouring rails, and its sensitivity is the difference of their
labels. -/
def Crossing (n : ℕ) (el : ℕ → Elements) : List Node → (ℕ → ℤ) → (ℕ → ℤ) → Prop
  | [], x, y => x = y
  | a :: L, x, y => a.bottom = a.top + 1 ∧ a.bottom < n ∧ CrossesWith (el a.id) (x (a.top + 1) - x a.top) ∧
      Crossing n el L (x ∘ Equiv.swap a.top (a.top + 1)) y

theorem Crossing.append {n : ℕ} {el : ℕ → Elements} {L L' : List Node} : ∀ {x y z : ℕ → ℤ}, Crossing n el L x y → Crossing n el L' y z →
    Crossing n el (L ++ L') x z := by
  induction L with
  | nil => intro x y z h h'; rw [Crossing] at h; subst h; exact h'
  | cons a L ih => intro x y z h h'; exact ⟨h.1, h.2.1, h.2.2.1, ih h.2.2.2 h'⟩

theorem lineVec_seq {n : ℕ} {el : ℕ → Elements} (z : ℂ) {L : List Node} : ∀ {x y : ℕ → ℤ}, Crossing n el L x y →
    seqApply el L (lineVec n z x) = lineVec n z y := by
  induction L with
  | nil => intro x y h; rw [Crossing] at h; subst h; rfl
  | cons a L ih =>
    intro x y h
    obtain ⟨h1, h2, h3, h4⟩ := h
    rw [seqApply_cons, h1, lineVec_node n z x a.top (by omega) _ h3, ih h4]

theorem lineVec_reversed (n : ℕ) (z : ℂ) (x : ℕ → ℤ) (hx : ∀ j < n, x j = n - 1 - j) (k : ℕ) (hk : k < n) :
    lineVec n z x k = lineVec n z x 0 := by
  induction k with
  | zero => rfl
  | succ k ih =>
    rw [← ih (by omega)]
    have hIoo : Finset.Ioo k n = insert (k + 1) (Finset.Ioo (k + 1) n) := by
      ext j; simp; omega
    rw [lineVec, lineVec, if_pos hk, if_pos (by omega), hIoo, Finset.prod_insert (by simp), Finset.prod_range_succ, hx k (by omega),
      hx (k + 1) hk]
    push_cast
    ring

theorem lineVec_start (n m : ℕ) (hm : m < n) :
    lineVec n m (fun j => (j : ℤ)) m ≠ 0 ∧ ∀ k, k ≠ m → k ≠ m + 1 → lineVec n m (fun j => (j : ℤ)) k = 0 := by
  constructor
  · rw [lineVec, if_pos hm]
    refine mul_ne_zero (Finset.prod_ne_zero_iff.2 fun j hj => ?_) (Finset.prod_ne_zero_iff.2 fun j hj => ?_)
    · have := Finset.mem_range.1 hj
      intro h
      have : ((m : ℤ) - j + 1 : ℤ) = 0 := by exact_mod_cast h
      omega
    · have := Finset.mem_Ioo.1 hj
      intro h
      have : ((m : ℤ) - j : ℤ) = 0 := by exact_mod_cast h
      omega
  · intro k h1 h2
    rw [lineVec]
    split_ifs with hk
    · rcases Nat.lt_or_ge k m with h | h
      · rw [Finset.prod_eq_zero (i := m) (s := Finset.Ioo k n) (by simp; omega) (by simp), mul_zero]
      · rw [Finset.prod_eq_zero (i := m + 1) (s := Finset.range k) (by simp; omega) (by push_cast; ring), zero_mul]
    · rfl

theorem seq_add (el : ℕ → Elements) (L : List Node) : ∀ (v w : ℕ → ℂ) (c : ℂ), seqApply el L (fun q => v q + c * w q) = fun r => seqApply el L v r + c * seqApply el L w r := by
  induction L with
  | nil => intro v w c; rfl
  | cons a L ih =>
    intro v w c
    rw [seqApply_cons, seqApply_cons, seqApply_cons, ← ih]
    congr 1
    funext r
    simp only [nodeAct]
    split_ifs <;> ring

/-- A crossing network that reverses the lines sends every input to a vector constant on the rails. -/
theorem crossing_const {n : ℕ} {el : ℕ → Elements} {L : List Node} {y : ℕ → ℤ} (h : Crossing n el L (fun j => (j : ℤ)) y)
    (hy : ∀ j < n, y j = n - 1 - j) (v : ℕ → ℂ) (hv : ∀ q, n ≤ q → v q = 0) : ∀ r < n, seqApply el L v r = seqApply el L v 0 := by
  -- inputs supported on the rails from `m` on
  suffices ∀ d m, m + d = n → ∀ v : ℕ → ℂ, (∀ q, q < m ∨ n ≤ q → v q = 0) → ∀ r < n, seqApply el L v r = seqApply el L v 0 from
    this n 0 (by omega) v fun q hq => hv q (by omega)
  intro d
  induction d with
  | zero =>
    intro m hm v hv r _
    have h0 : ∀ r, seqApply el L v r = 0 := by
      intro r
      have h2 := seq_add el L v v (-1)
      have h3 : (fun q => v q + -1 * v q) = v := by funext q; rw [hv q (by omega)]; simp
      rw [h3] at h2
      have := congrFun h2 r
      linear_combination this
    rw [h0, h0]
  | succ d ih =>
    intro m hm v hv r hr
    obtain ⟨hc, hz⟩ := lineVec_start n m (by omega)
    set w := lineVec n m fun j => (j : ℤ) with hw
    have e := seq_add el L v w (-(v m / w m))
    have h1 := ih (m + 1) (by omega) (fun q => v q + -(v m / w m) * w q) (by
      intro q hq
      by_cases h : q = m
      · subst h; field_simp; ring
      · have hw0 : w q = 0 := by
          rcases hq with hq | hq
          · exact hz q h (by omega)
          · rw [hw, lineVec, if_neg (by omega)]
        rw [hv q (by omega), hw0]; simp) r hr
    rw [e] at h1
    have h2 := lineVec_seq (m : ℂ) h
    rw [← hw] at h2
    have h3 := lineVec_reversed n m y hy r hr
    rw [← h2] at h3
    simp only at h1
    rw [h3] at h1
    linear_combination h1

/-- No power is lost on the way. -/
theorem crossing_sum {n : ℕ} {el : ℕ → Elements} {L : List Node} : ∀ {x y : ℕ → ℤ}, Crossing n el L x y → ∀ v : ℕ → ℂ,
    ∑ r ∈ Finset.range n, seqApply el L v r = ∑ r ∈ Finset.range n, v r := by
  induction L with
  | nil => intro x y _ v; rfl
  | cons a L ih =>
    intro x y h v
    obtain ⟨h1, h2, ⟨h0, e11, e22, e12, e21⟩, h4⟩ := h
    rw [seqApply_cons, ih h4, h1]
    have hs : ∀ f : ℕ → ℂ, ∑ r ∈ Finset.range n, f r = f a.top + f (a.top + 1) + ∑ r ∈ (Finset.range n).filter (fun r => r ≠ a.top ∧ r ≠ a.top + 1), f r := by
      intro f
      rw [← Finset.sum_filter_add_sum_filter_not (Finset.range n) (fun r => r ≠ a.top ∧ r ≠ a.top + 1), add_comm]
      congr 1
      have : (Finset.range n).filter (fun r => ¬ (r ≠ a.top ∧ r ≠ a.top + 1)) = {a.top, a.top + 1} := by
        ext r; simp; omega
      rw [this, Finset.sum_pair (by omega)]
    rw [hs, hs v]
    have e3 : ∑ r ∈ (Finset.range n).filter (fun r => r ≠ a.top ∧ r ≠ a.top + 1), nodeAct (el a.id) a.top (a.top + 1) v r =
        ∑ r ∈ (Finset.range n).filter (fun r => r ≠ a.top ∧ r ≠ a.top + 1), v r := by
      refine Finset.sum_congr rfl fun r hr => ?_
      have := (Finset.mem_filter.1 hr).2
      simp [nodeAct, this.1, this.2]
    rw [e3]
    congr 1
    simp only [nodeAct, if_true, if_neg (show a.top + 1 ≠ a.top by omega), e11, e22, e12, e21]
    field_simp
    ring

/-- A crossing network that reverses the lines spreads every input evenly. -/
theorem crossing_even {n : ℕ} {el : ℕ → Elements} {L : List Node} {y : ℕ → ℤ} (h : Crossing n el L (fun j => (j : ℤ)) y)
    (hy : ∀ j < n, y j = n - 1 - j) (v : ℕ → ℂ) (hv : ∀ q, n ≤ q → v q = 0) (r : ℕ) (hr : r < n) :
    seqApply el L v r = (∑ q ∈ Finset.range n, v q) / n := by
  have hc := crossing_const h hy v hv
  have hs := crossing_sum h v
  rw [Finset.sum_congr rfl (fun q hq => hc q (Finset.mem_range.1 hq)), Finset.sum_const, Finset.card_range, nsmul_eq_mul] at hs
  have hn : (n : ℂ) ≠ 0 := by exact_mod_cast (by omega : n ≠ 0)
  rw [hc r hr, ← hs]
  field_simp

/-! ### The rectangular mesh -/

/-- The mean power elements of a node, by its sensitivity indices. -/
noncomputable def nodeMean (a : Node) : Elements where
  t11 := a.alpha / (a.alpha + a.beta)
  t12 := a.beta / (a.alpha + a.beta)
  t21 := a.beta / (a.alpha + a.beta)
  t22 := a.alpha / (a.alpha + a.beta)

theorem nodeMean_crosses (a : Node) (h : a.alpha = 1) : CrossesWith (nodeMean a) a.beta := by
  have h0 : (1 : ℂ) + a.beta ≠ 0 := by
    have : ((1 + a.beta : ℕ) : ℂ) ≠ 0 := by exact_mod_cast (by omega : 1 + a.beta ≠ 0)
    simpa using this
  refine ⟨h0, ?_, ?_, ?_, ?_⟩ <;> simp [nodeMean, h]

theorem rectangularAlpha_get (L p : ℕ) (hp : p < L) : (rectangularAlpha L false).getD p 0 =
    if p < (L + 1) / 2 then L + 1 - (2 * ((L + 1) / 2 - 1 - p) + 1) else L + 1 - (2 * (p - (L + 1) / 2) + 2) := by
  unfold rectangularAlpha
  simp only [Bool.false_eq_true, if_false]
  rw [List.getD_eq_getElem?_getD]
  split_ifs with h
  · rw [List.getElem?_append_left (by simpa using h), List.getElem?_eq_getElem (by simpa using h)]
    simp
  · rw [List.getElem?_append_right (by simpa using h), List.getElem?_eq_getElem (by simp; omega)]
    simp

theorem rectangularAlpha_get_odd (L p : ℕ) (hp : p < L) : (rectangularAlpha L true).getD p 0 = (rectangularAlpha L false).getD (L - 1 - p) 0 := by
  have h := rectangularAlpha_length L false
  have e : rectangularAlpha L true = (rectangularAlpha L false).reverse := by
    unfold rectangularAlpha; simp
  rw [e, List.getD_eq_getElem?_getD, List.getD_eq_getElem?_getD, List.getElem?_reverse (by omega), h]

/-- The input rail of the line that is on rail `r` before column `c`, if lines cross at every node. -/
def rectLabel (n c r : ℕ) : ℤ :=
  if r < n then
    if (r + c) % 2 = 0 then (if c ≤ r then (r : ℤ) - c else (c : ℤ) - r - 1)
    else if r + c < n then (r : ℤ) + c else 2 * (n : ℤ) - 1 - r - c
  else r

/-- The sensitivity index of a node of the rectangular mesh is the distance of the inputs of the two lines that cross there. -/
theorem alpha_is_distance (n r c : ℕ) (hr : r + 1 < n) (hc : c < n) (h : (r + c) % 2 = 0) :
    (alphaCheckerboard n r c : ℤ) = rectLabel n c (r + 1) - rectLabel n c r := by
  have e1 : rectLabel n c (r + 1) = if r + 1 + c < n then (r : ℤ) + 1 + c else 2 * (n : ℤ) - 2 - r - c := by
    rw [rectLabel, if_pos hr, if_neg (by omega)]
    push_cast
    split_ifs <;> ring
  have e2 : rectLabel n c r = if c ≤ r then (r : ℤ) - c else (c : ℤ) - r - 1 := by
    rw [rectLabel, if_pos (by omega), if_pos h]
  rw [e1, e2]
  unfold alphaCheckerboard
  rw [if_pos ⟨by omega, hc, h⟩]
  dsimp only
  obtain ⟨L, hL⟩ : ∃ L, (if r < c then n - (c - r) else if 0 < r ∧ c < r then n - (r - c) - 1 else n - 1) = L := ⟨_, rfl⟩
  rw [hL]
  have hL' : (r < c ∧ L = n - (c - r)) ∨ (c ≤ r ∧ L = n - (r - c) - 1) := by
    split_ifs at hL <;> omega
  by_cases h1 : L = 1
  · rw [if_pos h1]
    split_ifs <;> omega
  · rw [if_neg h1]
    have hp : min r c < L := by omega
    rcases Nat.mod_two_eq_zero_or_one n with hn | hn
    · rw [show (n % 2 == 1) = false by simp [hn], rectangularAlpha_get L _ hp]
      split_ifs <;> omega
    · rw [show (n % 2 == 1) = true by simp [hn], rectangularAlpha_get_odd L _ hp, rectangularAlpha_get L _ (by omega)]
      split_ifs <;> omega

/-- The labels while the nodes of column `c` are visited: `j` of them are done. -/
def rectMid (n c j r : ℕ) : ℤ := if r < 2 * j + c % 2 then rectLabel n (c + 1) r else rectLabel n c r

theorem rect_column (n c : ℕ) (hc : c < n) (el : ℕ → Elements) (N j : ℕ) (hj : j ≤ rectWidth n c)
    (hel : ∀ i < j, CrossesWith (el (N + i)) (alphaCheckerboard n (2 * i + c % 2) c)) :
    Crossing n el ((List.range j).map fun i =>
      ({ id := N + i, top := 2 * i + c % 2, bottom := 2 * i + 1 + c % 2, n := n,
         alpha := 1, beta := checkerboardToParam (alphaCheckerboard n) c i, column := c } : Node)) (rectLabel n c) (rectMid n c j) := by
  induction j with
  | zero =>
    show rectLabel n c = rectMid n c 0
    funext r
    unfold rectMid rectLabel
    split_ifs <;> omega
  | succ j ih =>
    rw [List.range_succ, List.map_append]
    refine Crossing.append (ih (by omega) fun i hi => hel i (by omega)) ?_
    have hw : 2 * j + c % 2 + 1 < n := by
      unfold rectWidth at hj
      rcases Nat.mod_two_eq_zero_or_one c with h | h <;> rcases Nat.mod_two_eq_zero_or_one n with h' | h' <;>
        simp only [h, h'] at hj ⊢ <;> omega
    have m0 : rectMid n c j (2 * j + c % 2) = rectLabel n c (2 * j + c % 2) := if_neg (by omega)
    have m1 : rectMid n c j (2 * j + c % 2 + 1) = rectLabel n c (2 * j + c % 2 + 1) := if_neg (by omega)
    refine ⟨by simp only; omega, by simp only; omega, ?_, ?_⟩
    · simp only [m0, m1]
      have := hel j (by omega)
      have e := alpha_is_distance n (2 * j + c % 2) c hw hc (by omega)
      have e' : (alphaCheckerboard n (2 * j + c % 2) c : ℂ) = (rectLabel n c (2 * j + c % 2 + 1) : ℂ) - rectLabel n c (2 * j + c % 2) := by
        exact_mod_cast e
      rw [← e']
      exact this
    · show rectMid n c j ∘ Equiv.swap (2 * j + c % 2) (2 * j + c % 2 + 1) = rectMid n c (j + 1)
      funext r
      simp only [Function.comp]
      by_cases h1 : r = 2 * j + c % 2
      · rw [h1, Equiv.swap_apply_left, m1, rectMid, if_pos (by omega)]
        unfold rectLabel
        split_ifs <;> omega
      · by_cases h2 : r = 2 * j + c % 2 + 1
        · rw [h2, Equiv.swap_apply_right, m0, rectMid, if_pos (by omega)]
          unfold rectLabel
          split_ifs <;> omega
        · rw [Equiv.swap_apply_of_ne_of_ne h1 h2]
          unfold rectMid
          by_cases h3 : r < 2 * j + c % 2
          · rw [if_pos h3, if_pos (by omega)]
          · rw [if_neg h3, if_neg (by omega)]

theorem rect_crossing (n : ℕ) (el : ℕ → Elements) (k : ℕ) (hk : k ≤ n) (hel : ∀ a ∈ rectNodes n k, el a.id = nodeMean a) :
    Crossing n el (rectNodes n k) (rectLabel n 0) (rectLabel n k) := by
  induction k with
  | zero => rfl
  | succ k ih =>
    rw [rectNodes] at hel ⊢
    refine Crossing.append (ih (by omega) fun a ha => hel a (List.mem_append_left _ ha)) ?_
    have h := rect_column n k (by omega) el (rectNodes n k).length (rectWidth n k) le_rfl (by
      intro i hi
      have := hel _ (List.mem_append_right _ (List.mem_map.2 ⟨i, List.mem_range.2 hi, rfl⟩))
      simp only at this
      rw [this]
      exact nodeMean_crosses _ rfl)
    convert h using 1
    funext r
    unfold rectMid
    by_cases hr : r < 2 * rectWidth n k + k % 2
    · rw [if_pos hr]
    · rw [if_neg hr]
      have hr' : r = n - 1 ∨ n ≤ r := by
        unfold rectWidth at hr
        rcases Nat.mod_two_eq_zero_or_one k with h | h <;> rcases Nat.mod_two_eq_zero_or_one n with h' | h' <;>
          simp only [h, h'] at hr ⊢ <;> omega
      have hr2 : r = n - 1 → (r + k) % 2 = 0 := by
        intro h1
        subst h1
        unfold rectWidth at hr
        rcases Nat.mod_two_eq_zero_or_one k with h | h <;> rcases Nat.mod_two_eq_zero_or_one n with h' | h' <;>
          simp only [h, h'] at hr ⊢ <;> omega
      unfold rectLabel
      split_ifs <;> omega

theorem rectNodes_get (n k : ℕ) (a : Node) (ha : a ∈ rectNodes n k) : (rectNodes n k).getD a.id default = a := by
  induction k with
  | zero => simp [rectNodes] at ha
  | succ k ih =>
    rw [rectNodes] at ha ⊢
    rcases List.mem_append.1 ha with ha | ha
    · have := (rectNodes_spec n k a ha).1
      rw [List.getD_eq_getElem?_getD, List.getElem?_append_left this, ← List.getD_eq_getElem?_getD, ih ha]
    · obtain ⟨j, hj, rfl⟩ := List.mem_map.1 ha
      rw [List.mem_range] at hj
      simp only
      rw [List.getD_eq_getElem?_getD, List.getElem?_append_right (by omega), Nat.add_sub_cancel_left,
        List.getElem?_eq_getElem (by simpa using hj)]
      simp

theorem rectNodes_sorted (n k : ℕ) : (rectNodes n k).Pairwise fun a b => a.column ≤ b.column := by
  induction k with
  | zero => simp [rectNodes]
  | succ k ih =>
    rw [rectNodes, List.pairwise_append]
    refine ⟨ih, ?_, ?_⟩
    · rw [List.pairwise_map]
      exact List.pairwise_lt_range.imp fun _ => le_rfl
    · intro a ha b hb
      have := (rectNodes_spec n k a ha).2.2.2.2
      obtain ⟨j, -, rfl⟩ := List.mem_map.1 hb
      simp only
      omega
theorem rectNodes_ordered (n k : ℕ) : (rectNodes n k).Pairwise fun a b => RailDisjoint a b ∨ a.column < b.column := by
  have hs := rectNodes_sorted n k
  refine (hs.and (rectNodes_disjoint n k)).imp ?_
  rintro a b ⟨h1, h2⟩
  rcases Nat.lt_or_ge a.column b.column with h | h
  · exact Or.inr h
  · exact Or.inl (h2 (by omega))

/-- Mean powers in the rectangular mesh. -/
theorem rect_even (n : ℕ) (v : ℕ → ℂ) (hv : ∀ q, n ≤ q → v q = 0) (r : ℕ) (hr : r < n) :
    seqApply (fun k => nodeMean ((rectNodes n n).getD k default)) (executionOrder (rectNodes n n)) v r = (∑ q ∈ Finset.range n, v q) / n := by
  rw [seqApply_reorder _ _ (rectNodes n n) (executionOrder_perm _) (executionOrder_ordered (rectNodes_disjoint n n)) (rectNodes_ordered n n)]
  have h := rect_crossing n (fun k => nodeMean ((rectNodes n n).getD k default)) n le_rfl fun a ha => by
    simp only [rectNodes_get n n a ha]
  rw [show rectLabel n 0 = fun j : ℕ => (j : ℤ) by
    funext j; unfold rectLabel; split_ifs <;> omega] at h
  refine crossing_even h (fun j hj => ?_) v hv r hr
  unfold rectLabel
  split_ifs <;> omega

/-! ### The triangular mesh -/

theorem chain_tree_eq (m R : ℕ) (hm : 2 ≤ m) :
    tree m R false = ((List.range (m - 1)).map fun i => { chainNode m R i with column := i }).reverse := by
  have h : tree m R false = ((List.range (m - 1)).map fun i =>
      ({ chainNode m R i with column := numColumns (treeChain m R) - 1 - (m - 2 - i) } : Node)).reverse := by
    simp only [tree, invertColumns, Bool.false_eq_true, if_false]
    conv_lhs => arg 2; rw [treeChain]
    rw [List.map_map, List.map_reverse]
    rfl
  rw [h]
  congr 1
  refine List.map_congr_left fun i hi => ?_
  have hmem : ({ chainNode m R i with column := numColumns (treeChain m R) - 1 - (m - 2 - i) } : Node) ∈ tree m R false := by
    rw [h, List.mem_reverse]
    exact List.mem_map.2 ⟨i, hi, rfl⟩
  have := (tree_chain_node hm hmem).1
  simp only [chainNode] at this ⊢
  rw [this]

theorem chain_exec (m R : ℕ) (hm : 2 ≤ m) :
    executionOrder (tree m R false) = (List.range (m - 1)).map fun i => { chainNode m R i with column := i } := by
  refine List.Perm.eq_of_pairwise (le := fun a b : Node => a.column ≤ b.column) ?_ (executionOrder_sorted _) ?_ ?_
  · intro a b ha hb h1 h2
    have ha' := (executionOrder_perm _).mem_iff.1 ha
    rw [chain_tree_eq m R hm, List.mem_reverse] at ha'
    obtain ⟨i, -, rfl⟩ := List.mem_map.1 ha'
    obtain ⟨j, -, rfl⟩ := List.mem_map.1 hb
    have : i = j := le_antisymm h1 h2
    rw [this]
  · rw [List.pairwise_map]
    exact List.pairwise_lt_range.imp fun h => h.le
  · refine (executionOrder_perm _).trans ?_
    rw [chain_tree_eq m R hm]
    exact List.reverse_perm _

/-- Labels before the subunit of `k` nodes. -/
def triLabel (n k r : ℕ) : ℤ := if r ≤ k then (n : ℤ) - 1 - k + r else if r < n then (n : ℤ) - 1 - r else r

/-- Labels inside that subunit, after `i` of its nodes. -/
def triMid (n k i r : ℕ) : ℤ := if r < i then (n : ℤ) - 1 - k + r + 1 else if r = i then (n : ℤ) - 1 - k else triLabel n k r

theorem tri_subunit (n k : ℕ) (hk : k < n) (el : ℕ → Elements) (N c m R : ℕ) (i : ℕ) (hi : i ≤ k)
    (hel : ∀ j < i, CrossesWith (el (N + j)) ((j + 1 : ℕ) : ℂ)) :
    Crossing n el (((List.range i).map fun i => { chainNode m R i with column := i }).map (shiftNode N c)) (triLabel n k) (triMid n k i) := by
  induction i with
  | zero =>
    show triLabel n k = triMid n k 0
    funext r
    unfold triMid triLabel
    split_ifs <;> omega
  | succ i ih =>
    rw [List.range_succ, List.map_append, List.map_append]
    refine Crossing.append (ih (by omega) fun j hj => hel j (by omega)) ?_
    refine ⟨rfl, by simp only [shiftNode, chainNode]; omega, ?_, ?_⟩
    · simp only [shiftNode, chainNode]
      have e : (triMid n k i (i + 1) : ℂ) - triMid n k i i = ((i + 1 : ℕ) : ℂ) := by
        have : triMid n k i (i + 1) - triMid n k i i = ((i + 1 : ℕ) : ℤ) := by
          unfold triMid triLabel
          push_cast
          split_ifs <;> omega
        exact_mod_cast this
      rw [e, Nat.add_comm i N]
      exact hel i (by omega)
    · show triMid n k i ∘ Equiv.swap i (i + 1) = triMid n k (i + 1)
      funext r
      simp only [Function.comp]
      by_cases h1 : r = i
      · rw [h1, Equiv.swap_apply_left]
        unfold triMid triLabel
        push_cast
        split_ifs <;> omega
      · by_cases h2 : r = i + 1
        · rw [h2, Equiv.swap_apply_right]
          unfold triMid triLabel
          split_ifs <;> omega
        · rw [Equiv.swap_apply_of_ne_of_ne h1 h2]
          unfold triMid triLabel
          split_ifs <;> omega

theorem tri_crossing (n : ℕ) (el : ℕ → Elements) : ∀ (k N C : ℕ), k + 1 ≤ n →
    (∀ i < tri k, el (N + i) = nodeMean ((parts n false k N C).getD i default)) →
    Crossing n el (execParts n false k N C) (triLabel n k) (triLabel n 0)
  | 0, N, C, _, _ => rfl
  | k + 1, N, C, hk, hel => by
    rw [execParts, chain_exec (k + 2) n (by omega)]
    have hlen : (subunitNodes n (k + 1) false N C).length = k + 1 := by
      rw [subunitNodes_eq, List.length_map, chain_tree_eq _ _ (by omega)]
      simp
    have h1 := tri_subunit n (k + 1) (by omega) el N (colOffset n (k + 1) false C) (k + 2) n (k + 1) le_rfl (by
      intro j hj
      rw [hel j (by rw [tri]; omega), parts, List.getD_eq_getElem?_getD, List.getElem?_append_left (by omega), List.getElem?_eq_getElem (by omega)]
      simp only [subunitNodes_eq, chain_tree_eq (k + 1 + 1) n (by omega : 2 ≤ k + 1 + 1), List.getElem_map, List.getElem_reverse, List.getElem_range,
        List.length_map, List.length_range, Option.getD_some]
      have hb : ∀ i, i = k - j → (k + 1 + 1 - i - 1 : ℕ) = j + 1 := by intro i hi; omega
      have := nodeMean_crosses (shiftNode N (colOffset n (k + 1) false C) { chainNode (k + 1 + 1) n (k + 1 + 1 - 1 - 1 - j) with column := k + 1 + 1 - 1 - 1 - j }) rfl
      have e : (shiftNode N (colOffset n (k + 1) false C) { chainNode (k + 1 + 1) n (k + 1 + 1 - 1 - 1 - j) with column := k + 1 + 1 - 1 - 1 - j }).beta = j + 1 := by
        simp only [shiftNode, chainNode]
        omega
      rw [e] at this
      exact this)
    have h2 := tri_crossing n el k (N + (k + 1)) (C + numColumns (tree (k + 2) n false)) (by omega) (by
      intro i hi
      rw [Nat.add_assoc, hel (k + 1 + i) (by rw [tri]; omega), parts, List.getD_eq_getElem?_getD, List.getElem?_append_right (by omega), hlen,
        Nat.add_sub_cancel_left, ← List.getD_eq_getElem?_getD])
    refine Crossing.append h1 ?_
    convert h2 using 1
    funext r
    unfold triMid triLabel
    push_cast
    split_ifs <;> omega

/-- Mean powers in the triangular mesh. -/
theorem tri_even (n : ℕ) (hn : 1 ≤ n) (v : ℕ → ℂ) (hv : ∀ q, n ≤ q → v q = 0) (r : ℕ) (hr : r < n) :
    seqApply (fun k => nodeMean ((parts n false (n - 1) 0 0).getD k default)) (executionOrder (parts n false (n - 1) 0 0)) v r =
      (∑ q ∈ Finset.range n, v q) / n := by
  rw [seqApply_parts _ _ _ _ _ _ (by omega)]
  have h := tri_crossing n (fun k => nodeMean ((parts n false (n - 1) 0 0).getD k default)) (n - 1) 0 0 (by omega) fun i _ => by
    simp only [Nat.zero_add]
  rw [show triLabel n (n - 1) = fun j : ℕ => (j : ℤ) by
    funext j; unfold triLabel; split_ifs <;> omega] at h
  refine crossing_even h (fun j hj => ?_) v hv r hr
  unfold triLabel
  split_ifs <;> omega


/-! ### Random settings -/

theorem ideal_powers (style : PhaseStyle) (hs : style ≠ .symmetric) (t p : ℝ) :
    let X := mziElements style false 0 0 0 0 t p
    X.t11 * conj X.t11 = ((1 - Real.cos t) / 2 : ℝ) ∧ X.t12 * conj X.t12 = ((1 + Real.cos t) / 2 : ℝ) ∧
    X.t21 * conj X.t21 = ((1 + Real.cos t) / 2 : ℝ) ∧ X.t22 * conj X.t22 = ((1 - Real.cos t) / 2 : ℝ) := by
  intro X
  have hR : ∀ g w : ℂ, g * conj g = 1 → w = g * armR t → w * conj w = ((1 - Real.cos t) / 2 : ℝ) := by
    intro g w hg hw
    rw [hw, map_mul, ← (arm_powers t).2]
    linear_combination (armR t * conj (armR t)) * hg
  have hL : ∀ g w : ℂ, g * conj g = 1 → w = g * armL t → w * conj w = ((1 + Real.cos t) / 2 : ℝ) := by
    intro g w hg hw
    rw [hw, map_mul, ← (arm_powers t).1]
    linear_combination (armL t * conj (armL t)) * hg
  have hu : ∀ z : ℂ, z.re = 0 → exp z * conj (exp z) = 1 := by
    intro z hz
    rw [Complex.mul_conj, Complex.normSq_eq_norm_sq, Complex.norm_exp, hz]; norm_num
  have hn : ∀ z : ℂ, z.re = 0 → (-exp z) * conj (-exp z) = 1 := by
    intro z hz
    rw [map_neg, neg_mul_neg, hu z hz]
  have hz : I * (t : ℂ) + ((Real.log 10 * 0 / 20 : ℝ) : ℂ) = I * t := by simp
  cases style with
  | symmetric => exact absurd rfl hs
  | top =>
    refine ⟨hR (-exp (I * p)) _ (hn _ (by simp)) ?_, hL (exp (I * p)) _ (hu _ (by simp)) ?_, hL 1 _ (by simp) ?_, hR 1 _ (by simp) ?_⟩ <;>
      simp only [X, mziElements, terms_ideal, hz, armL, armR] <;> simp <;> ring
  | bottom =>
    refine ⟨hR 1 _ (by simp) ?_, hL 1 _ (by simp) ?_, hL (exp (I * p)) _ (hu _ (by simp)) ?_, hR (-exp (I * p)) _ (hn _ (by simp)) ?_⟩ <;>
      simp only [X, mziElements, terms_ideal, hz, armL, armR] <;> simp <;> ring
  | differential =>
    refine ⟨hR (-exp (I * ((-p - t) / 2))) _ (hn _ (by simp)) ?_, hL (exp (I * ((-p - t) / 2))) _ (hu _ (by simp)) ?_,
      hL (exp (I * ((p - t) / 2))) _ (hu _ (by simp)) ?_, hR (exp (I * ((p - t) / 2))) _ (hu _ (by simp)) ?_⟩ <;>
      simp only [X, mziElements, terms_ideal, hz, armL, armR] <;> simp <;> ring

theorem beta_mean (a b : ℝ) (ha : 0 < a) (hb : 0 < b) : ∫ s, s ∂betaMeasure a b = a / (a + b) := by
  have h := beta_moment a b ha hb 1 0
  simp only [pow_one, pow_zero, mul_one, Nat.cast_one, Nat.cast_zero, add_zero] at h
  rw [h, beta, beta, Real.Gamma_add_one ha.ne', show a + 1 + b = (a + b) + 1 by ring, Real.Gamma_add_one (by positivity)]
  have h1 := (Real.Gamma_pos_of_pos ha).ne'
  have h2 := (Real.Gamma_pos_of_pos hb).ne'
  have h3 := (Real.Gamma_pos_of_pos (add_pos ha hb)).ne'
  have h4 : a + b ≠ 0 := by positivity
  field_simp

/-- The mean cosine of the coupling phase. -/
theorem mean_cos (a b : ℝ) (ha : 0 < a) (hb : 0 < b) (inv : ℝ → ℝ) (h : IsBetaincinv a b inv) (g : ℝ → ℝ)
    (hg : ∀ᵐ u ∂uniform01, inv u = g u) : ∫ u, Real.cos (idealPhase (g u)) ∂uniform01 = 2 * (a / (a + b)) - 1 := by
  have e1 : ∫ u, Real.cos (idealPhase (g u)) ∂uniform01 = ∫ u, (2 * inv u - 1) ∂uniform01 := by
    have hI : ∀ᵐ u ∂uniform01, u ∈ Set.Ico (0 : ℝ) 1 := ae_restrict_mem measurableSet_Ico
    refine integral_congr_ae ?_
    filter_upwards [hg, hI] with u hu hm
    have hs := (h u (Set.Ico_subset_Icc_self hm)).1
    rw [← hu, idealPhase, max_eq_left (by linarith [hs.1]), min_eq_left (by linarith [hs.2]),
      Real.cos_arccos (by linarith [hs.1]) (by linarith [hs.2])]
  have e2 : ∫ u, inv u ∂uniform01 = a / (a + b) := by
    rw [← beta_mean a b ha hb, ← C119_rand_s_law a b ha hb inv h, integral_map h.aemeasurable (by fun_prop)]
  have hi : Integrable inv uniform01 := by
    refine Integrable.of_bound h.aemeasurable.aestronglyMeasurable 1 ?_
    have hI : ∀ᵐ u ∂uniform01, u ∈ Set.Ico (0 : ℝ) 1 := ae_restrict_mem measurableSet_Ico
    filter_upwards [hI] with u hm
    have hs := (h u (Set.Ico_subset_Icc_self hm)).1
    rw [Real.norm_eq_abs, abs_le]; constructor <;> linarith [hs.1, hs.2]
  rw [e1, integral_sub (hi.const_mul 2) (integrable_const 1), integral_const_mul, e2]
  simp

/-- One node with a random coupling phase and a uniform external phase. -/
theorem random_dephased {Ω : Type} [MeasurableSpace Ω] {Pr : Measure Ω} [IsProbabilityMeasure Pr] (style : PhaseStyle) (hs : style ≠ .symmetric)
    (a : Node) (ha : 1 ≤ a.alpha) (hb : 1 ≤ a.beta) (inv : ℝ → ℝ) (h : IsBetaincinv a.beta a.alpha inv) (g : ℝ → ℝ) (hg : Measurable g)
    (hgi : ∀ᵐ u ∂uniform01, inv u = g u) (D : Ω → ℝ × ℝ) (hD : Measurable D) (hlaw : Pr.map D = uniform01.prod uniform01) :
    Dephased Pr (fun x => mziElements style false 0 0 0 0 (idealPhase (g x.1)) (2 * Real.pi * x.2)) (nodeMean a) D := by
  have hb' : (0 : ℝ) < a.beta := by exact_mod_cast hb
  have ha' : (0 : ℝ) < a.alpha := by exact_mod_cast ha
  have hmean := mean_cos a.beta a.alpha hb' ha' inv h g hgi
  have mt : Measurable fun x : ℝ × ℝ => idealPhase (g x.1) := measurable_idealPhase.comp (hg.comp measurable_fst)
  have mp : Measurable fun x : ℝ × ℝ => 2 * Real.pi * x.2 := by fun_prop
  have hP := fun x : ℝ × ℝ => ideal_powers style hs (idealPhase (g x.1)) (2 * Real.pi * x.2)
  have bound : ∀ (w : ℂ) (c : ℝ), w * conj w = (c : ℂ) → c ≤ 1 → ‖w‖ ≤ 1 := by
    intro w c hw hc
    rw [Complex.mul_conj', ← ofReal_pow] at hw
    have : ‖w‖ ^ 2 = c := by exact_mod_cast hw
    nlinarith [norm_nonneg w]
  have c1 : ∀ t : ℝ, (1 - Real.cos t) / 2 ≤ 1 := fun t => by linarith [Real.neg_one_le_cos t]
  have c2 : ∀ t : ℝ, (1 + Real.cos t) / 2 ≤ 1 := fun t => by linarith [Real.cos_le_one t]
  have push : ∀ f : ℝ × ℝ → ℂ, Measurable f → ∫ ω, f (D ω) ∂Pr = ∫ x, f x ∂(uniform01.prod uniform01) := by
    intro f hf
    rw [← hlaw, integral_map hD.aemeasurable hf.aestronglyMeasurable]
  have mc : Measurable fun x : ℝ × ℝ => Real.cos (idealPhase (g x.1)) := Real.measurable_cos.comp mt
  have ic : Integrable (fun u => Real.cos (idealPhase (g u))) uniform01 := by
    refine Integrable.of_bound (Real.measurable_cos.comp (measurable_idealPhase.comp hg)).aestronglyMeasurable 1 ?_
    exact Filter.Eventually.of_forall fun u => by rw [Real.norm_eq_abs]; exact Real.abs_cos_le_one _
  have fst : ∀ f : ℝ → ℝ, ∫ x, f x.1 ∂(uniform01.prod uniform01) = ∫ u, f u ∂uniform01 := by
    intro f
    have := integral_prod_mul (μ := uniform01) (ν := uniform01) f (fun _ => (1 : ℝ))
    simpa using this
  have hsum : (a.alpha : ℝ) + a.beta ≠ 0 := by positivity
  have hm1 : ∫ ω, (((1 - Real.cos (idealPhase (g (D ω).1))) / 2 : ℝ) : ℂ) ∂Pr = (a.alpha : ℂ) / (a.alpha + a.beta) := by
    rw [push (fun x => (((1 - Real.cos (idealPhase (g x.1))) / 2 : ℝ) : ℂ)) (Complex.measurable_ofReal.comp ((measurable_const.sub mc).div_const 2)),
      integral_complex_ofReal, fst fun u => (1 - Real.cos (idealPhase (g u))) / 2, integral_div, integral_sub (integrable_const 1) ic, hmean]
    have : (a.alpha : ℝ) / (a.alpha + a.beta) = ((∫ _ : ℝ, (1 : ℝ) ∂uniform01) - (2 * ((a.beta : ℝ) / (a.beta + a.alpha)) - 1)) / 2 := by
      rw [add_comm (a.beta : ℝ)]
      simp
      field_simp
      ring
    rw [← this]
    push_cast
    rfl
  have hm2 : ∫ ω, (((1 + Real.cos (idealPhase (g (D ω).1))) / 2 : ℝ) : ℂ) ∂Pr = (a.beta : ℂ) / (a.alpha + a.beta) := by
    rw [push (fun x => (((1 + Real.cos (idealPhase (g x.1))) / 2 : ℝ) : ℂ)) (Complex.measurable_ofReal.comp ((measurable_const.add mc).div_const 2)),
      integral_complex_ofReal, fst fun u => (1 + Real.cos (idealPhase (g u))) / 2, integral_div, integral_add (integrable_const 1) ic, hmean]
    have : (a.beta : ℝ) / (a.alpha + a.beta) = ((∫ _ : ℝ, (1 : ℝ) ∂uniform01) + (2 * ((a.beta : ℝ) / (a.beta + a.alpha)) - 1)) / 2 := by
      rw [add_comm (a.beta : ℝ)]
      simp
    rw [← this]
    push_cast
    rfl
  -- interference averages out
  have hz1 : ∫ y, exp (I * ((2 * Real.pi * y : ℝ) : ℂ)) ∂uniform01 = 0 := by
    have h := uniform_phase 1 0
    simpa only [pow_one, pow_zero, mul_one, one_ne_zero, if_false] using h
  have hz2 : ∫ y, conj (exp (I * ((2 * Real.pi * y : ℝ) : ℂ))) ∂uniform01 = 0 := by
    rw [integral_conj, hz1, map_zero]
  have zero : ∀ (f : ℝ → ℂ) (F : ℝ × ℝ → ℂ), Measurable F →
      (∀ x, F x = (if style = .top then exp (I * ((2 * Real.pi * x.2 : ℝ) : ℂ)) else conj (exp (I * ((2 * Real.pi * x.2 : ℝ) : ℂ)))) * f x.1) →
      ∫ ω, F (D ω) ∂Pr = 0 := by
    intro f F hF e
    rw [push F hF]
    simp only [e]
    have := integral_prod_mul (μ := uniform01) (ν := uniform01) f
      (fun y => if style = .top then exp (I * ((2 * Real.pi * y : ℝ) : ℂ)) else conj (exp (I * ((2 * Real.pi * y : ℝ) : ℂ))))
    simp only [mul_comm (f _)] at this
    rw [this]
    by_cases ht : style = .top
    · simp only [ht, if_true, hz1, mul_zero]
    · simp only [ht, if_false, hz2, mul_zero]
  have hd := fun x : ℝ × ℝ => dephase_elements style hs 0 0 0 0 (idealPhase (g x.1)) (2 * Real.pi * x.2)
  have cont : (Continuous fun y : ℝ × ℝ => (mziElements style false 0 0 0 0 y.1 y.2).t11) ∧ (Continuous fun y : ℝ × ℝ => (mziElements style false 0 0 0 0 y.1 y.2).t12) ∧
      (Continuous fun y : ℝ × ℝ => (mziElements style false 0 0 0 0 y.1 y.2).t21) ∧ (Continuous fun y : ℝ × ℝ => (mziElements style false 0 0 0 0 y.1 y.2).t22) := by
    cases style <;> simp only [mziElements] <;> refine ⟨?_, ?_, ?_, ?_⟩ <;> fun_prop
  have mX : ∀ (f : ℝ × ℝ → ℂ), Continuous f → Measurable fun x : ℝ × ℝ => f (idealPhase (g x.1), 2 * Real.pi * x.2) :=
    fun f hf => hf.measurable.comp (mt.prodMk mp)
  have m11 := mX _ cont.1
  have m12 := mX _ cont.2.1
  have m21 := mX _ cont.2.2.1
  have m22 := mX _ cont.2.2.2
  have cj : Measurable (fun z : ℂ => conj z) := Complex.continuous_conj.measurable
  refine ⟨m11, m12, m21, m22, ⟨1, fun x => bound _ _ (hP x).1 (c1 _)⟩, ⟨1, fun x => bound _ _ (hP x).2.1 (c2 _)⟩,
    ⟨1, fun x => bound _ _ (hP x).2.2.1 (c2 _)⟩, ⟨1, fun x => bound _ _ (hP x).2.2.2 (c1 _)⟩, ?_, ?_, ?_, ?_, ?_, ?_⟩
  · simp only [fun ω => (hP (D ω)).1]; exact hm1
  · simp only [fun ω => (hP (D ω)).2.1]; exact hm2
  · simp only [fun ω => (hP (D ω)).2.2.1]; exact hm2
  · simp only [fun ω => (hP (D ω)).2.2.2]; exact hm1
  · exact zero (fun u => (mziElements style false 0 0 0 0 (idealPhase (g u)) 0).t11 * conj (mziElements style false 0 0 0 0 (idealPhase (g u)) 0).t21)
      _ (m11.mul (cj.comp m21)) fun x => (hd x).2.2.2.2.1
  · exact zero (fun u => (mziElements style false 0 0 0 0 (idealPhase (g u)) 0).t12 * conj (mziElements style false 0 0 0 0 (idealPhase (g u)) 0).t22)
      _ (m12.mul (cj.comp m22)) fun x => (hd x).2.2.2.2.2

/-- The draws of the constructor, or of a later `mesh.thetas = mesh.rand_theta()`, `mesh.phis = 2 * np.pi * np.random.rand(...)`: two independent
uniform numbers per array position (forward.py:60, 61, 121). -/
structure FreshDraws {Ω : Type} [MeasurableSpace Ω] (Pr : Measure Ω) (D : ℕ → Ω → ℝ × ℝ) : Prop where
  meas : ∀ k, Measurable (D k)
  law : ∀ k, Pr.map (D k) = uniform01.prod uniform01
  indep : iIndepFun D Pr

/-- Mean output power of a mesh with random settings, as power transport. -/
theorem mean_power_fresh {Ω : Type} [MeasurableSpace Ω] (Pr : Measure Ω) [IsProbabilityMeasure Pr] (n : ℕ) (nodes : List Node) (style : PhaseStyle)
    (hs : style ≠ .symmetric) (hM : (idealMesh nodes style).WellFormed n) (hid : (nodes.map Node.id).Nodup)
    (hpos : ∀ a ∈ nodes, 1 ≤ a.alpha ∧ 1 ≤ a.beta) (binv : ℕ → ℕ → ℝ → ℝ) (hb : IsBetaincinvFamily binv) (D : ℕ → Ω → ℝ × ℝ) (hD : FreshDraws Pr D)
    (z : Ω → ℕ → ℝ) (v : ℕ → ℂ) (r : ℕ) :
    ((∫ ω, ‖(idealMesh nodes style).apply (freshParams binv nodes (fun k => D k ω) (z ω)) false v r‖ ^ 2 ∂Pr : ℝ) : ℂ) =
      seqApply (fun k => nodeMean (nodes.getD k default)) (executionOrder nodes) (fun q => ((‖v q‖ ^ 2 : ℝ) : ℂ)) r := by
  have hget : ∀ k, k < nodes.length → nodes.getD k default ∈ nodes := by
    intro k hk
    rw [List.getD_eq_getElem?_getD, List.getElem?_eq_getElem hk]
    exact List.getElem_mem hk
  have hinv : ∀ k, ∃ g : ℝ → ℝ, Measurable g ∧ (k < nodes.length → ∀ᵐ u ∂uniform01, binv (nodes.getD k default).beta (nodes.getD k default).alpha u = g u) := by
    intro k
    by_cases hk : k < nodes.length
    · have h := hpos _ (hget k hk)
      have hm := (hb _ _ h.2 h.1).aemeasurable
      exact ⟨hm.mk _, hm.measurable_mk, fun _ => hm.ae_eq_mk⟩
    · exact ⟨fun _ => 0, measurable_const, fun h => absurd h hk⟩
  choose g hg hge using hinv
  let X : ℕ → ℝ × ℝ → Elements := fun k x => mziElements style false 0 0 0 0 (idealPhase (g k x.1)) (2 * Real.pi * x.2)
  have hid' : ((executionOrder nodes).map Node.id).Nodup := (((executionOrder_perm nodes).map Node.id).nodup_iff).2 hid
  have hX : ∀ a ∈ executionOrder nodes, Dephased Pr (X a.id) (nodeMean (nodes.getD a.id default)) (D a.id) := by
    intro a ha
    have hlt : a.id < nodes.length := hM.ids a ((executionOrder_perm nodes).mem_iff.1 ha)
    have h := hpos _ (hget _ hlt)
    exact random_dephased style hs _ h.1 h.2 _ (hb _ _ h.2 h.1) (g a.id) (hg _) (hge _ hlt) (D a.id) (hD.meas _) (hD.law _)
  have h := (mean_power_seq (X := X) (p := fun k => nodeMean (nodes.getD k default)) hD.meas hD.indep (executionOrder nodes) hX hid' v r).2
  have hae : ∀ᵐ ω ∂Pr, ∀ k : ℕ, k < nodes.length → binv (nodes.getD k default).beta (nodes.getD k default).alpha (D k ω).1 = g k (D k ω).1 := by
    rw [ae_all_iff]
    intro k
    by_cases hk : k < nodes.length
    · have h1 : ∀ᵐ x ∂(uniform01.prod uniform01), binv (nodes.getD k default).beta (nodes.getD k default).alpha x.1 = g k x.1 :=
        Measure.quasiMeasurePreserving_fst.ae (hge k hk)
      rw [← hD.law k] at h1
      filter_upwards [ae_of_ae_map (hD.meas k).aemeasurable h1] with ω hω _ using hω
    · exact Filter.Eventually.of_forall fun ω h => absurd h hk
  have hap : ∀ᵐ ω ∂Pr, ‖(idealMesh nodes style).apply (freshParams binv nodes (fun k => D k ω) (z ω)) false v r‖ ^ 2 =
      ‖seqApply (fun k => X k (D k ω)) (executionOrder nodes) v r‖ ^ 2 := by
    filter_upwards [hae] with ω hω
    show ‖exp (I * _) * columnsApply _ (idealMesh nodes style).nodes (columnOrder (idealMesh nodes style).nodes false) v r‖ ^ 2 = _
    rw [norm_mul, norm_exp_I, one_mul, columnsApply_eq_seq hM.goodColumn]
    show ‖seqApply _ (executionOrder nodes) v r‖ ^ 2 = _
    rw [seqApply_congr (executionOrder nodes) (el' := fun k => X k (D k ω))]
    intro a ha
    have hlt : a.id < nodes.length := hM.ids a ((executionOrder_perm nodes).mem_iff.1 ha)
    rw [ideal_elements]
    simp only [freshParams, X]
    rw [randTheta_ideal, hω _ hlt]
  rw [integral_congr_ae hap, ← integral_complex_ofReal]
  have hcv : ∀ ω, ((‖seqApply (fun k => X k (D k ω)) (executionOrder nodes) v r‖ ^ 2 : ℝ) : ℂ) =
      seqApply (fun k => X k (D k ω)) (executionOrder nodes) v r * conj (seqApply (fun k => X k (D k ω)) (executionOrder nodes) v r) := by
    intro ω; rw [Complex.mul_conj']; push_cast; rfl
  simp only [hcv]
  rw [h]
  congr 1
  funext q
  rw [Complex.mul_conj']; push_cast; rfl


/-! ### The three architectures -/

/-- The power that leaves rail `i` on average, if the mesh is set at random. -/
noncomputable def meanPower {Ω : Type} [MeasurableSpace Ω] (Pr : Measure Ω) {n : ℕ} (M : Mesh) (binv : ℕ → ℕ → ℝ → ℝ) (D : ℕ → Ω → ℝ × ℝ)
    (z : Ω → ℕ → ℝ) (v : Fin n → ℂ) (i : Fin n) : ℝ :=
  ∫ ω, ‖((M.matrix n (freshParams binv M.nodes (fun k => D k ω) (z ω)) false).mulVec v) i‖ ^ 2 ∂Pr

theorem meanPower_eq {Ω : Type} [MeasurableSpace Ω] (Pr : Measure Ω) [IsProbabilityMeasure Pr] (n : ℕ) (nodes : List Node) (style : PhaseStyle)
    (hs : style ≠ .symmetric) (hM : (idealMesh nodes style).WellFormed n) (hid : (nodes.map Node.id).Nodup)
    (hpos : ∀ a ∈ nodes, 1 ≤ a.alpha ∧ 1 ≤ a.beta) (binv : ℕ → ℕ → ℝ → ℝ) (hb : IsBetaincinvFamily binv) (D : ℕ → Ω → ℝ × ℝ) (hD : FreshDraws Pr D)
    (z : Ω → ℕ → ℝ) (v : Fin n → ℂ) (i : Fin n)
    (heven : ∀ w : ℕ → ℂ, (∀ q, n ≤ q → w q = 0) → seqApply (fun k => nodeMean (nodes.getD k default)) (executionOrder nodes) w i =
      (∑ q ∈ Finset.range n, w q) / n) :
    meanPower Pr (idealMesh nodes style) binv D z v i = (∑ q, ‖v q‖ ^ 2) / n := by
  let v' : ℕ → ℂ := fun q => if h : q < n then v ⟨q, h⟩ else 0
  have hv : v = restrict n v' := by
    funext q
    simp [restrict, v']
  have h := mean_power_fresh Pr n nodes style hs hM hid hpos binv hb D hD z v' i
  rw [heven _ (fun q hq => by simp [v', Nat.not_lt.2 hq])] at h
  have e : meanPower Pr (idealMesh nodes style) binv D z v i =
      ∫ ω, ‖(idealMesh nodes style).apply (freshParams binv nodes (fun k => D k ω) (z ω)) false v' i‖ ^ 2 ∂Pr := by
    unfold meanPower
    congr 1
    funext ω
    rw [hv, Mesh.matrix_mulVec hM]
    rfl
  rw [e]
  have h2 : (((∑ q, ‖v q‖ ^ 2) / n : ℝ) : ℂ) = (∑ q ∈ Finset.range n, ((‖v' q‖ ^ 2 : ℝ) : ℂ)) / n := by
    rw [Finset.sum_range]
    push_cast
    congr 1
    refine Finset.sum_congr rfl fun q _ => ?_
    simp [v']
  rw [← h2] at h
  exact_mod_cast h

/-- C204, triangular mesh: built by `triangular(u)` (for whatever `u`) and then set at random, it sends `1/n` of the power of every input to every
output, on average. -/
theorem C204_triangular {Ω : Type} [MeasurableSpace Ω] (Pr : Measure Ω) [IsProbabilityMeasure Pr] (eps : ℝ) (heps : 0 ≤ eps) (n : ℕ) (hn : 2 ≤ n)
    (u : Matrix (Fin n) (Fin n) ℂ) (hu : u ∈ Matrix.unitaryGroup (Fin n) ℂ) (binv : ℕ → ℕ → ℝ → ℝ) (hb : IsBetaincinvFamily binv)
    (D : ℕ → Ω → ℝ × ℝ) (hD : FreshDraws Pr D) (z : Ω → ℕ → ℝ) :
    ∃ M P, cascade eps .top 0 n false u = some (M, P) ∧ ∀ (v : Fin n → ℂ) (i : Fin n), meanPower Pr M binv D z v i = (∑ q, ‖v q‖ ^ 2) / n := by
  obtain ⟨P, h1, h2, -⟩ := cascade_spec (Or.inl rfl) heps n hn false u hu
  refine ⟨_, P, h1, fun v i => ?_⟩
  refine meanPower_eq Pr n (parts n false (n - 1) 0 0) .top (by decide) h2 ?_ ?_ binv hb D hD z v i fun w hw => tri_even n (by omega) w hw i i.isLt
  · rw [(parts_ids n false (n - 1) 0 0).nodup_iff]
    exact List.nodup_range'
  · intro a ha
    obtain ⟨k, N, C, h1, h2, -, x, hx, rfl⟩ := mem_parts ha
    rw [chain_tree_eq _ _ (by omega), List.mem_reverse] at hx
    obtain ⟨j, hj, rfl⟩ := List.mem_map.1 hx
    have := List.mem_range.1 hj
    simp only [shiftNode, chainNode]
    omega

theorem rectNodes_ids (n k : ℕ) : (rectNodes n k).map Node.id = List.range (rectNodes n k).length := by
  induction k with
  | zero => rfl
  | succ k ih =>
    rw [rectNodes, List.map_append, ih, List.length_append, List.length_map, List.length_range, List.range_add, List.map_map]
    rfl

theorem rectNodes_alpha (n k : ℕ) (a : Node) (ha : a ∈ rectNodes n k) : a.alpha = 1 := by
  induction k with
  | zero => simp [rectNodes] at ha
  | succ k ih =>
    rw [rectNodes] at ha
    rcases List.mem_append.1 ha with ha | ha
    · exact ih ha
    · obtain ⟨j, -, rfl⟩ := List.mem_map.1 ha
      rfl

/-- C204, rectangular mesh. -/
theorem C204_rectangular {Ω : Type} [MeasurableSpace Ω] (Pr : Measure Ω) [IsProbabilityMeasure Pr] (n : ℕ)
    (u : Matrix (Fin n) (Fin n) ℂ) (binv : ℕ → ℕ → ℝ → ℝ) (hb : IsBetaincinvFamily binv)
    (D : ℕ → Ω → ℝ × ℝ) (hD : FreshDraws Pr D) (z : Ω → ℕ → ℝ) (v : Fin n → ℂ) (i : Fin n) :
    meanPower Pr (rectangular n u).1 binv D z v i = (∑ q, ‖v q‖ ^ 2) / n := by
  refine meanPower_eq Pr n (rectNodes n n) .top (by decide) (rectangular_wellFormed n u) ?_ ?_ binv hb D hD z v i fun w hw => rect_even n w hw i i.isLt
  · rw [rectNodes_ids]; exact List.nodup_range
  · intro a ha
    obtain ⟨s1, s2, s3, s4, s5⟩ := rectNodes_spec n n a ha
    have hd := alpha_is_distance n a.top a.column s4 s5 (by omega)
    have hpos : (1 : ℤ) ≤ alphaCheckerboard n a.top a.column := by
      rw [hd]
      unfold rectLabel
      split_ifs <;> omega
    have := rectNodes_beta n n a ha
    have := rectNodes_alpha n n a ha
    omega

theorem seq_sum (el : ℕ → Elements) (L : List Node) (n : ℕ) : ∀ (v : ℕ → ℂ), (∀ q, n ≤ q → v q = 0) → ∀ r,
    seqApply el L v r = ∑ q ∈ Finset.range n, v q * seqApply el L (fun p => if p = q then 1 else 0) r := by
  induction n with
  | zero =>
    intro v hv r
    have h2 := seq_add el L v v (-1)
    have h3 : (fun q => v q + -1 * v q) = v := by funext q; rw [hv q (by omega)]; simp
    rw [h3] at h2
    have := congrFun h2 r
    rw [Finset.range_zero, Finset.sum_empty]
    linear_combination this
  | succ n ih =>
    intro v hv r
    have e : v = fun q => (if q < n then v q else 0) + v n * (if q = n then 1 else 0) := by
      funext q
      rcases Nat.lt_trichotomy q n with h | h | h
      · rw [if_pos h, if_neg h.ne]; ring
      · subst h; simp
      · rw [if_neg (by omega), if_neg (by omega), hv q (by omega)]; ring
    have h2 := congrFun (seq_add el L (fun q => if q < n then v q else 0) (fun q => if q = n then 1 else 0) (v n)) r
    have h3 := ih (fun q => if q < n then v q else 0) (fun q hq => if_neg (Nat.not_lt.2 hq)) r
    rw [← e] at h2
    rw [h2, h3, Finset.sum_range_succ]
    congr 1
    refine Finset.sum_congr rfl fun q hq => ?_
    rw [if_pos (Finset.mem_range.1 hq)]

theorem butterflyNodes_par (R : ℕ) : ∀ n s c, ∀ a ∈ butterflyNodes n R s c, a.alpha = a.beta ∧ 1 ≤ a.beta := by
  intro n
  induction n using Nat.strong_induction_on with
  | _ n ih =>
    intro s c a ha
    rcases Nat.lt_or_ge n 2 with h | h
    · rw [butterflyNodes_one (by omega)] at ha
      simp at ha
    · rcases (butterflyNodes_mem h).1 ha with ⟨i, -, rfl⟩ | h1 | h1
      · exact ⟨rfl, by simp⟩
      · exact ih _ (by omega) _ _ _ h1
      · exact ih _ (by omega) _ _ _ h1

theorem butterfly_par {n R : ℕ} {a : Node} (h : a ∈ butterfly n R) : a.alpha = a.beta ∧ 1 ≤ a.beta := by
  unfold butterfly invertColumns at h
  obtain ⟨c, hc, rfl⟩ := List.mem_map.1 h
  obtain ⟨b, hb, e⟩ := mem_renumber hc
  simp only [Node.key, Prod.mk.injEq] at e
  have := butterflyNodes_par R n 0 0 b hb
  simp only
  omega

theorem butterfly_get {n R : ℕ} (k : ℕ) : ((butterfly n R).getD k default).alpha = ((butterfly n R).getD k default).beta ∧
    (k < (butterfly n R).length → (butterfly n R).getD k default ∈ butterfly n R) := by
  rw [List.getD_eq_getElem?_getD]
  by_cases h : k < (butterfly n R).length
  · rw [List.getElem?_eq_getElem h]
    exact ⟨(butterfly_par (List.getElem_mem h)).1, fun _ => List.getElem_mem h⟩
  · rw [List.getElem?_eq_none (by omega)]
    exact ⟨rfl, fun h' => absurd h' h⟩

/-- C204, butterfly mesh on `2^k` rails, every style but SYMMETRIC. -/
theorem C204_butterfly {Ω : Type} [MeasurableSpace Ω] (Pr : Measure Ω) [IsProbabilityMeasure Pr] (k : ℕ) (hk : 1 ≤ k) (style : PhaseStyle)
    (hs : style ≠ .symmetric) (binv : ℕ → ℕ → ℝ → ℝ) (hb : IsBetaincinvFamily binv)
    (D : ℕ → Ω → ℝ × ℝ) (hD : FreshDraws Pr D) (z : Ω → ℕ → ℝ) (v : Fin (2 ^ k) → ℂ) (i : Fin (2 ^ k)) :
    meanPower Pr (idealMesh (butterfly (2 ^ k) (2 ^ k)) style) binv D z v i = (∑ q, ‖v q‖ ^ 2) / (2 ^ k : ℕ) := by
  obtain ⟨h1, hids, hnc, hr, hu⟩ := C24_butterfly k hk
  have hM : (idealMesh (butterfly (2 ^ k) (2 ^ k)) style).WellFormed (2 ^ k) := by
    refine ⟨by simp [idealMesh], by simp [idealMesh], ?_, ?_, ?_⟩
    · intro a ha
      have : a.id ∈ (butterfly (2 ^ k) (2 ^ k)).map Node.id := List.mem_map_of_mem ha
      rw [hids, List.mem_range] at this
      show a.id < (butterfly (2 ^ k) (2 ^ k)).length
      rw [h1]
      exact this
    · intro a ha
      have h2 := hr a ha
      have h3 := Nat.two_pow_pos a.column
      omega
    · exact (C24_any_size (2 ^ k) (2 ^ k)).2.2
  refine meanPower_eq Pr (2 ^ k) _ style hs hM (by rw [hids]; exact List.nodup_range) (fun a ha => by have := butterfly_par ha; omega) binv hb D hD z v i
    fun w hw => ?_
  obtain ⟨N, hN⟩ := butterfly_path k hk
  rw [seq_sum _ _ (2 ^ k) w hw, Finset.sum_div]
  refine Finset.sum_congr rfl fun q hq => ?_
  rw [show executionOrder (butterfly (2 ^ k) (2 ^ k)) = visitOrder (butterfly (2 ^ k) (2 ^ k)) false from rfl,
    visitOrder,
    ← columnsApply_eq_seq (fun c => butterfly_goodColumn _ _ c)]
  have hp := columns_path k hk (fun k' => nodeMean ((butterfly (2 ^ k) (2 ^ k)).getD k' default)) q N hN k le_rfl i i.isLt
  rw [show columnOrder (butterfly (2 ^ k) (2 ^ k)) false = List.range k by simp [columnOrder, hnc], hp,
    if_pos (by rw [Nat.div_eq_of_lt i.isLt, Nat.div_eq_of_lt (Finset.mem_range.1 hq)])]
  have hhalf : ∀ c ∈ Finset.range k, (nodeMean ((butterfly (2 ^ k) (2 ^ k)).getD (N c (pathRail i q c)).id default)).mat (Fin.ofNat 2 (i / 2 ^ c))
      (Fin.ofNat 2 (q / 2 ^ c)) = 1 / 2 := by
    intro c hc
    have hlt : pathRail i q c < 2 ^ k := pathRail_lt (Finset.mem_range.1 hc).le (Finset.mem_range.1 hq)
    obtain ⟨m1, -, -⟩ := hN c (Finset.mem_range.1 hc) _ hlt
    have hg := butterfly_get (n := 2 ^ k) (R := 2 ^ k) (N c (pathRail i q c)).id
    have hp := (butterfly_par (hg.2 (hM.ids _ m1))).2
    generalize (butterfly (2 ^ k) (2 ^ k)).getD (N c (pathRail i q c)).id default = a at hg hp
    have hne : (a.beta : ℂ) ≠ 0 := by exact_mod_cast (by omega : a.beta ≠ 0)
    have e1 : (a.beta : ℂ) / (a.beta + a.beta) = 1 / 2 := by field_simp; norm_num
    generalize Fin.ofNat 2 (i / 2 ^ c) = o
    generalize Fin.ofNat 2 (q / 2 ^ c) = b
    fin_cases o <;> fin_cases b <;> simp [nodeMean, Elements.mat, hg.1, e1] <;> simpa using e1
  rw [Finset.prod_congr rfl hhalf, Finset.prod_const, Finset.card_range]
  push_cast
  rw [one_div, inv_pow]
  rfl

/-- C204, the hypotheses can be met: there are a `betaincinv` and independent uniform draws, for which each output of a 7-rail triangular mesh
carries `1/7` of the power on average. -/
theorem C204_case : ∃ (binv : ℕ → ℕ → ℝ → ℝ) (Ω : Type) (_ : MeasurableSpace Ω) (Pr : Measure Ω) (D : ℕ → Ω → ℝ × ℝ), IsBetaincinvFamily binv ∧
    FreshDraws Pr D ∧ ∃ M P, cascade 0 .top 0 7 false 1 = some (M, P) ∧
      ∀ i j : Fin 7, meanPower Pr M binv D (fun _ _ => 0) (Pi.single j 1) i = 1 / 7 := by
  have h : ∀ a b : ℕ, ∃ inv, (1 ≤ a → 1 ≤ b → IsBetaincinv a b inv) := by
    intro a b
    by_cases h1 : 1 ≤ a ∧ 1 ≤ b
    · obtain ⟨inv, hi⟩ := exists_betaincinv a b (by exact_mod_cast h1.1) (by exact_mod_cast h1.2)
      exact ⟨inv, fun _ _ => hi⟩
    · exact ⟨fun _ => 0, fun h2 h3 => absurd ⟨h2, h3⟩ h1⟩
  choose binv hb using h
  have hD : FreshDraws (Measure.infinitePi fun _ : ℕ => uniform01.prod uniform01) (fun i ω => ω i) :=
    ⟨fun i => measurable_pi_apply i, fun i => Measure.infinitePi_map_eval _ i, iIndepFun_infinitePi (X := fun _ x => x) fun _ => measurable_id⟩
  refine ⟨binv, ℕ → ℝ × ℝ, inferInstance, _, _, hb, hD, ?_⟩
  obtain ⟨M, P, h1, h2⟩ := C204_triangular _ 0 le_rfl 7 (by norm_num) 1 (one_mem _) binv hb _ hD fun _ _ => 0
  refine ⟨M, P, h1, fun i j => ?_⟩
  rw [h2, Finset.sum_eq_single j]
  · simp
  · intro q _ hq
    rw [Pi.single_eq_of_ne hq]; simp
  · simp

/-! ### The sensitivity index of a rectangular mesh -/

/-- Specification: the input rail of the line on each rail, after nodes that exchange their two rails. -/
def lineOn (L : List Node) : ℕ → ℕ := L.foldl (fun x a => x ∘ Equiv.swap a.top a.bottom) id

theorem Crossing.split {n : ℕ} {el : ℕ → Elements} {L L' : List Node} {a : Node} : ∀ {x y : ℕ → ℤ}, Crossing n el (L ++ a :: L') x y →
    CrossesWith (el a.id) (L.foldl (fun x a => x ∘ Equiv.swap a.top a.bottom) x a.bottom - L.foldl (fun x a => x ∘ Equiv.swap a.top a.bottom) x a.top) := by
  induction L with
  | nil => intro x y h; rw [List.nil_append, Crossing] at h; rw [List.foldl_nil, h.1]; exact h.2.2.1
  | cons b L ih =>
    intro x y h
    rw [List.cons_append, Crossing] at h
    rw [List.foldl_cons, h.1]
    exact ih h.2.2.2

theorem Crossing.final {n : ℕ} {el : ℕ → Elements} {L : List Node} : ∀ {x y : ℕ → ℤ}, Crossing n el L x y →
    L.foldl (fun x a => x ∘ Equiv.swap a.top a.bottom) x = y := by
  induction L with
  | nil => intro x y h; exact h
  | cons b L ih =>
    intro x y h
    rw [Crossing] at h
    rw [List.foldl_cons, h.1]
    exact ih h.2.2.2

theorem lineOn_cast (L : List Node) : ∀ (x : ℕ → ℕ) (r : ℕ), L.foldl (fun x a => x ∘ Equiv.swap a.top a.bottom) (fun j => (x j : ℤ)) r =
    (L.foldl (fun x a => x ∘ Equiv.swap a.top a.bottom) x r : ℕ) := by
  induction L with
  | nil => intro x r; rfl
  | cons b L ih => intro x r; rw [List.foldl_cons, List.foldl_cons]; exact ih (x ∘ Equiv.swap b.top b.bottom) r

theorem rect_exec (n : ℕ) : executionOrder (rectNodes n n) = rectNodes n n := by
  have hid : (rectNodes n n).Pairwise fun a b => a.id < b.id := by
    have := List.pairwise_lt_range (n := (rectNodes n n).length)
    rw [← rectNodes_ids n n] at this
    exact List.pairwise_map.1 this
  have hcol : (rectNodes n n).Pairwise fun a b => a.column ≤ b.column := rectNodes_sorted n n
  refine List.Perm.eq_of_pairwise (le := fun a b : Node => a.column < b.column ∨ a.column = b.column ∧ a.id ≤ b.id) ?_ ?_ ?_ (executionOrder_perm _)
  · intro a b ha hb h1 h2
    have ha' := (executionOrder_perm _).mem_iff.1 ha
    rw [← rectNodes_get n n a ha', ← rectNodes_get n n b hb, show a.id = b.id by omega]
  · unfold executionOrder
    rw [List.pairwise_flatMap]
    refine ⟨fun c _ => ?_, ?_⟩
    · refine (List.Pairwise.filter _ hid).imp_of_mem ?_
      intro a b ha hb h
      have h1 := (List.mem_filter.1 ha).2
      have h2 := (List.mem_filter.1 hb).2
      simp only [decide_eq_true_eq] at h1 h2
      omega
    · refine List.pairwise_lt_range.imp ?_
      intro c d h a ha b hb
      have h1 := (List.mem_filter.1 ha).2
      have h2 := (List.mem_filter.1 hb).2
      simp only [decide_eq_true_eq] at h1 h2
      omega
  · refine (hid.and hcol).imp ?_
    rintro a b ⟨h1, h2⟩
    omega

/-- C205: in the order of the light, the sensitivity index `beta` of a node of a rectangular mesh is the distance of the input rails of the two lines
that meet there, the upper line coming from the smaller rail; past the last node the lines leave in reversed order. -/
theorem C205_distance (n : ℕ) (u : Matrix (Fin n) (Fin n) ℂ) :
    (∀ L a L', executionOrder (rectangular n u).1.nodes = L ++ a :: L' → lineOn L a.bottom = lineOn L a.top + a.beta ∧ 1 ≤ a.beta) ∧
    ∀ r < n, lineOn (executionOrder (rectangular n u).1.nodes) r = n - 1 - r := by
  have h := rect_crossing n (fun k => nodeMean ((rectNodes n n).getD k default)) n le_rfl fun a ha => by
    simp only [rectNodes_get n n a ha]
  rw [show rectLabel n 0 = fun j : ℕ => ((id j : ℕ) : ℤ) by
    funext j; unfold rectLabel; simp only [id]; split_ifs <;> omega] at h
  constructor
  · intro L a L' e
    have e' : rectNodes n n = L ++ a :: L' := by rw [← rect_exec]; exact e
    have ha : a ∈ rectNodes n n := by rw [e']; simp
    rw [e'] at h
    have h2 := h.split
    rw [← e'] at h2
    simp only [rectNodes_get n n a ha, lineOn_cast] at h2
    obtain ⟨h0, g, -⟩ := h2
    obtain ⟨g0, g', -⟩ := nodeMean_crosses a (rectNodes_alpha n n a ha)
    rw [g'] at g
    have h3 : (1 : ℂ) + a.beta = 1 + (((lineOn L a.bottom : ℕ) : ℤ) - ((lineOn L a.top : ℕ) : ℤ) : ℤ) := by
      push_cast
      rw [one_div, one_div] at g
      have := inv_injective g
      simpa [lineOn] using this
    have h4 : (1 : ℤ) + a.beta = 1 + (((lineOn L a.bottom : ℕ) : ℤ) - ((lineOn L a.top : ℕ) : ℤ)) := by exact_mod_cast h3
    refine ⟨by omega, ?_⟩
    obtain ⟨s1, s2, s3, s4, s5⟩ := rectNodes_spec n n a ha
    have hd := alpha_is_distance n a.top a.column s4 s5 (by omega)
    have hpos : (1 : ℤ) ≤ alphaCheckerboard n a.top a.column := by
      rw [hd]
      unfold rectLabel
      split_ifs <;> omega
    have := rectNodes_beta n n a ha
    omega
  · intro r hr
    have h2 := congrFun h.final r
    rw [lineOn_cast] at h2
    rw [show executionOrder (rectangular n u).1.nodes = rectNodes n n from rect_exec n]
    have h3 : ((lineOn (rectNodes n n) r : ℕ) : ℤ) = rectLabel n n r := h2
    have h4 : rectLabel n n r = n - 1 - r := by unfold rectLabel; split_ifs <;> omega
    rw [h4] at h3
    omega

/-- C205, a case: on five rails the indices, in the order of the light, are `1, 1, 3, 2, 2, 4, 3, 2, 1, 1`. -/
theorem C205_case : (executionOrder (rectangular 5 1).1.nodes).map (fun a => (a.top, a.beta)) =
    [(0, 1), (2, 1), (1, 3), (3, 2), (0, 2), (2, 4), (1, 3), (3, 2), (0, 1), (2, 1)] := by
  show (executionOrder (rectNodes 5 5)).map (fun a => (a.top, a.beta)) = _
  decide +kernel

end Simphox
