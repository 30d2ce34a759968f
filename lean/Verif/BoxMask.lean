import Mathlib.Data.Rat.Floor
import Mathlib.Algebra.BigOperators.Fin
import Mathlib.Algebra.Order.BigOperators.Group.Finset
import Mathlib.Tactic.Linarith
import Mathlib.Tactic.FieldSimp
import Verif.GridProps

/-!
# Pixels of a `Box` (C163) and boxes as mutable objects (C164)
-/

namespace Simphox

/-! ### Model -/

/-- `Box.shape` (utils.py:99-101). -/
def Box.shape (b : Box) : ℤ × ℤ := (b.maxI.1 - b.minI.1, b.maxI.2 - b.minI.2)

/-- `Box.slice` (utils.py:107-109). -/
def Box.slice (b : Box) : AxisIndex × AxisIndex := (.range b.minI.1 b.maxI.1, .range b.minI.2 b.maxI.2)

/-- `Box.mask` (utils.py:115-118) on an `m x n` array: zeros, then `mask[slice] = 1`. -/
def Box.mask (m n : ℕ) (b : Box) (i j : ℕ) : ℚ :=
  if b.slice.1.selects m i && b.slice.2.selects n j then 1 else 0

/-- The mask used in the model of `get_mask_fn` is this one. -/
theorem boxMask_eq_mask (m n : ℕ) (b : Box) : boxMask m n b = b.mask m n := rfl

/-! ### Specification -/

/-- Cell `k` of an axis belongs to the interval from `lo` to `hi`: its upper edge `(k + 1) * d` does. -/
def CellIn (d lo hi : ℚ) (k : ℕ) : Prop := lo < (k + 1) * d ∧ (k + 1) * d ≤ hi

/-- A box with a proper pixel size whose lower corner is not left of or below the origin. -/
structure Box.Proper (b : Box) : Prop where
  spacing : 0 < b.spacing
  sizeX : 0 ≤ b.sizeX
  sizeY : 0 ≤ b.sizeY
  minX : 0 ≤ b.minX
  minY : 0 ≤ b.minY

/-! ### Lemmas -/

theorem floor_le_iff_cell {d lo : ℚ} (hd : 0 < d) (k : ℕ) : ⌊lo / d⌋ ≤ (k : ℤ) ↔ lo < (k + 1) * d := by
  rw [← Int.lt_add_one_iff, Int.floor_lt, div_lt_iff₀ hd]
  push_cast
  rfl

theorem lt_floor_iff_cell {d hi : ℚ} (hd : 0 < d) (k : ℕ) : (k : ℤ) < ⌊hi / d⌋ ↔ (k + 1) * d ≤ hi := by
  rw [← Int.add_one_le_iff, Int.le_floor, le_div_iff₀ hd]
  push_cast
  rfl

theorem selects_nat {m k a c : ℕ} (hk : k < m) : (AxisIndex.range a c).selects m k = true ↔ a ≤ k ∧ k < c := by
  have e1 : ¬ ((a : ℤ) < 0) := by omega
  have e2 : ¬ ((c : ℤ) < 0) := by omega
  simp only [AxisIndex.selects, resolveBound, e1, e2, if_false, decide_eq_true_eq]
  omega

theorem selects_cell {d lo hi : ℚ} (hd : 0 < d) (h0 : 0 ≤ lo) (h1 : lo ≤ hi) {m k : ℕ} (hk : k < m) :
    (AxisIndex.range (pyInt (lo / d)) (pyInt (hi / d))).selects m k = true ↔ CellIn d lo hi k := by
  have a : 0 ≤ lo / d := div_nonneg h0 hd.le
  have b : 0 ≤ hi / d := div_nonneg (h0.trans h1) hd.le
  have ha : 0 ≤ ⌊lo / d⌋ := Int.floor_nonneg.2 a
  have hb : 0 ≤ ⌊hi / d⌋ := Int.floor_nonneg.2 b
  obtain ⟨p, hp⟩ := Int.eq_ofNat_of_zero_le ha
  obtain ⟨q, hq⟩ := Int.eq_ofNat_of_zero_le hb
  unfold CellIn
  rw [← floor_le_iff_cell hd, ← lt_floor_iff_cell hd, pyInt_nonneg a, pyInt_nonneg b, hp, hq, selects_nat hk]
  omega

theorem Box.mask_iff (m n : ℕ) (b : Box) (hb : b.Proper) (i j : ℕ) (hi : i < m) (hj : j < n) :
    (b.slice.1.selects m i && b.slice.2.selects n j) = true ↔
      CellIn b.spacing b.minX b.maxX i ∧ CellIn b.spacing b.minY b.maxY j := by
  rw [Bool.and_eq_true]
  have h1 : b.minX ≤ b.maxX := by have := hb.sizeX; unfold Box.maxX; linarith
  have h2 : b.minY ≤ b.maxY := by have := hb.sizeY; unfold Box.maxY; linarith
  exact and_congr (selects_cell hb.spacing hb.minX h1 hi) (selects_cell hb.spacing hb.minY h2 hj)

/-! ### C163 -/

/-- C163: for a box with its lower corner in the first quadrant, `mask` is 1 exactly at the pixels whose upper
corner lies in the box, 0 at all others. -/
theorem C163_mask_partial (m n : ℕ) (b : Box) (hb : b.Proper) (i j : ℕ) (hi : i < m) (hj : j < n) :
    (CellIn b.spacing b.minX b.maxX i ∧ CellIn b.spacing b.minY b.maxY j → b.mask m n i j = 1) ∧
      (¬ (CellIn b.spacing b.minX b.maxX i ∧ CellIn b.spacing b.minY b.maxY j) → b.mask m n i j = 0) := by
  have h := Box.mask_iff m n b hb i j hi hj
  unfold Box.mask
  exact ⟨fun h' => if_pos (h.2 h'), fun h' => if_neg fun h'' => h' (h.1 h'')⟩

theorem sum_cells {a b m : ℕ} (hab : a ≤ b) (hbm : b ≤ m) :
    ∑ k ∈ Finset.range m, (if a ≤ k ∧ k < b then (1 : ℚ) else 0) = (b : ℚ) - a := by
  rw [← Finset.sum_filter, Finset.sum_const, nsmul_eq_mul, mul_one]
  have : (Finset.range m).filter (fun k => a ≤ k ∧ k < b) = Finset.Ico a b := by
    ext k; simp only [Finset.mem_filter, Finset.mem_range, Finset.mem_Ico]; omega
  rw [this, Nat.card_Ico, Nat.cast_sub hab]

/-- C163, size: if moreover the box fits into the array, the number of marked pixels is the product of `shape`. -/
theorem C163_count_partial (m n : ℕ) (b : Box) (hb : b.Proper) (hm : b.maxX ≤ m * b.spacing) (hn : b.maxY ≤ n * b.spacing) :
    ∑ i ∈ Finset.range m, ∑ j ∈ Finset.range n, b.mask m n i j = (b.shape.1 : ℚ) * b.shape.2 := by
  have key : ∀ (d lo hi : ℚ) (k : ℕ), 0 < d → 0 ≤ lo → lo ≤ hi → hi ≤ k * d →
      ∃ a c : ℕ, pyInt (lo / d) = a ∧ pyInt (hi / d) = c ∧ a ≤ c ∧ c ≤ k := by
    intro d lo hi k hd h0 h1 h2
    have a : 0 ≤ lo / d := div_nonneg h0 hd.le
    have b : 0 ≤ hi / d := div_nonneg (h0.trans h1) hd.le
    have e1 : ((⌊lo / d⌋.toNat : ℕ) : ℤ) = ⌊lo / d⌋ := Int.toNat_of_nonneg (Int.floor_nonneg.2 a)
    have e2 : ((⌊hi / d⌋.toNat : ℕ) : ℤ) = ⌊hi / d⌋ := Int.toNat_of_nonneg (Int.floor_nonneg.2 b)
    have e3 : ⌊lo / d⌋ ≤ ⌊hi / d⌋ := Int.floor_le_floor (div_le_div_of_nonneg_right h1 hd.le)
    have e4 : ⌊hi / d⌋ ≤ (k : ℤ) := by
      have : hi / d ≤ (k : ℚ) := by rw [div_le_iff₀ hd]; exact h2
      have := Int.floor_le_floor this
      rwa [Int.floor_natCast] at this
    refine ⟨⌊lo / d⌋.toNat, ⌊hi / d⌋.toNat, ?_, ?_, ?_, ?_⟩
    · rw [pyInt_nonneg a, e1]
    · rw [pyInt_nonneg b, e2]
    · omega
    · omega
  have h1 : b.minX ≤ b.maxX := by have := hb.sizeX; unfold Box.maxX; linarith
  have h2 : b.minY ≤ b.maxY := by have := hb.sizeY; unfold Box.maxY; linarith
  obtain ⟨a, c, ea, ec, hac, hcm⟩ := key _ _ _ m hb.spacing hb.minX h1 hm
  obtain ⟨a', c', ea', ec', hac', hcn⟩ := key _ _ _ n hb.spacing hb.minY h2 hn
  have hmask : ∀ i ∈ Finset.range m, ∀ j ∈ Finset.range n,
      b.mask m n i j = (if a ≤ i ∧ i < c then (1 : ℚ) else 0) * (if a' ≤ j ∧ j < c' then (1 : ℚ) else 0) := by
    intro i hi j hj
    unfold Box.mask Box.slice Box.minI Box.maxI
    dsimp only
    rw [ea, ec, ea', ec']
    have s1 := selects_nat (a := a) (c := c) (Finset.mem_range.1 hi)
    have s2 := selects_nat (a := a') (c := c') (Finset.mem_range.1 hj)
    simp only [Bool.and_eq_true, s1, s2]
    by_cases p : a ≤ i ∧ i < c <;> by_cases q : a' ≤ j ∧ j < c' <;> simp [p, q]
  rw [Finset.sum_congr rfl fun i hi => Finset.sum_congr rfl fun j hj => hmask i hi j hj]
  simp only [← Finset.mul_sum, ← Finset.sum_mul]
  rw [sum_cells hac hcm, sum_cells hac' hcn]
  have hs1 : b.shape.1 = (c : ℤ) - a := by unfold Box.shape Box.maxI Box.minI; dsimp only; rw [ea, ec]
  have hs2 : b.shape.2 = (c' : ℤ) - a' := by unfold Box.shape Box.maxI Box.minI; dsimp only; rw [ea', ec']
  rw [hs1, hs2]
  push_cast
  ring

/-- C163, boxes on the pixel grid: a box of `w x h` pixels at pixel `(p, q)` has shape `(w, h)` and its mask is 1 exactly at
the pixels `p <= i < p + w`, `q <= j < q + h` of the array. -/
theorem C163_aligned_partial (m n : ℕ) (b : Box) (hd : 0 < b.spacing) (p q w h : ℕ) (h1 : b.minX = p * b.spacing)
    (h2 : b.minY = q * b.spacing) (h3 : b.sizeX = w * b.spacing) (h4 : b.sizeY = h * b.spacing) :
    b.shape = ((w : ℤ), (h : ℤ)) ∧ ∀ i j, i < m → j < n →
      b.mask m n i j = if p ≤ i ∧ i < p + w ∧ q ≤ j ∧ j < q + h then 1 else 0 := by
  have hne := hd.ne'
  have fl : ∀ k : ℕ, pyInt ((k : ℚ) * b.spacing / b.spacing) = k := by
    intro k
    rw [mul_div_assoc, div_self hne, mul_one, pyInt_nonneg (by positivity), Int.floor_natCast]
  have m1 : b.minI = ((p : ℤ), (q : ℤ)) := by unfold Box.minI; rw [h1, h2, fl, fl]
  have m2 : b.maxI = (((p + w : ℕ) : ℤ), ((q + h : ℕ) : ℤ)) := by
    have e1 : b.maxX = ((p + w : ℕ) : ℚ) * b.spacing := by unfold Box.maxX; rw [h1, h3]; push_cast; ring
    have e2 : b.maxY = ((q + h : ℕ) : ℚ) * b.spacing := by unfold Box.maxY; rw [h2, h4]; push_cast; ring
    unfold Box.maxI; rw [e1, e2, fl, fl]
  refine ⟨?_, fun i j hi hj => ?_⟩
  · unfold Box.shape; rw [m1, m2]; ext <;> push_cast <;> ring
  · unfold Box.mask Box.slice
    rw [m1, m2]
    have s1 := selects_nat (a := p) (c := p + w) hi
    have s2 := selects_nat (a := q) (c := q + h) hj
    simp only [Bool.and_eq_true, s1, s2, and_assoc]

/-- **C163, violated**: a box that sticks out on the left is not clipped. Of a 3 x 1 box from `x = -1` to `x = 2` on a
10 x 10 array no pixel is marked, although pixels 0 and 1 lie inside; and a box entirely to the left of the array
(from -3 to -1) marks pixels 7 and 8 on the opposite side. -/
theorem C163_negative_counterexample :
    (∀ i j, i < 10 → j < 10 → (Box.mk 3 1 (-1) 0 1 1).mask 10 10 i j = 0) ∧
      CellIn 1 (-1) 2 0 ∧ CellIn 1 (-1) 2 1 ∧ CellIn 1 0 1 0 ∧
      (Box.mk 2 1 (-3) 0 1 1).mask 10 10 7 0 = 1 ∧ (Box.mk 2 1 (-3) 0 1 1).mask 10 10 8 0 = 1 ∧ ¬ CellIn 1 (-3) (-1) 7 := by
  refine ⟨?_, by norm_num [CellIn], by norm_num [CellIn], by norm_num [CellIn], ?_, ?_, by norm_num [CellIn]⟩
  · intro i j hi hj
    have e1 : pyInt ((-1 : ℚ) / 1) = -1 := by decide +kernel
    have e2 : pyInt ((-1 + 3 : ℚ) / 1) = 2 := by decide +kernel
    unfold Box.mask Box.slice Box.minI Box.maxI Box.maxX
    dsimp only
    rw [e1, e2]
    have : (AxisIndex.range (-1) 2).selects 10 i = false := by
      simp only [AxisIndex.selects, resolveBound]
      norm_num
      omega
    rw [this, Bool.false_and, if_neg (by simp)]
  · decide +kernel
  · decide +kernel

/-- Nontrivial case for C163: a 2 x 3 micron box at (0.5, 1) with pixels of 0.25 on a 20 x 20 array. -/
example : (Box.mk 2 3 (1 / 2) 1 (1 / 4) 1).Proper ∧ (Box.mk 2 3 (1 / 2) 1 (1 / 4) 1).maxX ≤ (20 : ℕ) * (1 / 4 : ℚ)
    ∧ (Box.mk 2 3 (1 / 2) 1 (1 / 4) 1).maxY ≤ (20 : ℕ) * (1 / 4 : ℚ) ∧ (Box.mk 2 3 (1 / 2) 1 (1 / 4) 1).shape = (8, 12) := by
  refine ⟨⟨by norm_num, by norm_num, by norm_num, by norm_num, by norm_num⟩, by norm_num [Box.maxX], by norm_num [Box.maxY], ?_⟩
  decide +kernel

/-! ### C164: boxes as objects -/

/-- The operations on box objects, by reference: the methods change `self` and return it (utils.py:111-140). -/
inductive BoxOp where
  /-- `refs.append(refs[k].copy)` -/
  | copy (k : ℕ)
  /-- `refs[k].translate(dx, dy)` -/
  | translate (k : ℕ) (dx dy : ℚ)
  /-- `refs[k].align((cx, cy))` -/
  | alignTo (k : ℕ) (cx cy : ℚ)
  /-- `refs[k].align(refs[l])` -/
  | align (k l : ℕ)
  /-- `refs[k].halign(refs[l], left, opposite)` -/
  | halign (k l : ℕ) (left opposite : Bool)
  /-- `refs[k].valign(refs[l], bottom, opposite)` -/
  | valign (k l : ℕ) (bottom opposite : Bool)

/-- One operation on the list of box objects (utils.py:111-140); a reference that does not exist raises. -/
def BoxOp.run (op : BoxOp) (h : List Box) : Option (List Box) :=
  match op with
  | .copy k => (h[k]?).map fun b => h ++ [b]
  | .translate k dx dy => (h[k]?).map fun b => h.set k (b.translate dx dy)
  | .alignTo k cx cy => (h[k]?).map fun b => h.set k (b.align cx cy)
  | .align k l => (h[k]?).bind fun b => (h[l]?).map fun c => h.set k (b.align c.centerX c.centerY)
  | .halign k l left opp => (h[k]?).bind fun b => (h[l]?).map fun c => h.set k (b.halign (.box c) left opp)
  | .valign k l bottom opp => (h[k]?).bind fun b => (h[l]?).map fun c => h.set k (b.valign (.box c) bottom opp)

/-- A whole program. -/
def runBoxes : List BoxOp → List Box → Option (List Box)
  | [], h => some h
  | op :: ops, h => (op.run h).bind (runBoxes ops)

/-- The object an operation changes (a copy creates a new one and changes none). -/
def BoxOp.target : BoxOp → Option ℕ
  | .copy _ => none
  | .translate k _ _ => some k
  | .alignTo k _ _ => some k
  | .align k _ => some k
  | .halign k _ _ _ => some k
  | .valign k _ _ _ => some k

/-- Two boxes that differ at most in position. -/
def SameKind (a b : Box) : Prop := a.sizeX = b.sizeX ∧ a.sizeY = b.sizeY ∧ a.spacing = b.spacing ∧ a.eps = b.eps

theorem boxop_spec (op : BoxOp) (h h' : List Box) (hrun : op.run h = some h') :
    (∃ k b, op = .copy k ∧ h[k]? = some b ∧ h' = h ++ [b]) ∨
      ∃ k b b', op.target = some k ∧ h[k]? = some b ∧ SameKind b b' ∧ h' = h.set k b' := by
  cases op with
  | copy k =>
    left
    simp only [BoxOp.run, Option.map_eq_some_iff] at hrun
    obtain ⟨b, hb, rfl⟩ := hrun
    exact ⟨k, b, rfl, hb, rfl⟩
  | translate k dx dy =>
    right
    simp only [BoxOp.run, Option.map_eq_some_iff] at hrun
    obtain ⟨b, hb, rfl⟩ := hrun
    exact ⟨k, b, b.translate dx dy, rfl, hb, ⟨rfl, rfl, rfl, rfl⟩, rfl⟩
  | alignTo k cx cy =>
    right
    simp only [BoxOp.run, Option.map_eq_some_iff] at hrun
    obtain ⟨b, hb, rfl⟩ := hrun
    exact ⟨k, b, b.align cx cy, rfl, hb, ⟨rfl, rfl, rfl, rfl⟩, rfl⟩
  | align k l =>
    right
    simp only [BoxOp.run, Option.bind_eq_some_iff, Option.map_eq_some_iff] at hrun
    obtain ⟨b, hb, c, hc, rfl⟩ := hrun
    exact ⟨k, b, b.align c.centerX c.centerY, rfl, hb, ⟨rfl, rfl, rfl, rfl⟩, rfl⟩
  | halign k l left opp =>
    right
    simp only [BoxOp.run, Option.bind_eq_some_iff, Option.map_eq_some_iff] at hrun
    obtain ⟨b, hb, c, hc, rfl⟩ := hrun
    exact ⟨k, b, b.halign (.box c) left opp, rfl, hb, ⟨rfl, rfl, rfl, rfl⟩, rfl⟩
  | valign k l bottom opp =>
    right
    simp only [BoxOp.run, Option.bind_eq_some_iff, Option.map_eq_some_iff] at hrun
    obtain ⟨b, hb, c, hc, rfl⟩ := hrun
    exact ⟨k, b, b.valign (.box c) bottom opp, rfl, hb, ⟨rfl, rfl, rfl, rfl⟩, rfl⟩

/-- C164: after any sequence of copies and moves, a box that was never itself moved is exactly where it was, whatever
happened to its copies, and to boxes aligned with it; and every box keeps its size, pixel size and material. -/
theorem C164_isolation (ops : List BoxOp) (h h' : List Box) (hrun : runBoxes ops h = some h') (k : ℕ) (b : Box)
    (hk : h[k]? = some b) :
    (∃ b', h'[k]? = some b' ∧ SameKind b b') ∧ ((∀ op ∈ ops, op.target ≠ some k) → h'[k]? = some b) := by
  induction ops generalizing h b with
  | nil =>
    simp only [runBoxes, Option.some.injEq] at hrun
    subst hrun
    exact ⟨⟨b, hk, rfl, rfl, rfl, rfl⟩, fun _ => hk⟩
  | cons op ops ih =>
    simp only [runBoxes, Option.bind_eq_some_iff] at hrun
    obtain ⟨h1, hop, hrest⟩ := hrun
    have hlt : k < h.length := (List.getElem?_eq_some_iff.1 hk).1
    rcases boxop_spec op h h1 hop with ⟨k', b0, rfl, hb0, rfl⟩ | ⟨k', b0, b1, htar, hb0, hsame, rfl⟩
    · have hk1 : (h ++ [b0])[k]? = some b := by rw [List.getElem?_append_left hlt]; exact hk
      obtain ⟨i1, i2⟩ := ih _ hrest b hk1
      exact ⟨i1, fun hno => i2 fun op hop' => hno op (List.mem_cons_of_mem _ hop')⟩
    · by_cases hkk : k' = k
      · subst hkk
        rw [hk] at hb0
        injection hb0 with hb0
        subst hb0
        have hk1 : (h.set k' b1)[k']? = some b1 := by rw [List.getElem?_set_self hlt]
        obtain ⟨⟨b2, i1, i3⟩, _⟩ := ih _ hrest b1 hk1
        refine ⟨⟨b2, i1, ?_⟩, fun hno => absurd htar (hno op List.mem_cons_self)⟩
        exact ⟨hsame.1.trans i3.1, hsame.2.1.trans i3.2.1, hsame.2.2.1.trans i3.2.2.1, hsame.2.2.2.trans i3.2.2.2⟩
      · have hk1 : (h.set k' b1)[k]? = some b := by rw [List.getElem?_set_ne hkk]; exact hk
        obtain ⟨i1, i2⟩ := ih _ hrest b hk1
        exact ⟨i1, fun hno => i2 fun op hop' => hno op (List.mem_cons_of_mem _ hop')⟩

/-- C164: a program of moves never fails on existing boxes, and `copy` yields an equal box. -/
theorem C164_copy (h : List Box) (k : ℕ) (b : Box) (hk : h[k]? = some b) :
    ∃ h', (BoxOp.copy k).run h = some h' ∧ h'[h.length]? = some b ∧ h'[k]? = some b := by
  refine ⟨h ++ [b], by simp [BoxOp.run, hk], by simp, ?_⟩
  rw [List.getElem?_append_left (List.getElem?_eq_some_iff.1 hk).1]
  exact hk

/-- Relative moves compose: any sequence of translations of one box moves it by the sum of the shifts. -/
theorem C164_translations (shifts : List (ℚ × ℚ)) (h : List Box) (k : ℕ) (b : Box) (hk : h[k]? = some b) :
    ∃ h', runBoxes (shifts.map fun p => .translate k p.1 p.2) h = some h' ∧
      ∃ b', h'[k]? = some b' ∧ b'.minX = b.minX + (shifts.map Prod.fst).sum ∧ b'.minY = b.minY + (shifts.map Prod.snd).sum := by
  induction shifts generalizing h b with
  | nil => exact ⟨h, rfl, b, hk, by simp, by simp⟩
  | cons p l ih =>
    have hlt : k < h.length := (List.getElem?_eq_some_iff.1 hk).1
    obtain ⟨h', hr, b', hb', e1, e2⟩ := ih (h.set k (b.translate p.1 p.2)) (b.translate p.1 p.2)
      (by rw [List.getElem?_set_self hlt])
    refine ⟨h', ?_, b', hb', ?_, ?_⟩
    · simp only [List.map_cons, runBoxes, BoxOp.run, hk, Option.map_some, Option.bind_some]
      exact hr
    · rw [e1, List.map_cons, List.sum_cons]; unfold Box.translate; dsimp only; ring
    · rw [e2, List.map_cons, List.sum_cons]; unfold Box.translate; dsimp only; ring

/-- C164: an alignment puts the box that is moved where the other box says, and no box else moves. -/
theorem C164_aligned (h : List Box) (k l : ℕ) (b c : Box) (hk : h[k]? = some b) (hl : h[l]? = some c)
    (first opposite : Bool) :
    (∃ h' b', (BoxOp.align k l).run h = some h' ∧ h'[k]? = some b' ∧ (∀ m, m ≠ k → h'[m]? = h[m]?) ∧
      b'.centerX = c.centerX ∧ b'.centerY = c.centerY) ∧
    (∃ h' b', (BoxOp.halign k l first opposite).run h = some h' ∧ h'[k]? = some b' ∧ (∀ m, m ≠ k → h'[m]? = h[m]?) ∧
      b'.minY = b.minY ∧
      (if first then b'.minX else b'.maxX) = (if first = opposite then c.maxX else c.minX)) ∧
    (∃ h' b', (BoxOp.valign k l first opposite).run h = some h' ∧ h'[k]? = some b' ∧ (∀ m, m ≠ k → h'[m]? = h[m]?) ∧
      b'.minX = b.minX ∧
      (if first then b'.minY else b'.maxY) = (if first = opposite then c.maxY else c.minY)) := by
  have hlt : k < h.length := (List.getElem?_eq_some_iff.1 hk).1
  have hset : ∀ x : Box, (h.set k x)[k]? = some x := fun x => by rw [List.getElem?_set_self hlt]
  have hoth : ∀ x : Box, ∀ m, m ≠ k → (h.set k x)[m]? = h[m]? := fun x m hm => by rw [List.getElem?_set_ne hm.symm]
  obtain ⟨_, _, A1, A2, _, A3, A4⟩ := C41_box_alignment b c 0 0 0 c.centerX c.centerY first opposite (.box c)
  refine ⟨⟨_, _, by simp [BoxOp.run, hk, hl], hset _, hoth _, A1⟩,
    ⟨_, _, by simp [BoxOp.run, hk, hl], hset _, hoth _, A2.1, ?_⟩,
    ⟨_, _, by simp [BoxOp.run, hk, hl], hset _, hoth _, A2.2, ?_⟩⟩
  · obtain ⟨h1, h2, h3, h4⟩ := A3
    cases first <;> cases opposite <;> simp [h1, h2, h3, h4]
  · obtain ⟨h1, h2, h3, h4⟩ := A4
    cases first <;> cases opposite <;> simp [h1, h2, h3, h4]

/-- Nontrivial case for C164: a copy is moved and aligned, the original stays. -/
example : runBoxes [.copy 0, .translate 1 2 3, .halign 1 0 true true] [Box.mk 2 3 0 1 1 1]
    = some [Box.mk 2 3 0 1 1 1, Box.mk 2 3 2 4 1 1] := by
  decide +kernel

end Simphox
