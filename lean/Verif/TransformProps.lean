import Verif.Transform
import Mathlib.Tactic.Linarith
import Mathlib.Tactic.Ring
import Mathlib.Tactic.FieldSimp
import Mathlib.Tactic.NormNum
import Mathlib.Tactic.Positivity
import Mathlib.Tactic.FinCases
import Mathlib.Algebra.BigOperators.Field
import Mathlib.Algebra.Order.BigOperators.Group.Finset

/-!
# C71-C74: symmetrisation and smoothing of design parameters
-/

namespace Simphox

/-! ### Specification: what the symmetries mean, entry by entry -/

/-- Mirror symmetry along axis 0. -/
def RowSym {m n : ℕ} (x : Arr m n) : Prop := ∀ i j, x i.rev j = x i j
/-- Mirror symmetry along axis 1. -/
def ColSym {m n : ℕ} (x : Arr m n) : Prop := ∀ i j, x i j.rev = x i j
/-- Symmetry about the main diagonal. -/
def DiagSym {n : ℕ} (x : Arr n n) : Prop := ∀ i j, x j i = x i j
/-- Symmetry about the anti-diagonal. -/
def AntiSym {n : ℕ} (x : Arr n n) : Prop := ∀ i j, x j.rev i.rev = x i j

/-- The array has every symmetry requested by the flags. -/
def HasRequested {n : ℕ} (f : SymFlags) (x : Arr n n) : Prop :=
  (f.orthoX = true → RowSym x) ∧ (f.orthoY = true → ColSym x) ∧
  (f.diagP = true → DiagSym x) ∧ (f.diagN = true → AntiSym x)

/-- Exactly one flag is set. -/
def onlyX (avg : Bool) : SymFlags := ⟨true, false, false, false, avg⟩
def onlyY (avg : Bool) : SymFlags := ⟨false, true, false, false, avg⟩
def onlyP (avg : Bool) : SymFlags := ⟨false, false, true, false, avg⟩
def onlyN (avg : Bool) : SymFlags := ⟨false, false, false, true, avg⟩

/-- Sum of all entries. -/
noncomputable def total {m n : ℕ} (x : Arr m n) : ℝ := ∑ i, ∑ j, x i j

theorem total_flipRows {m n : ℕ} (x : Arr m n) : total (flipRows x) = total x := by
  unfold total flipRows
  exact Fintype.sum_equiv Fin.revPerm _ _ (fun i => by simp)

theorem total_flipCols {m n : ℕ} (x : Arr m n) : total (flipCols x) = total x := by
  unfold total flipCols
  exact Finset.sum_congr rfl fun i _ => Fintype.sum_equiv Fin.revPerm _ _ (fun j => by simp)

theorem total_transp {m n : ℕ} (x : Arr m n) : total (transp x) = total x := by
  unfold total transp; exact Finset.sum_comm

theorem total_avg2 {m n : ℕ} (x y : Arr m n) (h : total y = total x) : total (avg2 x y) = total x := by
  unfold total avg2 at *
  simp only [← Finset.sum_div, Finset.sum_add_distrib]
  rw [h]; ring

theorem avg2_self {m n : ℕ} (x y : Arr m n) (h : ∀ i j, y i j = x i j) : avg2 x y = x := by
  funext i j; simp [avg2, h]

/-- C71: for the averaged orthogonal symmetries on any `m x n` array and the (always averaged)
diagonal symmetries on any square array: the output has the symmetry, arrays that have it are
unchanged, the operation is idempotent, and the sum (hence the mean) is preserved. -/
theorem C71_averaged_symmetry :
    (∀ (m n : ℕ) (x : Arr m n),
      RowSym (orthoStage (onlyX true) x) ∧ (RowSym x → orthoStage (onlyX true) x = x) ∧
      orthoStage (onlyX true) (orthoStage (onlyX true) x) = orthoStage (onlyX true) x ∧
      total (orthoStage (onlyX true) x) = total x ∧
      ColSym (orthoStage (onlyY true) x) ∧ (ColSym x → orthoStage (onlyY true) x = x) ∧
      orthoStage (onlyY true) (orthoStage (onlyY true) x) = orthoStage (onlyY true) x ∧
      total (orthoStage (onlyY true) x) = total x) ∧
    (∀ (n : ℕ) (avg : Bool) (x : Arr n n),
      DiagSym (symmetryFn (onlyP avg) x) ∧ (DiagSym x → symmetryFn (onlyP avg) x = x) ∧
      symmetryFn (onlyP avg) (symmetryFn (onlyP avg) x) = symmetryFn (onlyP avg) x ∧
      total (symmetryFn (onlyP avg) x) = total x ∧
      AntiSym (symmetryFn (onlyN avg) x) ∧ (AntiSym x → symmetryFn (onlyN avg) x = x) ∧
      symmetryFn (onlyN avg) (symmetryFn (onlyN avg) x) = symmetryFn (onlyN avg) x ∧
      total (symmetryFn (onlyN avg) x) = total x) := by
  constructor
  · intro m n x
    have ex : ∀ y : Arr m n, orthoStage (onlyX true) y = avg2 y (flipRows y) := fun y => by
      simp [orthoStage, onlyX]
    have ey : ∀ y : Arr m n, orthoStage (onlyY true) y = avg2 y (flipCols y) := fun y => by
      simp [orthoStage, onlyY]
    have fx : ∀ y : Arr m n, RowSym y → orthoStage (onlyX true) y = y := fun y hy => by
      rw [ex]; exact avg2_self _ _ hy
    have fy : ∀ y : Arr m n, ColSym y → orthoStage (onlyY true) y = y := fun y hy => by
      rw [ey]; exact avg2_self _ _ hy
    have sx : RowSym (orthoStage (onlyX true) x) := by
      rw [ex]; intro i j; simp [avg2, flipRows, add_comm]
    have sy : ColSym (orthoStage (onlyY true) x) := by
      rw [ey]; intro i j; simp [avg2, flipCols, add_comm]
    refine ⟨sx, fx x, fx _ sx, ?_, sy, fy x, fy _ sy, ?_⟩
    · rw [ex]; exact total_avg2 _ _ (total_flipRows x)
    · rw [ey]; exact total_avg2 _ _ (total_flipCols x)
  · intro n avg x
    have ex : ∀ y : Arr n n, symmetryFn (onlyP avg) y = avg2 y (transp y) := fun y => by
      simp [symmetryFn, diagStage, orthoStage, onlyP]
    have ey : ∀ y : Arr n n, symmetryFn (onlyN avg) y = avg2 y (transp (flipRows (flipCols y))) :=
      fun y => by simp [symmetryFn, diagStage, orthoStage, onlyN]
    have fx : ∀ y : Arr n n, DiagSym y → symmetryFn (onlyP avg) y = y := fun y hy => by
      rw [ex]; exact avg2_self _ _ hy
    have fy : ∀ y : Arr n n, AntiSym y → symmetryFn (onlyN avg) y = y := fun y hy => by
      rw [ey]; exact avg2_self _ _ hy
    have sx : DiagSym (symmetryFn (onlyP avg) x) := by
      rw [ex]; intro i j; simp [avg2, transp, add_comm]
    have sy : AntiSym (symmetryFn (onlyN avg) x) := by
      rw [ey]; intro i j; simp [avg2, transp, flipRows, flipCols, add_comm]
    refine ⟨sx, fx x, fx _ sx, ?_, sy, fy x, fy _ sy, ?_⟩
    · rw [ex]; exact total_avg2 _ _ (total_transp x)
    · rw [ey]; refine total_avg2 _ _ ?_
      rw [total_transp, total_flipRows, total_flipCols]

/-! ### Copied symmetry -/

/-- Entry-wise description of `copyRows`: the second half is read from the mirrored first half. -/
theorem copyRows_apply {m n : ℕ} (x : Arr m n) (i : Fin m) (j : Fin n) :
    copyRows x i j = if m ≤ i.1 + (m / 2 + 1) then x i.rev j else x i j := by
  unfold copyRows
  have hi := i.2
  by_cases h : m ≤ i.1 + (m / 2 + 1)
  · rw [if_pos h, dif_pos (by omega)]
    congr 1
    apply Fin.ext
    simp only [Fin.val_rev]
    omega
  · rw [if_neg h, dif_neg (by omega)]

theorem copyRows_odd {m n : ℕ} (hm : Odd m) (x : Arr m n) : RowSym (copyRows x) := by
  intro i j
  obtain ⟨k, rfl⟩ := hm
  have hi := i.2
  rw [copyRows_apply, copyRows_apply, Fin.rev_rev]
  have hr : i.rev.1 = 2 * k - i.1 := by simp only [Fin.val_rev]; omega
  rcases lt_trichotomy i.1 k with h | h | h
  · rw [if_pos (by omega), if_neg (by omega)]
  · have : i.rev = i := by apply Fin.ext; omega
    rw [this]
  · rw [if_neg (by omega), if_pos (by omega)]

theorem copyCols_odd {m n : ℕ} (hn : Odd n) (x : Arr m n) : ColSym (copyCols x) :=
  fun i j => copyRows_odd hn (transp x) j i

/-- C72 (partial): for an odd size along the mirrored axis the copied symmetry holds, and the first
half of the array (including the middle line) is kept. Missing: even sizes, where the claim is false
(see `C72_even_counterexample` and the exact condition `C72_even_iff`). -/
theorem C72_copied_symmetry_partial (m n : ℕ) (x : Arr m n) :
    (Odd m → RowSym (orthoStage (onlyX false) x) ∧
      ∀ i j, 2 * i.1 < m → orthoStage (onlyX false) x i j = x i j) ∧
    (Odd n → ColSym (orthoStage (onlyY false) x) ∧
      ∀ i j, 2 * j.1 < n → orthoStage (onlyY false) x i j = x i j) := by
  have key : ∀ (m n : ℕ) (x : Arr m n), Odd m → ∀ i j, 2 * i.1 < m → copyRows x i j = x i j := by
    rintro m n x ⟨k, rfl⟩ i j h
    rw [copyRows_apply]
    split_ifs with h2
    · have : i.rev = i := by apply Fin.ext; simp only [Fin.val_rev]; omega
      rw [this]
    · rfl
  refine ⟨fun h => ?_, fun h => ?_⟩
  · simp only [orthoStage, onlyX]
    exact ⟨copyRows_odd h x, key m n x h⟩
  · simp only [orthoStage, onlyY]
    exact ⟨copyCols_odd h x, fun i j hj => key n m (transp x) h j i hj⟩

/-- For even sizes the copied array is symmetric exactly when the two middle lines of the input
already agree (the code swaps them instead of copying one onto the other). -/
theorem C72_even_iff_partial (k n : ℕ) (x : Arr (2 * (k + 1)) n) :
    RowSym (orthoStage (onlyX false) x) ↔
      ∀ j, x ⟨k, by omega⟩ j = x ⟨k + 1, by omega⟩ j := by
  have e : orthoStage (onlyX false) x = copyRows x := by simp [orthoStage, onlyX]
  rw [e]
  constructor
  · intro h j
    have := h ⟨k, by omega⟩ j
    rw [copyRows_apply, copyRows_apply, Fin.rev_rev,
      if_pos (by simp only [Fin.val_rev]; omega), if_pos (by simp only; omega)] at this
    rw [this]
    congr 1; apply Fin.ext; simp only [Fin.val_rev]; omega
  · intro h i j
    have hi := i.2
    rw [copyRows_apply, copyRows_apply, Fin.rev_rev]
    have hr : i.rev.1 = 2 * k + 1 - i.1 := by simp only [Fin.val_rev]; omega
    have hx : ∀ a b : Fin (2 * (k + 1)), a.1 = k → b.1 = k + 1 → x a j = x b j := by
      intro a b ha hb
      have := h j
      rwa [show (⟨k, by omega⟩ : Fin (2 * (k + 1))) = a from Fin.ext ha.symm,
        show (⟨k + 1, by omega⟩ : Fin (2 * (k + 1))) = b from Fin.ext hb.symm] at this
    by_cases h1 : i.1 < k
    · rw [if_pos (by omega), if_neg (by omega)]
    · by_cases h2 : i.1 = k
      · rw [if_pos (by omega), if_pos (by omega)]
        exact hx i i.rev h2 (by omega)
      · by_cases h3 : i.1 = k + 1
        · rw [if_pos (by omega), if_pos (by omega)]
          exact (hx i.rev i (by omega) h3).symm
        · rw [if_neg (by omega), if_pos (by omega)]

/-- C72 is false for even sizes: mirroring the column `(0, 1)` returns `(1, 0)`. -/
theorem C72_even_counterexample :
    ∃ x : Arr 2 1, ¬ RowSym (orthoStage (onlyX false) x) := by
  refine ⟨fun i _ => if i.1 = 0 then 0 else 1, fun h => ?_⟩
  have := (C72_even_iff_partial 0 1 _).1 h 0
  norm_num at this

/-! ### Combined symmetries -/

theorem ortho_requested {n : ℕ} (f : SymFlags) (hf : f.avg = true ∨ Odd n) (x : Arr n n) :
    (f.orthoX = true → RowSym (orthoStage f x)) ∧ (f.orthoY = true → ColSym (orthoStage f x)) := by
  obtain ⟨ox, oy, dp, dn, avg⟩ := f
  cases ox <;> cases oy <;> cases avg <;> simp [orthoStage] at hf ⊢
  · exact copyCols_odd hf x
  · intro i j; simp [avg2, flipCols, add_comm]
  · exact copyRows_odd hf x
  · intro i j; simp [avg2, flipRows, add_comm]
  · refine ⟨copyRows_odd hf _, fun i j => ?_⟩
    rw [copyRows_apply, copyRows_apply]
    split_ifs <;> exact copyCols_odd hf x _ _
  · refine ⟨fun i j => ?_, fun i j => ?_⟩
    · simp [avg2, flipRows, add_comm]
    · simp [avg2, flipRows, flipCols, add_comm]

theorem diag_requested {n : ℕ} (f : SymFlags) (z : Arr n n)
    (hx : f.orthoX = true → RowSym z) (hy : f.orthoY = true → ColSym z)
    (h : f.orthoX = f.orthoY ∨ f.diagP = f.diagN) : HasRequested f (diagStage f z) := by
  obtain ⟨ox, oy, dp, dn, avg⟩ := f
  cases ox <;> cases oy <;> cases dp <;> cases dn <;>
    simp [HasRequested, diagStage, avg2, transp, flipRows, flipCols, RowSym, ColSym, DiagSym, AntiSym]
      at h hx hy ⊢
  all_goals try (refine ⟨?_, ?_⟩)
  all_goals try (refine ⟨?_, ?_⟩)
  all_goals intros
  all_goals try (refine ⟨?_, ?_⟩)
  all_goals intros
  all_goals try trivial
  all_goals try simp only [hx, hy]
  all_goals try ring

/-- C73 (partial): with averaging (any size) or copying (odd size), the result has every requested
symmetry, for all combinations of flags except those that request exactly one of `ortho_x`,
`ortho_y` together with exactly one of `diag_p`, `diag_n`. Missing: those four combinations, where
the claim is false (`C73_mixed_counterexample`), and copying with even sizes (see C72). -/
theorem C73_combined_symmetry_partial (n : ℕ) (f : SymFlags) (hf : f.avg = true ∨ Odd n)
    (h : f.orthoX = f.orthoY ∨ f.diagP = f.diagN) (x : Arr n n) :
    HasRequested f (symmetryFn f x) := by
  obtain ⟨hx, hy⟩ := ortho_requested f hf x
  exact diag_requested f _ hx hy h

example : ∃ (f : SymFlags) (n : ℕ), (f.avg = true ∨ Odd n) ∧
    (f.orthoX = f.orthoY ∨ f.diagP = f.diagN) ∧ f.orthoX ∧ f.diagN :=
  ⟨⟨true, true, true, true, false⟩, 5, by decide⟩

/-- C73 is false for each of the four mixed requests, already for a `2 x 2` averaged array. -/
theorem C73_mixed_counterexample (f : SymFlags) (ha : f.avg = true)
    (h : f.orthoX ≠ f.orthoY ∧ f.diagP ≠ f.diagN) :
    ∃ x : Arr 2 2, ¬ HasRequested f (symmetryFn f x) := by
  obtain ⟨ox, oy, dp, dn, avg⟩ := f
  simp only at ha
  subst ha
  refine ⟨fun i j => if i.1 = 0 ∧ j.1 = 0 then 1 else 0, ?_⟩
  rintro ⟨h1, h2, -, -⟩
  cases ox <;> cases oy <;> cases dp <;> cases dn <;> simp at h h1 h2
  all_goals first
    | (have := h1 0 0
       norm_num [symmetryFn, orthoStage, diagStage, avg2, transp, flipRows, flipCols, Fin.rev] at this)
    | (have := h2 0 0
       norm_num [symmetryFn, orthoStage, diagStage, avg2, transp, flipRows, flipCols, Fin.rev] at this)
    | (have := h1 0 1
       norm_num [symmetryFn, orthoStage, diagStage, avg2, transp, flipRows, flipCols, Fin.rev] at this)
    | (have := h2 0 1
       norm_num [symmetryFn, orthoStage, diagStage, avg2, transp, flipRows, flipCols, Fin.rev] at this)
    | (have := h2 1 0
       norm_num [symmetryFn, orthoStage, diagStage, avg2, transp, flipRows, flipCols, Fin.rev] at this)

/-! ### Smoothing -/

theorem diskKernel_nonneg (r : ℕ) (a b) : 0 ≤ diskKernel r a b := by
  unfold diskKernel; split_ifs <;> norm_num

theorem diskKernel_sum_pos (r : ℕ) : 0 < ∑ a, ∑ b, diskKernel r a b := by
  have h0 : diskKernel r ⟨r, by omega⟩ ⟨r, by omega⟩ = 1 := by
    simp [diskKernel]
  have h1 : diskKernel r ⟨r, by omega⟩ ⟨r, by omega⟩ ≤ ∑ b, diskKernel r ⟨r, by omega⟩ b :=
    Finset.single_le_sum (f := fun b => diskKernel r ⟨r, by omega⟩ b)
      (fun b _ => diskKernel_nonneg r _ b) (Finset.mem_univ _)
  have h2 : ∑ b, diskKernel r ⟨r, by omega⟩ b ≤ ∑ a, ∑ b, diskKernel r a b :=
    Finset.single_le_sum (f := fun a => ∑ b, diskKernel r a b)
      (fun a _ => Finset.sum_nonneg fun b _ => diskKernel_nonneg r a b) (Finset.mem_univ _)
  linarith

theorem smoothKernel_nonneg (r : ℕ) (a b) : 0 ≤ smoothKernel r a b :=
  div_nonneg (diskKernel_nonneg r a b) (diskKernel_sum_pos r).le

theorem smoothKernel_sum (r : ℕ) : ∑ a, ∑ b, smoothKernel r a b = 1 := by
  unfold smoothKernel
  simp only [← Finset.sum_div]
  exact div_self (diskKernel_sum_pos r).ne'

theorem convSame_mono (r : ℕ) {m n : ℕ} (x y : Arr m n) (h : ∀ i j, x i j ≤ y i j) (i j) :
    convSame r x i j ≤ convSame r y i j := by
  refine Finset.sum_le_sum fun a _ => Finset.sum_le_sum fun b _ => ?_
  refine mul_le_mul_of_nonneg_left ?_ (smoothKernel_nonneg r a b)
  unfold readZero; split_ifs
  · exact h _ _
  · exact le_rfl

theorem convSame_zero (r : ℕ) {m n : ℕ} (i : Fin m) (j : Fin n) :
    convSame r (fun _ _ => 0 : Arr m n) i j = 0 := by
  simp [convSame, readZero]

theorem convSame_one_le (r : ℕ) {m n : ℕ} (i : Fin m) (j : Fin n) :
    convSame r (fun _ _ => 1 : Arr m n) i j ≤ 1 := by
  refine le_trans ?_ (smoothKernel_sum r).le
  refine Finset.sum_le_sum fun a _ => Finset.sum_le_sum fun b _ => ?_
  have : readZero (fun _ _ => 1 : Arr m n) ((i.1 : ℤ) + r - a.1) ((j.1 : ℤ) + r - b.1) ≤ 1 := by
    unfold readZero; split_ifs <;> norm_num
  nlinarith [smoothKernel_nonneg r a b]

theorem tanh_strictMono : StrictMono Real.tanh := by
  intro a b h
  rw [Real.tanh_eq_sinh_div_cosh, Real.tanh_eq_sinh_div_cosh,
    div_lt_div_iff₀ (Real.cosh_pos a) (Real.cosh_pos b)]
  have : Real.sinh (b - a) = Real.sinh b * Real.cosh a - Real.cosh b * Real.sinh a := Real.sinh_sub b a
  have h2 : 0 < Real.sinh (b - a) := Real.sinh_pos_iff.2 (by linarith)
  nlinarith

theorem project_den_pos {beta eta : ℝ} (hb : 0 < beta) :
    0 < Real.tanh (beta * eta) + Real.tanh (beta * (1 - eta)) := by
  have : Real.tanh (-(beta * eta)) < Real.tanh (beta * (1 - eta)) :=
    tanh_strictMono (by nlinarith)
  rw [Real.tanh_neg] at this; linarith

theorem project_mono {beta eta : ℝ} (hb : 0 < beta) : StrictMono (project beta eta) := by
  intro a b h
  unfold project
  apply div_lt_div_of_pos_right _ (project_den_pos hb)
  have := tanh_strictMono (show beta * (a - eta) < beta * (b - eta) by nlinarith)
  linarith

theorem project_zero (beta eta : ℝ) : project beta eta 0 = 0 := by
  simp [project, Real.tanh_neg]

theorem project_one {beta eta : ℝ} (hb : 0 < beta) : project beta eta 1 = 1 :=
  div_self (project_den_pos hb).ne'

/-- C74: for every radius, every `beta > 0`, every `eta`, every array: densities in `[0,1]` are
mapped to `[0,1]`, the map is monotone, all-zero stays all-zero, and the projection is strictly
increasing with fixed points 0 and 1. An all-one array stays one at every pixel at least `radius` away from
the array edge. -/
theorem C74_smooth_valid (beta eta : ℝ) (hb : 0 < beta) (r m n : ℕ) (x y : Arr m n) :
    ((∀ i j, 0 ≤ x i j ∧ x i j ≤ 1) →
      ∀ i j, 0 ≤ smooth beta r eta x i j ∧ smooth beta r eta x i j ≤ 1) ∧
    ((∀ i j, x i j ≤ y i j) → ∀ i j, smooth beta r eta x i j ≤ smooth beta r eta y i j) ∧
    ((∀ i j, x i j = 0) → ∀ i j, smooth beta r eta x i j = 0) ∧
    (StrictMono (project beta eta) ∧ project beta eta 0 = 0 ∧ project beta eta 1 = 1) ∧
    ((∀ i j, x i j = 1) → ∀ (i : Fin m) (j : Fin n), r ≤ i.1 → i.1 + r < m → r ≤ j.1 → j.1 + r < n →
      smooth beta r eta x i j = 1) := by
  have mono := (project_mono (eta := eta) hb).monotone
  have hm : ∀ x y : Arr m n, (∀ i j, x i j ≤ y i j) →
      ∀ i j, smooth beta r eta x i j ≤ smooth beta r eta y i j :=
    fun x y h i j => mono (convSame_mono r x y h i j)
  have h0 : ∀ i j, smooth beta r eta (fun _ _ => 0 : Arr m n) i j = 0 := fun i j => by
    simp only [smooth, convSame_zero, project_zero]
  refine ⟨fun h i j => ⟨?_, ?_⟩, hm x y, fun h => ?_, ⟨project_mono hb, project_zero _ _, project_one hb⟩,
    fun h i j h1 h2 h3 h4 => ?_⟩
  · rw [← h0 i j]; exact hm _ _ (fun i j => (h i j).1) i j
  · refine (hm x (fun _ _ => 1) (fun i j => (h i j).2) i j).trans ?_
    have := mono (convSame_one_le r i j)
    rwa [project_one hb] at this
  · have : x = fun _ _ => 0 := by funext i j; exact h i j
    rw [this]; exact h0
  · have hx : x = fun _ _ => 1 := by funext i j; exact h i j
    have : convSame r x i j = 1 := by
      rw [hx]
      refine Eq.trans ?_ (smoothKernel_sum r)
      refine Finset.sum_congr rfl fun a _ => Finset.sum_congr rfl fun b _ => ?_
      have ha := a.2
      have hb := b.2
      rw [readZero, dif_pos (by omega), mul_one]
    simp only [smooth, this, project_one hb]

/-- The zero padding of the convolution darkens the array border: with radius 1 (kernel `3x3`,
all entries `1/9`) an all-one `3 x 3` array is smoothed to a value strictly below one in the corner. -/
theorem C74_border_darkens (beta eta : ℝ) (hb : 0 < beta) :
    smooth beta 1 eta (fun _ _ => 1 : Arr 3 3) 0 0 < 1 := by
  refine lt_of_lt_of_eq ?_ (project_one (eta := eta) hb)
  refine project_mono hb ?_
  have h1 : ∀ a b, diskKernel 1 a b = 1 := by
    intro a b; fin_cases a <;> fin_cases b <;> norm_num [diskKernel]
  have h9 : ∀ a b, smoothKernel 1 a b = 1 / 9 := by
    intro a b; simp only [smoothKernel, h1]; norm_num
  simp only [convSame, h9]
  norm_num [readZero, Fin.sum_univ_succ]

end Simphox
