import Mathlib.Analysis.Complex.Norm
import Verif.YeeLemmas
import Verif.Primitives

/-!
# Lemmas on COO assembly and on the sparsity pattern of `db diag(t) df`
-/

namespace Simphox

open Matrix Complex

set_option linter.unusedSectionVars false

section coo
variable {ι : Type} [Fintype ι] [DecidableEq ι]

theorem allPairs_nodup : (allPairs ι).Nodup := Finset.nodup_toList _
theorem mem_allPairs (p : ι × ι) : p ∈ allPairs ι := by simp [allPairs]

theorem cooIndices_nodup (M : Matrix ι ι ℂ) : (cooIndices M).Nodup := allPairs_nodup.filter _

theorem mem_cooIndices (M : Matrix ι ι ℂ) (p : ι × ι) : p ∈ cooIndices M ↔ M p.1 p.2 ≠ 0 := by
  simp [cooIndices, mem_allPairs]

theorem cooIndices_congr {M N : Matrix ι ι ℂ} (h : ∀ i j, M i j ≠ 0 ↔ N i j ≠ 0) : cooIndices M = cooIndices N := by
  unfold cooIndices
  apply List.filter_congr
  intro p _
  simp only [decide_eq_decide]
  exact h p.1 p.2

omit [Fintype ι] in
theorem list_sum_single {l : List (ι × ι)} (hl : l.Nodup) (f : ι × ι → ℂ) (q : ι × ι) :
    (l.map fun p => if p = q then f p else 0).sum = if q ∈ l then f q else 0 := by
  induction l with
  | nil => simp
  | cons a l ih =>
    rw [List.nodup_cons] at hl
    rw [List.map_cons, List.sum_cons, ih hl.2]
    by_cases h : a = q
    · subst h
      simp [hl.1]
    · have h' : q ≠ a := fun h'' => h h''.symm
      rw [if_neg h, zero_add]
      simp [h']

omit [Fintype ι] in
/-- Placing the values `f` at distinct positions. -/
theorem cooPlace_map {l : List (ι × ι)} (hl : l.Nodup) (f : ι × ι → ℂ) (i j : ι) :
    cooPlace (l.map f) l i j = if (i, j) ∈ l then f (i, j) else 0 := by
  unfold cooPlace
  have : l.zip (l.map f) = l.map fun p => (p, f p) := by
    induction l with
    | nil => rfl
    | cons a l ih => simp [ih (List.nodup_cons.1 hl).2]
  rw [this, List.map_map, ← list_sum_single hl f (i, j)]
  rfl

theorem cooPlace_self (M : Matrix ι ι ℂ) : cooPlace (cooData M) (cooIndices M) = M := by
  ext i j
  unfold cooData
  rw [cooPlace_map (cooIndices_nodup M)]
  split_ifs with h
  · rfl
  · rw [mem_cooIndices, not_not] at h
    exact h.symm

omit [Fintype ι] in
theorem cooPlace_append (d d' : List ℂ) (l l' : List (ι × ι)) (h : d.length = l.length) :
    cooPlace (d ++ d') (l ++ l') = cooPlace d l + cooPlace d' l' := by
  ext i j
  simp only [cooPlace, Matrix.add_apply]
  rw [List.zip_append h.symm, List.map_append, List.sum_append]

theorem diagIdx_nodup : (diagIdx ι).Nodup :=
  List.Nodup.map (fun _ _ h => (Prod.ext_iff.1 h).1) (Finset.nodup_toList _)

theorem cooPlace_diag (f : ι × ι → ℂ) : cooPlace ((diagIdx ι).map f) (diagIdx ι) = Matrix.diagonal fun i => f (i, i) := by
  ext i j
  rw [cooPlace_map diagIdx_nodup]
  by_cases h : i = j
  · subst h
    rw [Matrix.diagonal_apply_eq, if_pos]
    simp [diagIdx]
  · rw [Matrix.diagonal_apply_ne _ h, if_neg]
    simp only [diagIdx, List.mem_map, Finset.mem_toList, Finset.mem_univ, true_and, Prod.mk.injEq, not_exists, not_and]
    rintro x rfl
    exact h

end coo

/-! ### Neighbours on a periodic axis -/

theorem fin_val_sub_one {n : ℕ} [NeZero n] (i : Fin n) :
    ((i - 1 : Fin n) : ℕ) = if (i : ℕ) = 0 then n - 1 else (i : ℕ) - 1 := by
  have h := fin_val_add_one (i - 1)
  rw [sub_add_cancel] at h
  have h1 := (i - 1).isLt
  have h2 := i.isLt
  split_ifs at h with h3
  · rw [if_pos h]; omega
  · rw [if_neg (by omega)]; omega

/-- A sum of three neighbour entries vanishes only away from the neighbours. -/
theorem tri_ne_zero {n : ℕ} [NeZero n] (hn : 2 ≤ n) (i j : Fin n) (x y z : ℂ) (hx : x ≠ 0) (hy : y ≠ 0) (hz : z ≠ 0)
    (hxz : n = 2 → x + z ≠ 0) :
    ((if j = i + 1 then x else 0) + (if j = i then y else 0) + (if j = i - 1 then z else 0) ≠ 0)
      ↔ (j = i + 1 ∨ j = i ∨ j = i - 1) := by
  have hp := fin_val_add_one i
  have hm := fin_val_sub_one i
  have hi := i.isLt
  have h1 : i + 1 ≠ i := by intro h; rw [Fin.ext_iff] at h; split_ifs at hp <;> omega
  have h2 : i - 1 ≠ i := by intro h; rw [Fin.ext_iff] at h; split_ifs at hm <;> omega
  by_cases h3 : n = 2
  · have h4 : i + 1 = i - 1 := by apply Fin.ext; split_ifs at hp hm <;> omega
    by_cases ha : j = i + 1
    · subst ha
      rw [if_pos rfl, if_neg h1, if_pos h4, add_zero]
      simp [hxz h3]
    · by_cases hb : j = i
      · subst hb
        rw [if_neg ha, if_pos rfl, if_neg (fun h => h2 h.symm)]
        simpa using hy
      · rw [if_neg ha, if_neg hb, if_neg (fun h => ha (h.trans h4.symm))]
        simp only [add_zero, ne_eq, not_true_eq_false, false_iff, not_or]
        exact ⟨ha, hb, fun h => ha (h.trans h4.symm)⟩
  · have h4 : i + 1 ≠ i - 1 := by intro h; rw [Fin.ext_iff] at h; split_ifs at hp hm <;> omega
    by_cases ha : j = i + 1
    · subst ha
      rw [if_pos rfl, if_neg h1, if_neg h4]
      simpa using hx
    · by_cases hb : j = i
      · subst hb
        rw [if_neg ha, if_pos rfl, if_neg (fun h => h2 h.symm)]
        simpa using hy
      · by_cases hc : j = i - 1
        · subst hc
          rw [if_neg ha, if_neg hb, if_pos rfl]
          simpa using hz
        · rw [if_neg ha, if_neg hb, if_neg hc]
          simp [ha, hb, hc]

variable {s : Fin 3 → ℕ}

/-- Entries of `A diag(t) B` for two operators along the same axis. -/
theorem axisOp_sandwich (a : Fin 3) (A B : Matrix (Fin (s a)) (Fin (s a)) ℂ) (t : GIdx s → ℂ) (i j : GIdx s) :
    (axisOp a A * Matrix.diagonal t * axisOp a B) i j
      = if ∀ b, b ≠ a → i b = j b then ∑ k, A (i a) k * (t (Function.update i a k) * B k (j a)) else 0 := by
  rw [Matrix.mul_assoc, Matrix.mul_apply]
  have h1 : ∀ m, axisOp a A i m * (Matrix.diagonal t * axisOp a B) m j
      = ∑ k, if m = Function.update i a k then A (i a) k * (t m * axisOp a B m j) else 0 := by
    intro m
    rw [Matrix.diagonal_mul, axisOp_apply', Finset.sum_mul]
    refine Finset.sum_congr rfl fun k _ => ?_
    split_ifs <;> simp
  simp only [h1]
  rw [Finset.sum_comm]
  have h2 : ∀ k, (∑ m, if m = Function.update i a k then A (i a) k * (t m * axisOp a B m j) else 0)
      = A (i a) k * (t (Function.update i a k) * axisOp a B (Function.update i a k) j) := by
    intro k
    rw [Finset.sum_ite_eq' Finset.univ (Function.update i a k)]
    simp
  simp only [h2]
  have h3 : ∀ k, axisOp a B (Function.update i a k) j = if ∀ b, b ≠ a → i b = j b then B k (j a) else 0 := by
    intro k
    rw [axisOp_apply, Function.update_self]
    have : (∀ b, b ≠ a → Function.update i a k b = j b) ↔ (∀ b, b ≠ a → i b = j b) := by
      constructor
      · intro h b hb; have := h b hb; rwa [Function.update_of_ne hb] at this
      · intro h b hb; rw [Function.update_of_ne hb]; exact h b hb
    simp only [this]
  simp only [h3]
  split_ifs <;> simp

variable [∀ a, NeZero (s a)]

theorem wrapFac_norm {n : ℕ} (b : ℂ) (hb : ‖b‖ = 1) (i : Fin n) :
    wrapFac n b i * (starRingEnd ℂ) (wrapFac n b i) = 1 := by
  unfold wrapFac
  split_ifs
  · simp
  · rw [Complex.mul_conj, Complex.normSq_eq_norm_sq, hb]; norm_num
  · simp

/-- Entries of the one-axis `db diag(tau) df`. -/
theorem btf_apply (g : YeeOps s) (a : Fin 3) (hb : ‖g.bloch a‖ = 1) (tau : Fin (s a) → ℂ) (i j : Fin (s a)) :
    ∑ k, g.d1 true a i k * (tau k * g.d1 false a k j)
      = 1 / g.dx true a i *
        ((if j = i + 1 then tau i / g.dx false a i * wrapFac (s a) (g.bloch a) i else 0)
          + (if j = i then -(tau i / g.dx false a i + tau (i - 1) / g.dx false a (i - 1)) else 0)
          + (if j = i - 1 then (starRingEnd ℂ) (wrapFac (s a) (g.bloch a) (i - 1)) * (tau (i - 1) / g.dx false a (i - 1)) else 0)) := by
  have hF : ∀ k, g.d1 false a k j = 1 / g.dx false a k *
      ((if j = k + 1 then wrapFac (s a) (g.bloch a) k else 0) - (if j = k then 1 else 0)) := by
    intro k
    unfold YeeOps.d1
    rw [Matrix.diagonal_mul, if_neg Bool.false_ne_true, fwd1_apply]
  have hB : ∀ k, g.d1 true a i k = 1 / g.dx true a i * bwd1 (s a) (g.bloch a) i k := by
    intro k
    unfold YeeOps.d1
    rw [Matrix.diagonal_mul, if_pos rfl]
  simp only [hB, mul_assoc, ← Finset.mul_sum]
  rw [bwd1_mul]
  have hu := wrapFac_norm (g.bloch a) hb (i - 1)
  rw [hF, hF, sub_add_cancel]
  congr 1
  split_ifs <;> first | ring1 | linear_combination (-(tau (i - 1) / g.dx false a (i - 1))) * hu

/-- Entries of the one-axis `df db`. -/
theorem fb_apply (g : YeeOps s) (a : Fin 3) (hb : ‖g.bloch a‖ = 1) (i j : Fin (s a)) :
    ∑ k, g.d1 false a i k * g.d1 true a k j
      = 1 / g.dx false a i *
        ((if j = i + 1 then wrapFac (s a) (g.bloch a) i * (1 / g.dx true a (i + 1)) else 0)
          + (if j = i then -(1 / g.dx true a (i + 1) + 1 / g.dx true a i) else 0)
          + (if j = i - 1 then 1 / g.dx true a i * (starRingEnd ℂ) (wrapFac (s a) (g.bloch a) (i - 1)) else 0)) := by
  have hB : ∀ k, g.d1 true a k j = 1 / g.dx true a k *
      ((if j = k then 1 else 0) - (if j = k - 1 then (starRingEnd ℂ) (wrapFac (s a) (g.bloch a) j) else 0)) := by
    intro k
    unfold YeeOps.d1
    rw [Matrix.diagonal_mul, if_pos rfl, bwd1_apply]
    have h1 : (k = j) = (j = k) := propext eq_comm
    have h2 : (k = j + 1) = (j = k - 1) := by
      apply propext
      constructor
      · rintro rfl; exact (add_sub_cancel_right j 1).symm
      · rintro rfl; exact (sub_add_cancel k 1).symm
    simp only [h1, h2]
  have hF : ∀ k, g.d1 false a i k = 1 / g.dx false a i * fwd1 (s a) (g.bloch a) i k := by
    intro k
    unfold YeeOps.d1
    rw [Matrix.diagonal_mul, if_neg Bool.false_ne_true]
  simp only [hF, mul_assoc, ← Finset.mul_sum]
  rw [fwd1_mul]
  have hu := wrapFac_norm (g.bloch a) hb i
  rw [hB, hB, add_sub_cancel_right]
  congr 1
  by_cases h1 : j = i
  · subst h1
    simp only [if_true]
    by_cases h3 : j - 1 = j
    · simp only [h3, if_true]
      split_ifs <;> first | ring1 | linear_combination (-(1 / g.dx true a (j + 1))) * hu
    · have h4 : ¬ j = j - 1 := fun h => h3 h.symm
      simp only [if_neg h4]
      split_ifs <;> first | ring1 | linear_combination (-(1 / g.dx true a (j + 1))) * hu
  · by_cases h2 : j = i - 1
    · subst h2
      simp only [if_neg h1]
      split_ifs <;> ring
    · simp only [if_neg h1, if_neg h2]
      split_ifs <;> ring

end Simphox
