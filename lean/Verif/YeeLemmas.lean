import Mathlib.Algebra.BigOperators.Ring.Finset
import Mathlib.LinearAlgebra.Matrix.DotProduct
import Mathlib.Tactic.Ring
import Mathlib.Tactic.LinearCombination
import Mathlib.Tactic.FinCases
import Mathlib.Algebra.BigOperators.Fin
import Mathlib.Algebra.Group.Fin.Basic
import Verif.Yee

/-!
# Lemmas on Kronecker-structured operators and the single-axis differences
-/

namespace Simphox

open Matrix

variable {s : Fin 3 → ℕ}

theorem kron3_mul (m n : (a : Fin 3) → Matrix (Fin (s a)) (Fin (s a)) ℂ) :
    kron3 m * kron3 n = kron3 (fun a => m a * n a) := by
  ext i j
  simp only [kron3, Matrix.mul_apply]
  rw [Finset.prod_univ_sum, Fintype.piFinset_univ]
  exact Finset.sum_congr rfl fun k _ => (Finset.prod_mul_distrib).symm

/-- The operator acting with `A` along axis `a` and trivially along the others. -/
def axisOp (a : Fin 3) (A : Matrix (Fin (s a)) (Fin (s a)) ℂ) : Matrix (GIdx s) (GIdx s) ℂ :=
  kron3 (Function.update (fun _ => 1) a A)

theorem axisOp_apply (a : Fin 3) (A : Matrix (Fin (s a)) (Fin (s a)) ℂ) (i j : GIdx s) :
    axisOp a A i j = if ∀ b, b ≠ a → i b = j b then A (i a) (j a) else 0 := by
  unfold axisOp kron3
  rw [← Finset.mul_prod_erase Finset.univ _ (Finset.mem_univ a)]
  simp only [Function.update_self]
  rw [Finset.prod_congr rfl (g := fun x => if i x = j x then (1 : ℂ) else 0), Finset.prod_ite_zero]
  · simp
  · intro x hx
    rw [Function.update_of_ne (Finset.ne_of_mem_erase hx), Matrix.one_apply]

theorem axisOp_apply' (a : Fin 3) (A : Matrix (Fin (s a)) (Fin (s a)) ℂ) (i j : GIdx s) :
    axisOp a A i j = ∑ k, if j = Function.update i a k then A (i a) k else 0 := by
  rw [axisOp_apply]
  have key : ∀ k, j = Function.update i a k ↔ (k = j a ∧ ∀ b, b ≠ a → i b = j b) := by
    intro k
    constructor
    · rintro rfl
      refine ⟨by simp, fun b hb => by rw [Function.update_of_ne hb]⟩
    · rintro ⟨rfl, h⟩
      funext b
      by_cases hb : b = a
      · subst hb; simp
      · rw [Function.update_of_ne hb, h b hb]
  split_ifs with h
  · rw [Finset.sum_eq_single (j a)]
    · rw [if_pos ((key _).2 ⟨rfl, h⟩)]
    · intro k _ hk
      rw [if_neg]
      rw [key]
      tauto
    · simp
  · symm
    apply Finset.sum_eq_zero
    intro k _
    rw [if_neg]
    rw [key]
    tauto

theorem axisOp_mulVec (a : Fin 3) (A : Matrix (Fin (s a)) (Fin (s a)) ℂ) (f : GIdx s → ℂ) (i : GIdx s) :
    (axisOp a A *ᵥ f) i = ∑ k, A (i a) k * f (Function.update i a k) := by
  simp only [Matrix.mulVec, dotProduct, axisOp_apply', Finset.sum_mul]
  rw [Finset.sum_comm]
  refine Finset.sum_congr rfl fun k _ => ?_
  rw [Finset.sum_eq_single (Function.update i a k)]
  · simp
  · intro b _ hb; rw [if_neg hb, zero_mul]
  · simp

theorem axisOp_mul (a : Fin 3) (A B : Matrix (Fin (s a)) (Fin (s a)) ℂ) :
    axisOp a A * axisOp a B = axisOp a (A * B) := by
  unfold axisOp
  rw [kron3_mul]
  congr 1
  funext b
  by_cases hb : b = a
  · subst hb; simp
  · simp [Function.update_of_ne hb]

theorem axisOp_comm {a b : Fin 3} (hab : a ≠ b) (A : Matrix (Fin (s a)) (Fin (s a)) ℂ)
    (B : Matrix (Fin (s b)) (Fin (s b)) ℂ) : axisOp a A * axisOp b B = axisOp b B * axisOp a A := by
  unfold axisOp
  rw [kron3_mul, kron3_mul]
  congr 1
  funext c
  by_cases ha : c = a
  · subst ha; simp [Function.update_of_ne hab]
  · by_cases hb : c = b
    · subst hb; simp [Function.update_of_ne ha]
    · simp [Function.update_of_ne ha, Function.update_of_ne hb]

theorem axisOp_conjTranspose (a : Fin 3) (A : Matrix (Fin (s a)) (Fin (s a)) ℂ) :
    (axisOp a A)ᴴ = axisOp a Aᴴ := by
  ext i j
  rw [conjTranspose_apply, axisOp_apply, axisOp_apply]
  have : (∀ b, b ≠ a → j b = i b) ↔ (∀ b, b ≠ a → i b = j b) :=
    ⟨fun h b hb => (h b hb).symm, fun h b hb => (h b hb).symm⟩
  by_cases h : ∀ b, b ≠ a → i b = j b
  · rw [if_pos (this.2 h), if_pos h, conjTranspose_apply]
  · rw [if_neg (fun h' => h (this.1 h')), if_neg h, star_zero]

theorem axisOp_neg (a : Fin 3) (A : Matrix (Fin (s a)) (Fin (s a)) ℂ) : axisOp a (-A) = -axisOp a A := by
  ext i j
  rw [Matrix.neg_apply, axisOp_apply, axisOp_apply]
  split_ifs <;> simp

theorem axisOp_diagonal (a : Fin 3) (d : Fin (s a) → ℂ) :
    axisOp a (Matrix.diagonal d) = Matrix.diagonal (fun i : GIdx s => d (i a)) := by
  ext i j
  rw [axisOp_apply]
  by_cases h : i = j
  · subst h; simp
  · rw [diagonal_apply_ne _ h]
    split_ifs with h'
    · apply diagonal_apply_ne
      intro ha
      exact h (funext fun b => if hb : b = a then hb ▸ ha else h' b hb)
    · rfl

/-! ### Single-axis differences -/

/-- The factor multiplying the next sample in the forward difference: the Bloch factor on the last
cell, one elsewhere (and one on an axis with a single cell, where the difference vanishes). -/
def wrapFac (n : ℕ) (b : ℂ) (i : Fin n) : ℂ := if n ≤ 1 then 1 else if (i : ℕ) + 1 = n then b else 1

theorem wrapFac_one (n : ℕ) (i : Fin n) : wrapFac n 1 i = 1 := by unfold wrapFac; split_ifs <;> rfl

theorem fin_val_add_one {n : ℕ} [NeZero n] (i : Fin n) :
    ((i + 1 : Fin n) : ℕ) = if (i : ℕ) + 1 = n then 0 else (i : ℕ) + 1 := by
  rw [Fin.val_add]
  have hi := i.isLt
  have h1 : ((1 : Fin n) : ℕ) = 1 % n := rfl
  rw [h1, Nat.add_mod_mod]
  split_ifs with h
  · rw [h, Nat.mod_self]
  · exact Nat.mod_eq_of_lt (by omega)

theorem fwd1_apply {n : ℕ} [NeZero n] (b : ℂ) (i j : Fin n) :
    fwd1 n b i j = (if j = i + 1 then wrapFac n b i else 0) - (if j = i then 1 else 0) := by
  have hi := i.isLt
  have hj := j.isLt
  unfold fwd1 wrapFac
  by_cases hn : 1 < n
  · rw [if_pos hn, if_neg (not_le.2 hn)]
    simp only [spDiags, List.map_cons, List.map_nil, List.sum_cons, List.sum_nil, add_zero, Fin.ext_iff,
      fin_val_add_one]
    by_cases h1 : (i : ℕ) + 1 = n
    · rw [if_pos h1, if_pos h1]
      have e2 : ¬ ((j : ℤ) - (i : ℤ) = 1) := by omega
      have e3 : ((j : ℤ) - (i : ℤ) = -n + 1) ↔ ((j : ℕ) = 0) := by omega
      have e1 : ((j : ℤ) - (i : ℤ) = 0) ↔ ((j : ℕ) = i) := by omega
      simp only [e1, e3, if_neg e2]
      split_ifs <;> ring
    · rw [if_neg h1, if_neg h1]
      have e2 : ((j : ℤ) - (i : ℤ) = 1) ↔ ((j : ℕ) = i + 1) := by omega
      have e3 : ¬ ((j : ℤ) - (i : ℤ) = -n + 1) := by omega
      have e1 : ((j : ℤ) - (i : ℤ) = 0) ↔ ((j : ℕ) = i) := by omega
      simp only [e1, e2, if_neg e3]
      split_ifs <;> ring
  · have hn1 : n = 1 := by have := NeZero.pos n; omega
    subst hn1
    rw [if_neg hn, if_pos le_rfl, if_pos (Subsingleton.elim _ _), if_pos (Subsingleton.elim _ _)]
    simp

theorem bwd1_eq {n : ℕ} [NeZero n] (b : ℂ) : bwd1 n b = -(fwd1 n b)ᴴ := by
  unfold fwd1 bwd1
  split_ifs with hn
  · ext i j
    have hi := i.isLt
    have hj := j.isLt
    rw [neg_apply, conjTranspose_apply]
    unfold spDiags
    simp only [List.map_cons, List.map_nil, List.sum_cons, List.sum_nil, add_zero, star_add]
    have e1 : ((j : ℤ) - (i : ℤ) = 0) ↔ ((i : ℤ) - (j : ℤ) = 0) := by omega
    have e2 : ((j : ℤ) - (i : ℤ) = -1) ↔ ((i : ℤ) - (j : ℤ) = 1) := by omega
    have e3 : ((j : ℤ) - (i : ℤ) = (n : ℤ) - 1) ↔ ((i : ℤ) - (j : ℤ) = -n + 1) := by omega
    simp only [e1, e2, e3]
    split_ifs <;> simp <;> ring
  · simp

theorem bwd1_apply {n : ℕ} [NeZero n] (b : ℂ) (i j : Fin n) :
    bwd1 n b i j = (if i = j then 1 else 0) - (if i = j + 1 then (starRingEnd ℂ) (wrapFac n b j) else 0) := by
  rw [bwd1_eq, neg_apply, conjTranspose_apply, fwd1_apply]
  split_ifs <;> simp

theorem fwd1_mul {n : ℕ} [NeZero n] (b : ℂ) (i : Fin n) (v : Fin n → ℂ) :
    ∑ k, fwd1 n b i k * v k = wrapFac n b i * v (i + 1) - v i := by
  simp [fwd1_apply, sub_mul, Finset.sum_sub_distrib, ite_mul]

theorem bwd1_mul {n : ℕ} [NeZero n] (b : ℂ) (i : Fin n) (v : Fin n → ℂ) :
    ∑ k, bwd1 n b i k * v k = v i - (starRingEnd ℂ) (wrapFac n b (i - 1)) * v (i - 1) := by
  have h : ∀ k : Fin n, i = k + 1 ↔ k = i - 1 := fun k => by
    constructor
    · rintro rfl; exact (add_sub_cancel_right k 1).symm
    · rintro rfl; exact (sub_add_cancel i 1).symm
  simp [bwd1_apply, sub_mul, Finset.sum_sub_distrib, ite_mul, h]

/-! ### The grid derivatives -/

/-- The scaled single-axis difference. -/
noncomputable def YeeOps.d1 (g : YeeOps s) (back : Bool) (a : Fin 3) : Matrix (Fin (s a)) (Fin (s a)) ℂ :=
  Matrix.diagonal (fun i => 1 / g.dx back a i) *
    (if back then bwd1 (s a) (g.bloch a) else fwd1 (s a) (g.bloch a))

theorem YeeOps.deriv_eq (g : YeeOps s) (back : Bool) (a : Fin 3) :
    g.deriv back a = axisOp a (g.d1 back a) := by
  unfold YeeOps.d1
  rw [← axisOp_mul, axisOp_diagonal]
  rfl

theorem YeeOps.deriv_comm (g : YeeOps s) (p q : Bool) {a b : Fin 3} (hab : a ≠ b) :
    g.deriv p a * g.deriv q b = g.deriv q b * g.deriv p a := by
  rw [YeeOps.deriv_eq, YeeOps.deriv_eq, axisOp_comm hab]

variable [∀ a, NeZero (s a)]

theorem YeeOps.deriv_forward_mulVec (g : YeeOps s) (a : Fin 3) (f : SField s) (i : GIdx s) :
    (g.deriv false a *ᵥ f) i =
      (wrapFac (s a) (g.bloch a) (i a) * f (Function.update i a (i a + 1)) - f i) / g.dx false a (i a) := by
  rw [YeeOps.deriv_eq, axisOp_mulVec]
  simp only [YeeOps.d1, Matrix.diagonal_mul, mul_assoc, ← Finset.mul_sum]
  rw [if_neg (by decide), fwd1_mul _ _ (fun k => f (Function.update i a k)), Function.update_eq_self]
  ring

theorem YeeOps.deriv_backward_mulVec (g : YeeOps s) (a : Fin 3) (f : SField s) (i : GIdx s) :
    (g.deriv true a *ᵥ f) i =
      (f i - (starRingEnd ℂ) (wrapFac (s a) (g.bloch a) (i a - 1)) * f (Function.update i a (i a - 1)))
        / g.dx true a (i a) := by
  rw [YeeOps.deriv_eq, axisOp_mulVec]
  simp only [YeeOps.d1, Matrix.diagonal_mul, mul_assoc, ← Finset.mul_sum]
  rw [if_pos trivial, bwd1_mul _ _ (fun k => f (Function.update i a k)), Function.update_eq_self]
  ring

theorem YeeOps.diffFn_eq (g : YeeOps s) (hb : ∀ a, g.bloch a = 1) (ofH : Bool) (f : SField s) (a : Fin 3) :
    g.diffFn ofH f a = g.deriv ofH a *ᵥ f := by
  funext i
  cases ofH
  · rw [YeeOps.deriv_forward_mulVec, hb, wrapFac_one]
    simp [YeeOps.diffFn, rollBack]
  · rw [YeeOps.deriv_backward_mulVec, hb, wrapFac_one]
    simp [YeeOps.diffFn, rollFwd]

omit [∀ a, NeZero (s a)] in
/-- The action of the block matrix on a flattened vector field. -/
theorem d2curlOp_mulVec (d : Fin 3 → Matrix (GIdx s) (GIdx s) ℂ) (f : VField s) :
    d2curlOp d *ᵥ vflat f = vflat (curlFn (fun v a => d a *ᵥ v) f) := by
  funext p
  obtain ⟨c, i⟩ := p
  have : (d2curlOp d *ᵥ vflat f) (c, i) = ∑ c', (curlBlock d c c' *ᵥ f c') i := by
    simp only [Matrix.mulVec, dotProduct, d2curlOp, vflat, Fintype.sum_prod_type]
  rw [this, Fin.sum_univ_three]
  match c with
  | 0 =>
    change ((0 : Matrix (GIdx s) (GIdx s) ℂ) *ᵥ f 0) i + ((-d 2) *ᵥ f 1) i + (d 1 *ᵥ f 2) i
      = (d 1 *ᵥ f 2) i - (d 2 *ᵥ f 1) i
    rw [Matrix.zero_mulVec, Matrix.neg_mulVec, Pi.zero_apply, Pi.neg_apply]
    ring
  | 1 =>
    change (d 2 *ᵥ f 0) i + ((0 : Matrix (GIdx s) (GIdx s) ℂ) *ᵥ f 1) i + ((-d 0) *ᵥ f 2) i
      = (d 2 *ᵥ f 0) i - (d 0 *ᵥ f 2) i
    rw [Matrix.zero_mulVec, Matrix.neg_mulVec, Pi.zero_apply, Pi.neg_apply]
    ring
  | 2 =>
    change ((-d 1) *ᵥ f 0) i + (d 0 *ᵥ f 1) i + ((0 : Matrix (GIdx s) (GIdx s) ℂ) *ᵥ f 2) i
      = (d 0 *ᵥ f 1) i - (d 1 *ᵥ f 0) i
    rw [Matrix.zero_mulVec, Matrix.neg_mulVec, Pi.zero_apply, Pi.neg_apply]
    ring

omit [∀ a, NeZero (s a)] in
theorem vflat_inj {f g : VField s} (h : vflat f = vflat g) : f = g := by
  funext c i
  exact congrFun h (c, i)

end Simphox
