import Verif.VectorProps
import Mathlib.Analysis.SpecialFunctions.ExpDeriv
import Mathlib.Analysis.SpecialFunctions.Exp
import Mathlib.Analysis.Complex.RealDeriv

/-! # Derivatives of a nulled binary tree of interferometers (for C105) -/

namespace Simphox

open Complex

/-- Shape of a tree of nodes; leaves are input rails. -/
inductive BT where
  | leaf : BT
  | node (l r : BT) : BT

/-- Number of input rails. -/
def BT.size : BT → ℕ
  | .leaf => 1
  | .node l r => l.size + r.size

theorem BT.size_pos (t : BT) : 1 ≤ t.size := by
  induction t with
  | leaf => simp [BT.size]
  | node l r h1 h2 => simp only [BT.size]; omega

/-- One phase of the mesh: the internal phase (`theta`) or the external phase (`phi`) of node `k`. -/
inductive Coord where
  | theta (k : ℕ)
  | phi (k : ℕ)

/-- The node of a phase. -/
def Coord.idx : Coord → ℕ
  | .theta k => k
  | .phi k => k

/-- `P` with one phase increased by `x`. -/
noncomputable def Params.shift (P : Params) (c : Coord) (x : ℝ) : Params :=
  match c with
  | .theta k => { P with thetas := Function.update P.thetas k (P.thetas k + x) }
  | .phi k => { P with phis := Function.update P.phis k (P.phis k + x) }

/-- Coupling of the top arm of node `k` to its bottom output. -/
noncomputable def cl (P : Params) (k : ℕ) : ℂ :=
  I * (exp (I * P.thetas k) + 1) / 2 * exp (I * P.phis k)

/-- Coupling of the bottom arm of node `k` to its bottom output. -/
noncomputable def cr (P : Params) (k : ℕ) : ℂ := (1 - exp (I * P.thetas k)) / 2

noncomputable def dcl (P : Params) (p : Coord) (k : ℕ) : ℂ :=
  match p with
  | .theta j => if j = k then -(exp (I * P.thetas k) * exp (I * P.phis k)) / 2 else 0
  | .phi j => if j = k then I * cl P k else 0

noncomputable def dcr (P : Params) (p : Coord) (k : ℕ) : ℂ :=
  match p with
  | .theta j => if j = k then -(I * exp (I * P.thetas k)) / 2 else 0
  | .phi _ => 0

noncomputable def d2cl (P : Params) (p q : Coord) (k : ℕ) : ℂ :=
  match p, q with
  | .theta i, .theta j => if i = k ∧ j = k then -(I * exp (I * P.thetas k) * exp (I * P.phis k)) / 2 else 0
  | .theta i, .phi j => if i = k ∧ j = k then -(I * exp (I * P.thetas k) * exp (I * P.phis k)) / 2 else 0
  | .phi i, .theta j => if i = k ∧ j = k then -(I * exp (I * P.thetas k) * exp (I * P.phis k)) / 2 else 0
  | .phi i, .phi j => if i = k ∧ j = k then -cl P k else 0

noncomputable def d2cr (P : Params) (p q : Coord) (k : ℕ) : ℂ :=
  match p, q with
  | .theta i, .theta j => if i = k ∧ j = k then exp (I * P.thetas k) / 2 else 0
  | _, _ => 0

/-- The amplitude on the last rail of tree `t` whose first rail is `s`. -/
noncomputable def amp (P : Params) (v : ℕ → ℂ) : BT → ℕ → ℂ
  | .leaf, s => v s
  | .node l r, s => cl P (s + l.size - 1) * amp P v l s + cr P (s + l.size - 1) * amp P v r (s + l.size)

noncomputable def damp (P : Params) (v : ℕ → ℂ) (p : Coord) : BT → ℕ → ℂ
  | .leaf, _ => 0
  | .node l r, s =>
    (dcl P p (s + l.size - 1) * amp P v l s + cl P (s + l.size - 1) * damp P v p l s) +
      (dcr P p (s + l.size - 1) * amp P v r (s + l.size) + cr P (s + l.size - 1) * damp P v p r (s + l.size))

noncomputable def d2amp (P : Params) (v : ℕ → ℂ) (p q : Coord) : BT → ℕ → ℂ
  | .leaf, _ => 0
  | .node l r, s =>
    ((d2cl P p q (s + l.size - 1) * amp P v l s + dcl P q (s + l.size - 1) * damp P v p l s) +
      (dcl P p (s + l.size - 1) * damp P v q l s + cl P (s + l.size - 1) * d2amp P v p q l s)) +
    ((d2cr P p q (s + l.size - 1) * amp P v r (s + l.size) + dcr P q (s + l.size - 1) * damp P v p r (s + l.size)) +
      (dcr P p (s + l.size - 1) * damp P v q r (s + l.size) + cr P (s + l.size - 1) * d2amp P v p q r (s + l.size)))

theorem hasDerivAt_expI (a : ℝ) : HasDerivAt (fun x : ℝ => exp (I * ((a + x : ℝ) : ℂ))) (I * exp (I * a)) 0 := by
  have h1 : HasDerivAt (fun x : ℝ => ((a + x : ℝ) : ℂ)) 1 0 := by
    have : HasDerivAt (fun x : ℝ => a + x) 1 0 := by simpa using (hasDerivAt_id (0 : ℝ)).const_add a
    exact_mod_cast this.ofReal_comp
  have h2 := (h1.const_mul I).cexp
  simpa [mul_comm] using h2

theorem shift_zero (P : Params) (c : Coord) : P.shift c 0 = P := by
  cases c <;> simp [Params.shift]

theorem cl_deriv (P : Params) (p : Coord) (k : ℕ) : HasDerivAt (fun x => cl (P.shift p x) k) (dcl P p k) 0 := by
  cases p with
  | theta j =>
    by_cases h : j = k
    · subst h
      simp only [cl, Params.shift, Function.update_self, dcl, if_true]
      have h1 := ((((hasDerivAt_expI (P.thetas j)).add_const 1).const_mul I).div_const 2).mul_const
        (exp (I * P.phis j))
      refine h1.congr_deriv ?_
      linear_combination ((exp (I * P.thetas j) * exp (I * P.phis j)) / 2) * I_mul_I
    · have h' : k ≠ j := fun e => h e.symm
      simp only [cl, Params.shift, Function.update_of_ne h', dcl, h, if_false]
      exact hasDerivAt_const _ _
  | phi j =>
    by_cases h : j = k
    · subst h
      simp only [cl, Params.shift, Function.update_self, dcl, if_true]
      have h1 := (hasDerivAt_expI (P.phis j)).const_mul (I * (exp (I * P.thetas j) + 1) / 2)
      refine h1.congr_deriv ?_
      ring
    · have h' : k ≠ j := fun e => h e.symm
      simp only [cl, Params.shift, Function.update_of_ne h', dcl, h, if_false]
      exact hasDerivAt_const _ _

theorem cr_deriv (P : Params) (p : Coord) (k : ℕ) : HasDerivAt (fun x => cr (P.shift p x) k) (dcr P p k) 0 := by
  cases p with
  | theta j =>
    by_cases h : j = k
    · subst h
      simp only [cr, Params.shift, Function.update_self, dcr, if_true]
      have h1 := ((hasDerivAt_expI (P.thetas j)).const_sub 1).div_const 2
      exact h1
    · have h' : k ≠ j := fun e => h e.symm
      simp only [cr, Params.shift, Function.update_of_ne h', dcr, h, if_false]
      exact hasDerivAt_const _ _
  | phi j =>
    simp only [cr, Params.shift, dcr]
    exact hasDerivAt_const _ _

theorem dcl_deriv (P : Params) (p q : Coord) (k : ℕ) :
    HasDerivAt (fun x => dcl (P.shift p x) q k) (d2cl P p q k) 0 := by
  cases q with
  | theta j =>
    by_cases h : j = k
    · subst h
      cases p with
      | theta i =>
        by_cases h2 : i = j
        · subst h2
          simp only [dcl, d2cl, Params.shift, Function.update_self, if_true, and_self]
          have h1 := (((hasDerivAt_expI (P.thetas i)).mul_const (exp (I * P.phis i))).neg).div_const 2
          exact h1
        · have h' : j ≠ i := fun e => h2 e.symm
          simp only [dcl, d2cl, Params.shift, Function.update_of_ne h', h2, if_true, false_and, if_false]
          exact hasDerivAt_const _ _
      | phi i =>
        by_cases h2 : i = j
        · subst h2
          simp only [dcl, d2cl, Params.shift, Function.update_self, if_true, and_self]
          have h1 := (((hasDerivAt_expI (P.phis i)).const_mul (exp (I * P.thetas i))).neg).div_const 2
          refine h1.congr_deriv ?_
          ring
        · have h' : j ≠ i := fun e => h2 e.symm
          simp only [dcl, d2cl, Params.shift, Function.update_of_ne h', h2, if_true, false_and, if_false]
          exact hasDerivAt_const _ _
    · cases p <;> simp only [dcl, d2cl, h, and_false, if_false] <;> exact hasDerivAt_const _ _
  | phi j =>
    by_cases h : j = k
    · subst h
      have h1 := (cl_deriv P p j).const_mul I
      simp only [dcl, if_true]
      refine h1.congr_deriv ?_
      cases p with
      | theta i =>
        simp only [d2cl, dcl, and_true]
        split_ifs <;> ring
      | phi i =>
        simp only [d2cl, dcl, and_true]
        split_ifs
        · linear_combination (cl P j) * I_mul_I
        · ring
    · cases p <;> simp only [dcl, d2cl, h, and_false, if_false] <;> exact hasDerivAt_const _ _

theorem dcr_deriv (P : Params) (p q : Coord) (k : ℕ) :
    HasDerivAt (fun x => dcr (P.shift p x) q k) (d2cr P p q k) 0 := by
  cases q with
  | theta j =>
    by_cases h : j = k
    · subst h
      cases p with
      | theta i =>
        by_cases h2 : i = j
        · subst h2
          simp only [dcr, d2cr, Params.shift, Function.update_self, if_true, and_self]
          have h1 := (((hasDerivAt_expI (P.thetas i)).const_mul I).neg).div_const 2
          refine h1.congr_deriv ?_
          linear_combination (-(exp (I * P.thetas i)) / 2) * I_mul_I
        · have h' : j ≠ i := fun e => h2 e.symm
          simp only [dcr, d2cr, Params.shift, Function.update_of_ne h', h2, if_true, false_and, if_false]
          exact hasDerivAt_const _ _
      | phi i =>
        simp only [dcr, d2cr, Params.shift]
        exact hasDerivAt_const _ _
    · cases p <;> simp only [dcr, d2cr, h, and_false, if_false] <;> exact hasDerivAt_const _ _
  | phi j =>
    cases p <;> simp only [dcr, d2cr] <;> exact hasDerivAt_const _ _

theorem amp_deriv (P : Params) (v : ℕ → ℂ) (p : Coord) (t : BT) (s : ℕ) :
    HasDerivAt (fun x => amp (P.shift p x) v t s) (damp P v p t s) 0 := by
  induction t generalizing s with
  | leaf => exact hasDerivAt_const _ _
  | node l r h1 h2 =>
    simp only [amp, damp]
    have a1 := (cl_deriv P p (s + l.size - 1)).mul (h1 s)
    have a2 := (cr_deriv P p (s + l.size - 1)).mul (h2 (s + l.size))
    have := a1.add a2
    simp only [shift_zero] at this
    exact this

theorem damp_deriv (P : Params) (v : ℕ → ℂ) (p q : Coord) (t : BT) (s : ℕ) :
    HasDerivAt (fun x => damp (P.shift p x) v q t s) (d2amp P v p q t s) 0 := by
  induction t generalizing s with
  | leaf => exact hasDerivAt_const _ _
  | node l r h1 h2 =>
    simp only [damp, d2amp]
    have a1 := (dcl_deriv P p q (s + l.size - 1)).mul (amp_deriv P v p l s)
    have a2 := (cl_deriv P p (s + l.size - 1)).mul (h1 s)
    have a3 := (dcr_deriv P p q (s + l.size - 1)).mul (amp_deriv P v p r (s + l.size))
    have a4 := (cr_deriv P p (s + l.size - 1)).mul (h2 (s + l.size))
    have := (a1.add a2).add (a3.add a4)
    simp only [shift_zero] at this
    exact this

/-- Every node of the tree sends nothing to its top output, and `pn`, `pnsn` are the powers after and
(in the top arm) before it. -/
def Nulled (P : Params) (v : ℕ → ℂ) (pn pnsn : ℕ → ℝ) : BT → ℕ → Prop
  | .leaf, _ => True
  | .node l r, s =>
    amp P v l s = (starRingEnd ℂ) (cl P (s + l.size - 1)) * amp P v (.node l r) s ∧
    amp P v r (s + l.size) = (starRingEnd ℂ) (cr P (s + l.size - 1)) * amp P v (.node l r) s ∧
    pn (s + l.size - 1) = ‖amp P v (.node l r) s‖ ^ 2 ∧
    pnsn (s + l.size - 1) = ‖amp P v l s‖ ^ 2 ∧
    Nulled P v pn pnsn l s ∧ Nulled P v pn pnsn r (s + l.size)

/-- First-order response of the amplitude, times the power. -/
noncomputable def kap (pn pnsn : ℕ → ℝ) (t : BT) (s : ℕ) (p : Coord) : ℝ :=
  if s ≤ p.idx ∧ p.idx + 1 < s + t.size then
    match p with
    | .theta k => pn k / 2
    | .phi k => pnsn k
  else 0

/-- Second-order response. -/
noncomputable def hval (pn pnsn : ℕ → ℝ) : BT → ℕ → Coord → Coord → ℝ
  | .leaf, _, _, _ => 0
  | .node l r, s, p, q =>
    if p.idx = s + l.size - 1 then
      if q.idx = s + l.size - 1 then
        match p, q with
        | .theta k, .theta _ => pn k
        | .phi k, .phi _ => 2 * pnsn k
        | .theta k, .phi _ => pnsn k
        | .phi k, .theta _ => pnsn k
      else match p with
        | .theta _ => kap pn pnsn l s q + kap pn pnsn r (s + l.size) q
        | .phi _ => 2 * kap pn pnsn l s q
    else if q.idx = s + l.size - 1 then
      match q with
        | .theta _ => kap pn pnsn l s p + kap pn pnsn r (s + l.size) p
        | .phi _ => 2 * kap pn pnsn l s p
    else hval pn pnsn l s p q + hval pn pnsn r (s + l.size) p q

theorem conj_expI (x : ℝ) : (starRingEnd ℂ) (exp (I * x)) = (exp (I * x))⁻¹ := by
  rw [← exp_conj, ← exp_neg]; simp

theorem expI_ne (x : ℝ) : exp (I * (x : ℂ)) ≠ 0 := exp_ne_zero _

theorem expI_re (x : ℝ) : (exp (I * (x : ℂ))).re = Real.cos x := by
  rw [mul_comm, exp_ofReal_mul_I_re]

theorem cl_conj (P : Params) (k : ℕ) : cl P k * (starRingEnd ℂ) (cl P k) = ((1 + Real.cos (P.thetas k)) / 2 : ℝ) := by
  have h : exp (I * P.thetas k) + (exp (I * P.thetas k))⁻¹ = (2 * Real.cos (P.thetas k) : ℝ) := by
    rw [← exp_neg, ofReal_mul, ofReal_cos, Complex.cos]
    push_cast
    ring_nf
  have e1 := expI_ne (P.thetas k)
  have e2 := expI_ne (P.phis k)
  simp only [cl, map_mul, map_div₀, map_add, map_one, conj_I, conj_expI, map_ofNat]
  push_cast at h ⊢
  field_simp
  field_simp at h
  linear_combination h - (exp (I * P.thetas k) + 1) ^ 2 * I_sq

theorem cr_conj (P : Params) (k : ℕ) : cr P k * (starRingEnd ℂ) (cr P k) = ((1 - Real.cos (P.thetas k)) / 2 : ℝ) := by
  have h : exp (I * P.thetas k) + (exp (I * P.thetas k))⁻¹ = (2 * Real.cos (P.thetas k) : ℝ) := by
    rw [← exp_neg, ofReal_mul, ofReal_cos, Complex.cos]
    push_cast
    ring_nf
  have e1 := expI_ne (P.thetas k)
  simp only [cr, map_div₀, map_sub, map_one, conj_expI, map_ofNat]
  push_cast at h ⊢
  field_simp
  field_simp at h
  linear_combination -h

theorem dcl_theta_conj (P : Params) (k : ℕ) :
    dcl P (.theta k) k * (starRingEnd ℂ) (cl P k) = I * (1 + exp (I * P.thetas k)) / 4 := by
  have e1 := expI_ne (P.thetas k)
  have e2 := expI_ne (P.phis k)
  simp only [cl, dcl, if_true, map_mul, map_div₀, map_add, map_one, conj_I, conj_expI, map_ofNat]
  field_simp
  ring

theorem dcr_theta_conj (P : Params) (k : ℕ) :
    dcr P (.theta k) k * (starRingEnd ℂ) (cr P k) = I * (1 - exp (I * P.thetas k)) / 4 := by
  have e1 := expI_ne (P.thetas k)
  simp only [cr, dcr, if_true, map_div₀, map_sub, map_one, conj_expI, map_ofNat]
  field_simp
  ring

/-- The phase belongs to a node of the tree. -/
def BT.Has (t : BT) (s : ℕ) (p : Coord) : Prop := s ≤ p.idx ∧ p.idx + 1 < s + t.size

theorem kap_eq_zero {pn pnsn : ℕ → ℝ} {t : BT} {s : ℕ} {p : Coord} (h : ¬ t.Has s p) : kap pn pnsn t s p = 0 :=
  if_neg h

theorem kap_theta {pn pnsn : ℕ → ℝ} {t : BT} {s k : ℕ} (h : t.Has s (.theta k)) :
    kap pn pnsn t s (.theta k) = pn k / 2 := if_pos h

theorem kap_phi {pn pnsn : ℕ → ℝ} {t : BT} {s k : ℕ} (h : t.Has s (.phi k)) :
    kap pn pnsn t s (.phi k) = pnsn k := if_pos h

theorem has_node {l r : BT} {s : ℕ} {p : Coord} :
    (BT.node l r).Has s p ↔ p.idx = s + l.size - 1 ∨ l.Has s p ∨ r.Has (s + l.size) p := by
  have := l.size_pos
  have := r.size_pos
  simp only [BT.Has, BT.size]
  omega

theorem not_has_left {l : BT} {s : ℕ} {p : Coord} (h : p.idx = s + l.size - 1) : ¬ l.Has s p := by
  have := l.size_pos
  simp only [BT.Has]; omega

theorem not_has_right {l r : BT} {s : ℕ} {p : Coord} (h : p.idx = s + l.size - 1) : ¬ r.Has (s + l.size) p := by
  have := l.size_pos
  simp only [BT.Has]; omega

theorem has_excl {l r : BT} {s : ℕ} {p : Coord} (h : l.Has s p) : ¬ r.Has (s + l.size) p := by
  simp only [BT.Has] at *; omega

/-- Away from the root, `kap` splits over the two subtrees. -/
theorem kap_node {pn pnsn : ℕ → ℝ} {l r : BT} {s : ℕ} {p : Coord} (h : p.idx ≠ s + l.size - 1) :
    kap pn pnsn (.node l r) s p = kap pn pnsn l s p + kap pn pnsn r (s + l.size) p := by
  by_cases hl : l.Has s p
  · have hr := has_excl (r := r) hl
    have hn : (BT.node l r).Has s p := has_node.2 (Or.inr (Or.inl hl))
    rw [kap_eq_zero hr, add_zero]
    cases p with
    | theta k => rw [kap_theta hl, kap_theta hn]
    | phi k => rw [kap_phi hl, kap_phi hn]
  · by_cases hr : r.Has (s + l.size) p
    · have hn : (BT.node l r).Has s p := has_node.2 (Or.inr (Or.inr hr))
      rw [kap_eq_zero hl, zero_add]
      cases p with
      | theta k => rw [kap_theta hr, kap_theta hn]
      | phi k => rw [kap_phi hr, kap_phi hn]
    · have hn : ¬ (BT.node l r).Has s p := by rw [has_node]; tauto
      rw [kap_eq_zero hl, kap_eq_zero hr, kap_eq_zero hn, add_zero]

theorem dcl_ne {P : Params} {p : Coord} {k : ℕ} (h : p.idx ≠ k) : dcl P p k = 0 := by
  cases p <;> exact if_neg h

theorem dcr_ne {P : Params} {p : Coord} {k : ℕ} (h : p.idx ≠ k) : dcr P p k = 0 := by
  cases p
  · exact if_neg h
  · rfl

theorem d2cl_ne {P : Params} {p q : Coord} {k : ℕ} (h : p.idx ≠ k ∨ q.idx ≠ k) : d2cl P p q k = 0 := by
  have h' : ¬ (p.idx = k ∧ q.idx = k) := fun e => h.elim (absurd e.1) (absurd e.2)
  cases p <;> cases q <;> exact if_neg h'

theorem d2cr_ne {P : Params} {p q : Coord} {k : ℕ} (h : p.idx ≠ k ∨ q.idx ≠ k) : d2cr P p q k = 0 := by
  have h' : ¬ (p.idx = k ∧ q.idx = k) := fun e => h.elim (absurd e.1) (absurd e.2)
  cases p <;> cases q <;> first | exact if_neg h' | rfl

theorem Nulled.norm_left {P : Params} {v : ℕ → ℂ} {pn pnsn : ℕ → ℝ} {l r : BT} {s : ℕ}
    (h : Nulled P v pn pnsn (.node l r) s) :
    ‖amp P v l s‖ ^ 2 = (1 + Real.cos (P.thetas (s + l.size - 1))) / 2 * ‖amp P v (.node l r) s‖ ^ 2 := by
  have h1 := cl_conj P (s + l.size - 1)
  rw [mul_conj'] at h1
  norm_cast at h1
  rw [h.1, norm_mul, mul_pow, norm_conj, h1]

theorem Nulled.norm_right {P : Params} {v : ℕ → ℂ} {pn pnsn : ℕ → ℝ} {l r : BT} {s : ℕ}
    (h : Nulled P v pn pnsn (.node l r) s) :
    ‖amp P v r (s + l.size)‖ ^ 2 = (1 - Real.cos (P.thetas (s + l.size - 1))) / 2 * ‖amp P v (.node l r) s‖ ^ 2 := by
  have h1 := cr_conj P (s + l.size - 1)
  rw [mul_conj'] at h1
  norm_cast at h1
  rw [h.2.1, norm_mul, mul_pow, norm_conj, h1]

/-- Every phase turns the amplitude on the output of a nulled tree without changing its size. -/
theorem damp_nulled (P : Params) (v : ℕ → ℂ) (pn pnsn : ℕ → ℝ) (p : Coord) (t : BT) (s : ℕ)
    (h : Nulled P v pn pnsn t s) :
    ∃ κ : ℝ, damp P v p t s = I * κ * amp P v t s ∧ κ * ‖amp P v t s‖ ^ 2 = kap pn pnsn t s p ∧
      (¬ t.Has s p → κ = 0) := by
  induction t generalizing s with
  | leaf =>
    have hn : ¬ BT.leaf.Has s p := by simp only [BT.Has, BT.size]; omega
    exact ⟨0, by simp [damp], by rw [kap_eq_zero hn]; simp, fun _ => rfl⟩
  | node l r ih1 ih2 =>
    obtain ⟨κl, l1, l2, l3⟩ := ih1 s h.2.2.2.2.1
    obtain ⟨κr, r1, r2, r3⟩ := ih2 (s + l.size) h.2.2.2.2.2
    have nl := h.norm_left
    have nr := h.norm_right
    obtain ⟨hl, hr, hpn, hpnsn, _, _⟩ := h
    have c1 := cl_conj P (s + l.size - 1)
    have c2 := cr_conj P (s + l.size - 1)
    by_cases hp : p.idx = s + l.size - 1
    · have hn : (BT.node l r).Has s p := has_node.2 (Or.inl hp)
      have z1 := l3 (not_has_left hp)
      have z2 := r3 (not_has_right hp)
      subst z1 z2
      cases p with
      | theta k =>
        simp only [Coord.idx] at hp
        refine ⟨1 / 2, ?_, ?_, fun hn' => absurd hn hn'⟩
        · have d1 := dcl_theta_conj P (s + l.size - 1)
          have d2 := dcr_theta_conj P (s + l.size - 1)
          rw [damp, l1, r1, hl, hr, hp]
          push_cast
          linear_combination (d1 + d2) * amp P v (.node l r) s
        · rw [kap_theta hn, hp, hpn]; ring
      | phi k =>
        simp only [Coord.idx] at hp
        refine ⟨(1 + Real.cos (P.thetas (s + l.size - 1))) / 2, ?_, ?_, fun hn' => absurd hn hn'⟩
        · rw [damp, l1, r1, hl, hr, hp]
          simp only [dcl, dcr, if_true, ofReal_zero]
          linear_combination I * amp P v (.node l r) s * c1
        · rw [kap_phi hn, hp, hpnsn, nl]
    · refine ⟨(1 + Real.cos (P.thetas (s + l.size - 1))) / 2 * κl + (1 - Real.cos (P.thetas (s + l.size - 1))) / 2 * κr,
        ?_, ?_, ?_⟩
      · rw [damp, l1, r1, hl, hr, dcl_ne hp, dcr_ne hp]
        rw [ofReal_add, ofReal_mul, ofReal_mul]
        linear_combination I * κl * amp P v (.node l r) s * c1 + I * κr * amp P v (.node l r) s * c2
      · rw [kap_node hp, ← l2, ← r2, nl, nr]; ring
      · intro hn
        rw [has_node] at hn
        rw [l3 fun h => hn (Or.inr (Or.inl h)), r3 fun h => hn (Or.inr (Or.inr h))]; ring

theorem re_mul_I_real (κ : ℝ) (z : ℂ) : (I * κ * (I * z / 4)).re = -(κ * z.re / 4) := by
  have : I * κ * (I * z / 4) = ((-κ / 4 : ℝ) : ℂ) * z := by
    push_cast; linear_combination κ * z / 4 * I_mul_I
  rw [this, re_ofReal_mul]; ring

set_option maxHeartbeats 2000000 in
/-- Second-order response of the output amplitude of a nulled tree. -/
theorem d2amp_nulled (P : Params) (v : ℕ → ℂ) (pn pnsn : ℕ → ℝ) (p q : Coord) (t : BT) (s : ℕ)
    (h : Nulled P v pn pnsn t s) :
    ∃ μ : ℂ, d2amp P v p q t s = μ * amp P v t s ∧ -2 * μ.re * ‖amp P v t s‖ ^ 2 = hval pn pnsn t s p q ∧
      (¬ t.Has s p ∨ ¬ t.Has s q → μ = 0) := by
  induction t generalizing s with
  | leaf => exact ⟨0, by simp [d2amp], by simp [hval], fun _ => rfl⟩
  | node l r ih1 ih2 =>
    obtain ⟨μl, l1, l2, l3⟩ := ih1 s h.2.2.2.2.1
    obtain ⟨μr, r1, r2, r3⟩ := ih2 (s + l.size) h.2.2.2.2.2
    obtain ⟨κpl, pl1, pl2, pl3⟩ := damp_nulled P v pn pnsn p l s h.2.2.2.2.1
    obtain ⟨κpr, pr1, pr2, pr3⟩ := damp_nulled P v pn pnsn p r (s + l.size) h.2.2.2.2.2
    obtain ⟨κql, ql1, ql2, ql3⟩ := damp_nulled P v pn pnsn q l s h.2.2.2.2.1
    obtain ⟨κqr, qr1, qr2, qr3⟩ := damp_nulled P v pn pnsn q r (s + l.size) h.2.2.2.2.2
    have nl := h.norm_left
    have nr := h.norm_right
    obtain ⟨hl, hr, hpn, hpnsn, _, _⟩ := h
    have c1 := cl_conj P (s + l.size - 1)
    have c2 := cr_conj P (s + l.size - 1)
    have d1 := dcl_theta_conj P (s + l.size - 1)
    have d2 := dcr_theta_conj P (s + l.size - 1)
    have hre := expI_re (P.thetas (s + l.size - 1))
    by_cases hp : p.idx = s + l.size - 1
    · have zp1 := pl3 (not_has_left hp)
      have zp2 := pr3 (not_has_right hp)
      have zm1 := l3 (Or.inl (not_has_left hp))
      have zm2 := r3 (Or.inl (not_has_right hp))
      subst zp1 zp2 zm1 zm2
      by_cases hq : q.idx = s + l.size - 1
      · have zq1 := ql3 (not_has_left hq)
        have zq2 := qr3 (not_has_right hq)
        subst zq1 zq2
        have hnp : (BT.node l r).Has s p := has_node.2 (Or.inl hp)
        have hnq : (BT.node l r).Has s q := has_node.2 (Or.inl hq)
        have hno : ∀ x : ℂ, (¬ (BT.node l r).Has s p ∨ ¬ (BT.node l r).Has s q → x = 0) := by
          intro x hx; exact hx.elim (absurd hnp) (absurd hnq)
        rw [d2amp, l1, r1, pl1, pr1, ql1, qr1, hl, hr]
        clear ih1 ih2 l1 r1 l2 r2 l3 r3 pl1 pl2 pl3 pr1 pr2 pr3 ql1 ql2 ql3 qr1 qr2 qr3
        cases p with
        | theta i =>
          cases q with
          | theta j =>
            simp only [Coord.idx] at hp hq
            subst hq
            subst hp
            refine ⟨-(1 / 2), ?_, ?_, hno _⟩
            · simp only [d2cl, d2cr, and_self, if_true, ofReal_zero]
              simp only [dcl, dcr, if_true] at d1 d2
              linear_combination (I * d1 + I * d2) * amp P v (.node l r) s + amp P v (.node l r) s / 2 * I_mul_I
                + (exp (I * P.thetas (s + l.size - 1)) / 2 * (starRingEnd ℂ) (cr P (s + l.size - 1))) * amp P v (.node l r) s * I_mul_I
            · simp only [hval, Coord.idx, if_true, hpn]
              norm_num
          | phi j =>
            simp only [Coord.idx] at hp hq
            subst hq
            subst hp
            refine ⟨I * (I * (1 + exp (I * P.thetas (s + l.size - 1))) / 4), ?_, ?_, hno _⟩
            · simp only [d2cl, d2cr, and_self, if_true, ofReal_zero]
              simp only [dcl, dcr, if_true] at d1 d2
              linear_combination (I * d1) * amp P v (.node l r) s
            · simp only [hval, Coord.idx, if_true, hpnsn, nl]
              have := re_mul_I_real 1 (1 + exp (I * P.thetas (s + l.size - 1)))
              rw [ofReal_one, mul_one] at this
              rw [this, add_re, hre, one_re]; ring
        | phi i =>
          cases q with
          | theta j =>
            simp only [Coord.idx] at hp hq
            subst hq
            subst hp
            refine ⟨I * (I * (1 + exp (I * P.thetas (s + l.size - 1))) / 4), ?_, ?_, hno _⟩
            · simp only [d2cl, d2cr, and_self, if_true, ofReal_zero]
              simp only [dcl, dcr, if_true] at d1 d2
              linear_combination (I * d1) * amp P v (.node l r) s
            · simp only [hval, Coord.idx, if_true, hpnsn, nl]
              have := re_mul_I_real 1 (1 + exp (I * P.thetas (s + l.size - 1)))
              rw [ofReal_one, mul_one] at this
              rw [this, add_re, hre, one_re]; ring
          | phi j =>
            simp only [Coord.idx] at hp hq
            subst hq
            subst hp
            refine ⟨((-((1 + Real.cos (P.thetas (s + l.size - 1))) / 2) : ℝ) : ℂ), ?_, ?_, hno _⟩
            · simp only [d2cl, d2cr, and_self, if_true, ofReal_zero]
              rw [ofReal_neg]
              linear_combination (-c1) * amp P v (.node l r) s
            · simp only [hval, Coord.idx, if_true, hpnsn, nl, ofReal_re]
              ring
      · rw [d2amp, l1, r1, pl1, pr1, ql1, qr1, hl, hr, d2cl_ne (Or.inr hq), d2cr_ne (Or.inr hq), dcl_ne hq, dcr_ne hq]
        have hz : ¬ (BT.node l r).Has s p ∨ ¬ (BT.node l r).Has s q → κql = 0 ∧ κqr = 0 := by
          intro hx
          have hnp : (BT.node l r).Has s p := has_node.2 (Or.inl hp)
          have hnq : ¬ (BT.node l r).Has s q := hx.resolve_left (not_not.2 hnp)
          rw [has_node] at hnq
          exact ⟨ql3 fun h => hnq (Or.inr (Or.inl h)), qr3 fun h => hnq (Or.inr (Or.inr h))⟩
        cases p with
        | theta i =>
          simp only [Coord.idx] at hp
          subst hp
          refine ⟨I * κql * (I * (1 + exp (I * P.thetas (s + l.size - 1))) / 4) +
            I * κqr * (I * (1 - exp (I * P.thetas (s + l.size - 1))) / 4), ?_, ?_, ?_⟩
          · simp only [ofReal_zero]
            linear_combination (I * κql * d1 + I * κqr * d2) * amp P v (.node l r) s
          · simp only [hval, if_neg hq]
            simp only [Coord.idx, if_true]
            rw [← ql2, ← qr2, nl, nr, add_re, re_mul_I_real, re_mul_I_real, add_re, sub_re, hre, one_re]; ring
          · intro hx
            rw [(hz hx).1, (hz hx).2]; simp
        | phi i =>
          simp only [Coord.idx] at hp
          subst hp
          refine ⟨((-(κql * ((1 + Real.cos (P.thetas (s + l.size - 1))) / 2)) : ℝ) : ℂ), ?_, ?_, ?_⟩
          · simp only [dcl, dcr, if_true, ofReal_zero]
            rw [ofReal_neg, ofReal_mul]
            linear_combination (-κql * c1) * amp P v (.node l r) s + κql * cl P (s + l.size - 1) *
              (starRingEnd ℂ) (cl P (s + l.size - 1)) * amp P v (.node l r) s * I_mul_I
          · simp only [hval, if_neg hq]
            simp only [Coord.idx, if_true]
            rw [← ql2, nl, ofReal_re]; ring
          · intro hx
            rw [(hz hx).1]; simp
    · by_cases hq : q.idx = s + l.size - 1
      · have zq1 := ql3 (not_has_left hq)
        have zq2 := qr3 (not_has_right hq)
        have zm1 := l3 (Or.inr (not_has_left hq))
        have zm2 := r3 (Or.inr (not_has_right hq))
        subst zq1 zq2 zm1 zm2
        rw [d2amp, l1, r1, pl1, pr1, ql1, qr1, hl, hr, d2cl_ne (Or.inl hp), d2cr_ne (Or.inl hp), dcl_ne hp, dcr_ne hp]
        have hz : ¬ (BT.node l r).Has s p ∨ ¬ (BT.node l r).Has s q → κpl = 0 ∧ κpr = 0 := by
          intro hx
          have hnq : (BT.node l r).Has s q := has_node.2 (Or.inl hq)
          have hnp : ¬ (BT.node l r).Has s p := hx.resolve_right (not_not.2 hnq)
          rw [has_node] at hnp
          exact ⟨pl3 fun h => hnp (Or.inr (Or.inl h)), pr3 fun h => hnp (Or.inr (Or.inr h))⟩
        cases q with
        | theta i =>
          simp only [Coord.idx] at hq
          subst hq
          refine ⟨I * κpl * (I * (1 + exp (I * P.thetas (s + l.size - 1))) / 4) +
            I * κpr * (I * (1 - exp (I * P.thetas (s + l.size - 1))) / 4), ?_, ?_, ?_⟩
          · simp only [ofReal_zero]
            linear_combination (I * κpl * d1 + I * κpr * d2) * amp P v (.node l r) s
          · simp only [hval, if_neg hp]
            simp only [Coord.idx, if_true]
            rw [← pl2, ← pr2, nl, nr, add_re, re_mul_I_real, re_mul_I_real, add_re, sub_re, hre, one_re]; ring
          · intro hx
            rw [(hz hx).1, (hz hx).2]; simp
        | phi i =>
          simp only [Coord.idx] at hq
          subst hq
          refine ⟨((-(κpl * ((1 + Real.cos (P.thetas (s + l.size - 1))) / 2)) : ℝ) : ℂ), ?_, ?_, ?_⟩
          · simp only [dcl, dcr, if_true, ofReal_zero]
            rw [ofReal_neg, ofReal_mul]
            linear_combination (-κpl * c1) * amp P v (.node l r) s + κpl * cl P (s + l.size - 1) *
              (starRingEnd ℂ) (cl P (s + l.size - 1)) * amp P v (.node l r) s * I_mul_I
          · simp only [hval, if_neg hp]
            simp only [Coord.idx, if_true]
            rw [← pl2, nl, ofReal_re]; ring
          · intro hx
            rw [(hz hx).1]; simp
      · rw [d2amp, l1, r1, pl1, pr1, ql1, qr1, hl, hr, d2cl_ne (Or.inl hp), d2cr_ne (Or.inl hp), dcl_ne hp, dcr_ne hp,
          dcl_ne hq, dcr_ne hq]
        refine ⟨((((1 + Real.cos (P.thetas (s + l.size - 1))) / 2 : ℝ)) : ℂ) * μl +
          ((((1 - Real.cos (P.thetas (s + l.size - 1))) / 2 : ℝ)) : ℂ) * μr, ?_, ?_, ?_⟩
        · linear_combination (μl * c1 + μr * c2) * amp P v (.node l r) s
        · simp only [hval, if_neg hp, if_neg hq]
          rw [← l2, ← r2, nl, nr, add_re, re_ofReal_mul, re_ofReal_mul]; ring
        · intro hx
          rw [has_node, has_node] at hx
          have z1 : μl = 0 := l3 (hx.imp (fun h1 h2 => h1 (Or.inr (Or.inl h2))) (fun h1 h2 => h1 (Or.inr (Or.inl h2))))
          have z2 : μr = 0 := r3 (hx.imp (fun h1 h2 => h1 (Or.inr (Or.inr h2))) (fun h1 h2 => h1 (Or.inr (Or.inr h2))))
          rw [z1, z2]; simp

end Simphox
