import Verif.HessianFd
import Mathlib.Analysis.SpecialFunctions.Trigonometric.Bounds

/-! # `hessian_fd` is `hessian_vector_unit` up to `(sin error / error)^2` (C107) -/

namespace Simphox

open Complex

/-- `(e^{ix} - 1) / i`. -/
noncomputable def cx (x : ℝ) : ℂ := (exp (I * x) - 1) / I

theorem expI_add (a x : ℝ) : exp (I * ((a + x : ℝ) : ℂ)) = exp (I * a) + I * exp (I * a) * cx x := by
  have : exp (I * ((a + x : ℝ) : ℂ)) = exp (I * a) * exp (I * x) := by rw [← Complex.exp_add]; push_cast; ring_nf
  rw [this, cx]
  field_simp
  ring

theorem cl_shift (P : Params) (p : Coord) (x : ℝ) (k : ℕ) : cl (P.shift p x) k = cl P k + cx x * dcl P p k := by
  have hI := Complex.I_mul_I
  cases p with
  | theta j =>
    simp only [cl, dcl, Params.shift, Function.update_apply]
    by_cases h : k = j
    · subst h
      simp only [if_true, expI_add]
      linear_combination exp (I * P.thetas k) * cx x * exp (I * P.phis k) / 2 * hI
    · rw [if_neg h, if_neg (Ne.symm h)]; ring
  | phi j =>
    simp only [cl, dcl, Params.shift, Function.update_apply]
    by_cases h : k = j
    · subst h
      simp only [if_true, expI_add]
      ring
    · rw [if_neg h, if_neg (Ne.symm h)]; ring

theorem cr_shift (P : Params) (p : Coord) (x : ℝ) (k : ℕ) : cr (P.shift p x) k = cr P k + cx x * dcr P p k := by
  cases p with
  | theta j =>
    simp only [cr, dcr, Params.shift, Function.update_apply]
    by_cases h : k = j
    · subst h
      simp only [if_true, expI_add]
      ring
    · rw [if_neg h, if_neg (Ne.symm h)]; ring
  | phi j => simp [cr, dcr, Params.shift]

theorem dcl_shift (P : Params) {p q : Coord} (hpq : p ≠ q) (x : ℝ) (k : ℕ) :
    dcl (P.shift p x) q k = dcl P q k + cx x * d2cl P p q k := by
  have hI := Complex.I_mul_I
  cases p with
  | theta i =>
    cases q with
    | theta j =>
      have hij : i ≠ j := fun h => hpq (by rw [h])
      simp only [dcl, d2cl, Params.shift, Function.update_apply]
      by_cases h : j = k
      · rw [if_pos h, if_pos h, if_neg (fun e => hij (e.symm.trans h.symm)), if_neg (fun e => hij (e.1.trans h.symm))]
        ring
      · rw [if_neg h, if_neg h, if_neg (fun e => h e.2)]; ring
    | phi j =>
      simp only [dcl, d2cl]
      by_cases h : j = k
      · rw [if_pos h, if_pos h, cl_shift]
        simp only [dcl]
        by_cases h' : i = k
        · rw [if_pos h', if_pos ⟨h', h⟩]; ring
        · rw [if_neg h', if_neg (fun e => h' e.1)]; ring
      · rw [if_neg h, if_neg h, if_neg (fun e => h e.2)]; ring
  | phi i =>
    cases q with
    | theta j =>
      simp only [dcl, d2cl, Params.shift, Function.update_apply]
      by_cases h : j = k
      · rw [if_pos h, if_pos h]
        by_cases h' : i = k
        · subst h'
          rw [if_pos rfl, if_pos ⟨rfl, h⟩, expI_add]; ring
        · rw [if_neg (Ne.symm h'), if_neg (fun e => h' e.1)]; ring
      · rw [if_neg h, if_neg h, if_neg (fun e => h e.2)]; ring
    | phi j =>
      have hij : i ≠ j := fun h => hpq (by rw [h])
      simp only [dcl, d2cl]
      by_cases h : j = k
      · rw [if_pos h, if_pos h, cl_shift, dcl_ne (by simp only [Coord.idx]; exact fun e => hij (e.trans h.symm)),
          if_neg (fun e => hij (e.1.trans h.symm))]
        ring
      · rw [if_neg h, if_neg h, if_neg (fun e => h e.2)]; ring

theorem dcr_shift (P : Params) {p q : Coord} (hpq : p ≠ q) (x : ℝ) (k : ℕ) :
    dcr (P.shift p x) q k = dcr P q k + cx x * d2cr P p q k := by
  cases p with
  | theta i =>
    cases q with
    | theta j =>
      have hij : i ≠ j := fun h => hpq (by rw [h])
      simp only [dcr, d2cr, Params.shift, Function.update_apply]
      by_cases h : j = k
      · rw [if_pos h, if_pos h, if_neg (fun e => hij (e.symm.trans h.symm)), if_neg (fun e => hij (e.1.trans h.symm))]
        ring
      · rw [if_neg h, if_neg h, if_neg (fun e => h e.2)]; ring
    | phi j => simp [dcr, d2cr]
  | phi i =>
    cases q with
    | theta j => simp [dcr, d2cr, Params.shift]
    | phi j => simp [dcr, d2cr]

theorem d2cl_self (P : Params) (p : Coord) (k : ℕ) : d2cl P p p k = I * dcl P p k := by
  have hI := Complex.I_mul_I
  cases p with
  | theta i =>
    simp only [d2cl, dcl]
    by_cases h : i = k
    · rw [if_pos ⟨h, h⟩, if_pos h]; ring
    · rw [if_neg (fun e => h e.1), if_neg h]; ring
  | phi i =>
    simp only [d2cl, dcl]
    by_cases h : i = k
    · rw [if_pos ⟨h, h⟩, if_pos h]; linear_combination -cl P k * hI
    · rw [if_neg (fun e => h e.1), if_neg h]; ring

theorem d2cr_self (P : Params) (p : Coord) (k : ℕ) : d2cr P p p k = I * dcr P p k := by
  have hI := Complex.I_mul_I
  cases p with
  | theta i =>
    simp only [d2cr, dcr]
    by_cases h : i = k
    · rw [if_pos ⟨h, h⟩, if_pos h]; linear_combination exp (I * P.thetas k) / 2 * hI
    · rw [if_neg (fun e => h e.1), if_neg h]; ring
  | phi i => simp [d2cr, dcr]

theorem damp_zero (P : Params) (v : ℕ → ℂ) {p : Coord} {t : BT} {s : ℕ} (h : ¬ t.Has s p) : damp P v p t s = 0 := by
  induction t generalizing s with
  | leaf => rfl
  | node l r h1 h2 =>
    rw [has_node, not_or, not_or] at h
    simp only [damp, dcl_ne h.1, dcr_ne h.1, h1 h.2.1, h2 h.2.2]
    ring

theorem d2amp_zero (P : Params) (v : ℕ → ℂ) {p q : Coord} {t : BT} {s : ℕ} (h : ¬ t.Has s p) :
    d2amp P v p q t s = 0 := by
  induction t generalizing s with
  | leaf => rfl
  | node l r h1 h2 =>
    rw [has_node, not_or, not_or] at h
    simp only [d2amp, dcl_ne h.1, dcr_ne h.1, h1 h.2.1, h2 h.2.2, damp_zero P v h.2.1, damp_zero P v h.2.2,
      d2cl_ne (Or.inl h.1), d2cr_ne (Or.inl h.1)]
    ring

theorem root_left {l : BT} {s : ℕ} (P : Params) (v : ℕ → ℂ) (p : Coord) :
    p.idx ≠ s + l.size - 1 ∨ damp P v p l s = 0 := by
  by_cases h : p.idx = s + l.size - 1
  · exact Or.inr (damp_zero P v (not_has_left h))
  · exact Or.inl h

/-- The amplitude along one phase. -/
theorem amp_shift (P : Params) (v : ℕ → ℂ) (p : Coord) (x : ℝ) (t : BT) (s : ℕ) :
    amp (P.shift p x) v t s = amp P v t s + cx x * damp P v p t s := by
  induction t generalizing s with
  | leaf => simp [amp, damp]
  | node l r h1 h2 =>
    simp only [amp, damp, h1, h2, cl_shift, cr_shift]
    by_cases h : p.idx = s + l.size - 1
    · rw [damp_zero P v (not_has_left h), damp_zero P v (not_has_right (r := r) h)]; ring
    · rw [dcl_ne h, dcr_ne h]; ring

/-- The first derivative along another phase. -/
theorem damp_shift (P : Params) (v : ℕ → ℂ) {p q : Coord} (hpq : p ≠ q) (x : ℝ) (t : BT) (s : ℕ) :
    damp (P.shift p x) v q t s = damp P v q t s + cx x * d2amp P v p q t s := by
  induction t generalizing s with
  | leaf => simp [damp, d2amp]
  | node l r h1 h2 =>
    simp only [damp, d2amp, h1, h2, cl_shift, cr_shift, dcl_shift P hpq, dcr_shift P hpq, amp_shift]
    by_cases h : p.idx = s + l.size - 1
    · rw [damp_zero P v (not_has_left h), damp_zero P v (not_has_right (r := r) h),
        d2amp_zero P v (not_has_left h), d2amp_zero P v (not_has_right (r := r) h)]
      ring
    · rw [dcl_ne h, dcr_ne h, d2cl_ne (Or.inl h), d2cr_ne (Or.inl h)]; ring

theorem d2amp_self (P : Params) (v : ℕ → ℂ) (p : Coord) (t : BT) (s : ℕ) :
    d2amp P v p p t s = I * damp P v p t s := by
  induction t generalizing s with
  | leaf => simp [damp, d2amp]
  | node l r h1 h2 =>
    simp only [damp, d2amp, h1, h2, d2cl_self, d2cr_self]
    by_cases h : p.idx = s + l.size - 1
    · rw [damp_zero P v (not_has_left h), damp_zero P v (not_has_right (r := r) h)]; ring
    · rw [dcl_ne h, dcr_ne h]; ring

theorem shift_shift (P : Params) (p : Coord) (x y : ℝ) : (P.shift p x).shift p y = P.shift p (x + y) := by
  cases p <;> simp [Params.shift, add_assoc]

theorem cx_diff (h : ℝ) : cx h - cx (-h) = 2 * (Real.sin h : ℝ) := by
  have e1 : exp (I * h) = Real.cos h + Real.sin h * I := by rw [mul_comm, Complex.exp_mul_I]; push_cast; rfl
  have e2 : exp (I * ((-h : ℝ) : ℂ)) = Real.cos h - Real.sin h * I := by
    rw [mul_comm, Complex.exp_mul_I]; push_cast; rw [Complex.cos_neg, Complex.sin_neg]; ring
  rw [cx, cx, e1, e2]
  field_simp
  ring

theorem cx_sum (h : ℝ) : cx (h + h) + cx (-h + -h) = 4 * I * (Real.sin h : ℝ) ^ 2 := by
  have e1 : exp (I * ((h + h : ℝ) : ℂ)) = (Real.cos h + Real.sin h * I) * (Real.cos h + Real.sin h * I) := by
    have : exp (I * h) = Real.cos h + Real.sin h * I := by rw [mul_comm, Complex.exp_mul_I]; push_cast; rfl
    rw [← this, ← Complex.exp_add]; push_cast; ring_nf
  have e2 : exp (I * ((-h + -h : ℝ) : ℂ)) = (Real.cos h - Real.sin h * I) * (Real.cos h - Real.sin h * I) := by
    have : exp (I * ((-h : ℝ) : ℂ)) = Real.cos h - Real.sin h * I := by
      rw [mul_comm, Complex.exp_mul_I]; push_cast; rw [Complex.cos_neg, Complex.sin_neg]; ring
    rw [← this, ← Complex.exp_add]; push_cast; ring_nf
  have hc : (Real.cos h : ℂ) * Real.cos h + Real.sin h * Real.sin h = 1 := by
    have := Real.cos_sq_add_sin_sq h
    rw [← Complex.ofReal_mul, ← Complex.ofReal_mul, ← Complex.ofReal_add]
    norm_cast
    nlinarith
  have hI := Complex.I_sq
  rw [cx, cx, e1, e2]
  field_simp
  set c : ℂ := ((Real.cos h : ℝ) : ℂ)
  set s : ℂ := ((Real.sin h : ℝ) : ℂ)
  linear_combination 2 * hc + (-2) * s ^ 2 * hI

/-- The four-point formula of the amplitude, for any two phases (equal or not). -/
theorem amp_fd (P : Params) (v : ℕ → ℂ) (p q : Coord) (h : ℝ) (t : BT) (s : ℕ) :
    amp (P.shift2 p q h h) v t s + amp (P.shift2 p q (-h) (-h)) v t s - amp (P.shift2 p q h (-h)) v t s -
      amp (P.shift2 p q (-h) h) v t s = 4 * (Real.sin h : ℝ) ^ 2 * d2amp P v p q t s := by
  simp only [Params.shift2]
  by_cases hpq : p = q
  · subst hpq
    rw [shift_shift, shift_shift, shift_shift, shift_shift, add_neg_cancel, neg_add_cancel, shift_zero,
      amp_shift, amp_shift, d2amp_self]
    linear_combination damp P v p t s * cx_sum h
  · simp only [amp_shift _ v q, damp_shift P v hpq, amp_shift P v p]
    linear_combination d2amp P v p q t s * (cx h - cx (-h) + 2 * (Real.sin h : ℝ)) * cx_diff h

/-! ### The double loop -/

/-- The entry the four assignments leave at row `r`, column `c`. -/
noncomputable def fdTarget (E : Params → ℝ) (P : Params) (m : ℕ) (error : ℝ) (r c : ℕ) : ℝ :=
  if r < m then
    if c < m then fdEntry E P (.theta r) (.theta c) error else fdEntry E P (.theta (c - m)) (.phi r) error
  else if c < m then fdEntry E P (.theta (r - m)) (.phi c) error
  else fdEntry E P (.phi (r - m)) (.phi (c - m)) error

theorem fdStep_val (E : Params → ℝ) (P : Params) (m : ℕ) (error : ℝ) (h : ℕ → ℕ → ℝ) {i j : ℕ} (hi : i < m)
    (hj : j < m) (r c : ℕ) :
    fdStep E P m error h (i, j) r c =
      if (r = i ∧ c = j) ∨ (r = i + m ∧ c = j + m) ∨ (r = i + m ∧ c = j) ∨ (r = j ∧ c = i + m)
      then fdTarget E P m error r c else h r c := by
  simp only [fdStep, fdTarget]
  by_cases h4 : r = j ∧ c = i + m
  · rw [if_pos h4, if_pos (by simp), if_pos (Or.inr (Or.inr (Or.inr h4)))]
    obtain ⟨rfl, rfl⟩ := h4
    rw [if_pos hj, if_neg (by omega), Nat.add_sub_cancel]
  · rw [if_neg h4]
    by_cases h3 : r = i + m ∧ c = j
    · rw [if_pos h3, if_pos (Or.inr (Or.inr (Or.inl h3)))]
      obtain ⟨rfl, rfl⟩ := h3
      rw [if_neg (by omega), if_pos hj, Nat.add_sub_cancel]
    · rw [if_neg h3]
      by_cases h2 : r = i + m ∧ c = j + m
      · rw [if_pos h2, if_pos (Or.inr (Or.inl h2))]
        obtain ⟨rfl, rfl⟩ := h2
        rw [if_neg (by omega), if_neg (by omega), Nat.add_sub_cancel, Nat.add_sub_cancel]
      · rw [if_neg h2]
        by_cases h1 : r = i ∧ c = j
        · rw [if_pos h1, if_pos (Or.inl h1)]
          obtain ⟨rfl, rfl⟩ := h1
          rw [if_pos hi, if_pos hj]
        · rw [if_neg h1, if_neg (by tauto)]

theorem fdFold_keep (E : Params → ℝ) (P : Params) (m : ℕ) (error : ℝ) (r c : ℕ) (L : List (ℕ × ℕ))
    (hL : ∀ x ∈ L, x.1 < m ∧ x.2 < m) (h : ℕ → ℕ → ℝ) (hh : h r c = fdTarget E P m error r c) :
    L.foldl (fdStep E P m error) h r c = fdTarget E P m error r c := by
  induction L generalizing h with
  | nil => exact hh
  | cons x L ih =>
    rw [List.foldl_cons]
    refine ih (fun y hy => hL y (List.mem_cons_of_mem _ hy)) _ ?_
    obtain ⟨i, j⟩ := x
    obtain ⟨hi, hj⟩ := hL (i, j) List.mem_cons_self
    rw [fdStep_val E P m error h hi hj, hh, ite_self]

theorem fdFold_set (E : Params → ℝ) (P : Params) (m : ℕ) (error : ℝ) (r c i j : ℕ) (L : List (ℕ × ℕ))
    (hL : ∀ x ∈ L, x.1 < m ∧ x.2 < m) (hm : (i, j) ∈ L)
    (ht : (r = i ∧ c = j) ∨ (r = i + m ∧ c = j + m) ∨ (r = i + m ∧ c = j) ∨ (r = j ∧ c = i + m)) (h : ℕ → ℕ → ℝ) :
    L.foldl (fdStep E P m error) h r c = fdTarget E P m error r c := by
  induction L generalizing h with
  | nil => simp at hm
  | cons x L ih =>
    rw [List.foldl_cons]
    rcases List.mem_cons.1 hm with rfl | hm
    · obtain ⟨hi, hj⟩ := hL (i, j) List.mem_cons_self
      exact fdFold_keep E P m error r c L (fun y hy => hL y (List.mem_cons_of_mem _ hy)) _
        (by rw [fdStep_val E P m error h hi hj, if_pos ht])
    · exact ih (fun y hy => hL y (List.mem_cons_of_mem _ hy)) hm _

theorem fdLoop_val (E : Params → ℝ) (P : Params) (m : ℕ) (error : ℝ) (h : ℕ → ℕ → ℝ) {r c : ℕ} (hr : r < 2 * m)
    (hc : c < 2 * m) :
    ((List.range m).flatMap fun i => (List.range m).map fun j => (i, j)).foldl (fdStep E P m error) h r c =
      fdTarget E P m error r c := by
  have mem : ∀ i j, (i, j) ∈ ((List.range m).flatMap fun i => (List.range m).map fun j => (i, j)) ↔ i < m ∧ j < m := by
    intro i j
    simp only [List.mem_flatMap, List.mem_range, List.mem_map, Prod.mk.injEq]
    constructor
    · rintro ⟨a, ha, b, hb, rfl, rfl⟩; exact ⟨ha, hb⟩
    · rintro ⟨hi, hj⟩; exact ⟨i, hi, j, hj, rfl, rfl⟩
  have hL : ∀ x ∈ ((List.range m).flatMap fun i => (List.range m).map fun j => (i, j)), x.1 < m ∧ x.2 < m :=
    fun x hx => (mem x.1 x.2).1 hx
  by_cases h1 : r < m
  · by_cases h2 : c < m
    · exact fdFold_set E P m error r c r c _ hL ((mem _ _).2 ⟨h1, h2⟩) (Or.inl ⟨rfl, rfl⟩) h
    · exact fdFold_set E P m error r c (c - m) r _ hL ((mem _ _).2 ⟨by omega, h1⟩)
        (Or.inr (Or.inr (Or.inr ⟨rfl, by omega⟩))) h
  · by_cases h2 : c < m
    · exact fdFold_set E P m error r c (r - m) c _ hL ((mem _ _).2 ⟨by omega, h2⟩)
        (Or.inr (Or.inr (Or.inl ⟨by omega, rfl⟩))) h
    · exact fdFold_set E P m error r c (r - m) (c - m) _ hL ((mem _ _).2 ⟨by omega, by omega⟩)
        (Or.inr (Or.inl ⟨by omega, by omega⟩)) h

/-! ### The entries -/

theorem fdEntry_cost {n : ℕ} (hn : 2 ≤ n) (b : Bool) (u : ℕ → ℂ) (P : Params) (pn pnsn : ℕ → ℝ)
    (hN : Nulled P u pn pnsn (shape n b) 0) (hg : P.gammas (n - 1) = -arg (amp P u (shape n b) 0))
    (h1 : ‖amp P u (shape n b) 0‖ = 1) {p q : Coord} (hp : p.idx < n - 1) (hq : q.idx < n - 1) (error : ℝ) :
    fdEntry (vectorCost n (errorMesh (tree n n b) 0 .top) u) P p q error =
      (Real.sin error / error) ^ 2 * hspec pn pnsn ((shape n b).Top 0) ((shape n b).Bot 0) p q := by
  have hgam : ∀ (Q : Params) (c : Coord) (x : ℝ), (Q.shift c x).gammas = Q.gammas := by
    intro Q c x; cases c <;> rfl
  set G := exp (I * P.gammas (n - 1)) with hG
  have hE : ∀ s t, vectorCost n (errorMesh (tree n n b) 0 .top) u (P.shift2 p q s t) =
      2 - 2 * (G * amp (P.shift2 p q s t) u (shape n b) 0).re := by
    intro s t
    rw [vectorCost, mesh_last hn, Params.shift2, hgam, hgam]
  obtain ⟨μ, m1, m2, _⟩ := d2amp_nulled P u pn pnsn p q (shape n b) 0 hN
  have hs := shape_size n (by omega) b
  rw [hval_eq _ _ _ _ _ _ ⟨Nat.zero_le _, by omega⟩ ⟨Nat.zero_le _, by omega⟩, h1] at m2
  have hμ : G * d2amp P u p q (shape n b) 0 = μ := by
    rw [m1, mul_left_comm, hG, hg, exp_neg_arg_mul, h1]; simp
  have key := congrArg (fun z => (G * z).re) (amp_fd P u p q error (shape n b) 0)
  have key2 : (G * (4 * ((Real.sin error : ℝ) : ℂ) ^ 2 * d2amp P u p q (shape n b) 0)).re =
      4 * Real.sin error ^ 2 * μ.re := by
    have : G * (4 * ((Real.sin error : ℝ) : ℂ) ^ 2 * d2amp P u p q (shape n b) 0) =
        ((4 * Real.sin error ^ 2 : ℝ) : ℂ) * μ := by
      rw [← hμ]; push_cast; ring
    rw [this, Complex.re_ofReal_mul]
  rw [key2] at key
  simp only [mul_sub, mul_add, Complex.sub_re, Complex.add_re] at key
  rw [fdEntry, hE, hE, hE, hE, ← m2]
  rw [div_pow, div_mul_eq_mul_div, show (2 - 2 * (G * amp (P.shift2 p q error error) u (shape n b) 0).re +
      (2 - 2 * (G * amp (P.shift2 p q (-error) (-error)) u (shape n b) 0).re) -
      (2 - 2 * (G * amp (P.shift2 p q error (-error)) u (shape n b) 0).re) -
      (2 - 2 * (G * amp (P.shift2 p q (-error) error) u (shape n b) 0).re)) =
      4 * (Real.sin error ^ 2 * (-2 * μ.re)) by linarith, mul_div_mul_left _ _ four_ne_zero]
  ring

/-- C107. For every `v ≠ 0` of length `n ≥ 2` and every step `error ≠ 0`, `hessian_fd(v, error)` returns
exactly `(sin error / error)²` times what `hessian_vector_unit(v)` returns, entry by entry. -/
theorem C107_fd_scaled (n : ℕ) (hn : 2 ≤ n) (b : Bool) (v : ℕ → ℂ)
    (hv : ∑ i ∈ Finset.range n, ‖v i‖ ^ 2 ≠ 0) (error : ℝ) (he : error ≠ 0) :
    ∃ H F, hessianVectorUnit 0 n b v = some H ∧ hessianFd 0 n b error v = some F ∧
      ∀ r c, r < 2 * (n - 1) → c < 2 * (n - 1) → F r c = (Real.sin error / error) ^ 2 * H r c := by
  obtain ⟨pn, pnsn, P, w, h1, h2, h3, h4, h5⟩ := hess_facts n hn b v hv
  refine ⟨_, _, h1, by rw [hessianFd, if_neg hv, if_neg he, h2]; rfl, ?_⟩
  intro r c hr hc
  rw [fdLoop_val _ _ _ _ _ hr hc, fdTarget]
  have ent := fun (p q : Coord) (hp : p.idx < n - 1) (hq : q.idx < n - 1) =>
    fdEntry_cost hn b (unitConj n v) P pn pnsn h3 h4 h5 hp hq error
  by_cases c1 : r < n - 1
  · rw [if_pos c1]
    by_cases c2 : c < n - 1
    · rw [if_pos c2, ent (.theta r) (.theta c) c1 c2, (hessBlock_closed pn pnsn n hn b c1 c2).1]
    · obtain ⟨c, rfl⟩ := Nat.exists_eq_add_of_le (not_lt.1 c2)
      have hc' : c < n - 1 := by omega
      rw [if_neg c2, Nat.add_sub_cancel_left, ent (.theta c) (.phi r) hc' c1,
        (hessBlock_closed pn pnsn n hn b hc' c1).2.2.2]
  · rw [if_neg c1]
    obtain ⟨r, rfl⟩ := Nat.exists_eq_add_of_le (not_lt.1 c1)
    have hr' : r < n - 1 := by omega
    by_cases c2 : c < n - 1
    · rw [if_pos c2, Nat.add_sub_cancel_left, ent (.theta r) (.phi c) hr' c2,
        (hessBlock_closed pn pnsn n hn b hr' c2).2.2.1]
    · obtain ⟨c, rfl⟩ := Nat.exists_eq_add_of_le (not_lt.1 c2)
      have hc' : c < n - 1 := by omega
      rw [if_neg c2, Nat.add_sub_cancel_left, Nat.add_sub_cancel_left, ent (.phi r) (.phi c) hr' hc',
        (hessBlock_closed pn pnsn n hn b hr' hc').2.1]

/-- The factor is at most 1 and short of 1 by at most `error² / 3`: the finite differences never exceed the
analytic values and converge to them. -/
theorem C107_factor (error : ℝ) (he : error ≠ 0) :
    (Real.sin error / error) ^ 2 ≤ 1 ∧ 1 - error ^ 2 / 3 ≤ (Real.sin error / error) ^ 2 := by
  have hpos : 0 < |error| := abs_pos.2 he
  have h1 : |Real.sin error| ≤ |error| := by simpa using Real.abs_sin_sub_sin_le error 0
  have h2 := Real.abs_sub_sin_le error
  have h3 : |1 - Real.sin error / error| ≤ error ^ 2 / 6 := by
    have : 1 - Real.sin error / error = (error - Real.sin error) / error := by field_simp
    rw [this, abs_div, div_le_iff₀ hpos, ← sq_abs error]
    linarith [h2, show |error| ^ 2 / 6 * |error| = |error| ^ 3 / 6 by ring]
  constructor
  · rw [div_pow, div_le_one (by positivity)]
    exact sq_le_sq.2 h1
  · have := abs_le.1 h3
    nlinarith [sq_nonneg (1 - Real.sin error / error)]

/-- A zero vector, or a zero step, divides by zero. -/
theorem C107_undefined (n : ℕ) (b : Bool) (v : ℕ → ℂ) (error : ℝ)
    (h : (∀ i < n, v i = 0) ∨ error = 0) : hessianFd 0 n b error v = none := by
  rcases h with h | h
  · have : ∑ i ∈ Finset.range n, ‖v i‖ ^ 2 = 0 :=
      Finset.sum_eq_zero fun i hi => by rw [h i (Finset.mem_range.1 hi)]; simp
    rw [hessianFd, if_pos this]
  · rw [hessianFd, if_pos h, ite_self]

/-- Non-vacuity: three nonzero entries and the default step `0.0001`. -/
example : ∃ F, hessianFd 0 3 false 0.0001 (fun _ => 1) = some F := by
  obtain ⟨_, F, _, h, _⟩ := C107_fd_scaled 3 (by norm_num) false (fun _ => 1) (by norm_num) 0.0001 (by norm_num)
  exact ⟨F, h⟩

end Simphox
