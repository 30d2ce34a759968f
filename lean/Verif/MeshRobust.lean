import Mathlib.Analysis.InnerProductSpace.PiL2
import Mathlib.Analysis.SpecialFunctions.Trigonometric.Bounds
import Verif.MeshProps

/-!
# Small errors stay small (C129), phases modulo 2 pi (C130)

How the transfer matrix of a mesh depends on its phases and on the errors of its couplers.
-/

namespace Simphox

open Complex Matrix

/-! ### Specification -/

/-- The amplitude of a vector: the square root of its total power. -/
noncomputable def amplitude {n : ℕ} (v : Fin n → ℂ) : ℝ := Real.sqrt (∑ i, ‖v i‖ ^ 2)

/-- Two devices never differ by more than `c` times the amplitude of the input. -/
def CloseTo {n : ℕ} (c : ℝ) (A B : Matrix (Fin n) (Fin n) ℂ) : Prop :=
  ∀ v : Fin n → ℂ, amplitude (A.mulVec v - B.mulVec v) ≤ c * amplitude v

/-! ### Lemmas -/

theorem amplitude_eq {n : ℕ} (v : Fin n → ℂ) : amplitude v = ‖WithLp.toLp 2 v‖ := by
  rw [EuclideanSpace.norm_eq]; rfl

theorem amplitude_add {n : ℕ} (v w : Fin n → ℂ) : amplitude (v + w) ≤ amplitude v + amplitude w := by
  rw [amplitude_eq, amplitude_eq, amplitude_eq, WithLp.toLp_add]
  exact norm_add_le _ _

theorem amplitude_nonneg {n : ℕ} (v : Fin n → ℂ) : 0 ≤ amplitude v := Real.sqrt_nonneg _

theorem amplitude_le {n : ℕ} {c : ℝ} (hc : 0 ≤ c) {v w : Fin n → ℂ} (h : ∑ i, ‖v i‖ ^ 2 ≤ c ^ 2 * ∑ i, ‖w i‖ ^ 2) :
    amplitude v ≤ c * amplitude w := by
  unfold amplitude
  rw [← Real.sqrt_sq hc, ← Real.sqrt_mul (by positivity)]
  exact Real.sqrt_le_sqrt h

theorem Passive.amplitude_le {n : ℕ} {A : Matrix (Fin n) (Fin n) ℂ} (hA : Passive A) (v : Fin n → ℂ) :
    amplitude (A.mulVec v) ≤ amplitude v := Real.sqrt_le_sqrt (hA v)

theorem CloseTo.rfl {n : ℕ} (A : Matrix (Fin n) (Fin n) ℂ) : CloseTo 0 A A := by
  intro v; simp [amplitude]

theorem CloseTo.mono {n : ℕ} {c d : ℝ} {A B : Matrix (Fin n) (Fin n) ℂ} (h : CloseTo c A B) (hcd : c ≤ d) : CloseTo d A B :=
  fun v => (h v).trans (mul_le_mul_of_nonneg_right hcd (amplitude_nonneg v))

theorem CloseTo.mul {n : ℕ} {a b : ℝ} {A A' B B' : Matrix (Fin n) (Fin n) ℂ} (hA : CloseTo a A A') (hB : CloseTo b B B')
    (pA : Passive A) (pB : Passive B') (ha : 0 ≤ a) : CloseTo (a + b) (A * B) (A' * B') := by
  intro v
  have e : (A * B).mulVec v - (A' * B').mulVec v =
      A.mulVec (B.mulVec v - B'.mulVec v) + (A.mulVec (B'.mulVec v) - A'.mulVec (B'.mulVec v)) := by
    rw [← mulVec_mulVec, ← mulVec_mulVec, mulVec_sub]; abel
  rw [e]
  refine (amplitude_add _ _).trans ?_
  have h1 := (pA.amplitude_le (B.mulVec v - B'.mulVec v)).trans (hB v)
  have h2 := (hA (B'.mulVec v)).trans (mul_le_mul_of_nonneg_left (pB.amplitude_le v) ha)
  linarith [add_mul a b (amplitude v)]

theorem closeTo_diagonal {n : ℕ} {c : ℝ} (hc : 0 ≤ c) {d d' : Fin n → ℂ} (h : ∀ i, ‖d i - d' i‖ ≤ c) :
    CloseTo c (diagonal d) (diagonal d') := by
  intro v
  apply amplitude_le hc
  rw [Finset.mul_sum]
  refine Finset.sum_le_sum fun i _ => ?_
  rw [Pi.sub_apply, mulVec_diagonal, mulVec_diagonal, ← sub_mul, norm_mul, mul_pow]
  exact mul_le_mul_of_nonneg_right (pow_le_pow_left₀ (norm_nonneg _) (h i) 2) (by positivity)

theorem closeTo_diag2 {c : ℝ} (hc : 0 ≤ c) {a b a' b' : ℂ} (h1 : ‖a - a'‖ ≤ c) (h2 : ‖b - b'‖ ≤ c) :
    CloseTo c (diag2 a b) (diag2 a' b') := by
  rw [diag2_eq, diag2_eq]
  apply closeTo_diagonal hc
  intro i; fin_cases i <;> simpa

theorem norm_shifter_sub (x y : ℝ) {l : ℝ} (hl : l ≤ 0) : ‖shifter x l - shifter y l‖ ≤ |x - y| := by
  have h : ∀ z, shifter z l = exp (I * z) * exp ((Real.log 10 * l / 20 : ℝ) : ℂ) := fun z => by
    unfold shifter; rw [exp_add]
  rw [h, h, ← sub_mul, norm_mul]
  have h2 : ‖exp ((Real.log 10 * l / 20 : ℝ) : ℂ)‖ ≤ 1 := by
    have := norm_shifter_le 0 hl
    rw [h] at this; simpa using this
  have h3 : ‖exp (I * (x : ℂ)) - exp (I * y)‖ ≤ |x - y| := by
    have e : exp (I * (x : ℂ)) - exp (I * y) = exp (I * y) * (exp (I * ((x - y : ℝ) : ℂ)) - 1) := by
      rw [mul_sub, ← exp_add]; push_cast; ring_nf
    rw [e, norm_mul, norm_exp_I, one_mul]
    have h := Real.norm_exp_I_mul_ofReal_sub_one_le (x := x - y)
    rwa [Real.norm_eq_abs] at h
  calc _ ≤ |x - y| * 1 := mul_le_mul h3 h2 (norm_nonneg _) (abs_nonneg _)
    _ = |x - y| := mul_one _

theorem closeTo_coupler (x y : ℝ) : CloseTo |x - y| (coupler x) (coupler y) := by
  intro v
  apply amplitude_le (abs_nonneg _)
  have h1 : ∀ a : ℝ, coupler a = !![(Real.cos a : ℂ), I * Real.sin a; I * Real.sin a, Real.cos a] := fun _ => rfl
  set p : ℝ := Real.cos x - Real.cos y
  set q : ℝ := Real.sin x - Real.sin y
  have hpq : p ^ 2 + q ^ 2 ≤ |x - y| ^ 2 := by
    have h := norm_shifter_sub x y (le_refl (0 : ℝ))
    have e : shifter x 0 - shifter y 0 = (p : ℂ) + q * I := by
      unfold shifter
      simp only [mul_zero, zero_div, ofReal_zero, add_zero]
      rw [mul_comm I, mul_comm I, exp_mul_I, exp_mul_I]
      simp only [p, q]; push_cast; ring
    rw [e] at h
    have h2 : ‖(p : ℂ) + q * I‖ ^ 2 = p ^ 2 + q ^ 2 := by
      rw [← normSq_eq_norm_sq, normSq_add_mul_I]
    rw [← h2]
    exact pow_le_pow_left₀ (norm_nonneg _) h 2
  have h2 : ∀ i, ((coupler x).mulVec v - (coupler y).mulVec v) i = (if i = 0 then (p : ℂ) * v 0 + I * q * v 1 else I * q * v 0 + p * v 1) := by
    intro i
    fin_cases i <;> simp [h1, dotProduct, Fin.sum_univ_two, p, q] <;> ring
  rw [Fin.sum_univ_two, Fin.sum_univ_two, h2, h2]
  simp only [if_true, if_false, one_ne_zero, Fin.isValue]
  have h3 : ‖(p : ℂ) * v 0 + I * q * v 1‖ ^ 2 + ‖I * q * v 0 + (p : ℂ) * v 1‖ ^ 2 = (p ^ 2 + q ^ 2) * (‖v 0‖ ^ 2 + ‖v 1‖ ^ 2) := by
    simp only [← normSq_eq_norm_sq, normSq_apply, add_re, add_im, mul_re, mul_im, I_re, I_im, ofReal_re, ofReal_im]
    ring
  rw [h3]
  exact mul_le_mul_of_nonneg_right hpq (by positivity)

theorem closeTo_embed2 {n i j : ℕ} (hi : i < n) (hj : j < n) (hij : i ≠ j) {c : ℝ} (hc : 0 ≤ c)
    {m m' : Matrix (Fin 2) (Fin 2) ℂ} (hm : CloseTo c m m') : CloseTo c (embed2 n i j m) (embed2 n i j m') := by
  intro v
  apply amplitude_le hc
  have hne : (⟨i, hi⟩ : Fin n) ≠ ⟨j, hj⟩ := by simpa using hij
  have key : ∀ w : Fin n → ℝ, ∑ a, w a = w ⟨i, hi⟩ + (w ⟨j, hj⟩ +
      ∑ a ∈ (Finset.univ.erase ⟨i, hi⟩).erase ⟨j, hj⟩, w a) := by
    intro w
    rw [Finset.add_sum_erase _ _ (Finset.mem_erase.2 ⟨hne.symm, Finset.mem_univ _⟩),
      Finset.add_sum_erase _ _ (Finset.mem_univ _)]
  rw [key, key (fun a => ‖v a‖ ^ 2)]
  have h2 := hm ![v ⟨i, hi⟩, v ⟨j, hj⟩]
  have h2' : ∑ k, ‖(m.mulVec ![v ⟨i, hi⟩, v ⟨j, hj⟩] - m'.mulVec ![v ⟨i, hi⟩, v ⟨j, hj⟩]) k‖ ^ 2
      ≤ c ^ 2 * ∑ k, ‖(![v ⟨i, hi⟩, v ⟨j, hj⟩] : Fin 2 → ℂ) k‖ ^ 2 := by
    have := pow_le_pow_left₀ (amplitude_nonneg _) h2 2
    unfold amplitude at this
    rwa [mul_pow, Real.sq_sqrt (Finset.sum_nonneg fun _ _ => by positivity), Real.sq_sqrt (Finset.sum_nonneg fun _ _ => by positivity)] at this
  simp only [Fin.sum_univ_two, mulVec, dotProduct, cons_val_zero, cons_val_one, Pi.sub_apply] at h2'
  have h3 : ∑ a ∈ (Finset.univ.erase (⟨i, hi⟩ : Fin n)).erase ⟨j, hj⟩,
      ‖((embed2 n i j m).mulVec v - (embed2 n i j m').mulVec v) a‖ ^ 2 = 0 := by
    apply Finset.sum_eq_zero
    intro a ha
    simp only [Finset.mem_erase, ne_eq] at ha
    have h4 : a.val ≠ j := fun h => ha.1 (Fin.ext h)
    have h5 : a.val ≠ i := fun h => ha.2.1 (Fin.ext h)
    rw [Pi.sub_apply, embed2_mulVec hi hj hij, embed2_mulVec hi hj hij]; simp [h4, h5]
  rw [h3, Pi.sub_apply, Pi.sub_apply, embed2_mulVec hi hj hij, embed2_mulVec hi hj hij, embed2_mulVec hi hj hij, embed2_mulVec hi hj hij]
  simp only [hij.symm, if_true, if_false]
  have h6 : 0 ≤ c ^ 2 * ∑ a ∈ (Finset.univ.erase (⟨i, hi⟩ : Fin n)).erase ⟨j, hj⟩, ‖v a‖ ^ 2 :=
    mul_nonneg (sq_nonneg c) (Finset.sum_nonneg fun _ _ => by positivity)
  linarith

/-! ### One interferometer -/

/-- The phase shifter between the couplers, with the common phase of the outer one. -/
noncomputable def innerShift (style : PhaseStyle) (ll theta : ℝ) : Matrix (Fin 2) (Fin 2) ℂ :=
  match style with
  | .top => diag2 (shifter theta ll) 1
  | .bottom => diag2 1 (shifter theta ll)
  | _ => diag2 (shifter (theta / 2) ll) (shifter (-theta / 2) 0)

/-- The phase shifter outside the couplers. -/
noncomputable def outerShift (style : PhaseStyle) (back : Bool) (lr phi : ℝ) : Matrix (Fin 2) (Fin 2) ℂ :=
  match style with
  | .top => diag2 (shifter phi lr) 1
  | .bottom => diag2 1 (shifter phi lr)
  | .symmetric => diag2 (shifter phi lr) (shifter phi lr)
  | .differential => if back then diag2 (shifter (phi / 2) lr) (shifter (-phi / 2) lr)
      else diag2 (shifter (-phi / 2) lr) (shifter (phi / 2) lr)

theorem shifter_add (x y l m : ℝ) : shifter (x + y) (l + m) = shifter x l * shifter y m := by
  unfold shifter
  rw [← exp_add]; congr 1; push_cast; ring

theorem mziElements_balanced (style : PhaseStyle) (back : Bool) (el er ll lr theta phi : ℝ) :
    (mziElements style back el er ll lr theta phi).mat =
      if outerLast style back then
        outerShift style back lr phi * (coupler (Real.pi / 4 + er) * innerShift style ll theta * coupler (Real.pi / 4 + el))
      else coupler (Real.pi / 4 + er) * innerShift style ll theta * coupler (Real.pi / 4 + el) * outerShift style back lr phi := by
  rw [mziElements_factor]
  have hs : ∀ (A B : Matrix (Fin 2) (Fin 2) ℂ) (w a p q : ℂ), A * diag2 a 1 * B * diag2 (w * p) (w * q) = A * diag2 (w * a) w * B * diag2 p q := by
    intro A B w a p q
    have h1 : diag2 (w * p) (w * q) = w • diag2 p q := by simp [diag2]
    have h2 : diag2 (w * a) w = w • diag2 a 1 := by simp [diag2]
    rw [h1, h2]; simp
  have k1 : shifter (theta / 2) ll = shifter (-theta / 2) 0 * shifter theta ll := by
    rw [← shifter_add]; congr 1 <;> ring
  have k2 : ∀ x, shifter (x - theta / 2) lr = shifter (-theta / 2) 0 * shifter x lr := by
    intro x; rw [← shifter_add]; congr 1 <;> ring
  cases style
  · rfl
  · rfl
  · have hd : outerLast .symmetric back = false := by cases back <;> rfl
    rw [hd]
    simp only [Bool.false_eq_true, if_false, mziCore, mziOuter, innerShift, outerShift]
    rw [k1, k2, hs]
  · have hd : outerLast .differential back = false := by cases back <;> rfl
    have k3 : shifter ((phi - theta) / 2) lr = shifter (-theta / 2) 0 * shifter (phi / 2) lr := by
      rw [← k2]; congr 1; ring
    have k4 : shifter ((-phi - theta) / 2) lr = shifter (-theta / 2) 0 * shifter (-phi / 2) lr := by
      rw [← k2]; congr 1; ring
    rw [hd]
    simp only [Bool.false_eq_true, if_false, mziCore, mziOuter, innerShift, outerShift]
    rw [k1, k3, k4]
    cases back
    · simp only [Bool.false_eq_true, if_false]; rw [hs]
    · simp only [if_true]; rw [hs]

theorem innerShift_passive (style : PhaseStyle) {ll : ℝ} (hl : ll ≤ 0) (theta : ℝ) : Passive (innerShift style ll theta) := by
  cases style <;> apply diag2_passive <;> simp [norm_shifter_le _ hl, norm_shifter_zero]

theorem outerShift_passive (style : PhaseStyle) (back : Bool) {lr : ℝ} (hl : lr ≤ 0) (phi : ℝ) : Passive (outerShift style back lr phi) := by
  cases style <;> cases back <;> apply diag2_passive <;> simp [norm_shifter_le _ hl]

theorem closeTo_innerShift (style : PhaseStyle) {ll : ℝ} (hl : ll ≤ 0) (x y : ℝ) :
    CloseTo |x - y| (innerShift style ll x) (innerShift style ll y) := by
  have h0 : ‖(1 : ℂ) - 1‖ ≤ |x - y| := by simp
  have hh : ∀ s : ℝ, |s| = 1 → ∀ l : ℝ, l ≤ 0 → ‖shifter (s * x / 2) l - shifter (s * y / 2) l‖ ≤ |x - y| := by
    intro s hs l hl
    refine (norm_shifter_sub _ _ hl).trans ?_
    have : s * x / 2 - s * y / 2 = s * ((x - y) / 2) := by ring
    rw [this, abs_mul, hs, one_mul, abs_div, abs_two]
    linarith [abs_nonneg (x - y)]
  have h1 := hh 1 (by simp) ll hl
  have h2 := hh (-1) (by simp) 0 le_rfl
  simp only [one_mul, neg_mul] at h1 h2
  cases style <;> apply closeTo_diag2 (abs_nonneg _) <;> first | exact h0 | exact norm_shifter_sub _ _ hl | exact h1 | exact h2

theorem closeTo_outerShift (style : PhaseStyle) (back : Bool) {lr : ℝ} (hl : lr ≤ 0) (x y : ℝ) :
    CloseTo |x - y| (outerShift style back lr x) (outerShift style back lr y) := by
  have h0 : ‖(1 : ℂ) - 1‖ ≤ |x - y| := by simp
  have hh : ∀ s : ℝ, |s| = 1 → ‖shifter (s * x / 2) lr - shifter (s * y / 2) lr‖ ≤ |x - y| := by
    intro s hs
    refine (norm_shifter_sub _ _ hl).trans ?_
    have : s * x / 2 - s * y / 2 = s * ((x - y) / 2) := by ring
    rw [this, abs_mul, hs, one_mul, abs_div, abs_two]
    linarith [abs_nonneg (x - y)]
  have h1 := hh 1 (by simp)
  have h2 := hh (-1) (by simp)
  simp only [one_mul, neg_mul] at h1 h2
  cases style <;> cases back <;> apply closeTo_diag2 (abs_nonneg _) <;> first | exact h0 | exact norm_shifter_sub _ _ hl | exact h1 | exact h2

/-- One interferometer: the four angle errors add. -/
theorem closeTo_mzi (style : PhaseStyle) (back : Bool) {ll lr : ℝ} (hl : ll ≤ 0) (hr : lr ≤ 0) (el er el' er' theta theta' phi phi' : ℝ) :
    CloseTo (|er - er'| + |theta - theta'| + |el - el'| + |phi - phi'|)
      (mziElements style back el er ll lr theta phi).mat (mziElements style back el' er' ll lr theta' phi').mat := by
  have hc : ∀ x y : ℝ, CloseTo |x - y| (coupler (Real.pi / 4 + x)) (coupler (Real.pi / 4 + y)) := by
    intro x y
    have := closeTo_coupler (Real.pi / 4 + x) (Real.pi / 4 + y)
    rwa [add_sub_add_left_eq_sub] at this
  have pc := fun x => unitary_passive (coupler_unitary x)
  have hcore : CloseTo (|er - er'| + |theta - theta'| + |el - el'|)
      (coupler (Real.pi / 4 + er) * innerShift style ll theta * coupler (Real.pi / 4 + el))
      (coupler (Real.pi / 4 + er') * innerShift style ll theta' * coupler (Real.pi / 4 + el')) := by
    refine CloseTo.mul (CloseTo.mul (hc er er') (closeTo_innerShift style hl theta theta') (pc _) (innerShift_passive style hl _) (abs_nonneg _))
      (hc el el') ((pc _).mul (innerShift_passive style hl _)) (pc _) (by positivity)
  have pcore : ∀ el er theta, Passive (coupler (Real.pi / 4 + er) * innerShift style ll theta * coupler (Real.pi / 4 + el)) :=
    fun el er theta => ((pc _).mul (innerShift_passive style hl _)).mul (pc _)
  rw [mziElements_balanced, mziElements_balanced]
  split_ifs
  · refine (CloseTo.mul (closeTo_outerShift style back hr phi phi') hcore (outerShift_passive style back hr _) (pcore _ _ _) (abs_nonneg _)).mono ?_
    linarith
  · exact CloseTo.mul hcore (closeTo_outerShift style back hr phi phi') (pcore _ _ _) (outerShift_passive style back hr _) (by positivity)

/-! ### Meshes -/

theorem closeTo_blockProduct {n : ℕ} {el el' : ℕ → Elements} {nodes : List Node} (c : ℕ → ℝ) (hc : ∀ k, 0 ≤ c k)
    (hr : ∀ a ∈ nodes, a.top < n ∧ a.bottom < n ∧ a.top ≠ a.bottom)
    (hp : ∀ a ∈ nodes, Passive (el a.id).mat) (hp' : ∀ a ∈ nodes, Passive (el' a.id).mat)
    (hel : ∀ a ∈ nodes, CloseTo (c a.id) (el a.id).mat (el' a.id).mat) :
    CloseTo ((nodes.map fun a => c a.id).sum) (blockProduct n el nodes) (blockProduct n el' nodes) := by
  induction nodes with
  | nil => simpa [blockProduct] using CloseTo.rfl (1 : Matrix (Fin n) (Fin n) ℂ)
  | cons a l ih =>
    have e : ∀ el : ℕ → Elements, blockProduct n el (a :: l) = blockProduct n el l * embed2 n a.top a.bottom (el a.id).mat := by
      intro el; simp [blockProduct]
    have ha := hr a (by simp)
    rw [e, e, List.map_cons, List.sum_cons]
    have hsum : 0 ≤ (l.map fun a => c a.id).sum := List.sum_nonneg (by simp; intro b _; exact hc _)
    refine (CloseTo.mul (ih (fun b hb => hr b (by simp [hb])) (fun b hb => hp b (by simp [hb])) (fun b hb => hp' b (by simp [hb]))
      (fun b hb => hel b (by simp [hb]))) (closeTo_embed2 ha.1 ha.2.1 ha.2.2 (hc a.id) (hel a (by simp)))
      (blockProduct_passive (fun b hb => hr b (by simp [hb])) (fun b hb => hp b (by simp [hb])))
      (embed2_passive ha.1 ha.2.1 ha.2.2 (hp' a (by simp))) hsum).mono ?_
    linarith

theorem sum_columns (nodes : List Node) (f : Node → ℝ) (cols : List ℕ) (hn : cols.Nodup) :
    ((cols.flatMap (columnNodes nodes)).map f).sum = ((nodes.filter fun a => a.column ∈ cols).map f).sum := by
  induction cols with
  | nil => simp
  | cons k l ih =>
    rw [List.nodup_cons] at hn
    rw [List.flatMap_cons, List.map_append, List.sum_append, ih hn.2]
    clear ih
    unfold columnNodes
    induction nodes with
    | nil => simp
    | cons a t ih =>
      simp only [List.filter_cons, List.mem_cons]
      by_cases h1 : a.column = k
      · have h2 : a.column ∉ l := h1 ▸ hn.1
        simp only [h1, decide_true, if_true, true_or, List.map_cons, List.sum_cons]
        have h3 : k ∉ l := hn.1
        simp only [h3, decide_false, Bool.false_eq_true, if_false]
        simp only [List.mem_cons] at ih
        rw [add_assoc, ih]
      · simp only [h1, decide_false, Bool.false_eq_true, if_false, false_or]
        simp only [List.mem_cons] at ih
        by_cases h2 : a.column ∈ l
        · simp only [h2, decide_true, if_true, List.map_cons, List.sum_cons]
          rw [← ih]; ring
        · simp only [h2, decide_false, Bool.false_eq_true, if_false]
          exact ih

theorem sum_visitOrder (nodes : List Node) (back : Bool) (f : Node → ℝ) :
    ((visitOrder nodes back).map f).sum = (nodes.map f).sum := by
  unfold visitOrder
  have hnd : (columnOrder nodes back).Nodup := by
    unfold columnOrder; split_ifs
    · exact List.nodup_reverse.2 List.nodup_range
    · exact List.nodup_range
  rw [sum_columns nodes f _ hnd]
  congr 2
  rw [List.filter_eq_self]
  intro a ha
  have := (mem_visitOrder (nodes := nodes) (back := back) (a := a)).2 ha
  unfold visitOrder at this
  obtain ⟨k, hk, hk'⟩ := List.mem_flatMap.1 this
  have : a.column = k := (mem_columnNodes.1 hk').2
  simpa [this] using hk

/-! ### C129 -/

/-- C129: errors of the phases and of the couplers never get amplified. Two meshes with the same nodes,
losses (none amplifying) and phase style, whose phases and coupler angles differ, have transfer
matrices (in either direction) that differ at most by the sum over the nodes of the four angle errors,
plus the largest error of the output phases. -/
theorem C129_errors_add_up (n : ℕ) (M M' : Mesh) (hM : M.WellFormed n) (hM' : M'.WellFormed n)
    (hn : M'.nodes = M.nodes) (hlo : M'.losses = M.losses) (hst : M'.style = M.style)
    (hl : ∀ p ∈ M.losses, p.1 ≤ 0 ∧ p.2 ≤ 0) (P P' : Params) (back : Bool)
    (g : ℝ) (hg0 : 0 ≤ g) (hg : ∀ r < n, |P.gammas r - P'.gammas r| ≤ g) :
    CloseTo ((M.nodes.map fun a => |P.thetas a.id - P'.thetas a.id| + |P.phis a.id - P'.phis a.id|
        + |(M.errors.getD a.id (0, 0)).1 - (M'.errors.getD a.id (0, 0)).1|
        + |(M.errors.getD a.id (0, 0)).2 - (M'.errors.getD a.id (0, 0)).2|).sum + g)
      (M.matrix n P back) (M'.matrix n P' back) := by
  have hl' : ∀ k, (M.losses.getD k (0, 0)).1 ≤ 0 ∧ (M.losses.getD k (0, 0)).2 ≤ 0 := by
    intro k
    by_cases hk : k < M.losses.length
    · simpa [List.getD_eq_getElem?_getD, hk] using hl _ (List.getElem_mem hk)
    · simp [List.getD_eq_getElem?_getD, hk]
  set c : ℕ → ℝ := fun k => |P.thetas k - P'.thetas k| + |P.phis k - P'.phis k|
        + |(M.errors.getD k (0, 0)).1 - (M'.errors.getD k (0, 0)).1|
        + |(M.errors.getD k (0, 0)).2 - (M'.errors.getD k (0, 0)).2| with hc
  have hc0 : ∀ k, 0 ≤ c k := fun k => by positivity
  have hr : ∀ b, ∀ a ∈ visitOrder M.nodes b, a.top < n ∧ a.bottom < n ∧ a.top ≠ a.bottom :=
    fun b a ha => hM.rails a (mem_visitOrder.1 ha)
  have hp : ∀ b k, Passive (M.elements P b k).mat := fun b k => mziElements_passive _ _ _ _ (hl' k).1 (hl' k).2 _ _
  have hp' : ∀ b k, Passive (M'.elements P' b k).mat := fun b k => by
    unfold Mesh.elements
    rw [hlo]
    exact mziElements_passive _ _ _ _ (hl' k).1 (hl' k).2 _ _
  have hel : ∀ b k, CloseTo (c k) (M.elements P b k).mat (M'.elements P' b k).mat := by
    intro b k
    unfold Mesh.elements
    rw [hlo, hst]
    refine (closeTo_mzi M.style b (hl' k).1 (hl' k).2 _ _ _ _ _ _ _ _).mono ?_
    simp only [hc]; linarith
  have hblock : ∀ b, CloseTo ((M.nodes.map fun a => c a.id).sum) (blockProduct n (M.elements P b) (visitOrder M.nodes b))
      (blockProduct n (M'.elements P' b) (visitOrder M.nodes b)) := by
    intro b
    rw [← sum_visitOrder M.nodes b]
    exact closeTo_blockProduct c hc0 (hr b) (fun a _ => hp b _) (fun a _ => hp' b _) (fun a _ => hel b _)
  have hsum : 0 ≤ (M.nodes.map fun a => c a.id).sum := List.sum_nonneg (by simp; intro b _; exact hc0 _)
  have hgam : CloseTo g (diagonal fun i : Fin n => exp (I * P.gammas i.val)) (diagonal fun i : Fin n => exp (I * P'.gammas i.val)) := by
    apply closeTo_diagonal hg0
    intro i
    have := norm_shifter_sub (P.gammas i) (P'.gammas i) (le_refl (0 : ℝ))
    simp only [shifter, mul_zero, zero_div, ofReal_zero, add_zero] at this
    exact this.trans (hg i i.2)
  rw [Mesh.matrix_eq hM, Mesh.matrix_eq hM', hn]
  cases back
  · simp only [Bool.false_eq_true, if_false]
    refine (CloseTo.mul hgam (hblock false) (unitary_passive (gamma_unitary n _))
      (blockProduct_passive (hr false) fun a _ => hp' false _) hg0).mono ?_
    linarith
  · simp only [if_true]
    exact CloseTo.mul (hblock true) hgam (blockProduct_passive (hr true) fun a _ => hp true _)
      (unitary_passive (gamma_unitary n _)) hsum

/-- C129, in powers: an output power of a unit-power input moves at most by twice the sum. -/
theorem C129_output_power (n : ℕ) (A B : Matrix (Fin n) (Fin n) ℂ) (hA : Passive A) (hB : Passive B) (c : ℝ)
    (h : CloseTo c A B) (v : Fin n → ℂ) (hv : ∑ i, ‖v i‖ ^ 2 = 1) (r : Fin n) :
    |‖A.mulVec v r‖ ^ 2 - ‖B.mulVec v r‖ ^ 2| ≤ 2 * c := by
  have amp : amplitude v = 1 := by unfold amplitude; rw [hv, Real.sqrt_one]
  have hle : ∀ w : Fin n → ℂ, ‖w r‖ ≤ amplitude w := by
    intro w
    unfold amplitude
    apply Real.le_sqrt_of_sq_le
    exact Finset.single_le_sum (f := fun i => ‖w i‖ ^ 2) (fun i _ => by positivity) (Finset.mem_univ r)
  have h1 : ‖A.mulVec v r‖ ≤ 1 := (hle _).trans (by rw [← amp]; exact hA.amplitude_le v)
  have h2 : ‖B.mulVec v r‖ ≤ 1 := (hle _).trans (by rw [← amp]; exact hB.amplitude_le v)
  have h3 : |‖A.mulVec v r‖ - ‖B.mulVec v r‖| ≤ c := by
    refine (abs_norm_sub_norm_le _ _).trans ?_
    have := (hle (A.mulVec v - B.mulVec v)).trans (h v)
    rwa [amp, mul_one] at this
  have e : ‖A.mulVec v r‖ ^ 2 - ‖B.mulVec v r‖ ^ 2 = (‖A.mulVec v r‖ - ‖B.mulVec v r‖) * (‖A.mulVec v r‖ + ‖B.mulVec v r‖) := by ring
  rw [e, abs_mul]
  have h4 : |‖A.mulVec v r‖ + ‖B.mulVec v r‖| ≤ 2 := by
    rw [abs_of_nonneg (by positivity)]; linarith
  have h5 : 0 ≤ c := (abs_nonneg _).trans h3
  calc _ ≤ c * 2 := mul_le_mul h3 h4 (abs_nonneg _) h5
    _ = 2 * c := mul_comm _ _

/-- C129 applies to every tree mesh. -/
example : (idealMesh (tree 7 7 true) .differential).WellFormed 7 ∧
    ∀ p ∈ (idealMesh (tree 7 7 true) .differential).losses, p.1 ≤ 0 ∧ p.2 ≤ 0 :=
  ⟨tree_wellFormed 7 (by norm_num) _ _, fun p hp => by rw [idealMesh_lossless _ _ p hp]; simp⟩

/-! ### C130 -/

/-- Two angles differ by a multiple of `period`. -/
def SameAngle (period x y : ℝ) : Prop := ∃ k : ℤ, x = y + k * period

theorem exp_sameAngle {x y : ℝ} (h : SameAngle (2 * Real.pi) x y) : exp (I * x) = exp (I * y) := by
  obtain ⟨k, rfl⟩ := h
  have : I * ((y + k * (2 * Real.pi) : ℝ) : ℂ) = I * y + k * (2 * Real.pi * I) := by push_cast; ring
  rw [this, exp_add, exp_int_mul_two_pi_mul_I, mul_one]

theorem shifter_sameAngle {x y : ℝ} (l : ℝ) (h : SameAngle (2 * Real.pi) x y) : shifter x l = shifter y l := by
  unfold shifter
  rw [exp_add, exp_add, exp_sameAngle h]

/-- The period of the internal phase of a style. -/
noncomputable def thetaPeriod : PhaseStyle → ℝ
  | .top => 2 * Real.pi
  | .bottom => 2 * Real.pi
  | _ => 4 * Real.pi

/-- The period of the external phase of a style. -/
noncomputable def phiPeriod : PhaseStyle → ℝ
  | .differential => 4 * Real.pi
  | _ => 2 * Real.pi

theorem sameAngle_half {x y : ℝ} (h : SameAngle (4 * Real.pi) x y) : SameAngle (2 * Real.pi) (x / 2) (y / 2) := by
  obtain ⟨k, rfl⟩ := h
  exact ⟨k, by ring⟩

theorem sameAngle_neg_half {x y : ℝ} (h : SameAngle (4 * Real.pi) x y) : SameAngle (2 * Real.pi) (-x / 2) (-y / 2) := by
  obtain ⟨k, rfl⟩ := h
  exact ⟨-k, by push_cast; ring⟩

theorem innerShift_period (style : PhaseStyle) (ll : ℝ) {x y : ℝ} (h : SameAngle (thetaPeriod style) x y) :
    innerShift style ll x = innerShift style ll y := by
  cases style
  · simp only [innerShift]; rw [shifter_sameAngle ll h]
  · simp only [innerShift]; rw [shifter_sameAngle ll h]
  · simp only [innerShift]; rw [shifter_sameAngle ll (sameAngle_half h), shifter_sameAngle 0 (sameAngle_neg_half h)]
  · simp only [innerShift]; rw [shifter_sameAngle ll (sameAngle_half h), shifter_sameAngle 0 (sameAngle_neg_half h)]

theorem outerShift_period (style : PhaseStyle) (back : Bool) (lr : ℝ) {x y : ℝ} (h : SameAngle (phiPeriod style) x y) :
    outerShift style back lr x = outerShift style back lr y := by
  cases style
  · simp only [outerShift]; rw [shifter_sameAngle lr h]
  · simp only [outerShift]; rw [shifter_sameAngle lr h]
  · simp only [outerShift]; rw [shifter_sameAngle lr h]
  · simp only [outerShift]; rw [shifter_sameAngle lr (sameAngle_half h), shifter_sameAngle lr (sameAngle_neg_half h)]

/-- C130, what holds: a mesh does not change when its phases change by their periods, any losses and
errors, both directions. The periods are `2 pi` in the styles TOP and BOTTOM; the internal
phase of the other two styles, and the external one of DIFFERENTIAL, have the period `4 pi`. -/
theorem C130_periods_partial (n : ℕ) (M : Mesh) (hM : M.WellFormed n) (P P' : Params) (back : Bool)
    (ht : ∀ a ∈ M.nodes, SameAngle (thetaPeriod M.style) (P.thetas a.id) (P'.thetas a.id))
    (hp : ∀ a ∈ M.nodes, SameAngle (phiPeriod M.style) (P.phis a.id) (P'.phis a.id))
    (hg : ∀ r < n, SameAngle (2 * Real.pi) (P.gammas r) (P'.gammas r)) :
    M.matrix n P back = M.matrix n P' back := by
  have hel : ∀ b, ∀ a ∈ visitOrder M.nodes b, (M.elements P b a.id).mat = (M.elements P' b a.id).mat := by
    intro b a ha
    have ha' := mem_visitOrder.1 ha
    unfold Mesh.elements
    rw [mziElements_balanced, mziElements_balanced, innerShift_period _ _ (ht a ha'), outerShift_period _ _ _ (hp a ha')]
  have hb : ∀ b, blockProduct n (M.elements P b) (visitOrder M.nodes b) = blockProduct n (M.elements P' b) (visitOrder M.nodes b) := by
    intro b
    unfold blockProduct
    congr 2
    apply List.map_congr_left
    intro a ha
    rw [hel b a ha]
  have hd : (diagonal fun i : Fin n => exp (I * P.gammas i.val)) = diagonal fun i : Fin n => exp (I * P'.gammas i.val) := by
    congr 1; funext i; exact exp_sameAngle (hg i i.2)
  rw [Mesh.matrix_eq hM, Mesh.matrix_eq hM, hb, hb, hd]

/-- C130 for the styles TOP and BOTTOM: only the phases modulo `2 pi` matter. -/
theorem C130_top_bottom (n : ℕ) (M : Mesh) (hM : M.WellFormed n) (hs : M.style = .top ∨ M.style = .bottom) (P P' : Params) (back : Bool)
    (ht : ∀ a ∈ M.nodes, SameAngle (2 * Real.pi) (P.thetas a.id) (P'.thetas a.id))
    (hp : ∀ a ∈ M.nodes, SameAngle (2 * Real.pi) (P.phis a.id) (P'.phis a.id))
    (hg : ∀ r < n, SameAngle (2 * Real.pi) (P.gammas r) (P'.gammas r)) :
    M.matrix n P back = M.matrix n P' back := by
  have e1 : thetaPeriod M.style = 2 * Real.pi := by rcases hs with h | h <;> rw [h] <;> rfl
  have e2 : phiPeriod M.style = 2 * Real.pi := by rcases hs with h | h <;> rw [h] <;> rfl
  exact C130_periods_partial n M hM P P' back (by rwa [e1]) (by rwa [e2]) hg

/-- Three rails, a node on the rails 0 and 1 followed by one on the rails 1 and 2. -/
def vMesh (style : PhaseStyle) : Mesh := idealMesh [⟨0, 0, 1, 2, 1, 1, 0⟩, ⟨1, 1, 2, 2, 1, 1, 1⟩] style

/-- C130, the failure: in the style SYMMETRIC, adding `2 pi` to one internal phase changes even the powers. On three
rails with two nodes, the input `(0, 1, i)` gives no light at the output rail 1 for
`thetas = (pi, pi/2)`, and all of it for `thetas = (3 pi, pi/2)`. -/
theorem C130_symmetric_counterexample :
    let v : ℕ → ℂ := fun r => if r = 1 then 1 else if r = 2 then I else 0
    let P : ℝ → Params := fun x => ⟨fun k => if k = 0 then x else Real.pi / 2, fun _ => 0, fun _ => 0⟩
    ‖(vMesh .symmetric).apply (P Real.pi) false v 1‖ ^ 2 = 0 ∧
      ‖(vMesh .symmetric).apply (P (Real.pi + 2 * Real.pi)) false v 1‖ ^ 2 = 2 := by
  have hterm : mziTerms 0 0 = ⟨1 / 2, 1 / 2, 1 / 2, 1 / 2⟩ := by
    have h : Real.sqrt 2 / 2 * (Real.sqrt 2 / 2) = 1 / 2 := by
      have := Real.mul_self_sqrt (show (0 : ℝ) ≤ 2 by norm_num); linarith
    simp only [mziTerms, add_zero, Real.cos_pi_div_four, Real.sin_pi_div_four, h]
  have hq : exp (I * (Real.pi / 2)) = I := by rw [mul_comm]; exact exp_pi_div_two_mul_I
  have key : ∀ x : ℝ, (vMesh .symmetric).apply ⟨fun k => if k = 0 then x else Real.pi / 2, fun _ => 0, fun _ => 0⟩ false
      (fun r => if r = 1 then 1 else if r = 2 then I else 0) 1 =
        exp (I * ((-(Real.pi / 2 / 2) : ℝ) : ℂ)) * (((I - 1) / 2 * ((1 - exp (I * x)) / 2 * exp (I * ((-(x / 2) : ℝ) : ℂ)))) - (1 + I) / 2) := by
    intro x
    simp [vMesh, idealMesh, Mesh.apply, columnsApply, columnOrder, numColumns, columnNodes, parallelTransform, scatter, columnWrites,
      gammaApply, List.range_succ, Mesh.elements, mziElements, Function.update]
    rw [hterm, hq]
    push_cast
    linear_combination exp (-(I * (Real.pi / 2 / 2))) * ((1 + I) / 2) * I_sq
  have h1 : exp (I * (Real.pi : ℂ)) = -1 := by rw [mul_comm]; exact exp_pi_mul_I
  have h2 : exp (I * ((-(Real.pi / 2) : ℝ) : ℂ)) = -I := by
    have : I * ((-(Real.pi / 2) : ℝ) : ℂ) = -(I * (Real.pi / 2)) := by push_cast; ring
    rw [this, exp_neg, hq, inv_I]
  have h3 : exp (I * ((Real.pi + 2 * Real.pi : ℝ) : ℂ)) = -1 := by
    rw [exp_sameAngle ⟨1, by push_cast; ring⟩, h1]
  have h4 : exp (I * ((-((Real.pi + 2 * Real.pi) / 2) : ℝ) : ℂ)) = I := by
    have : I * ((-((Real.pi + 2 * Real.pi) / 2) : ℝ) : ℂ) = I * ((-(Real.pi / 2) : ℝ) : ℂ) + -(I * Real.pi) := by push_cast; ring
    rw [this, exp_add, exp_neg, h1, h2]; norm_num
  constructor
  · simp only [key, h1, h2]
    have : (I - 1) / 2 * ((1 - -1) / 2 * -I) - (1 + I) / 2 = (0 : ℂ) := by linear_combination (-(1 : ℂ) / 2) * I_sq
    rw [this]; simp
  · simp only [key, h3, h4]
    have : (I - 1) / 2 * ((1 - -1) / 2 * I) - (1 + I) / 2 = -(1 + I) := by linear_combination ((1 : ℂ) / 2) * I_sq
    rw [this, norm_mul, norm_exp_I, one_mul, norm_neg, ← normSq_eq_norm_sq]
    simp [normSq_apply]; norm_num

/-- The hypotheses of C130 in a case: `P` with all phases `2 pi` higher. -/
example : (vMesh .top).WellFormed 3 ∧ SameAngle (2 * Real.pi) (1 + 2 * Real.pi) 1 ∧ (1 : ℝ) + 2 * Real.pi ≠ 1 := by
  refine ⟨⟨rfl, rfl, by simp [vMesh, idealMesh], by simp [vMesh, idealMesh], ?_⟩, ⟨1, by push_cast; ring⟩, by simp [Real.pi_ne_zero]⟩
  simp [vMesh, idealMesh, ColumnsDisjoint]

end Simphox
