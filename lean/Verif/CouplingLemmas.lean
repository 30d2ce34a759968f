import Verif.Coupling
import Mathlib.Tactic.FinCases

/-! # Lemmas about 2x2 blocks and their embedding -/

namespace Simphox

open Matrix Complex

/-! ### Embedding -/

theorem embed2_mulVec {n i j : ℕ} (hi : i < n) (hj : j < n) (hij : i ≠ j)
    (m : Matrix (Fin 2) (Fin 2) ℂ) (v : Fin n → ℂ) (a : Fin n) :
    (embed2 n i j m).mulVec v a =
      if a.val = i then m 0 0 * v ⟨i, hi⟩ + m 0 1 * v ⟨j, hj⟩
      else if a.val = j then m 1 0 * v ⟨i, hi⟩ + m 1 1 * v ⟨j, hj⟩
      else v a := by
  have hne : (⟨i, hi⟩ : Fin n) ≠ ⟨j, hj⟩ := by simpa using hij
  simp only [mulVec, dotProduct, embed2, of_apply]
  split_ifs with h1 h2
  · have e : ∀ b : Fin n, (if a.val = j ∧ b.val = j then m 1 1
        else if a.val = j ∧ b.val = i then m 1 0
        else if a.val = i ∧ b.val = j then m 0 1
        else if a.val = i ∧ b.val = i then m 0 0
        else if a = b then 1 else 0) * v b =
        (if b = ⟨i, hi⟩ then m 0 0 * v b else 0) + (if b = ⟨j, hj⟩ then m 0 1 * v b else 0) := by
      intro b
      by_cases hb : b = ⟨i, hi⟩
      · subst hb; simp [h1, hij]
      · by_cases hb' : b = ⟨j, hj⟩
        · subst hb'; simp [h1, hij, hne.symm]
        · have h3 : b.val ≠ i := fun h => hb (Fin.ext h)
          have h4 : b.val ≠ j := fun h => hb' (Fin.ext h)
          have h5 : a ≠ b := fun h => h3 (by rw [← h, h1])
          simp [h3, h4, h5, hb, hb']
    simp only [e, Finset.sum_add_distrib, Finset.sum_ite_eq', Finset.mem_univ, if_true]
  · have e : ∀ b : Fin n, (if a.val = j ∧ b.val = j then m 1 1
        else if a.val = j ∧ b.val = i then m 1 0
        else if a.val = i ∧ b.val = j then m 0 1
        else if a.val = i ∧ b.val = i then m 0 0
        else if a = b then 1 else 0) * v b =
        (if b = ⟨i, hi⟩ then m 1 0 * v b else 0) + (if b = ⟨j, hj⟩ then m 1 1 * v b else 0) := by
      intro b
      by_cases hb : b = ⟨i, hi⟩
      · subst hb; simp [h2, hij]
      · by_cases hb' : b = ⟨j, hj⟩
        · subst hb'; simp [h2, hne.symm]
        · have h3 : b.val ≠ i := fun h => hb (Fin.ext h)
          have h4 : b.val ≠ j := fun h => hb' (Fin.ext h)
          have h5 : a ≠ b := fun h => h4 (by rw [← h, h2])
          simp [h3, h4, h5, hb, hb', h1]
    simp only [e, Finset.sum_add_distrib, Finset.sum_ite_eq', Finset.mem_univ, if_true]
  · simp only [h1, h2, false_and, if_false, ite_mul, one_mul, zero_mul, Finset.sum_ite_eq,
      Finset.mem_univ, if_true]

theorem mulVec_ext {n : ℕ} {A B : Matrix (Fin n) (Fin n) ℂ} (h : ∀ v, A.mulVec v = B.mulVec v) :
    A = B := by
  ext i j
  have := congrFun (h (Pi.single j 1)) i
  simpa using this

theorem embed2_mul {n i j : ℕ} (hi : i < n) (hj : j < n) (hij : i ≠ j)
    (m m' : Matrix (Fin 2) (Fin 2) ℂ) :
    embed2 n i j (m * m') = embed2 n i j m * embed2 n i j m' := by
  apply mulVec_ext
  intro v
  ext a
  rw [← mulVec_mulVec, embed2_mulVec hi hj hij, embed2_mulVec hi hj hij,
    embed2_mulVec hi hj hij, embed2_mulVec hi hj hij, embed2_mulVec hi hj hij]
  simp only [Matrix.mul_apply, Fin.sum_univ_two, hij, hij.symm, if_true, if_false]
  split_ifs
  · ring
  · ring
  · rfl

theorem embed2_one {n i j : ℕ} (hi : i < n) (hj : j < n) (hij : i ≠ j) :
    embed2 n i j 1 = 1 := by
  apply mulVec_ext
  intro v
  ext a
  rw [embed2_mulVec hi hj hij]
  simp only [one_mulVec, Matrix.one_apply_eq, one_mul, ne_eq, zero_ne_one, not_false_eq_true,
    Matrix.one_apply_ne, zero_mul, add_zero, one_ne_zero, zero_add]
  split_ifs with h1 h2
  · congr 1; exact Fin.ext h1.symm
  · congr 1; exact Fin.ext h2.symm
  · rfl

theorem embed2_transpose (n : ℕ) {i j : ℕ} (hij : i ≠ j) (m : Matrix (Fin 2) (Fin 2) ℂ) :
    (embed2 n i j m)ᵀ = embed2 n i j mᵀ := by
  ext a b
  simp only [transpose_apply, embed2, of_apply]
  by_cases h1 : a.val = i <;> by_cases h2 : a.val = j <;> by_cases h3 : b.val = i <;>
    by_cases h4 : b.val = j <;> simp_all [eq_comm]

theorem embed2_conjTranspose (n : ℕ) {i j : ℕ} (hij : i ≠ j) (m : Matrix (Fin 2) (Fin 2) ℂ) :
    (embed2 n i j m)ᴴ = embed2 n i j mᴴ := by
  have : (embed2 n i j m).map star = embed2 n i j (m.map star) := by
    ext a b
    simp only [map_apply, embed2, of_apply]
    split_ifs <;> simp
  rw [conjTranspose, conjTranspose, transpose_map, this, embed2_transpose n hij, transpose_map]

theorem embed2_unitary {n i j : ℕ} (hi : i < n) (hj : j < n) (hij : i ≠ j)
    {m : Matrix (Fin 2) (Fin 2) ℂ} (hm : m ∈ unitaryGroup (Fin 2) ℂ) :
    embed2 n i j m ∈ unitaryGroup (Fin n) ℂ := by
  rw [mem_unitaryGroup_iff, star_eq_conjTranspose, embed2_conjTranspose n hij,
    ← embed2_mul hi hj hij]
  rw [mem_unitaryGroup_iff, star_eq_conjTranspose] at hm
  rw [hm, embed2_one hi hj hij]

/-! ### Passive matrices -/

/-- Specification: a matrix never increases the total power. -/
def Passive {n : ℕ} (A : Matrix (Fin n) (Fin n) ℂ) : Prop :=
  ∀ v : Fin n → ℂ, ∑ i, ‖A.mulVec v i‖ ^ 2 ≤ ∑ i, ‖v i‖ ^ 2

theorem Passive.mul {n : ℕ} {A B : Matrix (Fin n) (Fin n) ℂ} (hA : Passive A) (hB : Passive B) :
    Passive (A * B) := by
  intro v
  rw [← mulVec_mulVec]
  exact (hA _).trans (hB v)

theorem Passive.one {n : ℕ} : Passive (1 : Matrix (Fin n) (Fin n) ℂ) := by
  intro v; simp

theorem sum_normSq_eq {n : ℕ} (v : Fin n → ℂ) :
    ((∑ i, ‖v i‖ ^ 2 : ℝ) : ℂ) = star v ⬝ᵥ v := by
  simp only [dotProduct, Pi.star_apply, ofReal_sum, ofReal_pow]
  apply Finset.sum_congr rfl
  intro i _
  rw [RCLike.star_def, mul_comm, Complex.mul_conj, Complex.normSq_eq_norm_sq]
  push_cast; rfl

theorem unitary_power {n : ℕ} {A : Matrix (Fin n) (Fin n) ℂ} (hA : A ∈ unitaryGroup (Fin n) ℂ)
    (v : Fin n → ℂ) : ∑ i, ‖A.mulVec v i‖ ^ 2 = ∑ i, ‖v i‖ ^ 2 := by
  have h : ((∑ i, ‖A.mulVec v i‖ ^ 2 : ℝ) : ℂ) = ((∑ i, ‖v i‖ ^ 2 : ℝ) : ℂ) := by
    rw [sum_normSq_eq, sum_normSq_eq, star_mulVec, ← dotProduct_mulVec, mulVec_mulVec]
    rw [mem_unitaryGroup_iff', star_eq_conjTranspose] at hA
    rw [hA, one_mulVec]
  exact_mod_cast h

theorem unitary_passive {n : ℕ} {A : Matrix (Fin n) (Fin n) ℂ} (hA : A ∈ unitaryGroup (Fin n) ℂ) :
    Passive A := fun v => (unitary_power hA v).le

theorem diagonal_passive {n : ℕ} {d : Fin n → ℂ} (hd : ∀ i, ‖d i‖ ≤ 1) : Passive (diagonal d) := by
  intro v
  apply Finset.sum_le_sum
  intro i _
  rw [mulVec_diagonal, norm_mul]
  have := hd i
  have h0 := norm_nonneg (d i)
  have h1 := norm_nonneg (v i)
  apply pow_le_pow_left₀ (by positivity)
  nlinarith

theorem diagonal_unitary {n : ℕ} {d : Fin n → ℂ} (hd : ∀ i, ‖d i‖ = 1) :
    diagonal d ∈ unitaryGroup (Fin n) ℂ := by
  rw [mem_unitaryGroup_iff, star_eq_conjTranspose, diagonal_conjTranspose, diagonal_mul_diagonal,
    ← diagonal_one]
  congr 1
  funext i
  rw [Pi.star_apply, RCLike.star_def, Complex.mul_conj, Complex.normSq_eq_norm_sq, hd i]; simp

theorem embed2_passive {n i j : ℕ} (hi : i < n) (hj : j < n) (hij : i ≠ j)
    {m : Matrix (Fin 2) (Fin 2) ℂ} (hm : Passive m) : Passive (embed2 n i j m) := by
  intro v
  have hne : (⟨i, hi⟩ : Fin n) ≠ ⟨j, hj⟩ := by simpa using hij
  have key : ∀ w : Fin n → ℝ, ∑ a, w a = w ⟨i, hi⟩ + (w ⟨j, hj⟩ +
      ∑ a ∈ (Finset.univ.erase ⟨i, hi⟩).erase ⟨j, hj⟩, w a) := by
    intro w
    rw [Finset.add_sum_erase _ _ (Finset.mem_erase.2 ⟨hne.symm, Finset.mem_univ _⟩),
      Finset.add_sum_erase _ _ (Finset.mem_univ _)]
  rw [key, key (fun a => ‖v a‖ ^ 2)]
  have h2 := hm ![v ⟨i, hi⟩, v ⟨j, hj⟩]
  simp only [Fin.sum_univ_two, mulVec, dotProduct, cons_val_zero, cons_val_one] at h2
  have h3 : ∑ a ∈ (Finset.univ.erase (⟨i, hi⟩ : Fin n)).erase ⟨j, hj⟩,
      ‖(embed2 n i j m).mulVec v a‖ ^ 2 =
      ∑ a ∈ (Finset.univ.erase (⟨i, hi⟩ : Fin n)).erase ⟨j, hj⟩, ‖v a‖ ^ 2 := by
    apply Finset.sum_congr rfl
    intro a ha
    simp only [Finset.mem_erase, ne_eq] at ha
    have h4 : a.val ≠ j := fun h => ha.1 (Fin.ext h)
    have h5 : a.val ≠ i := fun h => ha.2.1 (Fin.ext h)
    rw [embed2_mulVec hi hj hij]; simp [h4, h5]
  rw [h3, embed2_mulVec hi hj hij, embed2_mulVec hi hj hij]
  simp only [hij.symm, if_true, if_false]
  linarith

/-! ### Factorisation of the elements -/

/-- An ideal coupler with angle `x`. -/
noncomputable def coupler (x : ℝ) : Matrix (Fin 2) (Fin 2) ℂ :=
  !![(Real.cos x : ℂ), I * Real.sin x; I * Real.sin x, Real.cos x]

theorem coupler_unitary (x : ℝ) : coupler x ∈ unitaryGroup (Fin 2) ℂ := by
  rw [mem_unitaryGroup_iff, star_eq_conjTranspose]
  have h : (Real.cos x : ℂ) * Real.cos x + Real.sin x * Real.sin x = 1 := by
    have := Real.cos_sq_add_sin_sq x
    exact_mod_cast (by nlinarith : Real.cos x * Real.cos x + Real.sin x * Real.sin x = 1)
  have hI : I * I = -1 := I_mul_I
  ext a b
  fin_cases a <;> fin_cases b <;>
    simp [coupler, Matrix.mul_apply, Fin.sum_univ_two, conjTranspose_apply, -ofReal_cos,
      -ofReal_sin, -ofReal_neg]
  · linear_combination h - Real.sin x * Real.sin x * hI
  · ring
  · ring
  · linear_combination h - Real.sin x * Real.sin x * hI

/-- Diagonal 2x2 matrix. -/
def diag2 (a b : ℂ) : Matrix (Fin 2) (Fin 2) ℂ := !![a, 0; 0, b]

theorem diag2_eq (a b : ℂ) : diag2 a b = diagonal ![a, b] := by
  ext i j; fin_cases i <;> fin_cases j <;> simp [diag2]

theorem diag2_unitary {a b : ℂ} (ha : ‖a‖ = 1) (hb : ‖b‖ = 1) :
    diag2 a b ∈ unitaryGroup (Fin 2) ℂ := by
  rw [diag2_eq]; apply diagonal_unitary
  intro i; fin_cases i <;> simpa

theorem diag2_passive {a b : ℂ} (ha : ‖a‖ ≤ 1) (hb : ‖b‖ ≤ 1) : Passive (diag2 a b) := by
  rw [diag2_eq]; apply diagonal_passive
  intro i; fin_cases i <;> simpa

/-- Amplitude factor of a phase shifter with phase `x` and loss `l` dB. -/
noncomputable def shifter (x l : ℝ) : ℂ := exp (I * x + ((Real.log 10 * l / 20 : ℝ) : ℂ))

theorem norm_shifter (x l : ℝ) : ‖shifter x l‖ = Real.exp (Real.log 10 * l / 20) := by
  unfold shifter
  rw [Complex.norm_exp, add_re, ofReal_re, mul_comm I, re_ofReal_mul, I_re]; simp

theorem norm_shifter_zero (x : ℝ) : ‖shifter x 0‖ = 1 := by rw [norm_shifter]; simp

theorem norm_shifter_le {l : ℝ} (x : ℝ) (hl : l ≤ 0) : ‖shifter x l‖ ≤ 1 := by
  rw [norm_shifter, Real.exp_le_one_iff]
  have : 0 < Real.log 10 := Real.log_pos (by norm_num)
  nlinarith

/-- The part of an MZI between its two couplers, phase on the top arm (`.bottom`: bottom arm). -/
noncomputable def mziCore (style : PhaseStyle) (el er ll theta : ℝ) : Matrix (Fin 2) (Fin 2) ℂ :=
  coupler (Real.pi / 4 + er) *
    (match style with
      | .bottom => diag2 1 (shifter theta ll)
      | _ => diag2 (shifter theta ll) 1) * coupler (Real.pi / 4 + el)

/-- The external phase shifters. -/
noncomputable def mziOuter (style : PhaseStyle) (back : Bool) (lr theta phi : ℝ) :
    Matrix (Fin 2) (Fin 2) ℂ :=
  match style with
  | .top => diag2 (shifter phi lr) 1
  | .bottom => diag2 1 (shifter phi lr)
  | .symmetric => diag2 (shifter (phi - theta / 2) lr) (shifter (phi - theta / 2) lr)
  | .differential =>
    if back then diag2 (shifter ((phi - theta) / 2) lr) (shifter ((-phi - theta) / 2) lr)
    else diag2 (shifter ((-phi - theta) / 2) lr) (shifter ((phi - theta) / 2) lr)

/-- `top` and `bottom` put the external phase at the output when going back. -/
def outerLast (style : PhaseStyle) (back : Bool) : Bool :=
  back && (style == .top || style == .bottom)

theorem mk2_ext {a b c d a' b' c' d' : ℂ} (h1 : a = a') (h2 : b = b') (h3 : c = c') (h4 : d = d') :
    !![a, b; c, d] = !![a', b'; c', d'] := by rw [h1, h2, h3, h4]

theorem mul_diag2 (a b c d x y : ℂ) :
    !![a, b; c, d] * diag2 x y = !![a * x, b * y; c * x, d * y] := by
  simp [diag2, Matrix.mul_fin_two]

theorem diag2_mul (a b c d x y : ℂ) :
    diag2 x y * !![a, b; c, d] = !![x * a, x * b; y * c, y * d] := by
  simp [diag2, Matrix.mul_fin_two]

theorem mziCore_bottom (el er ll theta : ℝ) :
    mziCore .bottom el er ll theta =
      let T := mziTerms el er
      let A := shifter theta ll
      !![-(T.ss : ℂ) * A + T.cc, I * (T.sc * A + T.cs); I * (T.cs * A + T.sc), T.cc * A - T.ss] := by
  have hI : I * I = -1 := I_mul_I
  simp only [mziCore, coupler, mul_diag2, Matrix.mul_fin_two, mziTerms, ofReal_mul]
  apply mk2_ext
  · linear_combination ((Real.sin (Real.pi / 4 + er) : ℂ) * shifter theta ll *
      Real.sin (Real.pi / 4 + el)) * hI
  · ring
  · ring
  · linear_combination ((Real.sin (Real.pi / 4 + er) : ℂ) * Real.sin (Real.pi / 4 + el)) * hI

theorem mziCore_top (style : PhaseStyle) (hs : style ≠ .bottom) (el er ll theta : ℝ) :
    mziCore style el er ll theta =
      let T := mziTerms el er
      let A := shifter theta ll
      !![-(T.ss : ℂ) + T.cc * A, I * (T.sc + T.cs * A); I * (T.cs + T.sc * A), T.cc - T.ss * A] := by
  have hI : I * I = -1 := I_mul_I
  have h1 : mziCore style el er ll theta = coupler (Real.pi / 4 + er) *
      diag2 (shifter theta ll) 1 * coupler (Real.pi / 4 + el) := by
    cases style <;> first | rfl | exact absurd rfl hs
  rw [h1]
  simp only [coupler, mul_diag2, Matrix.mul_fin_two, mziTerms, ofReal_mul]
  apply mk2_ext
  · linear_combination ((Real.sin (Real.pi / 4 + er) : ℂ) * Real.sin (Real.pi / 4 + el)) * hI
  · ring
  · ring
  · linear_combination ((Real.sin (Real.pi / 4 + er) : ℂ) * shifter theta ll *
        Real.sin (Real.pi / 4 + el)) * hI

theorem mziElements_factor (style : PhaseStyle) (back : Bool) (el er ll lr theta phi : ℝ) :
    (mziElements style back el er ll lr theta phi).mat =
      if outerLast style back then
        mziOuter style back lr theta phi * mziCore style el er ll theta
      else mziCore style el er ll theta * mziOuter style back lr theta phi := by
  have hA : ∀ x l : ℝ, exp (I * x + ((Real.log 10 * l / 20 : ℝ) : ℂ)) = shifter x l :=
    fun _ _ => rfl
  have h2 : ∀ x l : ℝ, ∀ z : ℂ, z = (x : ℂ) →
      exp (I * z + ((Real.log 10 * l / 20 : ℝ) : ℂ)) = shifter x l := by
    rintro x l _ rfl; rfl
  cases style
  · rw [mziCore_top _ (by simp)]
    cases back
    · simp only [Elements.mat, mziElements, mziOuter, outerLast, mul_diag2, diag2_mul, hA,
        Bool.false_and, Bool.true_and, Bool.false_eq_true, if_false, if_true, sub_zero, mul_one,
        mul_zero, sub_self, exp_zero, one_mul, add_zero, beq_self_eq_true, Bool.true_or,
        Bool.or_true] <;> (try rfl)
    · simp only [Elements.mat, mziElements, mziOuter, outerLast, mul_diag2, diag2_mul, hA,
        Bool.false_and, Bool.true_and, Bool.false_eq_true, if_false, if_true, sub_zero, mul_one,
        mul_zero, sub_self, exp_zero, one_mul, add_zero, beq_self_eq_true, Bool.true_or,
        Bool.or_true] <;> (try rfl)
      apply mk2_ext <;> ring
  · rw [mziCore_bottom]
    cases back
    · simp only [Elements.mat, mziElements, mziOuter, outerLast, mul_diag2, diag2_mul, hA,
        Bool.false_and, Bool.true_and, Bool.false_eq_true, if_false, if_true, sub_zero, mul_one,
        mul_zero, sub_self, exp_zero, one_mul, add_zero, beq_self_eq_true, Bool.true_or,
        Bool.or_true] <;> (try rfl)
    · simp only [Elements.mat, mziElements, mziOuter, outerLast, mul_diag2, diag2_mul, hA,
        Bool.false_and, Bool.true_and, Bool.false_eq_true, if_false, if_true, sub_zero, mul_one,
        mul_zero, sub_self, exp_zero, one_mul, add_zero, beq_self_eq_true, Bool.true_or,
        Bool.or_true] <;> (try rfl)
      apply mk2_ext <;> ring
  · rw [mziCore_top _ (by simp)]
    have e := h2 (phi - theta / 2) lr (phi - theta / 2) (by push_cast; ring)
    have hd : (PhaseStyle.symmetric == PhaseStyle.top || PhaseStyle.symmetric == PhaseStyle.bottom)
      = false := rfl
    cases back
    · simp only [Elements.mat, mziElements, mziOuter, outerLast, mul_diag2, diag2_mul, hA,
        Bool.false_and, Bool.true_and, Bool.false_eq_true, if_false, if_true, sub_zero, mul_one,
        mul_zero, sub_self, exp_zero, one_mul, add_zero, beq_self_eq_true, Bool.true_or,
        Bool.or_true, e, hd] <;> (try rfl)
    · simp only [Elements.mat, mziElements, mziOuter, outerLast, mul_diag2, diag2_mul, hA,
        Bool.false_and, Bool.true_and, Bool.false_eq_true, if_false, if_true, sub_zero, mul_one,
        mul_zero, sub_self, exp_zero, one_mul, add_zero, beq_self_eq_true, Bool.true_or,
        Bool.or_true, e, hd] <;> (try rfl)
  · rw [mziCore_top _ (by simp)]
    have e1 := h2 ((phi - theta) / 2) lr ((phi - theta) / 2) (by push_cast; ring)
    have e2 := h2 ((-phi - theta) / 2) lr ((-phi - theta) / 2) (by push_cast; ring)
    have e3 := h2 ((phi - theta) / 2) lr ((-phi - theta) / 2 + phi) (by push_cast; ring)
    have e4 := h2 ((-phi - theta) / 2) lr ((phi - theta) / 2 - phi) (by push_cast; ring)
    have hd : (PhaseStyle.differential == PhaseStyle.top ||
      PhaseStyle.differential == PhaseStyle.bottom) = false := rfl
    cases back
    · simp only [Elements.mat, mziElements, mziOuter, outerLast, mul_diag2, diag2_mul, hA,
        Bool.false_and, Bool.true_and, Bool.false_eq_true, if_false, if_true, sub_zero, mul_one,
        mul_zero, sub_self, exp_zero, one_mul, add_zero, beq_self_eq_true, Bool.true_or,
        Bool.or_true, e1, e2, e3, e4, hd] <;> (try rfl)
    · simp only [Elements.mat, mziElements, mziOuter, outerLast, mul_diag2, diag2_mul, hA,
        Bool.false_and, Bool.true_and, Bool.false_eq_true, if_false, if_true, sub_zero, mul_one,
        mul_zero, sub_self, exp_zero, one_mul, add_zero, beq_self_eq_true, Bool.true_or,
        Bool.or_true, e1, e2, e3, e4, hd] <;> (try rfl)

theorem mziOuter_unitary (style : PhaseStyle) (back : Bool) (theta phi : ℝ) :
    mziOuter style back 0 theta phi ∈ unitaryGroup (Fin 2) ℂ := by
  cases style <;> cases back <;> apply diag2_unitary <;> simp [norm_shifter_zero]

theorem mziOuter_passive (style : PhaseStyle) (back : Bool) {lr : ℝ} (hl : lr ≤ 0)
    (theta phi : ℝ) : Passive (mziOuter style back lr theta phi) := by
  cases style <;> cases back <;> apply diag2_passive <;> simp [norm_shifter_le _ hl]

theorem mziCore_unitary (style : PhaseStyle) (el er theta : ℝ) :
    mziCore style el er 0 theta ∈ unitaryGroup (Fin 2) ℂ := by
  unfold mziCore
  refine mul_mem (mul_mem (coupler_unitary _) ?_) (coupler_unitary _)
  cases style <;> apply diag2_unitary <;> simp [norm_shifter_zero]

theorem mziCore_passive (style : PhaseStyle) {ll : ℝ} (hl : ll ≤ 0) (el er theta : ℝ) :
    Passive (mziCore style el er ll theta) := by
  unfold mziCore
  refine Passive.mul (Passive.mul (unitary_passive (coupler_unitary _)) ?_)
    (unitary_passive (coupler_unitary _))
  cases style <;> apply diag2_passive <;> simp [norm_shifter_le _ hl]

theorem mziElements_unitary (style : PhaseStyle) (back : Bool) (el er theta phi : ℝ) :
    (mziElements style back el er 0 0 theta phi).mat ∈ unitaryGroup (Fin 2) ℂ := by
  rw [mziElements_factor]
  split_ifs
  · exact mul_mem (mziOuter_unitary _ _ _ _) (mziCore_unitary _ _ _ _)
  · exact mul_mem (mziCore_unitary _ _ _ _) (mziOuter_unitary _ _ _ _)

theorem mziElements_passive (style : PhaseStyle) (back : Bool) (el er : ℝ) {ll lr : ℝ}
    (hl : ll ≤ 0) (hr : lr ≤ 0) (theta phi : ℝ) :
    Passive (mziElements style back el er ll lr theta phi).mat := by
  rw [mziElements_factor]
  split_ifs
  · exact (mziOuter_passive _ _ hr _ _).mul (mziCore_passive _ hl _ _ _)
  · exact (mziCore_passive _ hl _ _ _).mul (mziOuter_passive _ _ hr _ _)

end Simphox
