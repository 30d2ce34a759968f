import Verif.HaarMesh
import Mathlib.MeasureTheory.Group.Convolution

/-!
# Random networks of crossing lines (C207): the convolution algebra of laws of random matrices
-/

namespace Simphox

open Matrix Complex MeasureTheory ProbabilityTheory ComplexConjugate
open scoped BoundedContinuousFunction ENNReal

instance instMulMat (n : ℕ) : MeasurableMul₂ (Matrix (Fin n) (Fin n) ℂ) := ⟨measurable_mat_mul measurable_fst measurable_snd⟩

instance instUniformProb : IsProbabilityMeasure uniform01 := ⟨by simp [uniform01]⟩

/-- Laws of random `n × n` matrices. -/
def Law (n : ℕ) : Type := {μ : Measure (Matrix (Fin n) (Fin n) ℂ) // IsProbabilityMeasure μ}

namespace Law

variable {n : ℕ}

instance (X : Law n) : IsProbabilityMeasure X.1 := X.2

/-- The law of the product of independent matrices. -/
noncomputable instance : Mul (Law n) := ⟨fun X Y => ⟨X.1.mconv Y.1, inferInstance⟩⟩

noncomputable instance : One (Law n) := ⟨⟨Measure.dirac 1, inferInstance⟩⟩

theorem ext_lint {X Y : Law n} (h : ∀ f : Matrix (Fin n) (Fin n) ℂ → ℝ≥0∞, Measurable f → ∫⁻ M, f M ∂X.1 = ∫⁻ M, f M ∂Y.1) : X = Y :=
  Subtype.ext (Measure.ext_of_lintegral _ h)

theorem lint_mul (X Y : Law n) {f : Matrix (Fin n) (Fin n) ℂ → ℝ≥0∞} (hf : Measurable f) :
    ∫⁻ M, f M ∂(X * Y).1 = ∫⁻ x, ∫⁻ y, f (x * y) ∂Y.1 ∂X.1 := Measure.lintegral_mconv hf

noncomputable instance : Monoid (Law n) where
  mul_assoc X Y Z := Subtype.ext (Measure.mconv_assoc X.1 Y.1 Z.1)
  one_mul X := Subtype.ext (Measure.dirac_one_mconv X.1)
  mul_one X := Subtype.ext (Measure.mconv_dirac_one X.1)

/-- The law of a matrix with random parameters. -/
noncomputable def of {α : Type} [MeasurableSpace α] (ρ : Measure α) [IsProbabilityMeasure ρ] (f : α → Matrix (Fin n) (Fin n) ℂ) (hf : Measurable f) : Law n :=
  ⟨ρ.map f, Measure.isProbabilityMeasure_map hf.aemeasurable⟩

/-- The law of a fixed matrix. -/
noncomputable def pt (g : Matrix (Fin n) (Fin n) ℂ) : Law n := ⟨Measure.dirac g, inferInstance⟩

theorem lint_of {α : Type} [MeasurableSpace α] (ρ : Measure α) [IsProbabilityMeasure ρ] (f : α → Matrix (Fin n) (Fin n) ℂ) (hf : Measurable f)
    {F : Matrix (Fin n) (Fin n) ℂ → ℝ≥0∞} (hF : Measurable F) : ∫⁻ M, F M ∂(of ρ f hf).1 = ∫⁻ a, F (f a) ∂ρ := lintegral_map hF hf

theorem of_mul_of {α β : Type} [MeasurableSpace α] [MeasurableSpace β] (ρ : Measure α) [IsProbabilityMeasure ρ] (σ : Measure β) [IsProbabilityMeasure σ]
    (f : α → Matrix (Fin n) (Fin n) ℂ) (hf : Measurable f) (g : β → Matrix (Fin n) (Fin n) ℂ) (hg : Measurable g) :
    of ρ f hf * of σ g hg = of (ρ.prod σ) (fun p => f p.1 * g p.2) (measurable_mat_mul (hf.comp measurable_fst) (hg.comp measurable_snd)) := by
  refine Subtype.ext ?_
  show (ρ.map f).mconv (σ.map g) = _
  rw [Measure.mconv, Measure.map_prod_map _ _ hf hg, Measure.map_map measurable_mul (hf.prodMap hg)]
  rfl

theorem of_comm {α β : Type} [MeasurableSpace α] [MeasurableSpace β] (ρ : Measure α) [IsProbabilityMeasure ρ] (σ : Measure β) [IsProbabilityMeasure σ]
    (f : α → Matrix (Fin n) (Fin n) ℂ) (hf : Measurable f) (g : β → Matrix (Fin n) (Fin n) ℂ) (hg : Measurable g) (h : ∀ a b, f a * g b = g b * f a) :
    of ρ f hf * of σ g hg = of σ g hg * of ρ f hf := by
  rw [of_mul_of, of_mul_of]
  refine Subtype.ext ?_
  have m : Measurable fun p : β × α => g p.1 * f p.2 := measurable_mat_mul (hg.comp measurable_fst) (hf.comp measurable_snd)
  show (ρ.prod σ).map _ = (σ.prod ρ).map _
  rw [← Measure.prod_swap, Measure.map_map _ measurable_swap]
  · congr 1
    funext p
    exact h p.2 p.1
  · exact measurable_mat_mul (hf.comp measurable_fst) (hg.comp measurable_snd)

theorem pt_eq (g : Matrix (Fin n) (Fin n) ℂ) : pt g = of (Measure.dirac ()) (fun _ => g) measurable_const :=
  Subtype.ext (by show Measure.dirac g = (Measure.dirac ()).map fun _ => g; rw [Measure.map_dirac' measurable_const])

theorem pt_mul_pt (g h : Matrix (Fin n) (Fin n) ℂ) : pt g * pt h = pt (g * h) := Subtype.ext (Measure.dirac_mconv_dirac g h)

theorem pt_one : pt (1 : Matrix (Fin n) (Fin n) ℂ) = 1 := rfl

theorem of_mul_pt {α : Type} [MeasurableSpace α] (ρ : Measure α) [IsProbabilityMeasure ρ] (f : α → Matrix (Fin n) (Fin n) ℂ) (hf : Measurable f)
    (g : Matrix (Fin n) (Fin n) ℂ) : of ρ f hf * pt g = of ρ (fun a => f a * g) (measurable_mat_mul hf measurable_const) := by
  refine Subtype.ext ?_
  show (ρ.map f).mconv (Measure.dirac g) = _
  have m : Measurable fun y : Matrix (Fin n) (Fin n) ℂ => y * g := measurable_mat_mul measurable_id measurable_const
  rw [Measure.mconv_dirac, Measure.map_map m hf]
  rfl

theorem pt_mul_of {α : Type} [MeasurableSpace α] (ρ : Measure α) [IsProbabilityMeasure ρ] (f : α → Matrix (Fin n) (Fin n) ℂ) (hf : Measurable f)
    (g : Matrix (Fin n) (Fin n) ℂ) : pt g * of ρ f hf = of ρ (fun a => g * f a) (measurable_mat_mul measurable_const hf) := by
  refine Subtype.ext ?_
  show (Measure.dirac g).mconv (ρ.map f) = _
  have m : Measurable fun y : Matrix (Fin n) (Fin n) ℂ => g * y := measurable_mat_mul measurable_const measurable_id
  rw [Measure.dirac_mconv, Measure.map_map m hf]
  rfl

theorem of_congr {α : Type} [MeasurableSpace α] (ρ : Measure α) [IsProbabilityMeasure ρ] (f g : α → Matrix (Fin n) (Fin n) ℂ) (hf : Measurable f) (hg : Measurable g)
    (h : ∀ᵐ a ∂ρ, f a = g a) : of ρ f hf = of ρ g hg := Subtype.ext (Measure.map_congr h)

end Law

open Law

/-! ### Random phases -/

/-- A phase factor. -/
noncomputable def phaseOf (t : ℝ) : ℂ := exp (I * ((2 * Real.pi * t : ℝ) : ℂ))

theorem measurable_phaseOf : Measurable phaseOf := by
  unfold phaseOf
  fun_prop

theorem norm_phaseOf (t : ℝ) : ‖phaseOf t‖ = 1 := norm_exp_I _

/-- A fixed phase factor does not change the law of a uniform phase factor. -/
theorem circle_inv (z : ℂ) (hz : ‖z‖ = 1) : uniform01.map (fun t => phaseOf t * z) = uniform01.map phaseOf := by
  have h := law_of_moments uniform01 (fun t (_ : Fin 1) => phaseOf t * z) (fun t (_ : Fin 1) => phaseOf t)
    (measurable_pi_iff.2 fun _ => measurable_phaseOf.mul_const z) (measurable_pi_iff.2 fun _ => measurable_phaseOf) 1
    (fun t i => by rw [norm_mul, norm_phaseOf, hz, mul_one]) (fun t i => (norm_phaseOf t).le) fun c p q => by
    simp only [Fin.sum_univ_one, mul_pow, map_mul]
    have hu : ∀ w : ℂ, ∫ t, phaseOf t ^ p * w ^ p * (conj (phaseOf t) ^ q * conj w ^ q) ∂uniform01 = (if p = q then 1 else 0) * (w ^ p * conj w ^ q) := by
      intro w
      rw [← uniform_phase p q, ← integral_mul_const]
      refine integral_congr_ae (Filter.Eventually.of_forall fun t => ?_)
      simp only [phaseOf]
      ring
    have h1 := hu (z * c 0)
    simp only [mul_pow, map_mul] at h1
    have e : ∀ t, phaseOf t ^ p * z ^ p * c 0 ^ p * (conj (phaseOf t) ^ q * conj z ^ q * conj (c 0) ^ q) =
        phaseOf t ^ p * (z ^ p * c 0 ^ p) * (conj (phaseOf t) ^ q * (conj z ^ q * conj (c 0) ^ q)) := fun t => by ring
    simp only [e]
    rw [h1, hu]
    split_ifs with hpq
    · subst hpq
      have : z ^ p * conj z ^ p = 1 := by rw [← mul_pow, Complex.mul_conj, Complex.normSq_eq_norm_sq, hz]; simp
      linear_combination (c 0 ^ p * conj (c 0) ^ p) * this
    · simp
  have h2 := congrArg (fun μ => μ.map fun v : Fin 1 → ℂ => v 0) h
  rw [Measure.map_map (measurable_pi_apply _) (measurable_pi_iff.2 fun _ => measurable_phaseOf.mul_const z),
    Measure.map_map (measurable_pi_apply _) (measurable_pi_iff.2 fun _ => measurable_phaseOf)] at h2
  exact h2

theorem measurable_diagonal {n : ℕ} {α : Type} [MeasurableSpace α] {c : α → Fin n → ℂ} (hc : ∀ i, Measurable fun a => c a i) :
    Measurable fun a => (diagonal (c a) : Matrix (Fin n) (Fin n) ℂ) := by
  refine measurable_mat fun i j => ?_
  simp only [diagonal_apply]
  split_ifs
  · exact hc i
  · exact measurable_const

/-- Independent uniform phases on all rails. -/
noncomputable def torus (n : ℕ) : Law n := Law.of (Measure.pi fun _ : Fin n => uniform01) (fun y => diagonal fun i => phaseOf (y i))
  (measurable_diagonal fun i => measurable_phaseOf.comp (measurable_pi_apply i))

/-- A uniform phase on rail `i`. -/
noncomputable def phaseLaw (n i : ℕ) : Law n := Law.of uniform01 (fun t => diagonal fun j : Fin n => if j.val = i then phaseOf t else 1)
  (measurable_diagonal fun j => by split_ifs; exacts [measurable_phaseOf, measurable_const])

theorem torus_mul_pt {n : ℕ} (c : Fin n → ℂ) (hc : ∀ i, ‖c i‖ = 1) : torus n * pt (diagonal c) = torus n := by
  rw [torus, of_mul_pt]
  refine Subtype.ext ?_
  show (Measure.pi fun _ : Fin n => uniform01).map _ = (Measure.pi fun _ : Fin n => uniform01).map _
  simp only [diagonal_mul_diagonal]
  have hd : Measurable fun v : Fin n → ℂ => (diagonal v : Matrix (Fin n) (Fin n) ℂ) := measurable_diagonal fun i => measurable_pi_apply i
  have m1 : Measurable fun (y : Fin n → ℝ) i => phaseOf (y i) * c i := measurable_pi_iff.2 fun i => (measurable_phaseOf.comp (measurable_pi_apply i)).mul_const _
  have m2 : Measurable fun (y : Fin n → ℝ) i => phaseOf (y i) := measurable_pi_iff.2 fun i => measurable_phaseOf.comp (measurable_pi_apply i)
  have s1 : ∀ i, IsProbabilityMeasure (uniform01.map fun t => phaseOf t * c i) := fun i =>
    Measure.isProbabilityMeasure_map (measurable_phaseOf.mul_const _).aemeasurable
  have s2 : IsProbabilityMeasure (uniform01.map phaseOf) := Measure.isProbabilityMeasure_map measurable_phaseOf.aemeasurable
  have e1 := Measure.pi_map_pi (μ := fun _ : Fin n => uniform01) (f := fun i t => phaseOf t * c i) fun i => (measurable_phaseOf.mul_const _).aemeasurable
  have e2 := Measure.pi_map_pi (μ := fun _ : Fin n => uniform01) (f := fun _ t => phaseOf t) fun i => measurable_phaseOf.aemeasurable
  have key : (Measure.pi fun _ : Fin n => uniform01).map (fun (y : Fin n → ℝ) i => phaseOf (y i) * c i) =
      (Measure.pi fun _ : Fin n => uniform01).map fun (y : Fin n → ℝ) i => phaseOf (y i) := by
    rw [e1, e2]
    congr 1
    funext i
    exact circle_inv _ (hc i)
  have := congrArg (fun μ => μ.map fun v : Fin n → ℂ => (diagonal v : Matrix (Fin n) (Fin n) ℂ)) key
  simp only at this
  rw [Measure.map_map hd m1, Measure.map_map hd m2] at this
  exact this

theorem pt_mul_torus {n : ℕ} (c : Fin n → ℂ) (hc : ∀ i, ‖c i‖ = 1) : pt (diagonal c) * torus n = torus n := by
  rw [← torus_mul_pt c hc]
  conv_lhs => rw [torus_mul_pt c hc]
  rw [torus, pt_mul_of, of_mul_pt]
  refine of_congr _ _ _ _ _ (Filter.Eventually.of_forall fun y => ?_)
  rw [diagonal_mul_diagonal, diagonal_mul_diagonal]
  congr 1
  funext i
  exact mul_comm _ _

theorem phase_mul_pt {n i : ℕ} (z : ℂ) (hz : ‖z‖ = 1) : phaseLaw n i * pt (diagonal fun j : Fin n => if j.val = i then z else 1) = phaseLaw n i := by
  rw [phaseLaw, of_mul_pt]
  refine Subtype.ext ?_
  show uniform01.map _ = uniform01.map _
  have hd : Measurable fun w : ℂ => (diagonal fun j : Fin n => if j.val = i then w else 1 : Matrix (Fin n) (Fin n) ℂ) :=
    measurable_diagonal fun j => by split_ifs; exacts [measurable_id, measurable_const]
  have := congrArg (fun μ => μ.map fun w : ℂ => (diagonal fun j : Fin n => if j.val = i then w else 1 : Matrix (Fin n) (Fin n) ℂ)) (circle_inv z hz)
  rw [Measure.map_map hd (measurable_phaseOf.mul_const z), Measure.map_map hd measurable_phaseOf] at this
  refine Eq.trans ?_ this
  congr 1
  funext t
  rw [diagonal_mul_diagonal]
  simp only [Function.comp]
  congr 1
  funext j
  split_ifs <;> simp

/-- Laws that fixed phases in front of the network do not change. -/
def RInv {n : ℕ} (X : Law n) : Prop := ∀ c : Fin n → ℂ, (∀ i, ‖c i‖ = 1) → X * pt (diagonal c) = X

theorem RInv.absorb {n : ℕ} {X : Law n} (hX : RInv X) {α : Type} [MeasurableSpace α] (σ : Measure α) [IsProbabilityMeasure σ] (c : α → Fin n → ℂ)
    (hc : ∀ a i, ‖c a i‖ = 1) (hm : Measurable fun a => (diagonal (c a) : Matrix (Fin n) (Fin n) ℂ)) : X * Law.of σ (fun a => diagonal (c a)) hm = X := by
  refine ext_lint fun F hF => ?_
  rw [lint_mul _ _ hF]
  have e : ∀ x, ∫⁻ y, F (x * y) ∂(Law.of σ (fun a => diagonal (c a)) hm).1 = ∫⁻ a, F (x * diagonal (c a)) ∂σ := fun x =>
    lint_of σ _ hm (hF.comp (measurable_mat_mul measurable_const measurable_id))
  simp only [e]
  rw [lintegral_lintegral_swap]
  · have h : ∀ a, ∫⁻ x, F (x * diagonal (c a)) ∂X.1 = ∫⁻ x, F x ∂X.1 := by
      intro a
      conv_rhs => rw [← hX (c a) (hc a), lint_mul _ _ hF]
      refine lintegral_congr fun x => ?_
      have m : Measurable fun y : Matrix (Fin n) (Fin n) ℂ => F (x * y) := hF.comp (measurable_mat_mul measurable_const measurable_id)
      exact (lintegral_dirac' _ m).symm
    simp only [h]
    simp
  · exact (hF.comp (measurable_mat_mul measurable_fst (hm.comp measurable_snd))).aemeasurable

theorem torus_rinv (n : ℕ) : RInv (torus n) := torus_mul_pt

theorem RInv.torus {n : ℕ} {X : Law n} (hX : RInv X) : X * Simphox.torus n = X := hX.absorb _ _ (fun _ _ => norm_phaseOf _) _

theorem RInv.phase {n i : ℕ} {X : Law n} (hX : RInv X) : X * phaseLaw n i = X :=
  hX.absorb _ _ (fun t j => by split_ifs; exacts [norm_phaseOf t, norm_one]) _

theorem RInv.mul_torus {n : ℕ} (X : Law n) : RInv (X * Simphox.torus n) := fun c hc => by rw [mul_assoc, torus_rinv n c hc]

theorem diag_mul_torus {n : ℕ} {α : Type} [MeasurableSpace α] (σ : Measure α) [IsProbabilityMeasure σ] (c : α → Fin n → ℂ)
    (hc : ∀ a i, ‖c a i‖ = 1) (hm : Measurable fun a => (diagonal (c a) : Matrix (Fin n) (Fin n) ℂ)) : Law.of σ (fun a => diagonal (c a)) hm * torus n = torus n := by
  conv_rhs => rw [← (torus_rinv n).absorb σ c hc hm]
  rw [torus]
  refine of_comm _ _ _ _ _ _ fun a b => ?_
  rw [diagonal_mul_diagonal, diagonal_mul_diagonal]
  congr 1
  funext i
  exact mul_comm _ _

theorem phase_mul_torus (n i : ℕ) : phaseLaw n i * torus n = torus n :=
  diag_mul_torus _ _ (fun t j => by split_ifs; exacts [norm_phaseOf t, norm_one]) _

/-! ### Random nodes -/

/-- The matrix of an ideal node of transmissivity `s`. -/
noncomputable def mzOf (s : ℝ) : Matrix (Fin 2) (Fin 2) ℂ := (mziElements .top false 0 0 0 0 (idealPhase s) 0).mat

theorem measurable_embed2 {n a b : ℕ} {α : Type} [MeasurableSpace α] {m : α → Matrix (Fin 2) (Fin 2) ℂ} (hm : ∀ i j, Measurable fun x => m x i j) :
    Measurable fun x => embed2 n a b (m x) := by
  refine measurable_mat fun i j => ?_
  simp only [embed2, of_apply]
  split_ifs
  exacts [hm _ _, hm _ _, hm _ _, hm _ _, measurable_const, measurable_const]

theorem measurable_mz (i j : Fin 2) : Measurable fun s => mzOf s i j := by
  have h : ∀ i j : Fin 2, Continuous fun t : ℝ => (mziElements .top false 0 0 0 0 t 0).mat i j := by
    intro i j
    simp only [Elements.mat, mziElements]
    fin_cases i <;> fin_cases j <;> simp <;> fun_prop
  exact (h i j).measurable.comp measurable_idealPhase

theorem betaProb (k : ℕ) : IsProbabilityMeasure (betaMeasure (k + 1 : ℕ) (1 : ℕ)) := isProbabilityMeasureBeta (by positivity) (by norm_num)

/-- A node on the rails `a` and `b` whose transmissivity has the beta distribution of index `k + 1`. -/
noncomputable def coreLaw (n a b k : ℕ) : Law n :=
  haveI := betaProb k
  Law.of (betaMeasure (k + 1 : ℕ) (1 : ℕ)) (fun s => embed2 n a b (mzOf s)) (measurable_embed2 measurable_mz)

/-- A random node of the mesh on the rails `i` and `i + 1`, the external phase first. -/
noncomputable def nodeLaw (n i k : ℕ) : Law n := coreLaw n i (i + 1) k * phaseLaw n i

/-- Phases that agree on the two rails of a node commute with it. -/
theorem embed2_diag_comm {n a b : ℕ} (c : Fin n → ℂ) (hc : ∀ i j : Fin n, i.val = a → j.val = b → c i = c j) (m : Matrix (Fin 2) (Fin 2) ℂ) :
    embed2 n a b m * diagonal c = diagonal c * embed2 n a b m := by
  ext i j
  rw [mul_diagonal, diagonal_mul, mul_comm]
  by_cases h : c i = c j
  · rw [h]
  · have e : embed2 n a b m i j = 0 := by
      rw [embed2, Matrix.of_apply, if_neg, if_neg, if_neg, if_neg, if_neg]
      · intro h'; exact h (by rw [h'])
      · rintro ⟨h1, h2⟩; exact h (by rw [show i = j from Fin.ext (h1.trans h2.symm)])
      · rintro ⟨h1, h2⟩; exact h (hc i j h1 h2)
      · rintro ⟨h1, h2⟩; exact h (hc j i h2 h1).symm
      · rintro ⟨h1, h2⟩; exact h (by rw [show i = j from Fin.ext (h1.trans h2.symm)])
    rw [e]; simp

theorem RInv.mul_node {n i k : ℕ} {X : Law n} (hX : RInv X) (hi : i + 1 < n) : RInv (X * nodeLaw n i k) := by
  intro c hc
  have h1 : c ⟨i + 1, hi⟩ ≠ 0 := fun h => by have := hc ⟨i + 1, hi⟩; rw [h, norm_zero] at this; exact zero_ne_one this
  let z := c ⟨i, by omega⟩ / c ⟨i + 1, hi⟩
  have hz : ‖z‖ = 1 := by rw [norm_div, hc, hc, div_one]
  let E : Fin n → ℂ := fun j => if j.val = i then c ⟨i + 1, hi⟩ else c j
  have hE : ∀ j, ‖E j‖ = 1 := fun j => by simp only [E]; split_ifs <;> exact hc _
  have e1 : (diagonal c : Matrix (Fin n) (Fin n) ℂ) = (diagonal fun j : Fin n => if j.val = i then z else 1) * diagonal E := by
    rw [diagonal_mul_diagonal]
    congr 1
    funext j
    simp only [E]
    split_ifs with hj
    · simp only [z]
      rw [div_mul_cancel₀ _ h1]
      congr 1
      exact Fin.ext hj
    · rw [one_mul]
  have hEc : ∀ a b : Fin n, a.val = i → b.val = i + 1 → E a = E b := by
    intro a b ha hb
    simp only [E]
    rw [if_pos ha, if_neg (by omega)]
    congr 1
    exact Fin.ext hb.symm
  have c1 : phaseLaw n i * pt (diagonal E) = pt (diagonal E) * phaseLaw n i := by
    rw [phaseLaw, of_mul_pt, pt_mul_of]
    refine of_congr _ _ _ _ _ (Filter.Eventually.of_forall fun t => ?_)
    rw [diagonal_mul_diagonal, diagonal_mul_diagonal]
    congr 1
    funext j
    exact mul_comm _ _
  have := betaProb k
  have c2 : coreLaw n i (i + 1) k * pt (diagonal E) = pt (diagonal E) * coreLaw n i (i + 1) k := by
    rw [coreLaw, of_mul_pt, pt_mul_of]
    exact of_congr _ _ _ _ _ (Filter.Eventually.of_forall fun t => embed2_diag_comm E hEc _)
  rw [nodeLaw, e1, ← pt_mul_pt]
  simp only [mul_assoc]
  rw [← mul_assoc (phaseLaw n i) (pt _), phase_mul_pt z hz, c1, ← mul_assoc (coreLaw n i (i + 1) k), c2, mul_assoc, ← mul_assoc X, hX E hE]

/-- In a random network the external phase of a node may be replaced by random phases on all rails. -/
theorem RInv.node_eq {n i k : ℕ} {X : Law n} (hX : RInv X) (hi : i + 1 < n) : X * nodeLaw n i k = X * coreLaw n i (i + 1) k * Simphox.torus n := by
  rw [← (hX.mul_node hi).torus, nodeLaw]
  simp only [mul_assoc]
  rw [phase_mul_torus]

/-- Nodes on different rails commute. -/
theorem embed2_far {n i j : ℕ} (h : i + 1 < j) (m m' : Matrix (Fin 2) (Fin 2) ℂ) (hj : j + 1 < n) :
    embed2 n i (i + 1) m * embed2 n j (j + 1) m' = embed2 n j (j + 1) m' * embed2 n i (i + 1) m := by
  refine mulVec_ext fun v => ?_
  rw [← mulVec_mulVec, ← mulVec_mulVec]
  funext r
  have e1 := fun v r => embed2_mulVec (n := n) (i := i) (j := i + 1) (by omega) (by omega) (by omega) m v r
  have e2 := fun v r => embed2_mulVec (n := n) (i := j) (j := j + 1) (by omega) (by omega) (by omega) m' v r
  simp only [e1, e2]
  split_ifs <;> first | omega | rfl

theorem node_far {n i j k l : ℕ} (h : i + 1 < j) (hj : j + 1 < n) : nodeLaw n i k * nodeLaw n j l = nodeLaw n j l * nodeLaw n i k := by
  have c1 : coreLaw n i (i + 1) k * coreLaw n j (j + 1) l = coreLaw n j (j + 1) l * coreLaw n i (i + 1) k := by
    have := betaProb k; have := betaProb l
    exact of_comm _ _ _ _ _ _ fun s t => embed2_far h _ _ hj
  have c2 : phaseLaw n i * coreLaw n j (j + 1) l = coreLaw n j (j + 1) l * phaseLaw n i := by
    have := betaProb l
    refine of_comm _ _ _ _ _ _ fun s t => (embed2_diag_comm _ (fun a b ha hb => ?_) _).symm
    rw [if_neg (by omega), if_neg (by omega)]
  have c3 : coreLaw n i (i + 1) k * phaseLaw n j = phaseLaw n j * coreLaw n i (i + 1) k := by
    have := betaProb k
    refine of_comm _ _ _ _ _ _ fun s t => embed2_diag_comm _ (fun a b ha hb => ?_) _
    rw [if_neg (by omega), if_neg (by omega)]
  have c4 : phaseLaw n i * phaseLaw n j = phaseLaw n j * phaseLaw n i := by
    refine of_comm _ _ _ _ _ _ fun s t => ?_
    rw [diagonal_mul_diagonal, diagonal_mul_diagonal]
    congr 1
    funext r
    exact mul_comm _ _
  rw [nodeLaw, nodeLaw]
  calc coreLaw n i (i + 1) k * phaseLaw n i * (coreLaw n j (j + 1) l * phaseLaw n j) =
      coreLaw n i (i + 1) k * (phaseLaw n i * coreLaw n j (j + 1) l) * phaseLaw n j := by simp only [mul_assoc]
    _ = (coreLaw n i (i + 1) k * coreLaw n j (j + 1) l) * (phaseLaw n i * phaseLaw n j) := by rw [c2]; simp only [mul_assoc]
    _ = coreLaw n j (j + 1) l * (coreLaw n i (i + 1) k * phaseLaw n j) * phaseLaw n i := by rw [c1, c4]; simp only [mul_assoc]
    _ = _ := by rw [c3]; simp only [mul_assoc]

end Simphox
