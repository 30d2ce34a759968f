import Verif.HaarWords
import Mathlib.MeasureTheory.Measure.WithDensity

/-!
# Random networks of crossing lines (C207): exchange of three nodes
-/

namespace Simphox

open Matrix Complex MeasureTheory ProbabilityTheory ComplexConjugate Law
open scoped BoundedContinuousFunction ENNReal

theorem mz_entries (s : ℝ) : mzOf s 0 0 = -armR (idealPhase s) ∧ mzOf s 0 1 = armL (idealPhase s) ∧ mzOf s 1 0 = armL (idealPhase s) ∧
    mzOf s 1 1 = armR (idealPhase s) := by
  have hz : I * (idealPhase s : ℂ) + ((Real.log 10 * 0 / 20 : ℝ) : ℂ) = I * idealPhase s := by simp
  refine ⟨?_, ?_, ?_, ?_⟩ <;> simp only [mzOf, Elements.mat, mziElements, terms_ideal, hz, armL, armR] <;> simp <;> ring

theorem cos_idealPhase {s : ℝ} (h0 : 0 ≤ s) (h1 : s ≤ 1) : Real.cos (idealPhase s) = 2 * s - 1 := by
  rw [idealPhase, max_eq_left (by linarith), min_eq_left (by linarith), Real.cos_arccos (by linarith) (by linarith)]

theorem mz_power {s : ℝ} (h0 : 0 ≤ s) (h1 : s ≤ 1) : ‖mzOf s 1 0‖ ^ 2 = s := by
  have h := (arm_powers (idealPhase s)).1
  rw [Complex.mul_conj, Complex.normSq_eq_norm_sq, cos_idealPhase h0 h1] at h
  rw [(mz_entries s).2.2.1]
  have h2 : ‖armL (idealPhase s)‖ ^ 2 = (1 + (2 * s - 1)) / 2 := by exact_mod_cast h
  rw [h2]
  ring

/-- `X'` has a density with respect to `X`, given by a relation on the matrices. -/
def Dens {n : ℕ} (X X' : Law n) (Q : Matrix (Fin n) (Fin n) ℂ → ℝ≥0∞ → Prop) : Prop :=
  ∃ (α : Type) (_ : MeasurableSpace α) (ρ : Measure α) (_ : IsProbabilityMeasure ρ) (f : α → Matrix (Fin n) (Fin n) ℂ) (u : α → ℝ≥0∞),
    Measurable f ∧ Measurable u ∧ X.1 = ρ.map f ∧ X'.1 = (ρ.withDensity u).map f ∧ ∀ a, Q (f a) (u a)

theorem Dens.mul {n : ℕ} {X X' Y Y' : Law n} {Q R S : Matrix (Fin n) (Fin n) ℂ → ℝ≥0∞ → Prop} (h : Dens X X' Q) (h' : Dens Y Y' R)
    (hS : ∀ x y u v, Q x u → R y v → S (x * y) (u * v)) : Dens (X * Y) (X' * Y') S := by
  obtain ⟨α, mα, ρ, pρ, f, u, mf, mu, e1, e2, hQ⟩ := h
  obtain ⟨β, mβ, σ, pσ, g, v, mg, mv, e3, e4, hR⟩ := h'
  refine ⟨α × β, inferInstance, ρ.prod σ, inferInstance, fun p => f p.1 * g p.2, fun p => u p.1 * v p.2,
    measurable_mat_mul (mf.comp measurable_fst) (mg.comp measurable_snd), (mu.comp measurable_fst).mul (mv.comp measurable_snd), ?_, ?_, fun p => hS _ _ _ _ (hQ _) (hR _)⟩
  · show X.1.mconv Y.1 = _
    rw [e1, e3, Measure.mconv, Measure.map_prod_map _ _ mf mg, Measure.map_map measurable_mul (mf.prodMap mg)]
    rfl
  · show X'.1.mconv Y'.1 = _
    rw [e2, e4, Measure.mconv, Measure.map_prod_map _ _ mf mg, Measure.map_map measurable_mul (mf.prodMap mg), prod_withDensity mu mv]
    rfl

theorem Dens.eq {n : ℕ} {X X' : Law n} {Q : Matrix (Fin n) (Fin n) ℂ → ℝ≥0∞ → Prop} (h : Dens X X' Q) (w : Matrix (Fin n) (Fin n) ℂ → ℝ≥0∞)
    (hw : Measurable w) (hQ : ∀ x u, Q x u → u = w x) : X'.1 = X.1.withDensity w := by
  obtain ⟨α, mα, ρ, pρ, f, u, mf, mu, e1, e2, hu⟩ := h
  have e : u = fun a => w (f a) := funext fun a => hQ _ _ (hu a)
  rw [e1, e2, e]
  refine Measure.ext_of_lintegral _ fun F hF => ?_
  have m1 : Measurable fun a => w (f a) := hw.comp mf
  have m2 : Measurable fun a => F (f a) := hF.comp mf
  rw [lintegral_map hF mf, lintegral_withDensity_eq_lintegral_mul _ hw hF, lintegral_map (hw.mul hF) mf,
    lintegral_withDensity_eq_lintegral_mul _ m1 m2]
  rfl

/-- A matrix with unit entries on the diagonal. -/
def DiagQ {n : ℕ} (x : Matrix (Fin n) (Fin n) ℂ) (u : ℝ≥0∞) : Prop := (∃ c : Fin n → ℂ, (∀ i, ‖c i‖ = 1) ∧ x = diagonal c) ∧ u = 1

theorem torus_dens (n : ℕ) : Dens (torus n) (torus n) DiagQ := by
  refine ⟨Fin n → ℝ, inferInstance, Measure.pi fun _ : Fin n => uniform01, inferInstance, fun y => diagonal fun i => phaseOf (y i), fun _ => 1,
    measurable_diagonal fun i => measurable_phaseOf.comp (measurable_pi_apply i), measurable_const, rfl, ?_, fun y => ⟨⟨_, fun i => norm_phaseOf _, rfl⟩, rfl⟩⟩
  have : (Measure.pi fun _ : Fin n => uniform01).withDensity (fun _ => 1) = Measure.pi fun _ : Fin n => uniform01 := withDensity_one
  rw [this]
  rfl

/-- A node on the rails `a` and `b`, with phases, and the density `r t ^ (2 e)` of its transmission. -/
def NodeQ {n : ℕ} (a b : Fin n) (r : ℝ) (e : ℕ) (x : Matrix (Fin n) (Fin n) ℂ) (u : ℝ≥0∞) : Prop :=
  (∀ i j, i ≠ j → ¬ (i = a ∧ j = b) → ¬ (i = b ∧ j = a) → x i j = 0) ∧ (∀ i, i ≠ a → i ≠ b → ‖x i i‖ = 1) ∧ ‖x a b‖ = ‖x b a‖ ∧
    u = ENNReal.ofReal (r * ‖x b a‖ ^ (2 * e))

theorem beta_density (k e : ℕ) : betaMeasure (k + e + 1 : ℕ) (1 : ℕ) = (betaMeasure (k + 1 : ℕ) (1 : ℕ)).withDensity
    fun s => ENNReal.ofReal ((k + e + 1 : ℝ) / (k + 1) * ‖mzOf s 1 0‖ ^ (2 * e)) := by
  have mu : Measurable fun s => ENNReal.ofReal ((k + e + 1 : ℝ) / (k + 1) * ‖mzOf s 1 0‖ ^ (2 * e)) :=
    (((measurable_mz 1 0).norm.pow_const _).const_mul _).ennreal_ofReal
  have mb : ∀ a b : ℝ, Measurable (betaPDF a b) := fun a b => (measurable_betaPDFReal a b).ennreal_ofReal
  rw [betaMeasure, betaMeasure, ← withDensity_mul _ (mb _ _) mu]
  congr 1
  funext s
  rw [Pi.mul_apply, betaPDF_eq, betaPDF_eq]
  split_ifs with hs
  · rw [← ENNReal.ofReal_mul]
    · congr 1
      have hb : ∀ m : ℕ, beta ((m + 1 : ℕ) : ℝ) ((1 : ℕ) : ℝ) = 1 / (m + 1) := by
        intro m
        have g1 : Real.Gamma ((m : ℝ) + 1) = m.factorial := Real.Gamma_nat_eq_factorial m
        have g2 : Real.Gamma (((m + 1 : ℕ) : ℝ) + 1) = (m + 1).factorial := Real.Gamma_nat_eq_factorial (m + 1)
        have : (m.factorial : ℝ) ≠ 0 := by exact_mod_cast m.factorial_ne_zero
        rw [beta, Nat.cast_one, g2, Nat.cast_succ, g1, Nat.factorial_succ, Real.Gamma_one]
        push_cast
        field_simp
      have hp : ∀ m : ℕ, s ^ (((m + 1 : ℕ) : ℝ) - 1) = s ^ m := by
        intro m
        rw [Nat.cast_succ, add_sub_cancel_right, Real.rpow_natCast]
      rw [hb, hb, hp, hp, pow_mul, mz_power hs.1.le hs.2.le, pow_add]
      have : (k + 1 : ℝ) ≠ 0 := by positivity
      push_cast
      simp only [sub_self, Real.rpow_zero]
      field_simp
    · have := beta_pos (α := ((k + 1 : ℕ) : ℝ)) (β := ((1 : ℕ) : ℝ)) (by positivity) (by norm_num)
      have h1 := Real.rpow_nonneg hs.1.le (((k + 1 : ℕ) : ℝ) - 1)
      have h2 := Real.rpow_nonneg (sub_nonneg.2 hs.2.le) (((1 : ℕ) : ℝ) - 1)
      positivity
  · simp

theorem embed2_entries {n : ℕ} {a b : Fin n} (hab : a ≠ b) (m : Matrix (Fin 2) (Fin 2) ℂ) :
    (∀ i j, i ≠ j → ¬ (i = a ∧ j = b) → ¬ (i = b ∧ j = a) → embed2 n a b m i j = 0) ∧ (∀ i, i ≠ a → i ≠ b → embed2 n a b m i i = 1) ∧
      embed2 n a b m a b = m 0 1 ∧ embed2 n a b m b a = m 1 0 := by
  have hv : ¬ a.val = b.val := fun h => hab (Fin.ext h)
  have hv' : ¬ b.val = a.val := fun h => hab (Fin.ext h.symm)
  refine ⟨fun i j hij h1 h2 => ?_, fun i h1 h2 => ?_, ?_, ?_⟩
  · have e1 : ¬ (i.val = b.val ∧ j.val = b.val) := fun h => hij (Fin.ext (h.1.trans h.2.symm))
    have e2 : ¬ (i.val = b.val ∧ j.val = a.val) := fun h => h2 ⟨Fin.ext h.1, Fin.ext h.2⟩
    have e3 : ¬ (i.val = a.val ∧ j.val = b.val) := fun h => h1 ⟨Fin.ext h.1, Fin.ext h.2⟩
    have e4 : ¬ (i.val = a.val ∧ j.val = a.val) := fun h => hij (Fin.ext (h.1.trans h.2.symm))
    simp only [embed2, of_apply, if_neg e1, if_neg e2, if_neg e3, if_neg e4, if_neg hij]
  · have g1 : ¬ i.val = a.val := fun h => h1 (Fin.ext h)
    have g2 : ¬ i.val = b.val := fun h => h2 (Fin.ext h)
    simp [embed2, g1, g2]
  · simp [embed2, hv]
  · simp [embed2, hv]

theorem core_dens {n : ℕ} {a b : Fin n} (hab : a ≠ b) (k e : ℕ) : Dens (coreLaw n a b k) (coreLaw n a b (k + e)) (NodeQ a b ((k + e + 1 : ℝ) / (k + 1)) e) := by
  refine ⟨ℝ, inferInstance, betaMeasure (k + 1 : ℕ) (1 : ℕ), betaProb k, fun s => embed2 n a b (mzOf s),
    fun s => ENNReal.ofReal ((k + e + 1 : ℝ) / (k + 1) * ‖mzOf s 1 0‖ ^ (2 * e)), measurable_embed2 measurable_mz,
    (((measurable_mz 1 0).norm.pow_const _).const_mul _).ennreal_ofReal, rfl, ?_, fun s => ?_⟩
  · rw [← beta_density]; rfl
  · obtain ⟨h1, h2, h3, h4⟩ := embed2_entries hab (mzOf s)
    obtain ⟨-, q1, q2, -⟩ := mz_entries s
    show NodeQ a b _ e (embed2 n a b (mzOf s)) _
    exact ⟨h1, fun i hi hi' => by rw [h2 i hi hi', norm_one], by rw [h3, h4, q1, q2], by rw [h4]⟩

/-- A node between random phases on all rails. -/
noncomputable def phasedNode (n a b k : ℕ) : Law n := torus n * coreLaw n a b k * torus n

theorem node_dens {n : ℕ} {a b : Fin n} (hab : a ≠ b) (k e : ℕ) :
    Dens (phasedNode n a b k) (phasedNode n a b (k + e)) (NodeQ a b ((k + e + 1 : ℝ) / (k + 1)) e) := by
  refine (((torus_dens n).mul (core_dens hab k e) (S := NodeQ a b ((k + e + 1 : ℝ) / (k + 1)) e) ?_).mul (torus_dens n) ?_)
  · rintro x y u v ⟨⟨c, hc, rfl⟩, rfl⟩ ⟨h1, h2, h3, h4⟩
    refine ⟨fun i j hij h h' => by rw [diagonal_mul, h1 i j hij h h', mul_zero], fun i hi hi' => ?_, ?_, ?_⟩
    · rw [diagonal_mul, norm_mul, hc, h2 i hi hi', one_mul]
    · rw [diagonal_mul, diagonal_mul, norm_mul, norm_mul, hc, hc, h3]
    · rw [diagonal_mul, norm_mul, hc, one_mul, one_mul, h4]
  · rintro x y u v ⟨h1, h2, h3, h4⟩ ⟨⟨c, hc, rfl⟩, rfl⟩
    refine ⟨fun i j hij h h' => by rw [mul_diagonal, h1 i j hij h h', zero_mul], fun i hi hi' => ?_, ?_, ?_⟩
    · rw [mul_diagonal, norm_mul, hc, h2 i hi hi', mul_one]
    · rw [mul_diagonal, mul_diagonal, norm_mul, norm_mul, hc, hc, h3]
    · rw [mul_diagonal, norm_mul, hc, mul_one, mul_one, h4]

/-- Transmissions through three nodes, on the rails `a`, `b`, then `b`, `c`, then `a`, `b`. -/
theorem three_entries {n : ℕ} {a b c : Fin n} (hab : a ≠ b) (hbc : b ≠ c) (hac : a ≠ c) {x y z : Matrix (Fin n) (Fin n) ℂ}
    (hx : ∀ i j, i ≠ j → ¬ (i = a ∧ j = b) → ¬ (i = b ∧ j = a) → x i j = 0) (hx1 : ‖x c c‖ = 1)
    (hy : ∀ i j, i ≠ j → ¬ (i = b ∧ j = c) → ¬ (i = c ∧ j = b) → y i j = 0)
    (hz : ∀ i j, i ≠ j → ¬ (i = a ∧ j = b) → ¬ (i = b ∧ j = a) → z i j = 0) (hz1 : ‖z c c‖ = 1) :
    ‖(x * (y * z)) c a‖ = ‖y c b‖ * ‖z b a‖ ∧ ‖(x * (y * z)) a c‖ = ‖x a b‖ * ‖y b c‖ := by
  have z0 : ∀ l, l ≠ c → z l c = 0 := fun l hl => hz l c hl (fun h => hbc h.2.symm) fun h => hac h.2.symm
  have x0 : ∀ l, l ≠ c → x c l = 0 := fun l hl => hx c l hl.symm (fun h => hac h.1.symm) fun h => hbc h.1.symm
  have e1 : (y * z) c a = y c b * z b a := by
    rw [Matrix.mul_apply, Finset.sum_eq_single b]
    · intro l _ hl
      by_cases hla : l = a
      · rw [hla, hy c a hac.symm (fun h => hbc h.1.symm) fun h => hab h.2, zero_mul]
      · rw [hz l a hla (fun h => hla h.1) fun h => hl h.1, mul_zero]
    · simp
  have e2 : ∀ i, (y * z) i c = y i c * z c c := by
    intro i
    rw [Matrix.mul_apply, Finset.sum_eq_single c]
    · intro l _ hl
      rw [z0 l hl, mul_zero]
    · simp
  have e3 : (x * (y * z)) c a = x c c * (y * z) c a := by
    rw [Matrix.mul_apply, Finset.sum_eq_single c]
    · intro l _ hl
      rw [x0 l hl, zero_mul]
    · simp
  have e4 : (x * (y * z)) a c = x a b * (y * z) b c := by
    rw [Matrix.mul_apply, Finset.sum_eq_single b]
    · intro l _ hl
      by_cases hla : l = a
      · rw [hla, e2, hy a c hac (fun h => hab h.1) (fun h => hac h.1), zero_mul, mul_zero]
      · rw [hx a l (fun h => hla h.symm) (fun h => hl h.2) fun h => hab h.1, zero_mul]
    · simp
  rw [e3, e4, e1, e2, norm_mul, norm_mul, norm_mul, norm_mul, hx1, hz1, one_mul, mul_one]
  exact ⟨rfl, rfl⟩

/-- Three nodes in the triangle. -/
noncomputable def trioLaw (n a b c k l m : ℕ) : Law n := phasedNode n a b m * (phasedNode n b c k * phasedNode n a b l)

/-- The density of the law of three nodes. -/
noncomputable def trioWeight {n : ℕ} (a c : Fin n) (p q : ℕ) (M : Matrix (Fin n) (Fin n) ℂ) : ℝ≥0∞ :=
  ENNReal.ofReal ((p + 1) * (q + 1) * ((p + q + 2) / 2) * (‖M c a‖ ^ (2 * p) * ‖M a c‖ ^ (2 * q)))

theorem trio_dens {n : ℕ} {a b c : Fin n} (hab : a ≠ b) (hbc : b ≠ c) (hac : a ≠ c) (p q : ℕ) :
    (trioLaw n a b c (p + q + 1) p q).1 = (trioLaw n a b c 1 0 0).1.withDensity (trioWeight a c p q) := by
  have h1 := node_dens hab 0 p
  have h2 := node_dens hbc 1 (p + q)
  have h3 := node_dens hab 0 q
  have mw : Measurable (trioWeight a c p q) :=
    ((((measurable_entry measurable_id c a).norm.pow_const _).mul ((measurable_entry measurable_id a c).norm.pow_const _)).const_mul _).ennreal_ofReal
  have h := h3.mul (h2.mul h1 (S := fun w u => ∃ y z v t, w = y * z ∧ u = v * t ∧ NodeQ b c ((1 + (p + q : ℕ) + 1 : ℝ) / (1 + 1)) (p + q) y v ∧
    NodeQ a b ((0 + p + 1 : ℝ) / (0 + 1)) p z t) fun y z v t hy hz => ⟨y, z, v, t, rfl, rfl, by simpa using hy, by simpa using hz⟩)
    (S := fun w u => u = trioWeight a c p q w) (by
      rintro x w s u hx ⟨y, z, v, t, rfl, rfl, hy, hz⟩
      obtain ⟨x1, x2, x3, x4⟩ := hx
      obtain ⟨y1, y2, y3, y4⟩ := hy
      obtain ⟨z1, z2, z3, z4⟩ := hz
      obtain ⟨t1, t2⟩ := three_entries hab hbc hac x1 (x2 c hac.symm hbc.symm) y1 z1 (z2 c hac.symm hbc.symm)
      rw [x4, y4, z4, trioWeight, t1, t2, x3, y3, ← ENNReal.ofReal_mul (by positivity), ← ENNReal.ofReal_mul (by positivity)]
      congr 1
      push_cast
      simp only [mul_pow, Nat.mul_add, pow_add]
      ring)
  have e := h.eq _ mw fun x u hu => hu
  rw [Nat.zero_add, Nat.zero_add, Nat.add_comm 1 (p + q)] at e
  exact e

/-! ### Renumbered rails and reversed light -/

/-- The law after renumbering the rails. -/
noncomputable def Law.conj {n : ℕ} (σ : Equiv.Perm (Fin n)) (X : Law n) : Law n :=
  ⟨X.1.map fun M => M.submatrix σ σ, Measure.isProbabilityMeasure_map (measurable_mat fun i j => measurable_entry measurable_id (σ i) (σ j)).aemeasurable⟩

theorem measurable_sub {n : ℕ} (σ : Equiv.Perm (Fin n)) : Measurable fun M : Matrix (Fin n) (Fin n) ℂ => M.submatrix σ σ :=
  measurable_mat fun i j => measurable_entry measurable_id (σ i) (σ j)

theorem conj_mul {n : ℕ} (σ : Equiv.Perm (Fin n)) (X Y : Law n) : Law.conj σ (X * Y) = Law.conj σ X * Law.conj σ Y := by
  let L : Matrix (Fin n) (Fin n) ℂ →* Matrix (Fin n) (Fin n) ℂ :=
    { toFun := fun M => M.submatrix σ σ, map_one' := submatrix_one_equiv σ, map_mul' := fun A B => (submatrix_mul_equiv A B σ σ σ).symm }
  exact Subtype.ext (Measure.map_mconv_monoidHom (μ := X.1) (ν := Y.1) L (measurable_sub σ))

theorem conj_of {n : ℕ} (σ : Equiv.Perm (Fin n)) {α : Type} [MeasurableSpace α] (ρ : Measure α) [IsProbabilityMeasure ρ] (f : α → Matrix (Fin n) (Fin n) ℂ)
    (hf : Measurable f) : Law.conj σ (Law.of ρ f hf) = Law.of ρ (fun a => (f a).submatrix σ σ) ((measurable_sub σ).comp hf) :=
  Subtype.ext (Measure.map_map (measurable_sub σ) hf)

theorem conj_pt {n : ℕ} (σ : Equiv.Perm (Fin n)) (g : Matrix (Fin n) (Fin n) ℂ) : Law.conj σ (pt g) = pt (g.submatrix σ σ) :=
  Subtype.ext (Measure.map_dirac' (measurable_sub σ) g)

theorem conj_torus {n : ℕ} (σ : Equiv.Perm (Fin n)) : Law.conj σ (torus n) = torus n := by
  have h1 : RInv (Law.conj σ (torus n)) := by
    intro c hc
    have e : (diagonal c : Matrix (Fin n) (Fin n) ℂ) = (diagonal (c ∘ σ.symm) : Matrix (Fin n) (Fin n) ℂ).submatrix σ σ := by
      rw [submatrix_diagonal_equiv]
      congr 1
      funext i
      simp
    rw [e, ← conj_pt, ← conj_mul, torus_mul_pt (c ∘ σ.symm) fun i => hc _]
  have h2 : Law.conj σ (torus n) * torus n = torus n := by
    rw [torus, conj_of, ← torus]
    have e : ∀ y : Fin n → ℝ, (diagonal fun i => phaseOf (y i) : Matrix (Fin n) (Fin n) ℂ).submatrix σ σ = diagonal fun i => phaseOf (y (σ i)) := by
      intro y
      rw [submatrix_diagonal_equiv]
      rfl
    simp only [e]
    exact diag_mul_torus _ _ (fun y i => norm_phaseOf _) _
  rw [← h1.torus, h2]

theorem embed2_sub {n : ℕ} (σ : Equiv.Perm (Fin n)) (a b : Fin n) (m : Matrix (Fin 2) (Fin 2) ℂ) :
    (embed2 n (σ a) (σ b) m).submatrix σ σ = embed2 n a b m := by
  ext i j
  have e : ∀ x y : Fin n, (σ x).val = (σ y).val ↔ x.val = y.val := fun x y => by rw [Fin.val_inj, Fin.val_inj, σ.injective.eq_iff]
  simp only [submatrix_apply, embed2, of_apply, e, σ.injective.eq_iff]

theorem conj_core {n : ℕ} (σ : Equiv.Perm (Fin n)) (a b : Fin n) (k : ℕ) : Law.conj σ (coreLaw n (σ a) (σ b) k) = coreLaw n a b k := by
  have := betaProb k
  rw [coreLaw, conj_of, coreLaw]
  exact of_congr _ _ _ _ _ (Filter.Eventually.of_forall fun s => embed2_sub σ a b _)

theorem conj_trio {n : ℕ} (σ : Equiv.Perm (Fin n)) (a b c : Fin n) (k l m : ℕ) :
    Law.conj σ (trioLaw n (σ a) (σ b) (σ c) k l m) = trioLaw n a b c k l m := by
  simp only [trioLaw, phasedNode, conj_mul, conj_torus, conj_core]

/-- The law of the transposed matrix. -/
noncomputable def Law.trans {n : ℕ} (X : Law n) : Law n :=
  ⟨X.1.map fun M => Mᵀ, Measure.isProbabilityMeasure_map (measurable_mat fun i j => measurable_entry measurable_id j i).aemeasurable⟩

theorem measurable_tr {n : ℕ} : Measurable fun M : Matrix (Fin n) (Fin n) ℂ => Mᵀ := measurable_mat fun i j => measurable_entry measurable_id j i

theorem lint_trans {n : ℕ} (X : Law n) {F : Matrix (Fin n) (Fin n) ℂ → ℝ≥0∞} (hF : Measurable F) : ∫⁻ M, F M ∂(Law.trans X).1 = ∫⁻ M, F Mᵀ ∂X.1 :=
  lintegral_map hF measurable_tr

theorem trans_mul {n : ℕ} (X Y : Law n) : Law.trans (X * Y) = Law.trans Y * Law.trans X := by
  refine ext_lint fun F hF => ?_
  have m0 : Measurable fun M : Matrix (Fin n) (Fin n) ℂ => F Mᵀ := hF.comp measurable_tr
  rw [lint_trans _ hF, lint_mul _ _ m0, lint_mul _ _ hF]
  have e1 : ∀ y, ∫⁻ x, F (y * x) ∂(Law.trans X).1 = ∫⁻ x, F (y * xᵀ) ∂X.1 := fun y =>
    lint_trans X (hF.comp (measurable_mat_mul measurable_const measurable_id))
  simp only [e1]
  have m : Measurable fun p : Matrix (Fin n) (Fin n) ℂ × Matrix (Fin n) (Fin n) ℂ => F (p.1 * p.2ᵀ) :=
    hF.comp (measurable_mat_mul measurable_fst (measurable_tr.comp measurable_snd))
  rw [lint_trans Y (F := fun y => ∫⁻ x, F (y * xᵀ) ∂X.1) m.lintegral_prod_right', lintegral_lintegral_swap]
  · simp only [transpose_mul]
  · exact (hF.comp (measurable_tr.comp (measurable_mat_mul measurable_fst measurable_snd))).aemeasurable

theorem trans_of {n : ℕ} {α : Type} [MeasurableSpace α] (ρ : Measure α) [IsProbabilityMeasure ρ] (f : α → Matrix (Fin n) (Fin n) ℂ)
    (hf : Measurable f) (h : ∀ a, (f a)ᵀ = f a) : Law.trans (Law.of ρ f hf) = Law.of ρ f hf := by
  refine Subtype.ext ((Measure.map_map measurable_tr hf).trans ?_)
  show ρ.map _ = ρ.map _
  congr 1
  funext a
  exact h a

theorem trans_trio {n : ℕ} (a b c : Fin n) (hab : a ≠ b) (hbc : b ≠ c) (k l : ℕ) : Law.trans (trioLaw n a b c k l l) = trioLaw n a b c k l l := by
  have t1 : Law.trans (torus n) = torus n := trans_of _ _ _ fun y => diagonal_transpose _
  have t2 : ∀ (a b : Fin n) (k : ℕ), a ≠ b → Law.trans (coreLaw n a b k) = coreLaw n a b k := by
    intro a b k hab
    have := betaProb k
    refine trans_of _ _ _ fun s => ?_
    obtain ⟨-, q1, q2, -⟩ := mz_entries s
    have hv : ¬ a.val = b.val := fun h => hab (Fin.ext h)
    ext i j
    simp only [transpose_apply, embed2, of_apply, q1, q2, and_comm (a := j.val = _), eq_comm (a := j)]
    split_ifs <;> rfl
  have t3 : ∀ (a b : Fin n) (k : ℕ), a ≠ b → Law.trans (phasedNode n a b k) = phasedNode n a b k := by
    intro a b k hab
    rw [phasedNode, trans_mul, trans_mul, t1, t2 a b k hab, mul_assoc]
  rw [trioLaw, trans_mul, trans_mul, t3 a b l hab, t3 b c k hbc, mul_assoc]

/-- The exchange of the rails `a` and `c`. -/
def swapMat {n : ℕ} (a c : Fin n) : Matrix (Fin n) (Fin n) ℂ := (1 : Matrix (Fin n) (Fin n) ℂ).submatrix (Equiv.swap a c) id

theorem swap_mul {n : ℕ} (a c : Fin n) (M : Matrix (Fin n) (Fin n) ℂ) : swapMat a c * M = M.submatrix (Equiv.swap a c) id := by
  ext i j
  simp [swapMat, Matrix.mul_apply, Matrix.one_apply]

theorem mul_swap {n : ℕ} (a c : Fin n) (M : Matrix (Fin n) (Fin n) ℂ) : M * swapMat a c = M.submatrix id (Equiv.swap a c) := by
  ext i j
  rw [Matrix.mul_apply, Finset.sum_eq_single (Equiv.swap a c j)]
  · simp [swapMat, Matrix.one_apply]
  · intro l _ hl
    rw [swapMat, submatrix_apply, Matrix.one_apply, if_neg, mul_zero]
    intro h
    exact hl (by rw [id] at h; rw [← h, Equiv.swap_apply_self])
  · simp

theorem swap_transpose {n : ℕ} (a c : Fin n) : (swapMat a c)ᵀ = swapMat a c := by
  ext i j
  simp only [transpose_apply, swapMat, submatrix_apply, Matrix.one_apply, id]
  refine if_congr ⟨fun h => ?_, fun h => ?_⟩ rfl rfl
  · rw [← h, Equiv.swap_apply_self]
  · rw [← h, Equiv.swap_apply_self]

theorem swap_sub {n : ℕ} (σ : Equiv.Perm (Fin n)) (a c : Fin n) : (swapMat (σ a) (σ c)).submatrix σ σ = swapMat a c := by
  ext i j
  simp only [swapMat, submatrix_apply, Matrix.one_apply, id, σ.injective.swap_apply, σ.injective.eq_iff]

/-- If the exchange of the outer rails in front of the network does not matter for three equal nodes, they may be exchanged. -/
theorem trio_base {n : ℕ} {a b c : Fin n} (hab : a ≠ b) (hbc : b ≠ c) (k l : ℕ)
    (h : trioLaw n a b c k l l * pt (swapMat a c) = trioLaw n a b c k l l) : trioLaw n a b c k l l = trioLaw n c b a k l l := by
  have h2 : pt (swapMat a c) * trioLaw n a b c k l l = trioLaw n a b c k l l := by
    have := congrArg Law.trans h
    rw [trans_mul, trans_trio a b c hab hbc] at this
    have e : Law.trans (pt (swapMat a c)) = pt (swapMat a c) :=
      Subtype.ext ((Measure.map_dirac' measurable_tr _).trans (by rw [swap_transpose]; rfl))
    rwa [e] at this
  have h3 : ∀ X : Law n, pt (swapMat a c) * X * pt (swapMat a c) = Law.conj (Equiv.swap a c) X := by
    intro X
    have e : X = Law.of X.1 id measurable_id := Subtype.ext Measure.map_id.symm
    rw [e, pt_mul_of, of_mul_pt, conj_of]
    refine of_congr _ _ _ _ _ (Filter.Eventually.of_forall fun M => ?_)
    rw [swap_mul, mul_swap]
    rfl
  have h4 := conj_trio (Equiv.swap a c) c b a k l l
  rw [Equiv.swap_apply_right, Equiv.swap_apply_left, Equiv.swap_apply_of_ne_of_ne hab.symm hbc, ← h3, h2, h] at h4
  exact h4

theorem trio_move {n : ℕ} (σ : Equiv.Perm (Fin n)) (a b c : Fin n) (k l m : ℕ)
    (h : trioLaw n (σ a) (σ b) (σ c) k l m * pt (swapMat (σ a) (σ c)) = trioLaw n (σ a) (σ b) (σ c) k l m) :
    trioLaw n a b c k l m * pt (swapMat a c) = trioLaw n a b c k l m := by
  have := congrArg (Law.conj σ) h
  rwa [conj_mul, conj_trio, conj_pt, swap_sub] at this

/-- A node between random phases does not notice which of its arms is the upper one. -/
theorem phasedNode_swap {n : ℕ} {a b : Fin n} (hab : a ≠ b) (k : ℕ) : phasedNode n b a k = phasedNode n a b k := by
  have := betaProb k
  have e : coreLaw n b a k = pt (diagonal fun i => if i = b then (-1 : ℂ) else 1) * coreLaw n a b k * pt (diagonal fun i => if i = a then (-1 : ℂ) else 1) := by
    rw [coreLaw, coreLaw, pt_mul_of, of_mul_pt]
    refine of_congr _ _ _ _ _ (Filter.Eventually.of_forall fun s => ?_)
    obtain ⟨q0, q1, q2, q3⟩ := mz_entries s
    have hv : ¬ a.val = b.val := fun h => hab (Fin.ext h)
    ext i j
    rw [mul_diagonal, diagonal_mul]
    simp only [embed2, of_apply, q0, q1, q2, q3, Fin.ext_iff]
    split_ifs <;> first | omega | simp
  have u : ∀ (a : Fin n) i, ‖(if i = a then (-1 : ℂ) else 1)‖ = 1 := fun a i => by split_ifs <;> simp
  rw [phasedNode, e]
  simp only [mul_assoc]
  rw [pt_mul_torus _ (u a), ← mul_assoc (torus n) (pt _), torus_mul_pt _ (u b), phasedNode, mul_assoc]

/-- Exchange of three nodes. -/
theorem trio_exchange {n : ℕ} {a b c : Fin n} (hab : a ≠ b) (hbc : b ≠ c) (hac : a ≠ c) (p q : ℕ)
    (h : trioLaw n a b c 1 0 0 * pt (swapMat a c) = trioLaw n a b c 1 0 0) :
    phasedNode n a b q * (phasedNode n b c (p + q + 1) * phasedNode n a b p) = phasedNode n b c p * (phasedNode n a b (p + q + 1) * phasedNode n b c q) := by
  have h1 := trio_dens hab hbc hac p q
  have h2 := trio_dens hbc.symm hab.symm hac.symm q p
  rw [← trio_base hab hbc 1 0 h] at h2
  have e : trioWeight c a q p = trioWeight a c p q := by
    funext M
    simp only [trioWeight]
    congr 1
    ring
  rw [e, ← h1, Nat.add_comm q p] at h2
  have h3 : trioLaw n c b a (p + q + 1) q p = trioLaw n a b c (p + q + 1) p q := Subtype.ext h2
  rw [trioLaw, trioLaw, phasedNode_swap hbc, phasedNode_swap hbc, phasedNode_swap hab] at h3
  exact h3.symm

end Simphox
