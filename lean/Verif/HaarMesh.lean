import Verif.HaarLaw

/-!
# The triangular mesh set at random is a Haar-random unitary (C206)
-/

namespace Simphox

open Matrix Complex MeasureTheory ProbabilityTheory ComplexConjugate
open scoped BoundedContinuousFunction

/-- A matrix is that of a `HeadUnitary` if it is unitary and its last rows are trivial. -/
theorem head_of_rows {n k : ℕ} {g : Matrix (Fin n) (Fin n) ℂ} (hg : g ∈ unitaryGroup (Fin n) ℂ)
    (h : ∀ i j : Fin n, k ≤ j.val → g j i = if i = j then 1 else 0) : g ∈ HeadUnitary n k := by
  have u2 : gᴴ * g = 1 := mem_unitaryGroup_iff'.1 hg
  have u1 : g * gᴴ = 1 := mem_unitaryGroup_iff.1 hg
  refine ⟨hg, fun i j hj => ⟨?_, h i j hj⟩⟩
  have e : (g * gᴴ) i j = g i j := by
    rw [Matrix.mul_apply, Finset.sum_eq_single j]
    · rw [conjTranspose_apply, h j j hj, if_pos rfl, star_one, mul_one]
    · intro l _ hl
      rw [conjTranspose_apply, h l j hj, if_neg hl, star_zero, mul_zero]
    · simp
  rw [← e, u1, Matrix.one_apply]

theorem head_mulVec {n k : ℕ} {g : Matrix (Fin n) (Fin n) ℂ} (hg : g ∈ HeadUnitary n k) (v : Fin n → ℂ) (j : Fin n) (hj : k ≤ j.val) :
    (g *ᵥ v) j = v j := by
  rw [Matrix.mulVec, dotProduct, Finset.sum_eq_single j]
  · rw [(hg.2 j j hj).2, if_pos rfl, one_mul]
  · intro l _ hl
    rw [(hg.2 l j hj).2, if_neg hl, zero_mul]
  · simp

/-- The phase shifter on rail `k`. -/
noncomputable def railPhase (n k : ℕ) (t : ℝ) : Matrix (Fin n) (Fin n) ℂ := diagonal fun i : Fin n => if i.val = k then exp (I * t) else 1

theorem railPhase_head (n k : ℕ) (t : ℝ) : railPhase n k t ∈ HeadUnitary n (k + 1) := by
  refine head_of_rows (diagonal_unitary fun i => ?_) fun i j hj => ?_
  · split_ifs
    · exact norm_exp_I _
    · exact norm_one
  · rw [railPhase, diagonal_apply, if_neg (show ¬ j.val = k by omega)]
    simp only [eq_comm]

theorem railPhase_comm {n k : ℕ} (t : ℝ) {g : Matrix (Fin n) (Fin n) ℂ} (hg : g ∈ HeadUnitary n k) : railPhase n k t * g = g * railPhase n k t := by
  ext i j
  rw [railPhase, diagonal_mul, mul_diagonal]
  by_cases hi : i.val = k
  · by_cases hj : j.val = k
    · rw [if_pos hi, if_pos hj, mul_comm]
    · rw [(hg.2 j i hi.ge).2, if_neg (fun e : j = i => hj (by rw [e, hi]))]
      simp
  · by_cases hj : j.val = k
    · rw [(hg.2 i j hj.ge).1, if_neg (fun e : i = j => hi (by rw [e, hj]))]
      simp
    · rw [if_neg hi, if_neg hj, mul_comm]

/-- The chain of `j` nodes, on the rails `0` to `j`, with ids from `N`. -/
noncomputable def chainMat (n : ℕ) (el : ℕ → Elements) (N : ℕ) : ℕ → Matrix (Fin n) (Fin n) ℂ
  | 0 => 1
  | j + 1 => embed2 n j (j + 1) (el (N + j)).mat * chainMat n el N j

theorem embed2_head {n j : ℕ} (hj : j + 1 < n) {m : Matrix (Fin 2) (Fin 2) ℂ} (hm : m ∈ unitaryGroup (Fin 2) ℂ) :
    embed2 n j (j + 1) m ∈ HeadUnitary n (j + 2) := by
  refine head_of_rows (embed2_unitary (by omega) hj (by omega) hm) fun i l hl => ?_
  rw [embed2, of_apply, if_neg (by omega), if_neg (by omega), if_neg (by omega), if_neg (by omega)]
  simp only [eq_comm]

theorem chainMat_head {n : ℕ} {el : ℕ → Elements} {N : ℕ} (j : ℕ) (hj : j < n) (hel : ∀ i < j, (el (N + i)).mat ∈ unitaryGroup (Fin 2) ℂ) :
    chainMat n el N j ∈ HeadUnitary n (j + 1) := by
  induction j with
  | zero => exact head_of_rows (one_mem _) fun i l _ => by rw [chainMat, Matrix.one_apply]; simp only [eq_comm]
  | succ j ih => exact HeadUnitary.mul (embed2_head hj (hel j (by omega))) (HeadUnitary.mono (by omega) (ih (by omega) fun i hi => hel i (by omega)))

/-- A vector on `n` rails, continued by zero. -/
def extVec {n : ℕ} (c : Fin n → ℂ) (k : ℕ) : ℂ := if h : k < n then c ⟨k, h⟩ else 0

/-- The last rail of the chain. -/
theorem chainMat_row {n : ℕ} {el : ℕ → Elements} {N : ℕ} (c : Fin n → ℂ) (j : ℕ) (hj : j < n) (hel : ∀ i < j, (el (N + i)).mat ∈ unitaryGroup (Fin 2) ℂ) :
    (chainMat n el N j *ᵥ c) ⟨j, hj⟩ = chainForm el N (extVec c) j := by
  induction j with
  | zero => rw [chainMat, Matrix.one_mulVec, chainForm, extVec, dif_pos hj]
  | succ j ih =>
    have h1 := chainMat_head (n := n) (N := N) j (by omega) fun i hi => hel i (by omega)
    rw [chainMat, ← mulVec_mulVec, embed2_mulVec (by omega) hj (by omega), if_neg (by simp), if_pos rfl, ih (by omega) fun i hi => hel i (by omega),
      head_mulVec h1 c ⟨j + 1, hj⟩ le_rfl, chainForm, extVec, dif_pos hj]
    rfl

/-- The subunit of `k` nodes with the output phase of rail `k`. -/
noncomputable def phasedChain (n : ℕ) (X : ℕ → ℝ × ℝ → Elements) (k N : ℕ) (x : Fin 3 × ℕ → ℝ) : Matrix (Fin n) (Fin n) ℂ :=
  railPhase n k (2 * Real.pi * x (2, k)) * chainMat n (drawnEl X x) N k

theorem phasedChain_head {n : ℕ} {X : ℕ → ℝ × ℝ → Elements} {N : ℕ} (k : ℕ) (hk : k < n) (h : ∀ i < k, HaarNode (X (N + i)) i) (x : Fin 3 × ℕ → ℝ) :
    phasedChain n X k N x ∈ HeadUnitary n (k + 1) :=
  HeadUnitary.mul (railPhase_head _ _ _) (chainMat_head k hk fun i hi => (h i hi).unitary _)

theorem phasedChain_row {n : ℕ} {X : ℕ → ℝ × ℝ → Elements} {N : ℕ} (k : ℕ) (hk : k < n) (h : ∀ i < k, HaarNode (X (N + i)) i) (x : Fin 3 × ℕ → ℝ)
    (c : Fin n → ℂ) : (phasedChain n X k N x *ᵥ c) ⟨k, hk⟩ =
      exp (I * ((2 * Real.pi * x (2, k) : ℝ) : ℂ)) * chainForm (drawnEl X x) N (extVec c) k := by
  have h1 := chainMat_row (el := drawnEl X x) c k hk fun i hi => (h i hi).unitary _
  have h2 : ∀ w : Fin n → ℂ, (railPhase n k (2 * Real.pi * x (2, k)) *ᵥ w) ⟨k, hk⟩ = exp (I * ((2 * Real.pi * x (2, k) : ℝ) : ℂ)) * w ⟨k, hk⟩ := by
    intro w
    rw [railPhase, mulVec_diagonal]
    simp only [if_true]
  rw [phasedChain, ← mulVec_mulVec, h2, h1]

theorem measurable_chainMat {n : ℕ} {X : ℕ → ℝ × ℝ → Elements} {N : ℕ} (k : ℕ) (h : ∀ i < k, HaarNode (X (N + i)) i) :
    Measurable fun x => chainMat n (drawnEl X x) N k := by
  induction k with
  | zero => exact measurable_const
  | succ k ih =>
    have hk := h k (by omega)
    refine measurable_mat_mul (measurable_mat fun i j => ?_) (ih fun i hi => h i (by omega))
    simp only [embed2, of_apply, Elements.mat]
    have m := measurable_draw (N + k)
    split_ifs
    · exact hk.m22.comp m
    · exact hk.m12.comp m
    · exact hk.m21.comp m
    · exact hk.m11.comp m
    · exact measurable_const
    · exact measurable_const

theorem measurable_phasedChain {n : ℕ} {X : ℕ → ℝ × ℝ → Elements} {N : ℕ} (k : ℕ) (h : ∀ i < k, HaarNode (X (N + i)) i) :
    Measurable fun x => phasedChain n X k N x := by
  refine measurable_mat_mul (measurable_mat fun i j => ?_) (measurable_chainMat k h)
  simp only [railPhase, diagonal_apply]
  split_ifs
  · have h1 : Measurable fun t : ℝ => exp (I * ((2 * Real.pi * t : ℝ) : ℂ)) := by fun_prop
    exact h1.comp (measurable_pi_apply _)
  · exact measurable_const
  · exact measurable_const

theorem chainMat_congr {n : ℕ} {el el' : ℕ → Elements} {N : ℕ} (k : ℕ) (h : ∀ i < k, el (N + i) = el' (N + i)) :
    chainMat n el N k = chainMat n el' N k := by
  induction k with
  | zero => rfl
  | succ k ih => rw [chainMat, chainMat, ih fun i hi => h i (by omega), h k (by omega)]

theorem phasedChain_dep {n : ℕ} (X : ℕ → ℝ × ℝ → Elements) (N k : ℕ) (x y : Fin 3 × ℕ → ℝ)
    (h : ∀ i < k, x (0, N + i) = y (0, N + i) ∧ x (1, N + i) = y (1, N + i)) (h2 : x (2, k) = y (2, k)) : phasedChain n X k N x = phasedChain n X k N y := by
  rw [phasedChain, phasedChain, h2, chainMat_congr k fun i hi => ?_]
  simp only [drawnEl, h i hi]

/-- The matrix of the subunits with fewer than `k` nodes, the largest one acting first. -/
noncomputable def randomHead (n : ℕ) (X : ℕ → ℝ × ℝ → Elements) : ℕ → ℕ → (Fin 3 × ℕ → ℝ) → Matrix (Fin n) (Fin n) ℂ
  | 0, _, _ => 1
  | k + 1, N, x => randomHead n X k (N + k) x * phasedChain n X k N x

/-- The nodes of these subunits are Haar nodes. -/
def HaarNodes (X : ℕ → ℝ × ℝ → Elements) : ℕ → ℕ → Prop
  | 0, _ => True
  | k + 1, N => (∀ i < k, HaarNode (X (N + i)) i) ∧ HaarNodes X k (N + k)

theorem randomHead_head {n : ℕ} {X : ℕ → ℝ × ℝ → Elements} : ∀ (k N : ℕ), k ≤ n → HaarNodes X k N → ∀ x, randomHead n X k N x ∈ HeadUnitary n k
  | 0, _, _, _, _ => head_of_rows (one_mem _) fun i l _ => by rw [randomHead, Matrix.one_apply]; simp only [eq_comm]
  | k + 1, N, hk, h, x => HeadUnitary.mul (HeadUnitary.mono (Nat.le_succ k) (randomHead_head k (N + k) (by omega) h.2 x)) (phasedChain_head k (by omega) h.1 x)

theorem measurable_randomHead {n : ℕ} {X : ℕ → ℝ × ℝ → Elements} : ∀ (k N : ℕ), HaarNodes X k N → Measurable fun x => randomHead n X k N x
  | 0, _, _ => measurable_const
  | k + 1, N, h => measurable_mat_mul (measurable_randomHead k (N + k) h.2) (measurable_phasedChain k h.1)

/-- Number of nodes of the subunits with fewer than `k` nodes. -/
def headCount : ℕ → ℕ
  | 0 => 0
  | k + 1 => k + headCount k

theorem randomHead_dep {n : ℕ} (X : ℕ → ℝ × ℝ → Elements) : ∀ (k N : ℕ) (x y : Fin 3 × ℕ → ℝ),
    (∀ i < headCount k, x (0, N + i) = y (0, N + i) ∧ x (1, N + i) = y (1, N + i)) → (∀ r < k, x (2, r) = y (2, r)) → randomHead n X k N x = randomHead n X k N y
  | 0, _, _, _, _, _ => rfl
  | k + 1, N, x, y, h, h2 => by
    rw [randomHead, randomHead, randomHead_dep X k (N + k) x y (fun i hi => by rw [Nat.add_assoc]; exact h (k + i) (by rw [headCount]; omega))
      fun r hr => h2 r (by omega), phasedChain_dep X N k x y (fun i hi => h i (by rw [headCount]; omega)) (h2 k (by omega))]

theorem sum_ext {n k : ℕ} (hk : k < n) (c : Fin n → ℂ) :
    ∑ i ∈ Finset.range (k + 1), extVec c i * conj (extVec c i) = ∑ i : Fin n, if i.val ≤ k then c i * conj (c i) else 0 := by
  have e : ∀ i : Fin n, (if i.val ≤ k then c i * conj (c i) else 0) = (fun j : ℕ => if j ≤ k then extVec c j * conj (extVec c j) else 0) i.val := by
    intro i
    simp [extVec]
  rw [Finset.sum_congr rfl fun i _ => e i, ← Finset.sum_range (fun j : ℕ => if j ≤ k then extVec c j * conj (extVec c j) else 0), ← Finset.sum_filter]
  refine Finset.sum_congr ?_ fun _ _ => rfl
  ext i
  simp only [Finset.mem_range, Finset.mem_filter]
  omega

/-- A matrix that leaves the rails behind rail `k` alone keeps the power on the others. -/
theorem head_power {n k : ℕ} (hk : k < n) {g : Matrix (Fin n) (Fin n) ℂ} (hg : g ∈ HeadUnitary n (k + 1)) (c : Fin n → ℂ) :
    ∑ i ∈ Finset.range (k + 1), extVec (g *ᵥ c) i * conj (extVec (g *ᵥ c) i) = ∑ i ∈ Finset.range (k + 1), extVec c i * conj (extVec c i) := by
  have h1 : ∀ v : Fin n → ℂ, ∑ i : Fin n, v i * conj (v i) = (∑ i : Fin n, if i.val ≤ k then v i * conj (v i) else 0) +
      ∑ i : Fin n, if i.val ≤ k then 0 else v i * conj (v i) := by
    intro v
    rw [← Finset.sum_add_distrib]
    refine Finset.sum_congr rfl fun i _ => ?_
    split_ifs <;> simp
  have h2 : ∑ i : Fin n, (g *ᵥ c) i * conj ((g *ᵥ c) i) = ∑ i : Fin n, c i * conj (c i) := by
    have e : ∀ v : Fin n → ℂ, ∑ i : Fin n, v i * conj (v i) = star v ⬝ᵥ v := by
      intro v
      rw [dotProduct]
      exact Finset.sum_congr rfl fun i _ => mul_comm _ _
    rw [e, e, star_mulVec, ← dotProduct_mulVec, mulVec_mulVec, show gᴴ * g = 1 from mem_unitaryGroup_iff'.1 hg.1, one_mulVec]
  rw [sum_ext hk, sum_ext hk]
  have h3 : ∑ i : Fin n, (if i.val ≤ k then 0 else (g *ᵥ c) i * conj ((g *ᵥ c) i)) = ∑ i : Fin n, if i.val ≤ k then 0 else c i * conj (c i) := by
    refine Finset.sum_congr rfl fun i _ => ?_
    split_ifs with hi
    · rfl
    · rw [head_mulVec hg c i (by omega)]
  have h4 := h1 (g *ᵥ c)
  rw [h2, h3, h1 c] at h4
  exact (add_right_cancel h4).symm

theorem UniformDraws.comp {Ω : Type} [MeasurableSpace Ω] {Pr : Measure Ω} {D : Fin 3 × ℕ → Ω → ℝ} (hD : UniformDraws Pr D)
    {n : ℕ} (P : (Fin 3 × ℕ → ℝ) → Matrix (Fin n) (Fin n) ℂ) (mP : Measurable P) : Measurable fun ω => P fun i => D i ω := by
  have ms0 : Measurable fun ω i => D i ω := measurable_pi_iff.2 fun i => hD.meas i
  exact mP.comp ms0

/-- The law of the random row does not change. -/
theorem phasedChain_law {Ω : Type} [MeasurableSpace Ω] {Pr : Measure Ω} [IsProbabilityMeasure Pr] {D : Fin 3 × ℕ → Ω → ℝ} (hD : UniformDraws Pr D)
    {n : ℕ} (X : ℕ → ℝ × ℝ → Elements) (N k : ℕ) (hk : k < n) (h : ∀ i < k, HaarNode (X (N + i)) i) {g : Matrix (Fin n) (Fin n) ℂ}
    (hg : g ∈ HeadUnitary n (k + 1)) :
    Pr.map (fun ω => (phasedChain n X k N (fun i => D i ω) * g) ⟨k, hk⟩) = Pr.map (fun ω => phasedChain n X k N (fun i => D i ω) ⟨k, hk⟩) := by
  have mP : Measurable fun x => phasedChain n X k N x := measurable_phasedChain k h
  have mV : Measurable fun ω => phasedChain n X k N (fun i => D i ω) := hD.comp _ mP
  have hH : ∀ ω, phasedChain n X k N (fun i => D i ω) ∈ HeadUnitary n (k + 1) := fun ω => phasedChain_head k hk h fun i => D i ω
  have hb : ∀ ω i, ‖(phasedChain n X k N (fun i => D i ω) * g) ⟨k, hk⟩ i‖ ≤ 1 :=
    fun ω i => entry_norm_bound_of_unitary (mul_mem (hH ω).1 hg.1) ⟨k, hk⟩ i
  refine law_of_moments Pr (fun ω => (phasedChain n X k N (fun i => D i ω) * g) ⟨k, hk⟩) (fun ω => phasedChain n X k N (fun i => D i ω) ⟨k, hk⟩) (measurable_pi_iff.2 fun j => measurable_entry (measurable_mat_mul mV measurable_const) _ j)
    (measurable_pi_iff.2 fun j => measurable_entry mV _ j) 1 hb (fun ω i => ?_) fun c p q => ?_
  · exact entry_norm_bound_of_unitary (hH ω).1 ⟨k, hk⟩ i
  · have e : ∀ (M : Matrix (Fin n) (Fin n) ℂ), ∑ i, M ⟨k, hk⟩ i * c i = (M *ᵥ c) ⟨k, hk⟩ := fun M => rfl
    simp only [e, ← mulVec_mulVec]
    simp only [phasedChain_row k hk h]
    rw [phased_moment hD X N k _ k h p q, phased_moment hD X N k _ k h p q, head_power hk hg]

/-- The subunits together are right invariant. -/
theorem randomHead_inv {Ω : Type} [MeasurableSpace Ω] {Pr : Measure Ω} [IsProbabilityMeasure Pr] {D : Fin 3 × ℕ → Ω → ℝ} (hD : UniformDraws Pr D)
    {n : ℕ} (X : ℕ → ℝ × ℝ → Elements) : ∀ (k N : ℕ), k ≤ n → HaarNodes X k N → RightInv Pr n k fun ω => randomHead n X k N fun i => D i ω
  | 0, N, _, _ => by
    intro f h hh
    have e : h = 1 := by
      ext i j
      rw [(hh.2 i j (Nat.zero_le _)).1, Matrix.one_apply]
    rw [e]
    simp only [mul_one]
  | k + 1, N, hk, hX => by
    have hW := (measurable_randomHead (n := n) k (N + k) hX.2)
    have hV := (measurable_phasedChain (n := n) k hX.1)
    refine RightInv.step Pr (by omega) (hD.comp _ hW) (hD.comp _ hV) ?_ (randomHead_inv hD X k (N + k) (by omega) hX.2)
      (fun ω => phasedChain_head k (by omega) hX.1 _) (fun h hh => phasedChain_law hD X N k (by omega) hX.1 hh)
    refine hD.split hW hV (({0, 1} : Finset (Fin 3)) ×ˢ ((Finset.range (headCount k)).image fun i => N + k + i) ∪ {2} ×ˢ Finset.range k)
      (({0, 1} : Finset (Fin 3)) ×ˢ ((Finset.range k).image fun i => N + i) ∪ {(2, k)}) ?_ (fun x y hxy => ?_) fun x y hxy => ?_
    · rw [Finset.disjoint_left]
      rintro ⟨a, b⟩ h1 h2
      simp only [Finset.mem_union, Finset.mem_product, Finset.mem_insert, Finset.mem_singleton, Finset.mem_image, Finset.mem_range, Prod.mk.injEq] at h1 h2
      rcases h1 with ⟨h1, i, hi, e⟩ | ⟨h1, hi⟩
      · rcases h2 with ⟨-, l, hl, e'⟩ | ⟨h2, -⟩
        · omega
        · rw [h2] at h1; rcases h1 with h1 | h1 <;> exact absurd h1 (by decide)
      · rcases h2 with ⟨h2, -⟩ | ⟨-, h2⟩
        · rw [h1] at h2; rcases h2 with h2 | h2 <;> exact absurd h2 (by decide)
        · omega
    · refine randomHead_dep X k (N + k) x y (fun i hi => ⟨hxy _ ?_, hxy _ ?_⟩) fun r hr => hxy _ ?_
      · simp [hi]
      · simp [hi]
      · simp [hr]
    · refine phasedChain_dep X N k x y (fun i hi => ⟨hxy _ ?_, hxy _ ?_⟩) (hxy _ ?_)
      · simp [hi]
      · simp [hi]
      · simp


/-! ### Haar-random unitary matrices -/

/-- Specification: a Haar-random unitary matrix is a random unitary matrix whose law no fixed unitary matrix changes, multiplied from either side. -/
structure HaarRandom {Ω : Type} [MeasurableSpace Ω] (Pr : Measure Ω) {n : ℕ} (U : Ω → Matrix (Fin n) (Fin n) ℂ) : Prop where
  unitary : ∀ ω, U ω ∈ unitaryGroup (Fin n) ℂ
  measurable : AEMeasurable U Pr
  left : ∀ A ∈ unitaryGroup (Fin n) ℂ, ∀ B, MeasurableSet B → Pr {ω | A * U ω ∈ B} = Pr {ω | U ω ∈ B}
  right : ∀ A ∈ unitaryGroup (Fin n) ℂ, ∀ B, MeasurableSet B → Pr {ω | U ω * A ∈ B} = Pr {ω | U ω ∈ B}

theorem measurable_star_mat {n : ℕ} : Measurable fun M : Matrix (Fin n) (Fin n) ℂ => Mᴴ := by
  refine measurable_mat fun i j => ?_
  simp only [conjTranspose_apply]
  exact Complex.continuous_conj.measurable.comp (measurable_entry measurable_id j i)

theorem integral_swap_mat {n : ℕ} (μ ν : Measure (Matrix (Fin n) (Fin n) ℂ)) [IsProbabilityMeasure μ] [IsProbabilityMeasure ν]
    (f : Matrix (Fin n) (Fin n) ℂ →ᵇ ℝ) (F : Matrix (Fin n) (Fin n) ℂ × Matrix (Fin n) (Fin n) ℂ → Matrix (Fin n) (Fin n) ℂ) (hF : Measurable F) :
    ∫ x, ∫ y, f (F (x, y)) ∂ν ∂μ = ∫ y, ∫ x, f (F (x, y)) ∂μ ∂ν :=
  integral_integral_swap (f := fun x y => f (F (x, y)))
    (Integrable.of_bound (f.continuous.measurable.comp hF).aestronglyMeasurable ‖f‖ (Filter.Eventually.of_forall fun _ => f.norm_coe_le_norm _))

/-- A right invariant law on the unitary matrices is left invariant. -/
theorem left_of_right {n : ℕ} (μ : Measure (Matrix (Fin n) (Fin n) ℂ)) [IsProbabilityMeasure μ] (hU : ∀ᵐ M ∂μ, M ∈ unitaryGroup (Fin n) ℂ)
    (hR : ∀ f : Matrix (Fin n) (Fin n) ℂ →ᵇ ℝ, ∀ h ∈ unitaryGroup (Fin n) ℂ, ∫ M, f (M * h) ∂μ = ∫ M, f M ∂μ) :
    ∀ f : Matrix (Fin n) (Fin n) ℂ →ᵇ ℝ, ∀ h ∈ unitaryGroup (Fin n) ℂ, ∫ M, f (h * M) ∂μ = ∫ M, f M ∂μ := by
  have hct : Continuous fun M : Matrix (Fin n) (Fin n) ℂ => Mᴴ := continuous_star
  have inv : ∀ f : Matrix (Fin n) (Fin n) ℂ →ᵇ ℝ, ∫ M, f M ∂μ = ∫ M, f Mᴴ ∂μ := by
    intro f
    have hF : Measurable fun p : Matrix (Fin n) (Fin n) ℂ × Matrix (Fin n) (Fin n) ℂ => p.2 * p.1ᴴ :=
      measurable_mat_mul measurable_snd (measurable_star_mat.comp measurable_fst)
    have h1 : ∫ x, ∫ y, f (y * xᴴ) ∂μ ∂μ = ∫ M, f M ∂μ := by
      have : ∀ᵐ x ∂μ, ∫ y, f (y * xᴴ) ∂μ = ∫ M, f M ∂μ := by
        filter_upwards [hU] with x hx
        exact hR f xᴴ (Unitary.star_mem hx)
      rw [integral_congr_ae this]
      simp
    have h2 : ∫ y, ∫ x, f (y * xᴴ) ∂μ ∂μ = ∫ M, f Mᴴ ∂μ := by
      have : ∀ᵐ y ∂μ, ∫ x, f (y * xᴴ) ∂μ = ∫ M, f Mᴴ ∂μ := by
        filter_upwards [hU] with y hy
        have h3 := hR (f.compContinuous ⟨fun M => y * Mᴴ, continuous_const.mul hct⟩) y hy
        simp only [BoundedContinuousFunction.compContinuous_apply, ContinuousMap.coe_mk, conjTranspose_mul, ← Matrix.mul_assoc] at h3
        rw [show y * yᴴ = 1 from mem_unitaryGroup_iff.1 hy] at h3
        simp only [Matrix.one_mul] at h3
        exact h3.symm
      rw [integral_congr_ae this]
      simp
    rw [← h1, ← h2]
    exact integral_swap_mat μ μ f _ hF
  intro f h hh
  have e1 := inv (f.compContinuous ⟨fun M => h * M, continuous_const.mul continuous_id⟩)
  simp only [BoundedContinuousFunction.compContinuous_apply, ContinuousMap.coe_mk] at e1
  have e2 := hR (f.compContinuous ⟨fun M => Mᴴ, hct⟩) hᴴ (Unitary.star_mem hh)
  simp only [BoundedContinuousFunction.compContinuous_apply, ContinuousMap.coe_mk, conjTranspose_mul, conjTranspose_conjTranspose] at e2
  rw [e1, e2, ← inv f]

/-- All Haar-random unitary matrices have the same law. -/
theorem HaarRandom.law_unique {Ω Ω' : Type} [MeasurableSpace Ω] [MeasurableSpace Ω'] {Pr : Measure Ω} [IsProbabilityMeasure Pr] {Pr' : Measure Ω'}
    [IsProbabilityMeasure Pr'] {n : ℕ} {U : Ω → Matrix (Fin n) (Fin n) ℂ} {U' : Ω' → Matrix (Fin n) (Fin n) ℂ} (h : HaarRandom Pr U)
    (h' : HaarRandom Pr' U') (B : Set (Matrix (Fin n) (Fin n) ℂ)) (hB : MeasurableSet B) : Pr {ω | U ω ∈ B} = Pr' {ω | U' ω ∈ B} := by
  have p1 : IsProbabilityMeasure (Pr.map U) := Measure.isProbabilityMeasure_map h.measurable
  have p2 : IsProbabilityMeasure (Pr'.map U') := Measure.isProbabilityMeasure_map h'.measurable
  have ml : ∀ A : Matrix (Fin n) (Fin n) ℂ, Measurable fun M => A * M := fun A => measurable_mat_mul measurable_const measurable_id
  have mr : ∀ A : Matrix (Fin n) (Fin n) ℂ, Measurable fun M => M * A := fun A => measurable_mat_mul measurable_id measurable_const
  have e1 : ∀ A ∈ unitaryGroup (Fin n) ℂ, (Pr.map U).map (fun M => M * A) = Pr.map U := by
    intro A hA
    ext C hC
    rw [Measure.map_apply (mr A) hC, Measure.map_apply_of_aemeasurable h.measurable (mr A hC), Measure.map_apply_of_aemeasurable h.measurable hC]
    exact h.right A hA C hC
  have e2 : ∀ A ∈ unitaryGroup (Fin n) ℂ, (Pr'.map U').map (fun M => A * M) = Pr'.map U' := by
    intro A hA
    ext C hC
    rw [Measure.map_apply (ml A) hC, Measure.map_apply_of_aemeasurable h'.measurable (ml A hC), Measure.map_apply_of_aemeasurable h'.measurable hC]
    exact h'.left A hA C hC
  have hc : MeasurableSet {M : Matrix (Fin n) (Fin n) ℂ | M ∈ unitaryGroup (Fin n) ℂ} := by
    have := (head_compact n n).isClosed.measurableSet
    convert this using 1
    ext M
    exact ⟨fun hM => ⟨hM, fun i j hj => absurd hj (by omega)⟩, fun hM => hM.1⟩
  have u1 : ∀ᵐ M ∂(Pr.map U), M ∈ unitaryGroup (Fin n) ℂ := (ae_map_iff h.measurable hc).2 (Filter.Eventually.of_forall h.unitary)
  have u2 : ∀ᵐ M ∂(Pr'.map U'), M ∈ unitaryGroup (Fin n) ℂ := (ae_map_iff h'.measurable hc).2 (Filter.Eventually.of_forall h'.unitary)
  have key : Pr.map U = Pr'.map U' := by
    refine ext_of_forall_integral_eq_of_IsFiniteMeasure fun f => ?_
    have h1 : ∫ x, ∫ y, f (x * y) ∂(Pr'.map U') ∂(Pr.map U) = ∫ y, f y ∂(Pr'.map U') := by
      have : ∀ᵐ x ∂(Pr.map U), ∫ y, f (x * y) ∂(Pr'.map U') = ∫ y, f y ∂(Pr'.map U') := by
        filter_upwards [u1] with x hx
        conv_rhs => rw [← e2 x hx, integral_map (ml x).aemeasurable f.continuous.measurable.aestronglyMeasurable]
      rw [integral_congr_ae this]
      simp
    have h2 : ∫ y, ∫ x, f (x * y) ∂(Pr.map U) ∂(Pr'.map U') = ∫ x, f x ∂(Pr.map U) := by
      have : ∀ᵐ y ∂(Pr'.map U'), ∫ x, f (x * y) ∂(Pr.map U) = ∫ x, f x ∂(Pr.map U) := by
        filter_upwards [u2] with y hy
        conv_rhs => rw [← e1 y hy, integral_map (mr y).aemeasurable f.continuous.measurable.aestronglyMeasurable]
      rw [integral_congr_ae this]
      simp
    rw [← h1, ← h2]
    exact (integral_swap_mat _ _ f (fun p => p.1 * p.2) (measurable_mat_mul measurable_fst measurable_snd)).symm
  have := congrArg (fun μ => μ B) key
  simp only [Measure.map_apply_of_aemeasurable h.measurable hB, Measure.map_apply_of_aemeasurable h'.measurable hB] at this
  exact this

/-- A right invariant random unitary matrix is Haar-random. -/
theorem haar_of_right {Ω : Type} [MeasurableSpace Ω] {Pr : Measure Ω} [IsProbabilityMeasure Pr] {n : ℕ} {U W : Ω → Matrix (Fin n) (Fin n) ℂ}
    (hW : Measurable W) (hUW : ∀ᵐ ω ∂Pr, U ω = W ω) (hU : ∀ ω, U ω ∈ unitaryGroup (Fin n) ℂ) (hR : RightInv Pr n n W) : HaarRandom Pr U := by
  have p1 : IsProbabilityMeasure (Pr.map W) := Measure.isProbabilityMeasure_map hW.aemeasurable
  have head : ∀ M ∈ unitaryGroup (Fin n) ℂ, M ∈ HeadUnitary n n := fun M hM => ⟨hM, fun i j hj => absurd hj (by omega)⟩
  have hc : MeasurableSet {M : Matrix (Fin n) (Fin n) ℂ | M ∈ unitaryGroup (Fin n) ℂ} := by
    have := (head_compact n n).isClosed.measurableSet
    convert this using 1
    ext M
    exact ⟨head M, fun hM => hM.1⟩
  have ml : ∀ A : Matrix (Fin n) (Fin n) ℂ, Measurable fun M => A * M := fun A => measurable_mat_mul measurable_const measurable_id
  have mr : ∀ A : Matrix (Fin n) (Fin n) ℂ, Measurable fun M => M * A := fun A => measurable_mat_mul measurable_id measurable_const
  have u1 : ∀ᵐ M ∂(Pr.map W), M ∈ unitaryGroup (Fin n) ℂ :=
    (ae_map_iff hW.aemeasurable hc).2 (hUW.mono fun ω e => e ▸ hU ω)
  have hm : ∀ f : Matrix (Fin n) (Fin n) ℂ →ᵇ ℝ, ∀ g : Matrix (Fin n) (Fin n) ℂ → Matrix (Fin n) (Fin n) ℂ, Measurable g →
      ∫ M, f (g M) ∂(Pr.map W) = ∫ ω, f (g (W ω)) ∂Pr := fun f g hg =>
    integral_map hW.aemeasurable (f.continuous.measurable.comp hg).aestronglyMeasurable
  have hR' : ∀ f : Matrix (Fin n) (Fin n) ℂ →ᵇ ℝ, ∀ h ∈ unitaryGroup (Fin n) ℂ, ∫ M, f (M * h) ∂(Pr.map W) = ∫ M, f M ∂(Pr.map W) := by
    intro f h hh
    rw [hm f _ (mr h)]
    exact (hR f h (head h hh)).trans (hm f id measurable_id).symm
  have hL' := left_of_right (Pr.map W) u1 hR'
  have fin : ∀ g : Matrix (Fin n) (Fin n) ℂ → Matrix (Fin n) (Fin n) ℂ, Measurable g →
      (∀ f : Matrix (Fin n) (Fin n) ℂ →ᵇ ℝ, ∫ M, f (g M) ∂(Pr.map W) = ∫ M, f M ∂(Pr.map W)) →
      ∀ B, MeasurableSet B → Pr {ω | g (U ω) ∈ B} = Pr {ω | U ω ∈ B} := by
    intro g hg hf B hB
    have p2 : IsProbabilityMeasure ((Pr.map W).map g) := Measure.isProbabilityMeasure_map hg.aemeasurable
    have e : (Pr.map W).map g = Pr.map W := by
      refine ext_of_forall_integral_eq_of_IsFiniteMeasure fun f => ?_
      rw [integral_map hg.aemeasurable f.continuous.measurable.aestronglyMeasurable]
      exact hf f
    have h1 : Pr {ω | g (U ω) ∈ B} = Pr {ω | g (W ω) ∈ B} := measure_congr (hUW.mono fun ω e => by
      show (g (U ω) ∈ B) = (g (W ω) ∈ B)
      rw [e])
    have h2 : Pr {ω | U ω ∈ B} = Pr {ω | W ω ∈ B} := measure_congr (hUW.mono fun ω e => by
      show (U ω ∈ B) = (W ω ∈ B)
      rw [e])
    rw [h1, h2]
    have := congrArg (fun μ => μ B) e
    simp only [Measure.map_apply hg hB, Measure.map_apply hW hB, Measure.map_apply hW (hg hB)] at this
    exact this
  exact ⟨hU, hW.aemeasurable.congr (hUW.mono fun ω e => e.symm), fun A hA => fin _ (ml A) fun f => hL' f A hA, fun A hA => fin _ (mr A) fun f => hR' f A hA⟩

/-! ### The nodes of the triangular mesh -/

theorem haar_node (j : ℕ) (inv : ℝ → ℝ) (h : IsBetaincinv (j + 1 : ℕ) (1 : ℕ) inv) (g : ℝ → ℝ) (hg : Measurable g) (hgi : ∀ᵐ u ∂uniform01, inv u = g u) :
    HaarNode (fun x => mziElements .top false 0 0 0 0 (idealPhase (g x.1)) (2 * Real.pi * x.2)) j := by
  have mt : Measurable fun x : ℝ × ℝ => idealPhase (g x.1) := measurable_idealPhase.comp (hg.comp measurable_fst)
  have mp : Measurable fun x : ℝ × ℝ => 2 * Real.pi * x.2 := by fun_prop
  have cont : (Continuous fun y : ℝ × ℝ => (mziElements .top false 0 0 0 0 y.1 y.2).t11) ∧ (Continuous fun y : ℝ × ℝ => (mziElements .top false 0 0 0 0 y.1 y.2).t12) ∧
      (Continuous fun y : ℝ × ℝ => (mziElements .top false 0 0 0 0 y.1 y.2).t21) ∧ (Continuous fun y : ℝ × ℝ => (mziElements .top false 0 0 0 0 y.1 y.2).t22) := by
    simp only [mziElements]; refine ⟨?_, ?_, ?_, ?_⟩ <;> fun_prop
  have mX : ∀ (f : ℝ × ℝ → ℂ), Continuous f → Measurable fun x : ℝ × ℝ => f (idealPhase (g x.1), 2 * Real.pi * x.2) :=
    fun f hf => hf.measurable.comp (mt.prodMk mp)
  have e12 : ∀ t p : ℝ, (mziElements .top false 0 0 0 0 t p).t12 = armL t * exp (I * (p : ℂ)) := by
    intro t p
    have hz : I * (t : ℂ) + ((Real.log 10 * 0 / 20 : ℝ) : ℂ) = I * t := by simp
    simp only [mziElements, terms_ideal, hz, armL]; simp; ring
  have e22 : ∀ t p : ℝ, (mziElements .top false 0 0 0 0 t p).t22 = armR t := by
    intro t p
    have hz : I * (t : ℂ) + ((Real.log 10 * 0 / 20 : ℝ) : ℂ) = I * t := by simp
    simp only [mziElements, terms_ideal, hz, armR]; simp; ring
  have hae : ∀ᵐ x ∂(uniform01.prod uniform01), inv x.1 = g x.1 := Measure.quasiMeasurePreserving_fst.ae hgi
  have hmom : ∀ A B C D : ℕ, ∫ x, (((mziElements .top false 0 0 0 0 (idealPhase (g x.1)) (2 * Real.pi * x.2)).t12 ^ A *
      conj (mziElements .top false 0 0 0 0 (idealPhase (g x.1)) (2 * Real.pi * x.2)).t12 ^ B) *
      ((mziElements .top false 0 0 0 0 (idealPhase (g x.1)) (2 * Real.pi * x.2)).t22 ^ C *
      conj (mziElements .top false 0 0 0 0 (idealPhase (g x.1)) (2 * Real.pi * x.2)).t22 ^ D)) ∂(uniform01.prod uniform01) =
      ∫ z, ((armL (randTheta inv 0 0 z.1) * exp (I * ((2 * Real.pi * z.2 : ℝ) : ℂ))) ^ A *
      conj (armL (randTheta inv 0 0 z.1) * exp (I * ((2 * Real.pi * z.2 : ℝ) : ℂ))) ^ B) *
      (armR (randTheta inv 0 0 z.1) ^ C * conj (armR (randTheta inv 0 0 z.1)) ^ D) ∂(uniform01.prod uniform01) := by
    intro A B C D
    refine integral_congr_ae ?_
    filter_upwards [hae] with x hx
    rw [e12, e22, randTheta_ideal, hx]
  have hj : (0 : ℝ) < ((j + 1 : ℕ) : ℝ) := by positivity
  have h1 : (0 : ℝ) < ((1 : ℕ) : ℝ) := by norm_num
  refine ⟨mX _ cont.1, mX _ cont.2.1, mX _ cont.2.2.1, mX _ cont.2.2.2, fun x => mziElements_unitary _ _ _ _ _ _, fun A B C D hne => ?_, fun A C => ?_⟩
  · rw [hmom]
    exact (node_moment _ _ hj h1 inv h A B C D).1 hne
  · rw [hmom, (node_moment _ _ hj h1 inv h A A C C).2 rfl rfl]
    have g1 : ∀ m : ℕ, Real.Gamma ((m : ℝ) + 1) = m.factorial := Real.Gamma_nat_eq_factorial
    have b1 : beta (((j + 1 : ℕ) : ℝ) + A) (((1 : ℕ) : ℝ) + C) = (j + A).factorial * C.factorial / (j + A + C + 1).factorial := by
      rw [beta, show ((j + 1 : ℕ) : ℝ) + A = ((j + A : ℕ) : ℝ) + 1 by push_cast; ring, show ((1 : ℕ) : ℝ) + C = ((C : ℕ) : ℝ) + 1 by push_cast; ring,
        show ((j + A : ℕ) : ℝ) + 1 + (((C : ℕ) : ℝ) + 1) = ((j + A + C + 1 : ℕ) : ℝ) + 1 by push_cast; ring, g1, g1, g1]
    have b2 : beta ((j + 1 : ℕ) : ℝ) ((1 : ℕ) : ℝ) = 1 / (j + 1) := by
      rw [beta, show ((j + 1 : ℕ) : ℝ) + ((1 : ℕ) : ℝ) = ((j + 1 : ℕ) : ℝ) + 1 by push_cast; ring, g1, Nat.cast_succ, g1, Nat.factorial_succ, Nat.cast_one, Real.Gamma_one]
      have : (j.factorial : ℝ) ≠ 0 := by exact_mod_cast j.factorial_ne_zero
      have : (j + 1 : ℝ) ≠ 0 := by positivity
      push_cast
      field_simp
    rw [b1, b2]
    push_cast
    have : ((j + A + C + 1).factorial : ℂ) ≠ 0 := by exact_mod_cast (j + A + C + 1).factorial_ne_zero
    field_simp

/-- All nodes after position `N` of the list. -/
theorem parts_haar (n : ℕ) (X : ℕ → ℝ × ℝ → Elements) (nodes : List Node) (hX : ∀ k j, k < nodes.length → (nodes.getD k default).beta = j + 1 →
    (nodes.getD k default).alpha = 1 → HaarNode (X k) j) : ∀ k N C, (∀ i < tri k, N + i < nodes.length ∧ nodes.getD (N + i) default = (parts n false k N C).getD i default) →
      HaarNodes X (k + 1) N
  | 0, N, C, _ => ⟨fun i hi => absurd hi (Nat.not_lt_zero i), trivial⟩
  | k + 1, N, C, h => by
    have hlen : (subunitNodes n (k + 1) false N C).length = k + 1 := by
      rw [subunitNodes_eq, List.length_map, chain_tree_eq _ _ (by omega)]
      simp
    refine ⟨fun j hj => ?_, ?_⟩
    · obtain ⟨h1, h2⟩ := h j (by rw [tri]; omega)
      have e : nodes.getD (N + j) default = shiftNode N (colOffset n (k + 1) false C) { chainNode (k + 1 + 1) n (k + 1 + 1 - 1 - 1 - j) with column := k + 1 + 1 - 1 - 1 - j } := by
        rw [h2, parts, List.getD_eq_getElem?_getD, List.getElem?_append_left (by omega), List.getElem?_eq_getElem (by omega)]
        simp only [subunitNodes_eq, chain_tree_eq (k + 1 + 1) n (by omega : 2 ≤ k + 1 + 1), List.getElem_map, List.getElem_reverse, List.getElem_range,
          List.length_map, List.length_range, Option.getD_some]
      refine hX _ j h1 ?_ ?_
      · rw [e]; simp only [shiftNode, chainNode]; omega
      · rw [e]; rfl
    · refine parts_haar n X nodes hX k (N + (k + 1)) (C + numColumns (tree (k + 2) n false)) fun i hi => ?_
      obtain ⟨h1, h2⟩ := h (k + 1 + i) (by rw [tri]; omega)
      rw [← Nat.add_assoc] at h1 h2
      refine ⟨h1, ?_⟩
      rw [h2, parts, List.getD_eq_getElem?_getD, List.getElem?_append_right (by omega), hlen, Nat.add_sub_cancel_left, ← List.getD_eq_getElem?_getD]

theorem blockProduct_append (n : ℕ) (el : ℕ → Elements) (L L' : List Node) : blockProduct n el (L ++ L') = blockProduct n el L' * blockProduct n el L := by
  simp [blockProduct]

theorem blockProduct_chain (n : ℕ) (el : ℕ → Elements) (m R N c : ℕ) (j : ℕ) :
    blockProduct n el (((List.range j).map fun i => ({ chainNode m R i with column := i } : Node)).map (shiftNode N c)) = chainMat n el N j := by
  induction j with
  | zero => simp [blockProduct, chainMat]
  | succ j ih =>
    rw [List.range_succ, List.map_append, List.map_append, blockProduct_append, ih, chainMat]
    congr 1
    simp [blockProduct, shiftNode, chainNode, Nat.add_comm]

/-- The matrix of the mesh, subunit by subunit. -/
theorem triangular_random (n : ℕ) (X : ℕ → ℝ × ℝ → Elements) (x : Fin 3 × ℕ → ℝ) : ∀ (k N C : ℕ), k + 1 ≤ n → HaarNodes X (k + 1) N →
    (diagonal fun i : Fin n => if i.val ≤ k then exp (I * ((2 * Real.pi * x (2, i.val) : ℝ) : ℂ)) else 1) * blockProduct n (drawnEl X x) (execParts n false k N C) =
      randomHead n X (k + 1) N x
  | 0, N, C, hk, _ => by
    rw [execParts, randomHead, randomHead, phasedChain, chainMat, blockProduct, List.map_nil, List.reverse_nil, List.prod_nil, mul_one, mul_one, one_mul, railPhase]
    congr 1
    funext i
    by_cases hi : i.val = 0
    · rw [if_pos (by omega), if_pos hi, hi]
    · rw [if_neg (by omega), if_neg hi]
  | k + 1, N, C, hk, h => by
    have ih := triangular_random n X x k (N + (k + 1)) (C + numColumns (tree (k + 2) n false)) (by omega) h.2
    have hd : (diagonal fun i : Fin n => if i.val ≤ k + 1 then exp (I * ((2 * Real.pi * x (2, i.val) : ℝ) : ℂ)) else 1) =
        railPhase n (k + 1) (2 * Real.pi * x (2, k + 1)) * diagonal fun i : Fin n => if i.val ≤ k then exp (I * ((2 * Real.pi * x (2, i.val) : ℝ) : ℂ)) else 1 := by
      rw [railPhase, diagonal_mul_diagonal]
      congr 1
      funext i
      by_cases h1 : i.val = k + 1
      · rw [if_pos (by omega), if_pos h1, if_neg (by omega), mul_one, h1]
      · rw [if_neg h1, one_mul]
        by_cases h2 : i.val ≤ k
        · rw [if_pos (by omega), if_pos h2]
        · rw [if_neg (by omega), if_neg h2]
    rw [execParts, chain_exec (k + 2) n (by omega), blockProduct_append, blockProduct_chain, ← mul_assoc, hd, mul_assoc (railPhase _ _ _), ih,
      railPhase_comm _ (randomHead_head (k + 1) (N + (k + 1)) (by omega) h.2 x), mul_assoc]
    rfl

/-- C206: the triangular mesh (built by `triangular(u)` for whatever `u`), set at random with `mesh.thetas = mesh.rand_theta()` and uniform external and
output phases, is a Haar-random unitary matrix. -/
theorem C206_triangular {Ω : Type} [MeasurableSpace Ω] (Pr : Measure Ω) [IsProbabilityMeasure Pr] (eps : ℝ) (heps : 0 ≤ eps) (n : ℕ) (hn : 2 ≤ n)
    (u : Matrix (Fin n) (Fin n) ℂ) (hu : u ∈ unitaryGroup (Fin n) ℂ) (binv : ℕ → ℕ → ℝ → ℝ) (hb : IsBetaincinvFamily binv)
    (D : Fin 3 × ℕ → Ω → ℝ) (hD : UniformDraws Pr D) :
    ∃ M P, cascade eps .top 0 n false u = some (M, P) ∧
      HaarRandom Pr fun ω => M.matrix n (freshParams binv M.nodes (fun k => (D (0, k) ω, D (1, k) ω)) (fun r => D (2, r) ω)) false := by
  obtain ⟨P, h1, h2, -⟩ := cascade_spec (Or.inl rfl) heps n hn false u hu
  refine ⟨_, P, h1, ?_⟩
  set nodes := parts n false (n - 1) 0 0 with hnodes
  have hpos : ∀ a ∈ nodes, 1 ≤ a.alpha ∧ 1 ≤ a.beta := by
    intro a ha
    obtain ⟨k, N, C, h1, h2, -, x, hx, rfl⟩ := mem_parts ha
    rw [chain_tree_eq _ _ (by omega), List.mem_reverse] at hx
    obtain ⟨j, hj, rfl⟩ := List.mem_map.1 hx
    have := List.mem_range.1 hj
    simp only [shiftNode, chainNode]
    omega
  have hget : ∀ k, k < nodes.length → nodes.getD k default ∈ nodes := by
    intro k hk
    rw [List.getD_eq_getElem?_getD, List.getElem?_eq_getElem hk]
    exact List.getElem_mem hk
  have hinv : ∀ k, ∃ g : ℝ → ℝ, Measurable g ∧ (k < nodes.length → ∀ᵐ u ∂uniform01, binv (nodes.getD k default).beta (nodes.getD k default).alpha u = g u) := by
    intro k
    by_cases hk : k < nodes.length
    · have h := hpos _ (hget k hk)
      have hm := (hb _ _ h.2 h.1).aemeasurable
      exact ⟨hm.mk _, hm.measurable_mk, fun _ => hm.ae_eq_mk⟩
    · exact ⟨fun _ => 0, measurable_const, fun h => absurd h hk⟩
  choose g hg hge using hinv
  let X : ℕ → ℝ × ℝ → Elements := fun k x => mziElements .top false 0 0 0 0 (idealPhase (g k x.1)) (2 * Real.pi * x.2)
  have hX : HaarNodes X (n - 1 + 1) 0 := by
    refine parts_haar n X nodes (fun k j hk hbeta halpha => ?_) (n - 1) 0 0 fun i hi => ?_
    · have h := hpos _ (hget k hk)
      have hbi := hb _ _ h.2 h.1
      have hgk := hge k hk
      rw [hbeta, halpha] at hbi hgk
      exact haar_node j _ hbi (g k) (hg k) hgk
    · rw [Nat.zero_add, hnodes, parts_length]
      exact ⟨hi, rfl⟩
  have hn1 : n - 1 + 1 = n := by omega
  have hae : ∀ᵐ ω ∂Pr, ∀ k : ℕ, k < nodes.length → binv (nodes.getD k default).beta (nodes.getD k default).alpha (D (0, k) ω) = g k (D (0, k) ω) := by
    rw [ae_all_iff]
    intro k
    by_cases hk : k < nodes.length
    · have h1 := hge k hk
      rw [← hD.law (0, k)] at h1
      filter_upwards [ae_of_ae_map (hD.meas (0, k)).aemeasurable h1] with ω hω _ using hω
    · exact Filter.Eventually.of_forall fun ω h => absurd h hk
  have hM : (idealMesh nodes .top).WellFormed n := h2
  refine haar_of_right (W := fun ω => randomHead n X n 0 fun i => D i ω) (hD.comp _ (measurable_randomHead n 0 (hn1 ▸ hX))) ?_ ?_
    (randomHead_inv hD X n 0 le_rfl (hn1 ▸ hX))
  · filter_upwards [hae] with ω hω
    show (idealMesh nodes .top).matrix n (freshParams binv nodes (fun k => (D (0, k) ω, D (1, k) ω)) (fun r => D (2, r) ω)) false = _
    rw [Mesh.matrix_eq hM, if_neg (by decide)]
    have h3 := triangular_random n X (fun i => D i ω) (n - 1) 0 0 (by omega) hX
    rw [hn1] at h3
    rw [← h3]
    congr 1
    · congr 1
      funext i
      rw [if_pos (by have := i.isLt; omega)]
      rfl
    · rw [visitOrder_false]
      show blockProduct n _ (executionOrder nodes) = _
      refine mulVec_ext fun v => ?_
      let v' : ℕ → ℂ := fun q => if h : q < n then v ⟨q, h⟩ else 0
      have hv : v = restrict n v' := by
        funext q
        simp [restrict, v']
      have hr : ∀ a ∈ nodes, a.top < n ∧ a.bottom < n ∧ a.top ≠ a.bottom := hM.rails
      have a1 := restrict_seqApply (n := n) (el := (idealMesh nodes .top).elements (freshParams binv nodes (fun k => (D (0, k) ω, D (1, k) ω)) (fun r => D (2, r) ω)) false)
        (executionOrder nodes) (fun a ha => hr a ((executionOrder_perm nodes).mem_iff.1 ha)) v'
      have a2 := restrict_seqApply (n := n) (el := drawnEl X fun i => D i ω) (execParts n false (n - 1) 0 0)
        (fun a ha => hr a ((execParts_perm n false (n - 1) 0 0).mem_iff.1 ha)) v'
      rw [hv]
      refine a1.symm.trans (Eq.trans ?_ a2)
      congr 1
      rw [← seqApply_parts _ n false (n - 1) 0 0 (by omega)]
      refine seqApply_congr (executionOrder nodes) (fun a ha => ?_) v'
      have hlt : a.id < nodes.length := hM.ids a ((executionOrder_perm nodes).mem_iff.1 ha)
      rw [ideal_elements]
      simp only [freshParams, X, drawnEl]
      rw [randTheta_ideal, hω _ hlt]
  · intro ω
    show (idealMesh nodes .top).matrix n (freshParams binv nodes (fun k => (D (0, k) ω, D (1, k) ω)) (fun r => D (2, r) ω)) false ∈ _
    rw [Mesh.matrix_eq hM, if_neg (by decide)]
    refine mul_mem (gamma_unitary n _) (blockProduct_unitary (fun a ha => hM.rails a (mem_visitOrder.1 ha)) fun a _ => ?_)
    rw [ideal_elements]
    exact mziElements_unitary _ _ _ _ _ _

/-- C206: this determines the distribution: any two Haar-random unitary matrices have the same law. -/
theorem C206_unique {Ω Ω' : Type} [MeasurableSpace Ω] [MeasurableSpace Ω'] {Pr : Measure Ω} [IsProbabilityMeasure Pr] {Pr' : Measure Ω'}
    [IsProbabilityMeasure Pr'] {n : ℕ} {U : Ω → Matrix (Fin n) (Fin n) ℂ} {U' : Ω' → Matrix (Fin n) (Fin n) ℂ} (h : HaarRandom Pr U)
    (h' : HaarRandom Pr' U') (B : Set (Matrix (Fin n) (Fin n) ℂ)) (hB : MeasurableSet B) : Pr {ω | U ω ∈ B} = Pr' {ω | U' ω ∈ B} :=
  h.law_unique h' B hB

/-- C206, the hypotheses can be met: there are a `betaincinv` and independent uniform draws, for which the 5-rail triangular mesh is Haar-random. -/
theorem C206_case : ∃ (binv : ℕ → ℕ → ℝ → ℝ) (Ω : Type) (_ : MeasurableSpace Ω) (Pr : Measure Ω) (D : Fin 3 × ℕ → Ω → ℝ), IsBetaincinvFamily binv ∧
    UniformDraws Pr D ∧ ∃ M P, cascade 0 .top 0 5 false 1 = some (M, P) ∧
      HaarRandom Pr fun ω => M.matrix 5 (freshParams binv M.nodes (fun k => (D (0, k) ω, D (1, k) ω)) (fun r => D (2, r) ω)) false := by
  have h : ∀ a b : ℕ, ∃ inv, (1 ≤ a → 1 ≤ b → IsBetaincinv a b inv) := by
    intro a b
    by_cases h1 : 1 ≤ a ∧ 1 ≤ b
    · obtain ⟨inv, hi⟩ := exists_betaincinv a b (by exact_mod_cast h1.1) (by exact_mod_cast h1.2)
      exact ⟨inv, fun _ _ => hi⟩
    · exact ⟨fun _ => 0, fun h2 h3 => absurd ⟨h2, h3⟩ h1⟩
  choose binv hb using h
  have hD : UniformDraws (Measure.infinitePi fun _ : Fin 3 × ℕ => uniform01) (fun i ω => ω i) :=
    ⟨fun i => measurable_pi_apply i, fun i => Measure.infinitePi_map_eval _ i, iIndepFun_infinitePi (X := fun _ x => x) fun _ => measurable_id⟩
  have := C206_triangular (Measure.infinitePi fun _ : Fin 3 × ℕ => uniform01) 0 le_rfl 5 (by norm_num) 1 (one_mem _) binv hb _ hD
  exact ⟨binv, Fin 3 × ℕ → ℝ, inferInstance, Measure.infinitePi fun _ : Fin 3 × ℕ => uniform01, fun i ω => ω i, hb, hD, this⟩

end Simphox
