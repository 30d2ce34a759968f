import Verif.MeshRobust
import Verif.MeshProps

/-!
# C186: floating point evaluation of a mesh

Everything else in this development computes with exact complex numbers. Here the evaluation of a mesh is modelled in
the standard model of floating point arithmetic: every complex product and sum is rounded, with a relative error of at
most `u`, in an arbitrary way, and every node matrix entry and output phase factor is computed with an error of at most
`η`.
-/

namespace Simphox

open Matrix Complex

/-- `z` is a rounded product of `x` and `y`. -/
def FlMul (u : ℝ) (x y z : ℂ) : Prop := ‖z - x * y‖ ≤ u * ‖x * y‖

/-- `z` is a rounded sum of `x` and `y`. -/
def FlAdd (u : ℝ) (x y z : ℂ) : Prop := ‖z - (x + y)‖ ≤ u * ‖x + y‖

/-- `z` is a rounded value of `a x + b y` (two products, one sum). -/
def FlLin (u : ℝ) (a x b y z : ℂ) : Prop := ∃ p q, FlMul u a x p ∧ FlMul u b y q ∧ FlAdd u p q z

/-- The computed entries of a node matrix: each within `η` of its exact value. -/
structure NearElements (η : ℝ) (m m' : Elements) : Prop where
  t11 : ‖m'.t11 - m.t11‖ ≤ η
  t12 : ‖m'.t12 - m.t12‖ ≤ η
  t21 : ‖m'.t21 - m.t21‖ ≤ η
  t22 : ‖m'.t22 - m.t22‖ ≤ η

/-- One column of `matrix_fn` in floating point (`_parallel_transform`, forward.py:742-765): `w` is a possible result
for `v`. -/
structure FlColumn (u : ℝ) (el : ℕ → Elements) (nodes : List Node) (v w : ℕ → ℂ) : Prop where
  top : ∀ a ∈ nodes, FlLin u (el a.id).t11 (v a.top) (el a.id).t21 (v a.bottom) (w a.top)
  bottom : ∀ a ∈ nodes, FlLin u (el a.id).t12 (v a.top) (el a.id).t22 (v a.bottom) (w a.bottom)
  other : ∀ r, (∀ a ∈ nodes, r ≠ a.top ∧ r ≠ a.bottom) → w r = v r

/-- A rounded pass through the columns `cols` in this order. -/
inductive FlColumns (u : ℝ) (el : ℕ → Elements) (nodes : List Node) : List ℕ → (ℕ → ℂ) → (ℕ → ℂ) → Prop
  | nil (v) : FlColumns u el nodes [] v v
  | cons (k cols v x w) : FlColumn u el (columnNodes nodes k) v x → FlColumns u el nodes cols x w →
      FlColumns u el nodes (k :: cols) v w

/-- A rounded multiplication with the output phases; `e` are the computed phase factors. -/
def FlGamma (u η : ℝ) (gammas : ℕ → ℝ) (v w : ℕ → ℂ) : Prop :=
  ∀ r, ∃ e : ℂ, ‖e - exp (I * gammas r)‖ ≤ η ∧ FlMul u e (v r) (w r)

/-- A rounded evaluation of the mesh (forward.py:188-227), forward or backward: `w` is a possible result for the
input `v`. -/
def Mesh.FlApply (M : Mesh) (u η : ℝ) (P : Params) (back : Bool) (v w : ℕ → ℂ) : Prop :=
  ∃ el, (∀ k, NearElements η (M.elements P back k) (el k)) ∧
    if back then ∃ x, FlGamma u η P.gammas v x ∧ FlColumns u el M.nodes (columnOrder M.nodes true) x w
    else ∃ x, FlColumns u el M.nodes (columnOrder M.nodes false) v x ∧ FlGamma u η P.gammas x w

/-! ### Proof -/

theorem flMul_error {u η : ℝ} (hu : 0 ≤ u) {a a' x z : ℂ} (ha : ‖a‖ ≤ 1) (haa : ‖a' - a‖ ≤ η) (h : FlMul u a' x z) :
    ‖z - a * x‖ ≤ ((1 + η) * (1 + u) - 1) * ‖x‖ := by
  have h1 : ‖a'‖ ≤ 1 + η := by
    calc ‖a'‖ = ‖a + (a' - a)‖ := by rw [add_sub_cancel]
      _ ≤ ‖a‖ + ‖a' - a‖ := norm_add_le _ _
      _ ≤ 1 + η := add_le_add ha haa
  calc ‖z - a * x‖ = ‖(z - a' * x) + (a' - a) * x‖ := by congr 1; ring
    _ ≤ ‖z - a' * x‖ + ‖(a' - a) * x‖ := norm_add_le _ _
    _ ≤ u * ‖a' * x‖ + ‖a' - a‖ * ‖x‖ := add_le_add h (norm_mul _ _).le
    _ ≤ u * ((1 + η) * ‖x‖) + η * ‖x‖ := by
        rw [norm_mul]
        gcongr
    _ = ((1 + η) * (1 + u) - 1) * ‖x‖ := by ring

theorem flLin_error {u η : ℝ} (hu : 0 ≤ u) {a a' b b' x y z : ℂ} (ha : ‖a‖ ≤ 1) (haa : ‖a' - a‖ ≤ η)
    (hb : ‖b‖ ≤ 1) (hbb : ‖b' - b‖ ≤ η) (h : FlLin u a' x b' y z) :
    ‖z - (a * x + b * y)‖ ≤ ((1 + η) * (1 + u) ^ 2 - 1) * (‖x‖ + ‖y‖) := by
  obtain ⟨p, q, hp, hq, hz⟩ := h
  have e1 := flMul_error hu ha haa hp
  have e2 := flMul_error hu hb hbb hq
  have hs : ‖p + q‖ ≤ (1 + η) * (1 + u) * (‖x‖ + ‖y‖) := by
    calc ‖p + q‖ = ‖(p - a * x) + (q - b * y) + (a * x + b * y)‖ := by congr 1; ring
      _ ≤ ‖(p - a * x) + (q - b * y)‖ + ‖a * x + b * y‖ := norm_add_le _ _
      _ ≤ (‖p - a * x‖ + ‖q - b * y‖) + (‖a * x‖ + ‖b * y‖) := add_le_add (norm_add_le _ _) (norm_add_le _ _)
      _ ≤ (((1 + η) * (1 + u) - 1) * ‖x‖ + ((1 + η) * (1 + u) - 1) * ‖y‖) + (1 * ‖x‖ + 1 * ‖y‖) := by
          rw [norm_mul, norm_mul]; gcongr
      _ = _ := by ring
  calc ‖z - (a * x + b * y)‖ = ‖(z - (p + q)) + ((p - a * x) + (q - b * y))‖ := by congr 1; ring
    _ ≤ ‖z - (p + q)‖ + ‖(p - a * x) + (q - b * y)‖ := norm_add_le _ _
    _ ≤ u * ‖p + q‖ + (‖p - a * x‖ + ‖q - b * y‖) := add_le_add hz (norm_add_le _ _)
    _ ≤ u * ((1 + η) * (1 + u) * (‖x‖ + ‖y‖)) + (((1 + η) * (1 + u) - 1) * ‖x‖ + ((1 + η) * (1 + u) - 1) * ‖y‖) := by gcongr
    _ = _ := by ring

theorem sq_add_le (x y : ℝ) : (x + y) ^ 2 ≤ 2 * (x ^ 2 + y ^ 2) := by nlinarith [sq_nonneg (x - y)]

theorem sum_column_rails (l : List Node) (hg : GoodColumn l) (f : ℕ → ℝ) :
    (l.map fun a => f a.top + f a.bottom).sum = ∑ r ∈ (l.flatMap fun a => [a.top, a.bottom]).toFinset, f r := by
  induction l with
  | nil => simp
  | cons a l ih =>
    have hg' : GoodColumn l := ⟨fun b hb => hg.ne b (List.mem_cons_of_mem _ hb), (List.pairwise_cons.1 hg.pw).2⟩
    have hd := (List.pairwise_cons.1 hg.pw).1
    rw [List.map_cons, List.sum_cons, ih hg', List.flatMap_cons, List.toFinset_append, Finset.sum_union]
    · have hne := hg.ne a (by simp)
      simp [Finset.sum_pair hne]
    · rw [Finset.disjoint_left]
      intro r h1 h2
      simp only [List.mem_toFinset, List.mem_cons, List.not_mem_nil, or_false, List.mem_flatMap] at h1 h2
      obtain ⟨b, hb, hrb⟩ := h2
      have hab := hd b hb
      unfold RailDisjoint at hab
      rcases h1 with rfl | rfl <;> rcases hrb with h | h <;> simp_all

theorem rails_subset {n : ℕ} (l : List Node) (hr : ∀ a ∈ l, a.top < n ∧ a.bottom < n ∧ a.top ≠ a.bottom) :
    (l.flatMap fun a => [a.top, a.bottom]).toFinset ⊆ Finset.range n := by
  intro r h1
  simp only [List.mem_toFinset, List.mem_cons, List.not_mem_nil, or_false, List.mem_flatMap] at h1
  obtain ⟨b, hb, rfl | rfl⟩ := h1
  · exact Finset.mem_range.2 (hr b hb).1
  · exact Finset.mem_range.2 (hr b hb).2.1

theorem sum_fin_range {n : ℕ} (f : ℕ → ℝ) : ∑ i : Fin n, f i = ∑ r ∈ Finset.range n, f r := (Finset.sum_range f).symm

/-- A sum over all rails is at least the sum over the rails of a column, and equal to it if nothing else counts. -/
theorem sum_over_column {n : ℕ} (l : List Node) (hg : GoodColumn l)
    (hr : ∀ a ∈ l, a.top < n ∧ a.bottom < n ∧ a.top ≠ a.bottom) (f : ℕ → ℝ) (hf : ∀ r, 0 ≤ f r) :
    (l.map fun a => f a.top + f a.bottom).sum ≤ ∑ i : Fin n, f i := by
  rw [sum_column_rails l hg f, sum_fin_range]
  exact Finset.sum_le_sum_of_subset_of_nonneg (rails_subset l hr) fun r _ _ => hf r

theorem sum_only_column {n : ℕ} (l : List Node) (hg : GoodColumn l)
    (hr : ∀ a ∈ l, a.top < n ∧ a.bottom < n ∧ a.top ≠ a.bottom) (f : ℕ → ℝ)
    (h0 : ∀ r, (∀ a ∈ l, r ≠ a.top ∧ r ≠ a.bottom) → f r = 0) :
    ∑ i : Fin n, f i = (l.map fun a => f a.top + f a.bottom).sum := by
  rw [sum_column_rails l hg f, sum_fin_range]
  refine (Finset.sum_subset (rails_subset l hr) fun r _ hn => h0 r fun a ha => ?_).symm
  constructor
  · rintro rfl; exact hn (by simp only [List.mem_toFinset, List.mem_flatMap]; exact ⟨a, ha, by simp⟩)
  · rintro rfl; exact hn (by simp only [List.mem_toFinset, List.mem_flatMap]; exact ⟨a, ha, by simp⟩)

theorem passive_entry {n : ℕ} {A : Matrix (Fin n) (Fin n) ℂ} (hA : Passive A) (i j : Fin n) : ‖A i j‖ ≤ 1 := by
  have h := hA (Pi.single j 1)
  rw [Matrix.mulVec_single_one] at h
  have e : ∑ k, ‖(Pi.single j (1 : ℂ) : Fin n → ℂ) k‖ ^ 2 = 1 := by
    rw [Finset.sum_eq_single j]
    · simp
    · intro k _ hk; simp [hk]
    · simp
  rw [e] at h
  have h2 : ‖A i j‖ ^ 2 ≤ 1 :=
    (Finset.single_le_sum (f := fun k => ‖A.col j k‖ ^ 2) (fun k _ => by positivity) (Finset.mem_univ i)).trans h
  nlinarith [norm_nonneg (A i j)]

/-- The error of one rounded column. -/
theorem flColumn_error {n : ℕ} {u η : ℝ} (hu : 0 ≤ u) (hη : 0 ≤ η) {el el' : ℕ → Elements} (hel : ∀ k, Passive (el k).mat)
    (hnear : ∀ k, NearElements η (el k) (el' k)) (l : List Node) (hg : GoodColumn l)
    (hr : ∀ a ∈ l, a.top < n ∧ a.bottom < n ∧ a.top ≠ a.bottom) {v w : ℕ → ℂ} (h : FlColumn u el' l v w) :
    amplitude (restrict n w - restrict n (parallelTransform el l v)) ≤
      2 * ((1 + η) * (1 + u) ^ 2 - 1) * amplitude (restrict n v) := by
  set μ := (1 + η) * (1 + u) ^ 2 - 1 with hμ
  have hμ0 : 0 ≤ μ := by
    have : 1 ≤ (1 + η) * (1 + u) ^ 2 := one_le_mul_of_one_le_of_one_le (by linarith) (one_le_pow₀ (by linarith))
    linarith
  have hx := parallelTransform_result (el := el) hg v
  refine amplitude_le (by positivity) ?_
  have e := sum_only_column (n := n) l hg hr (fun r => ‖w r - parallelTransform el l v r‖ ^ 2)
    (fun r hr0 => by rw [h.other r hr0, hx.other r hr0, sub_self, norm_zero]; norm_num)
  change ∑ i : Fin n, ‖w i - parallelTransform el l v i‖ ^ 2 ≤ _
  rw [e]
  have hnode : ∀ a ∈ l, ‖w a.top - parallelTransform el l v a.top‖ ^ 2 + ‖w a.bottom - parallelTransform el l v a.bottom‖ ^ 2
      ≤ (2 * μ) ^ 2 * (‖v a.top‖ ^ 2 + ‖v a.bottom‖ ^ 2) := by
    intro a ha
    have hn := hnear a.id
    have b11 : ‖(el a.id).t11‖ ≤ 1 := passive_entry (hel a.id) 0 0
    have b21 : ‖(el a.id).t21‖ ≤ 1 := passive_entry (hel a.id) 0 1
    have b12 : ‖(el a.id).t12‖ ≤ 1 := passive_entry (hel a.id) 1 0
    have b22 : ‖(el a.id).t22‖ ≤ 1 := passive_entry (hel a.id) 1 1
    have h1 := flLin_error hu b11 hn.t11 b21 hn.t21 (h.top a ha)
    have h2 := flLin_error hu b12 hn.t12 b22 hn.t22 (h.bottom a ha)
    rw [hx.top a ha, hx.bottom a ha]
    have s1 := pow_le_pow_left₀ (norm_nonneg _) h1 2
    have s2 := pow_le_pow_left₀ (norm_nonneg _) h2 2
    have s3 := sq_add_le ‖v a.top‖ ‖v a.bottom‖
    rw [← hμ, mul_pow] at s1 s2
    have : μ ^ 2 * (‖v a.top‖ + ‖v a.bottom‖) ^ 2 ≤ μ ^ 2 * (2 * (‖v a.top‖ ^ 2 + ‖v a.bottom‖ ^ 2)) :=
      mul_le_mul_of_nonneg_left s3 (sq_nonneg _)
    nlinarith
  calc (l.map fun a => ‖w a.top - parallelTransform el l v a.top‖ ^ 2 + ‖w a.bottom - parallelTransform el l v a.bottom‖ ^ 2).sum
      ≤ (l.map fun a => (2 * μ) ^ 2 * (‖v a.top‖ ^ 2 + ‖v a.bottom‖ ^ 2)).sum := List.sum_le_sum hnode
    _ = (2 * μ) ^ 2 * (l.map fun a => ‖v a.top‖ ^ 2 + ‖v a.bottom‖ ^ 2).sum := List.sum_map_mul_left ..
    _ ≤ (2 * μ) ^ 2 * ∑ i : Fin n, ‖v i‖ ^ 2 := mul_le_mul_of_nonneg_left
        (sum_over_column (n := n) l hg hr (fun r => ‖v r‖ ^ 2) fun r => by positivity) (sq_nonneg _)

/-- The error of one rounded multiplication with the output phases. -/
theorem flGamma_error {n : ℕ} {u η : ℝ} (hu : 0 ≤ u) (hη : 0 ≤ η) (g : ℕ → ℝ) {v w : ℕ → ℂ} (h : FlGamma u η g v w) :
    amplitude (restrict n w - restrict n (gammaApply g v)) ≤ ((1 + η) * (1 + u) - 1) * amplitude (restrict n v) := by
  have h0 : 0 ≤ (1 + η) * (1 + u) - 1 := by nlinarith [mul_nonneg hη hu]
  refine amplitude_le h0 ?_
  rw [Finset.mul_sum]
  refine Finset.sum_le_sum fun i _ => ?_
  obtain ⟨e, he, hm⟩ := h i
  have := flMul_error hu (by rw [mul_comm, Complex.norm_exp_ofReal_mul_I]) he hm
  rw [← mul_pow]
  exact pow_le_pow_left₀ (norm_nonneg _) this 2

theorem parallelTransform_restrict {n : ℕ} {el : ℕ → Elements} (l : List Node) (hg : GoodColumn l)
    (hr : ∀ a ∈ l, a.top < n ∧ a.bottom < n ∧ a.top ≠ a.bottom) (hel : ∀ k, Passive (el k).mat) :
    ∃ A : Matrix (Fin n) (Fin n) ℂ, Passive A ∧ ∀ v, restrict n (parallelTransform el l v) = A.mulVec (restrict n v) := by
  refine ⟨_, blockProduct_passive (n := n) (el := el) hr fun a _ => hel _, fun v => ?_⟩
  rw [parallelTransform_eq_seq hg, restrict_seqApply l hr]
  rfl

/-- Errors grow by a factor `1 + δ` per step. -/
theorem amplify {n : ℕ} {A : Matrix (Fin n) (Fin n) ℂ} (hA : Passive A) {x y z : Fin n → ℂ} {δ c X : ℝ} (hδ : 0 ≤ δ)
    (hx : amplitude x ≤ X) (hy : amplitude (y - x) ≤ (c - 1) * X) (hz : amplitude (z - A.mulVec y) ≤ δ * amplitude y) :
    amplitude (z - A.mulVec x) ≤ (c * (1 + δ) - 1) * X := by
  have e : z - A.mulVec x = (z - A.mulVec y) + A.mulVec (y - x) := by rw [Matrix.mulVec_sub]; abel
  have h1 : amplitude y ≤ c * X := by
    have : y = x + (y - x) := by abel
    rw [this]
    refine (amplitude_add _ _).trans ?_
    linarith
  rw [e]
  refine (amplitude_add _ _).trans ?_
  have h2 := hA.amplitude_le (y - x)
  have h3 := mul_le_mul_of_nonneg_left h1 hδ
  nlinarith

theorem flColumns_error {n : ℕ} {u η : ℝ} (hu : 0 ≤ u) (hη : 0 ≤ η) {el el' : ℕ → Elements} (hel : ∀ k, Passive (el k).mat)
    (hnear : ∀ k, NearElements η (el k) (el' k)) (nodes : List Node) (hg : ∀ k, GoodColumn (columnNodes nodes k))
    (hr : ∀ a ∈ nodes, a.top < n ∧ a.bottom < n ∧ a.top ≠ a.bottom) (cols : List ℕ) {y w : ℕ → ℂ}
    (h : FlColumns u el' nodes cols y w) (x : ℕ → ℂ) (c X : ℝ) (hx : amplitude (restrict n x) ≤ X)
    (hy : amplitude (restrict n y - restrict n x) ≤ (c - 1) * X) :
    amplitude (restrict n (columnsApply el nodes cols x)) ≤ X ∧
    amplitude (restrict n w - restrict n (columnsApply el nodes cols x)) ≤
      (c * (1 + 2 * ((1 + η) * (1 + u) ^ 2 - 1)) ^ cols.length - 1) * X := by
  induction h generalizing x c with
  | nil v => simpa [columnsApply] using ⟨hx, hy⟩
  | cons k cols v x' w hcol hrest ih =>
    have hr' : ∀ a ∈ columnNodes nodes k, a.top < n ∧ a.bottom < n ∧ a.top ≠ a.bottom :=
      fun a ha => hr a (List.mem_of_mem_filter ha)
    obtain ⟨A, hA, hAv⟩ := parallelTransform_restrict (n := n) (el := el) (columnNodes nodes k) (hg k) hr' hel
    have hcol' := flColumn_error (n := n) hu hη hel hnear _ (hg k) hr' hcol
    have hδ : 0 ≤ 2 * ((1 + η) * (1 + u) ^ 2 - 1) := by
      have : 1 ≤ (1 + η) * (1 + u) ^ 2 := one_le_mul_of_one_le_of_one_le (by linarith) (one_le_pow₀ (by linarith))
      linarith
    rw [hAv] at hcol'
    have step := amplify hA hδ hx hy hcol'
    rw [← hAv] at step
    have hx' : amplitude (restrict n (parallelTransform el (columnNodes nodes k) x)) ≤ X := by
      rw [hAv]; exact (hA.amplitude_le _).trans hx
    have := ih (parallelTransform el (columnNodes nodes k) x) _ hx' step
    rw [List.length_cons, pow_succ']
    rw [← mul_assoc]
    exact this

theorem elements_passive {n : ℕ} (M : Mesh) (_ : M.WellFormed n) (hl : ∀ p ∈ M.losses, p.1 ≤ 0 ∧ p.2 ≤ 0) (P : Params)
    (back : Bool) (k : ℕ) : Passive (M.elements P back k).mat := by
  have hl' : (M.losses.getD k (0, 0)).1 ≤ 0 ∧ (M.losses.getD k (0, 0)).2 ≤ 0 := by
    by_cases hk : k < M.losses.length
    · simpa [List.getD_eq_getElem?_getD, hk] using hl _ (List.getElem_mem hk)
    · simp [List.getD_eq_getElem?_getD, hk]
  exact mziElements_passive _ _ _ _ hl'.1 hl'.2 _ _

/-- C186: however the operations are rounded, the computed output of a mesh of `C` columns (none amplifying), forward or
backward, is within `(1+η)(1+u)(1+δ)^C - 1` times the input amplitude of the exact output, where
`δ = 2((1+η)(1+u)^2 - 1)`. The number of rails does not matter. -/
theorem C186_rounding {n : ℕ} (M : Mesh) (hM : M.WellFormed n) (hl : ∀ p ∈ M.losses, p.1 ≤ 0 ∧ p.2 ≤ 0) (P : Params)
    (back : Bool) (u η : ℝ) (hu : 0 ≤ u) (hη : 0 ≤ η) (v w : ℕ → ℂ) (h : M.FlApply u η P back v w) :
    amplitude (restrict n w - (M.matrix n P back).mulVec (restrict n v)) ≤
      ((1 + η) * (1 + u) * (1 + 2 * ((1 + η) * (1 + u) ^ 2 - 1)) ^ numColumns M.nodes - 1) * amplitude (restrict n v) := by
  obtain ⟨el, hnear, hrun⟩ := h
  have hel := elements_passive M hM hl P back
  have hlen : (columnOrder M.nodes back).length = numColumns M.nodes := by
    unfold columnOrder; cases back <;> simp
  have hγ0 : 0 ≤ (1 + η) * (1 + u) - 1 := by nlinarith [mul_nonneg hη hu]
  have hγ : ∀ x, restrict n (gammaApply P.gammas x) = (diagonal fun i : Fin n => exp (I * P.gammas i.val)).mulVec (restrict n x) :=
    restrict_gamma n P.gammas
  have hγp : Passive (diagonal fun i : Fin n => exp (I * P.gammas i.val)) := unitary_passive (gamma_unitary n _)
  have happ : restrict n (M.apply P back v) = (M.matrix n P back).mulVec (restrict n v) := by
    rw [Mesh.restrict_apply hM P back v, Mesh.matrix_eq hM P back]
  rw [← happ]
  cases back
  · simp only [Bool.false_eq_true, if_false] at hrun
    obtain ⟨x, hcols, hg⟩ := hrun
    have hc := flColumns_error (n := n) hu hη hel hnear M.nodes hM.goodColumn hM.rails _ hcols v 1 _ le_rfl
      (by rw [sub_self, sub_self, zero_mul]; simp [amplitude])
    have hg' := flGamma_error (n := n) hu hη P.gammas hg
    rw [hγ] at hg'
    have := amplify hγp hγ0 hc.1 hc.2 hg'
    rw [← hγ] at this
    unfold Mesh.apply
    simp only [Bool.false_eq_true, if_false]
    refine this.trans (le_of_eq ?_)
    rw [hlen]; ring
  · simp only [if_true] at hrun
    obtain ⟨x, hg, hcols⟩ := hrun
    have hg' := flGamma_error (n := n) hu hη P.gammas hg
    have hx : amplitude (restrict n (gammaApply P.gammas v)) ≤ amplitude (restrict n v) := by
      rw [hγ]; exact hγp.amplitude_le _
    have hc := flColumns_error (n := n) hu hη hel hnear M.nodes hM.goodColumn hM.rails _ hcols
      (gammaApply P.gammas v) ((1 + η) * (1 + u)) _ hx hg'
    unfold Mesh.apply
    simp only [if_true]
    refine hc.2.trans (le_of_eq ?_)
    rw [hlen]

theorem pow_sub_one_le {x : ℝ} (hx : 0 ≤ x) (N : ℕ) (h : N * x ≤ 1) : (1 + x) ^ N - 1 ≤ 2 * (N * x) := by
  have h1 : (1 + x) ^ N ≤ Real.exp (N * x) := by
    rw [Real.exp_nat_mul]
    exact pow_le_pow_left₀ (by linarith) (by linarith [Real.add_one_le_exp x]) N
  have h0 : 0 ≤ (N : ℝ) * x := by positivity
  have h2 := Real.abs_exp_sub_one_le (x := N * x) (by rw [abs_of_nonneg h0]; exact h)
  rw [abs_of_nonneg h0, abs_of_nonneg (by linarith [Real.add_one_le_exp ((N : ℝ) * x)])] at h2
  linarith

/-- C186, linear bound: with one unit of rounding `u` for operations and entries, the relative error of a mesh of `C`
columns is at most `16 (C + 1) u` (if that is at most 2). `matrix()` multiplies with the identity of dtype `complex64`
(forward.py:202), whose unit for complex products is below `2^-22`: less than `4e-4` for 100 columns. -/
theorem C186_linear {n : ℕ} (M : Mesh) (hM : M.WellFormed n) (hl : ∀ p ∈ M.losses, p.1 ≤ 0 ∧ p.2 ≤ 0) (P : Params)
    (back : Bool) (u : ℝ) (hu : 0 ≤ u) (hC : 8 * (numColumns M.nodes + 1) * u ≤ 1) (v w : ℕ → ℂ) (h : M.FlApply u u P back v w) :
    amplitude (restrict n w - (M.matrix n P back).mulVec (restrict n v)) ≤
      16 * (numColumns M.nodes + 1) * u * amplitude (restrict n v) := by
  refine (C186_rounding M hM hl P back u u hu hu v w h).trans (mul_le_mul_of_nonneg_right ?_ (amplitude_nonneg _))
  set C := numColumns M.nodes with hCdef
  have hu8 : 8 * u ≤ 1 := by
    have : 0 ≤ (C : ℝ) * u := by positivity
    nlinarith
  have hδ : 2 * ((1 + u) * (1 + u) ^ 2 - 1) ≤ 8 * u := by nlinarith [mul_nonneg hu hu, mul_nonneg (mul_nonneg hu hu) hu]
  have hδ0 : 0 ≤ 2 * ((1 + u) * (1 + u) ^ 2 - 1) := by nlinarith [mul_nonneg hu hu, mul_nonneg (mul_nonneg hu hu) hu]
  have h1 : (1 + u) * (1 + u) ≤ 1 + 8 * u := by nlinarith
  have h2 : (1 + 2 * ((1 + u) * (1 + u) ^ 2 - 1)) ^ C ≤ (1 + 8 * u) ^ C := pow_le_pow_left₀ (by linarith) (by linarith) C
  have h3 : (1 + u) * (1 + u) * (1 + 2 * ((1 + u) * (1 + u) ^ 2 - 1)) ^ C ≤ (1 + 8 * u) ^ (C + 1) := by
    rw [show (1 + 8 * u) ^ (C + 1) = (1 + 8 * u) * (1 + 8 * u) ^ C by ring]
    exact mul_le_mul h1 h2 (by positivity) (by linarith)
  have h4 := pow_sub_one_le (x := 8 * u) (by linarith) (C + 1) (by push_cast; linarith)
  push_cast at h4
  linarith

/-- C186, energy: the computed output of a lossless mesh has the power of the input up to the same relative error (in
amplitude). -/
theorem C186_power {n : ℕ} (M : Mesh) (hM : M.WellFormed n) (hl : M.Lossless) (P : Params)
    (back : Bool) (u : ℝ) (hu : 0 ≤ u) (hC : 8 * (numColumns M.nodes + 1) * u ≤ 1) (v w : ℕ → ℂ) (h : M.FlApply u u P back v w) :
    |amplitude (restrict n w) - amplitude (restrict n v)| ≤ 16 * (numColumns M.nodes + 1) * u * amplitude (restrict n v) := by
  have key := C186_linear M hM (fun p hp => by rw [hl p hp]; simp) P back u hu hC v w h
  have hU := C06_lossless_unitary n M hM hl P back
  have he : amplitude ((M.matrix n P back).mulVec (restrict n v)) = amplitude (restrict n v) := by
    unfold amplitude
    rw [unitary_power hU]
  refine le_trans ?_ key
  rw [← he, amplitude_eq, amplitude_eq, amplitude_eq]
  exact abs_norm_sub_norm_le _ _

/-- Exact evaluation is one of the rounded evaluations, for every mesh, so the hypotheses are met. -/
theorem exact_is_rounded {n : ℕ} (M : Mesh) (hM : M.WellFormed n) (P : Params) (back : Bool) (u η : ℝ) (hu : 0 ≤ u) (hη : 0 ≤ η)
    (v : ℕ → ℂ) : M.FlApply u η P back v (M.apply P back v) := by
  have hlin : ∀ a x b y : ℂ, FlLin u a x b y (a * x + b * y) := fun a x b y =>
    ⟨a * x, b * y, by simp [FlMul]; positivity, by simp [FlMul]; positivity, by simp [FlAdd]; positivity⟩
  have hcol : ∀ el (l : List Node), GoodColumn l → ∀ v, FlColumn u el l v (parallelTransform el l v) := by
    intro el l hg v
    have hx := parallelTransform_result (el := el) hg v
    exact ⟨fun a ha => by rw [hx.top a ha]; exact hlin _ _ _ _, fun a ha => by rw [hx.bottom a ha]; exact hlin _ _ _ _, hx.other⟩
  have hcols : ∀ el cols v, FlColumns u el M.nodes cols v (columnsApply el M.nodes cols v) := by
    intro el cols
    induction cols with
    | nil => intro v; exact .nil v
    | cons k cols ih => intro v; exact .cons _ _ _ _ _ (hcol el _ (hM.goodColumn k) v) (ih _)
  have hg : ∀ v, FlGamma u η P.gammas v (gammaApply P.gammas v) := fun v r =>
    ⟨exp (I * P.gammas r), by simpa using hη, by simp [FlMul, gammaApply]; positivity⟩
  refine ⟨M.elements P back, fun k => ⟨by simpa using hη, by simpa using hη, by simpa using hη, by simpa using hη⟩, ?_⟩
  cases back
  · simp only [Bool.false_eq_true, if_false]
    exact ⟨_, hcols _ _ _, hg _⟩
  · simp only [if_true]
    exact ⟨_, hg _, hcols _ _ _⟩

/-- A rounded evaluation that is not exact: one ideal MZI with all phases zero (its matrix swaps the rails up to a
phase), every operation off by the full unit in the same direction. -/
example (u : ℝ) (hu : 0 ≤ u) : ∃ w : ℕ → ℂ, (idealMesh [⟨0, 0, 1, 2, 1, 1, 0⟩] .top).FlApply u 0 ⟨fun _ => 0, fun _ => 0, fun _ => 0⟩
    false (fun _ => 1) w ∧ w 0 = (1 + u) ^ 3 * (idealMesh [⟨0, 0, 1, 2, 1, 1, 0⟩] .top).apply ⟨fun _ => 0, fun _ => 0, fun _ => 0⟩ false (fun _ => 1) 0 := by
  set M := idealMesh [⟨0, 0, 1, 2, 1, 1, 0⟩] .top
  set P : Params := ⟨fun _ => 0, fun _ => 0, fun _ => 0⟩
  have hcn : columnNodes M.nodes 0 = [⟨0, 0, 1, 2, 1, 1, 0⟩] := by decide
  have hg : GoodColumn (columnNodes M.nodes 0) := by rw [hcn]; exact ⟨by simp, by simp⟩
  have hx := parallelTransform_result (el := M.elements P false) hg (fun _ => 1)
  have hord : columnOrder M.nodes false = [0] := by decide
  have hc1 : ((1 + u : ℝ) : ℂ) - 1 = (u : ℂ) := by push_cast; ring
  have hmul : ∀ a b : ℂ, FlMul u a b ((1 + u) * (a * b)) := fun a b => by
    unfold FlMul
    rw [show (1 + (u : ℂ)) * (a * b) - a * b = u * (a * b) by ring, norm_mul, Complex.norm_real, Real.norm_of_nonneg hu]
  have hadd : ∀ a b : ℂ, FlAdd u a b ((1 + u) * (a + b)) := fun a b => by
    unfold FlAdd
    rw [show (1 + (u : ℂ)) * (a + b) - (a + b) = u * (a + b) by ring, norm_mul, Complex.norm_real, Real.norm_of_nonneg hu]
  set y : ℕ → ℂ := fun r => if r < 2 then (1 + u) ^ 2 * parallelTransform (M.elements P false) (columnNodes M.nodes 0) (fun _ => 1) r else 1 with hy
  have hlin : ∀ a x b z : ℂ, FlLin u a x b z ((1 + u) ^ 2 * (a * x + b * z)) := fun a x b z =>
    ⟨_, _, hmul a x, hmul b z, by
      have := hadd ((1 + u) * (a * x)) ((1 + u) * (b * z))
      rwa [show (1 + (u : ℂ)) * ((1 + u) * (a * x) + (1 + u) * (b * z)) = (1 + u) ^ 2 * (a * x + b * z) by ring] at this⟩
  refine ⟨fun r => (1 + u) * gammaApply P.gammas y r, ⟨M.elements P false, fun k => ⟨by simp, by simp, by simp, by simp⟩, ?_⟩, ?_⟩
  · simp only [Bool.false_eq_true, if_false]
    refine ⟨y, ?_, fun r => ⟨exp (I * P.gammas r), by simp, hmul _ _⟩⟩
    rw [hord]
    refine .cons _ _ _ _ _ ⟨fun a ha => ?_, fun a ha => ?_, fun r hr => ?_⟩ (.nil _)
    · have ht : y a.top = (1 + u) ^ 2 * _ := if_pos (by rw [hcn] at ha; simp at ha; subst ha; simp)
      rw [ht, hx.top a ha]; exact hlin _ _ _ _
    · have ht : y a.bottom = (1 + u) ^ 2 * _ := if_pos (by rw [hcn] at ha; simp at ha; subst ha; simp)
      rw [ht, hx.bottom a ha]; exact hlin _ _ _ _
    · rw [hcn] at hr
      have := hr _ (List.mem_singleton.2 rfl)
      exact if_neg (by simp at this; omega)
  · unfold Mesh.apply columnsApply
    simp only [Bool.false_eq_true, if_false]
    rw [hord]
    simp only [List.foldl_cons, List.foldl_nil, gammaApply]
    rw [hy]
    simp only [Nat.zero_lt_two, if_true]
    ring

end Simphox
