import Mathlib.Tactic.IntervalCases
import Mathlib.Tactic.NormNum
import Verif.Mode

/-!
# Properties of mode solving and of the mode library: C62, C63, C64, C65
-/

namespace Simphox

open Matrix Complex

variable {s : Fin 3 → ℕ}

/-! ### C62 modes are sorted and matched -/

/-- The guided eigenvalues (positive real part) come before the others. -/
def GuidedFirst (vals : List ℂ) : Prop :=
  ∀ i j, i < j → j < vals.length → 0 < (vals.getD j 0).re → 0 < (vals.getD i 0).re

theorem filter_range_prefix (P : ℕ → Bool) (n : ℕ) (h : ∀ i j, i < j → j < n → P j = true → P i = true) :
    ∃ m, m ≤ n ∧ (List.range n).filter P = List.range m := by
  induction n with
  | zero => exact ⟨0, le_rfl, rfl⟩
  | succ n ih =>
    obtain ⟨m, hm, he⟩ := ih fun i j hij hj => h i j hij (by omega)
    rw [List.range_succ, List.filter_append]
    by_cases hp : P n = true
    · refine ⟨n + 1, le_rfl, ?_⟩
      rw [List.filter_eq_self.2, List.range_succ]
      · simp [hp]
      · intro a ha
        exact h a n (List.mem_range.1 ha) (by omega) hp
    · exact ⟨m, by omega, by rw [he]; simp [hp]⟩

theorem mem_usefulModes {vals : List ℂ} {i : ℕ} :
    i ∈ usefulModes vals ↔ i < vals.length ∧ 0 < (vals.getD i 0).re := by
  simp [usefulModes]

theorem usefulModes_nodup (vals : List ℂ) : (usefulModes vals).Nodup :=
  List.Nodup.filter _ List.nodup_range

theorem usefulModes_prefix {vals : List ℂ} (h : GuidedFirst vals) :
    usefulModes vals = List.range (usefulModes vals).length := by
  classical
  obtain ⟨m, _, he⟩ := filter_range_prefix (fun i => decide (0 < (vals.getD i 0).re)) vals.length
    (fun i j hij hj hp => by
      have := h i j hij hj (by simpa using hp)
      simpa using this)
  have : usefulModes vals = List.range m := by
    rw [← he]; unfold usefulModes; congr
  rw [this, List.length_range]

theorem fancy_ok {α : Type} (d : α) (l : List α) (idx : List ℕ) (h : ∀ i ∈ idx, i < l.length) :
    fancy d l idx = .ok (idx.map fun i => l.getD i d) := if_pos h

theorem getD_map_of_lt {α β : Type} (f : α → β) (d : α) (e : β) (l : List α) (i : ℕ) (h : i < l.length) :
    (l.map f).getD i e = f (l.getD i d) := by
  simp [List.getD_eq_getElem?_getD, List.getElem?_eq_getElem h]

/-- Indexing the selected list by a permutation. -/
theorem map_getD_map {α : Type} (d : α) (l : List α) (u idx : List ℕ) (h : ∀ i ∈ idx, i < u.length) :
    idx.map (fun i => (u.map fun k => l.getD k d).getD i d) = (idx.map fun i => u.getD i 0).map fun k => l.getD k d := by
  rw [List.map_map]
  refine List.map_congr_left fun i hi => ?_
  exact getD_map_of_lt _ 0 d u i (h i hi)

theorem zipWith_map_same {α β γ δ : Type} (f : β → γ → δ) (a : α → β) (b : α → γ) (l : List α) :
    List.zipWith f (l.map a) (l.map b) = l.map fun x => f (a x) (b x) := by
  induction l with
  | nil => rfl
  | cons x l ih => simp [ih]

theorem map_getD_range {α : Type} (d : α) (l : List α) : (List.range l.length).map (fun i => l.getD i d) = l := by
  apply List.ext_getElem
  · simp
  · intro i h1 h2
    simp [List.getD_eq_getElem?_getD, List.getElem?_eq_getElem h2]

/-- The part of `solve` before the final indexing: a duplicate-free list of exactly the guided
eigenvalues, in descending order. -/
theorem solvePost_eq {V ι : Type} (argsort : List ℝ → List ℕ) (hs : IsArgsort argsort)
    (full : ℂ → V → ι → ℂ) (i0 : ι) (v0 : V) (vals : List ℂ) (vecs : List V) (hl : vecs.length = vals.length) :
    ∃ σ : List ℕ, σ.Perm (usefulModes vals) ∧
      (σ.map fun k => Real.sqrt (vals.getD k 0).re).Pairwise (· ≥ ·) ∧
      solvePost argsort full i0 v0 vals vecs =
        (do let b ← fancy 0 (σ.map fun k => vals.getD k 0) (usefulModes vals)
            .ok (b.map fun z => Real.sqrt z.re,
              σ.map fun k => rephase i0 (full (vals.getD k 0) (vecs.getD k v0)))) := by
  set u := usefulModes vals with hu
  set vals1 := u.map fun k => vals.getD k 0 with hv1
  set key := vals1.map fun z => Real.sqrt z.re with hkey
  obtain ⟨hperm, hsorted⟩ := hs key
  have hlen : key.length = u.length := by simp [hkey, hv1]
  have hidx : ∀ i ∈ (argsort key).reverse, i < u.length := by
    intro i hi
    rw [List.mem_reverse] at hi
    have := hperm.mem_iff.1 hi
    rwa [List.mem_range, hlen] at this
  refine ⟨(argsort key).reverse.map fun i => u.getD i 0, ?_, ?_, ?_⟩
  · have h1 : ((argsort key).reverse).Perm (List.range u.length) := by
      rw [← hlen]; exact (List.reverse_perm _).trans hperm
    have h2 := h1.map fun i => u.getD i 0
    rwa [map_getD_range] at h2
  · rw [List.map_map, List.map_reverse, List.pairwise_reverse]
    refine (List.Pairwise.imp (fun h => h) (R := (· ≤ ·)) ?_)
    have : ((argsort key).map ((fun k => Real.sqrt (vals.getD k 0).re) ∘ fun i => u.getD i 0)) =
        (argsort key).map fun i => key.getD i 0 := by
      refine List.map_congr_left fun i hi => ?_
      have hi' := hidx i (List.mem_reverse.2 hi)
      rw [Function.comp_apply, hkey, getD_map_of_lt _ 0 0 _ _ (by simpa [hv1] using hi'), hv1,
        getD_map_of_lt _ 0 0 _ _ hi']
    rw [this]
    exact hsorted
  · unfold solvePost
    simp only [← hu]
    rw [fancy_ok 0 vals u (fun i hi => (mem_usefulModes.1 hi).1),
      fancy_ok v0 vecs u (fun i hi => hl ▸ (mem_usefulModes.1 hi).1)]
    change (do
      let vals2 ← fancy 0 vals1 (argsort key).reverse
      let vecs2 ← fancy v0 (u.map fun k => vecs.getD k v0) (argsort key).reverse
      let b ← fancy (0 : ℂ) vals2 u
      Except.ok (b.map fun z : ℂ => Real.sqrt z.re, (List.zipWith full vals2 vecs2).map (rephase i0))) = _
    rw [fancy_ok 0 vals1 _ (by simpa [hv1] using hidx),
      fancy_ok v0 (u.map fun k => vecs.getD k v0) _ (by simpa using hidx)]
    change (do
      let b ← fancy 0 ((argsort key).reverse.map fun i => vals1.getD i 0) u
      Except.ok (b.map fun z : ℂ => Real.sqrt z.re,
        (List.zipWith full ((argsort key).reverse.map fun i => vals1.getD i 0)
          ((argsort key).reverse.map fun i => (u.map fun k => vecs.getD k v0).getD i v0)).map (rephase i0))) = _
    rw [hv1, map_getD_map 0 vals u _ hidx, map_getD_map v0 vecs u _ hidx, zipWith_map_same]
    simp only [List.map_map, Function.comp_def]

/-- **C62** If the eigensolver lists the guided eigenvalues first, `solve` returns exactly the guided
modes (each once), in descending order of propagation constant, with mode `k` belonging to `beta k`
(both come from the same eigenpair `σ k`) and as many betas as modes. (Partial: this order is not
guaranteed by an eigensolver, see `C62_unguided_first_counterexample`.) -/
theorem C62_solve_partial {V ι : Type} (argsort : List ℝ → List ℕ) (hs : IsArgsort argsort)
    (full : ℂ → V → ι → ℂ) (i0 : ι) (v0 : V) (vals : List ℂ) (vecs : List V) (hl : vecs.length = vals.length)
    (hg : GuidedFirst vals) :
    ∃ betas modes, solvePost argsort full i0 v0 vals vecs = .ok (betas, modes) ∧
      betas.length = modes.length ∧ betas.Pairwise (· ≥ ·) ∧ (∀ b ∈ betas, 0 < b) ∧
      ∃ σ : List ℕ, σ.Nodup ∧ (∀ i, i ∈ σ ↔ i < vals.length ∧ 0 < (vals.getD i 0).re) ∧
        betas = σ.map (fun i => Real.sqrt (vals.getD i 0).re) ∧
        modes = σ.map (fun i => rephase i0 (full (vals.getD i 0) (vecs.getD i v0))) := by
  obtain ⟨σ, hσ, hsort, he⟩ := solvePost_eq argsort hs full i0 v0 vals vecs hl
  have hmem : ∀ i, i ∈ σ ↔ i < vals.length ∧ 0 < (vals.getD i 0).re := fun i =>
    hσ.mem_iff.trans mem_usefulModes
  have hf : fancy 0 (σ.map fun k => vals.getD k 0) (usefulModes vals) = .ok (σ.map fun k => vals.getD k 0) := by
    have h1 := usefulModes_prefix hg
    have h2 : (σ.map fun k => vals.getD k 0).length = (usefulModes vals).length := by simp [hσ.length_eq]
    rw [h1, ← h2, fancy_ok _ _ _ (fun i hi => List.mem_range.1 hi), map_getD_range]
  rw [hf] at he
  refine ⟨_, _, he, by simp, ?_, ?_, σ, hσ.nodup_iff.2 (usefulModes_nodup vals), hmem, ?_, rfl⟩
  · rw [List.map_map]; exact hsort
  · intro b hb
    rw [List.map_map, List.mem_map] at hb
    obtain ⟨i, hi, rfl⟩ := hb
    exact Real.sqrt_pos.2 ((hmem i).1 hi).2
  · rw [List.map_map]; rfl

/-- **C62, violated**: whenever the eigensolver lists some unguided eigenvalue before a guided one,
`solve` raises `IndexError` (the eigenvalues are indexed by `useful_modes` a second time). -/
theorem C62_unguided_first_counterexample {V ι : Type} (argsort : List ℝ → List ℕ) (hs : IsArgsort argsort)
    (full : ℂ → V → ι → ℂ) (i0 : ι) (v0 : V) (vals : List ℂ) (vecs : List V) (hl : vecs.length = vals.length)
    (i j : ℕ) (hij : i < j) (hj : j < vals.length) (hgj : 0 < (vals.getD j 0).re)
    (hgi : ¬ 0 < (vals.getD i 0).re) :
    solvePost argsort full i0 v0 vals vecs = .error .indexError := by
  obtain ⟨σ, hσ, _, he⟩ := solvePost_eq argsort hs full i0 v0 vals vecs hl
  have hf : fancy 0 (σ.map fun k => vals.getD k 0) (usefulModes vals) = .error .indexError := by
    unfold fancy
    rw [if_neg]
    intro hall
    have hlen : (σ.map fun k => vals.getD k 0).length = (usefulModes vals).length := by simp [hσ.length_eq]
    rw [hlen] at hall
    have hsub : (usefulModes vals).Subperm (List.range (usefulModes vals).length) :=
      List.subperm_of_subset (usefulModes_nodup vals) fun x hx => List.mem_range.2 (hall x hx)
    have hp := hsub.perm_of_length_le (by simp)
    have hjm : j ∈ usefulModes vals := mem_usefulModes.2 ⟨hj, hgj⟩
    have hi : i ∈ usefulModes vals :=
      hp.mem_iff.2 (List.mem_range.2 (lt_trans hij (hall j hjm)))
    exact hgi (mem_usefulModes.1 hi).2
  rw [he, hf]
  rfl

/-- Such an output exists: two eigenvalues, the first unguided. -/
example {V ι : Type} (argsort : List ℝ → List ℕ) (hs : IsArgsort argsort) (full : ℂ → V → ι → ℂ) (i0 : ι)
    (v : V) : solvePost argsort full i0 v [-1, 4] [v, v] = .error .indexError :=
  C62_unguided_first_counterexample argsort hs full i0 v _ _ rfl 0 1 (by omega) (by simp) (by simp) (by simp)

/-- Guided first, in a non-sorted order. -/
example : GuidedFirst [1, 4, -1] := by
  intro i j hij hj h
  have : j < 3 := by simpa using hj
  interval_cases j <;> interval_cases i <;> norm_num

/-- An `argsort` exists (insertion sort of the positions). -/
theorem exists_argsort : ∃ argsort, IsArgsort argsort := by
  classical
  refine ⟨fun l => (List.range l.length).mergeSort fun i j => decide (l.getD i 0 ≤ l.getD j 0), fun l =>
    ⟨List.mergeSort_perm _ _, ?_⟩⟩
  rw [List.pairwise_map]
  have := List.pairwise_mergeSort (le := fun i j => decide (l.getD i 0 ≤ l.getD j 0))
    (fun a b c h1 h2 => by simp only [decide_eq_true_eq] at *; exact le_trans h1 h2)
    (fun a b => by simp only [Bool.or_eq_true, decide_eq_true_eq]; exact le_total _ _) (List.range l.length)
  exact this.imp fun h => by simpa using h

/-- **C62** The phase of a returned mode: its first entry is real and non-negative, and it is the
eigensolver's mode times a unit number. -/
theorem C62_phase_reference {ι : Type} (i0 : ι) (h : ι → ℂ) :
    rephase i0 h i0 = (‖h i0‖ : ℂ) ∧ ∃ c : ℂ, ‖c‖ = 1 ∧ ∀ i, rephase i0 h i = c * h i := by
  have e1 : -I * (arg (h i0) : ℂ) = ((-arg (h i0) : ℝ) : ℂ) * I := by push_cast; ring
  refine ⟨?_, exp (-I * arg (h i0)), ?_, fun i => mul_comm _ _⟩
  · unfold rephase
    have h0 : h i0 * exp (-I * arg (h i0)) =
        ((‖h i0‖ : ℂ) * exp (arg (h i0) * I)) * exp (-I * arg (h i0)) := by rw [norm_mul_exp_arg_mul_I]
    have : (arg (h i0) : ℂ) * I + -I * arg (h i0) = 0 := by ring
    rw [h0, mul_assoc, ← exp_add, this]; simp
  · rw [e1, norm_exp_ofReal_mul_I]

/-! ### C63 modal overlap measurement -/

section measure

variable [∀ a, NeZero (s a)]

theorem poyntingZ_lin_left (e e' h : VField s) (c c' : ℂ) (i : GIdx s) :
    poyntingZ (fun k j => c * e k j + c' * e' k j) h i = c * poyntingZ e h i + c' * poyntingZ e' h i := by
  simp only [poyntingZ, rollFwd]; ring

theorem poyntingZ_lin_right (e h h' : VField s) (c c' : ℂ) (i : GIdx s) :
    poyntingZ e (fun k j => c * h k j + c' * h' k j) i =
      (starRingEnd ℂ) c * poyntingZ e h i + (starRingEnd ℂ) c' * poyntingZ e h' i := by
  simp only [poyntingZ, rollFwd, map_add, map_mul, map_div₀]; ring

/-- **C63** The measurement is linear over the complex numbers in the measured field. -/
theorem C63_linear (em hm e h e' h' : VField s) (c c' : ℂ) :
    measure em hm (fun k j => c * e k j + c' * e' k j) (fun k j => c * h k j + c' * h' k j) =
      (c * (measure em hm e h).1 + c' * (measure em hm e' h').1,
       c * (measure em hm e h).2 + c' * (measure em hm e' h').2) := by
  simp only [measure, poyntingZ_lin_left, poyntingZ_lin_right, Finset.sum_add_distrib, ← Finset.mul_sum,
    map_add, map_mul, map_div₀, Complex.conj_conj]
  ext <;> simp only <;> ring

/-- **C63** A mode with nonzero flux measures `(1, 0)` on itself, `(0, 1)` on its back-propagating
partner `(e, -h)`, and exactly `(c, c')` on every complex combination of the two. -/
theorem C63_overlap (em hm : VField s) (hf : ∑ i, poyntingZ em hm i ≠ 0) (c c' : ℂ) :
    measure em hm em hm = (1, 0) ∧ measure em hm em (-hm) = (0, 1) ∧
    measure em hm (fun k j => c * em k j + c' * em k j) (fun k j => c * hm k j + c' * (-hm) k j) = (c, c') := by
  have h1 : measure em hm em hm = (1, 0) := by
    simp only [measure, div_self hf, map_one]
    ext <;> norm_num
  have h2 : measure em hm em (-hm) = (0, 1) := by
    have : ∀ i, poyntingZ em (-hm) i = -poyntingZ em hm i := by
      intro i
      simp only [poyntingZ, rollFwd, Pi.neg_apply, map_add, map_neg, map_div₀]; ring
    simp only [measure, this, Finset.sum_neg_distrib, neg_div, div_self hf, map_one, map_neg]
    ext <;> norm_num
  refine ⟨h1, h2, ?_⟩
  rw [C63_linear, h1, h2]
  simp

/-- **C63** A field with no cross flux with the mode measures nothing. -/
theorem C63_orthogonal (em hm e h : VField s) (h1 : ∑ i, poyntingZ e hm i = 0) (h2 : ∑ i, poyntingZ em h i = 0) :
    measure em hm e h = (0, 0) := by
  simp [measure, h1, h2]

/-- The flux of a one dimensional TM mode on a grid that is one cell wide along `y` (the shape of
one dimensional modes) is `beta / k0` times the sum of `|u|^2 / eps`. -/
theorem tm_flux (g : YeeOps s) (hy : s 1 = 1) (k0 beta : ℝ) (hk : k0 ≠ 0) (epsT : VField s) (u : SField s) (i : GIdx s) :
    poyntingZ (ModeLib.eTM g k0 beta epsT u) ![0, u, 0] i = beta / k0 * (u i * (starRingEnd ℂ) (u i)) / epsT 0 i := by
  have hr : ∀ f : SField s, rollFwd 1 f i = f i := by
    intro f
    have : Function.update i 1 (i 1 - 1) = i := by
      funext a
      by_cases ha : a = 1
      · subst ha
        have : Subsingleton (Fin (s 1)) := by rw [hy]; infer_instance
        exact Subsingleton.elim _ _
      · rw [Function.update_of_ne ha]
    simp only [rollFwd, this]
  have hk' : (k0 : ℂ) ≠ 0 := by exact_mod_cast hk
  simp only [poyntingZ, hr, ModeLib.eTM]
  change (I * beta * u i / (I * k0 * epsT 0 i) + I * beta * u i / (I * k0 * epsT 0 i)) / 2 *
      (starRingEnd ℂ) ((u i + u i) / 2) - ((0 : SField s) i + rollFwd 0 (0 : SField s) i) / 2 *
      (starRingEnd ℂ) (((0 : SField s) i + rollFwd 0 (0 : SField s) i) / 2) = _
  have h0 : ((0 : SField s) i + rollFwd 0 (0 : SField s) i) / 2 = 0 := by simp [rollFwd]
  rw [h0, show (u i + u i) / 2 = u i by ring, zero_mul, sub_zero]
  by_cases he : epsT 0 i = 0
  · simp [he]
  · have hI := I_ne_zero
    field_simp
    ring

/-- **C63** Every guided one dimensional TM mode (positive `beta`, real positive permittivity) has
nonzero flux, so the overlap statement applies to it. -/
theorem C63_tm_flux (g : YeeOps s) (hy : s 1 = 1) (k0 beta : ℝ) (hk : 0 < k0) (hb : 0 < beta) (epsT : VField s)
    (eps : GIdx s → ℝ) (he : ∀ i, epsT 0 i = eps i) (hpos : ∀ i, 0 < eps i) (u : SField s) (hu : u ≠ 0) :
    ∑ i, poyntingZ (ModeLib.eTM g k0 beta epsT u) ![0, u, 0] i ≠ 0 := by
  have h1 : ∑ i, poyntingZ (ModeLib.eTM g k0 beta epsT u) ![0, u, 0] i =
      ((∑ i, beta / k0 * normSq (u i) / eps i : ℝ) : ℂ) := by
    push_cast
    refine Finset.sum_congr rfl fun i _ => ?_
    rw [tm_flux g hy k0 beta hk.ne', he, mul_conj]
  rw [h1]
  have h2 : 0 < ∑ i, beta / k0 * normSq (u i) / eps i := by
    refine Finset.sum_pos' (fun i _ => ?_) ?_
    · exact div_nonneg (mul_nonneg (div_nonneg hb.le hk.le) (normSq_nonneg _)) (hpos i).le
    · obtain ⟨i, hi⟩ := Function.ne_iff.1 hu
      exact ⟨i, Finset.mem_univ _, div_pos (mul_pos (div_pos hb hk) (normSq_pos.2 hi)) (hpos i)⟩
  exact_mod_cast h2.ne'

/-- The overlap hypotheses are met by a concrete library entry. -/
example : ∃ L : ModeLib (shapeOf 4 1 1), ∃ em hm, L.e 0 = .ok em ∧ L.h 0 = .ok hm ∧
    L.measureFn 0 true em (-hm) = .ok (0, 1) := by
  refine ⟨⟨uniformOps _ 1 1, 1, fun _ _ => 2, [1], .inl [fun _ => 1]⟩, _, _, rfl, rfl, ?_⟩
  have h := (C63_overlap (ModeLib.eTM (uniformOps (shapeOf 4 1 1) 1 1) 1 1 (fun _ _ => 2) (fun _ => 1))
    ![0, fun _ => 1, 0] (C63_tm_flux _ rfl 1 1 one_pos one_pos _ (fun _ => 2) (fun _ => by simp) (fun _ => by norm_num)
      _ (fun h => by simpa using congrFun h 0)) 0 0).2.1
  exact congrArg Except.ok h

/-! ### C64 mode evolution -/

/-- The sum of the evolved modes. -/
theorem evolveFrom_ok (L : ModeLib s) (length : ℝ) (useH : Bool) (k : ℕ) (ws : List ℂ) (F : ℕ → VField s) (b : ℕ → ℝ)
    (hF : ∀ j < ws.length, L.field useH (k + j : ℕ) = .ok (F (k + j)))
    (hb : ∀ j < ws.length, L.beta (k + j : ℕ) = .ok (b (k + j))) :
    L.evolveFrom length useH k ws =
      .ok (∑ j ∈ Finset.range ws.length, evolveTerm (F (k + j)) (b (k + j)) length (ws.getD j 0)) := by
  induction ws generalizing k with
  | nil => rfl
  | cons w ws ih =>
    have hF0 := hF 0 (by simp)
    have hb0 := hb 0 (by simp)
    rw [Nat.add_zero] at hF0 hb0
    have ih' := ih (k + 1)
      (fun j hj => by rw [show k + 1 + j = k + (j + 1) by omega]; exact hF (j + 1) (by simpa using hj))
      (fun j hj => by rw [show k + 1 + j = k + (j + 1) by omega]; exact hb (j + 1) (by simpa using hj))
    rw [ModeLib.evolveFrom, hF0, hb0, ih']
    rw [List.length_cons, Finset.sum_range_succ']
    simp only [bind, Except.bind, pure, Except.pure]
    rw [add_comm]
    congr 2
    refine Finset.sum_congr rfl fun j _ => ?_
    rw [show k + 1 + j = k + (j + 1) by omega]
    rfl

/-- What it means that the library has (at least) the modes `0..m-1` with fields `F` and constants `b`. -/
def HasModes (L : ModeLib s) (useH : Bool) (m : ℕ) (F : ℕ → VField s) (b : ℕ → ℝ) : Prop :=
  ∀ j < m, L.field useH (j : ℕ) = .ok (F j) ∧ L.beta (j : ℕ) = .ok (b j)

theorem evolve_ok (L : ModeLib s) (length : ℝ) (useH : Bool) (ws : List ℂ) (F : ℕ → VField s) (b : ℕ → ℝ)
    (h : HasModes L useH ws.length F b) :
    L.evolve length ws useH =
      .ok (fun c i => ∑ j ∈ Finset.range ws.length, F j c i * exp (I * b j * length) * ws.getD j 0) := by
  have h1 := evolveFrom_ok L length useH 0 ws F b (fun j hj => by simpa using (h j hj).1)
    (fun j hj => by simpa using (h j hj).2)
  rw [ModeLib.evolve, h1]
  congr 1
  funext c i
  rw [Finset.sum_apply, Finset.sum_apply]
  simp only [Nat.zero_add]
  rfl

/-- **C64** `evolve` is linear in the weights: combining weight tuples of the same length combines the
evolved fields. -/
theorem C64_linear (L : ModeLib s) (length : ℝ) (useH : Bool) (ws ws' : List ℂ) (hl : ws.length = ws'.length)
    (F : ℕ → VField s) (b : ℕ → ℝ) (h : HasModes L useH ws.length F b) (c c' : ℂ) :
    ∃ f f', L.evolve length ws useH = .ok f ∧ L.evolve length ws' useH = .ok f' ∧
      L.evolve length (List.zipWith (fun w w' => c * w + c' * w') ws ws') useH =
        .ok (fun k i => c * f k i + c' * f' k i) := by
  refine ⟨_, _, evolve_ok L length useH ws F b h, evolve_ok L length useH ws' F b (hl ▸ h), ?_⟩
  have hz : (List.zipWith (fun w w' => c * w + c' * w') ws ws').length = ws.length := by simp [hl]
  rw [evolve_ok L length useH _ F b (hz ▸ h), hz, ← hl]
  congr 1
  funext k i
  rw [Finset.mul_sum, Finset.mul_sum, ← Finset.sum_add_distrib]
  refine Finset.sum_congr rfl fun j hj => ?_
  have hj1 := Finset.mem_range.1 hj
  have hj2 : j < ws'.length := hl ▸ hj1
  have : (List.zipWith (fun w w' => c * w + c' * w') ws ws').getD j 0 = c * ws.getD j 0 + c' * ws'.getD j 0 := by
    simp [List.getD_eq_getElem?_getD, hj1, hj2]
  rw [this]
  ring

/-- **C64** For every solved mode, `n(k)` is `beta(k) / k0`, `phase(length, k)` is `beta(k) * length`, and a
single-mode `evolve` over `length` is the mode's field turned by exactly that phase. -/
theorem C64_phase (L : ModeLib s) (hk0 : L.k0 ≠ 0) (length : ℝ) (useH : Bool) (w : ℂ) (F : ℕ → VField s) (b : ℕ → ℝ)
    (h : HasModes L useH 1 F b) :
    (∀ k, ∀ hk : k < L.betas.length, L.neff k = .ok (L.betas[k] / L.k0) ∧
      L.phase length k = .ok (L.betas[k] * length)) ∧
    ∃ p, L.phase length 0 = .ok p ∧ L.evolve length [w] useH = .ok (fun c i => F 0 c i * exp (I * p) * w) := by
  have key : ∀ k, ∀ hk : k < L.betas.length, L.neff k = .ok (L.betas[k] / L.k0) ∧
      L.phase length k = .ok (L.betas[k] * length) := by
    intro k hk
    have h1 : ¬ ((k : ℤ) > (L.betas.length : ℤ) - 1) := by omega
    have h2 : ¬ ((k : ℤ) < -(L.betas.length : ℤ) ∨ (L.betas.length : ℤ) ≤ k) := by omega
    have h3 : ¬ ((k : ℤ) < 0) := by omega
    have e : L.neff k = .ok (L.betas[k] / L.k0) := by
      simp only [ModeLib.neff, ModeLib.check, if_neg h1, bind, Except.bind, pyGet, if_neg h2, if_neg h3,
        Int.toNat_natCast, List.getElem?_eq_getElem hk]
      rfl
    refine ⟨e, ?_⟩
    simp only [ModeLib.phase, e]
    show Except.ok _ = Except.ok _
    congr 1
    field_simp
  refine ⟨key, b 0 * length, ?_, ?_⟩
  · have hb := (h 0 (by omega)).2
    have hlen : 0 < L.betas.length := by
      by_contra hc
      have h0 : L.betas.length = 0 := by omega
      simp [ModeLib.beta, ModeLib.check, h0, bind, Except.bind] at hb
    have hk := (key 0 hlen).2
    have hbe : L.beta (0 : ℕ) = .ok L.betas[0] := by
      simp only [ModeLib.beta, ModeLib.check]
      rw [if_neg (by omega)]
      simp only [bind, Except.bind, pyGet]
      rw [if_neg (by omega), if_neg (by omega)]
      simp [hlen]
    rw [hbe] at hb
    rw [← Except.ok.inj hb]
    exact hk
  · rw [evolve_ok L _ useH [w] F b h]
    congr 1
    funext c i
    simp only [List.length_singleton, Finset.sum_range_one, List.getD_cons_zero]
    push_cast
    rw [mul_assoc I]

/-- **C64** A single mode returns to itself after the length `2 pi / beta`. -/
theorem C64_period (L : ModeLib s) (length : ℝ) (useH : Bool) (w : ℂ) (F : ℕ → VField s) (b : ℕ → ℝ)
    (h : HasModes L useH 1 F b) (hb : b 0 ≠ 0) :
    L.evolve (length + 2 * Real.pi / b 0) [w] useH = L.evolve length [w] useH ∧
    ∃ f, L.evolve length [w] useH = .ok f := by
  rw [evolve_ok L _ useH [w] F b h, evolve_ok L _ useH [w] F b h]
  refine ⟨?_, _, rfl⟩
  congr 1
  funext c i
  have hb' : (b 0 : ℂ) ≠ 0 := by exact_mod_cast hb
  have : I * (b 0 : ℂ) * ((length + 2 * Real.pi / b 0 : ℝ) : ℂ) = I * b 0 * length + 2 * Real.pi * I := by
    push_cast
    field_simp
  simp only [List.length_singleton, Finset.sum_range_one, this]
  rw [exp_periodic (I * b 0 * length)]

/-- **C64** The power pattern of two modes repeats after the beat length: there the evolved electric and
magnetic fields are the original ones times one common phase, so every component of `|e|`, `|h|` and
the flux `e x h*` repeat. -/
theorem C64_beat (L : ModeLib s) (length : ℝ) (w0 w1 : ℂ) (E H : ℕ → VField s) (b : ℕ → ℝ)
    (hh : HasModes L true 2 H b) (he : HasModes L false 2 E b) (hne : b 0 ≠ b 1) :
    ∃ lb e h e' h', L.beatLength = .ok lb ∧ lb = 2 * Real.pi / (b 0 - b 1) ∧
      L.evolve length [w0, w1] false = .ok e ∧ L.evolve length [w0, w1] true = .ok h ∧
      L.evolve (length + lb) [w0, w1] false = .ok e' ∧ L.evolve (length + lb) [w0, w1] true = .ok h' ∧
      (∀ c i, ‖h' c i‖ = ‖h c i‖ ∧ ‖e' c i‖ = ‖e c i‖) ∧ (∀ i, poyntingZ e' h' i = poyntingZ e h i) := by
  have hbl : L.beatLength = .ok (2 * Real.pi / (b 0 - b 1)) := by
    have h0 := (hh 0 (by omega)).2
    have h1 := (hh 1 (by omega)).2
    simp only [ModeLib.beatLength]
    rw [show ((0 : ℕ) : ℤ) = 0 from rfl] at h0
    rw [show ((1 : ℕ) : ℤ) = 1 from rfl] at h1
    rw [h0, h1]
    rfl
  have hne' : (b 0 : ℂ) - b 1 ≠ 0 := by
    rw [sub_ne_zero]; exact_mod_cast hne
  set lb := 2 * Real.pi / (b 0 - b 1) with hlb
  set p := exp (I * b 1 * lb) with hp
  have hp1 : ‖p‖ = 1 := by
    rw [hp, show I * (b 1 : ℂ) * (lb : ℂ) = ((b 1 * lb : ℝ) : ℂ) * I by push_cast; ring, norm_exp_ofReal_mul_I]
  have key : ∀ F : ℕ → VField s, ∀ c i,
      (∑ j ∈ Finset.range [w0, w1].length, F j c i * exp (I * b j * (length + lb : ℝ)) * [w0, w1].getD j 0) =
      p * ∑ j ∈ Finset.range [w0, w1].length, F j c i * exp (I * b j * length) * [w0, w1].getD j 0 := by
    intro F c i
    have e1 : exp (I * b 1 * ((length + lb : ℝ) : ℂ)) = p * exp (I * b 1 * length) := by
      rw [hp, ← exp_add]; congr 1; push_cast; ring
    have e0 : exp (I * b 0 * ((length + lb : ℝ) : ℂ)) = p * exp (I * b 0 * length) := by
      have : I * (b 0 : ℂ) * ((length + lb : ℝ) : ℂ) = I * b 1 * lb + I * b 0 * length + 2 * Real.pi * I := by
        rw [hlb]; push_cast; field_simp; ring
      rw [this, exp_periodic, exp_add]
    rw [show [w0, w1].length = 2 from rfl, Finset.sum_range_succ, Finset.sum_range_one, Finset.sum_range_succ,
      Finset.sum_range_one, e0, e1]
    ring
  refine ⟨lb, _, _, _, _, hbl, rfl, evolve_ok L length false [w0, w1] E b he, evolve_ok L length true [w0, w1] H b hh,
    evolve_ok L _ false [w0, w1] E b he, evolve_ok L _ true [w0, w1] H b hh, ?_, ?_⟩
  · intro c i
    constructor <;> · rw [key, norm_mul, hp1, one_mul]
  · intro i
    simp only [poyntingZ, rollFwd, key]
    have hpp : p * (starRingEnd ℂ) p = 1 := by
      rw [mul_conj, normSq_eq_norm_sq, hp1]; norm_num
    simp only [map_div₀, map_add, map_mul]
    linear_combination (norm := ring1) (
      ((∑ j ∈ Finset.range [w0, w1].length, E j 0 i * exp (I * b j * length) * [w0, w1].getD j 0) +
        ∑ j ∈ Finset.range [w0, w1].length, E j 0 (Function.update i 1 (i 1 - 1)) * exp (I * b j * length) * [w0, w1].getD j 0) / 2 *
      ((starRingEnd ℂ) ((∑ j ∈ Finset.range [w0, w1].length, H j 1 i * exp (I * b j * length) * [w0, w1].getD j 0)) +
        (starRingEnd ℂ) (∑ j ∈ Finset.range [w0, w1].length, H j 1 (Function.update i 1 (i 1 - 1)) * exp (I * b j * length) * [w0, w1].getD j 0)) / (starRingEnd ℂ) 2 -
      ((∑ j ∈ Finset.range [w0, w1].length, E j 1 i * exp (I * b j * length) * [w0, w1].getD j 0) +
        ∑ j ∈ Finset.range [w0, w1].length, E j 1 (Function.update i 0 (i 0 - 1)) * exp (I * b j * length) * [w0, w1].getD j 0) / 2 *
      ((starRingEnd ℂ) ((∑ j ∈ Finset.range [w0, w1].length, H j 0 i * exp (I * b j * length) * [w0, w1].getD j 0)) +
        (starRingEnd ℂ) (∑ j ∈ Finset.range [w0, w1].length, H j 0 (Function.update i 0 (i 0 - 1)) * exp (I * b j * length) * [w0, w1].getD j 0)) / (starRingEnd ℂ) 2) * hpp

/-- The hypotheses of C64 are met by every library with enough modes; a concrete two-mode one. -/
example : ∃ (L : ModeLib (shapeOf 4 1 1)) (E H : ℕ → VField (shapeOf 4 1 1)) (b : ℕ → ℝ),
    HasModes L true 2 H b ∧ HasModes L false 2 E b ∧ b 0 ≠ b 1 := by
  let u : ℕ → SField (shapeOf 4 1 1) := fun k i => if k = 0 then 1 else ((i 0 : ℕ) : ℂ)
  refine ⟨⟨uniformOps _ 1 1, 1, fun _ _ => 2, [2, 1], .inl [u 0, u 1]⟩,
    fun k => ModeLib.eTM (uniformOps _ 1 1) 1 (if k = 0 then 2 else 1) (fun _ _ => 2) (u k),
    fun k => ![0, u k, 0], fun k => if k = 0 then 2 else 1, ?_, ?_, by norm_num⟩
  all_goals
    intro j hj
    match j, hj with
    | 0, _ => exact ⟨rfl, rfl⟩
    | 1, _ => exact ⟨rfl, rfl⟩

end measure

/-! ### C65 mode index checking -/

/-- **C65** For every non-negative index, the check accepts exactly the indices of solved modes, and
`beta` returns that entry; every index above is rejected with `ValueError` by every accessor.
(Partial: negative indices are not rejected, see `C65_negative_counterexample`.) -/
theorem C65_index_partial [∀ a, NeZero (s a)] (L : ModeLib s) (k : ℕ) :
    (∀ hk : k < L.betas.length, L.beta k = .ok (L.betas[k])) ∧
    (L.betas.length ≤ k → L.beta k = .error .valueError ∧ L.neff k = .error .valueError ∧
      (∀ tm, L.h k tm = .error .valueError) ∧ (∀ tm, L.e k tm = .error .valueError) ∧
      L.sz k = .error .valueError) := by
  refine ⟨fun hk => ?_, fun hk => ?_⟩
  · have h1 : ¬ ((k : ℤ) > (L.betas.length : ℤ) - 1) := by omega
    have h2 : ¬ ((k : ℤ) < -(L.betas.length : ℤ) ∨ (L.betas.length : ℤ) ≤ k) := by omega
    have h3 : ¬ ((k : ℤ) < 0) := by omega
    simp only [ModeLib.beta, ModeLib.check, if_neg h1, bind, Except.bind, pyGet, if_neg h2, if_neg h3,
      Int.toNat_natCast, List.getElem?_eq_getElem hk]
  · have h1 : (k : ℤ) > (L.betas.length : ℤ) - 1 := by omega
    have hc : L.check k = .error .valueError := if_pos h1
    refine ⟨?_, ?_, fun tm => ?_, fun tm => ?_, ?_⟩
    · simp only [ModeLib.beta, hc]; rfl
    · simp only [ModeLib.neff, hc]; rfl
    · simp only [ModeLib.h, hc]; rfl
    · simp only [ModeLib.e, hc]; rfl
    · simp only [ModeLib.sz, hc]; rfl

/-- **C65, violated**: index `-1` is accepted and returns the last mode, for every non-empty library;
`-2` the one before, and so on. -/
theorem C65_negative_counterexample (L : ModeLib s) (k : ℕ) (hk : k < L.betas.length) :
    L.beta (-(k : ℤ) - 1) = .ok (L.betas[L.betas.length - 1 - k]'(by omega)) := by
  have h1 : ¬ (-(k : ℤ) - 1 > (L.betas.length : ℤ) - 1) := by omega
  have h2 : ¬ (-(k : ℤ) - 1 < -(L.betas.length : ℤ) ∨ (L.betas.length : ℤ) ≤ -(k : ℤ) - 1) := by omega
  have h3 : -(k : ℤ) - 1 < 0 := by omega
  have h4 : (-(k : ℤ) - 1 + L.betas.length).toNat = L.betas.length - 1 - k := by omega
  have h5 : L.betas.length - 1 - k < L.betas.length := by omega
  simp only [ModeLib.beta, ModeLib.check, if_neg h1, bind, Except.bind, pyGet, if_neg h2, if_pos h3, h4,
    List.getElem?_eq_getElem h5]

/-! ### C89 sweeping the wavelength -/

/-- **C89, partial** `update_wavelength` is history independent: after any sequence of updates that
succeed, the library equals a fresh library at the last wavelength. -/
theorem C89_update_partial {R : Type} (solve : ℝ → ℕ → Option ℝ → Except PyError (List ℝ × List R)) (w0 : ℝ) (m : ℕ)
    (lib : LibState R) (h0 : newLib solve w0 m = .ok lib) (ws : List ℝ) (w : ℝ) (st : LibState R)
    (h : (ws ++ [w]).foldlM (updateSolve solve) lib = .ok st) : newLib solve w m = .ok st := by
  have hm : ∀ (l : LibState R) (v : ℝ) (l' : LibState R), updateSolve solve l v = .ok l' → l'.maxNumModes = l.maxNumModes := by
    intro l v l' hl
    unfold updateSolve at hl
    cases hs : solve v l.maxNumModes none with
    | error e => rw [hs] at hl; cases hl
    | ok sol => rw [hs] at hl; cases hl; rfl
  have hfold : ∀ (ws : List ℝ) (l l' : LibState R), ws.foldlM (updateSolve solve) l = .ok l' → l'.maxNumModes = l.maxNumModes := by
    intro ws
    induction ws with
    | nil => intro l l' hl; cases hl; rfl
    | cons v ws ih =>
      intro l l' hl
      rw [List.foldlM_cons] at hl
      cases hv : updateSolve solve l v with
      | error e => rw [hv] at hl; cases hl
      | ok l1 =>
        rw [hv] at hl
        exact (ih l1 l' hl).trans (hm l v l1 hv)
  rw [List.foldlM_append] at h
  cases hw : ws.foldlM (updateSolve solve) lib with
  | error e => rw [hw] at h; cases h
  | ok l1 =>
    rw [hw] at h
    have h1 : l1.maxNumModes = m := (hfold ws lib l1 hw).trans (hm _ _ _ h0)
    have h2 : updateSolve solve l1 w = .ok st := by
      cases hu : updateSolve solve l1 w with
      | error e => simp [bind, Except.bind, hu] at h
      | ok l2 => simpa [bind, Except.bind, hu, pure, Except.pure] using h
    rw [← h2]
    unfold newLib updateSolve
    rw [h1]

/-- **C89, violated**: `dispersion_sweep` without a progress bar raises `TypeError`; with one, every
solution is computed at the solver's own wavelength, the swept wavelength being used as the guess for
`beta`: where the solutions do not depend on the guess, the sweep returns the same modes at every
wavelength. -/
theorem C89_sweep_counterexample {R : Type} (solve : ℝ → ℕ → Option ℝ → Except PyError R) (wavelength : ℝ)
    (ws : List ℝ) (m : ℕ) (r : R) (hsolve : ∀ guess, solve wavelength m guess = .ok r) :
    dispersionSweep solve wavelength ws m none = .error .typeError ∧
    dispersionSweep solve wavelength ws m (some id) = .ok (List.replicate ws.length r) := by
  refine ⟨rfl, ?_⟩
  simp only [dispersionSweep, id]
  induction ws with
  | nil => rfl
  | cons w ws ih =>
    rw [List.mapM_cons, hsolve, ih]
    rfl

example : newLib (fun w m _ => Except.ok ([w, w / 2], List.replicate m true)) 3 2 =
    .ok { wavelength := 3, maxNumModes := 2, sol := ([3, 3 / 2], [true, true]), numModes := 2 } := rfl

end Simphox
