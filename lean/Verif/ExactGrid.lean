import Verif.GridProps
import Mathlib.Tactic.Linarith
import Mathlib.Tactic.FieldSimp

/-!
Exact characterisations of the partially valid grid properties C34, C39, C43, C82: where the partial theorems of
`GridProps` give sufficient conditions, these give necessary and sufficient ones.
-/

namespace Simphox

open Grid

/-- Specification: along one axis the box starts inside the grid, or at least one full grid length below it. Flat boxes
and missing axes have no lower end. -/
def LowerEndOk (g : Grid) (ax : ℕ) (x s : ℚ) : Prop :=
  match g.spacing[ax]? with
  | some dx => 0 < around (s / dx) → 0 ≤ loPixel x s dx ∨ loPixel x s dx ≤ -(g.shape3 ax : ℤ)
  | none => True

theorem sliceAxis_overlap (g : Grid) (hg : g.Consistent) (ax : ℕ) (x s : ℚ)
    (h : ∃ k, k < g.shape3 ax ∧ InBoxAxis g ax x s k) :
    (g.sliceAxis ax x s).valid (g.shape3 ax) = true ∧
    (LowerEndOk g ax x s → ∀ k, k < g.shape3 ax →
      ((g.sliceAxis ax x s).selects (g.shape3 ax) k = true ↔ InBoxAxis g ax x s k)) ∧
    (¬ LowerEndOk g ax x s → ∃ k, k < g.shape3 ax ∧ InBoxAxis g ax x s k ∧
      (g.sliceAxis ax x s).selects (g.shape3 ax) k = false) := by
  unfold LowerEndOk
  obtain ⟨k0, hk0, hb⟩ := h
  unfold InBoxAxis at hb ⊢
  rcases hax : g.spacing[ax]? with _ | dx
  · have hn : g.shape3 ax = 1 := by
      unfold Grid.shape3
      rw [List.getElem?_eq_none_iff] at hax
      have h1 := hg.1; have h2 := hg.2.1
      rw [List.getD_eq_getElem?_getD, List.getElem?_eq_none (by omega)]; rfl
    simp only [Grid.sliceAxis, Grid.scaled, hax, around_zero, lt_self_iff_false, if_false, hn]
    refine ⟨by decide, fun _ k hk => ?_, fun h => absurd trivial h⟩
    have : k = 0 := by omega
    subst this
    simp [AxisIndex.selects]
  · rw [hax] at hb
    simp only at hb
    simp only [Grid.sliceAxis, Grid.scaled, hax]
    split_ifs at hb ⊢ with hs
    · simp only [AxisIndex.selects, decide_eq_true_eq, hs, forall_true_left]
      change _ ∧ (_ → ∀ k, k < g.shape3 ax → (resolveBound (g.shape3 ax) (loPixel x s dx) ≤ k ∧
        (k : ℤ) < resolveBound (g.shape3 ax) (hiPixel x s dx) ↔ _)) ∧ _
      have e2 : resolveBound (g.shape3 ax) (hiPixel x s dx) = min (hiPixel x s dx) (g.shape3 ax) := by
        unfold resolveBound; rw [if_neg (by omega)]
      refine ⟨rfl, ?_, ?_⟩
      · rw [e2]
        intro h k hk
        unfold resolveBound
        split_ifs <;> omega
      · intro h
        refine ⟨0, by omega, by omega, ?_⟩
        change decide (resolveBound (g.shape3 ax) (loPixel x s dx) ≤ (0 : ℕ) ∧
          ((0 : ℕ) : ℤ) < resolveBound (g.shape3 ax) (hiPixel x s dx)) = false
        rw [decide_eq_false_iff_not]
        unfold resolveBound
        split_ifs <;> omega
    · simp only [AxisIndex.selects, AxisIndex.valid, decide_eq_true_eq]
      refine ⟨by omega, fun _ k hk => ?_, fun h => absurd (fun h' => absurd h' hs) h⟩
      rw [if_neg (by omega)]

/-- C34, exactly: for every box that overlaps the grid `set_eps` does not raise, and it sets exactly the pixels of the
intersection (pixels not having that value before) if and only if on every axis the box starts inside the grid or at least
one full grid length below it. In between, the pixels at the lower boundary are missed. -/
theorem C34_clip_iff_partial (g : Grid) (hg : g.Consistent) (c s : V3) (eps : ℚ)
    (hx : ∃ k, k < g.shape3 0 ∧ InBoxAxis g 0 c.x s.x k) (hy : ∃ k, k < g.shape3 1 ∧ InBoxAxis g 1 c.y s.y k)
    (hz : ∃ k, k < g.shape3 2 ∧ InBoxAxis g 2 c.z s.z k) (hne : ∀ p, InGrid g p → g.eps p ≠ eps) :
    ∃ g', g.setEps c s eps = .ok g' ∧ ((∀ p, InGrid g p → (g'.eps p = eps ↔
        InBoxAxis g 0 c.x s.x p.1 ∧ InBoxAxis g 1 c.y s.y p.2.1 ∧ InBoxAxis g 2 c.z s.z p.2.2)) ↔
      LowerEndOk g 0 c.x s.x ∧ LowerEndOk g 1 c.y s.y ∧ LowerEndOk g 2 c.z s.z) := by
  obtain ⟨v0, s0, f0⟩ := sliceAxis_overlap g hg 0 _ _ hx
  obtain ⟨v1, s1, f1⟩ := sliceAxis_overlap g hg 1 _ _ hy
  obtain ⟨v2, s2, f2⟩ := sliceAxis_overlap g hg 2 _ _ hz
  have hv : g.validIdx (g.slice3 c s) = true := by
    simp [Grid.validIdx, Grid.slice3, v0, v1, v2]
  refine ⟨_, setEps_eq g c s eps hv, ?_⟩
  have hsel : ∀ p, InGrid g p → ((afterSet g c s eps).eps p = eps ↔
      (g.sliceAxis 0 c.x s.x).selects (g.shape3 0) p.1 = true ∧ (g.sliceAxis 1 c.y s.y).selects (g.shape3 1) p.2.1 = true ∧
        (g.sliceAxis 2 c.z s.z).selects (g.shape3 2) p.2.2 = true) := by
    rintro ⟨i, j, k⟩ hp
    have hs : g.selected (g.slice3 c s) (i, j, k) = true ↔
        (g.sliceAxis 0 c.x s.x).selects (g.shape3 0) i = true ∧ (g.sliceAxis 1 c.y s.y).selects (g.shape3 1) j = true ∧
          (g.sliceAxis 2 c.z s.z).selects (g.shape3 2) k = true := by
      simp only [Grid.selected, Grid.slice3, Bool.and_eq_true, and_assoc]
    rw [← hs]
    by_cases h : g.selected (g.slice3 c s) (i, j, k) = true
    · simp only [afterSet, h, if_true]
    · have h2 : (afterSet g c s eps).eps (i, j, k) = g.eps (i, j, k) := by
        simp only [afterSet, h]; rfl
      rw [h2]
      exact iff_of_false (hne _ hp) h
  constructor
  · intro h
    obtain ⟨i, hi, hbi⟩ := hx
    obtain ⟨j, hj, hbj⟩ := hy
    obtain ⟨k, hk, hbk⟩ := hz
    refine ⟨?_, ?_, ?_⟩
    · by_contra hc
      obtain ⟨i', hi', hbi', hf⟩ := f0 hc
      have := ((hsel (i', j, k) ⟨hi', hj, hk⟩).1 ((h (i', j, k) ⟨hi', hj, hk⟩).2 ⟨hbi', hbj, hbk⟩)).1
      simp [hf] at this
    · by_contra hc
      obtain ⟨j', hj', hbj', hf⟩ := f1 hc
      have := ((hsel (i, j', k) ⟨hi, hj', hk⟩).1 ((h (i, j', k) ⟨hi, hj', hk⟩).2 ⟨hbi, hbj', hbk⟩)).2.1
      simp [hf] at this
    · by_contra hc
      obtain ⟨k', hk', hbk', hf⟩ := f2 hc
      have := ((hsel (i, j, k') ⟨hi, hj, hk'⟩).1 ((h (i, j, k') ⟨hi, hj, hk'⟩).2 ⟨hbi, hbj, hbk'⟩)).2.2
      simp [hf] at this
  · rintro ⟨l0, l1, l2⟩ p hp
    rw [hsel p hp, s0 l0 _ hp.1, s1 l1 _ hp.2.1, s2 l2 _ hp.2.2]

/-- Both cases of C34 occur: a box from pixel -1 to 2 is wrong, from -20 to 2 is right (on 10 pixels). -/
example : ¬ LowerEndOk ⟨1, [10], [1], [10], fun _ => 1, [10]⟩ 0 1 4 ∧
    LowerEndOk ⟨1, [10], [1], [10], fun _ => 1, [10]⟩ 0 (-9) 24 ∧
    InBoxAxis ⟨1, [10], [1], [10], fun _ => 1, [10]⟩ 0 (-9) 24 0 ∧
    InBoxAxis ⟨1, [10], [1], [10], fun _ => 1, [10]⟩ 0 1 4 0 := by
  refine ⟨?_, ?_, ?_, ?_⟩ <;> norm_num [LowerEndOk, InBoxAxis, loPixel, hiPixel, Grid.shape3, around]

/-- C39, exactly: all locations are moved into the safe window if and only if it is not empty. -/
theorem C39_window_iff_partial (p M : ℚ) : (∀ x, p ≤ safeCoord p M x ∧ safeCoord p M x ≤ M - p) ↔ 2 * p ≤ M := by
  constructor
  · intro h
    have := h p
    unfold safeCoord at this
    have h1 := this.1.trans (min_le_right _ _)
    linarith
  · intro h x
    exact (C39_safe_placement_partial p M x h).1

/-- C43, exactly: the PML of `n > 3` pixels of a constructed grid is handed over to FDFD with the same thickness if and
only if on every axis `n ≤ n / spacing < n + 1`, that is `n / (n + 1) < spacing ≤ 1`. -/
theorem C43_handover_iff_partial (shape : List ℕ) (spacing pml : List ℚ) (ps : List ℤ)
    (hl : shape.length = spacing.length) (hpos : ∀ d ∈ spacing, 0 < d)
    (h : pmlShape shape spacing (some pml) = .ok (some ps)) :
    fromSimgridPml shape spacing (some ps) = .ok (some ps) ↔
      ∀ (k : ℕ) (n : ℤ) (d : ℚ), ps[k]? = some n → spacing[k]? = some d → (n : ℚ) / (n + 1) < d ∧ d ≤ 1 := by
  obtain ⟨hps, hlen, -⟩ := C43_pml_partial shape spacing pml ps hl h
  have hax : ∀ (n : ℤ) (d : ℚ), 3 < n → 0 < d → (pyInt ((n : ℚ) / d) = n ↔ (n : ℚ) / (n + 1) < d ∧ d ≤ 1) := by
    intro n d hn hd
    have hnq : (3 : ℚ) < n := by exact_mod_cast hn
    rw [pyInt_nonneg (by positivity), Int.floor_eq_iff, le_div_iff₀ hd, div_lt_iff₀ hd, div_lt_iff₀ (by linarith)]
    constructor
    · rintro ⟨h1, h2⟩
      refine ⟨by linarith, ?_⟩
      by_contra h3
      nlinarith
    · rintro ⟨h1, h2⟩
      exact ⟨by nlinarith, by linarith⟩
  have hget : ∀ (k : ℕ) (n : ℤ) (d : ℚ), ps[k]? = some n → spacing[k]? = some d → 3 < n ∧ 0 < d := by
    intro k n d h1 h2
    obtain ⟨hk, rfl⟩ := List.getElem?_eq_some_iff.1 h1
    obtain ⟨_, _, h3, _⟩ := hps k hk
    exact ⟨h3, hpos d (List.mem_of_getElem? h2)⟩
  have hzip : List.zipWith (fun a d => pyInt (a / d)) (ps.map fun z : ℤ => (z : ℚ)) spacing = ps ↔
      ∀ (k : ℕ) (n : ℤ) (d : ℚ), ps[k]? = some n → spacing[k]? = some d → (n : ℚ) / (n + 1) < d ∧ d ≤ 1 := by
    constructor
    · intro he k n d h1 h2
      obtain ⟨g1, g2⟩ := hget k n d h1 h2
      rw [← hax n d g1 g2]
      have := congrArg (fun l : List ℤ => l[k]?) he
      simpa [List.getElem?_zipWith, List.getElem?_map, h1, h2] using this
    · intro hc
      apply List.ext_getElem?
      intro k
      rw [List.getElem?_zipWith, List.getElem?_map]
      rcases h1 : ps[k]? with _ | n
      · rfl
      · have hk := (List.getElem?_eq_some_iff.1 h1).1
        have h2 : spacing[k]? = some spacing[k] := List.getElem?_eq_getElem (by omega)
        obtain ⟨g1, g2⟩ := hget k n _ h1 h2
        simp only [h2, Option.map_some]
        rw [(hax n _ g1 g2).2 (hc k n _ h1 h2)]
  rw [← hzip]
  unfold fromSimgridPml
  simp only [Option.map_some, pmlShape]
  unfold pmlShape at h
  simp only at h
  rw [if_neg (by simpa using hlen)]
  constructor
  · intro h'
    split_ifs at h' with h1
    simpa using h'
  · intro h'
    rw [h']
    rw [if_neg]
    split_ifs at h with h1 h2
    have : List.zipWith (fun a d => pyInt (a / d)) pml spacing = ps := by simpa using h
    rw [this] at h2
    exact h2

/-- Five pixels of width 0.9 are handed over as five, of width 1/2 as ten. -/
example : fromSimgridPml [100] [9 / 10] (some [5]) = .ok (some [5]) ∧
    fromSimgridPml [100] [1 / 2] (some [5]) = .ok (some [10]) := by
  constructor <;> decide +kernel

/-- C82 on every 3d grid, exactly: the first z index is computed with the spacing of x, the last one with the spacing of
y; the z spacing is not used. -/
theorem C82_add_exact_partial (g : Grid) (hd : g.ndim = 3) (dx dy dz : ℚ) (hx : 0 < dx) (hy : 0 < dy)
    (hs : g.spacing = [dx, dy, dz]) (c : Component) (hin : Inside g c) (eps zmin t : ℚ) (hz : 0 ≤ zmin)
    (ht : 0 ≤ t) :
    ∃ g', g.add c eps (some (zmin, t)) = .ok g' ∧ ∀ p, InGrid g p →
      g'.eps p = if c.mask p.1 p.2.1 = true ∧ ⌊zmin / dx⌋ ≤ (p.2.2 : ℤ) ∧
        (p.2.2 : ℤ) < ⌊(zmin + t) / dy⌋ then eps else g.eps p := by
  have hrej : g.addRejects c = false := by
    simp [Grid.addRejects, hin.1]
  refine ⟨_, by unfold Grid.add; rw [hrej]; simp only [hd]; rfl, ?_⟩
  rintro ⟨i, j, k⟩ hp
  have q1 : 0 ≤ zmin / dx := by positivity
  have q2 : 0 ≤ (zmin + t) / dy := by positivity
  have f1 := Int.floor_nonneg.2 q1
  have f2 := Int.floor_nonneg.2 q2
  have hk : k < g.shape3 2 := hp.2.2
  simp only [hs, List.getD_cons_zero, List.getD_cons_succ, pyInt_nonneg q1, pyInt_nonneg q2,
    AxisIndex.selects, resolveBound, if_neg (not_lt.2 f1), if_neg (not_lt.2 f2), Bool.and_eq_true,
    decide_eq_true_eq]
  congr 1
  apply propext
  constructor
  · rintro ⟨a, b, c⟩; exact ⟨a, by omega, by omega⟩
  · rintro ⟨a, b, c⟩; exact ⟨a, by omega, by omega⟩

end Simphox
