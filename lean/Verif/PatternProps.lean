import Verif.Pattern
import Verif.GridProps

/-! # C111: grids built from a component (`from_pattern`) -/

namespace Simphox

open Grid

/-- Specification: the height at which the component starts: the one given, otherwise the top of the substrate. -/
def specZ (a : PatternArgs) : ℚ :=
  match a.zmin with
  | some z => z
  | none => a.subz

theorem z0_eq (a : PatternArgs) : a.z0 = specZ a := by
  unfold PatternArgs.z0 specZ; cases a.zmin <;> rfl

/-- Specification: the permittivity a user asks `from_pattern` for at pixel `p` of a 3d grid: the core
inside the component, the cladding below `sub_z`, the core (rib) up to `sub_z + rib_t`, the background
above. -/
def patternEps (a : PatternArgs) (c : Component) (p : Idx3) : ℚ :=
  if c.mask p.1 p.2.1 = true ∧ ⌊specZ a / a.spacing⌋ ≤ (p.2.2 : ℤ) ∧
      (p.2.2 : ℤ) < ⌊(specZ a + a.t) / a.spacing⌋ then
    a.core
  else if (p.2.2 : ℤ) < ⌊a.subz / a.spacing⌋ then a.clad
  else if (p.2.2 : ℤ) < ⌊(a.subz + a.rib) / a.spacing⌋ then a.core
  else a.bg

/-- Specification: the component keeps the distance `boundary` to all four sides of the grid. -/
def Surrounded (a : PatternArgs) (c : Component) (g : Grid) : Prop :=
  c.b0 = a.bx ∧ g.size.getD 0 0 - c.b2 = a.bx ∧ c.b1 = a.by' ∧ g.size.getD 1 0 - c.b3 = a.by'

theorem around_nonneg {q : ℚ} (h : 0 ≤ q) : 0 ≤ around q := by
  have := Int.floor_nonneg.2 h
  unfold around
  split_ifs <;> omega

theorem make_ok (size sp : List ℚ) (e : ℚ) (hl : size.length = sp.length) (h3 : size.length ≤ 3)
    (hs : ∀ x ∈ size, 0 ≤ x) (hd : ∀ x ∈ sp, 0 < x) :
    ∃ g, Grid.make size (.inr sp) (.inl e) = .ok g ∧ g.ndim = size.length ∧ g.size = size ∧ g.spacing = sp ∧
      g.Consistent ∧ (∀ p, g.eps p = e) ∧
      g.shape.map (Nat.cast (R := ℤ)) = List.zipWith (fun s d => around (s / d)) size sp := by
  have hz : ∀ x ∈ List.zipWith (fun s d => around (s / d)) size sp, 0 ≤ x := by
    intro x hx
    rw [List.mem_iff_getElem] at hx
    obtain ⟨k, hk, rfl⟩ := hx
    rw [List.getElem_zipWith]
    apply around_nonneg
    apply div_nonneg
    · exact hs _ (List.getElem_mem _)
    · exact (hd _ (List.getElem_mem _)).le
  refine ⟨⟨size.length, size, sp, (List.zipWith (fun s d => around (s / d)) size sp).map Int.toNat, fun _ => e,
    (List.zipWith (fun s d => around (s / d)) size sp).map Int.toNat⟩, ?_, rfl, rfl, rfl, ?_, fun _ => rfl, ?_⟩
  · have hany : (List.zipWith (fun s d => around (s / d)) size sp).any (· < 0) = false := by
      rw [List.any_eq_false]
      intro x hx
      have := hz x hx
      simp; omega
    have h3' : ¬ 3 < size.length := by omega
    unfold Grid.make
    show (if size.length ≠ sp.length then _ else if 3 < size.length then _ else
      if (List.zipWith (fun s d => around (s / d)) size sp).any (· < 0) = true then _ else _) = _
    rw [if_neg (fun h => h hl), if_neg h3', hany, if_neg Bool.false_ne_true]
    rfl
  · refine ⟨hl.symm, ?_, h3⟩
    simp [hl]
  · simp only [List.map_map]
    apply List.ext_getElem
    · simp
    · intro i h1 h2
      simp only [List.getElem_map, Function.comp]
      exact Int.toNat_of_nonneg (hz _ (List.getElem_mem _))

theorem fill_same (g : Grid) (h e : ℚ) :
    (g.fill h e).shape = g.shape ∧ (g.fill h e).spacing = g.spacing ∧ (g.fill h e).ndim = g.ndim ∧
      (g.fill h e).size = g.size := by
  unfold Grid.fill; split_ifs <;> exact ⟨rfl, rfl, rfl, rfl⟩

theorem add_same (g g' : Grid) (c : Component) (e : ℚ) (z : Option (ℚ × ℚ)) (h : g.add c e z = .ok g') :
    g'.shape = g.shape ∧ g'.spacing = g.spacing ∧ g'.ndim = g.ndim ∧ g'.size = g.size := by
  unfold Grid.add at h
  split_ifs at h
  · injection h with h; subst h; exact ⟨rfl, rfl, rfl, rfl⟩
  · rcases z with _ | ⟨a, b⟩
    · cases h
    · injection h with h; subst h; exact ⟨rfl, rfl, rfl, rfl⟩

/-- C111 (partial): for a positive substrate height, thickness and total height, and a component inside
the grid, `from_pattern` succeeds, the grid has the requested extent and resolution, and its permittivity
is the requested stack at every pixel. Missing: a zero substrate height and the placement of the component
(both false, next theorems). -/
theorem C111_stack_partial (a : PatternArgs) (c : Component) (hd : 0 < a.spacing) (ht : 0 < a.t)
    (hh : 0 < a.height) (hsub : 0 < a.subz) (hrib : 0 ≤ a.rib) (hz : 0 ≤ specZ a)
    (h0 : 0 ≤ c.b0) (h1 : 0 ≤ c.b1) (h2 : c.b2 ≤ (c.b2 - c.b0) + 2 * a.bx)
    (h3 : c.b3 ≤ (c.b3 - c.b1) + 2 * a.by') (hx : 0 ≤ (c.b2 - c.b0) + 2 * a.bx)
    (hy : 0 ≤ (c.b3 - c.b1) + 2 * a.by') :
    ∃ g, fromPattern a c = .ok g ∧
      g.size = [(c.b2 - c.b0) + 2 * a.bx, (c.b3 - c.b1) + 2 * a.by', a.height] ∧
      g.spacing = [a.spacing, a.spacing, a.spacing] ∧
      g.shape.map (Nat.cast (R := ℤ)) = g.size.map (fun s => around (s / a.spacing)) ∧
      ∀ p, InGrid g p → g.eps p = patternEps a c p := by
  have esz : a.size c = [(c.b2 - c.b0) + 2 * a.bx, (c.b3 - c.b1) + 2 * a.by', a.height] := by
    unfold PatternArgs.size; rw [if_pos hh]
  have esp : a.spacings = [a.spacing, a.spacing, a.spacing] := by
    unfold PatternArgs.spacings; rw [if_pos ht]; rfl
  obtain ⟨g0, e0, n0, s0, sp0, c0, p0, sh0⟩ := make_ok (a.size c) a.spacings a.bg
    (by rw [esz, esp]; rfl) (by rw [esz]; simp) (by
      rw [esz]; intro x hx'
      simp only [List.mem_cons, List.not_mem_nil, or_false] at hx'
      rcases hx' with rfl | rfl | rfl
      · exact hx
      · exact hy
      · exact hh.le)
    (by
      rw [esp]; intro x hx'
      simp only [List.mem_cons, List.not_mem_nil, or_false] at hx'
      rcases hx' with rfl | rfl | rfl <;> exact hd)
  have n0' : g0.ndim = 3 := by rw [n0, esz]; rfl
  have sp0' : g0.spacing = [a.spacing, a.spacing, a.spacing] := by rw [sp0, esp]
  have last0 : g0.spacing.getLastD 1 = a.spacing := by rw [sp0']; rfl
  set g1 := g0.fill (a.subz + a.rib) a.core with hg1
  obtain ⟨u1, u2, u3, u4⟩ := fill_same g0 (a.subz + a.rib) a.core
  rw [← hg1] at u1 u2 u3 u4
  have c1 : g1.Consistent := by unfold Grid.Consistent; rw [u1, u2, u3]; exact c0
  set g2 := g1.fill a.subz a.clad with hg2
  obtain ⟨v1, v2, v3, v4⟩ := fill_same g1 a.subz a.clad
  rw [← hg2] at v1 v2 v3 v4
  have last1 : g1.spacing.getLastD 1 = a.spacing := by rw [u2, last0]
  have in2 : Inside g2 c := by
    unfold Inside
    rw [v4, u4, s0, esz]
    exact ⟨h0, h1, h2, h3⟩
  obtain ⟨g3, e3, p3⟩ := C82_add_extrudes_partial g2 (by rw [v3, u3, n0']) a.spacing hd
    (by rw [v2, u2, sp0']) c in2 a.core a.z0 a.t (by rw [z0_eq]; exact hz) ht.le
  obtain ⟨w1, w2, w3, w4⟩ := add_same g2 g3 c _ _ e3
  refine ⟨g3, ?_, ?_, ?_, ?_, ?_⟩
  · unfold fromPattern
    rw [e0]
    exact e3
  · rw [w4, v4, u4, s0, esz]
  · rw [w2, v2, u2, sp0']
  · rw [w1, v1, u1, sh0, w4, v4, u4, s0, esz, esp]; rfl
  · intro p hp
    have q2 : InGrid g2 p := by unfold InGrid Grid.shape3 at hp ⊢; rw [w1] at hp; exact hp
    have q1 : InGrid g1 p := by unfold InGrid Grid.shape3 at q2 ⊢; rw [v1] at q2; exact q2
    have q0 : InGrid g0 p := by unfold InGrid Grid.shape3 at q1 ⊢; rw [u1] at q1; exact q1
    rw [p3 p q2, z0_eq]
    unfold patternEps
    congr 1
    rw [hg2, fill_pos g1 c1 (by rw [u3, n0']; omega) (by rw [last1]; exact hd) a.subz a.clad hsub p q1,
      last1, hg1, fill_pos g0 c0 (by rw [n0']; omega) (by rw [last0]; exact hd) _ a.core (by linarith) p q0,
      last0, p0]
    rw [(fill_same g0 _ _).2.2.1, n0']
    rfl

/-- C111: the two-dimensional default (`component_t = height = sub_z = 0`): core on the component,
cladding everywhere else, for a component whose lower left corner is not at negative `x`. -/
theorem C111_flat (a : PatternArgs) (c : Component) (hd : 0 < a.spacing) (ht : a.t = 0) (hh : a.height = 0)
    (hsub : a.subz = 0) (h0 : 0 ≤ c.b0) (hx : 0 ≤ (c.b2 - c.b0) + 2 * a.bx)
    (hy : 0 ≤ (c.b3 - c.b1) + 2 * a.by') :
    ∃ g, fromPattern a c = .ok g ∧
      g.size = [(c.b2 - c.b0) + 2 * a.bx, (c.b3 - c.b1) + 2 * a.by'] ∧
      g.spacing = [a.spacing, a.spacing] ∧
      g.shape.map (Nat.cast (R := ℤ)) = g.size.map (fun s => around (s / a.spacing)) ∧
      ∀ p, g.eps p = if c.mask p.1 p.2.1 = true then a.core else a.clad := by
  have esz : a.size c = [(c.b2 - c.b0) + 2 * a.bx, (c.b3 - c.b1) + 2 * a.by'] := by
    unfold PatternArgs.size; rw [hh]; rfl
  have esp : a.spacings = [a.spacing, a.spacing] := by
    unfold PatternArgs.spacings; rw [ht]; rfl
  obtain ⟨g0, e0, n0, s0, sp0, c0, p0, sh0⟩ := make_ok (a.size c) a.spacings a.bg
    (by rw [esz, esp]; rfl) (by rw [esz]; simp) (by
      rw [esz]; intro x hx'
      simp only [List.mem_cons, List.not_mem_nil, or_false] at hx'
      rcases hx' with rfl | rfl
      · exact hx
      · exact hy)
    (by
      rw [esp]; intro x hx'
      simp only [List.mem_cons, List.not_mem_nil, or_false] at hx'
      rcases hx' with rfl | rfl <;> exact hd)
  have n0' : g0.ndim = 2 := by rw [n0, esz]; rfl
  obtain ⟨u1, u2, u3, u4⟩ := fill_same g0 (a.subz + a.rib) a.core
  obtain ⟨v1, v2, v3, v4⟩ := fill_same (g0.fill (a.subz + a.rib) a.core) a.subz a.clad
  have hrej : ((g0.fill (a.subz + a.rib) a.core).fill a.subz a.clad).addRejects c = false := by
    simp [Grid.addRejects, h0]
  refine ⟨{ (g0.fill (a.subz + a.rib) a.core).fill a.subz a.clad with
      eps := fun p => if c.mask p.1 p.2.1 then a.core else
        ((g0.fill (a.subz + a.rib) a.core).fill a.subz a.clad).eps p }, ?_, ?_, ?_, ?_, ?_⟩
  · unfold fromPattern
    rw [e0]
    show Grid.add _ _ _ _ = _
    unfold Grid.add
    rw [hrej]
    simp only [Bool.false_eq_true, if_false]
    rw [if_pos (by rw [v3, u3, n0'])]
    simp
  · show ((g0.fill (a.subz + a.rib) a.core).fill a.subz a.clad).size = _
    rw [v4, u4, s0, esz]
  · show ((g0.fill (a.subz + a.rib) a.core).fill a.subz a.clad).spacing = _
    rw [v2, u2, sp0, esp]
  · show ((g0.fill (a.subz + a.rib) a.core).fill a.subz a.clad).shape.map _ =
      ((g0.fill (a.subz + a.rib) a.core).fill a.subz a.clad).size.map _
    rw [v1, u1, v4, u4, sh0, s0, esz, esp]; rfl
  · intro p
    show (if c.mask p.1 p.2.1 = true then a.core else _) = _
    congr 1
    rw [hsub]
    rfl

/-- C111 is false for `sub_z = 0` (the default): for every rib, background and height, whenever
`from_pattern` returns, every pixel outside the component's mask is cladding, so the rib and the
background are lost. -/
theorem C111_no_substrate_counterexample (a : PatternArgs) (c : Component) (hsub : a.subz ≤ 0) (g : Grid)
    (h : fromPattern a c = .ok g) (p : Idx3) (hp : c.mask p.1 p.2.1 = false) : g.eps p = a.clad := by
  unfold fromPattern at h
  cases hm : Grid.make (a.size c) (.inr a.spacings) (.inl a.bg) with
  | error e => rw [hm] at h; cases h
  | ok g0 =>
    rw [hm] at h
    change Grid.add _ _ _ _ = _ at h
    have : ∀ q, ((g0.fill (a.subz + a.rib) a.core).fill a.subz a.clad).eps q = a.clad := by
      intro q; unfold Grid.fill; rw [if_neg (not_lt.2 hsub)]
    unfold Grid.add at h
    split_ifs at h with r1 r2
    · injection h with h; subst h
      simp [hp, this]
    · injection h with h; subst h
      simp [hp, this]

/-- C111: thickness and height must be given together: a positive thickness without a positive height, or
the converse, always raises `AttributeError`. -/
theorem C111_dimension_mismatch (a : PatternArgs) (c : Component) (h : (0 < a.t) ≠ (0 < a.height)) :
    fromPattern a c = .error .attributeError := by
  unfold fromPattern Grid.make PatternArgs.size PatternArgs.spacings
  by_cases h1 : 0 < a.t <;> by_cases h2 : 0 < a.height
  · simp [h1, h2] at h
  · simp only [h1, h2, if_true, if_false, spacingList]; rfl
  · simp only [h1, h2, if_true, if_false, spacingList]; rfl
  · simp [h1, h2] at h

/-- C111 is false as to the boundary: the component is not moved, so it is surrounded by the boundary only
if it already was at `(boundary_x, boundary_y)`; a component whose bounds start at the origin touches the
lower sides of the grid and has twice the boundary on the upper ones. -/
theorem C111_boundary_counterexample (a : PatternArgs) (c : Component) (g : Grid)
    (h : fromPattern a c = .ok g) :
    (Surrounded a c g ↔ c.b0 = a.bx ∧ c.b1 = a.by') ∧
    (c.b0 = 0 → c.b1 = 0 → g.size.getD 0 0 - c.b2 = 2 * a.bx ∧ g.size.getD 1 0 - c.b3 = 2 * a.by') := by
  have hs : g.size.getD 0 0 = (c.b2 - c.b0) + 2 * a.bx ∧ g.size.getD 1 0 = (c.b3 - c.b1) + 2 * a.by' := by
    unfold fromPattern at h
    cases hm : Grid.make (a.size c) (.inr a.spacings) (.inl a.bg) with
    | error e => rw [hm] at h; cases h
    | ok g0 =>
      rw [hm] at h
      change Grid.add _ _ _ _ = _ at h
      rw [(add_same _ _ _ _ _ h).2.2.2, (fill_same _ _ _).2.2.2, (fill_same _ _ _).2.2.2,
        ((C42_construction _ _ _).1 g0 hm).2.2.2.1]
      unfold PatternArgs.size
      split_ifs <;> exact ⟨rfl, rfl⟩
  unfold Surrounded
  rw [hs.1, hs.2]
  refine ⟨⟨fun ⟨a, _, b, _⟩ => ⟨a, b⟩, fun ⟨a, b⟩ => ⟨a, by rw [a]; ring, b, by rw [b]; ring⟩⟩, fun a b => ?_⟩
  rw [a, b]
  constructor <;> ring

/-- A strip on a substrate with a partial etch: the hypotheses of the theorems above are met. -/
def demoPattern : PatternArgs :=
  { core := 12, clad := 2, spacing := 1 / 10, bx := 1, by' := 1, t := 2 / 10, rib := 1 / 10, subz := 1,
    height := 2 }

def demoComponent : Component := ⟨1, 1, 3, 2, fun i j => decide (10 ≤ i ∧ i < 30 ∧ 10 ≤ j ∧ j < 20), 2⟩

example : ∃ g, fromPattern demoPattern demoComponent = .ok g ∧
    g.shape.map (Nat.cast (R := ℤ)) = g.size.map (fun s => around (s / (1 / 10))) ∧
    Surrounded demoPattern demoComponent g := by
  obtain ⟨g, h1, h2, -, h4, -⟩ := C111_stack_partial demoPattern demoComponent (by norm_num [demoPattern])
    (by norm_num [demoPattern]) (by norm_num [demoPattern]) (by norm_num [demoPattern])
    (by norm_num [demoPattern]) (by norm_num [demoPattern, specZ]) (by norm_num [demoComponent])
    (by norm_num [demoComponent]) (by norm_num [demoPattern, demoComponent])
    (by norm_num [demoPattern, demoComponent]) (by norm_num [demoPattern, demoComponent])
    (by norm_num [demoPattern, demoComponent])
  exact ⟨g, h1, h4, (C111_boundary_counterexample _ _ g h1).1.2 ⟨rfl, rfl⟩⟩

/-- The loss is real: a rib of thickness 1/10 on no substrate. -/
example : ∃ g, fromPattern { demoPattern with subz := 0, t := 0, height := 0 } demoComponent = .ok g ∧
    g.eps (0, 0, 0) = 2 := by
  obtain ⟨g, h, -, -, -, e⟩ := C111_flat { demoPattern with subz := 0, t := 0, height := 0 } demoComponent
    (by norm_num [demoPattern]) rfl rfl rfl (by norm_num [demoComponent])
    (by norm_num [demoPattern, demoComponent]) (by norm_num [demoPattern, demoComponent])
  exact ⟨g, h, by rw [e]; norm_num [demoComponent, demoPattern]⟩

end Simphox
