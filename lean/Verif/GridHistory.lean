import Verif.ExactGrid

/-!
# Histories of grid edits (C189, C190)

A grid is edited by calls of `set_eps`, `fill` and `add` in any order. C189: the last call that covers a pixel decides its
permittivity. C190: what a call that raises leaves behind.
-/

namespace Simphox

open Grid

/-! ### Model -/

/-- The state of a `Grid` object the edits change: the grid, the list `self.components` and the component the dictionary
`self.port` was last made from (grid.py:88-91). -/
structure GridW where
  g : Grid
  components : List Component
  portsOf : Option Component

/-- One call of an editing method: `set_eps(center, size, eps)` (grid.py:142), `fill(height, eps)` (grid.py:93),
`add(component, eps, zmin, thickness)` (grid.py:111). -/
inductive GEdit where
  | setEps (center size : V3) (eps : ℚ)
  | fill (height eps : ℚ)
  | add (c : Component) (eps : ℚ) (z : Option (ℚ × ℚ))

/-- The value a call writes. -/
def GEdit.value : GEdit → ℚ
  | .setEps _ _ e => e
  | .fill _ e => e
  | .add _ e _ => e

/-- The state after one call, and the exception it raised, if any. `add` (grid.py:111-140) checks the bounds, appends to
`components`, writes the permittivity and then builds the ports: without `zmin` the ports of a two dimensional grid
raise after the permittivity was written, and on a three dimensional grid the z indices raise before it is written, but after
the component was appended. -/
def GridW.exec (w : GridW) : GEdit → GridW × Option PyError
  | .setEps c s e =>
    match w.g.setEps c s e with
    | .ok g' => ({ w with g := g' }, none)
    | .error err => (w, some err)
  | .fill h e => ({ w with g := w.g.fill h e }, none)
  | .add c e z =>
    match w.g.add c e z with
    | .ok g' => ({ g := g', components := w.components ++ [c], portsOf := some c }, none)
    | .error err =>
      if w.g.addRejects c then (w, some err)
      else if w.g.ndim = 2 then
        ({ w with
            g := { w.g with eps := fun p => if c.mask p.1 p.2.1 then e else w.g.eps p }
            components := w.components ++ [c] }, some err)
      else ({ w with components := w.components ++ [c] }, some err)

/-- A sequence of calls, each made whether or not the previous ones raised. -/
def GridW.run (w : GridW) (l : List GEdit) : GridW := l.foldl (fun w d => (w.exec d).1) w

/-! ### Specification -/

/-- The call is one the documentation allows: a box inside the grid; any fill; a component inside the grid, in two dimensions without ports
or with `zmin` and `thickness`, in three dimensions with nonnegative `zmin` and `thickness` and cubic pixels. -/
def Allowed (g : Grid) : GEdit → Prop
  | .setEps c s _ => FitsAxis g 0 c.x s.x ∧ FitsAxis g 1 c.y s.y ∧ FitsAxis g 2 c.z s.z
  | .fill _ _ => True
  | .add c _ z => Inside g c ∧ (g.ndim = 2 → z ≠ none ∨ c.nPorts = 0) ∧
      (g.ndim = 3 → ∃ zmin t d, z = some (zmin, t) ∧ 0 ≤ zmin ∧ 0 ≤ t ∧ 0 < d ∧ g.spacing = [d, d, d])

/-- The pixels a call covers: those of the box; those below the height (all, if the height is not positive); those of the pattern, in three
dimensions between `zmin` and `zmin + thickness`. -/
def Covers (g : Grid) (p : Idx3) : GEdit → Prop
  | .setEps c s _ => InBoxAxis g 0 c.x s.x p.1 ∧ InBoxAxis g 1 c.y s.y p.2.1 ∧ InBoxAxis g 2 c.z s.z p.2.2
  | .fill h _ => h ≤ 0 ∨ (comp p (g.ndim - 1) : ℤ) < ⌊h / g.spacing.getLastD 1⌋
  | .add c _ z => c.mask p.1 p.2.1 = true ∧ (g.ndim = 3 → ∀ zmin t, z = some (zmin, t) →
      ⌊zmin / g.spacing.getLastD 1⌋ ≤ (p.2.2 : ℤ) ∧ (p.2.2 : ℤ) < ⌊(zmin + t) / g.spacing.getLastD 1⌋)

/-- Everything of a grid except its permittivity. -/
def SameFrame (g g' : Grid) : Prop :=
  g'.ndim = g.ndim ∧ g'.size = g.size ∧ g'.spacing = g.spacing ∧ g'.shape = g.shape ∧ g'.epsShape = g.shape

/-! ### Lemmas -/

theorem frame_shape3 {g g' : Grid} (h : SameFrame g g') (ax : ℕ) : g'.shape3 ax = g.shape3 ax := by
  unfold Grid.shape3
  rw [h.2.2.2.1]

theorem frame_allowed {g g' : Grid} (h : SameFrame g g') (d : GEdit) (hd : Allowed g d) : Allowed g' d := by
  obtain ⟨h1, h2, h3, h4, h5⟩ := h
  have hs : ∀ ax, g'.shape3 ax = g.shape3 ax := fun ax => by unfold Grid.shape3; rw [h4]
  cases d with
  | setEps c s e => simpa only [Allowed, FitsAxis, h3, hs] using hd
  | fill _ _ => trivial
  | add c e z => simpa only [Allowed, Inside, h1, h2, h3] using hd

theorem frame_covers {g g' : Grid} (h : SameFrame g g') (p : Idx3) (d : GEdit) : Covers g' p d ↔ Covers g p d := by
  obtain ⟨h1, h2, h3, h4, h5⟩ := h
  cases d with
  | setEps c s e => simp only [Covers, InBoxAxis, h3]
  | fill _ _ => simp only [Covers, h1, h3]
  | add c e z => simp only [Covers, h1, h3]

theorem frame_inGrid {g g' : Grid} (h : SameFrame g g') (p : Idx3) : InGrid g' p ↔ InGrid g p := by
  unfold InGrid
  rw [frame_shape3 h, frame_shape3 h, frame_shape3 h]

/-- One allowed call. -/
theorem exec_allowed (w : GridW) (hg : w.g.Consistent) (hd : 2 ≤ w.g.ndim) (h1 : ∀ n ∈ w.g.shape, n ≠ 1) (he : w.g.epsShape = w.g.shape)
    (hdx : 0 < w.g.spacing.getLastD 1) (d : GEdit) (ha : Allowed w.g d) :
    (w.exec d).2 = none ∧ SameFrame w.g (w.exec d).1.g ∧
      (w.exec d).1.components = w.components ++ (match d with | .add c _ _ => [c] | _ => []) ∧
      ∀ p, InGrid w.g p → (Covers w.g p d → (w.exec d).1.g.eps p = d.value) ∧ (¬ Covers w.g p d → (w.exec d).1.g.eps p = w.g.eps p) := by
  cases d with
  | setEps c s e =>
    obtain ⟨g', hok, hs1, hs2, hp⟩ := C33_set_eps_exact w.g hg h1 c s e ha.1 ha.2.1 ha.2.2
    have hok' := hok
    unfold Grid.setEps at hok'
    dsimp only at hok'
    split at hok'
    · have hg' := Except.ok.inj hok'
      have hx : w.exec (.setEps c s e) = ({ w with g := g' }, none) := by
        simp only [GridW.exec, hok]
      rw [hx]
      refine ⟨rfl, ⟨?_, ?_, ?_, hs2, hs1⟩, by simp, fun p hin => hp p hin⟩ <;> rw [← hg']
    · cases hok'
  | fill h e =>
    refine ⟨rfl, ?_, by simp [GridW.exec], ?_⟩
    · change SameFrame w.g (w.g.fill h e)
      unfold Grid.fill SameFrame
      split_ifs <;> simp [he]
    · intro p hp
      obtain ⟨f1, _, f3, _⟩ := C36_fill_prefix w.g hg hd hdx h h e e p hp
      change (_ → (w.g.fill h e).eps p = e) ∧ (_ → (w.g.fill h e).eps p = w.g.eps p)
      by_cases hh : 0 < h
      · refine ⟨fun hc => ?_, fun hc => ?_⟩
        · rcases hc with hc | hc
          · exact absurd hc (not_le.2 hh)
          · exact (f1 hh).1 hc
        · have : ¬ (comp p (w.g.ndim - 1) : ℤ) < ⌊h / w.g.spacing.getLastD 1⌋ := fun hc' => hc (Or.inr hc')
          exact (f1 hh).2 (not_lt.1 this)
      · exact ⟨fun _ => f3 (not_lt.1 hh), fun hc => absurd (Or.inl (not_lt.1 hh)) hc⟩
  | add c e z =>
    obtain ⟨hin, h2, h3⟩ := ha
    have hrej : w.g.addRejects c = false := by
      unfold Grid.addRejects
      simp [hin.1]
    by_cases hn : w.g.ndim = 2
    · have hz : ¬ (z = none ∧ 0 < c.nPorts) := by
        rintro ⟨hz1, hz2⟩
        rcases h2 hn with h | h
        · exact h hz1
        · omega
      have hadd : w.g.add c e z = .ok { w.g with eps := fun p => if c.mask p.1 p.2.1 then e else w.g.eps p } := by
        unfold Grid.add
        rw [hrej]
        simp only [Bool.false_eq_true, if_false, if_pos hn, if_neg hz]
      have hx : w.exec (.add c e z) = (GridW.mk { w.g with eps := fun p => if c.mask p.1 p.2.1 then e else w.g.eps p } (w.components ++ [c]) (some c), none) := by
        simp only [GridW.exec, hadd]
      rw [hx]
      refine ⟨rfl, ⟨rfl, rfl, rfl, rfl, he⟩, rfl, fun p _ => ⟨fun hc => ?_, fun hc => ?_⟩⟩
      · exact if_pos hc.1
      · have : ¬ c.mask p.1 p.2.1 = true := fun hm => hc ⟨hm, fun h => by omega⟩
        exact if_neg this
    · have hn3 : w.g.ndim = 3 := by have := hg.2.2; omega
      obtain ⟨zmin, t, dd, rfl, hz0, ht0, hd0, hsp⟩ := h3 hn3
      obtain ⟨g', hok, hp⟩ := C82_add_extrudes_partial w.g hn3 dd hd0 hsp c hin e zmin t hz0 ht0
      have hok' := hok
      unfold Grid.add at hok'
      rw [hrej] at hok'
      simp only [Bool.false_eq_true, if_false, if_neg hn] at hok'
      have hg' := Except.ok.inj hok'
      have hx : w.exec (.add c e (some (zmin, t))) = ({ g := g', components := w.components ++ [c], portsOf := some c }, none) := by
        simp only [GridW.exec, hok]
      rw [hx]
      have hl : w.g.spacing.getLastD 1 = dd := by rw [hsp]; rfl
      refine ⟨rfl, ?_, rfl, fun p hip => ⟨fun hc => ?_, fun hc => ?_⟩⟩
      · rw [← hg']; exact ⟨rfl, rfl, rfl, rfl, he⟩
      · have h := hc.2 hn3 zmin t rfl
        rw [hl] at h
        change g'.eps p = e
        rw [hp p hip, if_pos ⟨hc.1, h⟩]
      · change g'.eps p = w.g.eps p
        rw [hp p hip, if_neg]
        rintro ⟨hm, hzz⟩
        refine hc ⟨hm, fun _ zm t' hzt => ?_⟩
        obtain ⟨rfl, rfl⟩ : zmin = zm ∧ t = t' := by simpa using hzt
        rw [hl]; exact hzz

theorem frame_trans {a b c : Grid} (h : SameFrame a b) (h' : SameFrame b c) : SameFrame a c := by
  obtain ⟨h1, h2, h3, h4, h5⟩ := h
  obtain ⟨k1, k2, k3, k4, k5⟩ := h'
  exact ⟨k1.trans h1, k2.trans h2, k3.trans h3, k4.trans h4, k5.trans h4⟩

theorem run_append (w : GridW) (l l' : List GEdit) : w.run (l ++ l') = (w.run l).run l' := List.foldl_append

/-- A history of allowed calls. -/
theorem run_allowed (w : GridW) (hg : w.g.Consistent) (hd : 2 ≤ w.g.ndim) (h1 : ∀ n ∈ w.g.shape, n ≠ 1) (he : w.g.epsShape = w.g.shape)
    (hdx : 0 < w.g.spacing.getLastD 1) (l : List GEdit) (hl : ∀ d ∈ l, Allowed w.g d) :
    SameFrame w.g (w.run l).g ∧
      (w.run l).components = w.components ++ l.filterMap (fun | .add c _ _ => some c | _ => none) ∧
      ∀ p, InGrid w.g p → (∀ d ∈ l, ¬ Covers w.g p d) → (w.run l).g.eps p = w.g.eps p := by
  induction l generalizing w with
  | nil => exact ⟨⟨rfl, rfl, rfl, rfl, he⟩, by simp [GridW.run], fun p _ _ => rfl⟩
  | cons d l ih =>
    obtain ⟨_, hf, hc, hp⟩ := exec_allowed w hg hd h1 he hdx d (hl d List.mem_cons_self)
    have hrun : w.run (d :: l) = (w.exec d).1.run l := rfl
    obtain ⟨e1, e2, e3, e4, e5⟩ := hf
    obtain ⟨i1, i2, i3⟩ := ih (w.exec d).1 (by unfold Grid.Consistent; rw [e1, e3, e4]; exact hg) (by rw [e1]; exact hd) (by rw [e4]; exact h1)
      (by rw [e5, e4]) (by rw [e3]; exact hdx) fun d' hd' => frame_allowed ⟨e1, e2, e3, e4, e5⟩ d' (hl d' (List.mem_cons_of_mem _ hd'))
    rw [hrun]
    refine ⟨frame_trans ⟨e1, e2, e3, e4, e5⟩ i1, ?_, fun p hip hnc => ?_⟩
    · rw [i2, hc]
      cases d <;> simp
    · rw [i3 p ((frame_inGrid ⟨e1, e2, e3, e4, e5⟩ p).2 hip) fun d' hd' hcov =>
        hnc d' (List.mem_cons_of_mem _ hd') ((frame_covers ⟨e1, e2, e3, e4, e5⟩ p d').1 hcov)]
      exact (hp p hip).2 (hnc d List.mem_cons_self)

/-! ### C189 -/

/-- C189: after any history of allowed `set_eps`, `fill` and `add` calls, on any grid (2D or 3D, more than one pixel per axis):
every pixel has the permittivity of the last call that covers it, or its original permittivity if none does; size, spacing and shape
never change; and `components` lists the added components in order. -/
theorem C189_last_edit_wins (w : GridW) (hg : w.g.Consistent) (hd : 2 ≤ w.g.ndim) (h1 : ∀ n ∈ w.g.shape, n ≠ 1)
    (he : w.g.epsShape = w.g.shape) (hdx : 0 < w.g.spacing.getLastD 1) (l : List GEdit) (hl : ∀ d ∈ l, Allowed w.g d) :
    (∀ p, InGrid w.g p →
      (∀ before d after, l = before ++ d :: after → Covers w.g p d → (∀ d' ∈ after, ¬ Covers w.g p d') → (w.run l).g.eps p = d.value) ∧
      ((∀ d ∈ l, ¬ Covers w.g p d) → (w.run l).g.eps p = w.g.eps p)) ∧
    SameFrame w.g (w.run l).g ∧
    (w.run l).components = w.components ++ l.filterMap (fun | .add c _ _ => some c | _ => none) := by
  have hall := run_allowed w hg hd h1 he hdx l hl
  refine ⟨fun p hip => ⟨?_, hall.2.2 p hip⟩, hall.1, hall.2.1⟩
  rintro before d after rfl hc hn
  obtain ⟨b1, _, _⟩ := run_allowed w hg hd h1 he hdx before fun d' hd' => hl d' (List.mem_append_left _ hd')
  rw [run_append]
  set v := w.run before with hv
  have b1' := b1
  obtain ⟨e1, e2, e3, e4, e5⟩ := b1'
  have hg' : v.g.Consistent := by unfold Grid.Consistent; rw [e1, e3, e4]; exact hg
  have hd' : 2 ≤ v.g.ndim := by rw [e1]; exact hd
  have h1' : ∀ n ∈ v.g.shape, n ≠ 1 := by rw [e4]; exact h1
  have he' : v.g.epsShape = v.g.shape := by rw [e5, e4]
  have hdx' : 0 < v.g.spacing.getLastD 1 := by rw [e3]; exact hdx
  obtain ⟨_, c1, _, c3⟩ := exec_allowed v hg' hd' h1' he' hdx' d (frame_allowed b1 d (hl d (by simp)))
  have b2 := frame_trans b1 c1
  have c1' := c1
  obtain ⟨f1, f2, f3, f4, f5⟩ := c1'
  obtain ⟨_, _, k3⟩ := run_allowed (v.exec d).1 (by unfold Grid.Consistent; rw [f1, f3, f4]; exact hg') (by rw [f1]; exact hd')
    (by rw [f4]; exact h1') (by rw [f5, f4]) (by rw [f3]; exact hdx') after
    fun d' hd'' => frame_allowed b2 d' (hl d' (by simp [hd'']))
  change ((v.exec d).1.run after).g.eps p = d.value
  rw [k3 p ((frame_inGrid b2 p).2 hip) fun d' hd'' hcov => hn d' hd'' ((frame_covers b2 p d').1 hcov)]
  exact (c3 p ((frame_inGrid b1 p).2 hip)).1 ((frame_covers b1 p d).2 hc)

/-- C189, consequences: repeating the last call changes nothing, and allowed calls that cover no common pixel can be swapped. -/
theorem C189_disjoint_commute (w : GridW) (hg : w.g.Consistent) (hd : 2 ≤ w.g.ndim) (h1 : ∀ n ∈ w.g.shape, n ≠ 1)
    (he : w.g.epsShape = w.g.shape) (hdx : 0 < w.g.spacing.getLastD 1) (a b : GEdit) (ha : Allowed w.g a) (hb : Allowed w.g b)
    (hab : ∀ p, InGrid w.g p → ¬ (Covers w.g p a ∧ Covers w.g p b)) (p : Idx3) (hp : InGrid w.g p) :
    (w.run [a, b]).g.eps p = (w.run [b, a]).g.eps p ∧ (w.run [a, a]).g.eps p = (w.run [a]).g.eps p := by
  have hall : ∀ l : List GEdit, (∀ d ∈ l, d = a ∨ d = b) → ∀ d ∈ l, Allowed w.g d := by
    intro l hl d hdl
    rcases hl d hdl with rfl | rfl <;> assumption
  have H := fun l hl => (C189_last_edit_wins w hg hd h1 he hdx l hl).1 p hp
  have H1 := H [a, b] (hall _ (by simp))
  have H2 := H [b, a] (hall _ (by simp))
  have H3 := H [a, a] (hall _ (by simp))
  have H4 := H [a] (hall _ (by simp))
  by_cases ca : Covers w.g p a
  · have cb : ¬ Covers w.g p b := fun cb => hab p hp ⟨ca, cb⟩
    rw [H1.1 [] a [b] rfl ca (by simpa using cb), H2.1 [b] a [] rfl ca (by simp), H3.1 [a] a [] rfl ca (by simp), H4.1 [] a [] rfl ca (by simp)]
    exact ⟨rfl, rfl⟩
  · rw [H3.2 (by simpa using ca), H4.2 (by simpa using ca)]
    refine ⟨?_, rfl⟩
    by_cases cb : Covers w.g p b
    · rw [H1.1 [a] b [] rfl cb (by simp), H2.1 [] b [a] rfl cb (by simpa using ca)]
    · rw [H1.2 (by simpa using ⟨ca, cb⟩), H2.2 (by simpa using ⟨cb, ca⟩)]

/-- Nontrivial case: on a 10 x 8 grid with pixels of one half, a substrate, a waveguide and a cladding box: all calls are allowed; pixel
`(4, 3)` is covered by the fill and by the box, and gets the box's value. -/
example : let g : Grid := ⟨2, [5, 4], [1 / 2, 1 / 2], [10, 8], fun _ => 1, [10, 8]⟩
    let w : GridW := ⟨g, [], none⟩
    let l : List GEdit := [.fill 2 2, .setEps ⟨5 / 2, 2, 0⟩ ⟨1, 1, 0⟩ 12]
    (∀ d ∈ l, Allowed g d) ∧ (w.run l).g.eps (4, 3, 0) = 12 ∧ (w.run l).g.eps (0, 3, 0) = 2 ∧ (w.run l).g.eps (0, 4, 0) = 1 := by
  refine ⟨?_, by decide +kernel, by decide +kernel, by decide +kernel⟩
  intro d hd
  rcases List.mem_cons.1 hd with rfl | hd
  · trivial
  · rcases List.mem_singleton.1 hd with rfl
    refine ⟨?_, ?_, trivial⟩
    · change if 0 < around ((1 : ℚ) / (1 / 2)) then 0 ≤ loPixel (5 / 2) 1 (1 / 2) ∧ hiPixel (5 / 2) 1 (1 / 2) ≤ ((10 : ℕ) : ℤ) else _ ∧ _
      decide +kernel
    · change if 0 < around ((1 : ℚ) / (1 / 2)) then 0 ≤ loPixel 2 1 (1 / 2) ∧ hiPixel 2 1 (1 / 2) ≤ ((8 : ℕ) : ℤ) else _ ∧ _
      decide +kernel

/-! ### C190 -/

/-- C190, what holds: a `set_eps` that raises, and an `add` that is refused because of the bounds, leave the grid as it was; `fill` never raises. -/
theorem C190_refused_partial (w : GridW) (c s : V3) (e h : ℚ) (k : Component) (z : Option (ℚ × ℚ)) :
    ((w.exec (.setEps c s e)).2 ≠ none → (w.exec (.setEps c s e)).1 = w) ∧ (w.exec (.fill h e)).2 = none ∧
    ((w.exec (.add k e z)).2 = some .valueError → (w.exec (.add k e z)).1 = w) := by
  refine ⟨?_, rfl, ?_⟩
  · dsimp only [GridW.exec]
    cases hc : w.g.setEps c s e with
    | ok g' => intro h; simp at h
    | error err => intro _; rfl
  · dsimp only [GridW.exec]
    cases hc : w.g.add k e z with
    | ok g' => intro h; simp at h
    | error err =>
      dsimp only
      by_cases hr : w.g.addRejects k = true
      · rw [if_pos hr]; intro _; rfl
      · intro h
        exfalso
        have : err = .valueError := by
          rw [if_neg hr] at h
          split_ifs at h <;> simpa using h
        rw [this] at hc
        unfold Grid.add at hc
        rw [if_neg hr] at hc
        split_ifs at hc
        · cases hc
        · rcases z with _ | ⟨zmin, t⟩
          · cases hc
          · cases hc

/-- **C190, violated**: adding a component with ports to a two dimensional grid without `zmin` (the default) raises `TypeError` only after its
permittivity was written and the component was recorded; the grid keeps the ports of the previous component. -/
theorem C190_ports_counterexample (w : GridW) (hn : w.g.ndim = 2) (k : Component) (hk : 0 < k.nPorts) (hr : w.g.addRejects k = false) (e : ℚ) :
    let r := w.exec (.add k e none)
    r.2 = some .typeError ∧ r.1.components = w.components ++ [k] ∧ r.1.portsOf = w.portsOf ∧
      ∀ p, r.1.g.eps p = if k.mask p.1 p.2.1 then e else w.g.eps p := by
  intro r
  have hadd : w.g.add k e none = .error .typeError := by
    unfold Grid.add
    rw [hr]
    simp [hn, hk]
  have hx : r = (GridW.mk { w.g with eps := fun p => if k.mask p.1 p.2.1 then e else w.g.eps p } (w.components ++ [k]) w.portsOf,
      some .typeError) := by
    change w.exec _ = _
    dsimp only [GridW.exec]
    rw [hadd]
    simp only [hr, hn, Bool.false_eq_true, if_false, if_true]
  rw [hx]
  exact ⟨rfl, rfl, rfl, fun p => rfl⟩

/-- **C190, violated**: on a three dimensional grid the same call raises after the component was recorded, so that `components` lists a component
the permittivity does not have. -/
theorem C190_components_counterexample (w : GridW) (hn : w.g.ndim = 3) (k : Component) (hr : w.g.addRejects k = false) (e : ℚ) :
    let r := w.exec (.add k e none)
    r.2 = some .typeError ∧ r.1.components = w.components ++ [k] ∧ r.1.g.eps = w.g.eps := by
  intro r
  have hadd : w.g.add k e none = .error .typeError := by
    unfold Grid.add
    rw [hr]
    simp [hn]
  have hx : r = ({ w with components := w.components ++ [k] }, some .typeError) := by
    change w.exec _ = _
    dsimp only [GridW.exec]
    rw [hadd]
    simp [hr, hn]
  rw [hx]
  exact ⟨rfl, rfl, rfl⟩

/-- Nontrivial case: a one-pixel component with two ports on a 4 x 4 grid. -/
example : let g : Grid := ⟨2, [4, 4], [1, 1], [4, 4], fun _ => 1, [4, 4]⟩
    let k : Component := ⟨0, 0, 1, 1, fun i j => i = 0 && j = 0, 2⟩
    let r := (GridW.mk g [] none).exec (.add k 12 none)
    r.2 = some .typeError ∧ r.1.g.eps (0, 0, 0) = 12 := by
  decide +kernel

end Simphox
