import Verif.ModeProps

/-! # Grids, mode solvers and mode libraries that share objects (C155, C156)

`Mode` describes one library on its own. Here several libraries can use one solver, and several grids one permittivity array, as
in the Python program, where `ModeLibrary` keeps a reference to its solver and `Grid` keeps the array it is given. -/

namespace Simphox

open Complex

variable {s : Fin 3 → ℕ}

/-- A grid (`ModeSolver` is one, mode.py:22-86): which array is its `eps` (grid.py:76), its wavelength, and the `eps_t` cached by
`lru_cache` (grid.py:464-473; simplified: no eviction). -/
structure GridObj (s : Fin 3 → ℕ) where
  arr : ℕ
  wavelength : ℝ
  cache : Option (VField s)

/-- A `ModeLibrary` (mode.py:230-247): its solver, `max_num_modes`, `betas`, `modes` and the array `eps`. -/
structure LibObj (s : Fin 3 → ℕ) where
  solver : ℕ
  maxNumModes : ℕ
  betas : List ℝ
  modes : List (SField s) ⊕ List (VField s)
  eps : ℕ

/-- The objects of a program: arrays, grids, libraries; references are positions. -/
structure World (s : Fin 3 → ℕ) where
  arrays : List (SField s)
  grids : List (GridObj s)
  libs : List (LibObj s)

/-- The fixed parts: Yee operators, `yee_avg`, whether the grids are two-dimensional, and the eigensolver of `ModeSolver.solve`
(mode.py:179-206) as a function of wavelength, `eps`, `eps_t` and the number of modes. Simplified: all grids have one geometry. -/
structure ModeEnv (s : Fin 3 → ℕ) where
  g : YeeOps s
  avg : SField s → VField s
  twoD : Bool
  eig : ℝ → SField s → VField s → ℕ → Except PyError (List ℝ × (List (SField s) ⊕ List (VField s)))

/-- What a program does. -/
inductive Act (s : Fin 3 → ℕ) where
  /-- The caller makes an array. -/
  | newArray (a : SField s)
  /-- The caller writes into an array. -/
  | writeArray (r : ℕ) (f : SField s → SField s)
  /-- `ModeSolver(size, spacing, wavelength, eps)` with a number. -/
  | newGrid (eps : ℂ) (wavelength : ℝ)
  /-- `ModeSolver(..., eps=a)` with an array: the array is kept, not copied (grid.py:76). -/
  | newGridOf (r : ℕ) (wavelength : ℝ)
  /-- `FDFD.from_simgrid(grid, wavelength)` (fdfd.py:113-120), and any other constructor called with `eps=grid.eps`. -/
  | newGridFrom (k : ℕ) (wavelength : ℝ)
  /-- `grid.fill(height, eps)` with `height > 0`, `grid.add`, `grid.set_eps`: in-place writes (grid.py:101, 125, 128, 146-148). -/
  | edit (k : ℕ) (f : SField s → SField s)
  /-- `grid.fill(0, eps)`: a new array (grid.py:103). -/
  | refill (k : ℕ) (eps : ℂ)
  /-- `solver.wavelength = w`. -/
  | setWavelength (k : ℕ) (w : ℝ)
  /-- Reading `grid.eps_t`, as `lib.e`, `lib.sz`, ... do. -/
  | readEpsT (k : ℕ)
  /-- `ModeLibrary(solver, max_num_modes)`. -/
  | newLib (k m : ℕ)
  /-- `lib.update_wavelength(w)`. -/
  | update (l : ℕ) (w : ℝ)

namespace World

/-- `grid.eps`: the content of the grid's array. -/
def epsOf (W : World s) (k : ℕ) : Option (SField s) := do W.arrays[(← W.grids[k]?).arr]?

/-- `grid.eps_t` as a cached property (grid.py:464-473): the cached value, else the average of the current `eps`. -/
def epsTOf (E : ModeEnv s) (W : World s) (k : ℕ) : Option (VField s) := do
  match (← W.grids[k]?).cache with
  | some t => return t
  | none => return E.avg (← W.epsOf k)

/-- The world after reading `grid.eps_t`. -/
def touch (E : ModeEnv s) (W : World s) (k : ℕ) : World s :=
  { W with grids := W.grids.modify k fun G => { G with cache := W.epsTOf E k } }

/-- `ModeLibrary._update_solve` (mode.py:239-247) up to the assignment of the results: `solver.wavelength = wavelength`, then
`solver.solve(max_num_modes)`, which reads `eps_t` for two-dimensional grids (mode.py:113-118) and `eps` otherwise. -/
def solveAt (E : ModeEnv s) (W : World s) (k : ℕ) (w : ℝ) (m : ℕ) :
    World s × Except PyError (List ℝ × (List (SField s) ⊕ List (VField s)) × ℕ) :=
  let W1 := { W with grids := W.grids.modify k fun G => { G with wavelength := w } }
  let W2 := if E.twoD then W1.touch E k else W1
  match W2.grids[k]?, W2.epsOf k, W2.epsTOf E k with
  | some G, some a, some t => (W2, (E.eig w a t m).map fun r => (r.1, r.2, G.arr))
  | _, _, _ => (W2, .error .attributeError)

/-- `len(modes)`; `self.modes[0]` raises `IndexError` when there is none (mode.py:246). -/
def noModes : List (SField s) ⊕ List (VField s) → Bool
  | .inl l => l.isEmpty
  | .inr l => l.isEmpty

/-- One statement: the objects afterwards, and the exception if one is raised. -/
def exec (E : ModeEnv s) (W : World s) : Act s → World s × Except PyError Unit
  | .newArray a => ({ W with arrays := W.arrays ++ [a] }, .ok ())
  | .writeArray r f => ({ W with arrays := W.arrays.modify r f }, .ok ())
  | .newGrid eps w =>
    ({ W with arrays := W.arrays ++ [fun _ => eps], grids := W.grids ++ [⟨W.arrays.length, w, none⟩] }, .ok ())
  | .newGridOf r w => ({ W with grids := W.grids ++ [⟨r, w, none⟩] }, .ok ())
  | .newGridFrom k w =>
    match W.grids[k]? with
    | some G => ({ W with grids := W.grids ++ [⟨G.arr, w, none⟩] }, .ok ())
    | none => (W, .error .attributeError)
  | .edit k f =>
    match W.grids[k]? with
    | some G => ({ W with arrays := W.arrays.modify G.arr f }, .ok ())
    | none => (W, .error .attributeError)
  | .refill k eps =>
    ({ W with arrays := W.arrays ++ [fun _ => eps], grids := W.grids.modify k fun G => { G with arr := W.arrays.length } }, .ok ())
  | .setWavelength k w => ({ W with grids := W.grids.modify k fun G => { G with wavelength := w } }, .ok ())
  | .readEpsT k => (W.touch E k, .ok ())
  | .newLib k m =>
    match W.grids[k]? with
    | none => (W, .error .attributeError)
    | some G =>
      match W.solveAt E k G.wavelength m with
      | (W1, .error e) => (W1, .error e)
      | (W1, .ok (b, u, r)) =>
        if noModes u then (W1, .error .indexError) else ({ W1 with libs := W1.libs ++ [⟨k, m, b, u, r⟩] }, .ok ())
  | .update l w =>
    match W.libs[l]? with
    | none => (W, .error .attributeError)
    | some L =>
      match W.solveAt E L.solver w L.maxNumModes with
      | (W1, .error e) => (W1, .error e)
      | (W1, .ok (b, u, r)) =>
        ({ W1 with libs := W1.libs.set l ⟨L.solver, L.maxNumModes, b, u, r⟩ }, if noModes u then .error .indexError else .ok ())

/-- A program: exceptions are caught by the caller, who goes on. -/
def run (E : ModeEnv s) (W : World s) : List (Act s) → World s
  | [] => W
  | c :: cs => run E (W.exec E c).1 cs

/-- What the methods of library `l` see (mode.py:301-400): the stored `betas` and `modes`, but the solver's current `k0` and
`eps_t`. -/
noncomputable def view (E : ModeEnv s) (W : World s) (l : ℕ) : Option (ModeLib s) := do
  let L ← W.libs[l]?
  let G ← W.grids[L.solver]?
  return ⟨E.g, 2 * Real.pi / G.wavelength, ← W.epsTOf E L.solver, L.betas, L.modes⟩

end World

/-! ### Specification -/

/-- A library of the modes of permittivity `a` (average `t`) at wavelength `w`: what `lib` should be after solving there. -/
noncomputable def idealLib (E : ModeEnv s) (w : ℝ) (a : SField s) (t : VField s) (m : ℕ) : Except PyError (ModeLib s) :=
  (E.eig w a t m).map fun r => ⟨E.g, 2 * Real.pi / w, t, r.1, r.2⟩

/-! ### Lemmas -/

namespace World

variable {E : ModeEnv s}

theorem getElem?_modify_some {α : Type} {l : List α} {j : ℕ} {x : α} (h : l[j]? = some x) (k : ℕ) (f : α → α) :
    (l.modify k f)[j]? = some (if k = j then f x else x) := by
  rw [List.getElem?_modify, h]
  rfl

theorem grids_touch (W : World s) (k j : ℕ) {G : GridObj s} (h : W.grids[j]? = some G) :
    ∃ G', (W.touch E k).grids[j]? = some G' ∧ G'.arr = G.arr ∧ G'.wavelength = G.wavelength ∧ (∀ t, G.cache = some t → G'.cache = some t) := by
  unfold touch
  rw [getElem?_modify_some h]
  by_cases hk : k = j
  · subst hk
    rw [if_pos rfl]
    refine ⟨_, rfl, rfl, rfl, fun t ht => ?_⟩
    simp only [epsTOf, h, Option.bind_eq_bind, Option.bind_some, ht]
    rfl
  · rw [if_neg hk]
    exact ⟨G, rfl, rfl, rfl, fun t ht => ht⟩

theorem touch_libs (W : World s) (k : ℕ) : (W.touch E k).libs = W.libs := rfl

theorem touch_arrays (W : World s) (k : ℕ) : (W.touch E k).arrays = W.arrays := rfl

/-- The world in which `solveAt` solves. -/
def solveWorld (E : ModeEnv s) (W : World s) (k : ℕ) (w : ℝ) : World s :=
  let W1 := { W with grids := W.grids.modify k fun G => { G with wavelength := w } }
  if E.twoD then W1.touch E k else W1

theorem solveAt_fst (W : World s) (k : ℕ) (w : ℝ) (m : ℕ) : (W.solveAt E k w m).1 = W.solveWorld E k w := by
  unfold solveAt solveWorld
  dsimp only
  split <;> rfl

theorem solveWorld_libs (W : World s) (k : ℕ) (w : ℝ) : (W.solveWorld E k w).libs = W.libs := by
  unfold solveWorld
  dsimp only
  split_ifs <;> rfl

theorem solveWorld_arrays (W : World s) (k : ℕ) (w : ℝ) : (W.solveWorld E k w).arrays = W.arrays := by
  unfold solveWorld
  dsimp only
  split_ifs <;> rfl

theorem solveWorld_grids (W : World s) (k : ℕ) (w : ℝ) (j : ℕ) {G : GridObj s} (h : W.grids[j]? = some G) :
    ∃ G', (W.solveWorld E k w).grids[j]? = some G' ∧ G'.arr = G.arr ∧ G'.wavelength = (if k = j then w else G.wavelength) ∧
      (∀ t, G.cache = some t → G'.cache = some t) := by
  have h1 : ∃ G1, (W.grids.modify k fun G => { G with wavelength := w })[j]? = some G1 ∧ G1.arr = G.arr ∧
      G1.wavelength = (if k = j then w else G.wavelength) ∧ G1.cache = G.cache := by
    rw [getElem?_modify_some h]
    by_cases hk : k = j
    · simp only [if_pos hk]; exact ⟨_, rfl, rfl, rfl, rfl⟩
    · simp only [if_neg hk]; exact ⟨_, rfl, rfl, rfl, rfl⟩
  obtain ⟨G1, e1, e2, e3, e4⟩ := h1
  unfold solveWorld
  dsimp only
  by_cases h2 : E.twoD = true
  · rw [if_pos h2]
    obtain ⟨G', f1, f2, f3, f4⟩ := grids_touch (E := E) { W with grids := W.grids.modify k fun G => { G with wavelength := w } } k j e1
    exact ⟨G', f1, f2.trans e2, by rw [f3, e3], fun t ht => f4 t (e4.trans ht)⟩
  · rw [if_neg h2]
    exact ⟨G1, e1, e2, by rw [e3], fun t ht => e4.trans ht⟩

theorem newLib_fst (W : World s) (k m : ℕ) :
    (W.exec E (.newLib k m)).1 = W ∨ ∃ w, (W.exec E (.newLib k m)).1 = W.solveWorld E k w ∨
      ∃ L, (W.exec E (.newLib k m)).1 = { W.solveWorld E k w with libs := W.libs ++ [L] } := by
  simp only [exec]
  cases hG : W.grids[k]? with
  | none => exact Or.inl rfl
  | some G =>
    right
    refine ⟨G.wavelength, ?_⟩
    have := solveAt_fst (E := E) W k G.wavelength m
    simp only
    generalize W.solveAt E k G.wavelength m = S at this ⊢
    rcases S with ⟨W1, e | ⟨b, u, r⟩⟩
    · exact Or.inl this
    · simp only at this ⊢
      split_ifs
      · exact Or.inl this
      · exact Or.inr ⟨_, by rw [this, solveWorld_libs]⟩

theorem update_fst (W : World s) (l : ℕ) (w : ℝ) :
    (W.exec E (.update l w)).1 = W ∨ ∃ L, W.libs[l]? = some L ∧ ((W.exec E (.update l w)).1 = W.solveWorld E L.solver w ∨
      ∃ b u r, (W.exec E (.update l w)).1 = { W.solveWorld E L.solver w with libs := W.libs.set l ⟨L.solver, L.maxNumModes, b, u, r⟩ }) := by
  simp only [exec]
  cases hL : W.libs[l]? with
  | none => exact Or.inl rfl
  | some L =>
    right
    refine ⟨L, rfl, ?_⟩
    have := solveAt_fst (E := E) W L.solver w L.maxNumModes
    simp only
    generalize W.solveAt E L.solver w L.maxNumModes = S at this ⊢
    rcases S with ⟨W1, e | ⟨b, u, r⟩⟩
    · exact Or.inl this
    · exact Or.inr ⟨b, u, r, by simp only at this ⊢; rw [this, solveWorld_libs]⟩

theorem getElem?_append_some {α : Type} {l m : List α} {k : ℕ} {x : α} (h : l[k]? = some x) : (l ++ m)[k]? = some x := by
  rw [List.getElem?_append_left (List.getElem?_eq_some_iff.1 h).1, h]

/-- A library changes by its own updates only. -/
theorem exec_lib (W : World s) (c : Act s) (l : ℕ) {L : LibObj s} (h : W.libs[l]? = some L) (hc : ∀ w, c ≠ .update l w) :
    (W.exec E c).1.libs[l]? = some L := by
  cases c with
  | newArray a => exact h
  | writeArray r f => exact h
  | newGrid e w => exact h
  | newGridOf r w => exact h
  | newGridFrom k w => simp only [exec]; split <;> exact h
  | edit k f => simp only [exec]; split <;> exact h
  | refill k e => exact h
  | setWavelength k w => exact h
  | readEpsT k => exact h
  | newLib k m =>
    rcases newLib_fst (E := E) W k m with e | ⟨w, e | ⟨L', e⟩⟩
    · rw [e]; exact h
    · rw [e, solveWorld_libs]; exact h
    · rw [e]; exact getElem?_append_some h
  | update l' w =>
    have hne : l' ≠ l := fun e => hc w (by rw [e])
    rcases update_fst (E := E) W l' w with e | ⟨L', -, e | ⟨b, u, r, e⟩⟩
    · rw [e]; exact h
    · rw [e, solveWorld_libs]; exact h
    · rw [e]
      change (W.libs.set l' _)[l]? = _
      rw [List.getElem?_set_ne hne, h]

/-- Grids stay, with their cached `eps_t`. -/
theorem exec_grid (W : World s) (c : Act s) (j : ℕ) {G : GridObj s} (h : W.grids[j]? = some G) :
    ∃ G', (W.exec E c).1.grids[j]? = some G' ∧ ∀ t, G.cache = some t → G'.cache = some t := by
  have happ : ∀ X : GridObj s, ∃ G', (W.grids ++ [X])[j]? = some G' ∧ ∀ t, G.cache = some t → G'.cache = some t :=
    fun X => ⟨G, getElem?_append_some h, fun _ ht => ht⟩
  have hmod : ∀ (k : ℕ) (f : GridObj s → GridObj s), (∀ X, (f X).cache = X.cache) →
      ∃ G', (W.grids.modify k f)[j]? = some G' ∧ ∀ t, G.cache = some t → G'.cache = some t := by
    intro k f hf
    rw [getElem?_modify_some h]
    by_cases hk : k = j
    · rw [if_pos hk]; exact ⟨_, rfl, fun t ht => (hf G).trans ht⟩
    · rw [if_neg hk]; exact ⟨_, rfl, fun t ht => ht⟩
  have hsame : ∃ G', W.grids[j]? = some G' ∧ ∀ t, G.cache = some t → G'.cache = some t := ⟨G, h, fun _ ht => ht⟩
  have hsol : ∀ k w, ∃ G', (W.solveWorld E k w).grids[j]? = some G' ∧ ∀ t, G.cache = some t → G'.cache = some t := by
    intro k w
    obtain ⟨G', e1, -, -, e4⟩ := solveWorld_grids (E := E) W k w j h
    exact ⟨G', e1, e4⟩
  cases c with
  | newArray a => exact hsame
  | writeArray r f => exact hsame
  | newGrid e w => exact happ _
  | newGridOf r w => exact happ _
  | newGridFrom k w => simp only [exec]; split; exacts [happ _, hsame]
  | edit k f => simp only [exec]; split <;> exact hsame
  | refill k e => exact hmod k _ fun _ => rfl
  | setWavelength k w => exact hmod k _ fun _ => rfl
  | readEpsT k =>
    obtain ⟨G', e1, -, -, e4⟩ := grids_touch (E := E) W k j h
    exact ⟨G', e1, e4⟩
  | newLib k m =>
    rcases newLib_fst (E := E) W k m with e | ⟨w, e | ⟨L', e⟩⟩
    · rw [e]; exact hsame
    · rw [e]; exact hsol k w
    · rw [e]; exact hsol k w
  | update l' w =>
    rcases update_fst (E := E) W l' w with e | ⟨L', -, e | ⟨b, u, r, e⟩⟩
    · rw [e]; exact hsame
    · rw [e]; exact hsol _ w
    · rw [e]; exact hsol _ w

theorem run_lib (cs : List (Act s)) (W : World s) (l : ℕ) {L : LibObj s} (h : W.libs[l]? = some L) (hc : ∀ c ∈ cs, ∀ w, c ≠ .update l w) :
    (W.run E cs).libs[l]? = some L := by
  induction cs generalizing W with
  | nil => exact h
  | cons c cs ih => exact ih _ (exec_lib W c l h (hc c (by simp))) fun d hd => hc d (by simp [hd])

theorem run_grid (cs : List (Act s)) (W : World s) (j : ℕ) {G : GridObj s} (h : W.grids[j]? = some G) :
    ∃ G', (W.run E cs).grids[j]? = some G' ∧ ∀ t, G.cache = some t → G'.cache = some t := by
  induction cs generalizing W G with
  | nil => exact ⟨G, h, fun _ ht => ht⟩
  | cons c cs ih =>
    obtain ⟨G1, e1, e2⟩ := exec_grid (E := E) W c j h
    obtain ⟨G', f1, f2⟩ := ih _ e1
    exact ⟨G', f1, fun t ht => f2 t (e2 t ht)⟩

theorem view_eq {W : World s} {l : ℕ} {L : LibObj s} {G : GridObj s} {t : VField s} (h1 : W.libs[l]? = some L)
    (h2 : W.grids[L.solver]? = some G) (h3 : W.epsTOf E L.solver = some t) :
    W.view E l = some ⟨E.g, 2 * Real.pi / G.wavelength, t, L.betas, L.modes⟩ := by
  unfold view
  rw [h1]
  simp only [Option.bind_eq_bind, Option.bind_some, h2, h3]
  rfl

theorem epsTOf_cached {W : World s} {k : ℕ} {G : GridObj s} {t : VField s} (h : W.grids[k]? = some G) (ht : G.cache = some t) :
    W.epsTOf E k = some t := by
  unfold epsTOf
  simp only [h, Option.bind_eq_bind, Option.bind_some, ht]
  rfl

end World

/-! ### C155 -/

/-- Where library `l` of world `W` stands: its solver is at wavelength `w` with averaged permittivity `t`. -/
def SolverAt (E : ModeEnv s) (W : World s) (l : ℕ) (w : ℝ) (t : VField s) : Prop :=
  ∃ L G, W.libs[l]? = some L ∧ W.grids[L.solver]? = some G ∧ G.wavelength = w ∧ W.epsTOf E L.solver = some t

/-- C155, what holds: whatever a program does, except updating library `l` itself, if the solver is at the same wavelength and the
same `eps_t` at the end, the library is the same. -/
theorem C155_history_partial (E : ModeEnv s) (W : World s) (l : ℕ) (w : ℝ) (t : VField s) (h : SolverAt E W l w t)
    (cs : List (Act s)) (hcs : ∀ c ∈ cs, ∀ w', c ≠ .update l w') (h' : SolverAt E (W.run E cs) l w t) :
    (W.run E cs).view E l = W.view E l := by
  obtain ⟨L, G, e1, e2, e3, e4⟩ := h
  obtain ⟨L', G', f1, f2, f3, f4⟩ := h'
  have := World.run_lib (E := E) cs W l e1 hcs
  rw [f1] at this
  injection this with hL
  subst hL
  rw [World.view_eq e1 e2 e4, World.view_eq f1 f2 f4, e3, f3]

/-- C155, what holds: `beta(i)` changes by updates of the library itself only, and `n(i)` is `beta(i)` over the `k0` of the solver's
current wavelength (not of the wavelength the library was solved at). -/
theorem C155_betas_partial (E : ModeEnv s) (W : World s) (l : ℕ) (V : ModeLib s) (h : W.view E l = some V) (cs : List (Act s))
    (hcs : ∀ c ∈ cs, ∀ w', c ≠ .update l w') (V' : ModeLib s) (h' : (W.run E cs).view E l = some V') (i : ℤ) :
    V'.beta i = V.beta i ∧ V'.modes = V.modes ∧ ∃ L G, (W.run E cs).libs[l]? = some L ∧ (W.run E cs).grids[L.solver]? = some G ∧
      V'.neff i = (V.beta i).map fun b => b / (2 * Real.pi / G.wavelength) := by
  unfold World.view at h h'
  cases hL : W.libs[l]? with
  | none => rw [hL] at h; cases h
  | some L =>
    have hL' := World.run_lib (E := E) cs W l hL hcs
    cases hG : W.grids[L.solver]? with
    | none => simp [hL, hG] at h
    | some G =>
      cases hG' : (W.run E cs).grids[L.solver]? with
      | none => simp [hL', hG'] at h'
      | some G' =>
        cases ht : W.epsTOf E L.solver with
        | none => simp [hL, hG, ht] at h
        | some t =>
          cases ht' : (W.run E cs).epsTOf E L.solver with
          | none => simp [hL', hG', ht'] at h'
          | some t' =>
            simp only [hL, hG, ht, Option.bind_eq_bind, Option.bind_some, Option.pure_def, Option.some.injEq] at h
            simp only [hL', hG', ht', Option.bind_eq_bind, Option.bind_some, Option.pure_def, Option.some.injEq] at h'
            subst h h'
            refine ⟨rfl, rfl, L, G', hL', hG', ?_⟩
            simp only [ModeLib.neff, ModeLib.beta, ModeLib.check]
            split_ifs
            · rfl
            · change (pyGet L.betas i >>= fun b => pure (b / (2 * Real.pi / G'.wavelength))) = Except.map _ (pyGet L.betas i)
              cases pyGet L.betas i <;> rfl

/-- The state right after solving: `solveAt` for an existing grid. -/
theorem World.solveAt_eq {E : ModeEnv s} (W : World s) (k : ℕ) (w : ℝ) (m : ℕ) {G : GridObj s} {a : SField s} (hG : W.grids[k]? = some G)
    (ha : W.arrays[G.arr]? = some a) :
    W.solveAt E k w m = (W.solveWorld E k w, (E.eig w a (G.cache.getD (E.avg a)) m).map fun r => (r.1, r.2, G.arr)) ∧
    (W.solveWorld E k w).epsTOf E k = some (G.cache.getD (E.avg a)) ∧
    ∃ G', (W.solveWorld E k w).grids[k]? = some G' ∧ G'.wavelength = w ∧ (E.twoD = true → G'.cache = some (G.cache.getD (E.avg a))) := by
  have h1 : (W.grids.modify k fun G => { G with wavelength := w })[k]? = some { G with wavelength := w } := by
    rw [World.getElem?_modify_some hG, if_pos rfl]
  have het : (⟨W.arrays, W.grids.modify k fun G => { G with wavelength := w }, W.libs⟩ : World s).epsTOf E k
      = some (G.cache.getD (E.avg a)) := by
    unfold World.epsTOf World.epsOf
    simp only [h1, Option.bind_eq_bind, Option.bind_some, ha]
    cases G.cache <;> rfl
  by_cases h2 : E.twoD = true
  · have h3 : W.solveWorld E k w = ⟨W.arrays, (W.grids.modify k fun G => { G with wavelength := w }).modify k
        fun G' => { G' with cache := some (G.cache.getD (E.avg a)) }, W.libs⟩ := by
      unfold World.solveWorld
      dsimp only
      rw [if_pos h2]
      unfold World.touch
      rw [het]
    have h4 : ((W.grids.modify k fun G => { G with wavelength := w }).modify k
        fun G' => { G' with cache := some (G.cache.getD (E.avg a)) })[k]? = some ⟨G.arr, w, some (G.cache.getD (E.avg a))⟩ := by
      rw [World.getElem?_modify_some h1, if_pos rfl]
    have het2 : (W.solveWorld E k w).epsTOf E k = some (G.cache.getD (E.avg a)) := by
      rw [h3]
      exact World.epsTOf_cached h4 rfl
    have hep : (W.solveWorld E k w).epsOf k = some a := by
      rw [h3]
      unfold World.epsOf
      simp only [h4, Option.bind_eq_bind, Option.bind_some, ha]
    refine ⟨?_, het2, ⟨G.arr, w, some (G.cache.getD (E.avg a))⟩, ?_, rfl, fun _ => rfl⟩
    · have h5 : W.solveAt E k w m = match (W.solveWorld E k w).grids[k]?, (W.solveWorld E k w).epsOf k, (W.solveWorld E k w).epsTOf E k with
          | some G, some a, some t => (W.solveWorld E k w, (E.eig w a t m).map fun r => (r.1, r.2, G.arr))
          | _, _, _ => (W.solveWorld E k w, .error .attributeError) := rfl
      rw [h5, hep, het2, show (W.solveWorld E k w).grids[k]? = some ⟨G.arr, w, some (G.cache.getD (E.avg a))⟩ by rw [h3]; exact h4]
    · rw [h3]; exact h4
  · have h3 : W.solveWorld E k w = ⟨W.arrays, W.grids.modify k fun G => { G with wavelength := w }, W.libs⟩ := by
      unfold World.solveWorld
      dsimp only
      rw [if_neg h2]
    have hep : (W.solveWorld E k w).epsOf k = some a := by
      rw [h3]
      unfold World.epsOf
      simp only [h1, Option.bind_eq_bind, Option.bind_some, ha]
    have het2 : (W.solveWorld E k w).epsTOf E k = some (G.cache.getD (E.avg a)) := by rw [h3]; exact het
    refine ⟨?_, het2, { G with wavelength := w }, by rw [h3]; exact h1, rfl, fun h => absurd h h2⟩
    have h5 : W.solveAt E k w m = match (W.solveWorld E k w).grids[k]?, (W.solveWorld E k w).epsOf k, (W.solveWorld E k w).epsTOf E k with
        | some G, some a, some t => (W.solveWorld E k w, (E.eig w a t m).map fun r => (r.1, r.2, G.arr))
        | _, _, _ => (W.solveWorld E k w, .error .attributeError) := rfl
    rw [h5, hep, het2, show (W.solveWorld E k w).grids[k]? = some { G with wavelength := w } by rw [h3]; exact h1]

/-- C155, what holds: `update_wavelength(w)` that does not raise makes the library that of the solver's permittivity at `w`, if
`eps_t` was not read before the last change of the permittivity (`hfresh`). -/
theorem C155_update_partial (E : ModeEnv s) (W : World s) (l : ℕ) (w : ℝ) (L : LibObj s) (G : GridObj s) (a : SField s)
    (hL : W.libs[l]? = some L) (hG : W.grids[L.solver]? = some G) (ha : W.arrays[G.arr]? = some a)
    (hfresh : G.cache = none ∨ G.cache = some (E.avg a)) (hok : (W.exec E (.update l w)).2 = .ok ()) :
    ∃ V, idealLib E w a (E.avg a) L.maxNumModes = .ok V ∧ (W.exec E (.update l w)).1.view E l = some V := by
  have hc : G.cache.getD (E.avg a) = E.avg a := by rcases hfresh with h | h <;> rw [h] <;> rfl
  obtain ⟨h1, h2, G', h3, h4, -⟩ := World.solveAt_eq (E := E) W L.solver w L.maxNumModes hG ha
  rw [hc] at h1 h2
  have he : W.exec E (.update l w) = match W.solveAt E L.solver w L.maxNumModes with
      | (W1, .error e) => (W1, .error e)
      | (W1, .ok (b, u, r)) =>
        ({ W1 with libs := W1.libs.set l ⟨L.solver, L.maxNumModes, b, u, r⟩ }, if World.noModes u then .error .indexError else .ok ()) := by
    simp only [World.exec, hL]
  rw [h1] at he
  unfold idealLib
  cases hr : E.eig w a (E.avg a) L.maxNumModes with
  | error e =>
    rw [hr] at he
    rw [he] at hok
    cases hok
  | ok r =>
    rw [hr] at he
    refine ⟨_, rfl, ?_⟩
    rw [he]
    change World.view E { W.solveWorld E L.solver w with libs := (W.solveWorld E L.solver w).libs.set l ⟨L.solver, L.maxNumModes, r.1, r.2, G.arr⟩ } l = _
    have hl : ((W.solveWorld E L.solver w).libs.set l ⟨L.solver, L.maxNumModes, r.1, r.2, G.arr⟩)[l]?
        = some ⟨L.solver, L.maxNumModes, r.1, r.2, G.arr⟩ := by
      rw [World.solveWorld_libs]
      have := (List.getElem?_eq_some_iff.1 hL).1
      simp [this]
    have h5 : World.epsTOf E { W.solveWorld E L.solver w with libs := (W.solveWorld E L.solver w).libs.set l ⟨L.solver, L.maxNumModes, r.1, r.2, G.arr⟩ } L.solver
        = some (E.avg a) := h2
    rw [World.view_eq (W := { W.solveWorld E L.solver w with libs := (W.solveWorld E L.solver w).libs.set l ⟨L.solver, L.maxNumModes, r.1, r.2, G.arr⟩ })
      hl h3 h5, h4]

/-- C155, what holds: `ModeLibrary(solver, m)` that does not raise is the library of the solver's permittivity at the solver's
wavelength, if `eps_t` was not read before the last change of the permittivity (`hfresh`). -/
theorem C155_build_partial (E : ModeEnv s) (W : World s) (k m : ℕ) (G : GridObj s) (a : SField s)
    (hG : W.grids[k]? = some G) (ha : W.arrays[G.arr]? = some a)
    (hfresh : G.cache = none ∨ G.cache = some (E.avg a)) (hok : (W.exec E (.newLib k m)).2 = .ok ()) :
    ∃ V, idealLib E G.wavelength a (E.avg a) m = .ok V ∧ (W.exec E (.newLib k m)).1.view E W.libs.length = some V := by
  have hc : G.cache.getD (E.avg a) = E.avg a := by rcases hfresh with h | h <;> rw [h] <;> rfl
  obtain ⟨h1, h2, G', h3, h4, -⟩ := World.solveAt_eq (E := E) W k G.wavelength m hG ha
  rw [hc] at h1 h2
  have he : W.exec E (.newLib k m) = match W.solveAt E k G.wavelength m with
      | (W1, .error e) => (W1, .error e)
      | (W1, .ok (b, u, r)) =>
        if World.noModes u then (W1, .error .indexError) else ({ W1 with libs := W1.libs ++ [⟨k, m, b, u, r⟩] }, .ok ()) := by
    simp only [World.exec, hG]
  rw [h1] at he
  unfold idealLib
  cases hr : E.eig G.wavelength a (E.avg a) m with
  | error e =>
    rw [hr] at he
    rw [he] at hok
    cases hok
  | ok r =>
    rw [hr] at he
    have he' : W.exec E (.newLib k m) = if World.noModes r.2 then (W.solveWorld E k G.wavelength, .error .indexError)
        else ({ W.solveWorld E k G.wavelength with libs := (W.solveWorld E k G.wavelength).libs ++ [⟨k, m, r.1, r.2, G.arr⟩] }, .ok ()) := he
    by_cases hn : World.noModes r.2 = true
    · rw [he', if_pos hn] at hok
      cases hok
    · rw [if_neg hn] at he'
      refine ⟨_, rfl, ?_⟩
      rw [he']
      have hl : ((W.solveWorld E k G.wavelength).libs ++ [⟨k, m, r.1, r.2, G.arr⟩])[W.libs.length]? = some ⟨k, m, r.1, r.2, G.arr⟩ := by
        rw [World.solveWorld_libs]
        simp
      have h5 : World.epsTOf E { W.solveWorld E k G.wavelength with libs := (W.solveWorld E k G.wavelength).libs ++ [⟨k, m, r.1, r.2, G.arr⟩] } k
          = some (E.avg a) := h2
      rw [World.view_eq (W := { W.solveWorld E k G.wavelength with libs := (W.solveWorld E k G.wavelength).libs ++ [⟨k, m, r.1, r.2, G.arr⟩] })
        hl h3 h5, h4]

/-- C155: a library that was built has at least one mode. -/
theorem C155_nonempty_partial (E : ModeEnv s) (W : World s) (k m : ℕ) (G : GridObj s) (a : SField s)
    (hG : W.grids[k]? = some G) (ha : W.arrays[G.arr]? = some a)
    (hfresh : G.cache = none ∨ G.cache = some (E.avg a)) :
    (W.exec E (.newLib k m)).2 = .ok () ↔
      ∃ b u, E.eig G.wavelength a (E.avg a) m = .ok (b, u) ∧ u ≠ .inl [] ∧ u ≠ .inr [] := by
  have hc : G.cache.getD (E.avg a) = E.avg a := by rcases hfresh with h | h <;> rw [h] <;> rfl
  obtain ⟨h1, h2, G', h3, h4, -⟩ := World.solveAt_eq (E := E) W k G.wavelength m hG ha
  rw [hc] at h1 h2
  have he : W.exec E (.newLib k m) = match W.solveAt E k G.wavelength m with
      | (W1, .error e) => (W1, .error e)
      | (W1, .ok (b, u, r)) =>
        if World.noModes u then (W1, .error .indexError) else ({ W1 with libs := W1.libs ++ [⟨k, m, b, u, r⟩] }, .ok ()) := by
    simp only [World.exec, hG]
  rw [h1] at he
  cases hr : E.eig G.wavelength a (E.avg a) m with
  | error e =>
    rw [hr] at he
    rw [he]
    constructor
    · intro h; cases h
    · rintro ⟨b, u, h, -⟩; cases h
  | ok r =>
    rw [hr] at he
    have he' : W.exec E (.newLib k m) = if World.noModes r.2 then (W.solveWorld E k G.wavelength, .error .indexError)
        else ({ W.solveWorld E k G.wavelength with libs := (W.solveWorld E k G.wavelength).libs ++ [⟨k, m, r.1, r.2, G.arr⟩] }, .ok ()) := he
    rw [he']
    obtain ⟨b, u⟩ := r
    constructor
    · intro h
      refine ⟨b, u, rfl, ?_, ?_⟩ <;> rintro rfl <;> exact absurd h (by simp [World.noModes])
    · rintro ⟨b', u', h, n1, n2⟩
      injection h with h
      injection h with hb hu
      subst hu
      have : World.noModes u = false := by
        rcases u with (_ | _) | (_ | _) <;> first | rfl | exact absurd rfl n1 | exact absurd rfl n2
      rw [this]; rfl

/-- C155, what holds on two-dimensional cross-sections: solving reads `eps_t`, so after it (`hcache`) the library stays the same
whatever is done to the permittivity and to other libraries, as long as the solver ends at the same wavelength. -/
theorem C155_cached_partial (E : ModeEnv s) (W : World s) (l : ℕ) (L : LibObj s) (G : GridObj s) (t : VField s) (hL : W.libs[l]? = some L)
    (hG : W.grids[L.solver]? = some G) (hcache : G.cache = some t) (cs : List (Act s)) (hcs : ∀ c ∈ cs, ∀ w', c ≠ .update l w')
    (hw : ∀ G', (W.run E cs).grids[L.solver]? = some G' → G'.wavelength = G.wavelength) :
    (W.run E cs).view E l = W.view E l := by
  obtain ⟨G', f1, f2⟩ := World.run_grid (E := E) cs W L.solver hG
  rw [World.view_eq hL hG (World.epsTOf_cached hG hcache),
    World.view_eq (World.run_lib cs W l hL hcs) f1 (World.epsTOf_cached f1 (f2 t hcache)), hw G' f1]

/-- **C155, violated**: libraries of one solver disturb each other. Updating library `l'` to another wavelength `w` (whether it
succeeds or raises) multiplies the effective index of every library of the same solver by `w` over the old wavelength, while its
`beta` stays: `n` no longer belongs to any wavelength it was solved at. -/
theorem C155_shared_counterexample (E : ModeEnv s) (W : World s) (l l' : ℕ) (hne : l' ≠ l) (L L' : LibObj s) (G : GridObj s)
    (a : SField s) (hL : W.libs[l]? = some L) (hL' : W.libs[l']? = some L') (hsame : L'.solver = L.solver)
    (hG : W.grids[L.solver]? = some G) (ha : W.arrays[G.arr]? = some a) (w : ℝ) (i : ℕ) (b : ℝ) (hb : L.betas[i]? = some b) :
    ∃ V V', W.view E l = some V ∧ (W.exec E (.update l' w)).1.view E l = some V' ∧ V.beta i = .ok b ∧ V'.beta i = .ok b ∧
      V.neff i = .ok (b / (2 * Real.pi / G.wavelength)) ∧ V'.neff i = .ok (b / (2 * Real.pi / w)) := by
  obtain ⟨h1, h2, G', h3, h4, -⟩ := World.solveAt_eq (E := E) W L.solver w L'.maxNumModes hG ha
  have hil : i < L.betas.length := (List.getElem?_eq_some_iff.1 hb).1
  have hlib := World.exec_lib (E := E) W (.update l' w) l hL (by intro w' h; injection h with h _; exact hne h)
  have hgr : ∃ libs, (W.exec E (.update l' w)).1 = { W.solveWorld E L.solver w with libs := libs } := by
    have he : W.exec E (.update l' w) = match W.solveAt E L'.solver w L'.maxNumModes with
        | (W1, .error e) => (W1, .error e)
        | (W1, .ok (b, u, r)) =>
          ({ W1 with libs := W1.libs.set l' ⟨L'.solver, L'.maxNumModes, b, u, r⟩ }, if World.noModes u then .error .indexError else .ok ()) := by
      simp only [World.exec, hL']
    rw [hsame, h1] at he
    cases hr : E.eig w a (G.cache.getD (E.avg a)) L'.maxNumModes with
    | error e => rw [hr] at he; rw [he]; exact ⟨(W.solveWorld E L.solver w).libs, rfl⟩
    | ok r => rw [hr] at he; rw [he]; exact ⟨_, rfl⟩
  obtain ⟨libs, hgr⟩ := hgr
  rw [hgr] at hlib ⊢
  have ht : W.epsTOf E L.solver = some (G.cache.getD (E.avg a)) := by
    unfold World.epsTOf World.epsOf
    simp only [hG, Option.bind_eq_bind, Option.bind_some, ha]
    cases G.cache <;> rfl
  have hget : pyGet L.betas (i : ℤ) = .ok b := by
    unfold pyGet
    rw [if_neg (by omega), if_neg (by omega), Int.toNat_natCast, hb]
  refine ⟨_, _, World.view_eq hL hG ht, World.view_eq (W := { W.solveWorld E L.solver w with libs := libs }) hlib h3 h2, ?_, ?_, ?_, ?_⟩
  all_goals
    simp only [ModeLib.beta, ModeLib.neff, ModeLib.check]
    rw [if_neg (by omega)]
  · exact hget
  · exact hget
  · change (pyGet L.betas (i : ℤ) >>= _) = _
    rw [hget]; rfl
  · change (pyGet L.betas (i : ℤ) >>= _) = _
    rw [hget, h4]; rfl

/-- **C155, violated**: an update that raises (the eigensolver fails at `w`) leaves the library with its old `betas` and modes, but
the effective indices are computed with the new wavelength. -/
theorem C155_failed_update_counterexample (E : ModeEnv s) (W : World s) (l : ℕ) (L : LibObj s) (G : GridObj s) (a : SField s)
    (hL : W.libs[l]? = some L) (hG : W.grids[L.solver]? = some G) (ha : W.arrays[G.arr]? = some a) (w : ℝ) (e : PyError)
    (hfail : E.eig w a (G.cache.getD (E.avg a)) L.maxNumModes = .error e) (i : ℕ) (b : ℝ) (hb : L.betas[i]? = some b) :
    (W.exec E (.update l w)).2 = .error e ∧
    ∃ V', (W.exec E (.update l w)).1.view E l = some V' ∧ V'.beta i = .ok b ∧ V'.neff i = .ok (b / (2 * Real.pi / w)) := by
  obtain ⟨h1, h2, G', h3, h4, -⟩ := World.solveAt_eq (E := E) W L.solver w L.maxNumModes hG ha
  have hil : i < L.betas.length := (List.getElem?_eq_some_iff.1 hb).1
  have he : W.exec E (.update l w) = (W.solveWorld E L.solver w, .error e) := by
    have he : W.exec E (.update l w) = match W.solveAt E L.solver w L.maxNumModes with
        | (W1, .error e) => (W1, .error e)
        | (W1, .ok (b, u, r)) =>
          ({ W1 with libs := W1.libs.set l ⟨L.solver, L.maxNumModes, b, u, r⟩ }, if World.noModes u then .error .indexError else .ok ()) := by
      simp only [World.exec, hL]
    rw [he, h1, hfail]
    rfl
  rw [he]
  have hget : pyGet L.betas (i : ℤ) = .ok b := by
    unfold pyGet
    rw [if_neg (by omega), if_neg (by omega), Int.toNat_natCast, hb]
  refine ⟨rfl, _, World.view_eq (W := W.solveWorld E L.solver w) (by rw [World.solveWorld_libs]; exact hL) h3 h2, ?_, ?_⟩
  all_goals
    simp only [ModeLib.beta, ModeLib.neff, ModeLib.check]
    rw [if_neg (by omega)]
  · exact hget
  · change (pyGet L.betas (i : ℤ) >>= _) = _
    rw [hget, h4]; rfl

/-- **C155, violated**: on a two-dimensional cross-section, editing the permittivity after a solve and updating again solves the old
`eps_t`: the eigenproblem and the fields still belong to the permittivity before the edit. -/
theorem C155_edit_counterexample (E : ModeEnv s) (W : World s) (l : ℕ) (w : ℝ) (L : LibObj s) (G : GridObj s) (a : SField s) (t : VField s)
    (hL : W.libs[l]? = some L) (hG : W.grids[L.solver]? = some G) (ha : W.arrays[G.arr]? = some a) (hcache : G.cache = some t)
    (f : SField s → SField s) (b : List ℝ) (u : List (SField s) ⊕ List (VField s)) (hok : E.eig w (f a) t L.maxNumModes = .ok (b, u)) :
    (W.run E [.edit L.solver f, .update l w]).epsOf L.solver = some (f a) ∧
    (W.run E [.edit L.solver f, .update l w]).view E l = some ⟨E.g, 2 * Real.pi / w, t, b, u⟩ := by
  set W1 : World s := { W with arrays := W.arrays.modify G.arr f } with hW1
  have he1 : (W.exec E (.edit L.solver f)).1 = W1 := by simp only [World.exec, hG, hW1]
  have ha1 : W1.arrays[G.arr]? = some (f a) := by
    rw [hW1]
    change (W.arrays.modify G.arr f)[G.arr]? = _
    rw [World.getElem?_modify_some ha, if_pos rfl]
  obtain ⟨h1, h2, G', h3, h4, -⟩ := World.solveAt_eq (E := E) W1 L.solver w L.maxNumModes (G := G) hG ha1
  rw [hcache, Option.getD_some, hok] at h1
  rw [hcache, Option.getD_some] at h2
  have he2 : (W1.exec E (.update l w)).1
      = { W1.solveWorld E L.solver w with libs := (W1.solveWorld E L.solver w).libs.set l ⟨L.solver, L.maxNumModes, b, u, G.arr⟩ } := by
    simp only [World.exec, show W1.libs[l]? = some L from hL, h1]
    rfl
  have hrun : W.run E [.edit L.solver f, .update l w]
      = { W1.solveWorld E L.solver w with libs := (W1.solveWorld E L.solver w).libs.set l ⟨L.solver, L.maxNumModes, b, u, G.arr⟩ } := by
    simp only [World.run]
    rw [he1, he2]
  obtain ⟨G2, g1, g2, -, -⟩ := World.solveWorld_grids (E := E) W1 L.solver w L.solver (G := G) hG
  rw [hrun]
  constructor
  · change ((W1.solveWorld E L.solver w).epsOf L.solver) = _
    unfold World.epsOf
    simp only [g1, Option.bind_eq_bind, Option.bind_some, g2]
    rw [World.solveWorld_arrays]
    exact ha1
  · have hl : ((W1.solveWorld E L.solver w).libs.set l ⟨L.solver, L.maxNumModes, b, u, G.arr⟩)[l]?
        = some ⟨L.solver, L.maxNumModes, b, u, G.arr⟩ := by
      rw [World.solveWorld_libs]
      have : l < W1.libs.length := (List.getElem?_eq_some_iff.1 hL).1
      simp [this]
    rw [World.view_eq (W := { W1.solveWorld E L.solver w with libs := (W1.solveWorld E L.solver w).libs.set l ⟨L.solver, L.maxNumModes, b, u, G.arr⟩ })
      hl h3 h2, h4]

/-! ### C156 -/

/-- The act builds a grid on an existing array. -/
def Act.sharesArray : Act s → Bool
  | .newGridOf _ _ => true
  | .newGridFrom _ _ => true
  | _ => false

/-- Every grid has its own array. -/
def OwnArrays (W : World s) : Prop :=
  (∀ (k : ℕ) (G : GridObj s), W.grids[k]? = some G → G.arr < W.arrays.length) ∧
  ∀ (j k : ℕ) (G H : GridObj s), W.grids[j]? = some G → W.grids[k]? = some H → j ≠ k → G.arr ≠ H.arr

theorem OwnArrays.of_same {W W' : World s} (h : OwnArrays W) (hlen : W.arrays.length ≤ W'.arrays.length)
    (hg : ∀ j : ℕ, (W'.grids[j]?).map GridObj.arr = (W.grids[j]?).map GridObj.arr) : OwnArrays W' := by
  have key : ∀ (j : ℕ) (G : GridObj s), W'.grids[j]? = some G → ∃ H, W.grids[j]? = some H ∧ H.arr = G.arr := by
    intro j G hG
    have := hg j
    rw [hG] at this
    cases hW : W.grids[j]? with
    | none => rw [hW] at this; cases this
    | some H => rw [hW] at this; exact ⟨H, rfl, (Option.some.inj this).symm⟩
  constructor
  · intro k G hG
    obtain ⟨H, h1, h2⟩ := key k G hG
    have := h.1 k H h1
    omega
  · intro j k G H hG hH hjk
    obtain ⟨G1, g1, g2⟩ := key j G hG
    obtain ⟨H1, h1, h2⟩ := key k H hH
    rw [← g2, ← h2]
    exact h.2 j k G1 H1 g1 h1 hjk

theorem OwnArrays.append {W : World s} (h : OwnArrays W) (a : SField s) (w : ℝ) :
    OwnArrays { W with arrays := W.arrays ++ [a], grids := W.grids ++ [⟨W.arrays.length, w, none⟩] } := by
  have key : ∀ (j : ℕ) (G : GridObj s), (W.grids ++ [⟨W.arrays.length, w, none⟩])[j]? = some G →
      W.grids[j]? = some G ∨ (j = W.grids.length ∧ G.arr = W.arrays.length) := by
    intro j G hG
    rcases Nat.lt_trichotomy j W.grids.length with hj | hj | hj
    · rw [List.getElem?_append_left hj] at hG
      exact Or.inl hG
    · subst hj
      simp at hG
      exact Or.inr ⟨rfl, by rw [← hG]⟩
    · rw [List.getElem?_eq_none (by simp; omega)] at hG
      cases hG
  constructor
  · intro k G hG
    have hlen : (W.arrays ++ [a]).length = W.arrays.length + 1 := by simp
    change G.arr < (W.arrays ++ [a]).length
    rcases key k G hG with h1 | ⟨-, h1⟩
    · have := h.1 k G h1; omega
    · omega
  · intro j k G H hG hH hjk
    rcases key j G hG with h1 | ⟨h1, h2⟩ <;> rcases key k H hH with h3 | ⟨h3, h4⟩
    · exact h.2 j k G H h1 h3 hjk
    · have := h.1 j G h1; omega
    · have := h.1 k H h3; omega
    · omega

theorem map_arr_modify (l : List (GridObj s)) (k : ℕ) (f : GridObj s → GridObj s) (hf : ∀ G, (f G).arr = G.arr) (j : ℕ) :
    ((l.modify k f)[j]?).map GridObj.arr = (l[j]?).map GridObj.arr := by
  cases h : l[j]? with
  | none =>
    rw [List.getElem?_eq_none (by rw [List.length_modify]; exact List.getElem?_eq_none_iff.1 h)]
  | some G =>
    rw [World.getElem?_modify_some h]
    split_ifs
    · simp [hf]
    · rfl

theorem map_arr_solve (E : ModeEnv s) (W : World s) (k : ℕ) (w : ℝ) (j : ℕ) :
    ((W.solveWorld E k w).grids[j]?).map GridObj.arr = (W.grids[j]?).map GridObj.arr := by
  unfold World.solveWorld
  dsimp only
  split_ifs
  · exact (map_arr_modify (W.grids.modify k fun G => { G with wavelength := w }) k (fun G => { G with cache := (World.epsTOf E
      ⟨W.arrays, W.grids.modify k fun G => { G with wavelength := w }, W.libs⟩ k) }) (fun _ => rfl) j).trans
      (map_arr_modify W.grids k (fun G => { G with wavelength := w }) (fun _ => rfl) j)
  · exact map_arr_modify W.grids k (fun G => { G with wavelength := w }) (fun _ => rfl) j

theorem OwnArrays.exec {W : World s} (h : OwnArrays W) (E : ModeEnv s) (c : Act s) (hc : c.sharesArray = false) :
    OwnArrays (W.exec E c).1 := by
  cases c with
  | newArray a => exact h.of_same (by simp [World.exec]) fun _ => rfl
  | writeArray r f => exact h.of_same (by simp [World.exec]) fun _ => rfl
  | newGrid e w => exact h.append _ w
  | newGridOf r w => cases hc
  | newGridFrom k w => cases hc
  | edit k f =>
    simp only [World.exec]
    split
    · exact h.of_same (by simp) fun _ => rfl
    · exact h
  | refill k e =>
    have key : ∀ (j : ℕ) (G : GridObj s), (W.grids.modify k fun G => { G with arr := W.arrays.length })[j]? = some G →
        ∃ H, W.grids[j]? = some H ∧ ((j ≠ k ∧ G.arr = H.arr) ∨ (j = k ∧ G.arr = W.arrays.length)) := by
      intro j G hG
      cases hW : W.grids[j]? with
      | none =>
        rw [List.getElem?_eq_none (by rw [List.length_modify]; exact List.getElem?_eq_none_iff.1 hW)] at hG
        cases hG
      | some H =>
        rw [World.getElem?_modify_some hW] at hG
        refine ⟨H, rfl, ?_⟩
        have := Option.some.inj hG
        by_cases hk : k = j
        · rw [if_pos hk] at this; exact Or.inr ⟨hk.symm, by rw [← this]⟩
        · rw [if_neg hk] at this; exact Or.inl ⟨fun e => hk e.symm, by rw [← this]⟩
    have hlen : ∀ x : SField s, (W.arrays ++ [x]).length = W.arrays.length + 1 := fun x => by simp
    constructor
    · intro j G hG
      change G.arr < (W.arrays ++ [fun _ => e]).length
      rw [hlen]
      obtain ⟨H, h1, h2⟩ := key j G hG
      have := h.1 j H h1
      omega
    · intro j j' G H hG hH hjk
      obtain ⟨G1, g1, g2⟩ := key j G hG
      obtain ⟨H1, h1, h2⟩ := key j' H hH
      have a1 := h.1 j G1 g1
      have a2 := h.1 j' H1 h1
      have a3 := h.2 j j' G1 H1 g1 h1 hjk
      omega
  | setWavelength k w => exact h.of_same le_rfl fun j => map_arr_modify W.grids k (fun G => { G with wavelength := w }) (fun _ => rfl) j
  | readEpsT k => exact h.of_same le_rfl fun j => map_arr_modify W.grids k (fun G => { G with cache := W.epsTOf E k }) (fun _ => rfl) j
  | newLib k m =>
    rcases World.newLib_fst (E := E) W k m with e | ⟨w, e | ⟨L', e⟩⟩
    · rw [e]; exact h
    · rw [e]; exact h.of_same (by rw [World.solveWorld_arrays]) (map_arr_solve E W k w)
    · rw [e]; exact h.of_same (by simp only; rw [World.solveWorld_arrays]) (map_arr_solve E W k w)
  | update l' w =>
    rcases World.update_fst (E := E) W l' w with e | ⟨L', -, e | ⟨b, u, r, e⟩⟩
    · rw [e]; exact h
    · rw [e]; exact h.of_same (by rw [World.solveWorld_arrays]) (map_arr_solve E W _ w)
    · rw [e]; exact h.of_same (by simp only; rw [World.solveWorld_arrays]) (map_arr_solve E W _ w)

/-- C156, what holds: in a program that only builds grids from numbers, editing one grid writes that grid's permittivity, and neither
any other grid nor any array of the caller that is not the grid's own changes. -/
theorem C156_numbers_partial (E : ModeEnv s) (cs : List (Act s)) (hcs : ∀ c ∈ cs, c.sharesArray = false) (k : ℕ) (f : SField s → SField s)
    (W : World s) (hW : W = World.run E ⟨[], [], []⟩ cs) (a : SField s) (ha : W.epsOf k = some a) :
    (W.exec E (.edit k f)).1.epsOf k = some (f a) ∧
    (∀ j ≠ k, (W.exec E (.edit k f)).1.epsOf j = W.epsOf j) ∧
    ∀ r, (∀ G, W.grids[k]? = some G → G.arr ≠ r) → (W.exec E (.edit k f)).1.arrays[r]? = W.arrays[r]? := by
  have hown : OwnArrays W := by
    have h0 : OwnArrays (⟨[], [], []⟩ : World s) := ⟨fun k G h => by simp at h, fun j k G H h => by simp at h⟩
    rw [hW]
    clear hW ha a W
    generalize (⟨[], [], []⟩ : World s) = W0 at h0 ⊢
    induction cs generalizing W0 with
    | nil => exact h0
    | cons c cs ih => exact ih (fun d hd => hcs d (by simp [hd])) _ (h0.exec E c (hcs c (by simp)))
  unfold World.epsOf at ha
  cases hG : W.grids[k]? with
  | none => rw [hG] at ha; cases ha
  | some G =>
    simp only [hG, Option.bind_eq_bind, Option.bind_some] at ha
    have he : (W.exec E (.edit k f)).1 = { W with arrays := W.arrays.modify G.arr f } := by simp only [World.exec, hG]
    rw [he]
    have hne : ∀ r, G.arr ≠ r → (W.arrays.modify G.arr f)[r]? = W.arrays[r]? := by
      intro r hr
      rw [List.getElem?_modify]
      simp [hr]
    refine ⟨?_, ?_, ?_⟩
    · unfold World.epsOf
      simp only [hG, Option.bind_eq_bind, Option.bind_some]
      rw [World.getElem?_modify_some ha, if_pos rfl]
    · intro j hj
      unfold World.epsOf
      cases hJ : W.grids[j]? with
      | none => rfl
      | some H =>
        simp only [Option.bind_eq_bind, Option.bind_some]
        exact hne _ (hown.2 k j G H hG hJ (fun e => hj e.symm))
    · intro r hr
      exact hne r (hr G rfl)

/-- C156, what holds: `fill(0, eps)` gives the grid a new array: later edits of it leave all other grids and arrays alone. -/
theorem C156_refill_partial (E : ModeEnv s) (W : World s) (hW : ∀ (j : ℕ) (G : GridObj s), W.grids[j]? = some G → G.arr < W.arrays.length)
    (k : ℕ) (G : GridObj s) (hG : W.grids[k]? = some G) (eps : ℂ) (f : SField s → SField s) :
    (W.run E [.refill k eps, .edit k f]).epsOf k = some (f fun _ => eps) ∧
    (∀ j ≠ k, (W.run E [.refill k eps, .edit k f]).epsOf j = W.epsOf j) ∧
    ∀ r < W.arrays.length, (W.run E [.refill k eps, .edit k f]).arrays[r]? = W.arrays[r]? := by
  have h1 : (W.grids.modify k fun G => { G with arr := W.arrays.length })[k]? = some { G with arr := W.arrays.length } := by
    rw [World.getElem?_modify_some hG, if_pos rfl]
  have hrun : W.run E [.refill k eps, .edit k f] = { W with
      arrays := (W.arrays ++ [fun _ => eps]).modify W.arrays.length f
      grids := W.grids.modify k fun G => { G with arr := W.arrays.length } } := by
    simp only [World.run, World.exec, h1]
  have harr : ∀ r < W.arrays.length, ((W.arrays ++ [fun _ => eps]).modify W.arrays.length f)[r]? = W.arrays[r]? := by
    intro r hr
    rw [List.getElem?_modify, List.getElem?_append_left hr]
    simp [show ¬ W.arrays.length = r by omega]
  rw [hrun]
  refine ⟨?_, ?_, harr⟩
  · unfold World.epsOf
    simp only [h1, Option.bind_eq_bind, Option.bind_some]
    have h2 : (W.arrays ++ [fun _ => eps])[W.arrays.length]? = some fun _ => eps := by simp
    rw [World.getElem?_modify_some h2, if_pos rfl]
  · intro j hj
    unfold World.epsOf
    cases hJ : W.grids[j]? with
    | none =>
      have : (W.grids.modify k fun G => { G with arr := W.arrays.length })[j]? = none :=
        List.getElem?_eq_none (by rw [List.length_modify]; exact List.getElem?_eq_none_iff.1 hJ)
      simp [this]
    | some H =>
      rw [World.getElem?_modify_some hJ, if_neg (fun e => hj e.symm)]
      simp only [Option.bind_eq_bind, Option.bind_some]
      exact harr _ (hW j H hJ)

/-- **C156, violated**: two grids built from one array, or one built from another (`FDFD.from_simgrid`, or `eps=grid.eps`), share it:
editing one edits the other, and the caller's array. -/
theorem C156_shared_counterexample (E : ModeEnv s) (a : SField s) (w w' : ℝ) (f : SField s → SField s) :
    let W := World.run E ⟨[], [], []⟩ [.newArray a, .newGridOf 0 w, .newGridOf 0 w', .edit 0 f]
    let W' := World.run E ⟨[], [], []⟩ [.newArray a, .newGridOf 0 w, .newGridFrom 0 w', .edit 1 f]
    (W.epsOf 1 = some (f a) ∧ W.arrays[0]? = some (f a)) ∧ W'.epsOf 0 = some (f a) := ⟨⟨rfl, rfl⟩, rfl⟩

/-- **C156, violated** in the other direction: the caller's later writes to the array change the grid. -/
theorem C156_caller_counterexample (E : ModeEnv s) (a : SField s) (w : ℝ) (f : SField s → SField s) :
    (World.run E ⟨[], [], []⟩ [.newArray a, .newGridOf 0 w, .writeArray 0 f]).epsOf 0 = some (f a) := rfl

/-! ### Non-vacuity -/

/-- A one-dimensional slab of two cells with an eigensolver that returns one mode: two libraries of one solver (C155). -/
noncomputable def slabEnv : ModeEnv ![2, 1, 1] where
  g := ⟨fun _ => 1, fun _ _ _ => 1⟩
  avg := fun a _ i => a i
  twoD := true
  eig := fun w a _ _ => .ok ([3 / w], .inl [a])

/-- After two libraries were built on one solver at wavelength 1 and the second was moved to wavelength 2, the first has index
`3/(π)` instead of `3/(2π)`. -/
example : ∃ V, (World.run slabEnv ⟨[], [], []⟩ [.newGrid 4 1, .newLib 0 1, .newLib 0 1, .update 1 2]).view slabEnv 0 = some V ∧
    V.beta 0 = .ok 3 ∧ V.neff 0 = .ok (3 / Real.pi) := by
  set W := World.run slabEnv ⟨[], [], []⟩ [.newGrid 4 1, .newLib 0 1, .newLib 0 1] with hW
  have e : World.run slabEnv ⟨[], [], []⟩ [.newGrid 4 1, .newLib 0 1, .newLib 0 1, .update 1 2] = (W.exec slabEnv (.update 1 2)).1 := rfl
  rw [e]
  obtain ⟨V, V', -, h2, -, h4, -, h6⟩ := C155_shared_counterexample slabEnv W 0 1 (by norm_num) ⟨0, 1, [3 / 1], .inl [fun _ => 4], 0⟩
    ⟨0, 1, [3 / 1], .inl [fun _ => 4], 0⟩ ⟨0, 1, some (fun _ _ => 4)⟩ (fun _ => 4) rfl rfl rfl rfl rfl 2 0 (3 / 1) rfl
  refine ⟨V', h2, ?_, ?_⟩
  · simpa using h4
  · rw [Nat.cast_zero] at h6
    rw [h6]
    congr 1
    have := Real.pi_ne_zero
    field_simp

/-- The hypotheses of the partial theorems of C155 are met in this world. -/
example : SolverAt slabEnv (World.run slabEnv ⟨[], [], []⟩ [.newGrid 4 1, .newLib 0 1]) 0 1 (fun _ _ => 4) ∧
    SolverAt slabEnv (World.run slabEnv ⟨[], [], []⟩ [.newGrid 4 1, .newLib 0 1, .newLib 0 1, .update 1 2, .edit 0 (fun a i => a i + 1), .update 1 1]) 0 1
      (fun _ _ => 4) := ⟨⟨_, _, rfl, rfl, rfl, rfl⟩, ⟨_, _, rfl, rfl, rfl, rfl⟩⟩

/-- The hypotheses of `C156_numbers_partial` are met by a program with two grids. -/
example (f : SField ![2, 1, 1] → SField ![2, 1, 1]) :
    ((World.run slabEnv ⟨[], [], []⟩ [.newGrid 4 1, .newGrid 2 1]).exec slabEnv (.edit 0 f)).1.epsOf 1 = some fun _ => 2 :=
  (C156_numbers_partial slabEnv [.newGrid 4 1, .newGrid 2 1] (by simp [Act.sharesArray]) 0 f _ rfl (fun _ => 4) rfl).2.1 1 (by norm_num)

end Simphox
