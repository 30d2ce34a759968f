import Verif.MeshProps
import Verif.UtilsProps
import Mathlib.Analysis.SpecialFunctions.Sqrt
import Mathlib.Analysis.SpecialFunctions.ExpDeriv
import Mathlib.Analysis.Calculus.LocalExtr.Basic
import Mathlib.Analysis.InnerProductSpace.Calculus
import Mathlib.Analysis.Complex.RealDeriv

/-!
# Gradient optimisation of a mesh: `ForwardMesh.matrix_opt` (C148)
-/

namespace Simphox

open Complex

/-! ### Model -/

/-- `1 - |tr(u† û)|² / |tr(û† û)|²`, the argument of the square root of `normalized_error` (utils.py:297-303). -/
noncomputable def errorRadicand {n : ℕ} (u uhat : Matrix (Fin n) (Fin n) ℂ) : ℝ :=
  1 - ‖(u.conjTranspose * uhat).trace‖ ^ 2 / ‖(uhat.conjTranspose * uhat).trace‖ ^ 2

/-- `cost_fn` of `matrix_opt` (forward.py:636-641): `none` is `nan` (division by zero or root of a negative number). The matrix that
`matrix_fn(use_jax=True)` computes is `Mesh.matrix` (`C08`). -/
noncomputable def optCost {n : ℕ} (u : Matrix (Fin n) (Fin n) ℂ) (M : Mesh) (P : Params) : Option ℝ :=
  if ((M.matrix n P false).conjTranspose * M.matrix n P false).trace = 0 then none
  else if errorRadicand u (M.matrix n P false) < 0 then none
  else some (Real.sqrt (errorRadicand u (M.matrix n P false)))

/-- `value_and_grad(cost_fn)` (forward.py:648), JAX's contract: the derivative of the argument of the square root in each phase,
times `1 / (2 sqrt)`. At `sqrt 0` the factor is infinite and the derivative of the argument zero: `nan` in every entry. -/
noncomputable def optGrad {n : ℕ} (u : Matrix (Fin n) (Fin n) ℂ) (M : Mesh) (P : Params) : Option Params :=
  let r := fun Q : Params => errorRadicand u (M.matrix n Q false)
  match optCost u M P with
  | none => none
  | some v => if v = 0 then none else some
      { thetas := fun k => deriv (fun x => r { P with thetas := Function.update P.thetas k x }) (P.thetas k) / (2 * v)
        phis := fun k => deriv (fun x => r { P with phis := Function.update P.phis k x }) (P.phis k) / (2 * v)
        gammas := fun k => deriv (fun x => r { P with gammas := Function.update P.gammas k x }) (P.gammas k) / (2 * v) }

/-- `jax.example_libraries.optimizers` (`adam` at forward.py:643): a state, an update by a gradient, and the current
parameters; `none` for `nan`. -/
structure JaxOptimizer (S : Type) where
  init : Params → S
  update : ℕ → Option Params → S → S
  get : S → Option Params

/-- Contract of the optimiser: it starts from the given parameters, and a gradient that is `nan` in every entry makes every
parameter `nan` (its arithmetic is entrywise). -/
structure JaxOptimizer.Lawful {S : Type} (opt : JaxOptimizer S) : Prop where
  get_init : ∀ P, opt.get (opt.init P) = some P
  nan : ∀ i s, opt.get (opt.update i none s) = none

/-- `update_fn(i, state)` (forward.py:647-649): the value and the next state. -/
noncomputable def optUpdateFn {S : Type} {n : ℕ} (opt : JaxOptimizer S) (u : Matrix (Fin n) (Fin n) ℂ) (M : Mesh) (i : ℕ) (s : S) :
    Option ℝ × S :=
  ((opt.get s).bind (optCost u M), opt.update i ((opt.get s).bind (optGrad u M)) s)

/-- `init` (forward.py:644-645): the parameters of the mesh unless others are given. -/
noncomputable def optInit {S : Type} (opt : JaxOptimizer S) (meshParams : Params) (params : Option Params) : S := opt.init (params.getD meshParams)

/-- The states of `for i in range(...): value, state = update_fn(i, state)`. -/
noncomputable def optState {S : Type} {n : ℕ} (opt : JaxOptimizer S) (u : Matrix (Fin n) (Fin n) ℂ) (M : Mesh) (s0 : S) : ℕ → S
  | 0 => s0
  | i + 1 => (optUpdateFn opt u M i (optState opt u M s0 i)).2

/-- The value returned at step `i`. -/
noncomputable def optValue {S : Type} {n : ℕ} (opt : JaxOptimizer S) (u : Matrix (Fin n) (Fin n) ℂ) (M : Mesh) (s0 : S) (i : ℕ) : Option ℝ :=
  (optUpdateFn opt u M i (optState opt u M s0 i)).1

/-! ### Differentiability of the mesh -/

/-- A differentiable path of phases. -/
structure SmoothPath (P : ℝ → Params) : Prop where
  thetas : ∀ k, Differentiable ℝ fun t => (P t).thetas k
  phis : ∀ k, Differentiable ℝ fun t => (P t).phis k
  gammas : ∀ k, Differentiable ℝ fun t => (P t).gammas k

theorem smooth_ofReal {f : ℝ → ℝ} (h : Differentiable ℝ f) : Differentiable ℝ fun t => ((f t : ℝ) : ℂ) :=
  fun t => ((h t).hasDerivAt.ofReal_comp).differentiableAt

theorem mziElements_smooth (style : PhaseStyle) (back : Bool) (el er ll lr : ℝ) {th ph : ℝ → ℝ} (h1 : Differentiable ℝ th)
    (h2 : Differentiable ℝ ph) :
    (Differentiable ℝ fun t => (mziElements style back el er ll lr (th t) (ph t)).t11) ∧
    (Differentiable ℝ fun t => (mziElements style back el er ll lr (th t) (ph t)).t12) ∧
    (Differentiable ℝ fun t => (mziElements style back el er ll lr (th t) (ph t)).t21) ∧
    (Differentiable ℝ fun t => (mziElements style back el er ll lr (th t) (ph t)).t22) := by
  have a := smooth_ofReal h1
  have b := smooth_ofReal h2
  cases style <;> simp only [mziElements] <;> refine ⟨?_, ?_, ?_, ?_⟩ <;> fun_prop

theorem scatter_smooth (l : List (ℕ × (ℝ → ℂ))) (v : ℝ → ℕ → ℂ) (hv : ∀ r, Differentiable ℝ fun t => v t r)
    (hl : ∀ p ∈ l, Differentiable ℝ p.2) (r : ℕ) :
    Differentiable ℝ fun t => scatter (v t) (l.map fun p => (p.1, p.2 t)) r := by
  induction l generalizing v with
  | nil => exact hv r
  | cons p l ih =>
    refine ih (fun t => Function.update (v t) p.1 (p.2 t)) (fun q => ?_) fun q hq => hl q (List.mem_cons_of_mem _ hq)
    by_cases h : q = p.1
    · subst h
      simpa using hl p List.mem_cons_self
    · simpa [Function.update_of_ne h] using hv q

/-- Elements that depend differentiably on the parameter. -/
def SmoothElements (el : ℝ → ℕ → Elements) : Prop :=
  ∀ k, (Differentiable ℝ fun t => (el t k).t11) ∧ (Differentiable ℝ fun t => (el t k).t12) ∧ (Differentiable ℝ fun t => (el t k).t21) ∧
    (Differentiable ℝ fun t => (el t k).t22)

theorem parallelTransform_smooth {el : ℝ → ℕ → Elements} (he : SmoothElements el) (nodes : List Node) (v : ℝ → ℕ → ℂ)
    (hv : ∀ r, Differentiable ℝ fun t => v t r) (r : ℕ) : Differentiable ℝ fun t => parallelTransform (el t) nodes (v t) r := by
  have key := scatter_smooth
    (nodes.map (fun a => (a.top, fun t => (el t a.id).t11 * v t a.top + (el t a.id).t21 * v t a.bottom)) ++
      nodes.map (fun a => (a.bottom, fun t => (el t a.id).t12 * v t a.top + (el t a.id).t22 * v t a.bottom))) v hv (by
        intro p hp
        rcases List.mem_append.1 hp with hp | hp
        · obtain ⟨a, _, rfl⟩ := List.mem_map.1 hp
          exact ((he a.id).1.mul (hv _)).add ((he a.id).2.2.1.mul (hv _))
        · obtain ⟨a, _, rfl⟩ := List.mem_map.1 hp
          exact ((he a.id).2.1.mul (hv _)).add ((he a.id).2.2.2.mul (hv _))) r
  simp only [List.map_append, List.map_map, Function.comp_def] at key
  exact key

theorem columnsApply_smooth {el : ℝ → ℕ → Elements} (he : SmoothElements el) (nodes : List Node) (cols : List ℕ) (v : ℝ → ℕ → ℂ)
    (hv : ∀ r, Differentiable ℝ fun t => v t r) (r : ℕ) : Differentiable ℝ fun t => columnsApply (el t) nodes cols (v t) r := by
  induction cols generalizing v with
  | nil => exact hv r
  | cons k cols ih => exact ih (fun t => parallelTransform (el t) (columnNodes nodes k) (v t)) fun q => parallelTransform_smooth he _ v hv q

theorem matrix_smooth (n : ℕ) (M : Mesh) {P : ℝ → Params} (hP : SmoothPath P) (i j : Fin n) :
    Differentiable ℝ fun t => M.matrix n (P t) false i j := by
  have he : SmoothElements fun t => M.elements (P t) false := fun k => mziElements_smooth _ _ _ _ _ _ (hP.thetas k) (hP.phis k)
  have hg := smooth_ofReal (hP.gammas i.val)
  have hc := columnsApply_smooth he M.nodes (columnOrder M.nodes false) (fun _ r => if r = j.val then 1 else 0) (fun r => by fun_prop) i.val
  have : (fun t => M.matrix n (P t) false i j) = fun t => exp (I * ((P t).gammas i.val : ℝ)) *
      columnsApply (M.elements (P t) false) M.nodes (columnOrder M.nodes false) (fun r => if r = j.val then 1 else 0) i.val := rfl
  rw [this]
  fun_prop

theorem norm_sq_smooth {f : ℝ → ℂ} (h : Differentiable ℝ f) : Differentiable ℝ fun t => ‖f t‖ ^ 2 := h.norm_sq ℂ

/-- The argument of the square root is differentiable in the phases of a lossless mesh. -/
theorem radicand_smooth {n : ℕ} (u : Matrix (Fin n) (Fin n) ℂ) (M : Mesh) (hM : M.WellFormed n) (hl : M.Lossless) {P : ℝ → Params}
    (hP : SmoothPath P) : Differentiable ℝ fun t => errorRadicand u (M.matrix n (P t) false) := by
  have hden : ∀ t, ((M.matrix n (P t) false).conjTranspose * M.matrix n (P t) false).trace = n := by
    intro t
    have := C06_lossless_unitary n M hM hl (P t) false
    rw [← Matrix.star_eq_conjTranspose, (Unitary.mem_iff.1 this).1, Matrix.trace_one, Fintype.card_fin]
  unfold errorRadicand
  simp only [hden]
  have h1 : ∀ t, (u.conjTranspose * M.matrix n (P t) false).trace = ∑ i, ∑ j, (starRingEnd ℂ) (u j i) * M.matrix n (P t) false j i := by
    intro t
    rfl
  simp only [h1]
  have h2 : Differentiable ℝ fun t => ∑ i, ∑ j, (starRingEnd ℂ) (u j i) * M.matrix n (P t) false j i := by
    refine Differentiable.fun_sum fun i _ => Differentiable.fun_sum fun j _ => ?_
    exact (matrix_smooth n M hP j i).const_mul _
  have h3 := norm_sq_smooth h2
  exact ((h3.div_const _).const_sub 1)

/-! ### The cost of lossless meshes -/

section Lossless

variable {n : ℕ} (hn : 0 < n) (u : Matrix (Fin n) (Fin n) ℂ) (hu : u ∈ Matrix.unitaryGroup (Fin n) ℂ) (M : Mesh) (hM : M.WellFormed n) (hl : M.Lossless)
include hn hu hM hl

theorem radicand_nonneg (P : Params) : 0 ≤ errorRadicand u (M.matrix n P false) := by
  have hU := C06_lossless_unitary n M hM hl P false
  have hden : ((M.matrix n P false).conjTranspose * M.matrix n P false).trace = n := by
    rw [← Matrix.star_eq_conjTranspose, (Unitary.mem_iff.1 hU).1, Matrix.trace_one, Fintype.card_fin]
  obtain ⟨_, _, _⟩ := C29_normalized_error n hn u _ hu hU
  by_contra hneg
  push Not at hneg
  unfold errorRadicand at hneg
  rw [hden] at hneg
  have hfl := flat_norm hu
  have hfl2 := flat_norm hU
  have hin := norm_inner_le_norm (𝕜 := ℂ) (flat u) (flat (M.matrix n P false))
  have htr : inner ℂ (flat u) (flat (M.matrix n P false)) = (u.conjTranspose * M.matrix n P false).trace := by
    rw [← trace_eq_inner]
  rw [htr] at hin
  have hn' : (0 : ℝ) < n := by exact_mod_cast hn
  have h1 : ‖(u.conjTranspose * M.matrix n P false).trace‖ ^ 2 ≤ (n : ℝ) ^ 2 := by
    calc _ ≤ (‖flat u‖ * ‖flat (M.matrix n P false)‖) ^ 2 := by gcongr
      _ = ‖flat u‖ ^ 2 * ‖flat (M.matrix n P false)‖ ^ 2 := by ring
      _ = (n : ℝ) ^ 2 := by rw [hfl, hfl2]; ring
  rw [Complex.norm_natCast, sub_neg, one_lt_div (by positivity)] at hneg
  linarith

theorem optCost_eq (P : Params) : optCost u M P = some (normalizedError u (M.matrix n P false)) := by
  have hU := C06_lossless_unitary n M hM hl P false
  have hden : ((M.matrix n P false).conjTranspose * M.matrix n P false).trace = n := by
    rw [← Matrix.star_eq_conjTranspose, (Unitary.mem_iff.1 hU).1, Matrix.trace_one, Fintype.card_fin]
  unfold optCost
  rw [if_neg (by rw [hden]; exact_mod_cast hn.ne'), if_neg (not_lt.2 (radicand_nonneg hn u hu M hM hl P))]
  rfl

/-- C148: as long as the phases are numbers, the value returned by `update_fn` is the normalized error of the matrix of the mesh at the
phases *before* the update, between 0 and 1, and zero exactly when the mesh implements the target up to a global phase. For every
mesh without losses (with any splitting errors), target, optimiser, initial phases and step. -/
theorem C148_value_partial {S : Type} (opt : JaxOptimizer S) (s0 : S) (i : ℕ) (P : Params) (hP : opt.get (optState opt u M s0 i) = some P) :
    ∃ v, optValue opt u M s0 i = some v ∧ v = normalizedError u (M.matrix n P false) ∧ 0 ≤ v ∧ v ≤ 1 ∧
      (v = 0 ↔ ∃ c : ℂ, ‖c‖ = 1 ∧ M.matrix n P false = c • u) := by
  have hU := C06_lossless_unitary n M hM hl P false
  obtain ⟨⟨h1, h2⟩, h3, _⟩ := C29_normalized_error n hn u _ hu hU
  refine ⟨_, ?_, rfl, h1, h2, h3⟩
  unfold optValue optUpdateFn
  rw [hP]
  exact optCost_eq hn u hu M hM hl P

/-- C148: the gradient given to the optimiser is exact: unless the error is zero, every entry is the derivative of the error with
respect to that phase. -/
theorem C148_gradient_partial (P : Params) (hne : normalizedError u (M.matrix n P false) ≠ 0) :
    ∃ g, optGrad u M P = some g ∧ ∀ k,
      HasDerivAt (fun x => normalizedError u (M.matrix n { P with thetas := Function.update P.thetas k x } false)) (g.thetas k) (P.thetas k) ∧
      HasDerivAt (fun x => normalizedError u (M.matrix n { P with phis := Function.update P.phis k x } false)) (g.phis k) (P.phis k) ∧
      HasDerivAt (fun x => normalizedError u (M.matrix n { P with gammas := Function.update P.gammas k x } false)) (g.gammas k) (P.gammas k) := by
  refine ⟨_, by unfold optGrad; rw [optCost_eq hn u hu M hM hl P]; dsimp only; rw [if_neg hne], fun k => ?_⟩
  have hup : ∀ (f : ℕ → ℝ) (q : ℕ), Differentiable ℝ fun x => Function.update f k x q := by
    intro f q
    by_cases h : q = k
    · subst h; simp
    · simp [Function.update_of_ne h]
  have key : ∀ (path : ℝ → Params) (x0 : ℝ), SmoothPath path → path x0 = P →
      HasDerivAt (fun x => normalizedError u (M.matrix n (path x) false))
        (deriv (fun x => errorRadicand u (M.matrix n (path x) false)) x0 / (2 * normalizedError u (M.matrix n P false))) x0 := by
    intro path x0 hp h0
    have hd := (radicand_smooth u M hM hl hp x0).hasDerivAt
    have hr : errorRadicand u (M.matrix n (path x0) false) ≠ 0 := by
      rw [h0]
      intro hz
      apply hne
      change Real.sqrt (errorRadicand u (M.matrix n P false)) = 0
      rw [hz, Real.sqrt_zero]
    have := hd.sqrt hr
    rw [h0] at this
    exact this
  refine ⟨key (fun x => { P with thetas := Function.update P.thetas k x }) _ ⟨hup _, fun _ => differentiable_const _, fun _ => differentiable_const _⟩ ?_,
    key (fun x => { P with phis := Function.update P.phis k x }) _ ⟨fun _ => differentiable_const _, hup _, fun _ => differentiable_const _⟩ ?_,
    key (fun x => { P with gammas := Function.update P.gammas k x }) _ ⟨fun _ => differentiable_const _, fun _ => differentiable_const _, hup _⟩ ?_⟩ <;>
  · simp only [Function.update_eq_self]

/-- C148: the first value is the error of the given phases, or of the phases of the mesh when none are given. -/
theorem C148_start_partial {S : Type} (opt : JaxOptimizer S) (ho : opt.Lawful) (meshParams : Params) (params : Option Params) :
    optValue opt u M (optInit opt meshParams params) 0 = some (normalizedError u (M.matrix n (params.getD meshParams) false)) := by
  obtain ⟨v, h1, h2, _⟩ := C148_value_partial hn u hu M hM hl opt (optInit opt meshParams params) 0 (params.getD meshParams) (ho.get_init _)
  rw [h1, h2]

/-- At a solution the derivative of the argument of the square root is zero in every direction: `0 · ∞` is `nan`. -/
theorem radicand_critical (P : ℝ → Params) (hP : SmoothPath P) (x0 : ℝ) (h0 : normalizedError u (M.matrix n (P x0) false) = 0) :
    HasDerivAt (fun x => errorRadicand u (M.matrix n (P x) false)) 0 x0 := by
  have hz : errorRadicand u (M.matrix n (P x0) false) = 0 := by
    have h := (Real.sqrt_eq_zero (radicand_nonneg hn u hu M hM hl (P x0))).1 h0
    exact h
  have hmin : IsLocalMin (fun x => errorRadicand u (M.matrix n (P x) false)) x0 :=
    Filter.Eventually.of_forall fun x => by
      change errorRadicand u (M.matrix n (P x0) false) ≤ errorRadicand u (M.matrix n (P x) false)
      rw [hz]; exact radicand_nonneg hn u hu M hM hl (P x)
  have hd := (radicand_smooth u M hM hl hP x0).hasDerivAt
  have := hmin.hasDerivAt_eq_zero hd
  rwa [this] at hd

/-- **C148, violated**: started at phases that implement the target up to a global phase (or once it reaches such phases), the
optimiser returns the value 0 once and `nan` for ever after. For every mesh, target and optimiser. -/
theorem C148_solution_counterexample {S : Type} (opt : JaxOptimizer S) (ho : opt.Lawful) (s0 : S) (i : ℕ) (P : Params)
    (hP : opt.get (optState opt u M s0 i) = some P) (hsol : ∃ c : ℂ, ‖c‖ = 1 ∧ M.matrix n P false = c • u) :
    optValue opt u M s0 i = some 0 ∧ ∀ j > i, opt.get (optState opt u M s0 j) = none ∧ optValue opt u M s0 j = none := by
  obtain ⟨v, h1, h2, _, _, h5⟩ := C148_value_partial hn u hu M hM hl opt s0 i P hP
  have hv : v = 0 := h5.2 hsol
  subst hv
  refine ⟨h1, ?_⟩
  have hg : optGrad u M P = none := by
    unfold optGrad
    rw [optCost_eq hn u hu M hM hl P, ← h2]
    simp
  have hstep : ∀ j, opt.get (optState opt u M s0 (i + 1 + j)) = none := by
    intro j
    induction j with
    | zero =>
      change opt.get (opt.update i ((opt.get (optState opt u M s0 i)).bind (optGrad u M)) _) = none
      rw [hP, Option.bind_some, hg]
      exact ho.nan _ _
    | succ j ih =>
      change opt.get (opt.update (i + 1 + j) ((opt.get (optState opt u M s0 (i + 1 + j))).bind (optGrad u M)) _) = none
      rw [ih]
      exact ho.nan _ _
  intro j hj
  have hj' := hstep (j - (i + 1))
  rw [show i + 1 + (j - (i + 1)) = j by omega] at hj'
  refine ⟨hj', ?_⟩
  unfold optValue optUpdateFn
  rw [hj']
  rfl

end Lossless

/-! ### Meshes with losses -/

/-- One node on two rails in the symmetric phase style with the same loss (in dB) on both outputs. -/
def lossyPair (l : ℝ) : Mesh :=
  { nodes := [{ id := 0, top := 0, bottom := 1, n := 2, alpha := 1, beta := 1, column := 0 }], errors := [(0, 0)], losses := [(0, l)],
    style := .symmetric }

theorem lossyPair_elements (l : ℝ) (P : Params) :
    (lossyPair l).elements P false 0 =
      { t11 := (Real.exp (Real.log 10 * l / 20) : ℝ) * ((lossyPair 0).elements P false 0).t11
        t12 := (Real.exp (Real.log 10 * l / 20) : ℝ) * ((lossyPair 0).elements P false 0).t12
        t21 := (Real.exp (Real.log 10 * l / 20) : ℝ) * ((lossyPair 0).elements P false 0).t21
        t22 := (Real.exp (Real.log 10 * l / 20) : ℝ) * ((lossyPair 0).elements P false 0).t22 } := by
  have hs : ∀ z : ℂ, exp (z + ((Real.log 10 * l / 20 : ℝ) : ℂ)) = (Real.exp (Real.log 10 * l / 20) : ℝ) * exp z := by
    intro z
    rw [Complex.exp_add, Complex.ofReal_exp, mul_comm]
  have h0 : ∀ z : ℂ, exp (z + ((Real.log 10 * 0 / 20 : ℝ) : ℂ)) = exp z := by
    intro z
    simp
  unfold Mesh.elements mziElements lossyPair
  simp only [List.getD_cons_zero, hs, h0]
  congr 1 <;> ring

theorem lossyPair_apply (l : ℝ) (P : Params) (v : ℕ → ℂ) (r : ℕ) : (lossyPair l).apply P false v r = exp (I * P.gammas r) *
    parallelTransform ((lossyPair l).elements P false) [{ id := 0, top := 0, bottom := 1, n := 2, alpha := 1, beta := 1, column := 0 }] v r := rfl

theorem lossyPair_scale (l : ℝ) (P : Params) :
    (lossyPair l).matrix 2 P false = ((Real.exp (Real.log 10 * l / 20) : ℝ) : ℂ) • (lossyPair 0).matrix 2 P false := by
  ext i j
  simp only [Mesh.matrix, Matrix.of_apply, Matrix.smul_apply, smul_eq_mul, lossyPair_apply, parallelTransform, columnWrites, scatter, List.map_cons,
    List.map_nil, List.cons_append, List.nil_append, List.foldl_cons, List.foldl_nil, lossyPair_elements l P]
  generalize (lossyPair 0).elements P false 0 = e
  generalize ((Real.exp (Real.log 10 * l / 20) : ℝ) : ℂ) = c
  fin_cases i
  · simp only [Fin.zero_eta, Fin.val_zero, Function.update_of_ne (Nat.zero_ne_one), Function.update_self]
    ring
  · simp only [Fin.mk_one, Fin.val_one, Function.update_self]
    ring

/-- **C148, violated for lossy meshes**: a mesh whose matrix is the target apart from a common loss has no error at all: the
value is `nan` from the start. For every loss (negative dB) and all phases. -/
theorem C148_lossy_counterexample {S : Type} (opt : JaxOptimizer S) (ho : opt.Lawful) (l : ℝ) (hl : l < 0) (P : Params) :
    (lossyPair l).WellFormed 2 ∧ (lossyPair 0).matrix 2 P false ∈ Matrix.unitaryGroup (Fin 2) ℂ ∧
    optValue opt ((lossyPair 0).matrix 2 P false) (lossyPair l) (opt.init P) 0 = none := by
  have hw : ∀ l, (lossyPair l).WellFormed 2 := fun l =>
    { errors_length := rfl, losses_length := rfl
      ids := by intro a ha; simp only [lossyPair, List.mem_singleton] at ha; subst ha; exact Nat.one_pos
      rails := by intro a ha; simp only [lossyPair, List.mem_singleton] at ha; subst ha; decide
      disjoint := by simp [ColumnsDisjoint, lossyPair] }
  have hU : (lossyPair 0).matrix 2 P false ∈ Matrix.unitaryGroup (Fin 2) ℂ :=
    C06_lossless_unitary 2 (lossyPair 0) (hw 0) (by intro p hp; simp only [lossyPair, List.mem_singleton] at hp; exact hp) P false
  refine ⟨hw l, hU, ?_⟩
  set U := (lossyPair 0).matrix 2 P false
  set s : ℝ := Real.exp (Real.log 10 * l / 20) with hsd
  have hs0 : 0 < s := Real.exp_pos _
  have hs1 : s < 1 := by
    rw [hsd, Real.exp_lt_one_iff]
    have := Real.log_pos (by norm_num : (1 : ℝ) < 10)
    nlinarith
  have hUU : (U.conjTranspose * U).trace = 2 := by
    rw [← Matrix.star_eq_conjTranspose, (Unitary.mem_iff.1 hU).1, Matrix.trace_one, Fintype.card_fin]
    norm_num
  have hm : (lossyPair l).matrix 2 P false = (s : ℂ) • U := lossyPair_scale l P
  have e1 : (((s : ℂ) • U).conjTranspose * ((s : ℂ) • U)).trace = (s : ℂ) ^ 2 * 2 := by
    rw [Matrix.conjTranspose_smul, Matrix.smul_mul, Matrix.mul_smul, Matrix.trace_smul, Matrix.trace_smul, hUU]
    simp
    ring
  have e2 : (U.conjTranspose * ((s : ℂ) • U)).trace = (s : ℂ) * 2 := by
    rw [Matrix.mul_smul, Matrix.trace_smul, hUU, smul_eq_mul]
  unfold optValue optUpdateFn
  change (opt.get (opt.init P)).bind _ = none
  rw [ho.get_init, Option.bind_some]
  unfold optCost
  rw [hm, e1, if_neg (by simpa using hs0.ne'), if_pos]
  unfold errorRadicand
  rw [e1, e2]
  simp only [norm_mul, norm_pow, Complex.norm_real, Complex.norm_ofNat, Real.norm_eq_abs, abs_of_pos hs0]
  rw [sub_neg, one_lt_div (by positivity)]
  have h2 : s ^ 2 < s := by nlinarith
  have h3 : s ^ 2 * 2 < s * 2 := by linarith
  exact pow_lt_pow_left₀ h3 (by positivity) (by norm_num)

/-- Optimisers as assumed exist: gradient descent. -/
noncomputable def gradientDescent (step : ℝ) : JaxOptimizer (Option Params) where
  init := some
  update := fun _ g s => s.bind fun P => g.map fun g =>
    ⟨fun k => P.thetas k - step * g.thetas k, fun k => P.phis k - step * g.phis k, fun k => P.gammas k - step * g.gammas k⟩
  get := id

example (step : ℝ) : (gradientDescent step).Lawful :=
  ⟨fun _ => rfl, fun _ s => by cases s <;> rfl⟩

/-- A lossless mesh of one node at its own matrix meets the hypotheses of the counterexample at a solution. -/
example (P : Params) : ∃ c : ℂ, ‖c‖ = 1 ∧ (lossyPair 0).matrix 2 P false = c • (lossyPair 0).matrix 2 P false := ⟨1, by simp, by simp⟩

end Simphox
