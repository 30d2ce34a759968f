import Verif.ModeFundamental
import Mathlib.LinearAlgebra.LinearIndependent.Lemmas

/-! # Which modes `ModeSolver.solve` looks for (C157, C158)

`Mode.solvePost` models what `solve` does with eigenpairs. Here is the part before: which eigenpairs it asks the eigensolvers for. -/

namespace Simphox

open Complex

/-- The argument `beta_guess` (mode.py:156): absent, a `float`, a tuple, or anything else (an `int`, a list, an array). -/
inductive BetaGuess where
  | none
  | float (b : ℝ)
  | tuple (l : List ℝ)
  | other

/-- What MKL's FEAST routine leaves behind (mkl.py:255-283): the arrays `e` and `x` (as a list of columns), the number `m` of
eigenpairs found, the status `info`, and the number of perturbed pivots. -/
structure FeastOut (V : Type) where
  e : List ℝ
  x : List V
  m : ℕ
  info : ℤ
  pivots : ℕ

/-- `feast_eigs` (mkl.py:226-294, 309-310): raises on any nonzero status, else returns the whole arrays. Simplified: the dtype checks
of mkl.py:227-238 pass. -/
def feastEigs {V : Type} (mkl : ℝ → ℝ → ℕ → FeastOut V) (emin emax : ℝ) (k : ℕ) : Except PyError (List ℝ × List V × ℕ) :=
  let o := mkl emin emax k
  if 0 < o.pivots then .error .runtimeError
  else if o.info ≠ 0 then .error .runtimeError
  else .ok (o.e, o.x, o.m)

/-- `ModeSolver.solve(max_num_modes, beta_guess)` (mode.py:179-206) with the largest permittivity `maxEps` of the grid: `eigs` is
SciPy's shift-invert eigensolver as a function of `sigma` and `k`. -/
noncomputable def modeSolve {V ι : Type} (eigs : ℝ → ℕ → Except PyError (List ℂ × List V)) (mkl : ℝ → ℝ → ℕ → FeastOut V)
    (argsort : List ℝ → List ℕ) (full : ℂ → V → ι → ℂ) (i0 : ι) (v0 : V) (k0 maxEps : ℝ) (m : ℕ) :
    BetaGuess → Except PyError (List ℝ × List (ι → ℂ))
  | .none => do
    let r ← eigs ((k0 * Real.sqrt maxEps) ^ 2) m
    solvePost argsort full i0 v0 r.1 r.2
  | .float b => do
    let r ← eigs (if b = 0 then (k0 * Real.sqrt maxEps) ^ 2 else b ^ 2) m
    solvePost argsort full i0 v0 r.1 r.2
  | .tuple (lo :: hi :: _) => do
    let r ← feastEigs mkl (lo ^ 2) (hi ^ 2) m
    solvePost argsort full i0 v0 (r.1.map Complex.ofReal) r.2.1
  | .tuple _ => .error .indexError
  | .other => .error .typeError

/-! ### Contracts of the eigensolvers -/

variable {V : Type} [AddCommGroup V] [Module ℂ V]

/-- ARPACK in shift-invert mode: `k` linearly independent eigenpairs, the closest ones to `sigma`: an eigenvector that they do not
span has an eigenvalue at least as far away. -/
structure IsEigs (A : V → V) (sigma : ℝ) (k : ℕ) (vals : List ℂ) (vecs : List V) : Prop where
  vals_length : vals.length = k
  vecs_length : vecs.length = k
  eigen : ∀ j < k, A (vecs.getD j 0) = vals.getD j 0 • vecs.getD j 0
  indep : LinearIndependent ℂ fun j : Fin k => vecs.getD j 0
  closest : ∀ (mu : ℂ) (u : V), A u = mu • u → u ∉ Submodule.span ℂ {v | v ∈ vecs} → ∀ z ∈ vals, ‖z - sigma‖ ≤ ‖mu - sigma‖

/-- FEAST as documented by MKL: on success the first `m ≤ k` entries are linearly independent eigenpairs with eigenvalues in the
interval that span all eigenvectors with eigenvalues in it; nothing is said about the entries from `m` on. An empty interval, an
interval without eigenvalues (status 1) and one with more than `k` (status 3) are reported by the status. -/
structure IsFeast (A : V → V) (emin emax : ℝ) (k : ℕ) (o : FeastOut V) : Prop where
  e_length : o.e.length = k
  x_length : o.x.length = k
  m_le : o.m ≤ k
  eigen : o.info = 0 → ∀ j < o.m, A (o.x.getD j 0) = (o.e.getD j 0 : ℂ) • o.x.getD j 0 ∧ emin ≤ o.e.getD j 0 ∧ o.e.getD j 0 ≤ emax
  indep : o.info = 0 → LinearIndependent ℂ fun j : Fin o.m => o.x.getD j 0
  complete : o.info = 0 → ∀ (mu : ℝ) (u : V), A u = (mu : ℂ) • u → emin ≤ mu → mu ≤ emax → u ∈ Submodule.span ℂ {v | v ∈ o.x.take o.m}
  empty : emax ≤ emin → o.info ≠ 0
  nothing : (∀ (mu : ℝ) (u : V), A u = (mu : ℂ) • u → emin ≤ mu → mu ≤ emax → u = 0) → o.info ≠ 0
  many : ∀ u : Fin (k + 1) → V, LinearIndependent ℂ u → (∀ j, ∃ mu : ℝ, A (u j) = (mu : ℂ) • u j ∧ emin ≤ mu ∧ mu ≤ emax) → o.info ≠ 0

/-! ### Lemmas -/

/-- An eigenvector in the span of independent eigenvectors is in the span of those with the same eigenvalue. -/
theorem eigen_span {k : ℕ} (A : V →ₗ[ℂ] V) (v : Fin k → V) (lam : Fin k → ℂ) (hv : LinearIndependent ℂ v) (he : ∀ j, A (v j) = lam j • v j)
    (mu : ℂ) (u : V) (hu : A u = mu • u) (hin : u ∈ Submodule.span ℂ (Set.range v)) :
    u ∈ Submodule.span ℂ {w | ∃ j, lam j = mu ∧ w = v j} := by
  obtain ⟨c, rfl⟩ := (Submodule.mem_span_range_iff_exists_fun ℂ).1 hin
  have h0 : ∑ j, (c j * (lam j - mu)) • v j = 0 := by
    rw [map_sum, Finset.smul_sum] at hu
    have : ∑ j, (c j * (lam j - mu)) • v j = ∑ j, A (c j • v j) - ∑ j, mu • c j • v j := by
      rw [← Finset.sum_sub_distrib]
      refine Finset.sum_congr rfl fun j _ => ?_
      rw [map_smul, he, smul_smul, smul_smul, ← sub_smul]
      congr 1
      ring
    rw [this, hu, sub_self]
  have h1 := Fintype.linearIndependent_iff.1 hv _ h0
  refine Submodule.sum_mem _ fun j _ => ?_
  by_cases h : lam j = mu
  · exact Submodule.smul_mem _ _ (Submodule.subset_span ⟨j, h, rfl⟩)
  · have : c j = 0 := by
      rcases mul_eq_zero.1 (h1 j) with h2 | h2
      · exact h2
      · exact absurd (sub_eq_zero.1 h2) h
    rw [this, zero_smul]
    exact Submodule.zero_mem _

/-- Rephasing does not change the span. -/
theorem rephase_span {ι : Type} (i0 : ι) (h : ι → ℂ) (S : Set (ι → ℂ)) (hin : rephase i0 h ∈ S) : h ∈ Submodule.span ℂ S := by
  have h1 : h = exp (I * arg (h i0)) • rephase i0 h := by
    funext i
    simp only [rephase, Pi.smul_apply, smul_eq_mul]
    rw [mul_comm (h i), ← mul_assoc, ← exp_add]
    simp
  rw [h1]
  exact Submodule.smul_mem _ _ (Submodule.subset_span hin)

/-- What `solvePost` returns, when it returns. -/
theorem solvePost_modes {W ι : Type} (argsort : List ℝ → List ℕ) (hs : IsArgsort argsort) (full : ℂ → W → ι → ℂ) (i0 : ι) (v0 : W)
    (vals : List ℂ) (vecs : List W) (hl : vecs.length = vals.length) (betas : List ℝ) (modes : List (ι → ℂ))
    (h : solvePost argsort full i0 v0 vals vecs = .ok (betas, modes)) :
    betas.length = (usefulModes vals).length ∧ modes.length = betas.length ∧
    ∀ f, f ∈ modes ↔ ∃ j < vals.length, 0 < (vals.getD j 0).re ∧ f = rephase i0 (full (vals.getD j 0) (vecs.getD j v0)) := by
  obtain ⟨σ, hσ, -, he⟩ := solvePost_eq argsort hs full i0 v0 vals vecs hl
  rw [he] at h
  cases hb : fancy 0 (σ.map fun k => vals.getD k 0) (usefulModes vals) with
  | error e => rw [hb] at h; cases h
  | ok b =>
    rw [hb] at h
    have h' : ((b.map fun z => Real.sqrt z.re, σ.map fun k => rephase i0 (full (vals.getD k 0) (vecs.getD k v0))) : List ℝ × List (ι → ℂ))
        = (betas, modes) := by injection h
    injection h' with h1 h2
    have hbl : b.length = (usefulModes vals).length := by
      unfold fancy at hb
      split_ifs at hb
      injection hb with hb
      rw [← hb, List.length_map]
    refine ⟨by rw [← h1, List.length_map, hbl], by rw [← h1, ← h2, List.length_map, List.length_map, hbl, hσ.length_eq], fun f => ?_⟩
    rw [← h2, List.mem_map]
    constructor
    · rintro ⟨j, hj, rfl⟩
      have := mem_usefulModes.1 (hσ.mem_iff.1 hj)
      exact ⟨j, this.1, this.2, rfl⟩
    · rintro ⟨j, hj1, hj2, rfl⟩
      exact ⟨j, hσ.mem_iff.2 (mem_usefulModes.2 ⟨hj1, hj2⟩), rfl⟩

theorem mem_getD {α : Type} {l : List α} {d x : α} (h : x ∈ l) : ∃ j < l.length, l.getD j d = x := by
  obtain ⟨j, hj, rfl⟩ := List.getElem_of_mem h
  exact ⟨j, hj, by simp [hj]⟩

theorem getD_mem {α : Type} {l : List α} {d : α} {j : ℕ} (h : j < l.length) : l.getD j d ∈ l := by
  rw [List.getD_eq_getElem?_getD, List.getElem?_eq_getElem h]
  exact List.getElem_mem h

/-- The spanned eigenvectors are spanned by the returned modes. -/
theorem span_modes {ι : Type} (argsort : List ℝ → List ℕ) (hs : IsArgsort argsort) (full : ℂ → V → ι → ℂ) (hfull : ∀ z, IsLinearMap ℂ (full z))
    (i0 : ι) (vals : List ℂ) (vecs : List V) (hl : vecs.length = vals.length) (A : V →ₗ[ℂ] V) (k : ℕ) (hk : k ≤ vals.length)
    (he : ∀ j < k, A (vecs.getD j 0) = vals.getD j 0 • vecs.getD j 0) (hi : LinearIndependent ℂ fun j : Fin k => vecs.getD j 0)
    (betas : List ℝ) (modes : List (ι → ℂ)) (h : solvePost argsort full i0 0 vals vecs = .ok (betas, modes)) (mu : ℂ) (hmu : 0 < mu.re)
    (u : V) (hu : A u = mu • u) (hin : u ∈ Submodule.span ℂ {v | v ∈ vecs.take k}) :
    full mu u ∈ Submodule.span ℂ {f | f ∈ modes} := by
  obtain ⟨-, -, hm⟩ := solvePost_modes argsort hs full i0 0 vals vecs hl betas modes h
  have hr : Submodule.span ℂ {v | v ∈ vecs.take k} ≤ Submodule.span ℂ (Set.range fun j : Fin k => vecs.getD j 0) := by
    refine Submodule.span_mono ?_
    intro v hv
    obtain ⟨j, hj, rfl⟩ := mem_getD (d := 0) hv
    rw [List.length_take] at hj
    refine ⟨⟨j, by omega⟩, ?_⟩
    simp only [List.getD_eq_getElem?_getD]
    rw [List.getElem?_take_of_lt (by omega)]
  have h1 := eigen_span A (fun j : Fin k => vecs.getD j 0) (fun j => vals.getD j 0) hi (fun j => he j j.2) mu u hu (hr hin)
  have h2 : full mu u ∈ (Submodule.span ℂ {w : V | ∃ j : Fin k, vals.getD j 0 = mu ∧ w = vecs.getD j 0}).map ((hfull mu).mk' (full mu)) :=
    ⟨u, h1, rfl⟩
  rw [Submodule.map_span] at h2
  refine Submodule.span_le.2 ?_ h2
  rintro _ ⟨_, ⟨j, hj, rfl⟩, rfl⟩
  refine rephase_span i0 _ _ ?_
  refine (hm _).2 ⟨j, by have := j.2; omega, by rw [hj]; exact hmu, ?_⟩
  rw [hj]
  rfl

/-- Returned propagation constants are positive square roots of the real parts of the eigenvalues. -/
theorem betas_sq {W ι : Type} (argsort : List ℝ → List ℕ) (full : ℂ → W → ι → ℂ) (i0 : ι) (v0 : W) (vals : List ℂ) (vecs : List W)
    (betas : List ℝ) (modes : List (ι → ℂ)) (h : solvePost argsort full i0 v0 vals vecs = .ok (betas, modes)) (b : ℝ) (hb : b ∈ betas) :
    0 < b ∧ ∃ z ∈ vals, 0 < z.re ∧ b ^ 2 = z.re := by
  obtain ⟨j, hj, hp, rfl⟩ := solvePost_betas _ _ _ _ _ _ _ _ h b hb
  exact ⟨Real.sqrt_pos.2 hp, _, getD_mem hj, hp, Real.sq_sqrt hp.le⟩

/-- The general form of C157: for an operator whose eigenvalue `mu` does not exceed the shift. -/
theorem search_spec {ι : Type} (argsort : List ℝ → List ℕ) (hs : IsArgsort argsort) (full : ℂ → V → ι → ℂ) (hfull : ∀ z, IsLinearMap ℂ (full z))
    (i0 : ι) (A : V →ₗ[ℂ] V) (sigma : ℝ) (k : ℕ) (vals : List ℂ) (vecs : List V) (hE : IsEigs A sigma k vals vecs)
    (betas : List ℝ) (modes : List (ι → ℂ)) (h : solvePost argsort full i0 0 vals vecs = .ok (betas, modes))
    (mu : ℝ) (hmu : 0 < mu) (hle : mu ≤ sigma) (u : V) (hu : A u = (mu : ℂ) • u) :
    full mu u ∈ Submodule.span ℂ {f | f ∈ modes} ∨ (betas.length = k ∧ ∀ b ∈ betas, mu ≤ b ^ 2) := by
  have hl : vecs.length = vals.length := hE.vecs_length.trans hE.vals_length.symm
  by_cases hin : u ∈ Submodule.span ℂ {v | v ∈ vecs}
  · left
    refine span_modes argsort hs full hfull i0 vals vecs hl A k hE.vals_length.ge hE.eigen hE.indep betas modes h mu
      (by rwa [ofReal_re]) u hu ?_
    rwa [List.take_of_length_le hE.vecs_length.le]
  · right
    have hz : ∀ z ∈ vals, mu ≤ z.re := by
      intro z hz
      have h1 := hE.closest mu u hu hin z hz
      have h2 : ‖((mu : ℂ) - sigma)‖ = sigma - mu := by
        rw [← ofReal_sub, norm_real, Real.norm_of_nonpos (by linarith)]
        ring
      have h3 : sigma - z.re ≤ ‖z - sigma‖ := by
        have := neg_abs_le (z - (sigma : ℂ)).re
        have h4 := abs_re_le_norm (z - (sigma : ℂ))
        rw [sub_re, ofReal_re] at this h4
        linarith
      linarith
    constructor
    · rw [(solvePost_modes argsort hs full i0 0 vals vecs hl betas modes h).1, ← hE.vals_length]
      unfold usefulModes
      rw [List.filter_eq_self.2, List.length_range]
      intro j hj
      have := hz _ (getD_mem (d := 0) (List.mem_range.1 hj))
      simpa using lt_of_lt_of_le hmu this
    · intro b hb
      obtain ⟨-, z, hzv, -, hb2⟩ := betas_sq argsort full i0 0 vals vecs betas modes h b hb
      rw [hb2]
      exact hz z hzv

/-! ### The operators as linear maps -/

variable {s : Fin 3 → ℕ}

theorem wgm1d_add (g : YeeOps s) (k0 : ℝ) (eps u v : SField s) : wgm1d g k0 eps (u + v) = wgm1d g k0 eps u + wgm1d g k0 eps v := by
  funext i
  simp only [wgm1d, Matrix.mulVec_add, Pi.add_apply]
  ring

theorem wgm1d_smul (g : YeeOps s) (k0 : ℝ) (eps : SField s) (c : ℂ) (u : SField s) : wgm1d g k0 eps (c • u) = c • wgm1d g k0 eps u := by
  funext i
  simp only [wgm1d, Matrix.mulVec_smul, Pi.smul_apply, smul_eq_mul]
  ring

/-- The operator of one-dimensional cross sections as a linear map. -/
noncomputable def wgm1dLin (g : YeeOps s) (k0 : ℝ) (eps : SField s) : SField s →ₗ[ℂ] SField s where
  toFun := wgm1d g k0 eps
  map_add' := wgm1d_add g k0 eps
  map_smul' := wgm1d_smul g k0 eps

/-- The operator of two-dimensional cross sections as a linear map. -/
noncomputable def wgm2dLin (g : YeeOps s) (k0 : ℝ) (epsT : VField s) : (SField s × SField s) →ₗ[ℂ] (SField s × SField s) where
  toFun v := wgm2d g k0 epsT v.1 v.2
  map_add' u v := by
    have h1 : (fun i => 1 / epsT 2 i * ((-(g.deriv true 1)).mulVec (u + v).1 + (g.deriv true 0).mulVec (u + v).2) i)
        = (fun i => 1 / epsT 2 i * ((-(g.deriv true 1)).mulVec u.1 + (g.deriv true 0).mulVec u.2) i)
          + fun i => 1 / epsT 2 i * ((-(g.deriv true 1)).mulVec v.1 + (g.deriv true 0).mulVec v.2) i := by
      funext i
      simp only [Prod.fst_add, Prod.snd_add, Matrix.mulVec_add, Pi.add_apply]
      ring
    refine Prod.ext ?_ ?_ <;> funext i <;>
      simp only [wgm2d] <;> rw [h1] <;>
      simp only [transverseDiv, Prod.fst_add, Prod.snd_add, Matrix.mulVec_add, Pi.add_apply] <;> ring
  map_smul' c v := by
    have h1 : (fun i => 1 / epsT 2 i * ((-(g.deriv true 1)).mulVec (c • v).1 + (g.deriv true 0).mulVec (c • v).2) i)
        = c • fun i => 1 / epsT 2 i * ((-(g.deriv true 1)).mulVec v.1 + (g.deriv true 0).mulVec v.2) i := by
      funext i
      simp only [Prod.smul_fst, Prod.smul_snd, Matrix.mulVec_smul, Pi.smul_apply, Pi.add_apply, smul_eq_mul]
      ring
    refine Prod.ext ?_ ?_ <;> funext i <;>
      simp only [wgm2d] <;> rw [h1] <;>
      simp only [transverseDiv, Prod.smul_fst, Prod.smul_snd, Matrix.mulVec_smul, Matrix.mulVec_add, Pi.smul_apply, Pi.add_apply, smul_eq_mul,
        ← smul_add, RingHom.id_apply] <;> ring

theorem fullH_linear [∀ a, NeZero (s a)] (g : YeeOps s) (z : ℂ) : IsLinearMap ℂ fun v : SField s × SField s => vflat (fullH g z v) where
  map_add u v := by
    funext ⟨c, i⟩
    fin_cases c <;> simp [vflat, fullH, transverseDiv, Matrix.mulVec_add]
    all_goals ring
  map_smul c v := by
    funext ⟨a, i⟩
    fin_cases a <;> simp [vflat, fullH, transverseDiv, Matrix.mulVec_smul]
    all_goals ring

theorem eig2d_le [∀ a, NeZero (s a)] (spacing : Fin 3 → ℝ) (k0 M : ℝ) (hk : 0 < k0) (eps : SField s)
    (heps : ∀ i, 0 < (eps i).re ∧ (eps i).re ≤ M ∧ (eps i).im = 0) (mu : ℝ) (hmu : 0 < mu) (v : SField s × SField s) (hv : v ≠ 0)
    (h : wgm2d (uniformOps s (fun _ => 1) spacing) k0 (yeeAvgG eps) v.1 v.2 = (mu : ℂ) • v) : mu ≤ (k0 * Real.sqrt M) ^ 2 := by
  have hlam : (mu : ℂ) = ((Real.sqrt mu : ℝ) : ℂ) ^ 2 := by rw [← ofReal_pow, Real.sq_sqrt hmu.le]
  have hev : wgm2d (uniformOps s (fun _ => 1) spacing) k0 (yeeAvgG eps) v.1 v.2
      = (fun i => ((Real.sqrt mu : ℝ) : ℂ) ^ 2 * v.1 i, fun i => ((Real.sqrt mu : ℝ) : ℂ) ^ 2 * v.2 i) := by
    rw [h, ← hlam]
    rfl
  have hE := yeeAvgG_bounds eps M heps
  have hbp : 0 < Real.sqrt mu := Real.sqrt_pos.2 hmu
  obtain ⟨m, d, _⟩ := C87_mode_maxwell (uniformOps s (fun _ => 1) spacing) (fun _ => rfl) k0 (Real.sqrt mu) hk.ne' hbp (yeeAvgG eps)
    (fun c i h0 => by have := (hE c i).1; rw [h0, zero_re] at this; exact lt_irrefl _ this) _ _ hev
  have hle := beta_le_of_maxwell spacing k0 (Real.sqrt mu) M hk (yeeAvgG eps) (fun c i => (hE c i).2.2) (fun c i => (hE c i).1) (fun c i => (hE c i).2.1) _ _ m d
    (fullH_ne _ _ _ hv)
  have hM : 0 ≤ M := (heps 0).1.le.trans (heps 0).2.1
  rw [Real.sq_sqrt hmu.le] at hle
  rw [mul_pow, Real.sq_sqrt hM]
  linarith

/-- `solve` that returns had its guided modes first. -/
theorem guidedFirst_of_ok {W ι : Type} (argsort : List ℝ → List ℕ) (hs : IsArgsort argsort) (full : ℂ → W → ι → ℂ) (i0 : ι) (v0 : W)
    (vals : List ℂ) (vecs : List W) (hl : vecs.length = vals.length) (r : List ℝ × List (ι → ℂ))
    (h : solvePost argsort full i0 v0 vals vecs = .ok r) : GuidedFirst vals := by
  intro i j hij hj hgj
  by_contra hgi
  rw [C62_unguided_first_counterexample argsort hs full i0 v0 vals vecs hl i j hij hj hgj hgi] at h
  cases h

/-! ### C157 -/

/-- **C157**, one-dimensional lossless cross sections: whenever `solve(m)` returns, the propagation constants are those of modes, and a
guided mode (eigenvalue `mu > 0`) is either among the returned ones (in their span, in case of degeneracy) or `m` modes are returned and
none of them has a smaller propagation constant. `maxEps` is `np.max(eps)`. -/
theorem C157_largest_1d [∀ a, NeZero (s a)] (eigs : ℝ → ℕ → Except PyError (List ℂ × List (SField s))) (mkl : ℝ → ℝ → ℕ → FeastOut (SField s))
    (argsort : List ℝ → List ℕ) (hs : IsArgsort argsort) (spacing : Fin 3 → ℝ) (k0 maxEps : ℝ) (hmax : 0 ≤ maxEps) (eps : SField s)
    (heps : ∀ i, (eps i).re ≤ maxEps ∧ (eps i).im = 0)
    (heigs : ∀ sigma k vals vecs, eigs sigma k = .ok (vals, vecs) → IsEigs (wgm1d (uniformOps s (fun _ => 1) spacing) k0 eps) sigma k vals vecs)
    (m : ℕ) (betas : List ℝ) (modes : List (SField s))
    (h : modeSolve eigs mkl argsort (fun _ v => v) (0 : GIdx s) 0 k0 maxEps m .none = .ok (betas, modes)) :
    (∀ b ∈ betas, 0 < b ∧ ∃ u ≠ 0, wgm1d (uniformOps s (fun _ => 1) spacing) k0 eps u = ((b ^ 2 : ℝ) : ℂ) • u) ∧
    ∀ (mu : ℂ) (u : SField s), u ≠ 0 → wgm1d (uniformOps s (fun _ => 1) spacing) k0 eps u = mu • u → 0 < mu.re →
      u ∈ Submodule.span ℂ {f | f ∈ modes} ∨ (betas.length = m ∧ ∀ b ∈ betas, mu.re ≤ b ^ 2) := by
  unfold modeSolve at h
  cases hr : eigs ((k0 * Real.sqrt maxEps) ^ 2) m with
  | error e => rw [hr] at h; cases h
  | ok r =>
    obtain ⟨vals, vecs⟩ := r
    rw [hr] at h
    have h : solvePost argsort (fun _ v => v) (0 : GIdx s) 0 vals vecs = .ok (betas, modes) := h
    have hE := heigs _ _ _ _ hr
    have hreal : ∀ (mu : ℂ) (u : SField s), u ≠ 0 → wgm1d (uniformOps s (fun _ => 1) spacing) k0 eps u = mu • u →
        mu.im = 0 ∧ mu.re ≤ (k0 * Real.sqrt maxEps) ^ 2 := by
      intro mu u hu hev
      rw [mul_pow, Real.sq_sqrt hmax]
      exact eig1d_le spacing k0 maxEps eps heps mu u hu hev
    refine ⟨fun b hb => ?_, fun mu u hu hev hmu => ?_⟩
    · obtain ⟨hp, z, hz, -, hb2⟩ := betas_sq argsort _ _ _ vals vecs betas modes h b hb
      obtain ⟨j, hj, rfl⟩ := mem_getD (d := 0) hz
      rw [hE.vals_length] at hj
      have hne : vecs.getD j 0 ≠ 0 := hE.indep.ne_zero (⟨j, hj⟩ : Fin m)
      refine ⟨hp, vecs.getD j 0, hne, ?_⟩
      rw [hE.eigen j hj, hb2]
      congr 1
      exact Complex.ext rfl (by rw [(hreal _ _ hne (hE.eigen j hj)).1, ofReal_im])
    · obtain ⟨him, hle⟩ := hreal mu u hu hev
      have hmu' : mu = ((mu.re : ℝ) : ℂ) := Complex.ext rfl (by rw [him, ofReal_im])
      rw [hmu'] at hev
      exact search_spec argsort hs (fun _ v => v) (fun _ => ⟨fun _ _ => rfl, fun _ _ => rfl⟩) 0
        (wgm1dLin (uniformOps s (fun _ => 1) spacing) k0 eps) _ m vals vecs hE betas modes h mu.re hmu hle u hev

/-- **C157**, two-dimensional lossless cross sections: as `C157_largest_1d`, with the full magnetic field of the mode in the span of the
returned fields. -/
theorem C157_largest_2d [∀ a, NeZero (s a)] (eigs : ℝ → ℕ → Except PyError (List ℂ × List (SField s × SField s)))
    (mkl : ℝ → ℝ → ℕ → FeastOut (SField s × SField s)) (argsort : List ℝ → List ℕ) (hs : IsArgsort argsort) (spacing : Fin 3 → ℝ)
    (k0 maxEps : ℝ) (hk : 0 < k0) (eps : SField s) (heps : ∀ i, 0 < (eps i).re ∧ (eps i).re ≤ maxEps ∧ (eps i).im = 0)
    (heigs : ∀ sigma k vals vecs, eigs sigma k = .ok (vals, vecs) →
      IsEigs (fun v => wgm2d (uniformOps s (fun _ => 1) spacing) k0 (yeeAvgG eps) v.1 v.2) sigma k vals vecs)
    (m : ℕ) (betas : List ℝ) (modes : List (Fin 3 × GIdx s → ℂ))
    (h : modeSolve eigs mkl argsort (fun lam v => vflat (fullH (uniformOps s (fun _ => 1) spacing) lam v)) ((0 : Fin 3), (0 : GIdx s)) 0
      k0 maxEps m .none = .ok (betas, modes))
    (mu : ℝ) (hmu : 0 < mu) (v : SField s × SField s) (hv : v ≠ 0)
    (hev : wgm2d (uniformOps s (fun _ => 1) spacing) k0 (yeeAvgG eps) v.1 v.2 = (mu : ℂ) • v) :
    vflat (fullH (uniformOps s (fun _ => 1) spacing) mu v) ∈ Submodule.span ℂ {f | f ∈ modes} ∨
      (betas.length = m ∧ ∀ b ∈ betas, mu ≤ b ^ 2) := by
  unfold modeSolve at h
  cases hr : eigs ((k0 * Real.sqrt maxEps) ^ 2) m with
  | error e => rw [hr] at h; cases h
  | ok r =>
    obtain ⟨vals, vecs⟩ := r
    rw [hr] at h
    exact search_spec argsort hs (fun lam v => vflat (fullH (uniformOps s (fun _ => 1) spacing) lam v))
      (fun z => fullH_linear (uniformOps s (fun _ => 1) spacing) z) _ (wgm2dLin (uniformOps s (fun _ => 1) spacing) k0 (yeeAvgG eps))
      _ m vals vecs (heigs _ _ _ _ hr) betas modes h mu hmu (eig2d_le spacing k0 maxEps hk eps heps mu hmu v hv hev) v hev

/-- **C157**: in one dimension `solve(m)` with `m ≥ 1` finds the fundamental mode, and puts it first. -/
theorem C157_fundamental_1d {n : ℕ} [NeZero n] (eigs : ℝ → ℕ → Except PyError (List ℂ × List (SField (shapeOf n 1 1))))
    (mkl : ℝ → ℝ → ℕ → FeastOut (SField (shapeOf n 1 1))) (argsort : List ℝ → List ℕ) (hs : IsArgsort argsort) (spacing : Fin 3 → ℝ)
    (hdx : spacing 0 ≠ 0) (k0 maxEps : ℝ) (hmax : 0 ≤ maxEps) (eps : SField (shapeOf n 1 1)) (heps : ∀ i, (eps i).re ≤ maxEps ∧ (eps i).im = 0)
    (heigs : ∀ sigma k vals vecs, eigs sigma k = .ok (vals, vecs) →
      IsEigs (wgm1d (uniformOps (shapeOf n 1 1) (fun _ => 1) spacing) k0 eps) sigma k vals vecs)
    (m : ℕ) (hm : 0 < m) (betas : List ℝ) (modes : List (SField (shapeOf n 1 1)))
    (h : modeSolve eigs mkl argsort (fun _ v => v) (0 : GIdx (shapeOf n 1 1)) 0 k0 maxEps m .none = .ok (betas, modes))
    (lam : ℝ) (hlam : 0 < lam) (u : SField (shapeOf n 1 1)) (hu : IsFundamental (uniformOps (shapeOf n 1 1) (fun _ => 1) spacing) k0 eps lam u) :
    ∃ (h1 : 0 < betas.length) (h2 : 0 < modes.length), betas[0] = Real.sqrt lam ∧
      ∃ r : ℝ, 0 < r ∧ ∀ i, modes[0] i = ((r * ‖u i‖ : ℝ) : ℂ) ∧ 0 < r * ‖u i‖ := by
  have hsp := (C157_largest_1d eigs mkl argsort hs spacing k0 maxEps hmax eps heps heigs m betas modes h).2 lam u hu.1
    (by rw [hu.2.1]; rfl) (by rwa [ofReal_re])
  unfold modeSolve at h
  cases hr : eigs ((k0 * Real.sqrt maxEps) ^ 2) m with
  | error e => rw [hr] at h; cases h
  | ok r =>
    obtain ⟨vals, vecs⟩ := r
    rw [hr] at h
    have h : solvePost argsort (fun _ v => v) (0 : GIdx (shapeOf n 1 1)) 0 vals vecs = .ok (betas, modes) := h
    have hE := heigs _ _ _ _ hr
    have hl : vecs.length = vals.length := hE.vecs_length.trans hE.vals_length.symm
    have hne : ∀ j < m, vecs.getD j 0 ≠ 0 := fun j hj => hE.indep.ne_zero (⟨j, hj⟩ : Fin m)
    have hin : (lam : ℂ) ∈ vals := by
      by_contra hni
      -- an eigenvector that is not spanned pushes all values above `lam`
      have hnot : u ∉ Submodule.span ℂ {v | v ∈ vecs} := by
        intro hin
        have h1 := eigen_span (wgm1dLin (uniformOps (shapeOf n 1 1) (fun _ => 1) spacing) k0 eps) (fun j : Fin m => vecs.getD j 0)
          (fun j => vals.getD j 0) hE.indep (fun j => hE.eigen j j.2) lam u (by change wgm1d _ _ _ u = _; rw [hu.2.1]; rfl)
          (Submodule.span_mono (fun v hv => by
            obtain ⟨j, hj, rfl⟩ := mem_getD (d := 0) hv
            exact ⟨⟨j, by rw [← hE.vecs_length]; exact hj⟩, rfl⟩) hin)
        have h2 : {w : SField (shapeOf n 1 1) | ∃ j : Fin m, vals.getD j 0 = (lam : ℂ) ∧ w = vecs.getD j 0} = ∅ := by
          refine Set.eq_empty_of_forall_notMem ?_
          rintro w ⟨j, hj, -⟩
          exact hni (hj ▸ getD_mem (by rw [hE.vals_length]; exact j.2))
        rw [h2, Submodule.span_empty] at h1
        exact hu.1 ((Submodule.mem_bot ℂ).1 h1)
      have hz := getD_mem (d := (0 : ℂ)) (show 0 < vals.length by rw [hE.vals_length]; exact hm)
      have h3 := hE.closest lam u (by rw [hu.2.1]; rfl) hnot _ hz
      have hb := eig1d_le spacing k0 maxEps eps heps _ _ (hne 0 hm) (hE.eigen 0 hm)
      have hlamle : lam ≤ (k0 * Real.sqrt maxEps) ^ 2 := by
        rw [mul_pow, Real.sq_sqrt hmax]
        exact (eig1d_le spacing k0 maxEps eps heps lam u hu.1 hu.2.1).2
      have h4 : ‖((lam : ℂ) - ((k0 * Real.sqrt maxEps) ^ 2 : ℝ))‖ = (k0 * Real.sqrt maxEps) ^ 2 - lam := by
        rw [← ofReal_sub, norm_real, Real.norm_of_nonpos (by linarith)]
        ring
      have h5 := neg_abs_le (vals.getD 0 0 - (((k0 * Real.sqrt maxEps) ^ 2 : ℝ) : ℂ)).re
      have h6 := abs_re_le_norm (vals.getD 0 0 - (((k0 * Real.sqrt maxEps) ^ 2 : ℝ) : ℂ))
      rw [sub_re, ofReal_re] at h5 h6
      have h7 : lam ≤ (vals.getD 0 0).re := by linarith
      have h8 : vals.getD 0 0 = (((vals.getD 0 0).re : ℝ) : ℂ) := Complex.ext rfl (by rw [hb.1, ofReal_im])
      have h9 := hu.2.2 (vals.getD 0 0).re (vecs.getD 0 0) (hne 0 hm) (by
        have := hE.eigen 0 hm
        rw [h8] at this
        exact this)
      exact hni ((le_antisymm h7 h9) ▸ h8 ▸ hz)
    obtain ⟨b', m', hok, hres⟩ := C138_solve argsort hs spacing hdx k0 eps (fun i => (heps i).2) vals vecs hl
      (guidedFirst_of_ok argsort hs _ _ _ vals vecs hl _ h)
      (fun j hj => ⟨hne j (by rw [← hE.vals_length]; exact hj), hE.eigen j (by rw [← hE.vals_length]; exact hj)⟩) lam hlam u hu hin
    rw [h] at hok
    injection hok with hok
    injection hok with e1 e2
    subst e1 e2
    exact hres

/-- **C157**, with a guess: `solve(m, beta_guess=b)` with a nonzero `float` returns the modes closest to the guess (in `beta²`): a guided mode
is among them, or every returned one is at least as close. -/
theorem C157_guess_1d [∀ a, NeZero (s a)] (eigs : ℝ → ℕ → Except PyError (List ℂ × List (SField s))) (mkl : ℝ → ℝ → ℕ → FeastOut (SField s))
    (argsort : List ℝ → List ℕ) (hs : IsArgsort argsort) (spacing : Fin 3 → ℝ) (k0 maxEps : ℝ) (eps : SField s) (heps : ∀ i, (eps i).im = 0)
    (heigs : ∀ sigma k vals vecs, eigs sigma k = .ok (vals, vecs) → IsEigs (wgm1d (uniformOps s (fun _ => 1) spacing) k0 eps) sigma k vals vecs)
    (m : ℕ) (guess : ℝ) (hg : guess ≠ 0) (betas : List ℝ) (modes : List (SField s))
    (h : modeSolve eigs mkl argsort (fun _ v => v) (0 : GIdx s) 0 k0 maxEps m (.float guess) = .ok (betas, modes))
    (mu : ℂ) (u : SField s) (hu : u ≠ 0) (hev : wgm1d (uniformOps s (fun _ => 1) spacing) k0 eps u = mu • u) (hmu : 0 < mu.re) :
    u ∈ Submodule.span ℂ {f | f ∈ modes} ∨ ∀ b ∈ betas, |b ^ 2 - guess ^ 2| ≤ |mu.re - guess ^ 2| := by
  have hreal : ∀ (mu : ℂ) (u : SField s), u ≠ 0 → wgm1d (uniformOps s (fun _ => 1) spacing) k0 eps u = mu • u → mu = ((mu.re : ℝ) : ℂ) :=
    fun mu u hu hev => Complex.ext rfl (by rw [C137_real_1d spacing k0 eps heps mu u hu hev, ofReal_im])
  unfold modeSolve at h
  dsimp only at h
  rw [if_neg hg] at h
  cases hr : eigs (guess ^ 2) m with
  | error e => rw [hr] at h; cases h
  | ok r =>
    obtain ⟨vals, vecs⟩ := r
    rw [hr] at h
    have h : solvePost argsort (fun _ v => v) (0 : GIdx s) 0 vals vecs = .ok (betas, modes) := h
    have hE := heigs _ _ _ _ hr
    have hl : vecs.length = vals.length := hE.vecs_length.trans hE.vals_length.symm
    by_cases hin : u ∈ Submodule.span ℂ {v | v ∈ vecs}
    · left
      refine span_modes argsort hs (fun _ v => v) (fun _ => ⟨fun _ _ => rfl, fun _ _ => rfl⟩) 0 vals vecs hl
        (wgm1dLin (uniformOps s (fun _ => 1) spacing) k0 eps) m hE.vals_length.ge hE.eigen hE.indep betas modes h mu hmu u hev ?_
      rwa [List.take_of_length_le hE.vecs_length.le]
    · right
      intro b hb
      obtain ⟨-, z, hz, -, hb2⟩ := betas_sq argsort _ _ _ vals vecs betas modes h b hb
      have h1 := hE.closest mu u hev hin z hz
      obtain ⟨j, hj, rfl⟩ := mem_getD (d := 0) hz
      rw [hE.vals_length] at hj
      rw [hreal _ _ (hE.indep.ne_zero (⟨j, hj⟩ : Fin m)) (hE.eigen j hj), hreal mu u hu hev, ← ofReal_sub, ← ofReal_sub, norm_real, norm_real] at h1
      rw [hb2]
      exact h1

/-- **C157**: how the argument is read. `0.0` means no guess; anything that is neither `None`, a `float` nor a tuple (an `int` too) is
refused, a tuple of fewer than two entries raises `IndexError`. -/
theorem C157_argument {W ι : Type} (eigs : ℝ → ℕ → Except PyError (List ℂ × List W)) (mkl : ℝ → ℝ → ℕ → FeastOut W) (argsort : List ℝ → List ℕ)
    (full : ℂ → W → ι → ℂ) (i0 : ι) (v0 : W) (k0 maxEps : ℝ) (m : ℕ) (x : ℝ) :
    modeSolve eigs mkl argsort full i0 v0 k0 maxEps m (.float 0) = modeSolve eigs mkl argsort full i0 v0 k0 maxEps m .none ∧
    modeSolve eigs mkl argsort full i0 v0 k0 maxEps m .other = .error .typeError ∧
    modeSolve eigs mkl argsort full i0 v0 k0 maxEps m (.tuple []) = .error .indexError ∧
    modeSolve eigs mkl argsort full i0 v0 k0 maxEps m (.tuple [x]) = .error .indexError := by
  refine ⟨?_, rfl, rfl, rfl⟩
  unfold modeSolve
  dsimp only
  rw [if_pos rfl]

/-! ### C158 -/

/-- C158, what holds: `solve(k, beta_guess=(lo, hi))` with `0 ≤ lo` that returns, if FEAST found exactly `k` modes, or leaves no positive
number behind them (`hrest`): the propagation constants lie in the range, and every guided mode in the range is in the span of the
returned ones. -/
theorem C158_range_partial {ι : Type} (eigs : ℝ → ℕ → Except PyError (List ℂ × List V)) (mkl : ℝ → ℝ → ℕ → FeastOut V)
    (argsort : List ℝ → List ℕ) (hs : IsArgsort argsort) (full : ℂ → V → ι → ℂ) (hfull : ∀ z, IsLinearMap ℂ (full z)) (i0 : ι)
    (A : V →ₗ[ℂ] V) (k0 maxEps lo hi : ℝ) (hlo : 0 ≤ lo) (hhi : 0 ≤ hi) (k : ℕ) (hF : IsFeast A (lo ^ 2) (hi ^ 2) k (mkl (lo ^ 2) (hi ^ 2) k))
    (hrest : ∀ j, (mkl (lo ^ 2) (hi ^ 2) k).m ≤ j → j < k → (mkl (lo ^ 2) (hi ^ 2) k).e.getD j 0 ≤ 0)
    (betas : List ℝ) (modes : List (ι → ℂ)) (h : modeSolve eigs mkl argsort full i0 0 k0 maxEps k (.tuple [lo, hi]) = .ok (betas, modes)) :
    (∀ b ∈ betas, lo ≤ b ∧ b ≤ hi ∧ ∃ u ≠ 0, A u = ((b ^ 2 : ℝ) : ℂ) • u) ∧
    ∀ (mu : ℝ) (u : V), A u = (mu : ℂ) • u → 0 < mu → lo ^ 2 ≤ mu → mu ≤ hi ^ 2 → full mu u ∈ Submodule.span ℂ {f | f ∈ modes} := by
  unfold modeSolve feastEigs at h
  dsimp only at h
  generalize mkl (lo ^ 2) (hi ^ 2) k = o at hF hrest h
  by_cases h1 : 0 < o.pivots
  · rw [if_pos h1] at h; cases h
  rw [if_neg h1] at h
  by_cases h2 : o.info ≠ 0
  · rw [if_pos h2] at h; cases h
  rw [if_neg h2] at h
  push Not at h2
  have h : solvePost argsort full i0 0 (o.e.map Complex.ofReal) o.x = .ok (betas, modes) := h
  have hl : o.x.length = (o.e.map Complex.ofReal).length := by rw [List.length_map, hF.e_length, hF.x_length]
  have hget : ∀ j < k, (o.e.map Complex.ofReal).getD j 0 = (o.e.getD j 0 : ℂ) := by
    intro j hj
    have : j < o.e.length := by rw [hF.e_length]; exact hj
    simp [this]
  refine ⟨fun b hb => ?_, fun mu u hev hpos hmu1 hmu2 => ?_⟩
  · obtain ⟨hbp, z, hz, hzp, hb2⟩ := betas_sq argsort _ _ _ _ _ betas modes h b hb
    obtain ⟨j, hj, rfl⟩ := mem_getD (d := 0) hz
    rw [List.length_map, hF.e_length] at hj
    rw [hget j hj, ofReal_re] at hzp hb2
    have hjm : j < o.m := by
      by_contra hc
      exact absurd (hrest j (by omega) hj) (not_le.2 hzp)
    obtain ⟨e1, e2, e3⟩ := hF.eigen h2 j hjm
    rw [← hb2] at e1 e2 e3
    exact ⟨(sq_le_sq₀ hlo hbp.le).1 e2, (sq_le_sq₀ hbp.le hhi).1 e3, _, (hF.indep h2).ne_zero (⟨j, hjm⟩ : Fin o.m), e1⟩
  · refine span_modes argsort hs full hfull i0 _ o.x hl A o.m (by rw [List.length_map, hF.e_length]; exact hF.m_le) (fun j hj => ?_) (hF.indep h2)
      betas modes h mu (by rwa [ofReal_re]) u hev (hF.complete h2 mu u hev hmu1 hmu2)
    rw [hget j (lt_of_lt_of_le hj hF.m_le)]
    exact (hF.eigen h2 j hj).1

/-- **C158, violated**: the arrays are used beyond the `m` eigenpairs found. Whenever the range holds fewer than `max_num_modes` modes, MKL may
leave anything behind them: for every such run there is one that MKL's documentation equally allows, with the same eigenpairs, for which
`solve` returns a propagation constant outside the range (with the zero vector, not a mode). -/
theorem C158_spurious_counterexample {ι : Type} (eigs : ℝ → ℕ → Except PyError (List ℂ × List V)) (mkl : ℝ → ℝ → ℕ → FeastOut V)
    (argsort : List ℝ → List ℕ) (hs : IsArgsort argsort) (full : ℂ → V → ι → ℂ) (i0 : ι) (A : V →ₗ[ℂ] V) (k0 maxEps lo hi : ℝ) (hlo : 0 < lo)
    (k : ℕ) (hF : IsFeast A (lo ^ 2) (hi ^ 2) k (mkl (lo ^ 2) (hi ^ 2) k)) (hinfo : (mkl (lo ^ 2) (hi ^ 2) k).info = 0)
    (hfew : (mkl (lo ^ 2) (hi ^ 2) k).m < k) :
    ∃ o : FeastOut V, IsFeast A (lo ^ 2) (hi ^ 2) k o ∧ o.m = (mkl (lo ^ 2) (hi ^ 2) k).m ∧ o.e.take o.m = (mkl (lo ^ 2) (hi ^ 2) k).e.take o.m ∧
      o.x.take o.m = (mkl (lo ^ 2) (hi ^ 2) k).x.take o.m ∧
      ∃ betas modes, modeSolve eigs (fun _ _ _ => o) argsort full i0 0 k0 maxEps k (.tuple [lo, hi]) = .ok (betas, modes) ∧
        ∃ b ∈ betas, hi < b ∧ rephase i0 (full ((b ^ 2 : ℝ) : ℂ) 0) ∈ modes := by
  generalize mkl (lo ^ 2) (hi ^ 2) k = p at hF hinfo hfew
  set o : FeastOut V := ⟨p.e.take p.m ++ List.replicate (k - p.m) (hi ^ 2 + 1), p.x.take p.m ++ List.replicate (k - p.m) 0, p.m, 0, 0⟩ with ho
  have he1 : (p.e.take p.m).length = p.m := by rw [List.length_take, hF.e_length]; omega
  have hx1 : (p.x.take p.m).length = p.m := by rw [List.length_take, hF.x_length]; omega
  have hel : o.e.length = k := by simp only [ho, List.length_append, he1, List.length_replicate]; omega
  have hxl : o.x.length = k := by simp only [ho, List.length_append, hx1, List.length_replicate]; omega
  have hge : ∀ j < p.m, o.e.getD j 0 = p.e.getD j 0 := by
    intro j hj
    simp only [ho, List.getD_eq_getElem?_getD]
    rw [List.getElem?_append_left (by omega), List.getElem?_take_of_lt hj]
  have hgx : ∀ j < p.m, o.x.getD j 0 = p.x.getD j 0 := by
    intro j hj
    simp only [ho, List.getD_eq_getElem?_getD]
    rw [List.getElem?_append_left (by omega), List.getElem?_take_of_lt hj]
  have hrest : ∀ j, p.m ≤ j → j < k → o.e.getD j 0 = hi ^ 2 + 1 ∧ o.x.getD j 0 = 0 := by
    intro j hj hjk
    simp only [ho, List.getD_eq_getElem?_getD]
    rw [List.getElem?_append_right (by omega), List.getElem?_append_right (by omega), he1, hx1, List.getElem?_replicate_of_lt (by omega),
      List.getElem?_replicate_of_lt (by omega)]
    exact ⟨rfl, rfl⟩
  have htx : o.x.take p.m = p.x.take p.m := by rw [ho]; simp only; rw [List.take_append_of_le_length (by omega), List.take_of_length_le (by omega)]
  have hte : o.e.take p.m = p.e.take p.m := by rw [ho]; simp only; rw [List.take_append_of_le_length (by omega), List.take_of_length_le (by omega)]
  refine ⟨o, ?_, rfl, hte, htx, ?_⟩
  · refine ⟨hel, hxl, hF.m_le, fun _ j hj => ?_, fun _ => ?_, fun _ mu u h1 h2 h3 => ?_, fun h => absurd hinfo (hF.empty h), fun h => absurd hinfo (hF.nothing h),
      fun u hu1 hu2 => absurd hinfo (hF.many u hu1 hu2)⟩
    · rw [hge j hj, hgx j hj]; exact hF.eigen hinfo j hj
    · have := hF.indep hinfo
      have e : (fun j : Fin o.m => o.x.getD j 0) = fun j : Fin p.m => p.x.getD j 0 := funext fun j => hgx j j.2
      rw [e]; exact this
    · change u ∈ Submodule.span ℂ {v | v ∈ o.x.take p.m}
      rw [htx]; exact hF.complete hinfo mu u h1 h2 h3
  · have hget : ∀ j < k, (o.e.map Complex.ofReal).getD j 0 = (o.e.getD j 0 : ℂ) := by
      intro j hj
      have : j < o.e.length := by rw [hel]; exact hj
      simp [this]
    have hpos : ∀ j < k, 0 < o.e.getD j 0 := by
      intro j hj
      by_cases hjm : j < p.m
      · rw [hge j hjm]
        exact lt_of_lt_of_le (pow_pos hlo 2) (hF.eigen hinfo j hjm).2.1
      · rw [(hrest j (by omega) hj).1]
        positivity
    have hl : o.x.length = (o.e.map Complex.ofReal).length := by rw [List.length_map, hel, hxl]
    obtain ⟨betas, modes, hok, -, -, -, σ, -, hmem, hbs, hms⟩ := C62_solve_partial argsort hs full i0 0 (o.e.map Complex.ofReal) o.x hl (by
      intro i j hij hj _
      rw [List.length_map, hel] at hj
      rw [hget i (by omega), ofReal_re]
      exact hpos i (by omega))
    refine ⟨betas, modes, hok, Real.sqrt (hi ^ 2 + 1), ?_, ?_, ?_⟩
    · rw [hbs, List.mem_map]
      refine ⟨p.m, (hmem p.m).2 ⟨by rw [List.length_map, hel]; exact hfew, ?_⟩, ?_⟩
      · rw [hget p.m hfew, ofReal_re]; exact hpos p.m hfew
      · rw [hget p.m hfew, ofReal_re, (hrest p.m le_rfl hfew).1]
    · exact Real.lt_sqrt_of_sq_lt (by linarith)
    · rw [hms, List.mem_map]
      refine ⟨p.m, (hmem p.m).2 ⟨by rw [List.length_map, hel]; exact hfew, ?_⟩, ?_⟩
      · rw [hget p.m hfew, ofReal_re]; exact hpos p.m hfew
      · rw [hget p.m hfew, (hrest p.m le_rfl hfew).1, (hrest p.m le_rfl hfew).2, Real.sq_sqrt (by positivity)]

/-- **C158, violated**: `max_num_modes` is not a maximum: with no mode, or with more than `max_num_modes` modes, in the range, `solve` raises
`RuntimeError` (FEAST reports both as warnings). -/
theorem C158_count_counterexample {ι : Type} (eigs : ℝ → ℕ → Except PyError (List ℂ × List V)) (mkl : ℝ → ℝ → ℕ → FeastOut V)
    (argsort : List ℝ → List ℕ) (full : ℂ → V → ι → ℂ) (i0 : ι) (A : V →ₗ[ℂ] V) (k0 maxEps lo hi : ℝ) (k : ℕ)
    (hF : IsFeast A (lo ^ 2) (hi ^ 2) k (mkl (lo ^ 2) (hi ^ 2) k))
    (h : (∀ (mu : ℝ) (u : V), A u = (mu : ℂ) • u → lo ^ 2 ≤ mu → mu ≤ hi ^ 2 → u = 0) ∨
      (∃ u : Fin (k + 1) → V, LinearIndependent ℂ u ∧ ∀ j, ∃ mu : ℝ, A (u j) = (mu : ℂ) • u j ∧ lo ^ 2 ≤ mu ∧ mu ≤ hi ^ 2)) :
    modeSolve eigs mkl argsort full i0 0 k0 maxEps k (.tuple [lo, hi]) = .error .runtimeError := by
  have hi : (mkl (lo ^ 2) (hi ^ 2) k).info ≠ 0 := by
    rcases h with h | ⟨u, h1, h2⟩
    · exact hF.nothing h
    · exact hF.many u h1 h2
  unfold modeSolve feastEigs
  dsimp only
  rw [if_pos hi]
  split_ifs <;> rfl

/-- **C158, violated** for ranges that include negative numbers: the end points are squared, so `(-hi, hi)` raises for every cross section, and
`(lo, hi)` with `lo < 0` omits the modes below `-lo`. -/
theorem C158_negative_counterexample {ι : Type} (eigs : ℝ → ℕ → Except PyError (List ℂ × List V)) (mkl : ℝ → ℝ → ℕ → FeastOut V)
    (argsort : List ℝ → List ℕ) (full : ℂ → V → ι → ℂ) (i0 : ι) (A : V →ₗ[ℂ] V) (k0 maxEps lo hi : ℝ) (k : ℕ)
    (hF : ∀ a b, IsFeast A a b k (mkl a b k)) :
    modeSolve eigs mkl argsort full i0 0 k0 maxEps k (.tuple [-hi, hi]) = .error .runtimeError ∧
    (lo < 0 → (mkl (lo ^ 2) (hi ^ 2) k).m = k → ∀ betas modes,
      modeSolve eigs mkl argsort full i0 0 k0 maxEps k (.tuple [lo, hi]) = .ok (betas, modes) → ∀ b ∈ betas, -lo ≤ b) := by
  constructor
  · have h := (hF ((-hi) ^ 2) (hi ^ 2)).empty (by rw [neg_sq])
    unfold modeSolve feastEigs
    dsimp only
    rw [if_pos h]
    split_ifs <;> rfl
  · intro hlo hm betas modes h b hb
    have hFk := hF (lo ^ 2) (hi ^ 2)
    unfold modeSolve feastEigs at h
    dsimp only at h
    generalize mkl (lo ^ 2) (hi ^ 2) k = o at hFk hm h
    by_cases h1 : 0 < o.pivots
    · rw [if_pos h1] at h; cases h
    rw [if_neg h1] at h
    by_cases h2 : o.info ≠ 0
    · rw [if_pos h2] at h; cases h
    rw [if_neg h2] at h
    push Not at h2
    obtain ⟨hbp, z, hz, hzp, hb2⟩ := betas_sq argsort full i0 0 (o.e.map Complex.ofReal) o.x betas modes h b hb
    obtain ⟨x, hx, rfl⟩ := List.mem_map.1 hz
    obtain ⟨j, hj, rfl⟩ := mem_getD (d := 0) hx
    rw [hFk.e_length] at hj
    have := (hFk.eigen h2 j (by omega)).2.1
    rw [ofReal_re] at hb2
    rw [← hb2] at this
    exact (sq_le_sq₀ (by linarith) hbp.le).1 (by rwa [neg_sq])

/-! ### Non-vacuity -/

/-- The homogeneous slab of four cells at `k0 = 3/2`: its fundamental mode is constant. -/
theorem slab_fundamental : IsFundamental (uniformOps (shapeOf 4 1 1) (fun _ => 1) fun _ => 1) (3 / 2) (fun _ => 1) (9 / 4) (fun _ => 1) := by
  refine ⟨fun h => one_ne_zero (congrFun h 0), ?_, fun mu v hv h => ?_⟩
  · funext i
    rw [wgm_line]
    push_cast
    norm_num
  · have := (eig1d_le (fun _ => 1) (3 / 2) 1 (fun _ => 1) (fun _ => by simp) mu v hv h).2
    norm_num at this
    linarith

theorem slab_multiple (mu : ℝ) (u : SField (shapeOf 4 1 1)) (h : wgm1d (uniformOps (shapeOf 4 1 1) (fun _ => 1) fun _ => 1) (3 / 2) (fun _ => 1) u = (mu : ℂ) • u)
    (h1 : 9 / 4 ≤ mu) : ∃ c : ℂ, u = c • fun _ => 1 := by
  by_cases hu : u = 0
  · exact ⟨0, by rw [hu, zero_smul]⟩
  have h2 := slab_fundamental.2.2 mu u hu h
  rw [ofReal_re] at h2
  have h3 : mu = 9 / 4 := le_antisymm h2 h1
  subst h3
  obtain ⟨c, hc⟩ := (C138_nodeless (n := 4) (fun _ => 1) one_ne_zero (3 / 2) (fun _ => 1) (fun _ => by simp) (9 / 4) _ slab_fundamental).2.1 u (by
    rw [h]; rfl)
  exact ⟨c, funext fun i => by rw [hc i]; rfl⟩

/-- An eigensolver for this slab that meets the contract (it gives up on other requests). -/
noncomputable def slabEigs (sigma : ℝ) (k : ℕ) : Except PyError (List ℂ × List (SField (shapeOf 4 1 1))) :=
  if sigma = 9 / 4 ∧ k = 1 then .ok ([((9 / 4 : ℝ) : ℂ)], [fun _ => 1]) else .error .runtimeError

theorem slabEigs_spec (sigma : ℝ) (k : ℕ) (vals : List ℂ) (vecs : List (SField (shapeOf 4 1 1))) (h : slabEigs sigma k = .ok (vals, vecs)) :
    IsEigs (wgm1d (uniformOps (shapeOf 4 1 1) (fun _ => 1) fun _ => 1) (3 / 2) fun _ => 1) sigma k vals vecs := by
  unfold slabEigs at h
  split_ifs at h with hc
  obtain ⟨rfl, rfl⟩ := hc
  injection h with h
  injection h with h1 h2
  subst h1 h2
  refine ⟨rfl, rfl, fun j hj => ?_, ?_, fun mu u _ _ z hz => ?_⟩
  · obtain rfl : j = 0 := by omega
    exact slab_fundamental.2.1
  · refine linearIndependent_unique_iff.2 ?_
    exact slab_fundamental.1
  · rw [List.mem_singleton] at hz
    rw [hz]
    simp

/-- `solve(1)` finds the mode of the slab: the hypotheses of C157 are met, and its effective index is one. -/
example (argsort : List ℝ → List ℕ) (hs : IsArgsort argsort) (mkl : ℝ → ℝ → ℕ → FeastOut (SField (shapeOf 4 1 1))) :
    ∃ betas modes, modeSolve slabEigs mkl argsort (fun _ v => v) (0 : GIdx (shapeOf 4 1 1)) 0 (3 / 2) 1 1 .none = .ok (betas, modes) ∧
      ∃ h1 : 0 < betas.length, betas[0] = 3 / 2 := by
  have hsig : (3 / 2 * Real.sqrt 1) ^ 2 = (9 / 4 : ℝ) := by rw [Real.sqrt_one]; norm_num
  obtain ⟨betas, modes, hok, -⟩ := C62_solve_partial argsort hs (fun _ v => v) (0 : GIdx (shapeOf 4 1 1)) 0 [((9 / 4 : ℝ) : ℂ)] [fun _ => 1] rfl (by
    intro i j hij hj; simp at hj; omega)
  have h : modeSolve slabEigs mkl argsort (fun _ v => v) (0 : GIdx (shapeOf 4 1 1)) 0 (3 / 2) 1 1 .none = .ok (betas, modes) := by
    unfold modeSolve
    dsimp only
    rw [hsig, show slabEigs (9 / 4) 1 = .ok ([((9 / 4 : ℝ) : ℂ)], [fun _ => 1]) from if_pos ⟨rfl, rfl⟩]
    exact hok
  obtain ⟨h1, -, h2, -⟩ := C157_fundamental_1d (n := 4) slabEigs mkl argsort hs (fun _ => 1) one_ne_zero (3 / 2) 1 zero_le_one (fun _ => 1) (fun _ => by simp)
    slabEigs_spec 1 one_pos betas modes h (9 / 4) (by norm_num) _ slab_fundamental
  refine ⟨betas, modes, h, h1, ?_⟩
  rw [h2, show (9 / 4 : ℝ) = (3 / 2) ^ 2 by norm_num]
  exact Real.sqrt_sq (by norm_num)

/-- A FEAST run for this slab and the range `[3/2, 2]` with room for two modes that finds the one mode and leaves a zero behind it. -/
theorem slabFeast_spec : IsFeast (wgm1dLin (uniformOps (shapeOf 4 1 1) (fun _ => 1) fun _ => 1) (3 / 2) fun _ => 1) ((3 / 2) ^ 2) (2 ^ 2) 2
    ⟨[9 / 4, 0], [fun _ => 1, 0], 1, 0, 0⟩ := by
  have hmul : ∀ (mu : ℝ) (u : SField (shapeOf 4 1 1)), (wgm1dLin (uniformOps (shapeOf 4 1 1) (fun _ => 1) fun _ => 1) (3 / 2) fun _ => 1) u = (mu : ℂ) • u →
      (3 / 2) ^ 2 ≤ mu → ∃ c : ℂ, u = c • fun _ => 1 := fun mu u h1 h2 => slab_multiple mu u h1 (by linarith)
  refine ⟨rfl, rfl, by decide, fun _ j hj => ?_, fun _ => ?_, fun _ mu u h1 h2 _ => ?_, fun h => by norm_num at h, fun h => ?_, fun u hu h => ?_⟩
  · obtain rfl : j = 0 := by simpa using hj
    refine ⟨slab_fundamental.2.1, by norm_num, by norm_num⟩
  · exact linearIndependent_unique_iff.2 slab_fundamental.1
  · obtain ⟨c, rfl⟩ := hmul mu u h1 h2
    exact Submodule.smul_mem _ _ (Submodule.subset_span (by simp))
  · exact absurd (h (9 / 4) (fun _ => 1) slab_fundamental.2.1 (by norm_num) (by norm_num)) slab_fundamental.1
  · obtain ⟨m0, a0, b0, -⟩ := h 0
    obtain ⟨m1, a1, b1, -⟩ := h 1
    obtain ⟨c0, e0⟩ := hmul m0 _ a0 b0
    obtain ⟨c1, e1⟩ := hmul m1 _ a1 b1
    have hp : LinearIndependent ℂ ![u 0, u 1] := by
      have := hu.comp ![0, 1] (by intro a b; fin_cases a <;> fin_cases b <;> simp)
      rwa [show u ∘ ![0, 1] = ![u 0, u 1] by funext a; fin_cases a <;> rfl] at this
    have h3 := (LinearIndependent.pair_iff.1 hp c1 (-c0) (by rw [e0, e1, smul_smul, smul_smul]; module)).1
    exact absurd (by rw [e1, h3, zero_smul]) (hu.ne_zero 1)

/-- The hypotheses of `C158_range_partial` (with the zero left behind) and of `C158_spurious_counterexample` (one mode, two wanted) are met. -/
example : (∀ j, (1 : ℕ) ≤ j → j < 2 → ([9 / 4, 0] : List ℝ).getD j 0 ≤ 0) ∧ (1 : ℕ) < 2 := by
  refine ⟨fun j h1 h2 => ?_, by norm_num⟩
  obtain rfl : j = 1 := by omega
  simp

end Simphox
