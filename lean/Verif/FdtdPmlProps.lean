import Mathlib.Tactic.NormNum
import Mathlib.Tactic.Positivity
import Verif.FdtdProps
import Verif.UtilsProps

/-!
# Properties of the FDTD update: C57 (JAX and NumPy), C84 (PML coefficients), C85 (PML memory)
-/

namespace Simphox

open Complex

variable {s : Fin 3 → ℕ} [∀ a, NeZero (s a)]

/-! ### C57 -/

omit [∀ a, NeZero (s a)] in
theorem foldl_addSource_none (jax jax' : Bool) (l : List (Source s)) (sel : Source s → Option (VField s))
    (hl : ∀ p ∈ l, sel p = none) (w f : VField s) :
    l.foldl (fun f src => addSource jax src.region w (sel src) f) f
      = l.foldl (fun f src => addSource jax' src.region w (sel src) f) f := by
  induction l generalizing f with
  | nil => rfl
  | cons p l ih =>
    rw [List.foldl_cons, List.foldl_cons, hl p List.mem_cons_self]
    exact ih (fun q hq => hl q (List.mem_cons_of_mem _ hq)) f

/-- C57, what holds: without sources (an empty list, or `None` parts) the two modes compute the same
run of any length, for every state, grid, permittivity and PML. -/
theorem C57_agree_partial (F : Fdtd s) (srcs : ℕ → List (Source s))
    (hs : ∀ k, ∀ p ∈ srcs k, p.e = none ∧ p.h = none) (st : FState s F.npml) (n : ℕ) :
    F.run true srcs st n = F.run false srcs st n := by
  induction n with
  | zero => rfl
  | succ n ih =>
    change F.step true (F.run true srcs st n) _ = F.step false (F.run false srcs st n) _
    rw [ih]
    generalize F.run false srcs st n = x
    unfold Fdtd.step
    have hE : F.stepE true x (srcs n) = F.stepE false x (srcs n) := by
      unfold Fdtd.stepE
      refine Prod.ext ?_ rfl
      exact foldl_addSource_none true false (srcs n) Source.e (fun p hp => (hs n p hp).1) _ _
    rw [hE]
    generalize F.stepE false x (srcs n) = y
    unfold Fdtd.stepH
    refine Prod.ext rfl (Prod.ext ?_ rfl)
    exact foldl_addSource_none true false (srcs n) Source.h (fun p hp => (hs n p hp).2) _ _

/-- C57, when exactly a source is treated alike: with one electric source, the `e` fields of the two
modes agree if and only if the field updated without the source vanishes on the source region. -/
theorem C57_source_iff (F : Fdtd s) (st : FState s F.npml) (v : VField s)
    (region : Fin 3 → GIdx s → Bool) :
    (F.step true st [⟨some v, none, region⟩]).1 = (F.step false st [⟨some v, none, region⟩]).1
      ↔ ∀ c i, region c i = true → (F.step false st []).1 c i = 0 := by
  have h1 : (F.step true st [⟨some v, none, region⟩]).1
      = addSource true region (fun c i => F.dt / F.epsT c i) (some v) (F.step false st []).1 := rfl
  have h2 : (F.step false st [⟨some v, none, region⟩]).1
      = addSource false region (fun c i => F.dt / F.epsT c i) (some v) (F.step false st []).1 := rfl
  rw [h1, h2]
  constructor
  · intro h c i hr
    have := congrFun (congrFun h c) i
    simp only [addSource, hr, if_true, Bool.false_eq_true, if_false] at this
    linear_combination -this
  · intro h
    funext c i
    by_cases hr : region c i = true
    · simp only [addSource, hr, if_true, Bool.false_eq_true, if_false, h c i hr]
      ring
    · simp only [addSource, hr, if_false, Bool.false_eq_true]

/-- C57 fails: on a one-cell grid in vacuum, a uniform electric field and a source of value zero. JAX
mode erases the field, NumPy mode keeps it. -/
theorem C57_counterexample :
    let F := plainFdtd (s := shapeOf 1 1 1) 1 (fun _ => 1) (fun _ => 1) (fun _ => 1)
    let st : FState (shapeOf 1 1 1) F.npml := (fun _ _ => 1, fun _ _ => 0, fun _ _ _ => 0, fun _ _ _ => 0)
    let src : Source (shapeOf 1 1 1) := ⟨some (fun _ _ => 0), none, fun _ _ => true⟩
    F.step true st [src] ≠ F.step false st [src]
      ∧ (F.step true st [src]).1 0 0 = 0 ∧ (F.step false st [src]).1 0 0 = 1 := by
  intro F st src
  have hz : ∀ c i, (F.step false st []).1 c i = 1 := by
    intro c i
    obtain ⟨h1, -⟩ := step_plain F rfl false st
    rw [h1]
    have hc := curl_lin F.g true 0 0 st.2.1 st.2.1 c i
    have h0 : ((0 : ℂ) • st.2.1 + (0 : ℂ) • st.2.1) = st.2.1 := by
      funext c i; change (0 : ℂ) * 0 + 0 * 0 = 0; ring
    rw [h0, zero_mul, add_zero] at hc
    change st.1 c i + F.g.curl true st.2.1 c i / F.epsT c i * F.dt = 1
    rw [hc, zero_div, zero_mul, add_zero]
  have h2 : (F.step false st [src]).1 0 0 = 1 := by
    change (F.step false st []).1 0 0 - (0 : ℂ) * _ = 1
    rw [hz, zero_mul, sub_zero]
  have h1 : (F.step true st [src]).1 0 0 = 0 := by
    change -(0 : ℂ) * _ = 0
    rw [neg_zero, zero_mul]
  refine ⟨fun h => ?_, h1, h2⟩
  rw [h, h2] at h1
  exact one_ne_zero h1

/-! ### C84 -/

omit [∀ a, NeZero (s a)] in
/-- C84: the coefficients of the FDTD's PML are absorbing: with a positive time step, exponent and
correction and a negative log reflection, `0 < b < 1` and `-1 < c <= 0` on every cell of the axis, with
`c = 0` for the components along the other axes and in the whole interior, and `|c|` nonzero in the
outermost cells. -/
theorem C84_pml_coefficients (dt : ℝ) (hdt : 0 < dt) (pos : (a : Fin 3) → ℕ → ℝ) (t : Fin 3 → ℕ)
    (hpos : ∀ a i j, i < j → j ≤ s a → pos a i < pos a j) (ht : ∀ a, 0 < t a) (hN : ∀ a, 2 * t a < s a)
    (m logR corr : ℝ) (hm : 0 < m) (hR : logR < 0) (hcorr : 0 < corr) (r : Fin 6) (back : Bool)
    (k : Fin 3) (i : GIdx s) :
    ∃ b c : ℝ, (setPml dt pos t m logR corr r).b back k i = (b : ℂ)
      ∧ (setPml dt pos t m logR corr r).c back k i = (c : ℂ)
      ∧ 0 < b ∧ b < 1 ∧ -1 < c ∧ c ≤ 0
      ∧ ((k : ℕ) ≠ r / 2 → c = 0)
      ∧ ((k : ℕ) = r / 2 → t k ≤ (i k : ℕ) → (i k : ℕ) ≤ s k - t k → c = 0)
      ∧ ((k : ℕ) = r / 2 → ((i k : ℕ) < t k ∨ s k - t k < (i k : ℕ)) → c < 0) := by
  set ax : Fin 3 := ⟨r / 2, by omega⟩ with hax
  set σ : ℝ := fdtdSigma pos t m logR corr ax back k i with hσdef
  obtain ⟨hb, hz, hl, hr⟩ := pmlDepth_props (hpos ax) (ht ax) (hN ax) (if back then 1 else 0)
  have hform : ∀ j, -pmlSigma (pos ax) (s ax) (t ax) m logR corr (if back then 1 else 0) j
      = (m + 1) * (pmlDepth (pos ax) (s ax) (t ax) (if back then 1 else 0) j ^ m) * (-logR) / (2 * corr) := by
    intro j; unfold pmlSigma; ring
  have hσ : 0 ≤ σ := by
    rw [hσdef]
    unfold fdtdSigma
    by_cases h : k = ax
    · rw [if_pos h, hform]
      have := Real.rpow_nonneg (hb (i ax) (i ax).isLt).1 m
      have h2 : 0 ≤ -logR := by linarith
      positivity
    · rw [if_neg h]
  have hα : (0 : ℝ) < 1 / 10 ^ 8 := by norm_num
  have hbpos : 0 < cpmlB (1 / 10 ^ 8) 1 dt σ := Real.exp_pos _
  have hblt : cpmlB (1 / 10 ^ 8) 1 dt σ < 1 := by
    unfold cpmlB
    rw [Real.exp_lt_one_iff]
    have : 0 < (1 / 10 ^ 8 + σ / 1) * dt := by
      have : 0 < 1 / 10 ^ 8 + σ / 1 := by rw [div_one]; linarith
      positivity
    linarith
  have hden : 0 < σ * 1 + 1 / 10 ^ 8 * 1 ^ 2 := by linarith
  have hc : cpmlC (1 / 10 ^ 8) 1 dt σ = -((1 - cpmlB (1 / 10 ^ 8) 1 dt σ) * (σ / (σ * 1 + 1 / 10 ^ 8 * 1 ^ 2))) := by
    unfold cpmlC; ring
  have hq0 : 0 ≤ σ / (σ * 1 + 1 / 10 ^ 8 * 1 ^ 2) := div_nonneg hσ hden.le
  have hq1 : σ / (σ * 1 + 1 / 10 ^ 8 * 1 ^ 2) < 1 := by
    rw [div_lt_one hden]; linarith
  refine ⟨cpmlB (1 / 10 ^ 8) 1 dt σ, cpmlC (1 / 10 ^ 8) 1 dt σ, rfl, rfl, hbpos, hblt, ?_, ?_, ?_, ?_, ?_⟩
  · rw [hc]
    have := mul_lt_mul'' (show 1 - cpmlB (1 / 10 ^ 8) 1 dt σ < 1 by linarith) hq1 (by linarith) hq0
    linarith
  · rw [hc]
    have := mul_nonneg (show 0 ≤ 1 - cpmlB (1 / 10 ^ 8) 1 dt σ by linarith) hq0
    linarith
  · intro hk
    have hka : k ≠ ax := fun h => hk (by rw [h])
    have : σ = 0 := by rw [hσdef]; unfold fdtdSigma; rw [if_neg hka]
    rw [hc, this]; simp
  · intro hk h1 h2
    have hka : k = ax := Fin.ext hk
    rw [hka] at h1 h2
    have : σ = 0 := by
      rw [hσdef]; unfold fdtdSigma
      rw [if_pos hka, hform, hz _ h1 h2, Real.zero_rpow hm.ne']; simp
    rw [hc, this]; simp
  · intro hk h1
    have hka : k = ax := Fin.ext hk
    rw [hka] at h1
    have hd : 0 < pmlDepth (pos ax) (s ax) (t ax) (if back then 1 else 0) (i ax) := by
      rcases h1 with h1 | h1
      · have := hl (i ax) (t ax) h1 (le_refl _)
        rw [hz (t ax) (le_refl _) (by have := hN ax; omega)] at this
        exact this
      · have := hr (s ax - t ax) (i ax) (le_refl _) h1 (i ax).isLt
        rw [hz (s ax - t ax) (by have := hN ax; omega) (le_refl _)] at this
        exact this
    have hσp : 0 < σ := by
      rw [hσdef]; unfold fdtdSigma
      rw [if_pos hka, hform]
      have := Real.rpow_pos_of_pos hd m
      have h2 : 0 < -logR := by linarith
      positivity
    rw [hc]
    have := mul_pos (show 0 < 1 - cpmlB (1 / 10 ^ 8) 1 dt σ by linarith) (div_pos hσp hden)
    linarith

/-- The hypotheses hold for the default parameters on a unit-spaced grid of 20 cells with 4 PML cells. -/
example : (∀ (a : Fin 3) (i j : ℕ), i < j → j ≤ shapeOf 20 20 20 a → (i : ℝ) < (j : ℝ))
    ∧ ∀ a, 2 * 4 < shapeOf 20 20 20 a := by
  refine ⟨fun a i j h _ => by exact_mod_cast h, fun a => ?_⟩
  unfold shapeOf
  split_ifs <;> norm_num

/-! ### C85 -/

/-- Weight of difference component `j` in the documented update (`b` of the axis the difference is
taken along). -/
def psiAxis : Fin 6 → Fin 3 := ![1, 2, 2, 0, 0, 1]

/-- The documented recursion (fdtd.py:195-199) with weights `b` and weighted differences `d n` at step
`n`: `Psi^{n+1} = b Psi^n + d^n`. -/
noncomputable def docPsi (b : Fin 3 → SField s) (d : ℕ → Psi s) : ℕ → Psi s
  | 0 => fun _ _ => 0
  | n + 1 => fun j i => b (psiAxis j) i * docPsi b d n j i + d n j i

omit [∀ a, NeZero (s a)] in
/-- The curl-like combination of six difference components. -/
noncomputable def psiCurl (p : Psi s) : VField s :=
  ![fun i => p 0 i - p 1 i, fun i => p 2 i - p 3 i, fun i => p 4 i - p 5 i]

/-- What the code carries from step to step (`psi_e[pml_idx], p = curl(...)`, fdtd.py:122-123): the
stored array before step `n`. -/
noncomputable def codePsi (d : ℕ → Psi s) : ℕ → Psi s
  | 0 => fun _ _ => 0
  | n + 1 => d n

/-- The correction the code applies in step `n`. -/
noncomputable def codePhi (b : Fin 3 → SField s) (d : ℕ → Psi s) (n : ℕ) : VField s :=
  pmlCombine b (d n) (codePsi d n)

/-- C85, link with the code: in every run from `zero_state`, the electric PML array of region `k` is
the difference array of the previous magnetic field, and is `codePsi` of the difference history. -/
theorem C85_stored (F : Fdtd s) (jax : Bool) (srcs : ℕ → List (Source s)) (k : Fin F.npml) (n : ℕ) :
    let st := F.run jax srcs (zeroState s F.npml)
    (st n).2.2.1 k = codePsi (fun m => pmlNext (pmlDiff F.g (F.pml k) true) (st m).2.1) n := by
  intro st
  cases n with
  | zero => rfl
  | succ n => rfl

omit [∀ a, NeZero (s a)] in
/-- C85, what holds: the first two corrections are the documented ones, and from then on the code drops
exactly the doubly weighted older memory: it keeps one step of history instead of all of it. -/
theorem C85_memory_partial (b : Fin 3 → SField s) (d : ℕ → Psi s) :
    codePhi b d 0 = psiCurl (docPsi b d 1) ∧ codePhi b d 1 = psiCurl (docPsi b d 2)
      ∧ ∀ n, psiCurl (docPsi b d (n + 3)) - codePhi b d (n + 2)
        = psiCurl (fun j i => b (psiAxis j) i ^ 2 * docPsi b d (n + 1) j i) := by
  refine ⟨?_, ?_, fun n => ?_⟩
  · funext c i
    match c with
    | 0 =>
      change d 0 0 i + 0 * b 1 i - d 0 1 i - 0 * b 2 i = (b 1 i * 0 + d 0 0 i) - (b 2 i * 0 + d 0 1 i)
      ring
    | 1 =>
      change d 0 2 i + 0 * b 2 i - d 0 3 i - 0 * b 0 i = (b 2 i * 0 + d 0 2 i) - (b 0 i * 0 + d 0 3 i)
      ring
    | 2 =>
      change d 0 4 i + 0 * b 0 i - d 0 5 i - 0 * b 1 i = (b 0 i * 0 + d 0 4 i) - (b 1 i * 0 + d 0 5 i)
      ring
  · funext c i
    match c with
    | 0 =>
      change d 1 0 i + d 0 0 i * b 1 i - d 1 1 i - d 0 1 i * b 2 i
        = (b 1 i * (b 1 i * 0 + d 0 0 i) + d 1 0 i) - (b 2 i * (b 2 i * 0 + d 0 1 i) + d 1 1 i)
      ring
    | 1 =>
      change d 1 2 i + d 0 2 i * b 2 i - d 1 3 i - d 0 3 i * b 0 i
        = (b 2 i * (b 2 i * 0 + d 0 2 i) + d 1 2 i) - (b 0 i * (b 0 i * 0 + d 0 3 i) + d 1 3 i)
      ring
    | 2 =>
      change d 1 4 i + d 0 4 i * b 0 i - d 1 5 i - d 0 5 i * b 1 i
        = (b 0 i * (b 0 i * 0 + d 0 4 i) + d 1 4 i) - (b 1 i * (b 1 i * 0 + d 0 5 i) + d 1 5 i)
      ring
  · have hd : ∀ j i, docPsi b d (n + 3) j i
        = b (psiAxis j) i ^ 2 * docPsi b d (n + 1) j i + b (psiAxis j) i * d (n + 1) j i + d (n + 2) j i := by
      intro j i
      change b (psiAxis j) i * (b (psiAxis j) i * docPsi b d (n + 1) j i + d (n + 1) j i) + d (n + 2) j i = _
      ring
    funext c i
    match c with
    | 0 =>
      change (docPsi b d (n + 3) 0 i - docPsi b d (n + 3) 1 i)
        - (d (n + 2) 0 i + d (n + 1) 0 i * b 1 i - d (n + 2) 1 i - d (n + 1) 1 i * b 2 i)
        = b 1 i ^ 2 * docPsi b d (n + 1) 0 i - b 2 i ^ 2 * docPsi b d (n + 1) 1 i
      rw [hd, hd]
      change (b 1 i ^ 2 * _ + b 1 i * _ + _ - (b 2 i ^ 2 * _ + b 2 i * _ + _)) - _ = _
      ring
    | 1 =>
      change (docPsi b d (n + 3) 2 i - docPsi b d (n + 3) 3 i)
        - (d (n + 2) 2 i + d (n + 1) 2 i * b 2 i - d (n + 2) 3 i - d (n + 1) 3 i * b 0 i)
        = b 2 i ^ 2 * docPsi b d (n + 1) 2 i - b 0 i ^ 2 * docPsi b d (n + 1) 3 i
      rw [hd, hd]
      change (b 2 i ^ 2 * _ + b 2 i * _ + _ - (b 0 i ^ 2 * _ + b 0 i * _ + _)) - _ = _
      ring
    | 2 =>
      change (docPsi b d (n + 3) 4 i - docPsi b d (n + 3) 5 i)
        - (d (n + 2) 4 i + d (n + 1) 4 i * b 0 i - d (n + 2) 5 i - d (n + 1) 5 i * b 1 i)
        = b 0 i ^ 2 * docPsi b d (n + 1) 4 i - b 1 i ^ 2 * docPsi b d (n + 1) 5 i
      rw [hd, hd]
      change (b 0 i ^ 2 * _ + b 0 i * _ + _ - (b 1 i ^ 2 * _ + b 1 i * _ + _)) - _ = _
      ring

omit [∀ a, NeZero (s a)] in
/-- C85 fails: whenever the weight along the second axis is nonzero in a cell, a pulse in the first
difference (a difference field that is one at step 0 and zero later) is forgotten by the code at the
third step, where the documented update still applies `b^2`. -/
theorem C85_counterexample (b : Fin 3 → SField s) (i : GIdx s) (hb : b 1 i ≠ 0) :
    let d : ℕ → Psi s := fun n j _ => if n = 0 ∧ j = 0 then 1 else 0
    codePhi b d 2 0 i = 0 ∧ psiCurl (docPsi b d 3) 0 i = b 1 i ^ 2
      ∧ codePhi b d 2 ≠ psiCurl (docPsi b d 3) := by
  intro d
  have h1 : codePhi b d 2 0 i = 0 := by
    change (0 : ℂ) + 0 * b 1 i - 0 - 0 * b 2 i = 0
    ring
  have h2 : psiCurl (docPsi b d 3) 0 i = b 1 i ^ 2 := by
    change (b 1 i * (b 1 i * (b 1 i * 0 + 1) + 0) + 0) - (b 2 i * (b 2 i * (b 2 i * 0 + 0) + 0) + 0) = _
    ring
  refine ⟨h1, h2, fun h => ?_⟩
  have := congrFun (congrFun h 0) i
  rw [h1, h2] at this
  exact pow_ne_zero 2 hb this.symm

/-! ### The whole update with PML -/

omit [∀ a, NeZero (s a)] in
/-- C84: region `2a` is the first `t a` cells along axis `a` and region `2a + 1` the last `t a` cells. -/
theorem C84_regions (dt : ℝ) (pos : (a : Fin 3) → ℕ → ℝ) (t : Fin 3 → ℕ) (m logR corr : ℝ) (a : Fin 3)
    (i : GIdx s) :
    ((setPml dt pos t m logR corr ⟨2 * a, by omega⟩).mask i = true ↔ (i a : ℕ) < t a)
      ∧ ((setPml dt pos t m logR corr ⟨2 * a + 1, by omega⟩).mask i = true ↔ s a ≤ (i a : ℕ) + t a) := by
  have h1 : (⟨(⟨2 * a, by omega⟩ : Fin 6) / 2, by simp only; omega⟩ : Fin 3) = a := by
    apply Fin.ext; simp only; omega
  have h2 : (⟨(⟨2 * a + 1, by omega⟩ : Fin 6) / 2, by simp only; omega⟩ : Fin 3) = a := by
    apply Fin.ext; simp only; omega
  constructor
  · simp only [setPml]
    rw [h1]
    simp [pmlMask]
  · simp only [setPml]
    rw [h2]
    simp [pmlMask]

/-- The PML's part of a difference quotient: in each region, `c` times the difference plus `b` times what
the region stored in the previous step. -/
noncomputable def pmlPart (F : Fdtd s) (ofH : Bool) (now prev : SField s) (a : Fin 3) (i : GIdx s) : ℂ :=
  ∑ k : Fin F.npml, if (F.pml k).mask i then
    (F.pml k).c ofH a i * F.g.diffFn ofH now a i +
      (F.pml k).b ofH a i * ((F.pml k).c ofH a i * F.g.diffFn ofH prev a i) else 0

/-- Specification: the curl with every difference quotient replaced by itself plus its PML part. -/
noncomputable def stretchedCurl (F : Fdtd s) (ofH : Bool) (now prev : VField s) (c : Fin 3) (i : GIdx s) : ℂ :=
  let d := fun comp a => F.g.diffFn ofH (now comp) a i + pmlPart F ofH (now comp) (prev comp) a i
  match c with
  | 0 => d 2 1 - d 1 2
  | 1 => d 0 2 - d 2 0
  | 2 => d 1 0 - d 0 1

omit [∀ a, NeZero (s a)] in
theorem foldl_addOn {np : ℕ} (l : List (Fin np)) (mask : Fin np → GIdx s → Bool) (w : VField s)
    (phi : Fin np → VField s) (f : VField s) (c : Fin 3) (i : GIdx s) :
    l.foldl (fun f k => addOn (mask k) w (phi k) f) f c i =
      f c i + (l.map fun k => if mask k i then phi k c i else 0).sum * w c i := by
  induction l generalizing f with
  | nil => simp
  | cons k l ih =>
    rw [List.foldl_cons, ih, List.map_cons, List.sum_cons]
    unfold addOn
    split_ifs <;> ring

/-- The sum over the regions of the corrections, in terms of the PML parts of the differences. -/
theorem sum_combine (F : Fdtd s) (ofH : Bool) (now prev : VField s) (c : Fin 3) (i : GIdx s) :
    F.g.curl ofH now c i + ((List.finRange F.npml).map fun k =>
      if (F.pml k).mask i then pmlCombine ((F.pml k).b ofH) (pmlNext (pmlDiff F.g (F.pml k) ofH) now)
        (pmlNext (pmlDiff F.g (F.pml k) ofH) prev) c i else 0).sum = stretchedCurl F ofH now prev c i := by
  have hsum : ((List.finRange F.npml).map fun k =>
      if (F.pml k).mask i then pmlCombine ((F.pml k).b ofH) (pmlNext (pmlDiff F.g (F.pml k) ofH) now)
        (pmlNext (pmlDiff F.g (F.pml k) ofH) prev) c i else 0).sum =
      ∑ k, if (F.pml k).mask i then pmlCombine ((F.pml k).b ofH) (pmlNext (pmlDiff F.g (F.pml k) ofH) now)
        (pmlNext (pmlDiff F.g (F.pml k) ofH) prev) c i else 0 := by
    rw [← Fin.sum_univ_def]
  rw [hsum]
  have key : ∀ (p q : Fin 3) (a b : Fin 3), (∑ k, if (F.pml k).mask i then
        (pmlDiff F.g (F.pml k) ofH (now p) a i + pmlDiff F.g (F.pml k) ofH (prev p) a i * (F.pml k).b ofH a i
          - pmlDiff F.g (F.pml k) ofH (now q) b i - pmlDiff F.g (F.pml k) ofH (prev q) b i * (F.pml k).b ofH b i) else 0)
      = pmlPart F ofH (now p) (prev p) a i - pmlPart F ofH (now q) (prev q) b i := by
    intro p q a b
    unfold pmlPart
    rw [← Finset.sum_sub_distrib]
    apply Finset.sum_congr rfl
    intro k _
    unfold pmlDiff
    split_ifs <;> ring
  match c with
  | 0 =>
    refine (congrArg (fun x => F.g.curl ofH now 0 i + x) (key 2 1 1 2)).trans ?_
    change (F.g.diffFn ofH (now 2) 1 i - F.g.diffFn ofH (now 1) 2 i) + _ = _
    simp only [stretchedCurl]; ring
  | 1 =>
    refine (congrArg (fun x => F.g.curl ofH now 1 i + x) (key 0 2 2 0)).trans ?_
    change (F.g.diffFn ofH (now 0) 2 i - F.g.diffFn ofH (now 2) 0 i) + _ = _
    simp only [stretchedCurl]; ring
  | 2 =>
    refine (congrArg (fun x => F.g.curl ofH now 2 i + x) (key 1 0 0 1)).trans ?_
    change (F.g.diffFn ofH (now 1) 0 i - F.g.diffFn ofH (now 0) 1 i) + _ = _
    simp only [stretchedCurl]; ring

/-- C85, the whole source-free update with PML, in both modes: from a state whose PML arrays were stored
when the fields were `ePrev`, `hPrev`, one step is Yee's update with the stretched curls, `+ dt / eps` for
the electric field and `- dt` for the magnetic field; it stores the arrays for the fields it used. -/
theorem C85_update_partial (F : Fdtd s) (jax : Bool) (e h ePrev hPrev : VField s) :
    let stored := fun (ofH : Bool) (f : VField s) (k : Fin F.npml) => pmlNext (pmlDiff F.g (F.pml k) ofH) f
    let out := F.step jax (e, h, stored true hPrev, stored false ePrev) []
    (∀ c i, out.1 c i = e c i + F.dt / F.epsT c i * stretchedCurl F true h hPrev c i)
      ∧ (∀ c i, out.2.1 c i = h c i - F.dt * stretchedCurl F false out.1 ePrev c i)
      ∧ out.2.2.1 = stored true h ∧ out.2.2.2 = stored false out.1 := by
  intro stored out
  refine ⟨?_, ?_, rfl, rfl⟩
  · intro c i
    change (List.finRange F.npml).foldl (fun f k => addOn (F.pml k).mask (fun c i => F.dt / F.epsT c i)
      (pmlCombine ((F.pml k).b true) (stored true h k) (stored true hPrev k)) f)
      (fun c i => e c i + F.g.curl true h c i / F.epsT c i * F.dt) c i = _
    rw [foldl_addOn, ← sum_combine]
    ring
  · intro c i
    change (List.finRange F.npml).foldl (fun f k => addOn (F.pml k).mask (fun c i => -F.dt)
      (pmlCombine ((F.pml k).b false) (stored false out.1 k) (stored false ePrev k)) f)
      (fun c i => h c i - F.g.curl false out.1 c i * F.dt) c i = _
    rw [foldl_addOn, ← sum_combine]
    ring

end Simphox
