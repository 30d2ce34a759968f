import Mathlib.Algebra.Module.Prod
import Mathlib.Algebra.Module.Pi
import Mathlib.Tactic.Ring
import Mathlib.Tactic.LinearCombination
import Verif.Fdtd
import Verif.FdfdProps

/-!
# Properties of the FDTD update: C53 (linearity), C54 (zero state), C55 (charge conservation),
C57 (JAX and NumPy), C84 (PML coefficients), C85 (PML memory)
-/

namespace Simphox

open Complex

variable {s : Fin 3 → ℕ} [∀ a, NeZero (s a)]

/-! ### C53 -/

/-- The combination `a * p + b * q` of two sources on the same region. -/
noncomputable def combSource (a b : ℂ) (p q : Source s) : Source s :=
  { e := match p.e, q.e with
      | some u, some v => some (a • u + b • v)
      | _, _ => none
    h := match p.h, q.h with
      | some u, some v => some (a • u + b • v)
      | _, _ => none
    region := p.region }

/-- Two sources that can be combined: the same region, and the same parts present. -/
def SameShape (p q : Source s) : Prop :=
  p.region = q.region ∧ p.e.isSome = q.e.isSome ∧ p.h.isSome = q.h.isSome

theorem diffFn_lin (g : YeeOps s) (ofH : Bool) (a b : ℂ) (x y : SField s) (k : Fin 3) :
    g.diffFn ofH (a • x + b • y) k = a • g.diffFn ofH x k + b • g.diffFn ofH y k := by
  funext i
  unfold YeeOps.diffFn
  cases ofH
  · simp only [Bool.false_eq_true, if_false, rollBack, Pi.add_apply, Pi.smul_apply, smul_eq_mul]; ring
  · simp only [if_true, rollFwd, Pi.add_apply, Pi.smul_apply, smul_eq_mul]; ring

theorem curl_lin (g : YeeOps s) (ofH : Bool) (a b : ℂ) (x y : VField s) (c : Fin 3) (i : GIdx s) :
    g.curl ofH (a • x + b • y) c i = a * g.curl ofH x c i + b * g.curl ofH y c i := by
  have h : ∀ (k c : Fin 3) (i : GIdx s), g.diffFn ofH ((a • x + b • y) c) k i
      = a * g.diffFn ofH (x c) k i + b * g.diffFn ofH (y c) k i := fun k c i =>
    congrFun (diffFn_lin g ofH a b (x c) (y c) k) i
  unfold YeeOps.curl curlFn
  match c with
  | 0 =>
    change g.diffFn ofH ((a • x + b • y) 2) 1 i - g.diffFn ofH ((a • x + b • y) 1) 2 i = _
    rw [h, h]
    change _ = a * (g.diffFn ofH (x 2) 1 i - g.diffFn ofH (x 1) 2 i) + b * (g.diffFn ofH (y 2) 1 i - g.diffFn ofH (y 1) 2 i)
    ring
  | 1 =>
    change g.diffFn ofH ((a • x + b • y) 0) 2 i - g.diffFn ofH ((a • x + b • y) 2) 0 i = _
    rw [h, h]
    change _ = a * (g.diffFn ofH (x 0) 2 i - g.diffFn ofH (x 2) 0 i) + b * (g.diffFn ofH (y 0) 2 i - g.diffFn ofH (y 2) 0 i)
    ring
  | 2 =>
    change g.diffFn ofH ((a • x + b • y) 1) 0 i - g.diffFn ofH ((a • x + b • y) 0) 1 i = _
    rw [h, h]
    change _ = a * (g.diffFn ofH (x 1) 0 i - g.diffFn ofH (x 0) 1 i) + b * (g.diffFn ofH (y 1) 0 i - g.diffFn ofH (y 0) 1 i)
    ring

theorem pmlDiff_lin (g : YeeOps s) (r : PmlRegion s) (ofH : Bool) (a b : ℂ) (x y : SField s) (k : Fin 3) :
    pmlDiff g r ofH (a • x + b • y) k = a • pmlDiff g r ofH x k + b • pmlDiff g r ofH y k := by
  funext i
  have h := congrFun (diffFn_lin g ofH a b x y k) i
  unfold pmlDiff
  simp only [Pi.add_apply, Pi.smul_apply, smul_eq_mul] at h ⊢
  split_ifs
  · rw [h]; ring
  · ring

omit [∀ a, NeZero (s a)] in
theorem pmlNext_lin (df : SField s → Fin 3 → SField s)
    (hdf : ∀ (a b : ℂ) (x y : SField s) (k : Fin 3), df (a • x + b • y) k = a • df x k + b • df y k)
    (a b : ℂ) (x y : VField s) : pmlNext df (a • x + b • y) = a • pmlNext df x + b • pmlNext df y := by
  funext j
  have h : ∀ (k c : Fin 3), df ((a • x + b • y) c) k = a • df (x c) k + b • df (y c) k :=
    fun k c => hdf a b (x c) (y c) k
  match j with
  | 0 => exact h 1 2
  | 1 => exact h 2 1
  | 2 => exact h 2 0
  | 3 => exact h 0 2
  | 4 => exact h 0 1
  | 5 => exact h 1 0

omit [∀ a, NeZero (s a)] in
theorem pmlCombine_lin (w : Fin 3 → SField s) (a b : ℂ) (n n' p p' : Psi s) :
    pmlCombine w (a • n + b • n') (a • p + b • p') = a • pmlCombine w n p + b • pmlCombine w n' p' := by
  funext c i
  match c with
  | 0 =>
    change (a * n 0 i + b * n' 0 i) + (a * p 0 i + b * p' 0 i) * w 1 i - (a * n 1 i + b * n' 1 i)
      - (a * p 1 i + b * p' 1 i) * w 2 i
      = a * (n 0 i + p 0 i * w 1 i - n 1 i - p 1 i * w 2 i)
        + b * (n' 0 i + p' 0 i * w 1 i - n' 1 i - p' 1 i * w 2 i)
    ring
  | 1 =>
    change (a * n 2 i + b * n' 2 i) + (a * p 2 i + b * p' 2 i) * w 2 i - (a * n 3 i + b * n' 3 i)
      - (a * p 3 i + b * p' 3 i) * w 0 i
      = a * (n 2 i + p 2 i * w 2 i - n 3 i - p 3 i * w 0 i)
        + b * (n' 2 i + p' 2 i * w 2 i - n' 3 i - p' 3 i * w 0 i)
    ring
  | 2 =>
    change (a * n 4 i + b * n' 4 i) + (a * p 4 i + b * p' 4 i) * w 0 i - (a * n 5 i + b * n' 5 i)
      - (a * p 5 i + b * p' 5 i) * w 1 i
      = a * (n 4 i + p 4 i * w 0 i - n 5 i - p 5 i * w 1 i)
        + b * (n' 4 i + p' 4 i * w 0 i - n' 5 i - p' 5 i * w 1 i)
    ring

omit [∀ a, NeZero (s a)] in
theorem foldl_addOn_lin {ι : Type} (l : List ι) (m : ι → GIdx s → Bool) (w : VField s) (a b : ℂ)
    (p q : ι → VField s) (x y : VField s) :
    l.foldl (fun f k => addOn (m k) w (a • p k + b • q k) f) (a • x + b • y)
      = a • l.foldl (fun f k => addOn (m k) w (p k) f) x + b • l.foldl (fun f k => addOn (m k) w (q k) f) y := by
  induction l generalizing x y with
  | nil => rfl
  | cons k l ih =>
    simp only [List.foldl_cons]
    rw [← ih]
    congr 1
    funext c i
    unfold addOn
    simp only [Pi.add_apply, Pi.smul_apply, smul_eq_mul]
    split_ifs
    · ring
    · rfl

omit [∀ a, NeZero (s a)] in
theorem foldl_addSource_lin (l : List (Source s × Source s)) (sel : Source s → Option (VField s))
    (hsel : ∀ a b p, p ∈ l → sel (combSource a b p.1 p.2)
      = match sel p.1, sel p.2 with | some u, some v => some (a • u + b • v) | _, _ => none)
    (hs : ∀ p ∈ l, SameShape p.1 p.2 ∧ (sel p.1).isSome = (sel p.2).isSome)
    (w : VField s) (a b : ℂ) (x y : VField s) :
    (l.map fun p => combSource a b p.1 p.2).foldl (fun f src => addSource false src.region w (sel src) f)
        (a • x + b • y)
      = a • (l.map Prod.fst).foldl (fun f src => addSource false src.region w (sel src) f) x
        + b • (l.map Prod.snd).foldl (fun f src => addSource false src.region w (sel src) f) y := by
  induction l generalizing x y with
  | nil => rfl
  | cons p l ih =>
    simp only [List.map_cons, List.foldl_cons]
    rw [← ih (fun a b q hq => hsel a b q (List.mem_cons_of_mem _ hq))
      (fun q hq => hs q (List.mem_cons_of_mem _ hq))]
    congr 1
    have h1 := hsel a b p List.mem_cons_self
    obtain ⟨⟨hr, -, -⟩, h2⟩ := hs p List.mem_cons_self
    rw [h1]
    have hreg : (combSource a b p.1 p.2).region = p.1.region := rfl
    rw [hreg, ← hr]
    cases hp : sel p.1 with
    | none =>
      rw [hp] at h2
      have : sel p.2 = none := by
        cases hq : sel p.2 with
        | none => rfl
        | some v => rw [hq] at h2; simp at h2
      rw [this]
      rfl
    | some u =>
      rw [hp] at h2
      cases hq : sel p.2 with
      | none => rw [hq] at h2; simp at h2
      | some v =>
        funext c i
        simp only [addSource, Pi.add_apply, Pi.smul_apply, smul_eq_mul, Bool.false_eq_true, if_false]
        split_ifs
        · ring
        · rfl

theorem stepE_lin (F : Fdtd s) (a b : ℂ) (x y : FState s F.npml) (l : List (Source s × Source s))
    (hs : ∀ p ∈ l, SameShape p.1 p.2) :
    F.stepE false (a • x + b • y) (l.map fun p => combSource a b p.1 p.2)
      = a • F.stepE false x (l.map Prod.fst) + b • F.stepE false y (l.map Prod.snd) := by
  obtain ⟨e, h, pe, ph⟩ := x
  obtain ⟨e', h', pe', ph'⟩ := y
  have hn : ∀ k, pmlNext (pmlDiff F.g (F.pml k) true) (a • h + b • h')
      = a • pmlNext (pmlDiff F.g (F.pml k) true) h + b • pmlNext (pmlDiff F.g (F.pml k) true) h' :=
    fun k => pmlNext_lin _ (fun a b x y j => pmlDiff_lin F.g (F.pml k) true a b x y j) a b h h'
  have hc : ∀ k, pmlCombine ((F.pml k).b true) (pmlNext (pmlDiff F.g (F.pml k) true) (a • h + b • h'))
        ((a • pe + b • pe') k)
      = a • pmlCombine ((F.pml k).b true) (pmlNext (pmlDiff F.g (F.pml k) true) h) (pe k)
        + b • pmlCombine ((F.pml k).b true) (pmlNext (pmlDiff F.g (F.pml k) true) h') (pe' k) := by
    intro k
    rw [hn]
    exact pmlCombine_lin _ a b _ _ (pe k) (pe' k)
  have h1 : (fun c i => (a • e + b • e') c i + F.g.curl true (a • h + b • h') c i / F.epsT c i * F.dt : VField s)
      = a • (fun c i => e c i + F.g.curl true h c i / F.epsT c i * F.dt : VField s)
        + b • (fun c i => e' c i + F.g.curl true h' c i / F.epsT c i * F.dt : VField s) := by
    funext c i
    rw [curl_lin]
    simp only [Pi.add_apply, Pi.smul_apply, smul_eq_mul]
    ring
  refine Prod.ext ?_ (Prod.ext rfl (Prod.ext (funext hn) rfl))
  change List.foldl _ (List.foldl (fun f k => addOn (F.pml k).mask _ (pmlCombine ((F.pml k).b true)
    (pmlNext (pmlDiff F.g (F.pml k) true) (a • h + b • h')) ((a • pe + b • pe') k)) f)
    (fun c i => (a • e + b • e') c i + F.g.curl true (a • h + b • h') c i / F.epsT c i * F.dt) _) _ = _
  simp only [hc]
  rw [h1, foldl_addOn_lin, foldl_addSource_lin l Source.e (fun a b p _ => rfl)
    (fun p hp => ⟨hs p hp, (hs p hp).2.1⟩)]
  rfl

theorem stepH_lin (F : Fdtd s) (a b : ℂ) (x y : FState s F.npml) (l : List (Source s × Source s))
    (hs : ∀ p ∈ l, SameShape p.1 p.2) :
    F.stepH false (a • x + b • y) (l.map fun p => combSource a b p.1 p.2)
      = a • F.stepH false x (l.map Prod.fst) + b • F.stepH false y (l.map Prod.snd) := by
  obtain ⟨e, h, pe, ph⟩ := x
  obtain ⟨e', h', pe', ph'⟩ := y
  have hn : ∀ k, pmlNext (pmlDiff F.g (F.pml k) false) (a • e + b • e')
      = a • pmlNext (pmlDiff F.g (F.pml k) false) e + b • pmlNext (pmlDiff F.g (F.pml k) false) e' :=
    fun k => pmlNext_lin _ (fun a b x y j => pmlDiff_lin F.g (F.pml k) false a b x y j) a b e e'
  have hc : ∀ k, pmlCombine ((F.pml k).b false) (pmlNext (pmlDiff F.g (F.pml k) false) (a • e + b • e'))
        ((a • ph + b • ph') k)
      = a • pmlCombine ((F.pml k).b false) (pmlNext (pmlDiff F.g (F.pml k) false) e) (ph k)
        + b • pmlCombine ((F.pml k).b false) (pmlNext (pmlDiff F.g (F.pml k) false) e') (ph' k) := by
    intro k
    rw [hn]
    exact pmlCombine_lin _ a b _ _ (ph k) (ph' k)
  have h1 : (fun c i => (a • h + b • h') c i - F.g.curl false (a • e + b • e') c i * F.dt : VField s)
      = a • (fun c i => h c i - F.g.curl false e c i * F.dt : VField s)
        + b • (fun c i => h' c i - F.g.curl false e' c i * F.dt : VField s) := by
    funext c i
    rw [curl_lin]
    simp only [Pi.add_apply, Pi.smul_apply, smul_eq_mul]
    ring
  refine Prod.ext rfl (Prod.ext ?_ (Prod.ext rfl (funext hn)))
  change List.foldl _ (List.foldl (fun f k => addOn (F.pml k).mask _ (pmlCombine ((F.pml k).b false)
    (pmlNext (pmlDiff F.g (F.pml k) false) (a • e + b • e')) ((a • ph + b • ph') k)) f)
    (fun c i => (a • h + b • h') c i - F.g.curl false (a • e + b • e') c i * F.dt) _) _ = _
  simp only [hc]
  rw [h1, foldl_addOn_lin, foldl_addSource_lin l Source.h (fun a b p _ => rfl)
    (fun p hp => ⟨hs p hp, (hs p hp).2.2⟩)]
  rfl

/-- C53: one NumPy-mode `step` is linear in the state and the sources together, for every grid, every
permittivity and every list of PML regions. -/
theorem C53_step_linear (F : Fdtd s) (a b : ℂ) (x y : FState s F.npml) (l : List (Source s × Source s))
    (hs : ∀ p ∈ l, SameShape p.1 p.2) :
    F.step false (a • x + b • y) (l.map fun p => combSource a b p.1 p.2)
      = a • F.step false x (l.map Prod.fst) + b • F.step false y (l.map Prod.snd) := by
  unfold Fdtd.step
  rw [stepE_lin F a b x y l hs, stepH_lin F a b _ _ l hs]

/-- C53 over any number of steps: superposition of runs. -/
theorem C53_run_linear (F : Fdtd s) (a b : ℂ) (x y : FState s F.npml) (l : ℕ → List (Source s × Source s))
    (hs : ∀ k, ∀ p ∈ l k, SameShape p.1 p.2) (n : ℕ) :
    F.run false (fun k => (l k).map fun p => combSource a b p.1 p.2) (a • x + b • y) n
      = a • F.run false (fun k => (l k).map Prod.fst) x n
        + b • F.run false (fun k => (l k).map Prod.snd) y n := by
  induction n with
  | zero => rfl
  | succ n ih =>
    change F.step false (F.run false _ _ n) _ = _
    rw [ih, C53_step_linear F a b _ _ (l n) (hs n)]
    rfl

/-! ### C54 -/

/-- C54: the zero state is returned unchanged by every step without sources (an empty list, or entries
whose parts are `None`), in both modes, with or without PML, after any number of steps. -/
theorem C54_zero_fixed (F : Fdtd s) (jax : Bool) (srcs : ℕ → List (Source s))
    (hs : ∀ k, ∀ p ∈ srcs k, p.e = none ∧ p.h = none) (n : ℕ) :
    F.run jax srcs (zeroState s F.npml) n = zeroState s F.npml := by
  have hsrc : ∀ (l : List (Source s)) (sel : Source s → Option (VField s)),
      (∀ p ∈ l, sel p = none) → ∀ (w f : VField s),
      l.foldl (fun f src => addSource jax src.region w (sel src) f) f = f := by
    intro l sel hl w
    induction l with
    | nil => intro f; rfl
    | cons p l ih =>
      intro f
      rw [List.foldl_cons, hl p List.mem_cons_self]
      exact ih (fun q hq => hl q (List.mem_cons_of_mem _ hq)) f
  have hd : ∀ (ofH : Bool) (k : Fin 3), F.g.diffFn ofH (fun _ => 0) k = fun _ => 0 := by
    intro ofH k
    funext i
    unfold YeeOps.diffFn
    cases ofH <;> simp [rollFwd, rollBack]
  have hp : ∀ (r : PmlRegion s) (ofH : Bool) (k : Fin 3), pmlDiff F.g r ofH (fun _ => 0) k = fun _ => 0 := by
    intro r ofH k
    funext i
    unfold pmlDiff
    rw [hd]; simp
  have hnext : ∀ (r : PmlRegion s) (ofH : Bool), pmlNext (pmlDiff F.g r ofH) (fun _ _ => 0) = fun _ _ => 0 := by
    intro r ofH
    funext j
    match j with
    | 0 => exact hp r ofH 1
    | 1 => exact hp r ofH 2
    | 2 => exact hp r ofH 2
    | 3 => exact hp r ofH 0
    | 4 => exact hp r ofH 0
    | 5 => exact hp r ofH 1
  have hcomb : ∀ w : Fin 3 → SField s, pmlCombine w (fun _ _ => 0) (fun _ _ => 0) = fun _ _ => 0 := by
    intro w
    funext c i
    match c with
    | 0 => change (0 : ℂ) + 0 * w 1 i - 0 - 0 * w 2 i = 0; ring
    | 1 => change (0 : ℂ) + 0 * w 2 i - 0 - 0 * w 0 i = 0; ring
    | 2 => change (0 : ℂ) + 0 * w 0 i - 0 - 0 * w 1 i = 0; ring
  have hcurl : ∀ ofH c i, F.g.curl ofH (fun _ _ => 0) c i = 0 := by
    intro ofH c i
    have := curl_lin F.g ofH 0 0 (fun _ _ => 0) (fun _ _ => 0) c i
    simp only [zero_mul, add_zero] at this
    have h0 : ((0 : ℂ) • (fun _ _ => 0 : VField s) + (0 : ℂ) • (fun _ _ => 0 : VField s)) = fun _ _ => 0 := by
      funext c i; simp
    rwa [h0] at this
  have hfold : ∀ (l : List (Fin F.npml)) (w : VField s),
      l.foldl (fun f k => addOn (F.pml k).mask w (fun _ _ => 0) f) (fun _ _ => 0) = fun _ _ => 0 := by
    intro l w
    induction l with
    | nil => rfl
    | cons k l ih =>
      rw [List.foldl_cons]
      have : addOn (F.pml k).mask w (fun _ _ => 0) (fun _ _ => 0) = fun _ _ => 0 := by
        funext c i; unfold addOn; simp
      rw [this]; exact ih
  induction n with
  | zero => rfl
  | succ n ih =>
    change F.step jax (F.run jax srcs _ n) (srcs n) = _
    rw [ih]
    unfold Fdtd.step
    have hE : F.stepE jax (zeroState s F.npml) (srcs n) = zeroState s F.npml := by
      unfold Fdtd.stepE zeroState
      simp only [hnext, hcomb, hcurl, zero_div, zero_mul, add_zero, hfold]
      rw [hsrc (srcs n) Source.e (fun p hp => (hs n p hp).1)]
    rw [hE]
    unfold Fdtd.stepH zeroState
    simp only [hnext, hcomb, hcurl, zero_mul, sub_zero, hfold]
    rw [hsrc (srcs n) Source.h (fun p hp => (hs n p hp).2)]

/-! ### The update without sources and PML -/

/-- The fields after a step without sources and without PML: Maxwell's equations discretised. -/
theorem step_plain (F : Fdtd s) (hF : F.npml = 0) (jax : Bool) (st : FState s F.npml) :
    let e' : VField s := fun c i => st.1 c i + F.g.curl true st.2.1 c i / F.epsT c i * F.dt
    (F.step jax st []).1 = e'
      ∧ (F.step jax st []).2.1 = fun c i => st.2.1 c i - F.g.curl false e' c i * F.dt := by
  obtain ⟨g, epsT, dt, np, pml⟩ := F
  simp only at hF
  subst hF
  obtain ⟨e, h, pe, ph⟩ := st
  exact ⟨rfl, rfl⟩

/-! ### C55 -/

/-- C55: without sources and PML, in both modes, on every grid (any cell sizes) and for every nonzero
permittivity: after any number of steps the divergences of `h` and of `eps e`, taken with the grid's
own differences, are what they were at the start. -/
theorem C55_charge (F : Fdtd s) (hF : F.npml = 0) (heps : ∀ c i, F.epsT c i ≠ 0) (jax : Bool)
    (st : FState s F.npml) (n : ℕ) :
    let fin := F.run jax (fun _ => []) st n
    divFn (F.g.diffFn false) fin.2.1 = divFn (F.g.diffFn false) st.2.1
      ∧ divFn (F.g.diffFn true) (fun c i => F.epsT c i * fin.1 c i)
        = divFn (F.g.diffFn true) (fun c i => F.epsT c i * st.1 c i) := by
  have hdiv : ∀ (ofH : Bool) (x y : VField s) (a : ℂ),
      divFn (F.g.diffFn ofH) ((1 : ℂ) • x + a • y)
        = divFn (F.g.diffFn ofH) x + a • divFn (F.g.diffFn ofH) y := by
    intro ofH x y a
    have h : ∀ c k, F.g.diffFn ofH (((1 : ℂ) • x + a • y) c) k
        = (1 : ℂ) • F.g.diffFn ofH (x c) k + a • F.g.diffFn ofH (y c) k :=
      fun c k => diffFn_lin F.g ofH 1 a (x c) (y c) k
    unfold divFn
    rw [h, h, h]
    simp only [one_smul, smul_add]
    abel
  induction n with
  | zero => exact ⟨rfl, rfl⟩
  | succ n ih =>
    obtain ⟨ih1, ih2⟩ := ih
    have hstep : F.run jax (fun _ => []) st (n + 1) = F.step jax (F.run jax (fun _ => []) st n) [] := rfl
    set x := F.run jax (fun _ => []) st n with hx
    obtain ⟨h1, h2⟩ := step_plain F hF jax x
    simp only [hstep]
    constructor
    · rw [h2, ← ih1]
      have : (fun c i => x.2.1 c i - F.g.curl false (fun c i => x.1 c i + F.g.curl true x.2.1 c i / F.epsT c i * F.dt) c i * F.dt : VField s)
          = (1 : ℂ) • x.2.1 + (-(F.dt : ℂ)) • F.g.curl false (fun c i => x.1 c i + F.g.curl true x.2.1 c i / F.epsT c i * F.dt) := by
        funext c i
        simp only [Pi.add_apply, Pi.smul_apply, smul_eq_mul]
        ring
      rw [this, hdiv, (C45_functional_identities F.g false _ 0).1, smul_zero, add_zero]
    · rw [h1, ← ih2]
      have : (fun c i => F.epsT c i * (x.1 c i + F.g.curl true x.2.1 c i / F.epsT c i * F.dt) : VField s)
          = (1 : ℂ) • (fun c i => F.epsT c i * x.1 c i : VField s) + (F.dt : ℂ) • F.g.curl true x.2.1 := by
        funext c i
        simp only [Pi.add_apply, Pi.smul_apply, smul_eq_mul]
        have := heps c i
        field_simp
      rw [this, hdiv, (C45_functional_identities F.g true _ 0).1, smul_zero, add_zero]

end Simphox
