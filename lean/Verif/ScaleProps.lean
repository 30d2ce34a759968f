import Verif.SymmetryProps
import Verif.PmlPowerProps

/-!
# The unit of length does not matter (C133)

Maxwell's equations have no length scale: multiplying all lengths (cells and wavelength) by a factor
changes nothing but the scale of the fields.
-/

namespace Simphox

open Complex Matrix

variable {s : Fin 3 → ℕ}

/-! ### Specification -/

/-- The same grid in another unit of length: every cell is `a` times as long. -/
noncomputable def rescale (a : ℝ) (g : YeeOps s) : YeeOps s := { bloch := g.bloch, dx := fun back ax i => a * g.dx back ax i }

/-- A source with all values multiplied. -/
noncomputable def scaleSource (k : ℂ) (q : Source s) : Source s :=
  { e := q.e.map fun v c i => k * v c i, h := q.h.map fun v c i => k * v c i, region := q.region }

/-! ### Lemmas -/

theorem deriv_rescale (a : ℝ) (g : YeeOps s) (back : Bool) (ax : Fin 3) :
    (rescale a g).deriv back ax = ((a : ℂ)⁻¹) • g.deriv back ax := by
  unfold YeeOps.deriv rescale
  simp only
  rw [← Matrix.smul_mul]
  congr 1
  rw [← Matrix.diagonal_smul]
  congr 1
  funext i
  simp [mul_comm]

theorem curlBlock_smul (d : Fin 3 → Matrix (GIdx s) (GIdx s) ℂ) (k : ℂ) (c c' : Fin 3) :
    curlBlock (fun a => k • d a) c c' = k • curlBlock d c c' := by
  fin_cases c <;> fin_cases c' <;> simp [curlBlock]

theorem d2curlOp_smul (d : Fin 3 → Matrix (GIdx s) (GIdx s) ℂ) (k : ℂ) : d2curlOp (fun a => k • d a) = k • d2curlOp d := by
  ext p q
  unfold d2curlOp
  rw [curlBlock_smul]; rfl

theorem fdfdMat_rescale (a : ℝ) (g : YeeOps s) (k0 : ℝ) (epsT : VField s) :
    fdfdMat (rescale a g) (k0 / a) epsT = ((a : ℂ)⁻¹ ^ 2) • fdfdMat g k0 epsT := by
  unfold fdfdMat
  have h : ∀ b, (rescale a g).deriv b = fun ax => ((a : ℂ)⁻¹) • g.deriv b ax := fun b => funext fun ax => deriv_rescale a g b ax
  rw [h, h, d2curlOp_smul, d2curlOp_smul, Matrix.smul_mul, Matrix.mul_smul, smul_smul, smul_sub, smul_smul, ← sq]
  congr 2
  push_cast; ring

theorem fdfdMatEz_rescale (a : ℝ) (g : YeeOps s) (k0 : ℝ) (epsT : VField s) :
    fdfdMatEz (rescale a g) (k0 / a) epsT = ((a : ℂ)⁻¹ ^ 2) • fdfdMatEz g k0 epsT := by
  unfold fdfdMatEz
  simp only [deriv_rescale, ← smul_neg, Matrix.smul_mul, Matrix.mul_smul, smul_smul, smul_sub, ← sq]
  congr 2
  push_cast; ring

theorem fdfdMatHz_rescale (a : ℝ) (g : YeeOps s) (k0 : ℝ) (epsT : VField s) :
    fdfdMatHz (rescale a g) (k0 / a) epsT = ((a : ℂ)⁻¹ ^ 2) • fdfdMatHz g k0 epsT := by
  unfold fdfdMatHz
  simp only [deriv_rescale, ← smul_neg, Matrix.smul_mul, Matrix.mul_smul, smul_smul, smul_sub, ← sq]
  congr 2
  push_cast; ring

theorem solver_rescale {ι : Type} [Fintype ι] [DecidableEq ι] (a k0 : ℝ) (ha : a ≠ 0) (A A' : Matrix ι ι ℂ) (hA : A' = ((a : ℂ)⁻¹ ^ 2) • A)
    (solver : Solver ι) (hs : ∀ b, A *ᵥ solver A b = b) (hs' : ∀ b, A' *ᵥ solver A' b = b) (src : ι → ℂ) :
    (solver A' fun p => ((k0 / a : ℝ) : ℂ) * src p) = fun p => (a : ℂ) * solver A (fun p => (k0 : ℂ) * src p) p := by
  have ha' : (a : ℂ) ≠ 0 := by exact_mod_cast ha
  have hsurj : Function.Surjective A'.mulVec := fun b => ⟨_, hs' b⟩
  have hinj : Function.Injective A'.mulVec := (LinearMap.injective_iff_surjective (f := A'.mulVecLin)).2 hsurj
  apply hinj
  rw [hs']
  have : (fun p => (a : ℂ) * solver A (fun p => (k0 : ℂ) * src p) p) = (a : ℂ) • solver A (fun p => (k0 : ℂ) * src p) := rfl
  rw [this, Matrix.mulVec_smul, hA, Matrix.smul_mulVec, hs]
  funext p
  simp only [Pi.smul_apply, smul_eq_mul]
  push_cast
  field_simp

variable [∀ a, NeZero (s a)]

theorem diffFn_rescale (a : ℝ) (g : YeeOps s) (ofH : Bool) (f : SField s) (ax : Fin 3) (i : GIdx s) :
    (rescale a g).diffFn ofH f ax i = g.diffFn ofH f ax i / a := by
  unfold YeeOps.diffFn rescale
  cases ofH
  · simp only [Bool.false_eq_true, if_false]; rw [div_div, mul_comm]
  · simp only [if_true]; rw [div_div, mul_comm]

theorem curl_rescale (a : ℝ) (g : YeeOps s) (ofH : Bool) (f : VField s) (c : Fin 3) (i : GIdx s) :
    (rescale a g).curl ofH f c i = g.curl ofH f c i / a := by
  have h := diffFn_rescale a g ofH
  unfold YeeOps.curl curlFn
  match c with
  | 0 => show (rescale a g).diffFn ofH (f 2) 1 i - (rescale a g).diffFn ofH (f 1) 2 i = (g.diffFn ofH (f 2) 1 i - g.diffFn ofH (f 1) 2 i) / a
         rw [h, h]; ring
  | 1 => show (rescale a g).diffFn ofH (f 0) 2 i - (rescale a g).diffFn ofH (f 2) 0 i = (g.diffFn ofH (f 0) 2 i - g.diffFn ofH (f 2) 0 i) / a
         rw [h, h]; ring
  | 2 => show (rescale a g).diffFn ofH (f 1) 0 i - (rescale a g).diffFn ofH (f 0) 1 i = (g.diffFn ofH (f 1) 0 i - g.diffFn ofH (f 0) 1 i) / a
         rw [h, h]; ring

/-! ### C133 -/

/-- C133, FDFD in three dimensions: with all cells and the wavelength multiplied by `a` (so the wave number is
`k0 / a`), the same source gives `a` times the fields. Any cells (also complex ones), any Bloch factors,
exact solvers. -/
theorem C133_fdfd_partial (a : ℝ) (ha : a ≠ 0) (g : YeeOps s) (k0 : ℝ) (epsT src : VField s) (solver : Solver (Fin 3 × GIdx s))
    (hs : ∀ b, fdfdMat g k0 epsT *ᵥ solver (fdfdMat g k0 epsT) b = b)
    (hs' : ∀ b, fdfdMat (rescale a g) (k0 / a) epsT *ᵥ solver (fdfdMat (rescale a g) (k0 / a) epsT) b = b) :
    solve3d (rescale a g) (k0 / a) epsT solver src =
      (fun c i => a * (solve3d g k0 epsT solver src).1 c i, fun c i => a * (solve3d g k0 epsT solver src).2 c i) := by
  have ha' : (a : ℂ) ≠ 0 := by exact_mod_cast ha
  have h := solver_rescale a k0 ha _ _ (fdfdMat_rescale a g k0 epsT) solver hs hs' (vflat src)
  have he : (solve3d (rescale a g) (k0 / a) epsT solver src).1 = fun c i => a * (solve3d g k0 epsT solver src).1 c i := by
    funext c i
    exact congrFun h (c, i)
  refine Prod.ext he ?_
  funext c i
  show (rescale a g).curl false (solve3d (rescale a g) (k0 / a) epsT solver src).1 c i / (I * ((k0 / a : ℝ) : ℂ)) = a * (g.curl false (solve3d g k0 epsT solver src).1 c i / (I * k0))
  rw [he, curl_rescale, curl_smul']
  push_cast
  by_cases hk : (k0 : ℂ) = 0
  · simp [hk]
  · field_simp

/-- C133, FDFD in one and two dimensions, both polarisations. -/
theorem C133_fdfd_2d_partial (a : ℝ) (ha : a ≠ 0) (g : YeeOps s) (k0 : ℝ) (epsT : VField s) (tm : Bool) (src : SField s) (solver : Solver (GIdx s))
    (hs : ∀ b, (if tm then fdfdMatHz g k0 epsT else fdfdMatEz g k0 epsT) *ᵥ solver (if tm then fdfdMatHz g k0 epsT else fdfdMatEz g k0 epsT) b = b)
    (hs' : ∀ b, (if tm then fdfdMatHz (rescale a g) (k0 / a) epsT else fdfdMatEz (rescale a g) (k0 / a) epsT) *ᵥ
      solver (if tm then fdfdMatHz (rescale a g) (k0 / a) epsT else fdfdMatEz (rescale a g) (k0 / a) epsT) b = b) :
    solve2d (rescale a g) (k0 / a) epsT tm solver src =
      (fun c i => a * (solve2d g k0 epsT tm solver src).1 c i, fun c i => a * (solve2d g k0 epsT tm solver src).2 c i) := by
  have ha' : (a : ℂ) ≠ 0 := by exact_mod_cast ha
  have hM : (if tm then fdfdMatHz (rescale a g) (k0 / a) epsT else fdfdMatEz (rescale a g) (k0 / a) epsT) =
      ((a : ℂ)⁻¹ ^ 2) • (if tm then fdfdMatHz g k0 epsT else fdfdMatEz g k0 epsT) := by
    split_ifs
    · exact fdfdMatHz_rescale a g k0 epsT
    · exact fdfdMatEz_rescale a g k0 epsT
  have h := solver_rescale a k0 ha _ _ hM solver hs hs' src
  set fz := solver (if tm then fdfdMatHz g k0 epsT else fdfdMatEz g k0 epsT) fun i => (k0 : ℂ) * src i with hfz
  have hd : ∀ ofH ax i, (rescale a g).diffFn ofH (fun p => (a : ℂ) * fz p) ax i = g.diffFn ofH fz ax i := by
    intro ofH ax i
    rw [diffFn_rescale]
    have := congrFun (diffFn_lin g ofH a 0 fz fz ax) i
    simp only [zero_smul, add_zero, Pi.smul_apply, smul_eq_mul] at this
    have e : (a : ℂ) • fz = fun p => (a : ℂ) * fz p := rfl
    rw [e] at this
    rw [this]; field_simp
  have hk : ∀ x y : ℂ, x / (I * ((k0 / a : ℝ) : ℂ) * y) = a * (x / (I * k0 * y)) := by
    intro x y
    push_cast
    rw [show I * ((k0 : ℂ) / a) * y = (I * k0 * y) / a by ring, div_div_eq_mul_div, mul_comm x, mul_div_assoc]
  have hk1 : ∀ x : ℂ, x / (I * ((k0 / a : ℝ) : ℂ)) = a * (x / (I * k0)) := by
    intro x
    have := hk x 1
    simpa only [mul_one] using this
  cases tm
  · simp only [Bool.false_eq_true, if_false] at h hfz
    refine Prod.ext ?_ ?_
    · funext c i
      show (![0, 0, solver (fdfdMatEz (rescale a g) (k0 / a) epsT) fun i => ((k0 / a : ℝ) : ℂ) * src i] : VField s) c i
        = a * (![0, 0, solver (fdfdMatEz g k0 epsT) fun i => (k0 : ℂ) * src i] : VField s) c i
      rw [h]
      match c with
      | 0 => simp
      | 1 => simp
      | 2 => rfl
    · funext c i
      show (![(rescale a g).diffFn false (solver (fdfdMatEz (rescale a g) (k0 / a) epsT) fun i => ((k0 / a : ℝ) : ℂ) * src i) 1,
          -(rescale a g).diffFn false (solver (fdfdMatEz (rescale a g) (k0 / a) epsT) fun i => ((k0 / a : ℝ) : ℂ) * src i) 0, 0] : VField s) c i / (I * ((k0 / a : ℝ) : ℂ))
        = a * ((![g.diffFn false (solver (fdfdMatEz g k0 epsT) fun i => (k0 : ℂ) * src i) 1,
          -g.diffFn false (solver (fdfdMatEz g k0 epsT) fun i => (k0 : ℂ) * src i) 0, 0] : VField s) c i / (I * k0))
      rw [h, hk1, ← hfz, funext (hd false 1), funext (hd false 0)]
  · simp only [if_true] at h hfz
    refine Prod.ext ?_ ?_
    · funext c i
      show (![(rescale a g).diffFn true (solver (fdfdMatHz (rescale a g) (k0 / a) epsT) fun i => ((k0 / a : ℝ) : ℂ) * src i) 1,
          -(rescale a g).diffFn true (solver (fdfdMatHz (rescale a g) (k0 / a) epsT) fun i => ((k0 / a : ℝ) : ℂ) * src i) 0, 0] : VField s) c i / (I * ((k0 / a : ℝ) : ℂ) * epsT c i)
        = a * ((![g.diffFn true (solver (fdfdMatHz g k0 epsT) fun i => (k0 : ℂ) * src i) 1,
          -g.diffFn true (solver (fdfdMatHz g k0 epsT) fun i => (k0 : ℂ) * src i) 0, 0] : VField s) c i / (I * k0 * epsT c i))
      rw [h, hk, ← hfz, funext (hd true 1), funext (hd true 0)]
    · funext c i
      show (![0, 0, solver (fdfdMatHz (rescale a g) (k0 / a) epsT) fun i => ((k0 / a : ℝ) : ℂ) * src i] : VField s) c i
        = a * (![0, 0, solver (fdfdMatHz g k0 epsT) fun i => (k0 : ℂ) * src i] : VField s) c i
      rw [h]
      match c with
      | 0 => simp
      | 1 => simp
      | 2 => rfl

/-- The same simulation in another unit of length: cells and time step `a` times as long. -/
noncomputable def rescaleFdtd (a : ℝ) (F : Fdtd s) : Fdtd s :=
  { g := rescale a F.g, epsT := F.epsT, dt := a * F.dt, npml := F.npml, pml := F.pml }

omit [∀ a, NeZero (s a)] in
theorem addSource_scale (jax : Bool) (region : Fin 3 → GIdx s → Bool) (w w' : VField s) (a : ℝ) (ha : a ≠ 0)
    (hw : ∀ c i, w' c i = a * w c i) (src : Option (VField s)) (f : VField s) :
    addSource jax region w' (src.map fun v c i => (a : ℂ)⁻¹ * v c i) f = addSource jax region w src f := by
  have ha' : (a : ℂ) ≠ 0 := by exact_mod_cast ha
  cases src with
  | none => rfl
  | some v =>
    funext c i
    show (if region c i then (if jax then -((a : ℂ)⁻¹ * v c i) * w' c i else f c i - (a : ℂ)⁻¹ * v c i * w' c i) else f c i) =
      (if region c i then (if jax then -(v c i) * w c i else f c i - v c i * w c i) else f c i)
    rw [hw]
    have e1 : -((a : ℂ)⁻¹ * v c i) * (a * w c i) = -(v c i) * w c i := by field_simp
    have e2 : (a : ℂ)⁻¹ * v c i * (a * w c i) = v c i * w c i := by field_simp
    rw [e1, e2]

omit [∀ a, NeZero (s a)] in
theorem foldl_scale (jax : Bool) (a : ℝ) (ha : a ≠ 0) (w w' : VField s) (hw : ∀ c i, w' c i = a * w c i) (qs : List (Source s)) :
    (∀ f, (qs.map (scaleSource (a : ℂ)⁻¹)).foldl (fun f src => addSource jax src.region w' src.e f) f =
        qs.foldl (fun f src => addSource jax src.region w src.e f) f) ∧
      ∀ f, (qs.map (scaleSource (a : ℂ)⁻¹)).foldl (fun f src => addSource jax src.region w' src.h f) f =
        qs.foldl (fun f src => addSource jax src.region w src.h f) f := by
  constructor
  · intro f
    rw [List.foldl_map]
    congr 1; funext f q; exact addSource_scale jax q.region w w' a ha hw q.e f
  · intro f
    rw [List.foldl_map]
    congr 1; funext f q; exact addSource_scale jax q.region w w' a ha hw q.h f

/-- The two half steps without PML. -/
theorem halfSteps_plain (g : YeeOps s) (epsT : VField s) (dt : ℝ) (pml : Fin 0 → PmlRegion s) (jax : Bool) (st : FState s 0) (qs : List (Source s)) :
    (⟨g, epsT, dt, 0, pml⟩ : Fdtd s).stepE jax st qs =
      (qs.foldl (fun f src => addSource jax src.region (fun c i => (dt : ℂ) / epsT c i) src.e f)
        (fun c i => st.1 c i + g.curl true st.2.1 c i / epsT c i * dt), st.2.1, st.2.2.1, st.2.2.2) ∧
    (⟨g, epsT, dt, 0, pml⟩ : Fdtd s).stepH jax st qs =
      (st.1, qs.foldl (fun f src => addSource jax src.region (fun _ _ => (dt : ℂ)) src.h f)
        (fun c i => st.2.1 c i - g.curl false st.1 c i * dt), st.2.2.1, st.2.2.2) := by
  obtain ⟨e, h, pe, ph⟩ := st
  constructor
  · exact Prod.ext rfl (Prod.ext rfl (Prod.ext (Subsingleton.elim _ _) rfl))
  · exact Prod.ext rfl (Prod.ext rfl (Prod.ext rfl (Subsingleton.elim _ _)))

theorem rescaleFdtd_step (a : ℝ) (ha : a ≠ 0) (g : YeeOps s) (epsT : VField s) (dt : ℝ) (pml : Fin 0 → PmlRegion s) (jax : Bool) (st : FState s 0)
    (qs : List (Source s)) :
    (⟨rescale a g, epsT, a * dt, 0, pml⟩ : Fdtd s).step jax st (qs.map (scaleSource (a : ℂ)⁻¹)) = (⟨g, epsT, dt, 0, pml⟩ : Fdtd s).step jax st qs := by
  have ha' : (a : ℂ) ≠ 0 := by exact_mod_cast ha
  have hE : ∀ e h : VField s, (fun c i => e c i + (rescale a g).curl true h c i / epsT c i * ((a * dt : ℝ) : ℂ) : VField s) =
        fun c i => e c i + g.curl true h c i / epsT c i * dt := by
    intro e h
    funext c i
    rw [curl_rescale]; push_cast; field_simp
  have hH : ∀ e h : VField s, (fun c i => h c i - (rescale a g).curl false e c i * ((a * dt : ℝ) : ℂ) : VField s) =
        fun c i => h c i - g.curl false e c i * dt := by
    intro e h
    funext c i
    rw [curl_rescale]; push_cast; field_simp
  unfold Fdtd.step
  rw [(halfSteps_plain (rescale a g) epsT (a * dt) pml jax _ _).2, (halfSteps_plain (rescale a g) epsT (a * dt) pml jax _ _).1,
    (halfSteps_plain g epsT dt pml jax _ _).2, (halfSteps_plain g epsT dt pml jax _ _).1]
  simp only
  rw [hE, hH, (foldl_scale jax a ha (fun c i => (dt : ℂ) / epsT c i) (fun c i => ((a * dt : ℝ) : ℂ) / epsT c i) (fun c i => by push_cast; ring) qs).1,
    (foldl_scale jax a ha (fun _ _ => (dt : ℂ)) (fun _ _ => ((a * dt : ℝ) : ℂ)) (fun c i => by push_cast; ring) qs).2]

/-- C133, FDTD without PML: with all cells `a` times as long and the time step too, and the currents divided by `a`, the run is
the same at every step, from every state, in both modes. -/
theorem C133_fdtd_partial (a : ℝ) (ha : a ≠ 0) (F : Fdtd s) (hF : F.npml = 0) (jax : Bool) (srcs : ℕ → List (Source s))
    (st : FState s F.npml) (n : ℕ) :
    (rescaleFdtd a F).run jax (fun k => (srcs k).map (scaleSource (a : ℂ)⁻¹)) st n = F.run jax srcs st n := by
  obtain ⟨g, epsT, dt, np, pml⟩ := F
  simp only at hF
  subst hF
  show (⟨rescale a g, epsT, a * dt, 0, pml⟩ : Fdtd s).run jax (fun k => (srcs k).map (scaleSource (a : ℂ)⁻¹)) st n =
    (⟨g, epsT, dt, 0, pml⟩ : Fdtd s).run jax srcs st n
  induction n with
  | zero => rfl
  | succ n ih =>
    unfold Fdtd.run
    rw [ih, rescaleFdtd_step a ha]

/-- C133: the time step the constructor chooses is `a` times as long when the cells are, so the whole
`plainFdtd` is rescaled. -/
theorem C133_time_step (a : ℝ) (ha : 0 < a) (ndim : ℕ) (bloch : Fin 3 → ℂ) (spacing : Fin 3 → ℝ) (eps : SField s) :
    plainFdtd ndim bloch (fun ax => a * spacing ax) eps = rescaleFdtd a (plainFdtd ndim bloch spacing eps) := by
  have hdt : courantDt ndim (fun ax => a * spacing ax) = a * courantDt ndim spacing := by
    unfold courantDt
    have : (∑ x : Fin 3, if (x : ℕ) < ndim then 1 / (a * spacing x) ^ 2 else 0) =
        (∑ x : Fin 3, if (x : ℕ) < ndim then 1 / spacing x ^ 2 else 0) / a ^ 2 := by
      rw [Finset.sum_div]
      refine Finset.sum_congr rfl fun x _ => ?_
      split_ifs
      · rw [div_div, mul_pow, mul_comm]
      · simp
    rw [this, Real.sqrt_div' _ (by positivity), Real.sqrt_sq ha.le]
    rw [one_div_div, mul_one_div]
  show (⟨⟨bloch, _⟩, _, courantDt ndim (fun ax => a * spacing ax), 0, _⟩ : Fdtd s) = ⟨⟨bloch, _⟩, _, a * courantDt ndim spacing, 0, _⟩
  rw [hdt]
  congr 2
  funext back ax i
  show ((a * spacing ax : ℝ) : ℂ) = a * (spacing ax : ℂ)
  push_cast; rfl

/-! ### With PML -/

theorem pmlSigma_rescale (n t : ℕ) (dx m logR corr a : ℝ) (ha : a ≠ 0) (c : Fin 2) (i : ℕ) :
    pmlSigma (fun k : ℕ => a * dx * k) n t m logR (corr / a) c i = a * pmlSigma (fun k : ℕ => dx * k) n t m logR corr c i := by
  have hd : pmlDepth (fun k : ℕ => a * dx * k) n t c i = pmlDepth (fun k : ℕ => dx * k) n t c i := by
    have hD : ∀ j, pmlD (fun k : ℕ => a * dx * k) c j = a * pmlD (fun k : ℕ => dx * k) c j := by
      intro j; unfold pmlD; split_ifs <;> ring
    have hq : ∀ x y z w : ℝ, (a * x - a * y) / (a * z - a * w) = (x - y) / (z - w) := by
      intro x y z w
      rw [← mul_sub, ← mul_sub, mul_div_mul_left _ _ ha]
    unfold pmlDepth
    simp only [hD]
    rw [mul_assoc a dx, mul_assoc a dx, hq, hq]
  unfold pmlSigma
  rw [hd]
  field_simp

/-- C133 fails with PML: the stretching factors contain the absolute wave number (`absorption_corr = k0 * pml_eps`) but only
relative depths, so the strength of the layers depends on the unit of length. For every one dimensional
simulation with PML and every factor `a ≠ 1` there is a source for which the same device in the other unit
does not have `a` times the field. -/
theorem C133_pml_counterexample (n t : ℕ) [NeZero n] (dx m logR k0 pmlEps : ℝ) (hR : logR ≠ 0) (epsT : VField (shapeOf n 1 1))
    (hs : PmlSim n t dx m k0 pmlEps epsT) (a : ℝ) (ha : 0 < a) (ha1 : a ≠ 1) (solver : Solver (GIdx (shapeOf n 1 1)))
    (hsol : ∀ A : Matrix (GIdx (shapeOf n 1 1)) (GIdx (shapeOf n 1 1)) ℂ, (∀ w, ∃! v, A *ᵥ v = w) → ∀ b, A *ᵥ solver A b = b) :
    ∃ src : SField (shapeOf n 1 1), (solve2d (pmlLine n t (a * dx) m logR (k0 / a) pmlEps) (k0 / a) epsT false solver src).1 ≠
      fun c i => a * (solve2d (pmlLine n t dx m logR k0 pmlEps) k0 epsT false solver src).1 c i := by
  by_contra hcon
  push Not at hcon
  have hs' : PmlSim n t (a * dx) m (k0 / a) pmlEps epsT :=
    ⟨hs.thick, hs.fits, mul_pos ha hs.cell, hs.expo, div_pos hs.freq ha, hs.corr, hs.eps⟩
  have ha' : (a : ℂ) ≠ 0 := by exact_mod_cast ha.ne'
  have hk : (k0 : ℂ) ≠ 0 := by exact_mod_cast hs.freq.ne'
  set A := fdfdMatEz (pmlLine n t dx m logR k0 pmlEps) k0 epsT with hA
  set A' := fdfdMatEz (pmlLine n t (a * dx) m logR (k0 / a) pmlEps) (k0 / a) epsT with hA'
  have s1 := hsol A (C125_unique n t dx m logR k0 pmlEps hR epsT hs)
  have s2 := hsol A' (C125_unique n t (a * dx) m logR (k0 / a) pmlEps hR epsT hs')
  have hz : ∀ src : SField (shapeOf n 1 1), (solver A' fun i => ((k0 / a : ℝ) : ℂ) * src i) = (a : ℂ) • solver A fun i => (k0 : ℂ) * src i := by
    intro src
    funext i
    exact congrFun (congrFun (hcon src) 2) i
  have hAA : ∀ v, A' *ᵥ v = ((a : ℂ)⁻¹ ^ 2) • (A *ᵥ v) := by
    intro v
    have e1 : (fun i => (k0 : ℂ) * ((k0 : ℂ)⁻¹ * (A *ᵥ v) i)) = A *ᵥ v := by funext i; field_simp
    have h1 := hz fun i => (k0 : ℂ)⁻¹ * (A *ᵥ v) i
    rw [e1] at h1
    have huni := (C125_unique n t dx m logR k0 pmlEps hR epsT hs (A *ᵥ v)).unique (s1 _) rfl
    rw [huni] at h1
    have h2 := congrArg (fun x => A' *ᵥ x) h1
    rw [s2, Matrix.mulVec_smul] at h2
    funext i
    have h3 := congrFun h2 i
    simp only [Pi.smul_apply, smul_eq_mul] at h3 ⊢
    push_cast at h3
    field_simp at h3 ⊢
    linear_combination -h3
  have hn := hs.fits
  have ht := hs.thick
  have hn1 : n - 1 + 1 = n := by omega
  have e0 : cell n (n - 1 + 1) = cell n 0 := by rw [hn1, ← cell_add n 0, zero_add]
  have e1 : cell n (n - 1 + 2) = cell n 1 := by rw [show n - 1 + 2 = 1 + n by omega, cell_add]
  have c1 : cell n 1 ≠ cell n 0 := by
    intro h
    have := congrArg Fin.val (congrFun h 0)
    have h2 : 1 % n = 0 % n := this
    rw [Nat.mod_eq_of_lt (by omega), Nat.zero_mod] at h2
    omega
  have c2 : cell n (n - 1) ≠ cell n 1 := by
    intro h
    have := congrArg Fin.val (congrFun h 0)
    have h2 : (n - 1) % n = 1 % n := this
    rw [Nat.mod_eq_of_lt (by omega), Nat.mod_eq_of_lt (by omega)] at h2
    omega
  have row := congrFun (hAA (Pi.single (cell n 1) 1)) (cell n (n - 1 + 1))
  rw [Pi.smul_apply, smul_eq_mul, hA, hA', line_ez n _ rfl, line_ez n _ rfl, e0, e1] at row
  rw [Pi.single_eq_same, Pi.single_eq_of_ne c1.symm, Pi.single_eq_of_ne c2] at row
  simp only [sub_zero, mul_zero, zero_div, sub_self] at row
  have hpos : ∀ i j : ℕ, i < j → j ≤ n → (fun k : ℕ => dx * k) i < (fun k : ℕ => dx * k) j := by
    intro i j h _
    exact mul_lt_mul_of_pos_left (by exact_mod_cast h) hs.cell
  have hpos' : ∀ i j : ℕ, i < j → j ≤ n → (fun k : ℕ => a * dx * k) i < (fun k : ℕ => a * dx * k) j := by
    intro i j h _
    exact mul_lt_mul_of_pos_left (by exact_mod_cast h) (mul_pos ha hs.cell)
  have P := fun c => C79_pml_profile (fun k : ℕ => dx * k) n t hpos (by omega) hn m logR k0 pmlEps hs.expo hR hs.freq.ne' hs.corr.ne' c
  have P' := fun c => C79_pml_profile (fun k : ℕ => a * dx * k) n t hpos' (by omega) hn m logR (k0 / a) pmlEps hs.expo hR
    (div_pos hs.freq ha).ne' hs.corr.ne' c
  let S : Bool → ℝ := fun p => pmlSigma (fun k : ℕ => dx * k) n t m logR (k0 * pmlEps) (if p then 1 else 0) 0
  have hg : ∀ p, (pmlLine n t dx m logR k0 pmlEps).dx p 0 (cell n 0 0) = dx * ⟨1, S p⟩ := by
    intro p
    have := (P (if p then 1 else 0)).2.2.2.2 (0 % n)
    rw [Nat.zero_mod] at this
    rw [← this]
    show (dx : ℂ) * scpml _ _ _ _ _ _ _ _ (0 % n) = _
    rw [Nat.zero_mod]
  have hg' : ∀ p, (pmlLine n t (a * dx) m logR (k0 / a) pmlEps).dx p 0 (cell n 0 0) = a * dx * ⟨1, a * S p⟩ := by
    intro p
    have := (P' (if p then 1 else 0)).2.2.2.2 (0 % n)
    rw [Nat.zero_mod, div_mul_eq_mul_div, pmlSigma_rescale _ _ _ _ _ _ _ ha.ne'] at this
    rw [← this]
    show ((a * dx : ℝ) : ℂ) * scpml _ _ _ _ _ _ _ _ (0 % n) = _
    rw [Nat.zero_mod, ofReal_mul]
  have hS : ∀ p, 0 < S p * logR := by
    intro p
    have hd := (pmlDepth_props hpos (by omega : 0 < t) hn (if p then 1 else 0)).2.2.1 0 t (by omega) le_rfl
    rw [(pmlDepth_props hpos (by omega : 0 < t) hn (if p then 1 else 0)).2.1 t le_rfl (by omega)] at hd
    have : S p * logR = logR * logR * ((m + 1) * (pmlDepth (fun k : ℕ => dx * k) n t (if p then 1 else 0) 0 ^ m) / (2 * (k0 * pmlEps))) := by
      show pmlSigma _ _ _ _ _ _ _ _ * logR = _
      unfold pmlSigma; ring
    rw [this]
    have h1 := hs.expo
    have h2 := hs.freq
    have h3 := hs.corr
    have h4 := Real.rpow_pos_of_pos hd m
    have h5 := mul_self_pos.2 hR
    positivity
  rw [hg, hg, hg', hg'] at row
  have hdx : (dx : ℂ) ≠ 0 := by exact_mod_cast hs.cell.ne'
  have ne : ∀ y : ℝ, (⟨1, y⟩ : ℂ) ≠ 0 := fun y h => one_ne_zero (congrArg Complex.re h)
  have n1 := ne (S false)
  have n2 := ne (S true)
  have n3 := ne (a * S false)
  have n4 := ne (a * S true)
  field_simp at row
  have him := congrArg Complex.im row
  rw [neg_im, neg_im, mul_im, mul_im] at him
  simp only [one_mul, mul_one] at him
  have h0 := hS false
  have h1 := hS true
  have : (a - 1) * (S false * logR + S true * logR) = 0 := by linear_combination logR * him
  rcases mul_eq_zero.1 this with h | h
  · exact ha1 (by linarith)
  · linarith

/-- The inverse matrix is a solver as the counterexample wants it; micrometres to nanometres on a line of 20 cells. -/
example : ∃ src : SField (shapeOf 20 1 1),
    (solve2d (pmlLine 20 5 (1000 * (1 / 10)) 4 (-16) (4 / 1000) 1) (4 / 1000) (fun _ _ => 2) false (fun M v => M⁻¹ *ᵥ v) src).1 ≠
      fun c i => ((1000 : ℝ) : ℂ) * (solve2d (pmlLine 20 5 (1 / 10) 4 (-16) 4 1) 4 (fun _ _ => 2) false (fun M v => M⁻¹ *ᵥ v) src).1 c i := by
  refine C133_pml_counterexample 20 5 (1 / 10) 4 (-16) 4 1 (by norm_num) (fun _ _ => 2)
    ⟨by norm_num, by norm_num, by norm_num, by norm_num, by norm_num, by norm_num, fun _ => by simp⟩ 1000 (by norm_num) (by norm_num) _ ?_
  intro A hA w
  have hunit : IsUnit A := by
    rw [← Matrix.mulVec_surjective_iff_isUnit]
    exact fun w => (hA w).exists
  show A *ᵥ (A⁻¹ *ᵥ w) = w
  rw [Matrix.mulVec_mulVec, Matrix.mul_nonsing_inv _ ((Matrix.isUnit_iff_isUnit_det A).1 hunit), Matrix.one_mulVec]

/-- The hypotheses of the FDFD theorems are met by a lossy device on a 4 × 3 × 2 grid. -/
example (src : VField (shapeOf 4 3 2)) :
    let g := uniformOps (shapeOf 4 3 2) (fun _ => I) (fun _ => (1 / 10 : ℝ))
    let solver : Solver (Fin 3 × GIdx (shapeOf 4 3 2)) := fun M v => M⁻¹ *ᵥ v
    let eps : VField (shapeOf 4 3 2) := fun _ _ => 2 + I
    (solve3d (rescale 1000 g) (4 / 1000) eps solver src).1 = fun c i => ((1000 : ℝ) : ℂ) * (solve3d g 4 eps solver src).1 c i := by
  intro g solver eps
  have hl : ∀ c i, 0 < (eps c i).im := fun _ _ => by simp [eps]
  have hr : rescale 1000 g = uniformOps (shapeOf 4 3 2) (fun _ => I) (fun _ => (1000 * (1 / 10) : ℝ)) := by
    show (⟨_, _⟩ : YeeOps _) = ⟨_, _⟩
    congr 1
    funext p a i
    show ((1000 : ℝ) : ℂ) * ((1 / 10 : ℝ) : ℂ) = ((1000 * (1 / 10) : ℝ) : ℂ)
    push_cast; rfl
  refine congrArg Prod.fst (C133_fdfd_partial 1000 (by norm_num) g 4 eps src solver (inv_solver _ _ 4 (by norm_num) eps hl) ?_)
  rw [hr]; exact inv_solver _ _ _ (by norm_num) eps hl

end Simphox
