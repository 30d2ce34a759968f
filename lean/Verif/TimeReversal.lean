import Verif.AdjointGrad

/-!
# C185: time reversal of frequency domain simulations
-/

namespace Simphox

open Matrix Complex

variable {s : Fin 3 → ℕ}

/-- Time-reversed grid: opposite Bloch phases and conjugate cell sizes, so that absorbing layers (complex cells,
fdfd.py:93-100) become amplifying ones. A grid without PML and Bloch phases is its own reversal. -/
def YeeOps.timeReversed (g : YeeOps s) : YeeOps s :=
  { bloch := fun a => (starRingEnd ℂ) (g.bloch a), dx := fun p a k => (starRingEnd ℂ) (g.dx p a k) }

/-- Complex conjugate of a scalar field. -/
def conjS (f : SField s) : SField s := fun i => (starRingEnd ℂ) (f i)

/-- Complex conjugate of a vector field. -/
def conjV (f : VField s) : VField s := fun c i => (starRingEnd ℂ) (f c i)

theorem spDiags_conj (n : ℕ) (l : List (ℂ × ℤ)) :
    (spDiags n l).map (starRingEnd ℂ) = spDiags n (l.map fun p => ((starRingEnd ℂ) p.1, p.2)) := by
  ext i j
  simp only [Matrix.map_apply, spDiags]
  rw [map_list_sum, List.map_map, List.map_map]
  congr 1
  apply List.map_congr_left
  intro p _
  simp only [Function.comp_apply]
  split_ifs <;> simp

theorem fwd1_conj (n : ℕ) (b : ℂ) : (fwd1 n b).map (starRingEnd ℂ) = fwd1 n ((starRingEnd ℂ) b) := by
  unfold fwd1
  split_ifs
  · rw [spDiags_conj]; simp
  · ext; simp

theorem bwd1_conj (n : ℕ) (b : ℂ) : (bwd1 n b).map (starRingEnd ℂ) = bwd1 n ((starRingEnd ℂ) b) := by
  unfold bwd1
  split_ifs
  · rw [spDiags_conj]; simp
  · ext; simp

theorem deriv_timeReversed (g : YeeOps s) (p : Bool) (a : Fin 3) :
    g.timeReversed.deriv p a = (g.deriv p a).map (starRingEnd ℂ) := by
  have hd : (if p then bwd1 (s a) (g.timeReversed.bloch a) else fwd1 (s a) (g.timeReversed.bloch a)) =
      (if p then bwd1 (s a) (g.bloch a) else fwd1 (s a) (g.bloch a)).map (starRingEnd ℂ) := by
    cases p
    · exact (fwd1_conj _ _).symm
    · exact (bwd1_conj _ _).symm
  unfold YeeOps.deriv
  simp only
  rw [hd]
  generalize (if p then bwd1 (s a) (g.bloch a) else fwd1 (s a) (g.bloch a)) = d
  rw [Matrix.map_mul]
  congr 1
  · ext i j
    simp only [Matrix.map_apply, Matrix.diagonal_apply]
    split_ifs <;> simp [YeeOps.timeReversed]
  · ext i j
    simp only [Matrix.map_apply, kron3, map_prod]
    refine Finset.prod_congr rfl fun b _ => ?_
    by_cases hb : b = a
    · subst hb; simp
    · rw [Function.update_of_ne hb, Function.update_of_ne hb]
      simp only [Matrix.one_apply]
      split_ifs <;> simp

theorem fdfdMatEz_timeReversed (g : YeeOps s) (k0 : ℝ) (epsT : VField s) :
    fdfdMatEz g.timeReversed k0 (conjV epsT) = (fdfdMatEz g k0 epsT).map (starRingEnd ℂ) := by
  unfold fdfdMatEz
  simp only [deriv_timeReversed, Matrix.map_sub (starRingEnd ℂ) (by simp), Matrix.map_mul, Matrix.map_neg (starRingEnd ℂ) (by simp)]
  congr 1
  ext i j
  simp only [Matrix.map_apply, Matrix.smul_apply, Matrix.diagonal_apply, smul_eq_mul, map_mul, conjV]
  split_ifs <;> simp [conj_ofReal]

theorem fdfdMatHz_timeReversed (g : YeeOps s) (k0 : ℝ) (epsT : VField s) :
    fdfdMatHz g.timeReversed k0 (conjV epsT) = (fdfdMatHz g k0 epsT).map (starRingEnd ℂ) := by
  have hd : ∀ c : Fin 3, Matrix.diagonal (fun i => 1 / conjV epsT c i) =
      (Matrix.diagonal (fun i => 1 / epsT c i)).map (starRingEnd ℂ) := by
    intro c
    ext i j
    simp only [Matrix.map_apply, Matrix.diagonal_apply, conjV]
    split_ifs <;> simp
  unfold fdfdMatHz
  simp only [deriv_timeReversed, hd, Matrix.map_sub (starRingEnd ℂ) (by simp), Matrix.map_mul, Matrix.map_neg (starRingEnd ℂ) (by simp)]
  congr 1
  ext i j
  simp only [Matrix.map_apply, Matrix.smul_apply, Matrix.one_apply, smul_eq_mul, map_mul]
  split_ifs <;> simp [conj_ofReal]

theorem fdfdMat_timeReversed (g : YeeOps s) (k0 : ℝ) (epsT : VField s) :
    fdfdMat g.timeReversed k0 (conjV epsT) = (fdfdMat g k0 epsT).map (starRingEnd ℂ) := by
  have hc : ∀ p, d2curlOp (g.timeReversed.deriv p) = (d2curlOp (g.deriv p)).map (starRingEnd ℂ) := by
    intro p
    have hn : ∀ a, -(g.timeReversed.deriv p a) = (-(g.deriv p a)).map (starRingEnd ℂ) := fun a => by
      rw [deriv_timeReversed, Matrix.map_neg (starRingEnd ℂ) (by simp)]
    have h0 : (0 : Matrix (GIdx s) (GIdx s) ℂ) = (0 : Matrix (GIdx s) (GIdx s) ℂ).map (starRingEnd ℂ) := by ext; simp
    have hblk : ∀ c c', curlBlock (g.timeReversed.deriv p) c c' = (curlBlock (g.deriv p) c c').map (starRingEnd ℂ) := by
      intro c c'
      match c, c' with
      | 0, 0 => exact h0
      | 0, 1 => exact hn 2
      | 0, 2 => exact deriv_timeReversed g p 1
      | 1, 0 => exact deriv_timeReversed g p 2
      | 1, 1 => exact h0
      | 1, 2 => exact hn 0
      | 2, 0 => exact hn 1
      | 2, 1 => exact deriv_timeReversed g p 0
      | 2, 2 => exact h0
    ext ⟨c, i⟩ ⟨c', j⟩
    exact congrFun (congrFun (hblk c c') i) j
  unfold fdfdMat
  rw [hc, hc, Matrix.map_sub (starRingEnd ℂ) (by simp), Matrix.map_mul]
  congr 1
  ext i j
  simp only [Matrix.map_apply, Matrix.smul_apply, Matrix.diagonal_apply, smul_eq_mul, map_mul, vflat, conjV]
  split_ifs <;> simp [conj_ofReal]

theorem solution_conj {ι : Type} [Fintype ι] [DecidableEq ι] (A : Matrix ι ι ℂ) (solver : Solver ι)
    (h : ∀ b, A *ᵥ solver A b = b) (h' : ∀ b, A.map (starRingEnd ℂ) *ᵥ solver (A.map (starRingEnd ℂ)) b = b) (b : ι → ℂ) :
    solver (A.map (starRingEnd ℂ)) (fun i => (starRingEnd ℂ) (b i)) = fun i => (starRingEnd ℂ) (solver A b i) := by
  have hsurj : Function.Surjective (A.map (starRingEnd ℂ)).mulVecLin := fun b => ⟨_, h' b⟩
  have hinj := LinearMap.injective_iff_surjective.2 hsurj
  apply hinj
  change A.map (starRingEnd ℂ) *ᵥ _ = A.map (starRingEnd ℂ) *ᵥ _
  rw [h']
  funext i
  have := congrArg (starRingEnd ℂ) (congrFun (h b) i)
  rw [← this]
  simp only [Matrix.mulVec, dotProduct, map_sum, map_mul, Matrix.map_apply]

variable [∀ a, NeZero (s a)]

theorem diffFn_timeReversed (g : YeeOps s) (p : Bool) (f : SField s) (a : Fin 3) :
    g.timeReversed.diffFn p (conjS f) a = conjS (g.diffFn p f a) := by
  funext i
  cases p <;> simp [YeeOps.diffFn, YeeOps.timeReversed, conjS, rollBack, rollFwd]

/-- C185, two dimensions: for any grid, permittivity and source, and a linear solver that solves both systems, the
fields of the conjugate source on the time-reversed structure (opposite Bloch phases, absorption replaced by gain) are
the conjugate fields, `e` unchanged in sign and `h` reversed for TE, the other way round for TM. -/
theorem C185_two_d (g : YeeOps s) (k0 : ℝ) (epsT : VField s) (tm : Bool) (solver : Solver (GIdx s))
    (h : ∀ b, (if tm then fdfdMatHz g k0 epsT else fdfdMatEz g k0 epsT) *ᵥ
      solver (if tm then fdfdMatHz g k0 epsT else fdfdMatEz g k0 epsT) b = b)
    (h' : ∀ b, (if tm then fdfdMatHz g.timeReversed k0 (conjV epsT) else fdfdMatEz g.timeReversed k0 (conjV epsT)) *ᵥ
      solver (if tm then fdfdMatHz g.timeReversed k0 (conjV epsT) else fdfdMatEz g.timeReversed k0 (conjV epsT)) b = b)
    (src : SField s) :
    let f := solve2d g k0 epsT tm solver src
    let f' := solve2d g.timeReversed k0 (conjV epsT) tm solver (conjS src)
    if tm then f'.1 = -conjV f.1 ∧ f'.2 = conjV f.2 else f'.1 = conjV f.1 ∧ f'.2 = -conjV f.2 := by
  have hb : (fun i => (k0 : ℂ) * conjS src i) = fun i => (starRingEnd ℂ) ((k0 : ℂ) * src i) := by
    funext i; simp [conjS, conj_ofReal]
  cases tm
  · simp only [Bool.false_eq_true, if_false] at h h' ⊢
    rw [fdfdMatEz_timeReversed] at h'
    have key := solution_conj _ solver h h' (fun i => (k0 : ℂ) * src i)
    have hz : solver (fdfdMatEz g.timeReversed k0 (conjV epsT)) (fun i => (k0 : ℂ) * conjS src i) =
        conjS (solver (fdfdMatEz g k0 epsT) fun i => (k0 : ℂ) * src i) := by
      rw [hb, fdfdMatEz_timeReversed, key]; rfl
    unfold solve2d
    simp only [Bool.false_eq_true, if_false]
    rw [hz]
    simp only [diffFn_timeReversed]
    constructor
    · funext c i; fin_cases c <;> simp [conjV, conjS]
    · funext c i
      fin_cases c <;> simp [conjV, conjS, conj_ofReal, div_neg]
  · simp only [if_true] at h h' ⊢
    rw [fdfdMatHz_timeReversed] at h'
    have key := solution_conj _ solver h h' (fun i => (k0 : ℂ) * src i)
    have hz : solver (fdfdMatHz g.timeReversed k0 (conjV epsT)) (fun i => (k0 : ℂ) * conjS src i) =
        conjS (solver (fdfdMatHz g k0 epsT) fun i => (k0 : ℂ) * src i) := by
      rw [hb, fdfdMatHz_timeReversed, key]; rfl
    unfold solve2d
    simp only [if_true]
    rw [hz]
    simp only [diffFn_timeReversed]
    constructor
    · funext c i
      fin_cases c <;> simp [conjV, conjS, conj_ofReal, div_neg]
    · funext c i; fin_cases c <;> simp [conjV, conjS]

/-- C185, three dimensions. -/
theorem C185_three_d (g : YeeOps s) (k0 : ℝ) (epsT : VField s) (solver : Solver (Fin 3 × GIdx s))
    (h : ∀ b, fdfdMat g k0 epsT *ᵥ solver (fdfdMat g k0 epsT) b = b)
    (h' : ∀ b, fdfdMat g.timeReversed k0 (conjV epsT) *ᵥ solver (fdfdMat g.timeReversed k0 (conjV epsT)) b = b) (src : VField s) :
    let f := solve3d g k0 epsT solver src
    let f' := solve3d g.timeReversed k0 (conjV epsT) solver (conjV src)
    f'.1 = conjV f.1 ∧ f'.2 = -conjV f.2 := by
  have hb : (fun p => (k0 : ℂ) * vflat (conjV src) p) = fun p => (starRingEnd ℂ) ((k0 : ℂ) * vflat src p) := by
    funext p; simp [conjV, vflat, conj_ofReal]
  rw [fdfdMat_timeReversed] at h'
  have key := solution_conj _ solver h h' (fun p => (k0 : ℂ) * vflat src p)
  have he : (solve3d g.timeReversed k0 (conjV epsT) solver (conjV src)).1 = conjV (solve3d g k0 epsT solver src).1 := by
    funext c i
    change solver (fdfdMat g.timeReversed k0 (conjV epsT)) (fun p => (k0 : ℂ) * vflat (conjV src) p) (c, i) = _
    rw [hb, fdfdMat_timeReversed, key]
    rfl
  refine ⟨he, ?_⟩
  have hh : ∀ (g : YeeOps s) (epsT src : VField s), (solve3d g k0 epsT solver src).2 =
      fun c i => curlFn (g.diffFn false) (solve3d g k0 epsT solver src).1 c i / (I * k0) := fun _ _ _ => rfl
  rw [hh, hh, he]
  generalize (solve3d g k0 epsT solver src).1 = e
  have hc : ∀ c, conjV e c = conjS (e c) := fun _ => rfl
  funext c i
  fin_cases c <;> simp [curlFn, hc, diffFn_timeReversed, conjV, conjS, conj_ofReal, div_neg]

/-- C185, closed simulations: without PML and Bloch phases, with a real permittivity and sources of equal phase, TE or
TM, `e` and `h` are in quadrature at every point: the real part of every product `e_a conj(h_b)` at any two points is
zero, so no power flows anywhere. -/
theorem C185_standing_wave (g : YeeOps s) (hg : g.timeReversed = g) (k0 : ℝ) (epsT : VField s) (he : conjV epsT = epsT)
    (tm : Bool) (solver : Solver (GIdx s))
    (h : ∀ b, (if tm then fdfdMatHz g k0 epsT else fdfdMatEz g k0 epsT) *ᵥ
      solver (if tm then fdfdMatHz g k0 epsT else fdfdMatEz g k0 epsT) b = b)
    (src : SField s) (hs : conjS src = src) (a b : Fin 3) (i j : GIdx s) :
    let f := solve2d g k0 epsT tm solver src
    (f.1 a i * (starRingEnd ℂ) (f.2 b j)).re = 0 := by
  intro f
  have key := C185_two_d g k0 epsT tm solver h (by rw [hg, he]; exact h) src
  rw [hg, he, hs] at key
  have hre : ∀ z : ℂ, z = (starRingEnd ℂ) z → z.im = 0 := fun z hz => by
    have := congrArg Complex.im hz; rw [conj_im] at this; linarith
  have him : ∀ z : ℂ, z = -(starRingEnd ℂ) z → z.re = 0 := fun z hz => by
    have := congrArg Complex.re hz; rw [neg_re, conj_re] at this; linarith
  cases tm
  · simp only [Bool.false_eq_true, if_false] at key
    have h1 := hre _ (congrFun (congrFun key.1 a) i)
    have h2 := him _ (congrFun (congrFun key.2 b) j)
    rw [mul_re, conj_re, conj_im, h1, h2]; ring
  · simp only [if_true] at key
    have h1 := him _ (congrFun (congrFun key.1 a) i)
    have h2 := hre _ (congrFun (congrFun key.2 b) j)
    rw [mul_re, conj_re, conj_im, h1, h2]; ring

/-- C185, power: the real power flow (any component of `e × conj h`, at any points) of the reversed simulation is the
opposite of that of the original. -/
theorem C185_power_reversed (g : YeeOps s) (k0 : ℝ) (epsT : VField s) (tm : Bool) (solver : Solver (GIdx s))
    (h : ∀ b, (if tm then fdfdMatHz g k0 epsT else fdfdMatEz g k0 epsT) *ᵥ
      solver (if tm then fdfdMatHz g k0 epsT else fdfdMatEz g k0 epsT) b = b)
    (h' : ∀ b, (if tm then fdfdMatHz g.timeReversed k0 (conjV epsT) else fdfdMatEz g.timeReversed k0 (conjV epsT)) *ᵥ
      solver (if tm then fdfdMatHz g.timeReversed k0 (conjV epsT) else fdfdMatEz g.timeReversed k0 (conjV epsT)) b = b)
    (src : SField s) (a b : Fin 3) (i j : GIdx s) :
    let f := solve2d g k0 epsT tm solver src
    let f' := solve2d g.timeReversed k0 (conjV epsT) tm solver (conjS src)
    (f'.1 a i * (starRingEnd ℂ) (f'.2 b j)).re = -(f.1 a i * (starRingEnd ℂ) (f.2 b j)).re := by
  intro f f'
  have key := C185_two_d g k0 epsT tm solver h h' src
  cases tm
  · simp only [Bool.false_eq_true, if_false] at key
    rw [show f'.1 a i = conjV f.1 a i from congrFun (congrFun key.1 a) i,
      show f'.2 b j = (-conjV f.2) b j from congrFun (congrFun key.2 b) j]
    simp [conjV]
  · simp only [if_true] at key
    rw [show f'.1 a i = (-conjV f.1) a i from congrFun (congrFun key.1 a) i,
      show f'.2 b j = conjV f.2 b j from congrFun (congrFun key.2 b) j]
    simp [conjV]

/-- The hypotheses are met with PML: an exact solver, 20 cells with 5 cells of PML at each end. -/
example : let g := pmlLine 20 5 (1 / 10) 4 (-16) 4 1
    let solver : Solver (GIdx (shapeOf 20 1 1)) := fun A b => A⁻¹ *ᵥ b
    (∀ b, fdfdMatEz g 4 (fun _ _ => 2) *ᵥ solver (fdfdMatEz g 4 fun _ _ => 2) b = b) ∧
    ∀ b, fdfdMatEz g.timeReversed 4 (conjV fun _ _ => 2) *ᵥ solver (fdfdMatEz g.timeReversed 4 (conjV fun _ _ => 2)) b = b := by
  intro g solver
  have hs : PmlSim 20 5 (1 / 10) 4 4 1 (fun _ _ => 2) :=
    ⟨by norm_num, by norm_num, by norm_num, by norm_num, by norm_num, by norm_num, fun _ => by simp⟩
  have hu := C125_unique 20 5 (1 / 10) 4 (-16) 4 1 (by norm_num) (fun _ _ => 2) hs
  have hA : IsUnit (fdfdMatEz g 4 fun _ _ => 2) := isUnit_of_ker _ fun v hv => (hu 0).unique hv (Matrix.mulVec_zero _)
  have hB : IsUnit (fdfdMatEz g.timeReversed 4 (conjV fun _ _ => 2)) := by
    rw [fdfdMatEz_timeReversed]
    exact hA.map (starRingEnd ℂ).mapMatrix
  have key : ∀ A : Matrix (GIdx (shapeOf 20 1 1)) (GIdx (shapeOf 20 1 1)) ℂ, IsUnit A → ∀ b, A *ᵥ solver A b = b := by
    intro A hA b
    change A *ᵥ (A⁻¹ *ᵥ b) = b
    rw [Matrix.mulVec_mulVec, Matrix.mul_nonsing_inv _ ((Matrix.isUnit_iff_isUnit_det _).1 hA), Matrix.one_mulVec]
  exact ⟨key _ hA, key _ hB⟩

/-- A grid of real cells without Bloch phases is its own reversal. -/
example (spacing : Fin 3 → ℝ) : (uniformOps s (fun _ => 1) spacing).timeReversed = uniformOps s (fun _ => 1) spacing := by
  unfold YeeOps.timeReversed uniformOps
  simp [conj_ofReal]

end Simphox
