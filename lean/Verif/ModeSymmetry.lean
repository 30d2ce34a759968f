import Verif.ModeMaxwell
import Verif.ScaleProps
import Verif.MirrorProps

/-!
# Symmetries of the mode solver: C193

`ModeSolver.wgm` (mode.py:37-70) with the cells, the permittivity and the wavelength of a transformed waveguide has the
transformed modes, with the same effective indices.
-/

namespace Simphox

open Complex Matrix

variable {s : Fin 3 → ℕ} [∀ a, NeZero (s a)]

/-! ### Specification -/

/-- `(h 0, h 1)` is a mode of the waveguide with permittivity tensor `epsT` at wave number `k0`, with squared
propagation constant `lam`: an eigenvector of the matrix `ModeSolver.wgm` gives to the eigensolver (mode.py:37-70). -/
def IsMode2d (g : YeeOps s) (k0 : ℝ) (epsT : VField s) (lam : ℂ) (h : VField s) : Prop :=
  wgm2d g k0 epsT (h 0) (h 1) = (fun i => lam * h 0 i, fun i => lam * h 1 i)

/-- The same for a slab (mode.py:37-70 with one transverse axis). -/
def IsMode1d (g : YeeOps s) (k0 : ℝ) (eps : SField s) (lam : ℂ) (u : SField s) : Prop :=
  wgm1d g k0 eps u = fun i => lam * u i

/-! ### Units -/

omit [∀ a, NeZero (s a)] in
theorem wgm2d_rescale (a : ℝ) (g : YeeOps s) (k0 : ℝ) (epsT : VField s) (hx hy : SField s) :
    wgm2d (rescale a g) (k0 / a) epsT hx hy =
      (fun i => ((a : ℂ)⁻¹) ^ 2 * (wgm2d g k0 epsT hx hy).1 i, fun i => ((a : ℂ)⁻¹) ^ 2 * (wgm2d g k0 epsT hx hy).2 i) := by
  have hm : ∀ (b : Bool) (ax : Fin 3) (f : SField s) (i : GIdx s),
      ((rescale a g).deriv b ax *ᵥ f) i = (a : ℂ)⁻¹ * (g.deriv b ax *ᵥ f) i := by
    intro b ax f i
    rw [deriv_rescale, smul_mulVec]; rfl
  have hz : (fun i => 1 / epsT 2 i * (((rescale a g).deriv true 0 *ᵥ hy) i - ((rescale a g).deriv true 1 *ᵥ hx) i))
      = fun i => (a : ℂ)⁻¹ * (1 / epsT 2 i * ((g.deriv true 0 *ᵥ hy) i - (g.deriv true 1 *ᵥ hx) i)) := by
    funext i; rw [hm, hm]; ring
  have hd : (fun i => ((rescale a g).deriv false 0 *ᵥ hx) i + ((rescale a g).deriv false 1 *ᵥ hy) i)
      = fun i => (a : ℂ)⁻¹ * ((g.deriv false 0 *ᵥ hx) i + (g.deriv false 1 *ᵥ hy) i) := by
    funext i; rw [hm, hm]; ring
  refine Prod.ext (funext fun i => ?_) (funext fun i => ?_)
  · change _ = ((a : ℂ)⁻¹) ^ 2 * (wgm2d g k0 epsT hx hy).1 i
    rw [(wgm2d_eq _ _ _ _ _ i).1, (wgm2d_eq g k0 _ _ _ i).1, hz, hd, hm, hm, mulVec_scale, mulVec_scale]
    push_cast; ring
  · change _ = ((a : ℂ)⁻¹) ^ 2 * (wgm2d g k0 epsT hx hy).2 i
    rw [(wgm2d_eq _ _ _ _ _ i).2, (wgm2d_eq g k0 _ _ _ i).2, hz, hd, hm, hm, mulVec_scale, mulVec_scale]
    push_cast; ring

omit [∀ a, NeZero (s a)] in
/-- C193, units of length: with all cells and the wavelength multiplied by `a > 0` a waveguide has the same modes,
`1 / a` times the propagation constants and the same effective indices. -/
theorem C193_units (a : ℝ) (ha : 0 < a) (g : YeeOps s) (k0 : ℝ) (epsT : VField s) (lam : ℂ) (h : VField s) :
    (IsMode2d (rescale a g) (k0 / a) epsT (lam / a ^ 2) h ↔ IsMode2d g k0 epsT lam h) ∧
      Real.sqrt (lam / a ^ 2 : ℂ).re = Real.sqrt lam.re / a ∧
      Real.sqrt (lam / a ^ 2 : ℂ).re / (k0 / a) = Real.sqrt lam.re / k0 := by
  have hc : (a : ℂ) ≠ 0 := by exact_mod_cast ha.ne'
  have hre : (lam / (a : ℂ) ^ 2).re = lam.re / a ^ 2 := by
    rw [← Complex.ofReal_pow, Complex.div_ofReal_re]
  have hs : Real.sqrt (lam / a ^ 2 : ℂ).re = Real.sqrt lam.re / a := by
    rw [hre, Real.sqrt_div' _ (by positivity), Real.sqrt_sq ha.le]
  refine ⟨?_, hs, ?_⟩
  · unfold IsMode2d
    rw [wgm2d_rescale]
    have key : ∀ x y : ℂ, ((a : ℂ)⁻¹) ^ 2 * x = lam / (a : ℂ) ^ 2 * y ↔ x = lam * y := by
      intro x y
      constructor
      · intro h
        field_simp at h
        exact h
      · intro h
        rw [h]; field_simp
    constructor
    · intro hE
      rw [Prod.ext_iff] at hE ⊢
      exact ⟨funext fun i => (key _ _).1 (congrFun hE.1 i), funext fun i => (key _ _).1 (congrFun hE.2 i)⟩
    · intro hE
      rw [Prod.ext_iff] at hE ⊢
      exact ⟨funext fun i => (key _ _).2 (congrFun hE.1 i), funext fun i => (key _ _).2 (congrFun hE.2 i)⟩
  · rw [hs]
    field_simp

omit [∀ a, NeZero (s a)] in
/-- C193, units of length for slabs. -/
theorem C193_units_slab (a : ℝ) (ha : 0 < a) (g : YeeOps s) (k0 : ℝ) (eps : SField s) (lam : ℂ) (u : SField s) :
    IsMode1d (rescale a g) (k0 / a) eps (lam / a ^ 2) u ↔ IsMode1d g k0 eps lam u := by
  have hc : (a : ℂ) ≠ 0 := by exact_mod_cast ha.ne'
  have hw : ∀ i, wgm1d (rescale a g) (k0 / a) eps u i = ((a : ℂ)⁻¹) ^ 2 * wgm1d g k0 eps u i := by
    intro i
    unfold wgm1d
    rw [deriv_rescale, deriv_rescale, smul_mulVec, smul_mulVec, mulVec_smul]
    simp only [Pi.smul_apply, smul_eq_mul]
    push_cast; ring
  unfold IsMode1d
  rw [funext_iff, funext_iff]
  refine forall_congr' fun i => ?_
  rw [hw]
  constructor
  · intro h; field_simp at h; exact h
  · intro h; rw [h]; field_simp

/-! ### Translations -/

theorem deriv_translate (g : YeeOps s) (hb : ∀ a, g.bloch a = 1) (hg : EqualCells g) (d : GIdx s) (back : Bool) (a : Fin 3) (f : SField s) :
    g.deriv back a *ᵥ translate d f = translate d (g.deriv back a *ᵥ f) := by
  rw [← YeeOps.diffFn_eq g hb, ← YeeOps.diffFn_eq g hb, diffFn_translate g hg]

/-- C193, translations: shifting the cross-section by any number of cells shifts every mode and keeps its propagation
constant. -/
theorem C193_translate (bloch : Fin 3 → ℂ) (hb : ∀ a, bloch a = 1) (spacing : Fin 3 → ℝ) (k0 : ℝ) (eps : SField s) (d : GIdx s)
    (lam : ℂ) (h : VField s) (hm : IsMode2d (uniformOps s bloch spacing) k0 (yeeAvgG eps) lam h) :
    IsMode2d (uniformOps s bloch spacing) k0 (yeeAvgG (translate d eps)) lam (translateV d h) := by
  have hg : EqualCells (uniformOps s bloch spacing) := fun _ _ _ _ => rfl
  set g := uniformOps s bloch spacing with hgd
  have hb' : ∀ a, g.bloch a = 1 := hb
  unfold IsMode2d at hm ⊢
  rw [yeeAvgG_translate]
  rw [Prod.ext_iff] at hm ⊢
  have hd := deriv_translate g hb' hg d
  have hz : (fun i => 1 / translateV d (yeeAvgG eps) 2 i * ((g.deriv true 0 *ᵥ translateV d h 1) i - (g.deriv true 1 *ᵥ translateV d h 0) i))
      = translate d fun i => 1 / yeeAvgG eps 2 i * ((g.deriv true 0 *ᵥ h 1) i - (g.deriv true 1 *ᵥ h 0) i) := by
    funext i
    change 1 / _ * ((g.deriv true 0 *ᵥ translate d (h 1)) i - (g.deriv true 1 *ᵥ translate d (h 0)) i) = _
    rw [hd, hd]; rfl
  have hv : (fun i => (g.deriv false 0 *ᵥ translateV d h 0) i + (g.deriv false 1 *ᵥ translateV d h 1) i)
      = translate d fun i => (g.deriv false 0 *ᵥ h 0) i + (g.deriv false 1 *ᵥ h 1) i := by
    funext i
    change (g.deriv false 0 *ᵥ translate d (h 0)) i + (g.deriv false 1 *ᵥ translate d (h 1)) i = _
    rw [hd, hd]; rfl
  constructor
  · funext i
    have := congrFun hm.1 (i + d)
    rw [(wgm2d_eq g k0 _ _ _ _).1] at this
    rw [(wgm2d_eq g k0 _ _ _ i).1, hz, hv, hd, hd]
    exact this
  · funext i
    have := congrFun hm.2 (i + d)
    rw [(wgm2d_eq g k0 _ _ _ _).2] at this
    rw [(wgm2d_eq g k0 _ _ _ i).2, hz, hv, hd, hd]
    exact this

/-! ### Mirrors -/

theorem wgm2d_mirror (g : YeeOps s) (hb : ∀ a, g.bloch a = 1) (a : Fin 3) (ha : a ≠ 2) (hg : SymmetricCells g a) (k0 : ℝ)
    (epsT h : VField s) :
    wgm2d g k0 (mirrorPosE a epsT) (flipH a h 0) (flipH a h 1) =
      (flipH a ![(wgm2d g k0 epsT (h 0) (h 1)).1, (wgm2d g k0 epsT (h 0) (h 1)).2, 0] 0,
       flipH a ![(wgm2d g k0 epsT (h 0) (h 1)).1, (wgm2d g k0 epsT (h 0) (h 1)).2, 0] 1) := by
  have hD : ∀ (b : Bool) (ax : Fin 3) (f : SField s), g.deriv b ax *ᵥ f = g.diffFn b f ax := fun b ax f => (YeeOps.diffFn_eq g hb b f ax).symm
  have hfe : ∀ f : SField s, g.diffFn false (fun i => f (flipEdge a i)) a = fun i => -g.diffFn false f a (flipCell a i) :=
    fun f => funext fun i => diffFn_flip_fwd g hg f i
  have hbc : ∀ f : SField s, g.diffFn true (fun i => f (flipCell a i)) a = fun i => -g.diffFn true f a (flipEdge a i) :=
    fun f => funext fun i => diffFn_flip_bwd g hg f i
  have hoc : ∀ (b : Bool) (c : Fin 3) (f : SField s), c ≠ a → g.diffFn b (fun i => f (flipCell a i)) c = fun i => g.diffFn b f c (flipCell a i) :=
    fun b c f hc => funext fun i => (diffFn_flip_other g hc b f i).1
  have hoe : ∀ (b : Bool) (c : Fin 3) (f : SField s), c ≠ a → g.diffFn b (fun i => f (flipEdge a i)) c = fun i => g.diffFn b f c (flipEdge a i) :=
    fun b c f hc => funext fun i => (diffFn_flip_other g hc b f i).2
  have hn : ∀ (b : Bool) (c : Fin 3) (f : SField s), g.diffFn b (fun i => -f i) c = fun i => -g.diffFn b f c i :=
    fun b c f => funext fun i => diffFn_neg g b f c i
  obtain ⟨ez, hez⟩ : ∃ ez : SField s, (fun i => 1 / epsT 2 i * ((g.deriv true 0 *ᵥ h 1) i - (g.deriv true 1 *ᵥ h 0) i)) = ez := ⟨_, rfl⟩
  obtain ⟨dv, hdv⟩ : ∃ dv : SField s, (fun i => (g.deriv false 0 *ᵥ h 0) i + (g.deriv false 1 *ᵥ h 1) i) = dv := ⟨_, rfl⟩
  match a, ha with
  | 2, ha => exact absurd rfl ha
  | 0, _ =>
    have e0 : flipH 0 h 0 = fun i => h 0 (flipEdge 0 i) := rfl
    have e1 : flipH 0 h 1 = fun i => -h 1 (flipCell 0 i) := rfl
    have hz : (fun i => 1 / mirrorPosE 0 epsT 2 i * ((g.deriv true 0 *ᵥ flipH 0 h 1) i - (g.deriv true 1 *ᵥ flipH 0 h 0) i))
        = fun i => ez (flipEdge 0 i) := by
      subst hez
      funext i
      rw [e0, e1, hD, hD, hD, hD, hn true 0 fun i => h 1 (flipCell 0 i), hbc (h 1), hoe true 1 (h 0) (by decide)]
      simp only [neg_neg]
      rfl
    have hv : (fun i => (g.deriv false 0 *ᵥ flipH 0 h 0) i + (g.deriv false 1 *ᵥ flipH 0 h 1) i)
        = fun i => -dv (flipCell 0 i) := by
      subst hdv
      funext i
      rw [e0, e1, hD, hD, hD, hD, hn false 1 fun i => h 1 (flipCell 0 i), hoc false 1 (h 1) (by decide), hfe (h 0)]
      ring
    refine Prod.ext (funext fun i => ?_) (funext fun i => ?_)
    · change _ = (wgm2d g k0 epsT (h 0) (h 1)).1 (flipEdge 0 i)
      rw [(wgm2d_eq g k0 _ _ _ _).1, (wgm2d_eq g k0 _ _ _ _).1, hz, hv, hez, hdv]
      simp only [hD]
      rw [hoe false 1 ez (by decide), hn true 0 fun i => dv (flipCell 0 i),
        hbc dv]
      simp only [neg_neg]
      rfl
    · change _ = -(wgm2d g k0 epsT (h 0) (h 1)).2 (flipCell 0 i)
      rw [(wgm2d_eq g k0 _ _ _ _).2, (wgm2d_eq g k0 _ _ _ _).2, hz, hv, hez, hdv]
      simp only [hD]
      rw [hfe ez, hn true 1 fun i => dv (flipCell 0 i),
        hoc true 1 (dv) (by decide)]
      rw [e1]
      change epsT 0 (flipCell 0 i) * _ * _ + epsT 0 (flipCell 0 i) * _ + _ = _
      ring
  | 1, _ =>
    have e0 : flipH 1 h 0 = fun i => -h 0 (flipCell 1 i) := rfl
    have e1 : flipH 1 h 1 = fun i => h 1 (flipEdge 1 i) := rfl
    have hz : (fun i => 1 / mirrorPosE 1 epsT 2 i * ((g.deriv true 0 *ᵥ flipH 1 h 1) i - (g.deriv true 1 *ᵥ flipH 1 h 0) i))
        = fun i => ez (flipEdge 1 i) := by
      subst hez
      funext i
      rw [e0, e1, hD, hD, hD, hD, hn true 1 fun i => h 0 (flipCell 1 i), hbc (h 0), hoe true 0 (h 1) (by decide)]
      simp only [neg_neg]
      rfl
    have hv : (fun i => (g.deriv false 0 *ᵥ flipH 1 h 0) i + (g.deriv false 1 *ᵥ flipH 1 h 1) i)
        = fun i => -dv (flipCell 1 i) := by
      subst hdv
      funext i
      rw [e0, e1, hD, hD, hD, hD, hn false 0 fun i => h 0 (flipCell 1 i), hoc false 0 (h 0) (by decide), hfe (h 1)]
      ring
    refine Prod.ext (funext fun i => ?_) (funext fun i => ?_)
    · change _ = -(wgm2d g k0 epsT (h 0) (h 1)).1 (flipCell 1 i)
      rw [(wgm2d_eq g k0 _ _ _ _).1, (wgm2d_eq g k0 _ _ _ _).1, hz, hv, hez, hdv]
      simp only [hD]
      rw [hfe ez, hn true 0 fun i => dv (flipCell 1 i),
        hoc true 0 (dv) (by decide)]
      rw [e0]
      change epsT 1 (flipCell 1 i) * _ * _ - epsT 1 (flipCell 1 i) * _ + _ = _
      ring
    · change _ = (wgm2d g k0 epsT (h 0) (h 1)).2 (flipEdge 1 i)
      rw [(wgm2d_eq g k0 _ _ _ _).2, (wgm2d_eq g k0 _ _ _ _).2, hz, hv, hez, hdv]
      simp only [hD]
      rw [hoe false 0 ez (by decide), hn true 1 fun i => dv (flipCell 1 i),
        hbc dv]
      simp only [neg_neg]
      rfl

/-- C193, mirrors: flipping the cross-section along `x` or `y` mirrors every mode (`h` is an axial vector on the
staggered grid) and keeps its propagation constant. -/
theorem C193_mirror (bloch : Fin 3 → ℂ) (hb : ∀ a, bloch a = 1) (spacing : Fin 3 → ℝ) (k0 : ℝ) (eps : SField s) (a : Fin 3)
    (ha : a ≠ 2) (lam : ℂ) (h : VField s) (hm : IsMode2d (uniformOps s bloch spacing) k0 (yeeAvgG eps) lam h) :
    IsMode2d (uniformOps s bloch spacing) k0 (yeeAvgG (mirrorEps a eps)) lam (flipH a h) := by
  unfold IsMode2d at hm ⊢
  rw [yeeAvgG_mirror a ha, wgm2d_mirror _ hb a ha (uniform_symmetric bloch spacing a), hm]
  refine Prod.ext (funext fun i => ?_) (funext fun i => ?_)
  · change (if (0 : Fin 3) = a then lam * h 0 (flipEdge a i) else -(lam * h 0 (flipCell a i))) =
      lam * (if (0 : Fin 3) = a then h 0 (flipEdge a i) else -h 0 (flipCell a i))
    split_ifs <;> ring
  · change (if (1 : Fin 3) = a then lam * h 1 (flipEdge a i) else -(lam * h 1 (flipCell a i))) =
      lam * (if (1 : Fin 3) = a then h 1 (flipEdge a i) else -h 1 (flipCell a i))
    split_ifs <;> ring

/-- C193, parity: in a waveguide that equals its mirror image every mode that is the only one with its propagation
constant is symmetric or antisymmetric. -/
theorem C193_parity (bloch : Fin 3 → ℂ) (hb : ∀ a, bloch a = 1) (spacing : Fin 3 → ℝ) (k0 : ℝ) (eps : SField s) (a : Fin 3)
    (ha : a ≠ 2) (heps : mirrorEps a eps = eps) (lam : ℂ) (h : VField s)
    (hm : IsMode2d (uniformOps s bloch spacing) k0 (yeeAvgG eps) lam h) (hne : ∃ i, h 0 i ≠ 0 ∨ h 1 i ≠ 0)
    (huniq : ∀ h', IsMode2d (uniformOps s bloch spacing) k0 (yeeAvgG eps) lam h' →
      ∃ c : ℂ, ∀ i, h' 0 i = c * h 0 i ∧ h' 1 i = c * h 1 i) :
    (∀ i, flipH a h 0 i = h 0 i ∧ flipH a h 1 i = h 1 i) ∨ ∀ i, flipH a h 0 i = -h 0 i ∧ flipH a h 1 i = -h 1 i := by
  have hm' := C193_mirror bloch hb spacing k0 eps a ha lam h hm
  rw [heps] at hm'
  obtain ⟨c, hc⟩ := huniq _ hm'
  have hsq : ∀ b : Fin 3, (∀ i, flipH a h b i = c * h b i) → ∀ i, h b i = c * (c * h b i) := by
    intro b hcb i
    by_cases hba : b = a
    · have e : ∀ i, flipH a h b i = h b (flipEdge a i) := fun i => by simp [flipH, hba]
      rw [← hcb i, e, ← hcb, e, flipEdge_flipEdge]
    · have e : ∀ i, flipH a h b i = -h b (flipCell a i) := fun i => by simp [flipH, hba]
      rw [← hcb i, e, mul_neg, ← hcb, e, flipCell_flipCell, neg_neg]
  obtain ⟨i, hi⟩ := hne
  have hcc : c = 1 ∨ c = -1 := by
    have : c * c = 1 := by
      rcases hi with hi | hi
      · have := hsq 0 (fun i => (hc i).1) i
        exact mul_right_cancel₀ hi (by rw [one_mul, mul_assoc, ← this])
      · have := hsq 1 (fun i => (hc i).2) i
        exact mul_right_cancel₀ hi (by rw [one_mul, mul_assoc, ← this])
    exact mul_self_eq_one_iff.1 this
  rcases hcc with rfl | rfl
  · left
    intro i
    rw [(hc i).1, (hc i).2]; simp
  · right
    intro i
    rw [(hc i).1, (hc i).2]; simp

/-- C193, translations and mirrors of slabs. -/
theorem C193_slab (bloch : Fin 3 → ℂ) (hb : ∀ a, bloch a = 1) (spacing : Fin 3 → ℝ) (k0 : ℝ) (eps : SField s) (lam : ℂ)
    (u : SField s) (hm : IsMode1d (uniformOps s bloch spacing) k0 eps lam u) :
    (∀ d, IsMode1d (uniformOps s bloch spacing) k0 (translate d eps) lam (translate d u)) ∧
      IsMode1d (uniformOps s bloch spacing) k0 (mirrorEps 0 eps) lam (mirrorEps 0 u) := by
  have hg : EqualCells (uniformOps s bloch spacing) := fun _ _ _ _ => rfl
  have hs := uniform_symmetric (s := s) bloch spacing 0
  set g := uniformOps s bloch spacing with hgd
  have hb' : ∀ a, g.bloch a = 1 := hb
  unfold IsMode1d at hm ⊢
  constructor
  · intro d
    funext i
    have h := congrFun hm (i + d)
    unfold wgm1d at h ⊢
    rw [deriv_translate g hb' hg, deriv_translate g hb' hg]
    exact h
  · funext i
    have h := congrFun hm (flipCell 0 i)
    unfold wgm1d at h ⊢
    have h1 : g.deriv true 0 *ᵥ mirrorEps 0 u = fun i => -(g.deriv true 0 *ᵥ u) (flipEdge 0 i) := by
      rw [← YeeOps.diffFn_eq g hb', ← YeeOps.diffFn_eq g hb']
      exact funext fun i => diffFn_flip_bwd g hs u i
    have h2 : (g.deriv false 0 *ᵥ fun i => -(g.deriv true 0 *ᵥ u) (flipEdge 0 i)) i
        = (g.deriv false 0 *ᵥ (g.deriv true 0 *ᵥ u)) (flipCell 0 i) := by
      rw [← YeeOps.diffFn_eq g hb' false, ← YeeOps.diffFn_eq g hb' false,
        diffFn_neg g false (fun i => (g.deriv true 0 *ᵥ u) (flipEdge 0 i)), diffFn_flip_fwd g hs, neg_neg]
    rw [h1, h2]
    exact h

/-- The hypotheses are met: `hy = 1, i, -1, -i` on four cells in vacuum, `k0 = 3/2`, is a mode with `beta = 1/2`; so is
its mirror image, and in units half as long (`a = 2`) it has `beta = 1/4`. -/
example : IsMode2d g4 (3 / 2) (yeeAvgG fun _ => 1) ((1 / 2 : ℝ) ^ 2) ![0, quarter, 0] ∧
    IsMode2d g4 (3 / 2) (yeeAvgG (mirrorEps 0 fun _ => 1)) ((1 / 2 : ℝ) ^ 2) (flipH 0 ![0, quarter, 0]) ∧
    IsMode2d (rescale 2 g4) (3 / 2 / 2) (yeeAvgG fun _ => 1) ((1 / 2 : ℝ) ^ 2 / (2 : ℝ) ^ 2) ![0, quarter, 0] := by
  have h : IsMode2d g4 (3 / 2) (yeeAvgG fun _ => 1) ((1 / 2 : ℝ) ^ 2) ![0, quarter, 0] := by
    have he : yeeAvgG (s := shapeOf 4 1 1) (fun _ => (1 : ℂ)) = fun _ _ => 1 := by
      funext c i
      match c with
      | 0 => simp [yeeAvgG, rollFwd]
      | 1 => simp [yeeAvgG, rollFwd]
      | 2 => simp [yeeAvgG, rollFwd]
    rw [he]
    exact quarter_mode2d
  exact ⟨h, C193_mirror (fun _ => 1) (fun _ => rfl) (fun _ => 1) _ _ 0 (by decide) _ _ h,
    (C193_units 2 (by norm_num) g4 _ _ _ _).1.2 h⟩

end Simphox
