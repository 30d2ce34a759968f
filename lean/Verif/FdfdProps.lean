import Mathlib.Tactic.FieldSimp
import Verif.YeeProps

/-!
# Properties of FDFD field conversion and solving: C48, C49
-/

namespace Simphox

open Matrix Complex

variable {s : Fin 3 → ℕ} [∀ a, NeZero (s a)]

/-! ### Specification: the discrete Maxwell equations

`curl_E e = i k0 h + m` and `curl_H h = -i k0 eps e + j` for electric and magnetic currents `j`, `m`,
where the curls use the grid's own derivative matrices (with their Bloch phase and PML scaling). -/

/-- `d x f` for one derivative matrix per axis. -/
def curlOf (d : Fin 3 → Matrix (GIdx s) (GIdx s) ℂ) (f : VField s) : VField s :=
  ![d 1 *ᵥ f 2 - d 2 *ᵥ f 1, d 2 *ᵥ f 0 - d 0 *ᵥ f 2, d 0 *ᵥ f 1 - d 1 *ᵥ f 0]

/-- Faraday's law with magnetic current `m`; `σ = 1` or `-1` is the sign of the time convention. -/
def Faraday (σ : ℂ) (g : YeeOps s) (k0 : ℝ) (e h m : VField s) : Prop :=
  ∀ c i, curlOf (g.deriv false) e c i = σ * (I * k0 * h c i) + m c i

/-- Ampère's law with electric current `j`. -/
def Ampere (σ : ℂ) (g : YeeOps s) (k0 : ℝ) (epsT e h j : VField s) : Prop :=
  ∀ c i, curlOf (g.deriv true) h c i = -σ * (I * k0 * epsT c i * e c i) + j c i

theorem curl_eq_curlOf (g : YeeOps s) (hb : ∀ a, g.bloch a = 1) (ofH : Bool) :
    g.curl ofH = curlOf (g.deriv ofH) := by
  funext f
  unfold YeeOps.curl
  have : g.diffFn ofH = fun v a => g.deriv ofH a *ᵥ v := by
    funext v a; exact YeeOps.diffFn_eq g hb ofH v a
  rw [this]
  rfl

omit [∀ a, NeZero (s a)] in
theorem d2curlOp_curlOf (d : Fin 3 → Matrix (GIdx s) (GIdx s) ℂ) (f : VField s) :
    d2curlOp d *ᵥ vflat f = vflat (curlOf d f) := d2curlOp_mulVec d f

omit [∀ a, NeZero (s a)] in
theorem curlOf_smul (d : Fin 3 → Matrix (GIdx s) (GIdx s) ℂ) (k : ℂ) (f : VField s) :
    curlOf d (fun c i => k * f c i) = fun c i => k * curlOf d f c i := by
  have h1 : ∀ c, (fun i => k * f c i) = k • f c := fun c => rfl
  funext c i
  match c with
  | 0 =>
    change (d 1 *ᵥ (k • f 2)) i - (d 2 *ᵥ (k • f 1)) i = k * ((d 1 *ᵥ f 2) i - (d 2 *ᵥ f 1) i)
    rw [Matrix.mulVec_smul, Matrix.mulVec_smul, Pi.smul_apply, Pi.smul_apply, smul_eq_mul, smul_eq_mul]
    ring
  | 1 =>
    change (d 2 *ᵥ (k • f 0)) i - (d 0 *ᵥ (k • f 2)) i = k * ((d 2 *ᵥ f 0) i - (d 0 *ᵥ f 2) i)
    rw [Matrix.mulVec_smul, Matrix.mulVec_smul, Pi.smul_apply, Pi.smul_apply, smul_eq_mul, smul_eq_mul]
    ring
  | 2 =>
    change (d 0 *ᵥ (k • f 1)) i - (d 1 *ᵥ (k • f 0)) i = k * ((d 0 *ᵥ f 1) i - (d 1 *ᵥ f 0) i)
    rw [Matrix.mulVec_smul, Matrix.mulVec_smul, Pi.smul_apply, Pi.smul_apply, smul_eq_mul, smul_eq_mul]
    ring

omit [∀ a, NeZero (s a)] in
theorem fdfdMat_mulVec (g : YeeOps s) (k0 : ℝ) (epsT e : VField s) (c : Fin 3) (i : GIdx s) :
    (fdfdMat g k0 epsT *ᵥ vflat e) (c, i)
      = curlOf (g.deriv true) (curlOf (g.deriv false) e) c i - k0 ^ 2 * (epsT c i * e c i) := by
  unfold fdfdMat
  rw [Matrix.sub_mulVec, Pi.sub_apply, ← Matrix.mulVec_mulVec, d2curlOp_curlOf, d2curlOp_curlOf,
    Matrix.smul_mulVec, Pi.smul_apply, Matrix.mulVec_diagonal]
  rfl

/-! ### C48 -/

/-- C48, what holds: for zero Bloch phase, nonzero frequency and permittivity, and every source-free
solution `e` of the FDFD operator, converting to `h` and back gives `-e`, not `e` (`h2e` divides by
`+i k0 eps`, while the documented equation is `-i k0 eps e = curl h`). -/
theorem C48_roundtrip_partial (g : YeeOps s) (hb : ∀ a, g.bloch a = 1) (k0 : ℝ) (hk : k0 ≠ 0)
    (epsT e : VField s) (heps : ∀ c i, epsT c i ≠ 0) (he : fdfdMat g k0 epsT *ᵥ vflat e = 0) :
    h2e g k0 epsT (e2h g k0 e) = -e := by
  have hk' : (k0 : ℂ) ≠ 0 := by exact_mod_cast hk
  have hh : e2h g k0 e = fun c i => (1 / (I * k0)) * curlOf (g.deriv false) e c i := by
    funext c i
    unfold e2h
    rw [curl_eq_curlOf g hb]
    ring
  funext c i
  unfold h2e
  rw [hh, curl_eq_curlOf g hb, curlOf_smul]
  have h0 := congrFun he (c, i)
  rw [fdfdMat_mulVec, Pi.zero_apply, sub_eq_zero] at h0
  simp only [h0]
  have := heps c i
  change _ = -(e c i)
  field_simp
  rw [I_sq]
  ring

/-- A two-cell grid with unit cells, a permittivity of one, and the alternating `e_z` field. -/
noncomputable def altField : VField (shapeOf 2 1 1) :=
  ![0, 0, fun i => if (i 0 : ℕ) = 0 then 1 else -1]

theorem altField_mulVec :
    fdfdMat (uniformOps (shapeOf 2 1 1) (fun _ => 1) (fun _ => 1)) 2 (fun _ _ => 1) *ᵥ vflat altField = 0 := by
  set g := uniformOps (shapeOf 2 1 1) (fun _ => 1) (fun _ => 1) with hg
  have hb : ∀ a, g.bloch a = 1 := fun _ => rfl
  -- scalar facts
  have hv : ∀ i : GIdx (shapeOf 2 1 1), (altField 2) (Function.update i 0 (i 0 + 1)) = -altField 2 i := by
    intro i
    have hi : ((i 0 : Fin 2) : ℕ) = 0 ∨ ((i 0 : Fin 2) : ℕ) = 1 := by
      have := (i 0).isLt
      simp only [shapeOf, if_true] at this
      omega
    have hup : ((Function.update i 0 (i 0 + 1) 0 : Fin 2) : ℕ) = if ((i 0 : Fin 2) : ℕ) + 1 = 2 then 0 else ((i 0 : Fin 2) : ℕ) + 1 := by
      rw [Function.update_self]
      exact fin_val_add_one (i 0)
    change (if ((Function.update i 0 (i 0 + 1) 0 : Fin 2) : ℕ) = 0 then (1 : ℂ) else -1)
      = -(if ((i 0 : Fin 2) : ℕ) = 0 then 1 else -1)
    rw [hup]
    rcases hi with h | h <;> rw [h] <;> norm_num
  have hw : ∀ i : GIdx (shapeOf 2 1 1), (altField 2) (Function.update i 0 (i 0 - 1)) = -altField 2 i := by
    intro i
    have := hv (Function.update i 0 (i 0 - 1))
    rw [Function.update_idem, Function.update_self, sub_add_cancel, Function.update_eq_self] at this
    rw [this, neg_neg]
  have hF0 : g.deriv false 0 *ᵥ altField 2 = fun i => -2 * altField 2 i := by
    funext i
    rw [YeeOps.deriv_forward_mulVec, hb, wrapFac_one, hv]
    change (1 * -altField 2 i - altField 2 i) / ((1 : ℝ) : ℂ) = _
    push_cast
    ring
  have hB0 : g.deriv true 0 *ᵥ altField 2 = fun i => 2 * altField 2 i := by
    funext i
    rw [YeeOps.deriv_backward_mulVec, hb, wrapFac_one, hw]
    change (altField 2 i - (starRingEnd ℂ) 1 * -altField 2 i) / ((1 : ℝ) : ℂ) = _
    push_cast
    rw [map_one]
    ring
  have hone : ∀ (p : Bool) (a : Fin 3), a ≠ 0 → g.deriv p a = 0 := by
    intro p a ha
    have hs : shapeOf 2 1 1 a = 1 := by unfold shapeOf; rw [if_neg ha]; split_ifs <;> rfl
    have h0 : (if p then bwd1 (shapeOf 2 1 1 a) (g.bloch a) else fwd1 (shapeOf 2 1 1 a) (g.bloch a)) = 0 := by
      unfold bwd1 fwd1
      have : ¬ 1 < shapeOf 2 1 1 a := by omega
      rw [if_neg this, if_neg this]
      split_ifs <;> rfl
    rw [YeeOps.deriv_eq]
    unfold YeeOps.d1
    rw [h0, Matrix.mul_zero]
    ext i j
    rw [axisOp_apply]
    split_ifs <;> rfl
  have h1 := hone false 1 (by decide)
  have h2 := hone false 2 (by decide)
  have h3 := hone true 1 (by decide)
  have h4 := hone true 2 (by decide)
  have hsm : ∀ k : ℂ, g.deriv true 0 *ᵥ (fun i => k * altField 2 i) = fun i => k * (2 * altField 2 i) := by
    intro k
    have : (fun i => k * altField 2 i) = k • altField 2 := rfl
    rw [this, Matrix.mulVec_smul, hB0]
    rfl
  have hcurl : curlOf (g.deriv false) altField = ![0, fun i => 2 * altField 2 i, 0] := by
    unfold curlOf
    rw [hF0, h1, h2]
    funext c i
    match c with
    | 0 => simp
    | 1 => simp
    | 2 =>
      change (g.deriv false 0 *ᵥ (0 : SField _)) i - ((0 : Matrix _ _ ℂ) *ᵥ altField 0) i = 0
      rw [Matrix.mulVec_zero, Matrix.zero_mulVec]
      simp
  funext p
  obtain ⟨c, i⟩ := p
  rw [fdfdMat_mulVec, hcurl]
  unfold curlOf
  rw [h3, h4]
  match c with
  | 0 =>
    change ((0 : Matrix _ _ ℂ) *ᵥ _) i - ((0 : Matrix _ _ ℂ) *ᵥ _) i - _ * (1 * 0) = 0
    rw [Matrix.zero_mulVec, Matrix.zero_mulVec]
    simp
  | 1 =>
    change ((0 : Matrix _ _ ℂ) *ᵥ _) i - (g.deriv true 0 *ᵥ (0 : SField _)) i - _ * (1 * 0) = 0
    rw [Matrix.zero_mulVec, Matrix.mulVec_zero]
    simp
  | 2 =>
    change (g.deriv true 0 *ᵥ (fun i => 2 * altField 2 i)) i - ((0 : Matrix _ _ ℂ) *ᵥ _) i
      - _ * (1 * altField 2 i) = 0
    rw [hsm, Matrix.zero_mulVec]
    simp only [Pi.zero_apply]
    push_cast
    ring

/-- C48 is violated: on a two-cell grid there is a source-free solution `e` that `e2h` followed by
`h2e` maps to `-e ≠ e`. -/
theorem C48_sign_counterexample :
    ∃ e : VField (shapeOf 2 1 1),
      fdfdMat (uniformOps (shapeOf 2 1 1) (fun _ => 1) (fun _ => 1)) 2 (fun _ _ => 1) *ᵥ vflat e = 0 ∧
      h2e (uniformOps (shapeOf 2 1 1) (fun _ => 1) (fun _ => 1)) 2 (fun _ _ => 1)
        (e2h (uniformOps (shapeOf 2 1 1) (fun _ => 1) (fun _ => 1)) 2 e) ≠ e := by
  refine ⟨altField, altField_mulVec, ?_⟩
  rw [C48_roundtrip_partial _ (fun _ => rfl) 2 (by norm_num) _ _ (fun _ _ => one_ne_zero) altField_mulVec]
  intro h
  have h' := congrFun (congrFun h 2) (fun _ => 0)
  have h1 : altField 2 (fun _ => 0) = 1 := rfl
  rw [Pi.neg_apply, Pi.neg_apply, h1] at h'
  norm_num at h'

/-! ### C49 -/

/-- C49, three dimensions: for zero Bloch phase and any cell sizes (PML included), if the solver
returns a solution of the system it is given, the returned fields satisfy Faraday's law without
magnetic current, and Ampère's law with electric current `-i src`. -/
theorem C49_solve3d_partial (g : YeeOps s) (hb : ∀ a, g.bloch a = 1) (k0 : ℝ) (hk : k0 ≠ 0)
    (epsT : VField s) (solver : Solver (Fin 3 × GIdx s)) (src : VField s)
    (hsolve : fdfdMat g k0 epsT *ᵥ solver (fdfdMat g k0 epsT) (fun p => (k0 : ℂ) * vflat src p)
      = fun p => (k0 : ℂ) * vflat src p) :
    let f := solve3d g k0 epsT solver src
    Faraday 1 g k0 f.1 f.2 0 ∧ Ampere 1 g k0 epsT f.1 f.2 (fun c i => -I * src c i) := by
  intro f
  have hk' : (k0 : ℂ) ≠ 0 := by exact_mod_cast hk
  have hIk : I * (k0 : ℂ) ≠ 0 := mul_ne_zero I_ne_zero hk'
  have hh : f.2 = fun c i => (1 / (I * k0)) * curlOf (g.deriv false) f.1 c i := by
    funext c i
    have : f.2 c i = g.curl false f.1 c i / (I * k0) := rfl
    rw [this, curl_eq_curlOf g hb]
    ring
  have hF : Faraday 1 g k0 f.1 f.2 0 := by
    intro c i
    rw [hh]
    simp only [Pi.zero_apply]
    field_simp
    ring
  refine ⟨hF, ?_⟩
  intro c i
  have hs' : fdfdMat g k0 epsT *ᵥ vflat f.1 = fun p => (k0 : ℂ) * vflat src p := hsolve
  have h0 := congrFun hs' (c, i)
  rw [fdfdMat_mulVec] at h0
  change _ = (k0 : ℂ) * src c i at h0
  rw [hh, curlOf_smul]
  simp only
  have h1 : curlOf (g.deriv true) (curlOf (g.deriv false) f.1) c i
      = k0 * src c i + k0 ^ 2 * (epsT c i * f.1 c i) := by rw [← h0]; ring
  rw [h1]
  field_simp
  ring_nf
  rw [I_sq]
  ring

omit [∀ a, NeZero (s a)] in
/-- The derivative along an axis with one cell vanishes. -/
theorem deriv_one_cell (g : YeeOps s) (p : Bool) (a : Fin 3) (hs : s a = 1) : g.deriv p a = 0 := by
  have h0 : (if p then bwd1 (s a) (g.bloch a) else fwd1 (s a) (g.bloch a)) = 0 := by
    unfold bwd1 fwd1
    have : ¬ 1 < s a := by omega
    rw [if_neg this, if_neg this]
    split_ifs <;> rfl
  rw [YeeOps.deriv_eq]
  unfold YeeOps.d1
  rw [h0, Matrix.mul_zero]
  ext i j
  rw [axisOp_apply]
  split_ifs <;> rfl

omit [∀ a, NeZero (s a)] in
theorem mulVec_const_mul (M : Matrix (GIdx s) (GIdx s) ℂ) (k : ℂ) (f : SField s) :
    M *ᵥ (fun i => k * f i) = fun i => k * (M *ᵥ f) i := by
  have : (fun i => k * f i) = k • f := rfl
  rw [this, Matrix.mulVec_smul]
  rfl

/-- C49, two dimensions, `tm_2d=False` (`e_z`): same statement. -/
theorem C49_solve_ez_partial (g : YeeOps s) (hs2 : s 2 = 1) (hb : ∀ a, g.bloch a = 1) (k0 : ℝ) (hk : k0 ≠ 0)
    (epsT : VField s) (solver : Solver (GIdx s)) (src : SField s)
    (hsolve : fdfdMatEz g k0 epsT *ᵥ solver (fdfdMatEz g k0 epsT) (fun i => (k0 : ℂ) * src i)
      = fun i => (k0 : ℂ) * src i) :
    let f := solve2d g k0 epsT false solver src
    Faraday 1 g k0 f.1 f.2 0 ∧ Ampere 1 g k0 epsT f.1 f.2 (fun c i => -I * (![0, 0, src] : VField s) c i) := by
  intro f
  have hk' : (k0 : ℂ) ≠ 0 := by exact_mod_cast hk
  have hIk : I * (k0 : ℂ) ≠ 0 := mul_ne_zero I_ne_zero hk'
  set ez : SField s := solver (fdfdMatEz g k0 epsT) (fun i => (k0 : ℂ) * src i) with hez
  have hs' : fdfdMatEz g k0 epsT *ᵥ ez = fun i => (k0 : ℂ) * src i := hsolve
  have he : f.1 = ![0, 0, ez] := rfl
  have hd : ∀ a, g.diffFn false ez a = g.deriv false a *ᵥ ez := YeeOps.diffFn_eq g hb false ez
  have hh : f.2 = fun c i => (1 / (I * k0)) * (![g.deriv false 1 *ᵥ ez, -(g.deriv false 0 *ᵥ ez), 0] : VField s) c i := by
    funext c i
    have : f.2 c i = (![g.diffFn false ez 1, -g.diffFn false ez 0, 0] : VField s) c i / (I * k0) := rfl
    rw [this, hd, hd]
    ring
  have hz := fun p => deriv_one_cell g p 2 hs2
  constructor
  · intro c i
    rw [hh, he]
    unfold curlOf
    simp only [Pi.zero_apply, one_div, one_mul, add_zero]
    rw [hz, mul_inv_cancel_left₀ hIk]
    match c with
    | 0 =>
      change (g.deriv false 1 *ᵥ ez) i - ((0 : Matrix _ _ ℂ) *ᵥ _) i = (g.deriv false 1 *ᵥ ez) i
      rw [Matrix.zero_mulVec]; simp
    | 1 =>
      change ((0 : Matrix _ _ ℂ) *ᵥ _) i - (g.deriv false 0 *ᵥ ez) i = -((g.deriv false 0 *ᵥ ez) i)
      rw [Matrix.zero_mulVec]; simp
    | 2 =>
      change (g.deriv false 0 *ᵥ (0 : SField s)) i - (g.deriv false 1 *ᵥ (0 : SField s)) i = 0
      rw [Matrix.mulVec_zero, Matrix.mulVec_zero]; simp
  · intro c i
    rw [hh, curlOf_smul, he]
    simp only
    unfold curlOf
    rw [hz]
    match c with
    | 0 =>
      change 1 / (I * (k0 : ℂ)) * ((g.deriv true 1 *ᵥ (0 : SField s)) i - ((0 : Matrix _ _ ℂ) *ᵥ _) i)
        = -1 * (I * k0 * epsT 0 i * 0) + -I * 0
      rw [Matrix.zero_mulVec, Matrix.mulVec_zero]; simp
    | 1 =>
      change 1 / (I * (k0 : ℂ)) * (((0 : Matrix _ _ ℂ) *ᵥ _) i - (g.deriv true 0 *ᵥ (0 : SField s)) i)
        = -1 * (I * k0 * epsT 1 i * 0) + -I * 0
      rw [Matrix.zero_mulVec, Matrix.mulVec_zero]; simp
    | 2 =>
      have h0 := congrFun hs' i
      unfold fdfdMatEz at h0
      rw [Matrix.sub_mulVec, Matrix.sub_mulVec, Matrix.neg_mul, Matrix.neg_mulVec, Matrix.smul_mulVec,
        ← Matrix.mulVec_mulVec, ← Matrix.mulVec_mulVec, Pi.sub_apply, Pi.sub_apply, Pi.neg_apply,
        Pi.smul_apply, Matrix.mulVec_diagonal, smul_eq_mul] at h0
      change 1 / (I * (k0 : ℂ)) * ((g.deriv true 0 *ᵥ (-(g.deriv false 0 *ᵥ ez))) i
          - (g.deriv true 1 *ᵥ (g.deriv false 1 *ᵥ ez)) i)
        = -1 * (I * k0 * epsT 2 i * ez i) + -I * src i
      rw [Matrix.mulVec_neg, Pi.neg_apply]
      have h1 : -(g.deriv true 0 *ᵥ (g.deriv false 0 *ᵥ ez)) i - (g.deriv true 1 *ᵥ (g.deriv false 1 *ᵥ ez)) i
          = k0 * src i + k0 ^ 2 * (epsT 2 i * ez i) := by rw [← h0]; ring
      rw [h1]
      field_simp
      ring_nf
      rw [I_sq]
      ring

/-- On a grid without PML and zero Bloch phase the forward and backward differences of one axis commute. -/
theorem deriv_fb_comm (spacing : Fin 3 → ℝ) (a : Fin 3) :
    (uniformOps s (fun _ => 1) spacing).deriv true a * (uniformOps s (fun _ => 1) spacing).deriv false a
      = (uniformOps s (fun _ => 1) spacing).deriv false a * (uniformOps s (fun _ => 1) spacing).deriv true a := by
  set g := uniformOps s (fun _ => 1) spacing with hg
  have hb : ∀ a, g.bloch a = 1 := fun _ => rfl
  have hdx : ∀ p i, g.dx p a i = (spacing a : ℂ) := fun _ _ => rfl
  apply Matrix.ext_of_mulVec_single
  intro j
  funext i
  rw [← Matrix.mulVec_mulVec, ← Matrix.mulVec_mulVec, YeeOps.deriv_forward_mulVec, YeeOps.deriv_backward_mulVec,
    YeeOps.deriv_forward_mulVec, YeeOps.deriv_backward_mulVec, YeeOps.deriv_backward_mulVec,
    YeeOps.deriv_forward_mulVec]
  simp only [hb, wrapFac_one, hdx, Function.update_idem, Function.update_self, sub_add_cancel,
    add_sub_cancel_right, Function.update_eq_self, map_one]
  ring

/-- C49, two dimensions, `tm_2d=True` (`h_z`), what holds.
1. On every grid with zero Bloch phase the returned fields satisfy Ampère's law (with the opposite
   time convention, `curl h = +i k0 eps e`).
2. On a grid without PML and with one constant permittivity they also satisfy Faraday's law in that
   convention, with magnetic current `-i src` along z. -/
theorem C49_solve_hz_partial (hs2 : s 2 = 1) (k0 : ℝ) (hk : k0 ≠ 0) (solver : Solver (GIdx s)) (src : SField s) :
    (∀ (g : YeeOps s) (epsT : VField s), (∀ a, g.bloch a = 1) → (∀ c i, epsT c i ≠ 0) →
      let f := solve2d g k0 epsT true solver src
      Ampere (-1) g k0 epsT f.1 f.2 0)
    ∧ ∀ (spacing : Fin 3 → ℝ) (eps : ℂ), eps ≠ 0 →
      let g := uniformOps s (fun _ => 1) spacing
      let A := fdfdMatHz g k0 (fun _ _ => eps)
      A *ᵥ solver A (fun i => (k0 : ℂ) * src i) = (fun i => (k0 : ℂ) * src i) →
      let f := solve2d g k0 (fun _ _ => eps) true solver src
      Faraday (-1) g k0 f.1 f.2 (fun c i => -I * (![0, 0, src] : VField s) c i) := by
  have hk' : (k0 : ℂ) ≠ 0 := by exact_mod_cast hk
  have hIk : I * (k0 : ℂ) ≠ 0 := mul_ne_zero I_ne_zero hk'
  constructor
  · intro g epsT hb heps f
    set hz : SField s := solver (fdfdMatHz g k0 epsT) (fun i => (k0 : ℂ) * src i)
    have hh : f.2 = ![0, 0, hz] := rfl
    have hd : ∀ a, g.diffFn true hz a = g.deriv true a *ᵥ hz := YeeOps.diffFn_eq g hb true hz
    have he : ∀ c i, f.1 c i = (![g.deriv true 1 *ᵥ hz, -(g.deriv true 0 *ᵥ hz), 0] : VField s) c i
        / (I * k0 * epsT c i) := by
      intro c i
      have : f.1 c i = (![g.diffFn true hz 1, -g.diffFn true hz 0, 0] : VField s) c i / (I * k0 * epsT c i) := rfl
      rw [this, hd, hd]
    have hzz := fun p => deriv_one_cell g p 2 hs2
    intro c i
    rw [he, hh, mul_div_cancel₀ _ (mul_ne_zero hIk (heps c i))]
    unfold curlOf
    rw [hzz]
    match c with
    | 0 =>
      change (g.deriv true 1 *ᵥ hz) i - ((0 : Matrix _ _ ℂ) *ᵥ _) i = - -1 * (g.deriv true 1 *ᵥ hz) i + 0
      rw [Matrix.zero_mulVec]; simp
    | 1 =>
      change ((0 : Matrix _ _ ℂ) *ᵥ _) i - (g.deriv true 0 *ᵥ hz) i = - -1 * -((g.deriv true 0 *ᵥ hz) i) + 0
      rw [Matrix.zero_mulVec]; simp
    | 2 =>
      change (g.deriv true 0 *ᵥ (0 : SField s)) i - (g.deriv true 1 *ᵥ (0 : SField s)) i = - -1 * 0 + 0
      rw [Matrix.mulVec_zero, Matrix.mulVec_zero]; simp
  · intro spacing eps heps g A hsolve f
    set hz : SField s := solver A (fun i => (k0 : ℂ) * src i)
    have hb : ∀ a, g.bloch a = 1 := fun _ => rfl
    have hh : f.2 = ![0, 0, hz] := rfl
    have hd : ∀ a, g.diffFn true hz a = g.deriv true a *ᵥ hz := YeeOps.diffFn_eq g hb true hz
    have he : f.1 = fun c i => (1 / (I * k0 * eps)) * (![g.deriv true 1 *ᵥ hz, -(g.deriv true 0 *ᵥ hz), 0] : VField s) c i := by
      funext c i
      have : f.1 c i = (![g.diffFn true hz 1, -g.diffFn true hz 0, 0] : VField s) c i / (I * k0 * eps) := rfl
      rw [this, hd, hd]
      ring
    have hzz := fun p => deriv_one_cell g p 2 hs2
    have hdiag : (Matrix.diagonal fun _ : GIdx s => 1 / eps) = (1 / eps) • (1 : Matrix (GIdx s) (GIdx s) ℂ) := by
      rw [Matrix.smul_one_eq_diagonal]
    intro c i
    rw [he, curlOf_smul, hh]
    simp only
    unfold curlOf
    rw [hzz]
    match c with
    | 0 =>
      change 1 / (I * (k0 : ℂ) * eps) * ((g.deriv false 1 *ᵥ (0 : SField s)) i - ((0 : Matrix _ _ ℂ) *ᵥ _) i)
        = -1 * (I * k0 * 0) + -I * 0
      rw [Matrix.zero_mulVec, Matrix.mulVec_zero]; simp
    | 1 =>
      change 1 / (I * (k0 : ℂ) * eps) * (((0 : Matrix _ _ ℂ) *ᵥ _) i - (g.deriv false 0 *ᵥ (0 : SField s)) i)
        = -1 * (I * k0 * 0) + -I * 0
      rw [Matrix.zero_mulVec, Matrix.mulVec_zero]; simp
    | 2 =>
      have h0 := congrFun hsolve i
      have hA : A = -((1 / eps) • (g.deriv false 0 * g.deriv true 0)) - (1 / eps) • (g.deriv false 1 * g.deriv true 1)
          - (k0 ^ 2 : ℂ) • 1 := by
        change fdfdMatHz g k0 (fun _ _ => eps) = _
        unfold fdfdMatHz
        simp only
        rw [hdiag, Matrix.mul_smul, Matrix.mul_one, Matrix.smul_mul, Matrix.neg_mul, Matrix.mul_smul,
          Matrix.mul_one, Matrix.smul_mul, deriv_fb_comm spacing 0, deriv_fb_comm spacing 1, smul_neg]
      have h1 : (A *ᵥ hz) i = -(1 / eps * (g.deriv false 0 *ᵥ (g.deriv true 0 *ᵥ hz)) i)
          - 1 / eps * (g.deriv false 1 *ᵥ (g.deriv true 1 *ᵥ hz)) i - k0 ^ 2 * hz i := by
        rw [hA]
        simp only [Matrix.sub_mulVec, Matrix.neg_mulVec, Matrix.smul_mulVec, Matrix.one_mulVec, Pi.sub_apply,
          Pi.neg_apply, Pi.smul_apply, smul_eq_mul, Matrix.mulVec_mulVec]
      rw [h1] at h0
      change 1 / (I * (k0 : ℂ) * eps) * ((g.deriv false 0 *ᵥ (-(g.deriv true 0 *ᵥ hz))) i
          - (g.deriv false 1 *ᵥ (g.deriv true 1 *ᵥ hz)) i)
        = -1 * (I * k0 * hz i) + -I * src i
      rw [Matrix.mulVec_neg, Pi.neg_apply]
      have h2 : -(g.deriv false 0 *ᵥ (g.deriv true 0 *ᵥ hz)) i - (g.deriv false 1 *ᵥ (g.deriv true 1 *ᵥ hz)) i
          = eps * (k0 * src i + k0 ^ 2 * hz i) := by
        rw [← h0]; field_simp; ring
      rw [h2]
      field_simp
      ring_nf
      rw [I_sq]
      ring

/-! ### C49: where it fails -/

/-- The scalar field on a one dimensional grid of `n` cells with the values `u 0, u 1, ...`. -/
def line (n : ℕ) (u : ℕ → ℂ) : SField (shapeOf n 1 1) := fun i => u (i 0)

/-- The multi-index of cell `k`. -/
def cell (n k : ℕ) [NeZero n] : GIdx (shapeOf n 1 1) := fun a => Fin.ofNat _ (if a = 0 then k else 0)

theorem line_cell (n k : ℕ) [NeZero n] (u : ℕ → ℂ) : line n u (cell n k) = u (k % n) := rfl

theorem shapeOf_one {n : ℕ} {a : Fin 3} (ha : a ≠ 0) : shapeOf n 1 1 a = 1 := by
  unfold shapeOf; rw [if_neg ha]; split_ifs <;> rfl

theorem gidx_line_ext {n : ℕ} {i j : GIdx (shapeOf n 1 1)} (h : ((i 0 : Fin _) : ℕ) = ((j 0 : Fin _) : ℕ)) : i = j := by
  funext a
  by_cases ha : a = 0
  · subst ha; exact Fin.ext h
  · apply Fin.ext
    have h1 := (i a).isLt
    have h2 := (j a).isLt
    have h3 : shapeOf n 1 1 a = 1 := shapeOf_one ha
    omega

theorem cell_next (n k : ℕ) [NeZero n] (hk : k < n) :
    Function.update (cell n k) 0 (cell n k 0 + 1) = cell n ((k + 1) % n) := by
  apply gidx_line_ext
  rw [Function.update_self]
  have h1 : (((cell n k 0 + 1 : Fin (shapeOf n 1 1 0))) : ℕ) = if k + 1 = n then 0 else k + 1 := by
    have h := fin_val_add_one (n := shapeOf n 1 1 0) (cell n k 0)
    have h2 : ((cell n k 0 : Fin (shapeOf n 1 1 0)) : ℕ) = k := Nat.mod_eq_of_lt hk
    rw [h2] at h
    exact h
  rw [h1]
  change _ = ((k + 1) % n) % n
  split_ifs with h
  · rw [h]; simp
  · rw [Nat.mod_mod, Nat.mod_eq_of_lt (by omega)]

theorem cell_prev (n k : ℕ) [NeZero n] (hk : k < n) :
    Function.update (cell n k) 0 (cell n k 0 - 1) = cell n ((k + n - 1) % n) := by
  have h := cell_next n ((k + n - 1) % n) (Nat.mod_lt _ (by omega))
  have h2 : ((k + n - 1) % n + 1) % n = k := by
    rw [Nat.mod_add_mod, Nat.sub_add_cancel (by omega), Nat.add_mod_right, Nat.mod_eq_of_lt hk]
  rw [h2] at h
  rw [← h, Function.update_idem, Function.update_self]
  have h3 : cell n ((k + n - 1) % n) 0 + 1 - 1 = cell n ((k + n - 1) % n) 0 :=
    add_sub_cancel_right (cell n ((k + n - 1) % n) 0) 1
  rw [h3, Function.update_eq_self]

/-- Finite differences of a line field on a uniform grid with unit cells. -/
theorem line_fwd (n k : ℕ) [NeZero n] (hk : k < n) (b : ℂ) (v : SField (shapeOf n 1 1)) :
    ((uniformOps (shapeOf n 1 1) (fun _ => b) (fun _ => 1)).deriv false 0 *ᵥ v) (cell n k)
      = (if n ≤ 1 then 1 else if k + 1 = n then b else 1) * v (cell n ((k + 1) % n)) - v (cell n k) := by
  rw [YeeOps.deriv_forward_mulVec, cell_next n k hk]
  have h2 : ((cell n k 0 : Fin (shapeOf n 1 1 0)) : ℕ) = k := Nat.mod_eq_of_lt hk
  have h3 : wrapFac (shapeOf n 1 1 0) b (cell n k 0) = if n ≤ 1 then 1 else if k + 1 = n then b else 1 := by
    unfold wrapFac
    rw [h2]
    rfl
  change (wrapFac (shapeOf n 1 1 0) b (cell n k 0) * _ - _) / ((1 : ℝ) : ℂ) = _
  rw [h3]
  push_cast
  rw [div_one]

theorem line_bwd (n k : ℕ) [NeZero n] (hk : k < n) (b : ℂ) (v : SField (shapeOf n 1 1)) :
    ((uniformOps (shapeOf n 1 1) (fun _ => b) (fun _ => 1)).deriv true 0 *ᵥ v) (cell n k)
      = v (cell n k) - (if n ≤ 1 then 1 else if k = 0 then (starRingEnd ℂ) b else 1) * v (cell n ((k + n - 1) % n)) := by
  rw [YeeOps.deriv_backward_mulVec, cell_prev n k hk]
  have h4 : ((cell n k 0 - 1 : Fin (shapeOf n 1 1 0)) : ℕ) = (k + n - 1) % n := by
    have h := cell_prev n k hk
    have h' := congrArg (fun i : GIdx (shapeOf n 1 1) => ((i 0 : Fin _) : ℕ)) h
    simp only [Function.update_self] at h'
    rw [h']
    exact Nat.mod_mod _ _
  have h3 : (starRingEnd ℂ) (wrapFac (shapeOf n 1 1 0) b (cell n k 0 - 1))
      = if n ≤ 1 then 1 else if k = 0 then (starRingEnd ℂ) b else 1 := by
    unfold wrapFac
    rw [h4]
    change (starRingEnd ℂ) (if n ≤ 1 then 1 else if (k + n - 1) % n + 1 = n then b else 1) = _
    by_cases h1 : n ≤ 1
    · rw [if_pos h1, if_pos h1, map_one]
    · rw [if_neg h1, if_neg h1]
      by_cases hk0 : k = 0
      · subst hk0
        rw [if_pos rfl, if_pos]
        rw [Nat.zero_add, Nat.mod_eq_of_lt (by omega)]
        omega
      · rw [if_neg hk0, if_neg, map_one]
        have : k + n - 1 = (k - 1) + n := by omega
        rw [this, Nat.add_mod_right, Nat.mod_eq_of_lt (by omega)]
        omega
  change (_ - (starRingEnd ℂ) (wrapFac (shapeOf n 1 1 0) b (cell n k 0 - 1)) * _) / ((1 : ℝ) : ℂ) = _
  rw [h3]
  push_cast
  rw [div_one]

/-- C49 is violated by the TM solver for a non-uniform permittivity. On a three-cell grid with
permittivity `(1, 1, 3)` and unit cells, with `k0 = 1`, there are a source and an exact solver such
that in a cell where the source is zero, the returned fields satisfy Faraday's law `curl e = ± i k0 h`
for neither sign: `mat_hz` uses `db (1/eps) df`, but `e` is computed from `h_z` with `db`. -/
theorem C49_tm_counterexample :
    let g := uniformOps (shapeOf 3 1 1) (fun _ => 1) (fun _ => 1)
    let epsT := yeeAvgG (line 3 (fun k => if k = 2 then 3 else 1))
    let A := fdfdMatHz g 1 epsT
    ∃ (solver : Solver (GIdx (shapeOf 3 1 1))) (src : SField (shapeOf 3 1 1)),
      A *ᵥ solver A (fun i => ((1 : ℝ) : ℂ) * src i) = (fun i => ((1 : ℝ) : ℂ) * src i) ∧
      src (cell 3 0) = 0 ∧
      let f := solve2d g 1 epsT true solver src
      curlOf (g.deriv false) f.1 2 (cell 3 0) ≠ I * ((1 : ℝ) : ℂ) * f.2 2 (cell 3 0) ∧
      curlOf (g.deriv false) f.1 2 (cell 3 0) ≠ -(I * ((1 : ℝ) : ℂ) * f.2 2 (cell 3 0)) := by
  intro g epsT A
  set hz : SField (shapeOf 3 1 1) := line 3 (fun k => if k = 0 then 1 else 0) with hhz
  have hb : ∀ a, g.bloch a = 1 := fun _ => rfl
  have e0 : epsT 1 (cell 3 0) = 2 := by
    change ((if (cell 3 0 0 : ℕ) = 2 then (3 : ℂ) else 1) + rollFwd 0 (line 3 (fun k => if k = 2 then 3 else 1)) (cell 3 0)) / 2 = 2
    unfold rollFwd
    rw [cell_prev 3 0 (by decide), line_cell]
    have : (cell 3 0 0 : ℕ) = 0 := rfl
    rw [this]
    norm_num
  have e1 : epsT 1 (cell 3 1) = 1 := by
    change ((if (cell 3 1 0 : ℕ) = 2 then (3 : ℂ) else 1) + rollFwd 0 (line 3 (fun k => if k = 2 then 3 else 1)) (cell 3 1)) / 2 = 1
    unfold rollFwd
    rw [cell_prev 3 1 (by decide), line_cell]
    have : (cell 3 1 0 : ℕ) = 1 := rfl
    rw [this]
    norm_num
  have e2 : epsT 1 (cell 3 2) = 2 := by
    change ((if (cell 3 2 0 : ℕ) = 2 then (3 : ℂ) else 1) + rollFwd 0 (line 3 (fun k => if k = 2 then 3 else 1)) (cell 3 2)) / 2 = 2
    unfold rollFwd
    rw [cell_prev 3 2 (by decide), line_cell]
    have : (cell 3 2 0 : ℕ) = 2 := rfl
    rw [this]
    norm_num
  have z0 : hz (cell 3 0) = 1 := rfl
  have z1 : hz (cell 3 1) = 0 := rfl
  have z2 : hz (cell 3 2) = 0 := rfl
  have hy : ∀ p, g.deriv p 1 = 0 := fun p => deriv_one_cell g p 1 rfl
  have hfw : ∀ (v : SField (shapeOf 3 1 1)) k, k < 3 → (g.deriv false 0 *ᵥ v) (cell 3 k) = v (cell 3 ((k + 1) % 3)) - v (cell 3 k) := by
    intro v k hk
    rw [line_fwd 3 k hk 1 v]
    split_ifs <;> ring
  have hbw : ∀ (v : SField (shapeOf 3 1 1)) k, k < 3 → (g.deriv true 0 *ᵥ v) (cell 3 k) = v (cell 3 k) - v (cell 3 ((k + 2) % 3)) := by
    intro v k hk
    rw [line_bwd 3 k hk 1 v]
    split_ifs <;> simp
  have hA : (A *ᵥ hz) (cell 3 0) = 0 := by
    have : A = -(g.deriv true 0 * (Matrix.diagonal (fun i => 1 / epsT 1 i) * g.deriv false 0)) - (((1 : ℝ) : ℂ) ^ 2) • 1 := by
      change fdfdMatHz g 1 epsT = _
      unfold fdfdMatHz
      simp only
      rw [hy, hy, Matrix.zero_mul, Matrix.zero_mul, sub_zero, Matrix.neg_mul, Matrix.neg_mul, Matrix.mul_assoc]
    rw [this, Matrix.sub_mulVec, Matrix.neg_mulVec, ← Matrix.mulVec_mulVec, ← Matrix.mulVec_mulVec,
      Matrix.smul_mulVec, Matrix.one_mulVec, Pi.sub_apply, Pi.neg_apply, Pi.smul_apply,
      hbw _ 0 (by decide), Matrix.mulVec_diagonal, Matrix.mulVec_diagonal]
    rw [hfw _ 0 (by decide), hfw _ ((0 + 2) % 3) (by decide)]
    change -(1 / epsT 1 (cell 3 0) * (hz (cell 3 1) - hz (cell 3 0)) - 1 / epsT 1 (cell 3 2) * (hz (cell 3 0) - hz (cell 3 2)))
      - ((1 : ℝ) : ℂ) ^ 2 * hz (cell 3 0) = 0
    rw [e0, e2, z0, z1, z2]
    norm_num
  refine ⟨fun _ _ => hz, A *ᵥ hz, ?_, hA, ?_⟩
  · funext i
    simp
  intro f
  have hcurl : curlOf (g.deriv false) f.1 2 (cell 3 0) = -(3 / 2) * I := by
    have hfy : ∀ k, k < 3 → f.1 1 (cell 3 k) = -(hz (cell 3 k) - hz (cell 3 ((k + 2) % 3))) / (I * ((1 : ℝ) : ℂ) * epsT 1 (cell 3 k)) := by
      intro k hk
      have : f.1 1 (cell 3 k) = -(g.diffFn true hz 0) (cell 3 k) / (I * ((1 : ℝ) : ℂ) * epsT 1 (cell 3 k)) := rfl
      rw [this, YeeOps.diffFn_eq g hb, hbw _ k hk]
    change (g.deriv false 0 *ᵥ f.1 1) (cell 3 0) - (g.deriv false 1 *ᵥ f.1 0) (cell 3 0) = _
    rw [hy, Matrix.zero_mulVec, hfw _ 0 (by decide), hfy 0 (by decide), hfy ((0 + 1) % 3) (by decide)]
    change -(hz (cell 3 1) - hz (cell 3 0)) / (I * ((1 : ℝ) : ℂ) * epsT 1 (cell 3 1))
      - -(hz (cell 3 0) - hz (cell 3 2)) / (I * ((1 : ℝ) : ℂ) * epsT 1 (cell 3 0)) - 0 = _
    rw [e0, e1, z0, z1, z2]
    push_cast
    have := I_ne_zero
    field_simp
    rw [I_sq]
    norm_num
  have hh : f.2 2 (cell 3 0) = 1 := rfl
  rw [hcurl, hh]
  constructor
  · intro h
    have := congrArg Complex.im h
    simp at this
    norm_num at this
  · intro h
    have := congrArg Complex.im h
    simp at this
    norm_num at this

/-- C49 is violated for a nonzero Bloch phase: the matrix contains it, `diff_fn` does not. On a
two-cell grid with Bloch factor `-1` (phase `pi`), unit cells, permittivity one and `k0 = 1`, a
constant source has the exact solution `e_z = 1`, for which the code returns `h = 0`, although
Faraday's law of this grid requires `h ≠ 0`. -/
theorem C49_bloch_counterexample :
    let g := uniformOps (shapeOf 2 1 1) (fun _ => -1) (fun _ => 1)
    let A := fdfdMatEz g 1 (fun _ _ => 1)
    ∃ (solver : Solver (GIdx (shapeOf 2 1 1))) (src : SField (shapeOf 2 1 1)),
      A *ᵥ solver A (fun i => ((1 : ℝ) : ℂ) * src i) = (fun i => ((1 : ℝ) : ℂ) * src i) ∧
      let f := solve2d g 1 (fun _ _ => 1) false solver src
      ¬ Faraday 1 g 1 f.1 f.2 0 := by
  intro g A
  have hy : ∀ p, g.deriv p 1 = 0 := fun p => deriv_one_cell g p 1 rfl
  refine ⟨fun _ _ => 1, A *ᵥ 1, by funext i; simp, ?_⟩
  intro f hF
  have h1 := hF 1 (cell 2 1)
  have hz : g.deriv false 2 = 0 := deriv_one_cell g false 2 rfl
  have hh : f.2 1 (cell 2 1) = 0 := by
    change -(g.diffFn false 1 0) (cell 2 1) / (I * ((1 : ℝ) : ℂ)) = 0
    simp [YeeOps.diffFn, rollBack]
  have hc : curlOf (g.deriv false) f.1 1 (cell 2 1) = 2 := by
    change (g.deriv false 2 *ᵥ f.1 0) (cell 2 1) - (g.deriv false 0 *ᵥ (1 : SField _)) (cell 2 1) = 2
    rw [hz, Matrix.zero_mulVec, line_fwd 2 1 (by decide)]
    norm_num
  rw [hc, hh] at h1
  simp at h1

end Simphox
