import Verif.ModeOrtho

/-!
# Bounds of the effective index (C137)

`neff` of a guided mode of a lossless cross section never exceeds the highest refractive index of the cross section.
-/

namespace Simphox

open Matrix Complex

variable {s : Fin 3 → ℕ} [∀ a, NeZero (s a)]

local notation "conj" => starRingEnd ℂ

/-! ### Inner products -/

omit [∀ a, NeZero (s a)] in
theorem ip_self (u : SField s) : ip u u = ((∑ i, ‖u i‖ ^ 2 : ℝ) : ℂ) := by
  unfold ip
  push_cast
  refine Finset.sum_congr rfl fun i _ => ?_
  rw [mul_comm, mul_conj, normSq_eq_norm_sq]; push_cast; rfl

omit [∀ a, NeZero (s a)] in
theorem ip_self_nonneg (u : SField s) : 0 ≤ (ip u u).re := by
  rw [ip_self, ofReal_re]
  exact Finset.sum_nonneg fun i _ => by positivity

omit [∀ a, NeZero (s a)] in
theorem ip_add (u v w : SField s) : ip u (v + w) = ip u v + ip u w := by
  unfold ip
  rw [← Finset.sum_add_distrib]
  exact Finset.sum_congr rfl fun i _ => by rw [Pi.add_apply]; ring

omit [∀ a, NeZero (s a)] in
theorem ip_sub (u v w : SField s) : ip u (v - w) = ip u v - ip u w := by
  unfold ip
  rw [← Finset.sum_sub_distrib]
  exact Finset.sum_congr rfl fun i _ => by rw [Pi.sub_apply]; ring

omit [∀ a, NeZero (s a)] in
theorem ip_smul (u v : SField s) (c : ℂ) : ip u (c • v) = c * ip u v := by
  unfold ip
  rw [Finset.mul_sum]
  exact Finset.sum_congr rfl fun i _ => by rw [Pi.smul_apply, smul_eq_mul]; ring

omit [∀ a, NeZero (s a)] in
theorem sub_ip (u v w : SField s) : ip (u - v) w = ip u w - ip v w := by
  rw [← ip_conj, ip_sub, map_sub, ip_conj, ip_conj]

omit [∀ a, NeZero (s a)] in
theorem smul_ip (u v : SField s) (c : ℂ) : ip (c • u) v = conj c * ip u v := by
  rw [← ip_conj, ip_smul, map_mul, ip_conj]

/-- Summation by parts on uniform periodic grids. -/
theorem ip_bwd (spacing : Fin 3 → ℝ) (a : Fin 3) (u v : SField s) :
    ip ((uniformOps s (fun _ => 1) spacing).deriv true a *ᵥ u) v = -ip u ((uniformOps s (fun _ => 1) spacing).deriv false a *ᵥ v) := by
  have h := congrArg conj (C44_integration_by_parts (uniformOps s (fun _ => 1) spacing) a (spacing a) (fun _ _ => rfl) v u)
  have h' : conj (ip v ((uniformOps s (fun _ => 1) spacing).deriv true a *ᵥ u)) = conj (-ip ((uniformOps s (fun _ => 1) spacing).deriv false a *ᵥ v) u) := h
  rwa [map_neg, ip_conj, ip_conj] at h'

theorem ip_fwd (spacing : Fin 3 → ℝ) (a : Fin 3) (u v : SField s) :
    ip ((uniformOps s (fun _ => 1) spacing).deriv false a *ᵥ u) v = -ip u ((uniformOps s (fun _ => 1) spacing).deriv true a *ᵥ v) := by
  have := congrArg conj (ip_bwd spacing a v u)
  rw [map_neg, ip_conj, ip_conj] at this
  rw [this, neg_neg]

/-! ### Two dimensional cross sections -/

/-- `|curl h|² ≥ β² |h|²` for divergence-free `h`. -/
theorem curl_ge (spacing : Fin 3 → ℝ) (b : ℝ) (h : VField s)
    (hdiv : ∀ i, ((uniformOps s (fun _ => 1) spacing).deriv false 0 *ᵥ h 0) i + ((uniformOps s (fun _ => 1) spacing).deriv false 1 *ᵥ h 1) i + (-I * b) * h 2 i = 0) :
    b ^ 2 * (∑ c, ip (h c) (h c)).re ≤
      (∑ c, ip (curlZ ((uniformOps s (fun _ => 1) spacing).deriv true) (-I * b) h c) (curlZ ((uniformOps s (fun _ => 1) spacing).deriv true) (-I * b) h c)).re := by
  set g := uniformOps s (fun _ => 1) spacing with hg
  set F := g.deriv false with hF
  set B := g.deriv true with hB
  set d : ℂ := -I * b with hd
  have cd : conj d = -d := by rw [hd, map_mul, map_neg, conj_I, conj_ofReal]; ring
  have dd : d * d = -(b : ℂ) ^ 2 := by rw [hd]; linear_combination (b : ℂ) ^ 2 * I_mul_I
  have hdiv' : F 0 *ᵥ h 0 + F 1 *ᵥ h 1 + d • h 2 = 0 := funext fun i => hdiv i
  have w0 : curlZ B d h 0 = B 1 *ᵥ h 2 - d • h 1 := rfl
  have w1 : curlZ B d h 1 = d • h 0 - B 0 *ᵥ h 2 := rfl
  have w2 : curlZ B d h 2 = B 0 *ᵥ h 1 - B 1 *ᵥ h 0 := rfl
  have bw : ∀ a u v, ip (B a *ᵥ u) v = -ip u (F a *ᵥ v) := fun a u v => ip_bwd spacing a u v
  have fw : ∀ a u v, ip (F a *ᵥ u) v = -ip u (B a *ᵥ v) := fun a u v => ip_fwd spacing a u v
  -- the curl of the curl
  have c01 : ∀ v, F 1 *ᵥ (B 0 *ᵥ v) = B 0 *ᵥ (F 1 *ᵥ v) := fun v => by
    rw [mulVec_mulVec, mulVec_mulVec, hF, hB, YeeOps.deriv_comm g false true (a := 1) (b := 0) (by decide)]
  have c10 : ∀ v, F 0 *ᵥ (B 1 *ᵥ v) = B 1 *ᵥ (F 0 *ᵥ v) := fun v => by
    rw [mulVec_mulVec, mulVec_mulVec, hF, hB, YeeOps.deriv_comm g false true (a := 0) (b := 1) (by decide)]
  have e0 : ip (h 0) (F 1 *ᵥ curlZ B d h 2) - d * ip (h 0) (curlZ B d h 1) =
      ip (F 0 *ᵥ h 0) (F 0 *ᵥ h 0) + ip (B 1 *ᵥ h 0) (B 1 *ᵥ h 0) + (b : ℂ) ^ 2 * ip (h 0) (h 0) := by
    have k := congrArg (fun v => ip (h 0) (B 0 *ᵥ v)) hdiv'
    simp only [mulVec_add, mulVec_smul, mulVec_zero, ip_add, ip_smul] at k
    have z : ip (h 0) 0 = 0 := by simp [ip]
    rw [z] at k
    rw [w1, w2, mulVec_sub, ip_sub, ip_sub, ip_smul, c01, fw, bw]
    linear_combination k - ip (h 0) (h 0) * dd
  have e1 : d * ip (h 1) (curlZ B d h 0) - ip (h 1) (F 0 *ᵥ curlZ B d h 2) =
      ip (F 1 *ᵥ h 1) (F 1 *ᵥ h 1) + ip (B 0 *ᵥ h 1) (B 0 *ᵥ h 1) + (b : ℂ) ^ 2 * ip (h 1) (h 1) := by
    have k := congrArg (fun v => ip (h 1) (B 1 *ᵥ v)) hdiv'
    simp only [mulVec_add, mulVec_smul, mulVec_zero, ip_add, ip_smul] at k
    have z : ip (h 1) 0 = 0 := by simp [ip]
    rw [z] at k
    rw [w0, w2, mulVec_sub, ip_sub, ip_sub, ip_smul, c10, fw, bw]
    linear_combination k - ip (h 1) (h 1) * dd
  have e2 : ip (h 2) (F 0 *ᵥ curlZ B d h 1) - ip (h 2) (F 1 *ᵥ curlZ B d h 0) =
      ip (B 0 *ᵥ h 2) (B 0 *ᵥ h 2) + ip (B 1 *ᵥ h 2) (B 1 *ᵥ h 2) + (b : ℂ) ^ 2 * ip (h 2) (h 2) := by
    have k := congrArg (fun v => ip (h 2) (d • v)) hdiv'
    simp only [smul_add, smul_zero, ip_add, ip_smul] at k
    have z : ip (h 2) 0 = 0 := by simp [ip]
    rw [z] at k
    rw [w0, w1, mulVec_sub, mulVec_sub, ip_sub, ip_sub, mulVec_smul, mulVec_smul, ip_smul, ip_smul, bw, bw]
    linear_combination k - ip (h 2) (h 2) * dd
  have adj : ∑ c, ip (curlZ B d h c) (curlZ B d h c) =
      (ip (h 0) (F 1 *ᵥ curlZ B d h 2) - d * ip (h 0) (curlZ B d h 1)) + (d * ip (h 1) (curlZ B d h 0) - ip (h 1) (F 0 *ᵥ curlZ B d h 2))
        + (ip (h 2) (F 0 *ᵥ curlZ B d h 1) - ip (h 2) (F 1 *ᵥ curlZ B d h 0)) := by
    rw [Fin.sum_univ_three]
    have a0 : ip (curlZ B d h 0) (curlZ B d h 0) = -ip (h 2) (F 1 *ᵥ curlZ B d h 0) + d * ip (h 1) (curlZ B d h 0) := by
      conv_lhs => rw [w0, sub_ip, bw, smul_ip, cd, ← w0]
      ring
    have a1 : ip (curlZ B d h 1) (curlZ B d h 1) = -(d * ip (h 0) (curlZ B d h 1)) + ip (h 2) (F 0 *ᵥ curlZ B d h 1) := by
      conv_lhs => rw [w1, sub_ip, bw, smul_ip, cd, ← w1]
      ring
    have a2 : ip (curlZ B d h 2) (curlZ B d h 2) = -ip (h 1) (F 0 *ᵥ curlZ B d h 2) + ip (h 0) (F 1 *ᵥ curlZ B d h 2) := by
      conv_lhs => rw [w2, sub_ip, bw, bw, ← w2]
      ring
    rw [a0, a1, a2]
    ring
  rw [adj, e0, e1, e2, Fin.sum_univ_three]
  have hb2 : (b : ℂ) ^ 2 = ((b ^ 2 : ℝ) : ℂ) := by push_cast; rfl
  rw [hb2]
  simp only [add_re, re_ofReal_mul]
  have := ip_self_nonneg (F 0 *ᵥ h 0)
  have := ip_self_nonneg (B 1 *ᵥ h 0)
  have := ip_self_nonneg (F 1 *ᵥ h 1)
  have := ip_self_nonneg (B 0 *ᵥ h 1)
  have := ip_self_nonneg (B 0 *ᵥ h 2)
  have := ip_self_nonneg (B 1 *ᵥ h 2)
  linarith

/-- The bound for any field that solves the discrete Maxwell equations of a lossless cross section. -/
theorem beta_le_of_maxwell (spacing : Fin 3 → ℝ) (k0 b M : ℝ) (hk : 0 < k0) (epsT : VField s) (hreal : ∀ c i, (epsT c i).im = 0)
    (hpos : ∀ c i, 0 < (epsT c i).re) (hM : ∀ c i, (epsT c i).re ≤ M) (e h : VField s)
    (hm : MaxwellZ ((uniformOps s (fun _ => 1) spacing).deriv false) ((uniformOps s (fun _ => 1) spacing).deriv true) (-1) (-I * b) k0 epsT e h)
    (hdiv : ∀ i, ((uniformOps s (fun _ => 1) spacing).deriv false 0 *ᵥ h 0) i + ((uniformOps s (fun _ => 1) spacing).deriv false 1 *ᵥ h 1) i + (-I * b) * h 2 i = 0)
    (hne : h ≠ 0) : b ^ 2 ≤ k0 ^ 2 * M := by
  have heps : ∀ c i, epsT c i = ((epsT c i).re : ℂ) := fun c i => Complex.ext rfl (by rw [hreal, ofReal_im])
  have hl := lorentz spacing k0 b b epsT (fun c i => conj_eq_iff_im.2 (hreal c i)) e h e h hm hm
  have hk' : (k0 : ℂ) ≠ 0 := by exact_mod_cast hk.ne'
  rw [sub_self, zero_mul] at hl
  have hl := (mul_eq_zero.1 hl.symm).resolve_left hk'
  have hE : ∀ c, ip (e c) (fun i => epsT c i * e c i) = ((∑ i, (epsT c i).re * ‖e c i‖ ^ 2 : ℝ) : ℂ) := by
    intro c
    unfold ip
    push_cast
    refine Finset.sum_congr rfl fun i _ => ?_
    have : e c i * conj (e c i) = ((‖e c i‖ ^ 2 : ℝ) : ℂ) := by rw [mul_conj, normSq_eq_norm_sq]
    push_cast at this
    rw [heps]
    rw [ofReal_re]
    linear_combination ((epsT c i).re : ℂ) * this
  have hH : (∑ c, ip (h c) (h c)).re = ∑ c, ∑ i, (epsT c i).re * ‖e c i‖ ^ 2 := by
    have : ∑ c, ip (h c) (h c) = ((∑ c, ∑ i, (epsT c i).re * ‖e c i‖ ^ 2 : ℝ) : ℂ) := by
      rw [ofReal_sum, ← Finset.sum_congr rfl fun c _ => hE c]
      exact sub_eq_zero.1 hl
    rw [this, ofReal_re]
  have hW : (∑ c, ip (curlZ ((uniformOps s (fun _ => 1) spacing).deriv true) (-I * b) h c) (curlZ ((uniformOps s (fun _ => 1) spacing).deriv true) (-I * b) h c)).re
      = ∑ c, ∑ i, k0 ^ 2 * ((epsT c i).re ^ 2 * ‖e c i‖ ^ 2) := by
    rw [re_sum]
    refine Finset.sum_congr rfl fun c _ => ?_
    rw [ip_self, ofReal_re]
    refine Finset.sum_congr rfl fun i _ => ?_
    rw [hm.2 c i, neg_neg, one_mul, norm_mul, norm_mul, norm_mul, norm_I, one_mul, heps, norm_real, norm_real, ofReal_re, Real.norm_of_nonneg hk.le,
      Real.norm_of_nonneg (hpos c i).le]
    ring
  have hc := curl_ge spacing b h hdiv
  rw [hW] at hc
  have hle : ∑ c, ∑ i, k0 ^ 2 * ((epsT c i).re ^ 2 * ‖e c i‖ ^ 2) ≤ k0 ^ 2 * M * (∑ c, ip (h c) (h c)).re := by
    rw [hH, Finset.mul_sum]
    refine Finset.sum_le_sum fun c _ => ?_
    rw [Finset.mul_sum]
    refine Finset.sum_le_sum fun i _ => ?_
    have h1 : (epsT c i).re * ‖e c i‖ ^ 2 * (epsT c i).re ≤ (epsT c i).re * ‖e c i‖ ^ 2 * M :=
      mul_le_mul_of_nonneg_left (hM c i) (mul_nonneg (hpos c i).le (by positivity))
    have h2 := mul_le_mul_of_nonneg_left h1 (sq_nonneg k0)
    linarith
  have hpos : 0 < (∑ c, ip (h c) (h c)).re := by
    rw [re_sum]
    have : ∃ c i, h c i ≠ 0 := by
      by_contra hcon
      push Not at hcon
      exact hne (funext fun c => funext fun i => hcon c i)
    obtain ⟨c, i, hci⟩ := this
    refine Finset.sum_pos' (fun c _ => ip_self_nonneg _) ⟨c, Finset.mem_univ _, ?_⟩
    rw [ip_self, ofReal_re]
    exact Finset.sum_pos' (fun i _ => by positivity) ⟨i, Finset.mem_univ _, by positivity⟩
  exact le_of_mul_le_mul_right (hc.trans hle) hpos

omit [∀ a, NeZero (s a)] in
theorem re_avg (M : ℝ) (x y : ℂ) (hx : 0 < x.re ∧ x.re ≤ M ∧ x.im = 0) (hy : 0 < y.re ∧ y.re ≤ M ∧ y.im = 0) :
    0 < ((x + y) / 2).re ∧ ((x + y) / 2).re ≤ M ∧ ((x + y) / 2).im = 0 := by
  have e1 : ((x + y) / 2).re = (x.re + y.re) / 2 := by simp
  have e2 : ((x + y) / 2).im = (x.im + y.im) / 2 := by simp
  rw [e1, e2, hx.2.2, hy.2.2]
  refine ⟨by linarith [hx.1, hy.1], by linarith [hx.2.1, hy.2.1], by norm_num⟩

/-- Averaging keeps the permittivity real, positive and below the maximum. -/
theorem yeeAvgG_bounds (eps : SField s) (M : ℝ) (h : ∀ i, 0 < (eps i).re ∧ (eps i).re ≤ M ∧ (eps i).im = 0) (c : Fin 3) (i : GIdx s) :
    0 < (yeeAvgG eps c i).re ∧ (yeeAvgG eps c i).re ≤ M ∧ (yeeAvgG eps c i).im = 0 := by
  match c with
  | 0 => exact re_avg M _ _ (h _) (h _)
  | 1 => exact re_avg M _ _ (h _) (h _)
  | 2 => exact re_avg M _ _ (re_avg M _ _ (h _) (h _)) (re_avg M _ _ (h _) (h _))

omit [∀ a, NeZero (s a)] in
theorem fullH_ne (g : YeeOps s) (lam : ℂ) (v : SField s × SField s) (hv : v ≠ 0) : fullH g lam v ≠ 0 := by
  intro h
  exact hv (Prod.ext (congrFun h 0) (congrFun h 1))

omit [∀ a, NeZero (s a)] in
theorem fancy_mem {α : Type} (d : α) (l : List α) (idx : List ℕ) (r : List α) (h : fancy d l idx = .ok r) : ∀ x ∈ r, ∃ i ∈ idx, i < l.length ∧ x = l.getD i d := by
  unfold fancy at h
  split_ifs at h with hi
  injection h with h
  subst h
  intro x hx
  obtain ⟨i, hi', rfl⟩ := List.mem_map.1 hx
  exact ⟨i, hi', hi i hi', rfl⟩

omit [∀ a, NeZero (s a)] in
/-- Every propagation constant `solve` returns is the square root of the real part of an eigenvalue it was given. -/
theorem solvePost_betas {V ι : Type} (argsort : List ℝ → List ℕ) (full : ℂ → V → ι → ℂ) (i0 : ι) (v0 : V) (vals : List ℂ) (vecs : List V)
    (betas : List ℝ) (modes : List (ι → ℂ)) (h : solvePost argsort full i0 v0 vals vecs = .ok (betas, modes)) :
    ∀ b ∈ betas, ∃ k < vals.length, 0 < (vals.getD k 0).re ∧ b = Real.sqrt (vals.getD k 0).re := by
  unfold solvePost at h
  simp only [bind, Except.bind] at h
  split at h
  · cases h
  rename_i vals1 h1
  split at h
  · cases h
  rename_i vecs1 h2
  split at h
  · cases h
  rename_i vals2 h3
  split at h
  · cases h
  rename_i vecs2 h4
  split at h
  · cases h
  rename_i b0 h5
  injection h with h
  have hb : b0.map (fun z => Real.sqrt z.re) = betas := congrArg Prod.fst h
  subst hb
  intro b hb
  obtain ⟨z, hz, rfl⟩ := List.mem_map.1 hb
  obtain ⟨i, _, hi, rfl⟩ := fancy_mem _ _ _ _ h5 z hz
  have hm : vals2.getD i 0 ∈ vals2 := by
    rw [List.getD_eq_getElem?_getD, List.getElem?_eq_getElem hi]
    exact List.getElem_mem hi
  obtain ⟨j, _, hj, e⟩ := fancy_mem _ _ _ _ h3 _ hm
  have hm1 : vals1.getD j 0 ∈ vals1 := by
    rw [List.getD_eq_getElem?_getD, List.getElem?_eq_getElem hj]
    exact List.getElem_mem hj
  obtain ⟨k, hk, hk', e'⟩ := fancy_mem _ _ _ _ h1 _ hm1
  have := (List.mem_filter.1 hk).2
  refine ⟨k, hk', by simpa using this, ?_⟩
  rw [e, e']

/-! ### C137 -/

/-- C137, two dimensional cross sections: for real permittivities in `(0, M]`, every propagation constant `solve` returns from real eigenpairs of its
operator gives an effective index `beta / k0 ≤ √M`. -/
theorem C137_solve_2d (argsort : List ℝ → List ℕ) (spacing : Fin 3 → ℝ) (k0 M : ℝ) (hk : 0 < k0) (eps : SField s)
    (heps : ∀ i, 0 < (eps i).re ∧ (eps i).re ≤ M ∧ (eps i).im = 0) (vals : List ℂ) (vecs : List (SField s × SField s))
    (hreal : ∀ z ∈ vals, z.im = 0) (hne : ∀ k < vals.length, vecs.getD k 0 ≠ 0)
    (heig : ∀ k < vals.length, wgm2d (uniformOps s (fun _ => 1) spacing) k0 (yeeAvgG eps) (vecs.getD k 0).1 (vecs.getD k 0).2 =
      (fun i => vals.getD k 0 * (vecs.getD k 0).1 i, fun i => vals.getD k 0 * (vecs.getD k 0).2 i))
    (betas : List ℝ) (modes : List (Fin 3 × GIdx s → ℂ))
    (h : solvePost argsort (fun lam v => vflat (fullH (uniformOps s (fun _ => 1) spacing) lam v)) ((0 : Fin 3), (0 : GIdx s)) 0 vals vecs = .ok (betas, modes)) :
    ∀ b ∈ betas, b / k0 ≤ Real.sqrt M := by
  intro b hb
  obtain ⟨k, hkl, hpos, rfl⟩ := solvePost_betas _ _ _ _ _ _ _ _ h b hb
  set z := vals.getD k 0 with hz
  have him : z.im = 0 := by
    apply hreal
    rw [hz, List.getD_eq_getElem?_getD, List.getElem?_eq_getElem hkl]
    exact List.getElem_mem hkl
  have hlam : z = ((Real.sqrt z.re : ℝ) : ℂ) ^ 2 := by
    apply Complex.ext
    · rw [← ofReal_pow, ofReal_re, Real.sq_sqrt hpos.le]
    · rw [← ofReal_pow, ofReal_im, him]
  have hev := heig k hkl
  rw [← hz, hlam] at hev
  have hE := yeeAvgG_bounds eps M heps
  have hbp : 0 < Real.sqrt z.re := Real.sqrt_pos.2 hpos
  obtain ⟨m, d, _⟩ := C87_mode_maxwell (uniformOps s (fun _ => 1) spacing) (fun _ => rfl) k0 (Real.sqrt z.re) hk.ne' hbp (yeeAvgG eps)
    (fun c i h0 => by have := (hE c i).1; rw [h0, zero_re] at this; exact lt_irrefl _ this) _ _ hev
  have hle := beta_le_of_maxwell spacing k0 (Real.sqrt z.re) M hk (yeeAvgG eps) (fun c i => (hE c i).2.2) (fun c i => (hE c i).1) (fun c i => (hE c i).2.1) _ _ m d
    (fullH_ne _ _ _ (hne k hkl))
  rw [div_le_iff₀ hk]
  have hM : 0 ≤ M := (heps 0).1.le.trans (heps 0).2.1
  refine (sq_le_sq₀ hbp.le (mul_nonneg (Real.sqrt_nonneg M) hk.le)).1 ?_
  rw [mul_pow, Real.sq_sqrt hM]
  linarith

/-- The Rayleigh quotient of a one dimensional mode. -/
theorem rayleigh1d (spacing : Fin 3 → ℝ) (k0 : ℝ) (eps : SField s) (u : SField s) :
    ip u (wgm1d (uniformOps s (fun _ => 1) spacing) k0 eps u) = (k0 : ℂ) ^ 2 * ip u (fun i => eps i * u i)
      - ip ((uniformOps s (fun _ => 1) spacing).deriv true 0 *ᵥ u) ((uniformOps s (fun _ => 1) spacing).deriv true 0 *ᵥ u) := by
  have h : wgm1d (uniformOps s (fun _ => 1) spacing) k0 eps u = ((k0 : ℂ) ^ 2) • (fun i => eps i * u i) +
      (uniformOps s (fun _ => 1) spacing).deriv false 0 *ᵥ ((uniformOps s (fun _ => 1) spacing).deriv true 0 *ᵥ u) := by
    funext i
    show eps i * (k0 : ℂ) ^ 2 * u i + _ = (k0 : ℂ) ^ 2 * (eps i * u i) + _
    rw [mul_comm (eps i), mul_assoc]
  rw [h, ip_add, ip_smul, ip_bwd]
  ring

omit [∀ a, NeZero (s a)] in
theorem ip_weight (eps u : SField s) (hreal : ∀ i, (eps i).im = 0) : ip u (fun i => eps i * u i) = ((∑ i, (eps i).re * ‖u i‖ ^ 2 : ℝ) : ℂ) := by
  unfold ip
  push_cast
  refine Finset.sum_congr rfl fun i _ => ?_
  have : u i * conj (u i) = ((‖u i‖ ^ 2 : ℝ) : ℂ) := by rw [mul_conj, normSq_eq_norm_sq]
  push_cast at this
  have he : eps i = ((eps i).re : ℂ) := Complex.ext rfl (by rw [hreal, ofReal_im])
  rw [he, ofReal_re]
  linear_combination ((eps i).re : ℂ) * this

omit [∀ a, NeZero (s a)] in
theorem ip_self_pos (u : SField s) (hu : u ≠ 0) : 0 < (ip u u).re := by
  obtain ⟨i, hi⟩ := Function.ne_iff.1 hu
  rw [ip_self, ofReal_re]
  exact Finset.sum_pos' (fun i _ => by positivity) ⟨i, Finset.mem_univ _, by have : u i ≠ 0 := hi; positivity⟩

/-- Eigenvalues of the one dimensional mode operator of a lossless cross section are real and at most `k0² M`. -/
theorem eig1d_le (spacing : Fin 3 → ℝ) (k0 M : ℝ) (eps : SField s) (heps : ∀ i, (eps i).re ≤ M ∧ (eps i).im = 0) (lam : ℂ) (u : SField s) (hu : u ≠ 0)
    (h : wgm1d (uniformOps s (fun _ => 1) spacing) k0 eps u = fun i => lam * u i) : lam.im = 0 ∧ lam.re ≤ k0 ^ 2 * M := by
  have hr := rayleigh1d spacing k0 eps u
  have hl : ip u (fun i => lam * u i) = lam * ip u u := ip_smul u u lam
  rw [h, hl, ip_self, ip_self, ip_weight eps u fun i => (heps i).2] at hr
  have hp := ip_self_pos u hu
  rw [ip_self, ofReal_re] at hp
  set N := ∑ i, ‖u i‖ ^ 2 with hN
  set D := ∑ i, ‖((uniformOps s (fun _ => 1) spacing).deriv true 0 *ᵥ u) i‖ ^ 2 with hD
  set W := ∑ i, (eps i).re * ‖u i‖ ^ 2 with hW
  have hD0 : 0 ≤ D := Finset.sum_nonneg fun i _ => by positivity
  have hW1 : W ≤ M * N := by
    rw [hW, hN, Finset.mul_sum]
    exact Finset.sum_le_sum fun i _ => mul_le_mul_of_nonneg_right (heps i).1 (by positivity)
  have e1 := congrArg re hr
  have e2 := congrArg im hr
  have hk : (k0 : ℂ) ^ 2 = ((k0 ^ 2 : ℝ) : ℂ) := by push_cast; rfl
  rw [hk, mul_comm lam] at e1 e2
  rw [sub_re, re_ofReal_mul, re_ofReal_mul, ofReal_re, ofReal_re] at e1
  rw [sub_im, im_ofReal_mul, im_ofReal_mul, ofReal_im, ofReal_im, mul_zero, sub_zero] at e2
  refine ⟨(mul_eq_zero.1 e2).resolve_left hp.ne', ?_⟩
  have h1 := mul_le_mul_of_nonneg_left hW1 (sq_nonneg k0)
  refine le_of_mul_le_mul_left (?_ : N * lam.re ≤ N * (k0 ^ 2 * M)) hp
  nlinarith

/-- C137, one dimensional cross sections (both polarisations use the same operator): every propagation constant `solve` returns gives an effective index
`≤ √M`. -/
theorem C137_solve_1d (argsort : List ℝ → List ℕ) (spacing : Fin 3 → ℝ) (k0 M : ℝ) (hk : 0 < k0) (eps : SField s)
    (heps : ∀ i, (eps i).re ≤ M ∧ (eps i).im = 0) (vals : List ℂ) (vecs : List (SField s)) (hne : ∀ k < vals.length, vecs.getD k 0 ≠ 0)
    (heig : ∀ k < vals.length, wgm1d (uniformOps s (fun _ => 1) spacing) k0 eps (vecs.getD k 0) = fun i => vals.getD k 0 * vecs.getD k 0 i)
    (betas : List ℝ) (modes : List (SField s)) (h : solvePost argsort (fun _ v => v) (0 : GIdx s) 0 vals vecs = .ok (betas, modes)) :
    ∀ b ∈ betas, b / k0 ≤ Real.sqrt M := by
  intro b hb
  obtain ⟨k, hkl, hpos, rfl⟩ := solvePost_betas _ _ _ _ _ _ _ _ h b hb
  obtain ⟨_, hle⟩ := eig1d_le spacing k0 M eps heps _ _ (hne k hkl) (heig k hkl)
  rw [div_le_iff₀ hk, ← Real.sqrt_sq hk.le, ← Real.sqrt_mul' _ (sq_nonneg k0), mul_comm M]
  exact Real.sqrt_le_sqrt hle

/-- C137, one dimensional cross sections: the eigenvalues are real whatever the eigenvectors, so taking the real part in `solve` loses nothing. -/
theorem C137_real_1d (spacing : Fin 3 → ℝ) (k0 : ℝ) (eps : SField s) (heps : ∀ i, (eps i).im = 0) (lam : ℂ) (u : SField s) (hu : u ≠ 0)
    (h : wgm1d (uniformOps s (fun _ => 1) spacing) k0 eps u = fun i => lam * u i) : lam.im = 0 := by
  obtain ⟨M, hM⟩ : ∃ M, ∀ i, (eps i).re ≤ M := by
    obtain ⟨M, hM⟩ := (Set.finite_range fun i => (eps i).re).bddAbove
    exact ⟨M, fun i => hM ⟨i, rfl⟩⟩
  exact (eig1d_le spacing k0 M eps (fun i => ⟨hM i, heps i⟩) lam u hu h).1

/-- The modes of the homogeneous cross section (beta = 1/2 at k0 = 3/2): the effective index 1/3 is below 1. -/
example : ∀ b ∈ [(1 / 2 : ℝ)], b / (3 / 2) ≤ Real.sqrt 1 := by
  have hre : 0 < (((1 / 2 : ℝ) : ℂ) ^ 2).re := by rw [← ofReal_pow, ofReal_re]; norm_num
  intro b hb
  refine C137_solve_1d (fun l => List.range l.length) (fun _ => 1) (3 / 2) 1 (by norm_num) (fun _ : GIdx (shapeOf 4 1 1) => 1) (fun _ => by simp)
    [((1 / 2 : ℝ) : ℂ) ^ 2] [quarter] ?_ ?_ [1 / 2] [rephase 0 quarter] ?_ b hb
  · intro k hk
    have : k = 0 := by simpa using hk
    subst this
    intro h
    have := congrFun h 0
    simp [quarter] at this
  · intro k hk
    have : k = 0 := by simpa using hk
    subst this
    exact quarter_mode1d
  · have hu : usefulModes [((1 / 2 : ℝ) : ℂ) ^ 2] = [0] := by
      unfold usefulModes
      show List.filter _ [0] = [0]
      rw [List.filter_cons_of_pos]
      · rfl
      · simpa using hre
    unfold solvePost
    rw [hu]
    simp only [fancy, bind, Except.bind]
    simp
    have h4 : ((2 : ℂ) ^ 2).re = 4 := by rw [show (2 : ℂ) ^ 2 = ((4 : ℝ) : ℂ) by norm_num, ofReal_re]
    rw [h4, show (4 : ℝ) / (2 * 2) ^ 2 = (2⁻¹) ^ 2 by norm_num, Real.sqrt_sq (by norm_num)]

end Simphox
