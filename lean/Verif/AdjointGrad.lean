import Verif.PrimitivesProps
import Verif.PmlPowerProps
import Verif.MirrorProps
import Mathlib.Analysis.Calculus.FDeriv.RestrictScalars
import Mathlib.Analysis.Complex.Basic
import Mathlib.Analysis.Calculus.Deriv.Inv
import Mathlib.Data.List.GetD

/-!
# C184: the gradient of a two-dimensional inverse design problem is the true gradient

`jax.grad` of an objective of the fields returned by `FDFD.get_fields_fn` runs the hand-written backward functions of
`spsolve` and `TMOperator`, chained with JAX's own rules (sums, reciprocals, `roll`).
-/

namespace Simphox

open Matrix Complex

section chain

variable {ι : Type} [Fintype ι] [DecidableEq ι] {K : ℕ}

theorem spsolveVjp_linear (idx : Fin K → ι × ι) (a : Fin K → ℂ) (b g : ι → ℂ) (k : Fin K) :
    ∑ i, g i * (spsolveVjp idx a b (Pi.single i 1)).1 k = (spsolveVjp idx a b g).1 k := by
  simp only [spsolveVjp, spsolve, Matrix.mulVec_single_one, neg_mul, mul_neg, Finset.sum_neg_distrib, Matrix.col_apply]
  rw [neg_inj]
  simp only [← mul_assoc]
  rw [← Finset.sum_mul]
  congr 1
  simp only [Matrix.mulVec, dotProduct, mul_comm]

/-- The chain rule through `spsolve`, with the cotangent of its backward function. -/
theorem spsolve_chain {E : Type} [NormedAddCommGroup E] [NormedSpace ℝ E] (idx : Fin K → ι × ι) (a : E → Fin K → ℂ)
    (a' : E →L[ℝ] (Fin K → ℂ)) (x0 : E) (ha : HasFDerivAt a a' x0) (b : ι → ℂ) (hA : IsUnit (cooFn idx (a x0)))
    (F : (ι → ℂ) × E → ℝ) (F' : ((ι → ℂ) × E) →L[ℝ] ℝ) (hF : HasFDerivAt F F' (spsolve idx (a x0) b, x0))
    (cot : ι → ℂ) (d : E → ℝ) (h : ∀ dx dε, F' (dx, dε) = (∑ i, cot i * dx i).re + d dε) :
    ∃ L : E →L[ℝ] ℝ, HasFDerivAt (fun ε => F (spsolve idx (a ε) b, ε)) L x0 ∧
      ∀ dε, L dε = (∑ k, (spsolveVjp idx (a x0) b cot).1 k * a' dε k).re + d dε := by
  choose L hL hLv using fun i => C51_spsolve_vjp idx (a x0) b (Pi.single i 1) hA
  have hi : ∀ i, HasFDerivAt (fun p : (Fin K → ℂ) × (ι → ℂ) => spsolve idx p.1 p.2 i) (L i) (a x0, b) := by
    intro i
    have := hL i
    have e : (fun p : (Fin K → ℂ) × (ι → ℂ) => ∑ j, (Pi.single i 1 : ι → ℂ) j * spsolve idx p.1 p.2 j) =
        fun p => spsolve idx p.1 p.2 i := by
      funext p
      simp [Pi.single_apply]
    rwa [e] at this
  have hX : HasFDerivAt (fun p : (Fin K → ℂ) × (ι → ℂ) => spsolve idx p.1 p.2) (ContinuousLinearMap.pi L) (a x0, b) :=
    hasFDerivAt_pi.2 hi
  have hpair : HasFDerivAt (fun ε : E => (a ε, b)) (a'.prod (0 : E →L[ℝ] (ι → ℂ))) x0 :=
    ha.prodMk (hasFDerivAt_const b x0)
  have hx := (hX.restrictScalars ℝ).comp x0 hpair
  have hboth := hx.prodMk (hasFDerivAt_id (𝕜 := ℝ) x0)
  have hfin := HasFDerivAt.comp (g := F) (f := fun ε : E => (spsolve idx (a ε) b, ε)) x0 hF hboth
  refine ⟨_, hfin, fun dε => ?_⟩
  change F' ((fun i => L i (a' dε, 0)), dε) = _
  rw [h]
  congr 2
  simp only [hLv, Pi.zero_apply, mul_zero, Finset.sum_const_zero, add_zero, Finset.mul_sum]
  rw [Finset.sum_comm]
  refine Finset.sum_congr rfl fun k _ => ?_
  rw [← spsolveVjp_linear idx (a x0) b cot k, Finset.sum_mul]
  refine Finset.sum_congr rfl fun i _ => ?_
  ring

/-- `spsolve` on lists of entries and positions. -/
noncomputable def listIdx (l : List (ι × ι)) : Fin l.length → ι × ι := fun k => l[k]

omit [Fintype ι] in
theorem cooFn_list (l : List (ι × ι)) (d : List ℂ) (h : d.length = l.length) :
    cooFn (listIdx l) (fun k => d.getD k 0) = cooPlace d l := by
  funext i j
  unfold cooFn cooPlace listIdx
  rw [← List.sum_ofFn]
  congr 1
  apply List.ext_getElem
  · simp [h]
  · intro k h1 h2
    simp only [List.getElem_ofFn, List.getElem_map, List.getElem_zip, Fin.getElem_fin]
    rw [List.getD_eq_getElem _ _ (by simp at h1; omega)]

end chain

variable {s : Fin 3 → ℕ} [∀ a, NeZero (s a)]

/-- JAX's transpose of `(p + roll(p, 1, axis)) / 2`. -/
noncomputable def avgT (a : Fin 3) (w : GIdx s → ℝ) : GIdx s → ℝ := fun i => (w i + rollBack a w i) / 2

theorem sum_mul_rollFwd (a : Fin 3) (w p : GIdx s → ℝ) : ∑ i, w i * rollFwd a p i = ∑ i, rollBack a w i * p i := by
  unfold rollFwd rollBack
  refine Finset.sum_nbij' (fun i => Function.update i a (i a - 1)) (fun i => Function.update i a (i a + 1))
    (by simp) (by simp) ?_ ?_ ?_
  · intro i _; simp
  · intro i _; simp
  · intro i _; simp

theorem avgT_spec (a : Fin 3) (w p : GIdx s → ℝ) :
    ∑ i, w i * ((p i + rollFwd a p i) / 2) = ∑ i, avgT a w i * p i := by
  have h := sum_mul_rollFwd a w p
  have e1 : ∀ i, w i * ((p i + rollFwd a p i) / 2) = (w i * p i + w i * rollFwd a p i) / 2 := fun i => by ring
  have e2 : ∀ i, avgT a w i * p i = (w i * p i + rollBack a w i * p i) / 2 := fun i => by unfold avgT; ring
  simp only [e1, e2, ← Finset.sum_div, Finset.sum_add_distrib, h]

/-- The entries of the TE system (fdfd.py:381-383). -/
noncomputable def teEntries (g : YeeOps s) (k0 : ℝ) (eps : SField s) : List ℂ :=
  (diagIdx (GIdx s)).map (fun p => -(yeeAvg2dZG eps) p.1 * k0 ^ 2) ++
    cooData (-(g.deriv true 0) * g.deriv false 0 - g.deriv true 1 * g.deriv false 1)

/-- The positions of the TE system (fdfd.py:376-377). -/
noncomputable def teIndices (g : YeeOps s) : List (GIdx s × GIdx s) :=
  diagIdx (GIdx s) ++ cooIndices (-(g.deriv true 0) * g.deriv false 0 - g.deriv true 1 * g.deriv false 1)

/-- `ez` of the differentiable TE solver (fdfd.py:381-384). -/
noncomputable def jaxEz (g : YeeOps s) (k0 : ℝ) (src : SField s) (eps : GIdx s → ℝ) : SField s :=
  spsolve (listIdx (teIndices g)) (fun k => (teEntries g k0 fun i => (eps i : ℂ)).getD k 0) (fun i => k0 * src i)

/-- The cotangent of the permittivity in the TE solver: the backward function of `spsolve` (primitives.py:37-41), the
slice of `hstack`, the factor `-k0^2` with the real part (a real array was promoted), the averages of `yee_avg_2d_z`
(utils.py:203-207) transposed. -/
noncomputable def jaxGradTe (g : YeeOps s) (k0 : ℝ) (src : SField s) (eps : GIdx s → ℝ) (cot : SField s) : GIdx s → ℝ :=
  let abar := List.ofFn (spsolveVjp (listIdx (teIndices g)) (fun k => (teEntries g k0 fun i => (eps i : ℂ)).getD k 0)
    (fun i => k0 * src i) cot).1
  let ebar : GIdx s → ℝ := fun i => (-(abar.getD ((Finset.univ : Finset (GIdx s)).toList.idxOf i) 0) * k0 ^ 2).re
  avgT 0 (avgT 1 ebar)

theorem teEntries_length (g : YeeOps s) (k0 : ℝ) (eps : SField s) : (teEntries g k0 eps).length = (teIndices g).length := by
  simp [teEntries, teIndices, cooData]

theorem teSystem (g : YeeOps s) (k0 : ℝ) (eps : SField s) :
    cooFn (listIdx (teIndices g)) (fun k => (teEntries g k0 eps).getD k 0) = fdfdMatEz g k0 (yeeAvgG eps) := by
  rw [cooFn_list _ _ (teEntries_length g k0 eps)]
  have h := C50_te g k0 eps
  unfold jaxMatTe cooMatrix at h
  simp only at h
  have hl := teEntries_length g k0 eps
  unfold teEntries teIndices at hl ⊢
  rw [if_pos hl] at h
  exact Option.some.inj h

/-- The average of `yee_avg_2d_z` on real arrays. -/
noncomputable def avgZ (p : GIdx s → ℝ) : GIdx s → ℝ := fun i =>
  ((p i + rollFwd 0 p i) / 2 + rollFwd 1 (fun i => (p i + rollFwd 0 p i) / 2) i) / 2

theorem yeeAvg2dZG_real (p : GIdx s → ℝ) (i : GIdx s) : yeeAvg2dZG (fun i => (p i : ℂ)) i = (avgZ p i : ℂ) := by
  unfold yeeAvg2dZG avgZ rollFwd
  push_cast
  rfl

theorem avgZ_transpose (w p : GIdx s → ℝ) : ∑ i, w i * avgZ p i = ∑ i, avgT 0 (avgT 1 w) i * p i := by
  unfold avgZ
  rw [avgT_spec 1 w (fun i => (p i + rollFwd 0 p i) / 2), avgT_spec 0]

omit [∀ a, NeZero (s a)] in
/-- A sum over the first part of a list is a sum over the grid. -/
theorem sum_fin_diag (l : List (GIdx s × GIdx s)) (A : Fin (diagIdx (GIdx s) ++ l).length → ℂ) (f : GIdx s → ℂ) :
    ∑ k, A k * ((diagIdx (GIdx s)).map (fun p : GIdx s × GIdx s => f p.1) ++ l.map fun _ => 0).getD k 0 =
      ∑ i, (List.ofFn A).getD ((Finset.univ : Finset (GIdx s)).toList.idxOf i) 0 * f i := by
  have hnd : (Finset.univ : Finset (GIdx s)).toList.Nodup := Finset.nodup_toList _
  set u := (Finset.univ : Finset (GIdx s)).toList with hu
  have hlen : (diagIdx (GIdx s)).length = u.length := by simp [diagIdx, hu]
  have e1 : ∑ i, (List.ofFn A).getD (u.idxOf i) 0 * f i = (u.map fun i => (List.ofFn A).getD (u.idxOf i) 0 * f i).sum := by
    rw [hu, Finset.sum_map_toList]
  have e2 : (u.map fun i => (List.ofFn A).getD (u.idxOf i) 0 * f i).sum =
      ∑ k : Fin u.length, (List.ofFn A).getD k 0 * f u[k] := by
    rw [← List.sum_ofFn]
    congr 1
    apply List.ext_getElem
    · simp
    · intro k h1 h2
      simp only [List.getElem_map, List.getElem_ofFn, Fin.getElem_fin]
      rw [hnd.idxOf_getElem]
  have hK : (diagIdx (GIdx s) ++ l).length = u.length + l.length := by rw [List.length_append, hlen]
  have e3 : ∑ k, A k * ((diagIdx (GIdx s)).map (fun p : GIdx s × GIdx s => f p.1) ++ l.map fun _ => 0).getD k 0 =
      ∑ k ∈ Finset.range (u.length + l.length), (List.ofFn A).getD k 0 * ((diagIdx (GIdx s)).map (fun p : GIdx s × GIdx s => f p.1) ++ l.map fun _ => 0).getD k 0 := by
    rw [← hK, Finset.sum_range]
    refine Finset.sum_congr rfl fun k _ => ?_
    rw [List.getD_eq_getElem (List.ofFn A) _ (by rw [List.length_ofFn]; exact k.2), List.getElem_ofFn]
  rw [e3, Finset.sum_range_add, e1, e2, Finset.sum_range]
  have z : ∑ x ∈ Finset.range l.length, (List.ofFn A).getD (u.length + x) 0 *
      ((diagIdx (GIdx s)).map (fun p : GIdx s × GIdx s => f p.1) ++ l.map fun _ => 0).getD (u.length + x) 0 = 0 := by
    apply Finset.sum_eq_zero
    intro x hx
    rw [List.getD_append_right _ _ _ _ (by simp [hlen])]
    rw [List.getD_eq_getElem _ _ (by simp at hx; simp [hlen, hx])]
    simp
  rw [z, add_zero]
  refine Finset.sum_congr rfl fun k _ => ?_
  congr 1
  rw [List.getD_append _ _ _ _ (by simp [hlen]), List.getD_eq_getElem _ _ (by simp [hlen])]
  simp [diagIdx, hu]


omit [∀ a, NeZero (s a)] in
theorem sum_fin_diag' (L l : List (GIdx s × GIdx s)) (hL : L = diagIdx (GIdx s) ++ l) (A : Fin L.length → ℂ) (f : GIdx s → ℂ) :
    ∑ k, A k * ((diagIdx (GIdx s)).map (fun p : GIdx s × GIdx s => f p.1) ++ l.map fun _ => 0).getD k 0 =
      ∑ i, (List.ofFn A).getD ((Finset.univ : Finset (GIdx s)).toList.idxOf i) 0 * f i := by
  subst hL
  exact sum_fin_diag l A f

/-- The average as a continuous linear map. -/
noncomputable def avgZL : (GIdx s → ℝ) →L[ℝ] (GIdx s → ℝ) :=
  LinearMap.toContinuousLinearMap
    { toFun := avgZ
      map_add' := by intro p q; funext i; simp only [avgZ, rollFwd, Pi.add_apply]; ring
      map_smul' := by intro c p; funext i; simp only [avgZ, rollFwd, Pi.smul_apply, smul_eq_mul, RingHom.id_apply]; ring }

omit [∀ a, NeZero (s a)] in
theorem getD_append_map_zero {α : Type} (l : List α) (f : α → ℂ) (m : List (GIdx s × GIdx s)) (k : ℕ) :
    (l.map f ++ m.map fun _ => (0 : ℂ)).getD k 0 = if h : k < l.length then f l[k] else 0 := by
  split_ifs with h
  · rw [List.getD_append _ _ _ _ (by simpa using h), List.getD_eq_getElem _ _ (by simpa using h), List.getElem_map]
  · rw [List.getD_append_right _ _ _ _ (by simpa using h)]
    by_cases h2 : k - (l.map f).length < m.length
    · rw [List.getD_eq_getElem _ _ (by simpa using h2), List.getElem_map]
    · rw [List.getD_eq_default _ _ (by simpa using h2)]

theorem teEntries_deriv (g : YeeOps s) (k0 : ℝ) (eps : GIdx s → ℝ) :
    ∃ a' : (GIdx s → ℝ) →L[ℝ] (Fin (teIndices g).length → ℂ),
      HasFDerivAt (fun (ε : GIdx s → ℝ) (k : Fin (teIndices g).length) => (teEntries g k0 fun i => (ε i : ℂ)).getD k 0) a' eps ∧
      ∀ dε k, a' dε k = ((diagIdx (GIdx s)).map (fun p => -(avgZ dε p.1 : ℂ) * k0 ^ 2) ++
        (cooIndices (-(g.deriv true 0) * g.deriv false 0 - g.deriv true 1 * g.deriv false 1)).map fun _ => (0 : ℂ)).getD k 0 := by
  have key : ∀ k : Fin (teIndices g).length, ∃ L : (GIdx s → ℝ) →L[ℝ] ℂ,
      HasFDerivAt (fun ε : GIdx s → ℝ => (teEntries g k0 fun i => (ε i : ℂ)).getD k 0) L eps ∧
      ∀ dε, L dε = ((diagIdx (GIdx s)).map (fun p => -(avgZ dε p.1 : ℂ) * k0 ^ 2) ++
        (cooIndices (-(g.deriv true 0) * g.deriv false 0 - g.deriv true 1 * g.deriv false 1)).map fun _ => (0 : ℂ)).getD k 0 := by
    intro k
    by_cases hk : (k : ℕ) < (diagIdx (GIdx s)).length
    · have e : (fun ε : GIdx s → ℝ => (teEntries g k0 fun i => (ε i : ℂ)).getD k 0) =
          fun ε => -(avgZ ε ((diagIdx (GIdx s))[(k : ℕ)]).1 : ℂ) * k0 ^ 2 := by
        funext ε
        unfold teEntries
        rw [List.getD_append _ _ _ _ (by simpa using hk), List.getD_eq_getElem _ _ (by simpa using hk), List.getElem_map,
          yeeAvg2dZG_real]
      let M : (GIdx s → ℝ) →L[ℝ] ℂ := (-(k0 ^ 2 : ℝ)) • Complex.ofRealCLM.comp
        ((ContinuousLinearMap.proj ((diagIdx (GIdx s))[(k : ℕ)]).1).comp avgZL)
      have hM : ∀ ε, M ε = -(avgZ ε ((diagIdx (GIdx s))[(k : ℕ)]).1 : ℂ) * k0 ^ 2 := by
        intro ε
        change (-(k0 ^ 2 : ℝ)) • (avgZ ε ((diagIdx (GIdx s))[(k : ℕ)]).1 : ℂ) = _
        rw [Complex.real_smul]; push_cast; ring
      refine ⟨M, ?_, fun dε => ?_⟩
      · rw [e, show (fun ε : GIdx s → ℝ => -(avgZ ε ((diagIdx (GIdx s))[(k : ℕ)]).1 : ℂ) * k0 ^ 2) = M from funext fun ε => (hM ε).symm]
        exact M.hasFDerivAt
      · rw [hM, getD_append_map_zero (f := fun p : GIdx s × GIdx s => -(avgZ dε p.1 : ℂ) * k0 ^ 2), dif_pos hk]
    · have e : (fun ε : GIdx s → ℝ => (teEntries g k0 fun i => (ε i : ℂ)).getD k 0) =
          fun _ => (cooData (-(g.deriv true 0) * g.deriv false 0 - g.deriv true 1 * g.deriv false 1)).getD (k - (diagIdx (GIdx s)).length) 0 := by
        funext ε
        unfold teEntries
        rw [List.getD_append_right _ _ _ _ (by simpa using hk), List.length_map]
      refine ⟨0, ?_, fun dε => ?_⟩
      · rw [e]; exact hasFDerivAt_const _ _
      · rw [getD_append_map_zero (f := fun p : GIdx s × GIdx s => -(avgZ dε p.1 : ℂ) * k0 ^ 2), dif_neg hk]; rfl
  choose L hL hv using key
  exact ⟨ContinuousLinearMap.pi L, hasFDerivAt_pi.2 hL, fun dε k => hv k dε⟩

/-- C184, TE. On every grid (any Bloch phases, PML), for every source and real permittivity at which the system is
solvable, the differentiable solver returns the field of the plain solver, and for every real objective of the field
and the permittivity that is differentiable there, with JAX cotangents `cot` (field) and `d` (permittivity), the
derivative of the objective with respect to the permittivity is `d` plus the cotangent computed by the chained
backward functions. -/
theorem C184_te (g : YeeOps s) (k0 : ℝ) (src : SField s) (eps : GIdx s → ℝ)
    (hA : IsUnit (fdfdMatEz g k0 (yeeAvgG fun i => (eps i : ℂ)))) (F : SField s × (GIdx s → ℝ) → ℝ)
    (F' : (SField s × (GIdx s → ℝ)) →L[ℝ] ℝ) (hF : HasFDerivAt F F' (jaxEz g k0 src eps, eps)) (cot : SField s)
    (d : GIdx s → ℝ) (hF' : ∀ dx dε, F' (dx, dε) = (∑ i, cot i * dx i).re + ∑ m, d m * dε m) :
    jaxEz g k0 src eps = (fdfdMatEz g k0 (yeeAvgG fun i => (eps i : ℂ)))⁻¹ *ᵥ (fun i => k0 * src i) ∧
    ∃ L : (GIdx s → ℝ) →L[ℝ] ℝ, HasFDerivAt (fun ε => F (jaxEz g k0 src ε, ε)) L eps ∧
      ∀ dε, L dε = ∑ m, (d m + jaxGradTe g k0 src eps cot m) * dε m := by
  refine ⟨by unfold jaxEz spsolve; rw [teSystem], ?_⟩
  obtain ⟨a', ha, hv⟩ := teEntries_deriv g k0 eps
  obtain ⟨L, hL, hLv⟩ := spsolve_chain (listIdx (teIndices g)) _ a' eps ha (fun i => k0 * src i)
    (by rw [teSystem]; exact hA) F F' hF cot (fun dε => ∑ m, d m * dε m) hF'
  refine ⟨L, hL, fun dε => ?_⟩
  rw [hLv]
  simp only [hv]
  have := sum_fin_diag' (teIndices g) (cooIndices (-(g.deriv true 0) * g.deriv false 0 - g.deriv true 1 * g.deriv false 1)) rfl
    (spsolveVjp (listIdx (teIndices g)) (fun k => (teEntries g k0 fun i => (eps i : ℂ)).getD k 0)
    (fun i => k0 * src i) cot).1 (fun i => -(avgZ dε i : ℂ) * k0 ^ 2)
  rw [this]
  simp only [Complex.re_sum]
  simp only [add_mul, Finset.sum_add_distrib]
  rw [add_comm]
  congr 1
  unfold jaxGradTe
  rw [← avgZ_transpose]
  refine Finset.sum_congr rfl fun i _ => ?_
  set w := (List.ofFn (spsolveVjp (listIdx (teIndices g)) (fun k => (teEntries g k0 fun i => (eps i : ℂ)).getD k 0)
    (fun i => k0 * src i) cot).1).getD ((Finset.univ : Finset (GIdx s)).toList.idxOf i) 0
  rw [show w * (-(avgZ dε i : ℂ) * k0 ^ 2) = ((avgZ dε i : ℝ) : ℂ) * (-w * k0 ^ 2) by ring, re_ofReal_mul, mul_comm]


/-! ### TM -/

/-- `(p + roll(p, 1, axis)) / 2` on real arrays (`yee_avg_jax`, utils.py:203-215). -/
noncomputable def avgR (a : Fin 3) (p : GIdx s → ℝ) : GIdx s → ℝ := fun i => (p i + rollFwd a p i) / 2

theorem avgR_pos (a : Fin 3) (p : GIdx s → ℝ) (hp : ∀ i, 0 < p i) (i : GIdx s) : 0 < avgR a p i := by
  have h1 := hp i
  have h2 : 0 < rollFwd a p i := hp _
  unfold avgR
  linarith

theorem yeeAvgG_real0 (p : GIdx s → ℝ) (i : GIdx s) : yeeAvgG (fun i => (p i : ℂ)) 0 i = (avgR 1 p i : ℂ) := by
  unfold avgR
  push_cast
  rfl

theorem yeeAvgG_real1 (p : GIdx s → ℝ) (i : GIdx s) : yeeAvgG (fun i => (p i : ℂ)) 1 i = (avgR 0 p i : ℂ) := by
  unfold avgR
  push_cast
  rfl

/-- The positions of the TM system (fdfd.py:364). -/
noncomputable def tmPositions (g : YeeOps s) : List (GIdx s × GIdx s) :=
  diagIdx (GIdx s) ++ (tmIndices g 0 ++ tmIndices g 1)

/-- The entries of the TM system (fdfd.py:359-363): `eps_x, eps_y` are the first two components of `yee_avg_jax`. -/
noncomputable def tmEntries (g : YeeOps s) (k0 : ℝ) (eps : SField s) : Option (List ℂ) :=
  match tmOp g 0 (fun i => -1 / yeeAvgG eps 1 i), tmOp g 1 (fun i => -1 / yeeAvgG eps 0 i) with
  | some dx, some dy => some ((diagIdx (GIdx s)).map (fun _ => -(1 : ℂ) * k0 ^ 2) ++ (dx ++ dy))
  | _, _ => none

/-- `hz` of the differentiable TM solver (fdfd.py:358-364). -/
noncomputable def jaxHz (g : YeeOps s) (k0 : ℝ) (src : SField s) (eps : GIdx s → ℝ) : Option (SField s) :=
  (tmEntries g k0 fun i => (eps i : ℂ)).map fun l =>
    spsolve (listIdx (tmPositions g)) (fun k => l.getD k 0) (fun i => k0 * src i)

/-- The cotangent of the permittivity in the TM solver: the backward function of `spsolve` (primitives.py:37-41), the
slices of `hstack` (fdfd.py:363), the backward functions of the two compiled operators (primitives.py:98-112), the
derivative `1 / eps^2` of `-1 / eps`, the averages of `yee_avg_jax` (utils.py:210-215) transposed and added up. -/
noncomputable def jaxGradTm (g : YeeOps s) (k0 : ℝ) (src : SField s) (eps : GIdx s → ℝ) (cot : SField s) :
    Option (GIdx s → ℝ) :=
  match tmEntries g k0 fun i => (eps i : ℂ) with
  | none => none
  | some l =>
    let abar := List.ofFn (spsolveVjp (listIdx (tmPositions g)) (fun k => l.getD k 0) (fun i => k0 * src i) cot).1
    let rest := abar.drop (diagIdx (GIdx s)).length
    match tmOpVjp g 0 (rest.take (tmIndices g 0).length), tmOpVjp g 1 (rest.drop (tmIndices g 0).length) with
    | some vx, some vy => some fun m =>
        avgT 0 (fun i => vx i * (1 / avgR 0 eps i ^ 2)) m + avgT 1 (fun i => vy i * (1 / avgR 1 eps i ^ 2)) m
    | _, _ => none

/-- The entries as a total function. -/
noncomputable def tmEntriesR (g : YeeOps s) (k0 : ℝ) (eps : GIdx s → ℝ) : List ℂ :=
  (diagIdx (GIdx s)).map (fun _ => -(1 : ℂ) * k0 ^ 2) ++
    (tmLinear g 0 (fun m => -1 / avgR 0 eps m) ++ tmLinear g 1 (fun m => -1 / avgR 1 eps m))

theorem tmEntries_eq (g : YeeOps s) (h0 : TmAdmissible g 0) (h1 : TmAdmissible g 1) (k0 : ℝ) (eps : GIdx s → ℝ)
    (heps : ∀ i, 0 < eps i) : tmEntries g k0 (fun i => (eps i : ℂ)) = some (tmEntriesR g k0 eps) := by
  have hsign : ∀ a m, 0 < (-1 : ℝ) * (-1 / avgR a eps m) := by
    intro a m
    have := avgR_pos a eps heps m
    have h : (-1 : ℝ) * (-1 / avgR a eps m) = 1 / avgR a eps m := by ring
    rw [h]
    positivity
  unfold tmEntries tmEntriesR
  have e1 : (fun i => -1 / yeeAvgG (fun i => (eps i : ℂ)) 1 i) = fun i => ((-1 / avgR 0 eps i : ℝ) : ℂ) := by
    funext i; rw [yeeAvgG_real1]; push_cast; rfl
  have e0 : (fun i => -1 / yeeAvgG (fun i => (eps i : ℂ)) 0 i) = fun i => ((-1 / avgR 1 eps i : ℝ) : ℂ) := by
    funext i; rw [yeeAvgG_real0]; push_cast; rfl
  rw [e1, e0, (C52_tm_vjp g 0 h0).1 _ (-1) (hsign 0), (C52_tm_vjp g 1 h1).1 _ (-1) (hsign 1)]

theorem tmEntriesR_length (g : YeeOps s) (k0 : ℝ) (eps : GIdx s → ℝ) :
    (tmEntriesR g k0 eps).length = (tmPositions g).length := by
  simp [tmEntriesR, tmPositions, tmLinear]

theorem tmSystem (g : YeeOps s) (h0 : TmAdmissible g 0) (h1 : TmAdmissible g 1) (k0 : ℝ) (eps : GIdx s → ℝ)
    (heps : ∀ i, 0 < eps i) :
    cooFn (listIdx (tmPositions g)) (fun k => (tmEntriesR g k0 eps).getD k 0) =
      fdfdMatHz g k0 (yeeAvgG fun i => (eps i : ℂ)) := by
  rw [cooFn_list _ _ (tmEntriesR_length g k0 eps)]
  have h := C50_tm_partial g h0 h1 k0 eps heps
  have he := tmEntries_eq g h0 h1 k0 eps heps
  unfold jaxMatTm at h
  unfold tmEntries at he
  simp only at h
  cases hx : tmOp g 0 (fun i => -1 / yeeAvgG (fun i => (eps i : ℂ)) 1 i) with
  | none => rw [hx] at he; simp at he
  | some dx =>
    cases hy : tmOp g 1 (fun i => -1 / yeeAvgG (fun i => (eps i : ℂ)) 0 i) with
    | none => rw [hx, hy] at he; simp at he
    | some dy =>
      rw [hx, hy] at he h
      simp only [Option.some.injEq] at he
      simp only [he] at h
      unfold cooMatrix at h
      have hl := tmEntriesR_length g k0 eps
      unfold tmPositions at hl ⊢
      rw [if_pos hl] at h
      exact Option.some.inj h

/-- One entry of `db diag(t) df` as a continuous linear map of `t`. -/
noncomputable def tmEntryL (g : YeeOps s) (a : Fin 3) (p : GIdx s × GIdx s) : (GIdx s → ℝ) →L[ℝ] ℂ :=
  LinearMap.toContinuousLinearMap
    { toFun := fun t => (g.deriv true a * Matrix.diagonal (fun m => (t m : ℂ)) * g.deriv false a) p.1 p.2
      map_add' := by
        intro t u
        simp only [Matrix.mul_apply, Matrix.diagonal_apply, Pi.add_apply, ofReal_add, mul_ite, mul_zero,
          Finset.sum_ite_eq', Finset.mem_univ, if_true, ← Finset.sum_add_distrib]
        refine Finset.sum_congr rfl fun m _ => by ring
      map_smul' := by
        intro c t
        simp only [Matrix.mul_apply, Matrix.diagonal_apply, Pi.smul_apply, smul_eq_mul, ofReal_mul, mul_ite, mul_zero,
          Finset.sum_ite_eq', Finset.mem_univ, if_true, RingHom.id_apply, Complex.real_smul,
          Finset.mul_sum]
        refine Finset.sum_congr rfl fun m _ => by ring }

omit [∀ a, NeZero (s a)] in
theorem tmEntryL_apply (g : YeeOps s) (a : Fin 3) (p : GIdx s × GIdx s) (t : GIdx s → ℝ) :
    tmEntryL g a p t = (g.deriv true a * Matrix.diagonal (fun m => (t m : ℂ)) * g.deriv false a) p.1 p.2 := rfl

/-- The average along an axis as a continuous linear map. -/
noncomputable def avgRL (a : Fin 3) : (GIdx s → ℝ) →L[ℝ] (GIdx s → ℝ) :=
  LinearMap.toContinuousLinearMap
    { toFun := avgR a
      map_add' := by intro p q; funext i; simp only [avgR, rollFwd, Pi.add_apply]; ring
      map_smul' := by intro c p; funext i; simp only [avgR, rollFwd, Pi.smul_apply, smul_eq_mul, RingHom.id_apply]; ring }

theorem recip_deriv (a : Fin 3) (eps : GIdx s → ℝ) (heps : ∀ i, 0 < eps i) :
    ∃ T : (GIdx s → ℝ) →L[ℝ] (GIdx s → ℝ), HasFDerivAt (fun (ε : GIdx s → ℝ) (m : GIdx s) => -1 / avgR a ε m) T eps ∧
      ∀ dε m, T dε m = avgR a dε m * (1 / avgR a eps m ^ 2) := by
  have key : ∀ m : GIdx s, ∃ L : (GIdx s → ℝ) →L[ℝ] ℝ, HasFDerivAt (fun ε : GIdx s → ℝ => -1 / avgR a ε m) L eps ∧
      ∀ dε, L dε = avgR a dε m * (1 / avgR a eps m ^ 2) := by
    intro m
    have hne := (avgR_pos a eps heps m).ne'
    have h1 : HasFDerivAt (fun ε : GIdx s → ℝ => avgR a ε m) ((ContinuousLinearMap.proj m).comp (avgRL a)) eps :=
      ((ContinuousLinearMap.proj (R := ℝ) (φ := fun _ : GIdx s => ℝ) m).comp (avgRL a)).hasFDerivAt
    have h2 := (HasDerivAt.comp_hasFDerivAt eps (hasDerivAt_inv hne) h1).neg
    refine ⟨_, h2.congr_of_eventuallyEq (Filter.Eventually.of_forall fun ε => ?_), fun dε => ?_⟩
    · simp [neg_div]
    · change -(-(avgR a eps m ^ 2)⁻¹ * avgR a dε m) = _
      rw [one_div]; ring
  choose L hL hv using key
  exact ⟨ContinuousLinearMap.pi L, hasFDerivAt_pi.2 hL, fun dε m => hv m dε⟩

theorem tmEntriesR_deriv (g : YeeOps s) (k0 : ℝ) (eps : GIdx s → ℝ) (heps : ∀ i, 0 < eps i) :
    ∃ a' : (GIdx s → ℝ) →L[ℝ] (Fin (tmPositions g).length → ℂ),
      HasFDerivAt (fun (ε : GIdx s → ℝ) (k : Fin (tmPositions g).length) => (tmEntriesR g k0 ε).getD k 0) a' eps ∧
      ∀ dε k, a' dε k = ((diagIdx (GIdx s)).map (fun _ => (0 : ℂ)) ++
        (tmLinear g 0 (fun m => avgR 0 dε m * (1 / avgR 0 eps m ^ 2)) ++
          tmLinear g 1 (fun m => avgR 1 dε m * (1 / avgR 1 eps m ^ 2)))).getD k 0 := by
  obtain ⟨T0, hT0, hv0⟩ := recip_deriv 0 eps heps
  obtain ⟨T1, hT1, hv1⟩ := recip_deriv 1 eps heps
  have key : ∀ k : Fin (tmPositions g).length, ∃ L : (GIdx s → ℝ) →L[ℝ] ℂ,
      HasFDerivAt (fun ε : GIdx s → ℝ => (tmEntriesR g k0 ε).getD k 0) L eps ∧
      ∀ dε, L dε = ((diagIdx (GIdx s)).map (fun _ => (0 : ℂ)) ++
        (tmLinear g 0 (fun m => avgR 0 dε m * (1 / avgR 0 eps m ^ 2)) ++
          tmLinear g 1 (fun m => avgR 1 dε m * (1 / avgR 1 eps m ^ 2)))).getD k 0 := by
    intro k
    have hk := k.2
    have hlen : (tmPositions g).length = (diagIdx (GIdx s)).length + ((tmIndices g 0).length + (tmIndices g 1).length) := by
      simp [tmPositions]
    by_cases c1 : (k : ℕ) < (diagIdx (GIdx s)).length
    · refine ⟨0, (hasFDerivAt_const (-(1 : ℂ) * k0 ^ 2) eps).congr_of_eventuallyEq
        (Filter.Eventually.of_forall fun ε => ?_), fun dε => ?_⟩
      · change (tmEntriesR g k0 ε).getD k 0 = _
        unfold tmEntriesR
        rw [List.getD_append _ _ _ _ (by simpa using c1), List.getD_eq_getElem _ _ (by simpa using c1), List.getElem_map]
      · rw [List.getD_append _ _ _ _ (by simpa using c1), List.getD_eq_getElem _ _ (by simpa using c1), List.getElem_map]
        rfl
    · by_cases c2 : (k : ℕ) - (diagIdx (GIdx s)).length < (tmIndices g 0).length
      · have e : ∀ (z : ℂ) (t u : GIdx s → ℝ), ((diagIdx (GIdx s)).map (fun _ => z) ++ (tmLinear g 0 t ++ tmLinear g 1 u)).getD k 0
            = tmEntryL g 0 ((tmIndices g 0)[(k : ℕ) - (diagIdx (GIdx s)).length]) t := by
          intro z t u
          rw [List.getD_append_right _ _ _ _ (by simpa using c1), List.length_map,
            List.getD_append _ _ _ _ (by simpa [tmLinear] using c2), List.getD_eq_getElem _ _ (by simpa [tmLinear] using c2)]
          unfold tmLinear
          rw [List.getElem_map, tmEntryL_apply]
        refine ⟨_, ((tmEntryL g 0 ((tmIndices g 0)[(k : ℕ) - (diagIdx (GIdx s)).length])).hasFDerivAt.comp eps hT0).congr_of_eventuallyEq
          (Filter.Eventually.of_forall fun ε => ?_), fun dε => ?_⟩
        · change (tmEntriesR g k0 ε).getD k 0 = _; unfold tmEntriesR; rw [e]; rfl
        · rw [e]; rw [← (show T0 dε = _ from funext fun m => hv0 dε m)]; rfl
      · have c3 : (k : ℕ) - (diagIdx (GIdx s)).length - (tmIndices g 0).length < (tmIndices g 1).length := by omega
        have e : ∀ (z : ℂ) (t u : GIdx s → ℝ), ((diagIdx (GIdx s)).map (fun _ => z) ++ (tmLinear g 0 t ++ tmLinear g 1 u)).getD k 0
            = tmEntryL g 1 ((tmIndices g 1)[(k : ℕ) - (diagIdx (GIdx s)).length - (tmIndices g 0).length]) u := by
          intro z t u
          have hl : (tmLinear g 0 t).length = (tmIndices g 0).length := by simp [tmLinear]
          rw [List.getD_append_right _ _ _ _ (by simpa using c1), List.length_map,
            List.getD_append_right _ _ _ _ (by rw [hl]; omega), List.getD_eq_getElem _ _ (by rw [hl]; simpa [tmLinear] using c3)]
          unfold tmLinear
          simp only [List.getElem_map, List.length_map, tmEntryL_apply]
        refine ⟨_, ((tmEntryL g 1 ((tmIndices g 1)[(k : ℕ) - (diagIdx (GIdx s)).length - (tmIndices g 0).length])).hasFDerivAt.comp eps hT1).congr_of_eventuallyEq
          (Filter.Eventually.of_forall fun ε => ?_), fun dε => ?_⟩
        · change (tmEntriesR g k0 ε).getD k 0 = _; unfold tmEntriesR; rw [e]; rfl
        · rw [e]; rw [← (show T1 dε = _ from funext fun m => hv1 dε m)]; rfl
  choose L hL hv using key
  exact ⟨ContinuousLinearMap.pi L, hasFDerivAt_pi.2 hL, fun dε k => hv k dε⟩

theorem sum_getD_zipWith {K : ℕ} (A : Fin K → ℂ) (l : List ℂ) (hl : l.length = K) :
    ∑ k : Fin K, A k * l.getD k 0 = (l.zipWith (fun e c => c * e) (List.ofFn A)).sum := by
  rw [← List.sum_ofFn]
  congr 1
  apply List.ext_getElem
  · simp [hl]
  · intro k h1 h2
    simp only [List.getElem_ofFn, List.getElem_zipWith]
    rw [List.getD_eq_getElem _ _ (by simp at h1; omega)]

omit [∀ a, NeZero (s a)] in
theorem zipWith_zero_sum (n : List (GIdx s × GIdx s)) (l : List ℂ) :
    ((n.map fun _ => (0 : ℂ)).zipWith (fun e c => c * e) l).sum = 0 := by
  induction n generalizing l with
  | nil => simp
  | cons a n ih => cases l with
    | nil => simp
    | cons b l => rw [List.map_cons, List.zipWith_cons_cons, List.sum_cons, ih, mul_zero, add_zero]

/-- C184, TM. On every admissible grid (any Bloch phases unless the axis has two cells, PML), for every source: for
every positive permittivity the differentiable solver returns the field of the plain solver, and where the system is
solvable, for every real objective of the field and the permittivity that is differentiable there, with JAX cotangents
`cot` (field) and `d` (permittivity), the chained backward functions return a cotangent which, added to `d`, is the
derivative of the objective with respect to the permittivity. -/
theorem C184_tm (g : YeeOps s) (h0 : TmAdmissible g 0) (h1 : TmAdmissible g 1) (k0 : ℝ) (src : SField s) :
    (∀ eps : GIdx s → ℝ, (∀ i, 0 < eps i) → jaxHz g k0 src eps =
      some ((fdfdMatHz g k0 (yeeAvgG fun i => (eps i : ℂ)))⁻¹ *ᵥ fun i => k0 * src i)) ∧
    ∀ eps : GIdx s → ℝ, (∀ i, 0 < eps i) → IsUnit (fdfdMatHz g k0 (yeeAvgG fun i => (eps i : ℂ))) →
      ∀ (F : SField s × (GIdx s → ℝ) → ℝ) (F' : (SField s × (GIdx s → ℝ)) →L[ℝ] ℝ),
        HasFDerivAt F F' ((fdfdMatHz g k0 (yeeAvgG fun i => (eps i : ℂ)))⁻¹ *ᵥ (fun i => k0 * src i), eps) →
      ∀ (cot : SField s) (d : GIdx s → ℝ), (∀ dx dε, F' (dx, dε) = (∑ i, cot i * dx i).re + ∑ m, d m * dε m) →
      ∃ gr, jaxGradTm g k0 src eps cot = some gr ∧ ∃ L : (GIdx s → ℝ) →L[ℝ] ℝ,
        HasFDerivAt (fun ε => F ((fdfdMatHz g k0 (yeeAvgG fun i => (ε i : ℂ)))⁻¹ *ᵥ (fun i => k0 * src i), ε)) L eps ∧
        ∀ dε, L dε = ∑ m, (d m + gr m) * dε m := by
  have hsol : ∀ eps : GIdx s → ℝ, (∀ i, 0 < eps i) →
      spsolve (listIdx (tmPositions g)) (fun k => (tmEntriesR g k0 eps).getD k 0) (fun i => k0 * src i) =
      (fdfdMatHz g k0 (yeeAvgG fun i => (eps i : ℂ)))⁻¹ *ᵥ fun i => k0 * src i := by
    intro eps heps
    unfold spsolve
    rw [tmSystem g h0 h1 k0 eps heps]
  refine ⟨fun eps heps => ?_, fun eps heps hA F F' hF cot d hF' => ?_⟩
  · unfold jaxHz
    rw [tmEntries_eq g h0 h1 k0 eps heps, Option.map_some, hsol eps heps]
  obtain ⟨a', ha, hv⟩ := tmEntriesR_deriv g k0 eps heps
  rw [← hsol eps heps] at hF
  obtain ⟨L, hL, hLv⟩ := spsolve_chain (listIdx (tmPositions g))
    (fun (ε : GIdx s → ℝ) (k : Fin (tmPositions g).length) => (tmEntriesR g k0 ε).getD k 0) a' eps ha (fun i => k0 * src i)
    (by rw [tmSystem g h0 h1 k0 eps heps]; exact hA) F F' hF cot (fun dε => ∑ m, d m * dε m) hF'
  have hopen : ∀ᶠ ε in nhds eps, ∀ i, 0 < ε i := by
    rw [Filter.eventually_all]
    intro i
    exact (continuous_apply i).continuousAt.eventually (lt_mem_nhds (heps i))
  have hL2 : HasFDerivAt (fun ε => F ((fdfdMatHz g k0 (yeeAvgG fun i => (ε i : ℂ)))⁻¹ *ᵥ (fun i => k0 * src i), ε)) L eps := by
    refine hL.congr_of_eventuallyEq ?_
    filter_upwards [hopen] with ε hε
    rw [hsol ε hε]
  set A := (spsolveVjp (listIdx (tmPositions g)) (fun k => (tmEntriesR g k0 eps).getD k 0) (fun i => k0 * src i) cot).1 with hAdef
  have hlen : (tmPositions g).length = (diagIdx (GIdx s)).length + ((tmIndices g 0).length + (tmIndices g 1).length) := by
    simp [tmPositions]
  set rest := (List.ofFn A).drop (diagIdx (GIdx s)).length with hrest
  have hrl : rest.length = (tmIndices g 0).length + (tmIndices g 1).length := by
    rw [hrest, List.length_drop, List.length_ofFn]; omega
  obtain ⟨vx, hvx, hvx2⟩ := (C52_tm_vjp g 0 h0).2 (rest.take (tmIndices g 0).length) (by rw [List.length_take]; omega)
  obtain ⟨vy, hvy, hvy2⟩ := (C52_tm_vjp g 1 h1).2 (rest.drop (tmIndices g 0).length) (by rw [List.length_drop]; omega)
  refine ⟨fun m => avgT 0 (fun i => vx i * (1 / avgR 0 eps i ^ 2)) m + avgT 1 (fun i => vy i * (1 / avgR 1 eps i ^ 2)) m,
    ?_, L, hL2, fun dε => ?_⟩
  · unfold jaxGradTm
    rw [tmEntries_eq g h0 h1 k0 eps heps]
    simp only
    rw [← hAdef, ← hrest, hvx, hvy]
  · rw [hLv, show (∑ k, A k * a' dε k) = _ from Finset.sum_congr rfl fun k _ => congrArg _ (hv dε k)]
    rw [sum_getD_zipWith A _ (by simp [tmLinear, hlen])]
    have hsplit : List.ofFn A = (List.ofFn A).take (diagIdx (GIdx s)).length ++
        (rest.take (tmIndices g 0).length ++ rest.drop (tmIndices g 0).length) := by
      rw [List.take_append_drop, hrest, List.take_append_drop]
    rw [hsplit, List.zipWith_append (by rw [List.length_map, List.length_take, List.length_ofFn]; omega),
      List.zipWith_append (by rw [List.length_take]; simp [tmLinear]; omega), List.sum_append, List.sum_append,
      zipWith_zero_sum, zero_add, Complex.add_re, hvx2, hvy2]
    have e0 := avgT_spec 0 (fun i => vx i * (1 / avgR 0 eps i ^ 2)) dε
    have e1 := avgT_spec 1 (fun i => vy i * (1 / avgR 1 eps i ^ 2)) dε
    simp only [add_mul, Finset.sum_add_distrib]
    rw [← e0, ← e1, add_comm]
    congr 1
    congr 1
    · refine Finset.sum_congr rfl fun m _ => ?_
      simp only [avgR]; ring
    · refine Finset.sum_congr rfl fun m _ => ?_
      simp only [avgR]; ring


omit [∀ a, NeZero (s a)] in
/-- The usual objective, the power in a mode with profile `w`, has a derivative and JAX cotangents. -/
theorem overlap_deriv (w x : SField s) (eps : GIdx s → ℝ) :
    ∃ F' : (SField s × (GIdx s → ℝ)) →L[ℝ] ℝ,
      HasFDerivAt (fun p : SField s × (GIdx s → ℝ) => Complex.normSq (∑ i, w i * p.1 i)) F' (x, eps) ∧
      ∀ dx dε, F' (dx, dε) = (∑ i, (2 * (starRingEnd ℂ) (∑ j, w j * x j) * w i) * dx i).re + ∑ m, (0 : ℝ) * dε m := by
  let M : (SField s × (GIdx s → ℝ)) →L[ℝ] ℂ := LinearMap.toContinuousLinearMap
    { toFun := fun p => ∑ i, w i * p.1 i
      map_add' := by intro p q; simp [mul_add, Finset.sum_add_distrib]
      map_smul' := by
        intro c p
        simp only [Prod.smul_fst, Pi.smul_apply, Complex.real_smul, RingHom.id_apply, Finset.mul_sum]
        exact Finset.sum_congr rfl fun i _ => by ring }
  have hM : HasFDerivAt (fun p : SField s × (GIdx s → ℝ) => ∑ i, w i * p.1 i) M (x, eps) := M.hasFDerivAt
  have hre := (Complex.reCLM.hasFDerivAt (x := ∑ i, w i * x i)).comp (x, eps) hM
  have him := (Complex.imCLM.hasFDerivAt (x := ∑ i, w i * x i)).comp (x, eps) hM
  have h := (hre.mul hre).add (him.mul him)
  refine ⟨_, h.congr_of_eventuallyEq (Filter.Eventually.of_forall fun p => ?_), fun dx dε => ?_⟩
  · rfl
  · set z := ∑ j, w j * x j with hz
    set y := ∑ j, w j * dx j with hy
    have e : ∑ i, (2 * (starRingEnd ℂ) z * w i) * dx i = 2 * (starRingEnd ℂ) z * y := by
      rw [hy, Finset.mul_sum]; exact Finset.sum_congr rfl fun i _ => by ring
    rw [e]
    change z.re * y.re + z.re * y.re + (z.im * y.im + z.im * y.im) = _
    simp only [zero_mul, Finset.sum_const_zero, add_zero, mul_re, conj_re, conj_im, mul_im]
    norm_num
    ring

theorem isUnit_of_ker {ι : Type} [Fintype ι] [DecidableEq ι] (A : Matrix ι ι ℂ) (h : ∀ v, A *ᵥ v = 0 → v = 0) : IsUnit A := by
  rw [← Matrix.mulVec_injective_iff_isUnit]
  intro u v huv
  have := h (u - v) (by rw [Matrix.mulVec_sub]; exact sub_eq_zero.2 huv)
  exact sub_eq_zero.1 this

/-- The hypotheses of `C184_te` are met: 20 cells with 5 cells of PML at each end, a dipole in cell 9, and the power at
cell 14 as the objective. -/
example : ∃ L : (GIdx (shapeOf 20 1 1) → ℝ) →L[ℝ] ℝ,
    HasFDerivAt (fun ε => Complex.normSq (∑ i, (if i = cell 20 14 then 1 else 0) *
      jaxEz (pmlLine 20 5 (1 / 10) 4 (-16) 4 1) 4 (fun i => if i = cell 20 9 then 1 else 0) ε i)) L (fun _ => 2) ∧
    ∀ dε, L dε = ∑ m, (0 + jaxGradTe (pmlLine 20 5 (1 / 10) 4 (-16) 4 1) 4 (fun i => if i = cell 20 9 then 1 else 0)
      (fun _ => 2) (fun i => 2 * (starRingEnd ℂ) (∑ j, (if j = cell 20 14 then 1 else 0) *
        jaxEz (pmlLine 20 5 (1 / 10) 4 (-16) 4 1) 4 (fun i => if i = cell 20 9 then 1 else 0) (fun _ => 2) j) *
        (if i = cell 20 14 then 1 else 0)) m) * dε m := by
  obtain ⟨F', hF, hF'⟩ := overlap_deriv (fun i => if i = cell 20 14 then 1 else 0)
    (jaxEz (pmlLine 20 5 (1 / 10) 4 (-16) 4 1) 4 (fun i => if i = cell 20 9 then 1 else 0) (fun _ => 2)) (fun _ => 2)
  have he : (yeeAvgG fun _ : GIdx (shapeOf 20 1 1) => ((2 : ℝ) : ℂ)) 2 = fun _ => 2 := by
    funext i
    obtain ⟨_, _⟩ := yeeAvgG_real (fun _ : GIdx (shapeOf 20 1 1) => (2 : ℝ)) (by norm_num)
    simp [yeeAvgG, rollFwd]
  have hs : PmlSim 20 5 (1 / 10) 4 4 1 (yeeAvgG fun _ : GIdx (shapeOf 20 1 1) => ((2 : ℝ) : ℂ)) :=
    ⟨by norm_num, by norm_num, by norm_num, by norm_num, by norm_num, by norm_num, fun _ => by rw [he]; simp⟩
  have hu := C125_unique 20 5 (1 / 10) 4 (-16) 4 1 (by norm_num) _ hs
  exact (C184_te _ 4 _ (fun _ => 2) (isUnit_of_ker _ fun v hv => (hu 0).unique hv (Matrix.mulVec_zero _)) _ F' hF _ _ hF').2

/-- The hypotheses of `C184_tm` are met: two periodic unit cells, `k0 = 1`, permittivity one. -/
example : TmAdmissible (uniformOps (shapeOf 2 1 1) (fun _ => 1) (fun _ => 1)) 0 ∧
    TmAdmissible (uniformOps (shapeOf 2 1 1) (fun _ => 1) (fun _ => 1)) 1 ∧
    IsUnit (fdfdMatHz (uniformOps (shapeOf 2 1 1) (fun _ => 1) (fun _ => 1)) 1 (yeeAvgG fun _ => ((1 : ℝ) : ℂ))) := by
  have hadm : ∀ a, TmAdmissible (uniformOps (shapeOf 2 1 1) (fun _ => 1) (fun _ => 1)) a :=
    fun a => ⟨by simp [uniformOps], fun _ => rfl, fun p k => by simp [uniformOps]⟩
  refine ⟨hadm 0, hadm 1, isUnit_of_ker _ fun v hv => ?_⟩
  have he : (yeeAvgG fun _ : GIdx (shapeOf 2 1 1) => ((1 : ℝ) : ℂ)) 1 = fun _ => 1 := by
    funext i; simp [yeeAvgG, rollFwd]
  have q : ∀ k, v (cell 2 (k + 1)) = 2 * v (cell 2 k) := by
    intro k
    have h := congrFun hv (cell 2 (k + 1))
    rw [line_hz 2 _ rfl, he, show k + 2 = k + 2 from rfl, cell_add] at h
    simp only [uniformOps, Pi.zero_apply] at h
    push_cast at h
    simp only [div_one, one_mul, one_pow] at h
    linear_combination h
  have h0 := q 0
  have h1 := q 1
  rw [show 1 + 1 = 0 + 2 from rfl, cell_add] at h1
  have z0 : v (cell 2 0) = 0 := by linear_combination (-1 / 3 : ℂ) * h1 - (2 / 3 : ℂ) * h0
  have z1 : v (cell 2 1) = 0 := h0.trans (by rw [z0, mul_zero])
  funext i
  obtain ⟨k, hk, rfl⟩ := exists_cell 2 i
  obtain rfl | rfl : k = 0 ∨ k = 1 := by omega
  · exact z0
  · exact z1

end Simphox
