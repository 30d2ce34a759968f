import Verif.NullBasisLemmas
import Mathlib.Analysis.Real.Pi.Bounds

/-! # Null-basis round trip (C21) -/

namespace Simphox

open Matrix Complex

/-- What one iteration of the loop stores. -/
theorem programNullColumn_spec {M : Mesh} (hs : M.style = .top ∨ M.style = .bottom) (eps : ℝ)
    (hid : (M.nodes.map Node.id).Nodup) (P : Params) (k : ℕ) (hk : k < numColumns M.nodes) (w : ℕ → ℂ) :
    ∃ P', programNullColumn eps M P k w = some P' ∧ P'.gammas = P.gammas ∧
      (∀ i, (∀ a ∈ columnNodes M.nodes k, a.id ≠ i) → P'.thetas i = P.thetas i ∧ P'.phis i = P.phis i) ∧
      ∀ a ∈ columnNodes M.nodes k, ∃ theta phi,
        nullifyPhases eps M.style (M.errors.getD a.id (0, 0)).1 (M.errors.getD a.id (0, 0)).2
          (columnsApply (M.elements P false) M.nodes (List.range k) w a.top)
          (columnsApply (M.elements P false) M.nodes (List.range k) w a.bottom) = some (theta, phi) ∧
        P'.thetas a.id = theta ∧ P'.phis a.id = modTwoPi phi := by
  have hidk : ((columnNodes M.nodes k).map Node.id).Nodup :=
    List.Nodup.sublist (List.Sublist.map _ List.filter_sublist) hid
  set x := columnsApply (M.elements P false) M.nodes (List.range k) w with hx
  have hsome : ∀ el er t b, ∃ q, nullifyPhases eps M.style el er t b = some q := by
    intro el er t b
    rcases hs with h | h <;> rw [h] <;> exact ⟨_, rfl⟩
  choose f hf using fun a : Node => hsome (M.errors.getD a.id (0, 0)).1 (M.errors.getD a.id (0, 0)).2
    (x a.top) (x a.bottom)
  refine ⟨{ thetas := assign P.thetas ((columnNodes M.nodes k).map fun a => (a.id, (f a).1))
            phis := assign P.phis ((columnNodes M.nodes k).map fun a => (a.id, modTwoPi (f a).2))
            gammas := P.gammas }, ?_, rfl, ?_, ?_⟩
  · unfold programNullColumn
    simp only [propagate_forward_last M P k hk, Option.getD_some, ← hx]
    rw [mapM_some _ f _ (fun a _ => hf a)]
    simp only [Option.bind_eq_bind, Option.bind_some, zip_map_self, List.map_map, Function.comp_def]
  · intro i hi
    constructor <;> apply assign_not_mem <;> simp only [List.mem_map] <;> rintro _ ⟨a, ha, rfl⟩ <;> exact hi a ha
  · intro a ha
    refine ⟨(f a).1, (f a).2, hf a, ?_, ?_⟩ <;> apply assign_mem
    · exact List.mem_map.2 ⟨a, ha, rfl⟩
    · intro y hy
      obtain ⟨b, hb, h⟩ := List.mem_map.1 hy
      rw [Prod.mk.injEq] at h
      rw [← List.inj_on_of_nodup_map hidk hb ha h.1]; exact h.2.symm
    · exact List.mem_map.2 ⟨a, ha, rfl⟩
    · intro y hy
      obtain ⟨b, hb, h⟩ := List.mem_map.1 hy
      rw [Prod.mk.injEq] at h
      rw [← List.inj_on_of_nodup_map hidk hb ha h.1]; exact h.2.symm

theorem columnsApply_congr' {el el' : ℕ → Elements} {nodes : List Node} (cols : List ℕ)
    (h : ∀ a ∈ nodes, a.column ∈ cols → el a.id = el' a.id) (v : ℕ → ℂ) :
    columnsApply el nodes cols v = columnsApply el' nodes cols v := by
  induction cols generalizing v with
  | nil => rfl
  | cons k ks ih =>
    rw [show k :: ks = [k] ++ ks from rfl, columnsApply_append, columnsApply_append, columnsApply_single,
      columnsApply_single, parallelTransform_congr (el' := el')]
    · exact ih (fun a ha hc => h a ha (by simp [hc])) _
    · intro a ha
      obtain ⟨ha', hc⟩ := mem_columnNodes.1 ha
      exact h a ha' (by simp [hc])

/-- Storing phases of column `k` does not change what the other columns do. -/
theorem columnsApply_program {M : Mesh} (hid : (M.nodes.map Node.id).Nodup) {P P' : Params} {k : ℕ}
    (h : ∀ i, (∀ a ∈ columnNodes M.nodes k, a.id ≠ i) → P'.thetas i = P.thetas i ∧ P'.phis i = P.phis i)
    (cols : List ℕ) (hk : k ∉ cols) (v : ℕ → ℂ) :
    columnsApply (M.elements P' false) M.nodes cols v = columnsApply (M.elements P false) M.nodes cols v := by
  apply columnsApply_congr'
  intro a ha hc
  have := h a.id (fun b hb he => by
    obtain ⟨hb', hbk⟩ := mem_columnNodes.1 hb
    have := List.inj_on_of_nodup_map hid hb' ha he
    subst this
    exact hk (hbk ▸ hc))
  unfold Mesh.elements
  rw [this.1, this.2]

/-- The target mesh: TOP or BOTTOM, lossless, each node with equal errors on its two couplers (not so large
that it cannot couple), ids distinct. -/
structure NullTarget (n : ℕ) (M : Mesh) : Prop where
  wf : M.WellFormed n
  style : M.style = .top ∨ M.style = .bottom
  lossless : M.Lossless
  equal : ∀ p ∈ M.errors, p.1 = p.2
  couples : ∀ p ∈ M.errors, Real.cos (2 * p.1) ≠ 0
  ids : (M.nodes.map Node.id).Nodup

theorem getD_errors {M : Mesh} {q : ℝ × ℝ → Prop} (h0 : q (0, 0)) (h : ∀ p ∈ M.errors, q p) (k : ℕ) :
    q (M.errors.getD k (0, 0)) := by
  rw [List.getD_eq_getElem?_getD]
  cases hk : M.errors[k]? with
  | none => simpa using h0
  | some p => exact h p (List.mem_of_getElem? hk)

theorem NullTarget.elements {n : ℕ} {M : Mesh} (h : NullTarget n M) (P : Params) (k : ℕ) :
    M.elements P false k = mziElements M.style false (M.errors.getD k (0, 0)).1 (M.errors.getD k (0, 0)).1 0 0
      (P.thetas k) (P.phis k) := by
  unfold Mesh.elements
  rw [h.lossless.getD, ← getD_errors (q := fun p => p.1 = p.2) rfl h.equal k]

theorem Mesh.elements_back {M : Mesh} (hs : M.style ≠ .differential) (he : ∀ p ∈ M.errors, p.1 = p.2)
    (P : Params) (k : ℕ) : (M.elements P true k).mat = (M.elements P false k).matᵀ := by
  unfold Mesh.elements
  rw [← getD_errors (q := fun p => p.1 = p.2) rfl he k]
  exact mziElements_back _ hs _ _ _ _ _

/-- `G` and `G'` agree up to output phases, within `d`. -/
def PhaseClose (n : ℕ) (d : ℝ) (G' G : (ℕ → ℂ) → ℕ → ℂ) (D : ℕ → ℂ) : Prop :=
  (∀ r, ‖D r‖ = 1) ∧ ∀ v, nrm n (fun r => G' v r - D r * G v r) ≤ d * nrm n v

/-- A column undoes nothing but the rails it touches: the vector that column `k` turns into `bottomOnes`. -/
theorem preimage_bottomOnes {k : ℕ} {el : ℕ → Elements} {nodes : List Node} (h : GoodColumn (columnNodes nodes k))
    (hu : ∀ k, (el k).mat ∈ unitaryGroup (Fin 2) ℂ) {y : ℕ → ℂ}
    (hy : parallelTransform el (columnNodes nodes k) y = bottomOnes nodes k) {a : Node}
    (ha : a ∈ columnNodes nodes k) :
    y a.top = (starRingEnd ℂ) (el a.id).t12 ∧ y a.bottom = (starRingEnd ℂ) (el a.id).t22 := by
  have R := parallelTransform_result (el := el) h y
  have e1 := R.top a ha
  have e2 := R.bottom a ha
  rw [hy] at e1 e2
  have z1 : bottomOnes nodes k a.top = 0 := by
    unfold bottomOnes
    rw [if_neg]
    intro hm
    obtain ⟨b, hb, he⟩ := List.mem_map.1 hm
    have := h.eq_of ha hb (Or.inr (Or.inl he.symm))
    subst this
    exact h.ne a ha he.symm
  have z2 : bottomOnes nodes k a.bottom = 1 := by
    unfold bottomOnes
    rw [if_pos (List.mem_map.2 ⟨a, ha, rfl⟩)]
  rw [z1] at e1
  rw [z2] at e2
  have hm := hu a.id
  have c1 := congrFun (congrFun ((mem_unitaryGroup_iff').1 hm) 0) 0
  have c2 := congrFun (congrFun ((mem_unitaryGroup_iff').1 hm) 0) 1
  have c3 := congrFun (congrFun ((mem_unitaryGroup_iff').1 hm) 1) 0
  have c4 := congrFun (congrFun ((mem_unitaryGroup_iff').1 hm) 1) 1
  simp [Elements.mat, star_eq_conjTranspose, Matrix.mul_apply, Fin.sum_univ_two] at c1 c2 c3 c4
  constructor
  · linear_combination -y a.top * c1 - y a.bottom * c2 - (starRingEnd ℂ) (el a.id).t11 * e1 -
      (starRingEnd ℂ) (el a.id).t12 * e2
  · linear_combination -y a.top * c3 - y a.bottom * c4 - (starRingEnd ℂ) (el a.id).t21 * e1 -
      (starRingEnd ℂ) (el a.id).t22 * e2

/-- Programming column `k`. -/
theorem null_step {n : ℕ} {M M' : Mesh} (hM : M.WellFormed n) (hML : M.Lossless) (hMs : M.style ≠ .differential)
    (hMe : ∀ p ∈ M.errors, p.1 = p.2) (hT : NullTarget n M') (hn : M'.nodes = M.nodes) {eps : ℝ}
    (heps : 0 ≤ eps) (P P0 : Params) {k : ℕ} (hk : k < numColumns M.nodes) {d : ℝ} (hd : 0 ≤ d) {D : ℕ → ℂ}
    (hD : PhaseClose n d (columnsApply (M'.elements P0 false) M.nodes (List.range k))
      (columnsApply (M.elements P false) M.nodes (List.range k)) D)
    (hreach : ∀ a ∈ columnNodes M.nodes k, directTransmissivity eps
      (columnsApply (M'.elements P0 false) M.nodes (List.range k) (M.nullificationBasis P k) a.top)
      (columnsApply (M'.elements P0 false) M.nodes (List.range k) (M.nullificationBasis P k) a.bottom) ≤
        Real.cos (2 * (M'.errors.getD a.id (0, 0)).1) ^ 2) :
    ∃ P1 D1, programNullColumn eps M' P0 k (M.nullificationBasis P k) = some P1 ∧ P1.gammas = P0.gammas ∧
      (∀ i, (∀ a ∈ columnNodes M.nodes k, a.id ≠ i) → P1.thetas i = P0.thetas i ∧ P1.phis i = P0.phis i) ∧
      PhaseClose n (d + 4 * n * (Real.sqrt eps + d)) (columnsApply (M'.elements P1 false) M.nodes (List.range (k + 1)))
        (columnsApply (M.elements P false) M.nodes (List.range (k + 1))) D1 := by
  have hu := Mesh.elements_unitary hML P false
  have hback := Mesh.elements_back hMs hMe P
  set w := M.nullificationBasis P k with hw
  set G := columnsApply (M.elements P false) M.nodes (List.range k) with hG
  set G' := columnsApply (M'.elements P0 false) M.nodes (List.range k) with hG'
  obtain ⟨P1, hP1, hg, hother, hset⟩ := programNullColumn_spec hT.style eps hT.ids P0 k (hn ▸ hk) w
  rw [hn] at hother hset
  have hu1 := Mesh.elements_unitary hT.lossless P1 false
  have hsame : ∀ v, columnsApply (M'.elements P1 false) M.nodes (List.range k) v = G' v := by
    intro v
    have := columnsApply_program (M := M') hT.ids (P := P0) (P' := P1) (k := k) (by rw [hn]; exact hother)
      (List.range k) (by simp) v
    rwa [hn] at this
  have hgood := hM.goodColumn k
  -- the row of the basis
  have hrow := nullificationBasis_spec hM P hu hback k hk
  rw [List.range_succ, columnsApply_append, columnsApply_single, ← hw, ← hG] at hrow
  have hsq : Real.sqrt n ≤ n := by
    rcases Nat.eq_zero_or_pos n with h | h
    · simp [h]
    · have : (1 : ℝ) ≤ n := by exact_mod_cast h
      rw [Real.sqrt_le_left (by linarith)]
      nlinarith
  have hsq2 : Real.sqrt n * Real.sqrt n = n := Real.mul_self_sqrt (by positivity)
  have hnw : nrm n w ≤ Real.sqrt n := by
    have h1 : nrm n (bottomOnes M.nodes k) = nrm n w := by
      rw [← nrm_columns hM.goodColumn hM.rails hu (List.range (k + 1)) w, List.range_succ, columnsApply_append,
        columnsApply_single, ← hG, hrow]
    rw [← h1]
    have := nrm_le_of (n := n) (v := bottomOnes M.nodes k) (b := 1) zero_le_one (fun r _ => by
      unfold bottomOnes; split_ifs <;> simp)
    simpa using this
  -- errors of the vector met
  have herr : ∀ r, r < n → ‖G' w r - D r * G w r‖ ≤ d * Real.sqrt n := by
    intro r hr
    refine (norm_le_nrm (fun r => G' w r - D r * G w r) hr).trans ((hD.2 w).trans ?_)
    exact mul_le_mul_of_nonneg_left hnw hd
  set s : ℝ := Real.sqrt eps + 2 * (d * Real.sqrt n) with hs
  have hs0 : 0 ≤ s := by positivity
  -- each node
  have hnode : ∀ a ∈ columnNodes M.nodes k,
      ‖(M'.elements P1 false a.id).t11 * (D a.top * (starRingEnd ℂ) (M.elements P false a.id).t12) +
        (M'.elements P1 false a.id).t21 * (D a.bottom * (starRingEnd ℂ) (M.elements P false a.id).t22)‖ ≤ s := by
    intro a ha
    obtain ⟨theta, phi, hph, hth, hphi⟩ := hset a ha
    obtain ⟨hyt, hyb⟩ := preimage_bottomOnes hgood hu hrow ha
    have hra := hM.rails a (mem_columnNodes.1 ha).1
    have hcos := getD_errors (q := fun p => Real.cos (2 * p.1) ≠ 0) (by simp) hT.couples a.id
    rw [← getD_errors (q := fun p => p.1 = p.2) rfl hT.equal a.id, ← hG'] at hph
    have hres := nullify_residual M'.style hT.style heps _ hcos _ _ (hreach a ha) hph
    rw [← mziElements_modTwoPi _ hT.style, ← hphi, ← hth, ← hT.elements P1 a.id] at hres
    rw [← hyt, ← hyb]
    obtain ⟨r1, _, _⟩ := Elements.row_norm (hu1 a.id)
    have b1 : ‖(M'.elements P1 false a.id).t11‖ ≤ 1 := by nlinarith [norm_nonneg (M'.elements P1 false a.id).t11, sq_nonneg ‖(M'.elements P1 false a.id).t21‖]
    have b2 : ‖(M'.elements P1 false a.id).t21‖ ≤ 1 := by nlinarith [norm_nonneg (M'.elements P1 false a.id).t21, sq_nonneg ‖(M'.elements P1 false a.id).t11‖]
    have e : (M'.elements P1 false a.id).t11 * (D a.top * G w a.top) +
        (M'.elements P1 false a.id).t21 * (D a.bottom * G w a.bottom) =
        ((M'.elements P1 false a.id).t11 * G' w a.top + (M'.elements P1 false a.id).t21 * G' w a.bottom) -
        (M'.elements P1 false a.id).t11 * (G' w a.top - D a.top * G w a.top) -
        (M'.elements P1 false a.id).t21 * (G' w a.bottom - D a.bottom * G w a.bottom) := by ring
    rw [e]
    have p1 := herr a.top hra.1
    have p2 := herr a.bottom hra.2.1
    have q1 : ‖(M'.elements P1 false a.id).t11 * (G' w a.top - D a.top * G w a.top)‖ ≤ d * Real.sqrt n := by
      rw [norm_mul]
      exact (mul_le_of_le_one_left (norm_nonneg _) b1).trans p1
    have q2 : ‖(M'.elements P1 false a.id).t21 * (G' w a.bottom - D a.bottom * G w a.bottom)‖ ≤ d * Real.sqrt n := by
      rw [norm_mul]
      exact (mul_le_of_le_one_left (norm_nonneg _) b2).trans p2
    calc _ ≤ _ + _ := norm_sub_le _ _
      _ ≤ (_ + _) + _ := by gcongr; exact norm_sub_le _ _
      _ ≤ (Real.sqrt eps + d * Real.sqrt n) + d * Real.sqrt n := by gcongr
      _ = s := by rw [hs]; ring
  -- new phases, rail by rail
  have hrail : ∀ r, ∃ u : ℂ, ‖u‖ = 1 ∧ ∀ v : ℕ → ℂ,
      ‖parallelTransform (M'.elements P1 false) (columnNodes M.nodes k) (fun r => D r * v r) r -
        u * parallelTransform (M.elements P false) (columnNodes M.nodes k) v r‖ ≤
      s * (2 * nrm n v) := by
    intro r
    have Rv := fun v => parallelTransform_result (el := M.elements P false) hgood v
    have Rv' := fun v => parallelTransform_result (el := M'.elements P1 false) hgood v
    by_cases hr : ∀ a ∈ columnNodes M.nodes k, r ≠ a.top ∧ r ≠ a.bottom
    · refine ⟨D r, hD.1 r, fun v => ?_⟩
      rw [(Rv v).other r hr, (Rv' _).other r hr, sub_self, norm_zero]
      exact mul_nonneg hs0 (mul_nonneg (by norm_num) (nrm_nonneg _ _))
    · push Not at hr
      obtain ⟨a, ha, hab⟩ := hr
      obtain ⟨⟨u, hu1', hub⟩, ⟨u', hu2', hub'⟩⟩ :=
        node_near (hu a.id) (hu1 a.id) (hD.1 a.top) (hD.1 a.bottom) (hnode a ha)
      have hra := hM.rails a (mem_columnNodes.1 ha).1
      have hpow : ∀ v : ℕ → ℂ, ‖(M.elements P false a.id).t11 * v a.top + (M.elements P false a.id).t21 * v a.bottom‖ +
          ‖(M.elements P false a.id).t12 * v a.top + (M.elements P false a.id).t22 * v a.bottom‖ ≤ 2 * nrm n v := by
        intro v
        rw [← (Rv v).top a ha, ← (Rv v).bottom a ha]
        have hc := nrm_columns hM.goodColumn hM.rails hu [k] v
        rw [columnsApply_single] at hc
        have i1 := norm_le_nrm (parallelTransform (M.elements P false) (columnNodes M.nodes k) v) hra.1
        have i2 := norm_le_nrm (parallelTransform (M.elements P false) (columnNodes M.nodes k) v) hra.2.1
        rw [hc] at i1 i2
        linarith
      by_cases ht : r = a.top
      · subst ht
        refine ⟨u, hu1', fun v => ?_⟩
        rw [(Rv v).top a ha, (Rv' _).top a ha]
        exact (hub _ _).trans (mul_le_mul_of_nonneg_left (hpow v) hs0)
      · obtain rfl := hab ht
        refine ⟨u', hu2', fun v => ?_⟩
        rw [(Rv v).bottom a ha, (Rv' _).bottom a ha]
        exact (hub' _ _).trans (mul_le_mul_of_nonneg_left (hpow v) hs0)
  choose D1 hD1 hD1b using hrail
  refine ⟨P1, D1, hP1, hg, hother, hD1, fun v => ?_⟩
  rw [List.range_succ, columnsApply_append, columnsApply_append, columnsApply_single, columnsApply_single, hsame, ← hG]
  have e : (fun r => parallelTransform (M'.elements P1 false) (columnNodes M.nodes k) (G' v) r -
        D1 r * parallelTransform (M.elements P false) (columnNodes M.nodes k) (G v) r) =
      fun r => parallelTransform (M'.elements P1 false) (columnNodes M.nodes k) (fun r => G' v r - D r * G v r) r +
        (parallelTransform (M'.elements P1 false) (columnNodes M.nodes k) (fun r => D r * G v r) r -
          D1 r * parallelTransform (M.elements P false) (columnNodes M.nodes k) (G v) r) := by
    funext r
    rw [parallelTransform_sub hgood]
    ring
  rw [e]
  have n1 := nrm_columns hM.goodColumn hM.rails hu1 [k] (fun r => G' v r - D r * G v r)
  rw [columnsApply_single] at n1
  have n2 := nrm_le_of (n := n) (b := s * (2 * nrm n (G v)))
    (v := fun r => parallelTransform (M'.elements P1 false) (columnNodes M.nodes k) (fun r => D r * G v r) r -
          D1 r * parallelTransform (M.elements P false) (columnNodes M.nodes k) (G v) r)
    (mul_nonneg hs0 (mul_nonneg (by norm_num) (nrm_nonneg _ _))) (fun r _ => hD1b r (G v))
  rw [nrm_columns hM.goodColumn hM.rails hu] at n2
  refine (nrm_add_le n _ _).trans ?_
  rw [n1]
  have h3 : Real.sqrt n * (s * (2 * nrm n v)) ≤ 4 * n * (Real.sqrt eps + d) * nrm n v := by
    have hv := nrm_nonneg n v
    have he := Real.sqrt_nonneg eps
    have e4 : Real.sqrt n * (s * (2 * nrm n v)) =
        (2 * (Real.sqrt n * Real.sqrt eps) + 4 * ((Real.sqrt n * Real.sqrt n) * d)) * nrm n v := by rw [hs]; ring
    rw [e4, hsq2]
    apply mul_le_mul_of_nonneg_right _ hv
    have : Real.sqrt n * Real.sqrt eps ≤ n * Real.sqrt eps := mul_le_mul_of_nonneg_right hsq he
    have : 0 ≤ n * Real.sqrt eps := by positivity
    nlinarith
  calc _ ≤ d * nrm n v + Real.sqrt n * (s * (2 * nrm n v)) := add_le_add (hD.2 v) n2
    _ ≤ d * nrm n v + 4 * n * (Real.sqrt eps + d) * nrm n v := by gcongr
    _ = _ := by ring


theorem programNullLoop_append (eps : ℝ) (M : Mesh) (basis : ℕ → ℕ → ℂ) (k1 k2 : List ℕ) (P : Params) :
    programNullLoop eps M basis (k1 ++ k2) P =
      (programNullLoop eps M basis k1 P).bind (programNullLoop eps M basis k2) := by
  induction k1 generalizing P with
  | nil => rfl
  | cons k ks ih =>
    simp only [List.cons_append, programNullLoop, Option.bind_eq_bind]
    cases programNullColumn eps M P k (basis k) with
    | none => rfl
    | some s => simp [ih]

theorem programNullLoop_succ {eps : ℝ} {M : Mesh} {basis : ℕ → ℕ → ℂ} {K : ℕ} {P P1 P2 : Params}
    (h1 : programNullLoop eps M basis (List.range K) P = some P1)
    (h2 : programNullColumn eps M P1 K (basis K) = some P2) :
    programNullLoop eps M basis (List.range (K + 1)) P = some P2 := by
  rw [List.range_succ, programNullLoop_append, h1]
  simp [programNullLoop, h2]

/-- Deviation after `K` columns. -/
noncomputable def nullDev (n : ℕ) (eps : ℝ) (K : ℕ) : ℝ := ((1 + 4 * (n : ℝ)) ^ K - 1) * Real.sqrt eps

theorem nullDev_succ (n : ℕ) (eps : ℝ) (K : ℕ) :
    nullDev n eps (K + 1) = nullDev n eps K + 4 * n * (Real.sqrt eps + nullDev n eps K) := by
  unfold nullDev; rw [pow_succ]; ring

theorem nullDev_nonneg (n : ℕ) (eps : ℝ) (K : ℕ) : 0 ≤ nullDev n eps K := by
  unfold nullDev
  have : (1 : ℝ) ≤ (1 + 4 * (n : ℝ)) ^ K := one_le_pow₀ (by linarith [Nat.cast_nonneg (α := ℝ) n])
  exact mul_nonneg (by linarith) (Real.sqrt_nonneg _)

/-- The whole loop. -/
theorem null_loop {n : ℕ} {M M' : Mesh} (hM : M.WellFormed n) (hML : M.Lossless) (hMs : M.style ≠ .differential)
    (hMe : ∀ p ∈ M.errors, p.1 = p.2) (hT : NullTarget n M') (hn : M'.nodes = M.nodes) {eps : ℝ}
    (heps : 0 ≤ eps) (P P0 : Params)
    (hreach : ∀ K, K < numColumns M.nodes → ∀ PK D,
      PhaseClose n (nullDev n eps K) (columnsApply (M'.elements PK false) M.nodes (List.range K))
        (columnsApply (M.elements P false) M.nodes (List.range K)) D →
      ∀ a ∈ columnNodes M.nodes K, directTransmissivity eps
        (columnsApply (M'.elements PK false) M.nodes (List.range K) (M.nullificationBasis P K) a.top)
        (columnsApply (M'.elements PK false) M.nodes (List.range K) (M.nullificationBasis P K) a.bottom) ≤
          Real.cos (2 * (M'.errors.getD a.id (0, 0)).1) ^ 2) :
    ∀ K, K ≤ numColumns M.nodes → ∃ PK D,
      programNullLoop eps M' (M.nullificationBasis P) (List.range K) P0 = some PK ∧ PK.gammas = P0.gammas ∧
      PhaseClose n (nullDev n eps K) (columnsApply (M'.elements PK false) M.nodes (List.range K))
        (columnsApply (M.elements P false) M.nodes (List.range K)) D := by
  intro K
  induction K with
  | zero =>
    intro _
    refine ⟨P0, fun _ => 1, rfl, rfl, by simp, fun v => ?_⟩
    simp [columnsApply, nullDev, nrm]
  | succ K ih =>
    intro hK
    obtain ⟨PK, D, h1, hg, hD⟩ := ih (by omega)
    obtain ⟨P1, D1, h2, hg1, _, hD1⟩ := null_step hM hML hMs hMe hT hn heps P PK (k := K) (by omega)
      (nullDev_nonneg n eps K) hD (hreach K (by omega) PK D hD)
    refine ⟨P1, D1, programNullLoop_succ h1 h2, hg1.trans hg, ?_⟩
    rw [nullDev_succ]
    exact hD1

/-- Entries of the matrices. -/
theorem matrix_of_phaseClose {n : ℕ} {M M' : Mesh} (hn : M'.nodes = M.nodes) {P P1 : Params} {d : ℝ} {D : ℕ → ℂ}
    (h : PhaseClose n d (columnsApply (M'.elements P1 false) M.nodes (List.range (numColumns M.nodes)))
      (columnsApply (M.elements P false) M.nodes (List.range (numColumns M.nodes))) D) :
    ∃ E : Fin n → ℂ, (∀ i, ‖E i‖ = 1) ∧
      ∀ i j, ‖M'.matrix n P1 false i j - E i * M.matrix n P false i j‖ ≤ d := by
  refine ⟨fun i => exp (I * (P1.gammas i.val - P.gammas i.val : ℝ)) * D i.val, fun i => ?_, fun i j => ?_⟩
  · rw [norm_mul, norm_exp_I, h.1, one_mul]
  · simp only [Mesh.matrix, Matrix.of_apply, Mesh.apply, Bool.false_eq_true, if_false, columnOrder, hn, gammaApply]
    set v : ℕ → ℂ := fun r => if r = j.val then 1 else 0 with hv
    set x := columnsApply (M'.elements P1 false) M.nodes (List.range (numColumns M.nodes)) v
    set y := columnsApply (M.elements P false) M.nodes (List.range (numColumns M.nodes)) v
    have e : exp (I * P1.gammas i.val) * x i.val - exp (I * (P1.gammas i.val - P.gammas i.val : ℝ)) * D i.val *
        (exp (I * P.gammas i.val) * y i.val) = exp (I * P1.gammas i.val) * (x i.val - D i.val * y i.val) := by
      have : exp (I * (P1.gammas i.val - P.gammas i.val : ℝ)) * exp (I * P.gammas i.val) = exp (I * P1.gammas i.val) := by
        rw [← exp_add]; congr 1; push_cast; ring
      linear_combination (-(D i.val * y i.val)) * this
    rw [e, norm_mul, norm_exp_I, one_mul]
    have hnv : nrm n v = 1 := by
      unfold nrm
      have : ∑ r : Fin n, ‖v r.val‖ ^ 2 = 1 := by
        rw [Finset.sum_eq_single j]
        · simp [hv]
        · intro b _ hb
          have : b.val ≠ j.val := fun h => hb (Fin.ext h)
          simp [hv, this]
        · simp
      rw [this, Real.sqrt_one]
    have := h.2 v
    rw [hnv, mul_one] at this
    exact (norm_le_nrm (fun r => x r - D r * y r) i.isLt).trans this

theorem idealMesh_nullTarget {n : ℕ} {nodes : List Node} {style : PhaseStyle} (hs : style = .top ∨ style = .bottom)
    (h : (idealMesh nodes style).WellFormed n) (hid : (nodes.map Node.id).Nodup) :
    NullTarget n (idealMesh nodes style) := by
  have hz : ∀ p ∈ (idealMesh nodes style).errors, p = (0, 0) := by
    intro p hp
    obtain ⟨_, _, rfl⟩ := List.mem_map.1 hp
    rfl
  refine ⟨h, hs, idealMesh_lossless nodes style, ?_, ?_, hid⟩
  · intro p hp; rw [hz p hp]
  · intro p hp; rw [hz p hp]; simp

/-- C21: programming an ideal mesh (TOP or BOTTOM, any previous phases `P0`, any guard `eps ≥ 0`) by the null
basis of a lossless mesh with the same nodes (any phases `P`; TOP, BOTTOM or SYMMETRIC; the two couplers of each
node equal) succeeds, and gives a mesh whose transfer matrix is that of the source mesh up to a phase on every
output, within `((1 + 4n)^L - 1) √eps` per entry (`L` columns). The output phases `gammas` are not touched. -/
theorem C21_null_basis_round_trip {n : ℕ} {M : Mesh} (hM : M.WellFormed n) (hML : M.Lossless)
    (hMs : M.style ≠ .differential) (hMe : ∀ p ∈ M.errors, p.1 = p.2)
    (hid : (M.nodes.map Node.id).Nodup) (style : PhaseStyle) (hs : style = .top ∨ style = .bottom)
    {eps : ℝ} (heps : 0 ≤ eps) (P P0 : Params) :
    ∃ P1, (idealMesh M.nodes style).programByNullBasis eps P0 (M.nullificationBasis P) = some P1 ∧
      P1.gammas = P0.gammas ∧
      ∃ E : Fin n → ℂ, (∀ i, ‖E i‖ = 1) ∧ ∀ i j,
        ‖(idealMesh M.nodes style).matrix n P1 false i j - E i * M.matrix n P false i j‖ ≤
          ((1 + 4 * (n : ℝ)) ^ numColumns M.nodes - 1) * Real.sqrt eps := by
  have hwf : (idealMesh M.nodes style).WellFormed n :=
    ⟨by simp [idealMesh], by simp [idealMesh], hM.ids, hM.rails, hM.disjoint⟩
  have hT := idealMesh_nullTarget hs hwf hid
  obtain ⟨P1, D, h1, hg, hD⟩ := null_loop hM hML hMs hMe hT rfl heps P P0 (by
    intro K _ PK D _ a _
    have : ((idealMesh M.nodes style).errors.getD a.id (0, 0)) = (0, 0) := by
      apply getD_errors (q := fun p => p = (0, 0)) rfl
      intro p hp
      obtain ⟨_, _, rfl⟩ := List.mem_map.1 hp
      rfl
    rw [this]
    simpa using (directTransmissivity_mem heps _ _).2) (numColumns M.nodes) le_rfl
  refine ⟨P1, h1, hg, ?_⟩
  exact matrix_of_phaseClose (M := M) (M' := idealMesh M.nodes style) rfl hD

theorem phaseClose_zero {n : ℕ} {d : ℝ} (hd : d ≤ 0) {G' G : (ℕ → ℂ) → ℕ → ℂ} {D : ℕ → ℂ}
    (h : PhaseClose n d G' G D) (v : ℕ → ℂ) {r : ℕ} (hr : r < n) : G' v r = D r * G v r := by
  have h1 := (norm_le_nrm (fun r => G' v r - D r * G v r) hr).trans (h.2 v)
  have h2 : d * nrm n v ≤ 0 := mul_nonpos_of_nonpos_of_nonneg hd (nrm_nonneg _ _)
  have h3 := norm_le_zero_iff.1 (h1.trans h2)
  exact sub_eq_zero.1 h3

theorem nullDev_zero (n K : ℕ) : nullDev n 0 K = 0 := by simp [nullDev]

/-- With guard 0, the ratio asked from a node is the one the source node realises. -/
theorem ratio_of_phaseClose {n : ℕ} {M M' : Mesh} (hM : M.WellFormed n) (hML : M.Lossless)
    (hMs : M.style ≠ .differential) (hMe : ∀ p ∈ M.errors, p.1 = p.2) {P PK : Params} {K : ℕ}
    (hK : K < numColumns M.nodes) {D : ℕ → ℂ}
    (h : PhaseClose n (nullDev n 0 K) (columnsApply (M'.elements PK false) M.nodes (List.range K))
      (columnsApply (M.elements P false) M.nodes (List.range K)) D) {a : Node} (ha : a ∈ columnNodes M.nodes K) :
    directTransmissivity 0
      (columnsApply (M'.elements PK false) M.nodes (List.range K) (M.nullificationBasis P K) a.top)
      (columnsApply (M'.elements PK false) M.nodes (List.range K) (M.nullificationBasis P K) a.bottom) =
        ‖(M.elements P false a.id).t12‖ ^ 2 := by
  have hu := Mesh.elements_unitary hML P false
  have hrow := nullificationBasis_spec hM P hu (Mesh.elements_back hMs hMe P) K hK
  rw [List.range_succ, columnsApply_append, columnsApply_single] at hrow
  obtain ⟨hyt, hyb⟩ := preimage_bottomOnes (hM.goodColumn K) hu hrow ha
  have hra := hM.rails a (mem_columnNodes.1 ha).1
  have hz := (nullDev_zero n K).le
  rw [phaseClose_zero hz h _ hra.1, phaseClose_zero hz h _ hra.2.1, hyt, hyb]
  obtain ⟨_, r2, _⟩ := Elements.row_norm (hu a.id)
  unfold directTransmissivity
  rw [norm_mul, norm_mul, h.1, h.1, one_mul, one_mul, norm_conj, norm_conj, r2]
  simp

/-- C21, error correction: with guard 0, the target may have coupler errors (equal in the two couplers of a
node) as long as every node can still realise the ratio `|t12|²` of the source node (at most `cos² 2e`): the
programmed mesh then has exactly the source's matrix up to output phases. -/
theorem C21_error_correction {n : ℕ} {M M' : Mesh} (hM : M.WellFormed n) (hML : M.Lossless)
    (hMs : M.style ≠ .differential) (hMe : ∀ p ∈ M.errors, p.1 = p.2)
    (hn : M'.nodes = M.nodes) (hT : NullTarget n M') (P P0 : Params)
    (hreach : ∀ a ∈ M.nodes, ‖(M.elements P false a.id).t12‖ ^ 2 ≤
      Real.cos (2 * (M'.errors.getD a.id (0, 0)).1) ^ 2) :
    ∃ P1, M'.programByNullBasis 0 P0 (M.nullificationBasis P) = some P1 ∧ P1.gammas = P0.gammas ∧
      ∃ E : Fin n → ℂ, (∀ i, ‖E i‖ = 1) ∧ M'.matrix n P1 false = diagonal E * M.matrix n P false := by
  obtain ⟨P1, D, h1, hg, hD⟩ := null_loop hM hML hMs hMe hT hn le_rfl P P0 (by
    intro K hK PK D hD a ha
    rw [ratio_of_phaseClose hM hML hMs hMe hK hD ha]
    exact hreach a (mem_columnNodes.1 ha).1) (numColumns M.nodes) le_rfl
  refine ⟨P1, by unfold Mesh.programByNullBasis; rw [hn]; exact h1, hg, ?_⟩
  obtain ⟨E, hE, hb⟩ := matrix_of_phaseClose (M := M) (M' := M') hn hD
  refine ⟨E, hE, ?_⟩
  ext i j
  rw [diagonal_mul]
  have := (hb i j).trans (nullDev_zero n _).le
  exact sub_eq_zero.1 (norm_le_zero_iff.1 this)

theorem norm_t12 (style : PhaseStyle) (hs : style = .top ∨ style = .bottom) (e theta phi : ℝ) :
    ‖(mziElements style false e e 0 0 theta phi).t12‖ ^ 2 = ‖ampB e theta‖ ^ 2 := by
  rcases hs with rfl | rfl
  · have : (mziElements .top false e e 0 0 theta phi).t12 = ampB e theta * exp (I * phi) := by
      simp [mziElements, ampB]
    rw [this, norm_mul, norm_exp_I, mul_one]
  · have : (mziElements .bottom false e e 0 0 theta phi).t12 = ampB e theta := by
      simp [mziElements, ampB, sc_eq_cs]; ring_nf
    rw [this]

theorem norm_ampB_le (e theta : ℝ) : ‖ampB e theta‖ ^ 2 ≤ Real.cos (2 * e) ^ 2 := by
  rw [norm_ampB_sq, ← four_cs_sq]
  nlinarith [Real.cos_le_one theta, sq_nonneg (mziTerms e e).cs]

/-- The phase found for the ratio of an MZI at `theta` is `theta` folded into `[0, π]`. -/
theorem phase_of_ampB (e theta : ℝ) (he : Real.cos (2 * e) ≠ 0) :
    transmissivityToPhase (‖ampB e theta‖ ^ 2) (mziTerms e e).cs (mziTerms e e).sc = Real.arccos (Real.cos theta) := by
  have h4 := four_cs_sq e
  have hpos : 0 < Real.cos (2 * e) ^ 2 := by positivity
  have hc : (mziTerms e e).cs ≠ 0 := by
    intro h; rw [h] at h4; simp at h4; exact he (by simpa using h4.symm)
  unfold transmissivityToPhase
  rw [norm_ampB_sq, sc_eq_cs]
  set c := (mziTerms e e).cs
  have : (2 * c ^ 2 * (1 + Real.cos theta) - c ^ 2 - c ^ 2) / (2 * c * c) = Real.cos theta := by
    field_simp; ring
  rw [this, max_eq_left (Real.neg_one_le_cos theta), min_eq_left (Real.cos_le_one theta)]


/-- C21, internal phases: programming a mesh by its own null basis (guard 0, TOP or BOTTOM, equal errors per
node) gives back its `theta` folded into `[0, π]`, whatever the phases before, and the same matrix up to output
phases. -/
theorem C21_thetas {n : ℕ} {M : Mesh} (hT : NullTarget n M) (P P0 : Params) :
    ∃ P1, M.programByNullBasis 0 P0 (M.nullificationBasis P) = some P1 ∧ P1.gammas = P0.gammas ∧
      (∀ a ∈ M.nodes, P1.thetas a.id = Real.arccos (Real.cos (P.thetas a.id))) ∧
      ∃ E : Fin n → ℂ, (∀ i, ‖E i‖ = 1) ∧ M.matrix n P1 false = diagonal E * M.matrix n P false := by
  have hsd : M.style ≠ .differential := by rcases hT.style with h | h <;> simp [h]
  have ht12 : ∀ k, ‖(M.elements P false k).t12‖ ^ 2 = ‖ampB (M.errors.getD k (0, 0)).1 (P.thetas k)‖ ^ 2 := by
    intro k; rw [hT.elements, norm_t12 _ hT.style]
  have hreach : ∀ K, K < numColumns M.nodes → ∀ PK D,
      PhaseClose n (nullDev n 0 K) (columnsApply (M.elements PK false) M.nodes (List.range K))
        (columnsApply (M.elements P false) M.nodes (List.range K)) D →
      ∀ a ∈ columnNodes M.nodes K, directTransmissivity 0
        (columnsApply (M.elements PK false) M.nodes (List.range K) (M.nullificationBasis P K) a.top)
        (columnsApply (M.elements PK false) M.nodes (List.range K) (M.nullificationBasis P K) a.bottom) ≤
          Real.cos (2 * (M.errors.getD a.id (0, 0)).1) ^ 2 := by
    intro K hK PK D hD a ha
    rw [ratio_of_phaseClose hT.wf hT.lossless hsd hT.equal hK hD ha, ht12]
    exact norm_ampB_le _ _
  have main : ∀ K, K ≤ numColumns M.nodes → ∃ PK D,
      programNullLoop 0 M (M.nullificationBasis P) (List.range K) P0 = some PK ∧ PK.gammas = P0.gammas ∧
      PhaseClose n (nullDev n 0 K) (columnsApply (M.elements PK false) M.nodes (List.range K))
        (columnsApply (M.elements P false) M.nodes (List.range K)) D ∧
      ∀ a ∈ M.nodes, a.column < K → PK.thetas a.id = Real.arccos (Real.cos (P.thetas a.id)) := by
    intro K
    induction K with
    | zero =>
      intro _
      refine ⟨P0, fun _ => 1, rfl, rfl, ⟨by simp, fun v => ?_⟩, by simp⟩
      simp [columnsApply, nullDev, nrm]
    | succ K ih =>
      intro hK
      obtain ⟨PK, D, h1, hg, hD, hth⟩ := ih (by omega)
      have hK' : K < numColumns M.nodes := by omega
      obtain ⟨P1, D1, h2, hg1, hoth, hD1⟩ := null_step hT.wf hT.lossless hsd hT.equal hT rfl le_rfl P PK hK'
        (nullDev_nonneg n 0 K) hD (hreach K hK' PK D hD)
      refine ⟨P1, D1, programNullLoop_succ h1 h2, hg1.trans hg, by rw [nullDev_succ]; exact hD1, ?_⟩
      intro a ha hc
      rcases Nat.lt_succ_iff_lt_or_eq.1 hc with hlt | heq
      · rw [(hoth a.id fun b hb he => by
          obtain ⟨hb', hbk⟩ := mem_columnNodes.1 hb
          have := List.inj_on_of_nodup_map hT.ids hb' ha he
          subst this; omega).1]
        exact hth a ha hlt
      · have hac : a ∈ columnNodes M.nodes K := mem_columnNodes.2 ⟨ha, heq⟩
        obtain ⟨P1', h2', _, _, hset⟩ := programNullColumn_spec hT.style 0 hT.ids PK K hK' (M.nullificationBasis P K)
        rw [h2] at h2'
        obtain rfl := Option.some.inj h2'
        obtain ⟨theta, phi, hph, hth', _⟩ := hset a hac
        rw [hth']
        have hratio := ratio_of_phaseClose hT.wf hT.lossless hsd hT.equal hK' hD hac
        have hcos := getD_errors (q := fun p => Real.cos (2 * p.1) ≠ 0) (by simp) hT.couples a.id
        rw [← getD_errors (q := fun p => p.1 = p.2) rfl hT.equal a.id] at hph
        have htheta : theta = transmissivityToPhase (directTransmissivity 0
            (columnsApply (M.elements PK false) M.nodes (List.range K) (M.nullificationBasis P K) a.top)
            (columnsApply (M.elements PK false) M.nodes (List.range K) (M.nullificationBasis P K) a.bottom))
            (mziTerms (M.errors.getD a.id (0, 0)).1 (M.errors.getD a.id (0, 0)).1).cs
            (mziTerms (M.errors.getD a.id (0, 0)).1 (M.errors.getD a.id (0, 0)).1).sc := by
          rcases hT.style with h | h <;> rw [h] at hph <;>
          · simp only [nullifyPhases, Option.some.injEq, Prod.mk.injEq] at hph
            exact hph.1.symm
        rw [htheta, hratio, ht12, phase_of_ampB _ _ hcos]
  obtain ⟨P1, D, h1, hg, hD, hth⟩ := main (numColumns M.nodes) le_rfl
  refine ⟨P1, h1, hg, fun a ha => hth a ha (column_lt_numColumns ha), ?_⟩
  obtain ⟨E, hE, hb⟩ := matrix_of_phaseClose (M := M) (M' := M) rfl hD
  refine ⟨E, hE, ?_⟩
  ext i j
  rw [diagonal_mul]
  have := (hb i j).trans (nullDev_zero n _).le
  exact sub_eq_zero.1 (norm_le_zero_iff.1 this)

theorem modTwoPi_eq_of_exp {x y : ℝ} (h : exp (I * x) = exp (I * y)) : modTwoPi x = modTwoPi y := by
  rw [exp_eq_exp_iff_exists_int] at h
  obtain ⟨k, hk⟩ := h
  have hx : x = y + k * (2 * Real.pi) := by
    have : (x : ℂ) = ((y + k * (2 * Real.pi) : ℝ) : ℂ) := by
      have hI : I * (x : ℂ) = I * ((y + k * (2 * Real.pi) : ℝ) : ℂ) := by rw [hk]; push_cast; ring
      exact mul_left_cancel₀ I_ne_zero hI
    exact_mod_cast this
  unfold modTwoPi
  have hp : (2 * Real.pi) ≠ 0 := by positivity
  have : x / (2 * Real.pi) = y / (2 * Real.pi) + (k : ℝ) := by rw [hx]; field_simp
  rw [this, Int.floor_add_intCast, hx]
  push_cast; ring

/-- A node with `0 < theta < π` is determined by the field it sends to its bottom output. -/
theorem nullify_determined (style : PhaseStyle) (hs : style = .top ∨ style = .bottom) (e theta phi : ℝ)
    (he : Real.cos (2 * e) ≠ 0) (h0 : 0 < theta) (h1 : theta < Real.pi) :
    ∃ phi', nullifyPhases 0 style e e ((starRingEnd ℂ) (mziElements style false e e 0 0 theta phi).t12)
        ((starRingEnd ℂ) (mziElements style false e e 0 0 theta phi).t22) = some (theta, phi') ∧
      modTwoPi phi' = modTwoPi phi := by
  have hu := mziElements_unitary style false e e theta phi
  obtain ⟨_, r2, _⟩ := Elements.row_norm hu
  have hratio : directTransmissivity 0 ((starRingEnd ℂ) (mziElements style false e e 0 0 theta phi).t12)
      ((starRingEnd ℂ) (mziElements style false e e 0 0 theta phi).t22) = ‖ampB e theta‖ ^ 2 := by
    unfold directTransmissivity
    rw [norm_conj, norm_conj, r2, norm_t12 style hs]; simp
  have hth : transmissivityToPhase (directTransmissivity 0
      ((starRingEnd ℂ) (mziElements style false e e 0 0 theta phi).t12)
      ((starRingEnd ℂ) (mziElements style false e e 0 0 theta phi).t22)) (mziTerms e e).cs (mziTerms e e).sc = theta := by
    rw [hratio, phase_of_ampB _ _ he, Real.arccos_cos h0.le h1.le]
  obtain ⟨phi', hphi'⟩ : ∃ phi', nullifyPhases 0 style e e
      ((starRingEnd ℂ) (mziElements style false e e 0 0 theta phi).t12)
      ((starRingEnd ℂ) (mziElements style false e e 0 0 theta phi).t22) = some (theta, phi') := by
    rcases hs with rfl | rfl <;> simp only [nullifyPhases, hth] <;> exact ⟨_, rfl⟩
  refine ⟨phi', hphi', modTwoPi_eq_of_exp ?_⟩
  have hres := nullify_residual style hs le_rfl e he _ _ (by rw [hratio]; exact norm_ampB_le e theta) hphi'
  rw [Real.sqrt_zero] at hres
  have hz := norm_le_zero_iff.1 hres
  obtain ⟨_, q2, _, _⟩ := unitary2_rows hu
  have hcpos : 0 < (mziTerms e e).cs ^ 2 := by
    have h4 := four_cs_sq e
    have : 0 < Real.cos (2 * e) ^ 2 := by positivity
    linarith
  have hcos1 : -1 < Real.cos theta := by
    rw [← Real.cos_pi]; exact Real.strictAntiOn_cos ⟨h0.le, h1.le⟩ ⟨Real.pi_pos.le, le_rfl⟩ h1
  have hcos2 : Real.cos theta < 1 := by
    rw [← Real.cos_zero]; exact Real.strictAntiOn_cos ⟨le_rfl, Real.pi_pos.le⟩ ⟨h0.le, h1.le⟩ h0
  have hB : ampB e theta ≠ 0 := by
    intro h
    have := norm_ampB_sq e theta
    rw [h, norm_zero] at this
    nlinarith
  have hA : ampA e theta ≠ 0 := by
    intro h
    have h2 := norm_ampA_sq e theta
    rw [h, norm_zero, norm_ampB_sq] at h2
    have h4 := four_cs_sq e
    have : Real.cos (2 * e) ^ 2 ≤ 1 := Real.cos_sq_le_one _
    nlinarith
  have hBc : (starRingEnd ℂ) (ampB e theta) ≠ 0 := by simpa using hB
  rcases hs with rfl | rfl
  · have t11 : ∀ p : ℝ, (mziElements .top false e e 0 0 theta p).t11 = ampA e theta * exp (I * p) := by
      intro p; simp [mziElements, ampA]
    have t21 : ∀ p q : ℝ, (mziElements .top false e e 0 0 theta p).t21 = (mziElements .top false e e 0 0 theta q).t21 := by
      intro p q; simp [mziElements]
    have t12 : (mziElements .top false e e 0 0 theta phi).t12 = ampB e theta * exp (I * phi) := by
      simp [mziElements, ampB]
    rw [t11, t21 phi' phi] at hz
    rw [t11] at q2
    rw [t12] at hz q2
    have hpc : (starRingEnd ℂ) (exp (I * phi)) ≠ 0 := by simp
    rw [map_mul] at hz q2
    have : ampA e theta * (starRingEnd ℂ) (ampB e theta) * (starRingEnd ℂ) (exp (I * phi)) *
        (exp (I * phi') - exp (I * phi)) = 0 := by linear_combination hz - q2
    have := (mul_eq_zero.1 this).resolve_left (mul_ne_zero (mul_ne_zero hA hBc) hpc)
    exact sub_eq_zero.1 this
  · have t11 : ∀ p q : ℝ, (mziElements .bottom false e e 0 0 theta p).t11 = (mziElements .bottom false e e 0 0 theta q).t11 := by
      intro p q; simp [mziElements]
    have t21 : ∀ p : ℝ, (mziElements .bottom false e e 0 0 theta p).t21 = ampB e theta * exp (I * p) := by
      intro p; simp [mziElements, ampB, sc_eq_cs]; ring_nf
    have t22 : (mziElements .bottom false e e 0 0 theta phi).t22 = ampA e theta * exp (I * phi) := by
      simp [mziElements, ampA]; ring_nf
    rw [t11 phi' phi, t21] at hz
    rw [t21] at q2
    have h22 : (starRingEnd ℂ) (mziElements .bottom false e e 0 0 theta phi).t22 ≠ 0 := by
      rw [t22]; simp [hA]
    have : ampB e theta * (starRingEnd ℂ) (mziElements .bottom false e e 0 0 theta phi).t22 *
        (exp (I * phi') - exp (I * phi)) = 0 := by linear_combination hz - q2
    have := (mul_eq_zero.1 this).resolve_left (mul_ne_zero hB h22)
    exact sub_eq_zero.1 this

/-- C21, all phases: if every `theta` lies strictly between 0 and π, programming a mesh by its own null basis
(guard 0, any phases before) restores every `theta` exactly and every `phi` modulo 2π, and with the mesh's
own output phases it restores the matrix. -/
theorem C21_phases {n : ℕ} {M : Mesh} (hT : NullTarget n M) (P P0 : Params)
    (hrange : ∀ a ∈ M.nodes, 0 < P.thetas a.id ∧ P.thetas a.id < Real.pi) :
    ∃ P1, M.programByNullBasis 0 P0 (M.nullificationBasis P) = some P1 ∧
      (∀ a ∈ M.nodes, P1.thetas a.id = P.thetas a.id ∧ P1.phis a.id = modTwoPi (P.phis a.id)) ∧
      (P0.gammas = P.gammas → M.matrix n P1 false = M.matrix n P false) := by
  have hsd : M.style ≠ .differential := by rcases hT.style with h | h <;> simp [h]
  have hu := Mesh.elements_unitary hT.lossless P false
  have helt : ∀ {PK : Params} {a : Node}, PK.thetas a.id = P.thetas a.id ∧ PK.phis a.id = modTwoPi (P.phis a.id) →
      M.elements PK false a.id = M.elements P false a.id := by
    intro PK a h
    rw [hT.elements, hT.elements, h.1, h.2, mziElements_modTwoPi _ hT.style]
  have main : ∀ K, K ≤ numColumns M.nodes → ∃ PK,
      programNullLoop 0 M (M.nullificationBasis P) (List.range K) P0 = some PK ∧ PK.gammas = P0.gammas ∧
      ∀ a ∈ M.nodes, a.column < K → PK.thetas a.id = P.thetas a.id ∧ PK.phis a.id = modTwoPi (P.phis a.id) := by
    intro K
    induction K with
    | zero => exact fun _ => ⟨P0, rfl, rfl, by simp⟩
    | succ K ih =>
      intro hK
      obtain ⟨PK, h1, hg, hph⟩ := ih (by omega)
      have hK' : K < numColumns M.nodes := by omega
      obtain ⟨P1, h2, hg2, hoth, hset⟩ := programNullColumn_spec hT.style 0 hT.ids PK K hK' (M.nullificationBasis P K)
      refine ⟨P1, programNullLoop_succ h1 h2, hg2.trans hg, ?_⟩
      intro a ha hc
      rcases Nat.lt_succ_iff_lt_or_eq.1 hc with hlt | heq
      · have := hoth a.id fun b hb he => by
          obtain ⟨hb', hbk⟩ := mem_columnNodes.1 hb
          have := List.inj_on_of_nodup_map hT.ids hb' ha he
          subst this; omega
        rw [this.1, this.2]
        exact hph a ha hlt
      · have hac : a ∈ columnNodes M.nodes K := mem_columnNodes.2 ⟨ha, heq⟩
        obtain ⟨theta, phi, hnp, hth, hphi⟩ := hset a hac
        have hsame : columnsApply (M.elements PK false) M.nodes (List.range K) (M.nullificationBasis P K) =
            columnsApply (M.elements P false) M.nodes (List.range K) (M.nullificationBasis P K) :=
          columnsApply_congr' _ (fun b hb hbc => helt (hph b hb (List.mem_range.1 hbc))) _
        have hrow := nullificationBasis_spec hT.wf P hu (Mesh.elements_back hsd hT.equal P) K hK'
        rw [List.range_succ, columnsApply_append, columnsApply_single] at hrow
        obtain ⟨hyt, hyb⟩ := preimage_bottomOnes (hT.wf.goodColumn K) hu hrow hac
        have hcos := getD_errors (q := fun p => Real.cos (2 * p.1) ≠ 0) (by simp) hT.couples a.id
        rw [hsame, hyt, hyb, ← getD_errors (q := fun p => p.1 = p.2) rfl hT.equal a.id, hT.elements P a.id] at hnp
        obtain ⟨phi', hd1, hd2⟩ := nullify_determined M.style hT.style _ _ (P.phis a.id) hcos (hrange a ha).1 (hrange a ha).2
        rw [hd1] at hnp
        simp only [Option.some.injEq, Prod.mk.injEq] at hnp
        rw [hth, hphi, ← hnp.1, ← hnp.2, hd2]
        exact ⟨rfl, rfl⟩
  obtain ⟨P1, h1, hg, hph⟩ := main (numColumns M.nodes) le_rfl
  refine ⟨P1, h1, fun a ha => hph a ha (column_lt_numColumns ha), fun hgam => ?_⟩
  ext i j
  simp only [Mesh.matrix, Matrix.of_apply, Mesh.apply, Bool.false_eq_true, if_false, columnOrder, hg, hgam]
  rw [columnsApply_congr' _ (fun a ha _ => helt (hph a ha (column_lt_numColumns ha)))]

/-- C21: SYMMETRIC meshes cannot be programmed this way: as soon as a column has a node, `parallel_nullify`
raises. -/
theorem C21_symmetric_raises (M : Mesh) (hs : M.style = .symmetric) (eps : ℝ) (P : Params) (basis : ℕ → ℕ → ℂ)
    (a : Node) (ha : a ∈ M.nodes) : M.programByNullBasis eps P basis = none := by
  have hcol : ∀ Q, programNullColumn eps M Q a.column (basis a.column) = none := by
    intro Q
    unfold programNullColumn
    have hm : a ∈ columnNodes M.nodes a.column := mem_columnNodes.2 ⟨ha, rfl⟩
    have : (columnNodes M.nodes a.column).mapM (fun b => nullifyPhases eps M.style (M.errors.getD b.id (0, 0)).1
        (M.errors.getD b.id (0, 0)).2
        (((M.propagate Q false (some (a.column : ℤ)) (basis a.column)).getLast?.getD (basis a.column)) b.top)
        (((M.propagate Q false (some (a.column : ℤ)) (basis a.column)).getLast?.getD (basis a.column)) b.bottom)) = none := by
      rw [hs]
      generalize columnNodes M.nodes a.column = l at hm
      cases l with
      | nil => simp at hm
      | cons b l => simp [List.mapM_cons, nullifyPhases]
    simp only [this]; rfl
  have hlt := column_lt_numColumns ha
  unfold Mesh.programByNullBasis
  have hsplit : List.range (numColumns M.nodes) = List.range a.column ++
      (a.column :: (List.range (numColumns M.nodes - (a.column + 1))).map (a.column + 1 + ·)) := by
    obtain ⟨d, hd⟩ : ∃ d, numColumns M.nodes = (a.column + 1) + d := ⟨numColumns M.nodes - (a.column + 1), by omega⟩
    rw [hd, List.range_add, List.range_succ]; simp
  rw [hsplit, programNullLoop_append]
  cases programNullLoop eps M basis (List.range a.column) P with
  | none => rfl
  | some Q =>
    simp [programNullLoop, hcol Q]

/-- Ideal trees are targets: the hypotheses of C21 are met. -/
example (n : ℕ) (hn : 2 ≤ n) (b : Bool) : NullTarget n (idealMesh (tree n n b) .top) :=
  idealMesh_nullTarget (Or.inl rfl) (tree_wellFormed n hn b .top)
    ((tree_ids n n b).nodup_iff.2 List.nodup_range)

/-- ... and so are trees with errors. -/
example (n : ℕ) (hn : 2 ≤ n) (b : Bool) : NullTarget n (errorMesh (tree n n b) 0.1 .bottom) := by
  have h1 : ∀ p ∈ (errorMesh (tree n n b) 0.1 .bottom).errors, p = (0.1, 0.1) := by
    intro p hp; obtain ⟨_, _, rfl⟩ := List.mem_map.1 hp; rfl
  refine ⟨errorMesh_wellFormed _ _ (tree_wellFormed n hn b .top).ids (tree_wellFormed n hn b .top).rails
    (tree_wellFormed n hn b .top).disjoint, Or.inr rfl, errorMesh_lossless _ _ _, ?_, ?_,
    (tree_ids n n b).nodup_iff.2 List.nodup_range⟩
  · intro p hp; rw [h1 p hp]
  · intro p hp; rw [h1 p hp]
    apply ne_of_gt
    apply Real.cos_pos_of_mem_Ioo
    constructor <;> norm_num <;> linarith [Real.pi_gt_three]

end Simphox
