import Verif.HaarSwap

/-!
# Random networks of crossing lines (C207): words of nodes
-/

namespace Simphox

open Matrix Complex MeasureTheory ProbabilityTheory ComplexConjugate Law
open scoped BoundedContinuousFunction ENNReal

/-- The law of a network of random nodes, given by their rails and indices in the order of the light. -/
noncomputable def wordLaw (n : ℕ) : List (ℕ × ℕ) → Law n
  | [] => 1
  | a :: w => wordLaw n w * nodeLaw n a.1 a.2

/-- A random node of the mesh. -/
theorem node_drawn (n i k : ℕ) (inv : ℝ → ℝ) (h : IsBetaincinv (k + 1 : ℕ) (1 : ℕ) inv) (g : ℝ → ℝ) (hg : Measurable g) (hgi : ∀ᵐ u ∂uniform01, inv u = g u) :
    (uniform01.prod uniform01).map (fun x : ℝ × ℝ => embed2 n i (i + 1) (mziElements .top false 0 0 0 0 (idealPhase (g x.1)) (2 * Real.pi * x.2)).mat) =
      (nodeLaw n i k).1 := by
  have := betaProb k
  rw [nodeLaw, coreLaw, phaseLaw, of_mul_of]
  have hl : uniform01.map g = betaMeasure (k + 1 : ℕ) (1 : ℕ) := by
    rw [← C119_rand_s_law _ _ (by positivity) (by norm_num) inv h]
    exact Measure.map_congr (hgi.mono fun u hu => hu.symm)
  show _ = ((betaMeasure (k + 1 : ℕ) (1 : ℕ)).prod uniform01).map _
  have hm : Measurable fun p : ℝ × ℝ => embed2 n i (i + 1) (mzOf p.1) * diagonal fun j : Fin n => if j.val = i then phaseOf p.2 else 1 :=
    measurable_mat_mul ((measurable_embed2 measurable_mz).comp measurable_fst)
      (measurable_diagonal fun j => by split_ifs; exacts [measurable_phaseOf.comp measurable_snd, measurable_const])
  have hp : (betaMeasure (k + 1 : ℕ) (1 : ℕ)).prod uniform01 = (uniform01.prod uniform01).map (Prod.map g id) := by
    rw [← Measure.map_prod_map _ _ hg measurable_id, Measure.map_id, hl]
  rw [hp, Measure.map_map hm (hg.prodMap measurable_id)]
  congr 1
  funext x
  simp only [Function.comp, Prod.map, id]
  have e : ∀ p : ℝ, (mziElements .top false 0 0 0 0 (idealPhase (g x.1)) p).mat 0 0 = mzOf (g x.1) 0 0 * exp (I * (p : ℂ)) ∧
      (mziElements .top false 0 0 0 0 (idealPhase (g x.1)) p).mat 0 1 = mzOf (g x.1) 0 1 ∧
      (mziElements .top false 0 0 0 0 (idealPhase (g x.1)) p).mat 1 0 = mzOf (g x.1) 1 0 * exp (I * (p : ℂ)) ∧
      (mziElements .top false 0 0 0 0 (idealPhase (g x.1)) p).mat 1 1 = mzOf (g x.1) 1 1 := by
    intro p
    refine ⟨?_, ?_, ?_, ?_⟩ <;> simp [mzOf, Elements.mat, mziElements]
  obtain ⟨e0, e1, e2, e3⟩ := e (2 * Real.pi * x.2)
  ext a b
  rw [mul_diagonal]
  simp only [embed2, of_apply, e0, e1, e2, e3, phaseOf]
  by_cases hb : b.val = i <;> by_cases hb' : b.val = i + 1 <;> by_cases ha : a.val = i <;> by_cases ha' : a.val = i + 1 <;>
    by_cases hab : a = b <;> simp [hb, hb', ha, ha', hab]

theorem blockProduct_dep {n : ℕ} (X : ℕ → ℝ × ℝ → Elements) (L : List Node) (x y : Fin 3 × ℕ → ℝ)
    (h : ∀ a ∈ L, x (0, a.id) = y (0, a.id) ∧ x (1, a.id) = y (1, a.id)) : blockProduct n (drawnEl X x) L = blockProduct n (drawnEl X y) L := by
  unfold blockProduct
  congr 2
  refine List.map_congr_left fun a ha => ?_
  rw [drawnEl, drawnEl, (h a ha).1, (h a ha).2]

theorem measurable_block {n : ℕ} (X : ℕ → ℝ × ℝ → Elements) (hX : ∀ k i j, Measurable fun x => (X k x).mat i j) (L : List Node) :
    Measurable fun x => blockProduct n (drawnEl X x) L := by
  induction L with
  | nil => exact measurable_const
  | cons a L ih =>
    have e : (fun x => blockProduct n (drawnEl X x) (a :: L)) = fun x => blockProduct n (drawnEl X x) L * embed2 n a.top a.bottom (drawnEl X x a.id).mat := by
      funext x
      simp [blockProduct]
    rw [e]
    exact measurable_mat_mul ih (measurable_embed2 fun i j => (hX a.id i j).comp (measurable_draw a.id))

/-- The law of a network with fresh settings, behind a matrix that depends on the output phases only. -/
theorem network_law {Ω : Type} [MeasurableSpace Ω] {Pr : Measure Ω} [IsProbabilityMeasure Pr] {D : Fin 3 × ℕ → Ω → ℝ} (hD : UniformDraws Pr D)
    {n : ℕ} (X : ℕ → ℝ × ℝ → Elements) (hX : ∀ k i j, Measurable fun x => (X k x).mat i j) (b : Node → ℕ) (G : (Fin 3 × ℕ → ℝ) → Matrix (Fin n) (Fin n) ℂ)
    (hG : Measurable G) (hGd : ∀ x y : Fin 3 × ℕ → ℝ, (∀ r < n, x (2, r) = y (2, r)) → G x = G y) (Z : Law n) (hZ : Pr.map (fun ω => G fun i => D i ω) = Z.1) (L : List Node)
    (hL : ∀ a ∈ L, a.bottom = a.top + 1 ∧ (uniform01.prod uniform01).map (fun x : ℝ × ℝ => embed2 n a.top (a.top + 1) (X a.id x).mat) = (nodeLaw n a.top (b a)).1)
    (hid : (L.map Node.id).Nodup) :
    Pr.map (fun ω => (G fun i => D i ω) * blockProduct n (drawnEl X fun i => D i ω) L) = (Z * wordLaw n (L.map fun a => (a.top, b a))).1 := by
  induction L with
  | nil =>
    rw [List.map_nil, wordLaw, mul_one, ← hZ]
    simp [blockProduct]
  | cons a L ih =>
    rw [List.map_cons, List.nodup_cons] at hid
    have h1 := ih (fun a ha => hL a (List.mem_cons_of_mem _ ha)) hid.2
    obtain ⟨ha, h2⟩ := hL a List.mem_cons_self
    have mP : Measurable fun x => G x * blockProduct n (drawnEl X x) L := measurable_mat_mul hG (measurable_block X hX L)
    have mE0 : Measurable fun x : ℝ × ℝ => embed2 n a.top (a.top + 1) (X a.id x).mat := measurable_embed2 (hX a.id)
    have mE : Measurable fun x : Fin 3 × ℕ → ℝ => embed2 n a.top (a.top + 1) (X a.id (x (0, a.id), x (1, a.id))).mat := mE0.comp (measurable_draw a.id)
    have hind := hD.split mP mE (({0, 1} : Finset (Fin 3)) ×ˢ (L.map Node.id).toFinset ∪ {2} ×ˢ Finset.range n) {(0, a.id), (1, a.id)} (by
        rw [Finset.disjoint_left]
        rintro ⟨c, d⟩ h3 h4
        simp only [Finset.mem_union, Finset.mem_product, Finset.mem_insert, Finset.mem_singleton, List.mem_toFinset, Prod.mk.injEq] at h3 h4
        rcases h3 with ⟨-, h3⟩ | ⟨h3, -⟩
        · rcases h4 with ⟨-, h4⟩ | ⟨-, h4⟩ <;> exact hid.1 (h4 ▸ h3)
        · rcases h4 with ⟨h4, -⟩ | ⟨h4, -⟩ <;> rw [h3] at h4 <;> exact absurd h4 (by decide))
      (fun x y hxy => by
        have e1 : blockProduct n (drawnEl X x) L = blockProduct n (drawnEl X y) L := blockProduct_dep X L x y fun a' ha' => by
          have : a'.id ∈ (L.map Node.id).toFinset := List.mem_toFinset.2 (List.mem_map_of_mem ha')
          exact ⟨hxy _ (Finset.mem_union_left _ (Finset.mem_product.2 ⟨by simp, this⟩)), hxy _ (Finset.mem_union_left _ (Finset.mem_product.2 ⟨by simp, this⟩))⟩
        simp only [e1, hGd x y fun r hr => hxy _ (by simp [hr])])
      (fun x y hxy => by simp only [hxy (0, a.id) (by simp), hxy (1, a.id) (by simp)])
    have h3 := hind.map_mul_eq_map_mconv_map (hD.comp _ mP) (hD.comp _ mE)
    have e : (fun ω => (G fun i => D i ω) * blockProduct n (drawnEl X fun i => D i ω) (a :: L)) =
        (fun ω => (G fun i => D i ω) * blockProduct n (drawnEl X fun i => D i ω) L) * fun ω => embed2 n a.top (a.top + 1) (X a.id (D (0, a.id) ω, D (1, a.id) ω)).mat := by
      funext ω
      rw [Pi.mul_apply, mul_assoc]
      simp [blockProduct, drawnEl, ha]
    rw [e, h3, h1, List.map_cons, wordLaw, ← mul_assoc]
    have h4 : Pr.map (fun ω => embed2 n a.top (a.top + 1) (X a.id (D (0, a.id) ω, D (1, a.id) ω)).mat) = (nodeLaw n a.top (b a)).1 := by
      rw [← h2, ← hD.pair a.id, Measure.map_map mE0 ((hD.meas _).prodMk (hD.meas _))]
      rfl
    rw [h4]
    rfl

/-- The output phases. -/
theorem gamma_law {Ω : Type} [MeasurableSpace Ω] {Pr : Measure Ω} [IsProbabilityMeasure Pr] {D : Fin 3 × ℕ → Ω → ℝ} (hD : UniformDraws Pr D) (n : ℕ) :
    Pr.map (fun ω => (diagonal fun i : Fin n => phaseOf (D (2, i.val) ω) : Matrix (Fin n) (Fin n) ℂ)) = (torus n).1 := by
  have hi : iIndepFun (fun i : Fin n => D (2, i.val)) Pr := hD.indep.precomp (g := fun i : Fin n => ((2 : Fin 3), i.val)) fun i j h => by
    simpa [Fin.ext_iff] using h
  have h := (iIndepFun_iff_map_fun_eq_pi_map fun i : Fin n => (hD.meas (2, i.val)).aemeasurable).1 hi
  simp only [hD.law] at h
  have m : Measurable fun y : Fin n → ℝ => (diagonal fun i => phaseOf (y i) : Matrix (Fin n) (Fin n) ℂ) :=
    measurable_diagonal fun i => measurable_phaseOf.comp (measurable_pi_apply i)
  show _ = (Measure.pi fun _ : Fin n => uniform01).map _
  rw [← h, Measure.map_map m (measurable_pi_iff.2 fun i => hD.meas _)]
  rfl

theorem RInv.node_phased {n i k : ℕ} {X : Law n} (hX : RInv X) (hi : i + 1 < n) : X * nodeLaw n i k = X * phasedNode n i (i + 1) k := by
  rw [hX.node_eq hi, phasedNode, ← mul_assoc, ← mul_assoc, hX.torus]

theorem torus_phased (n a b k : ℕ) : torus n * phasedNode n a b k = phasedNode n a b k := by
  rw [phasedNode, ← mul_assoc, ← mul_assoc, (torus_rinv n).torus]

theorem law_of_right {Ω : Type} [MeasurableSpace Ω] {Pr : Measure Ω} [IsProbabilityMeasure Pr] {n k : ℕ} {W : Ω → Matrix (Fin n) (Fin n) ℂ}
    (hW : Measurable W) (hR : RightInv Pr n k W) {g : Matrix (Fin n) (Fin n) ℂ} (hg : g ∈ HeadUnitary n k) :
    Law.of Pr W hW * pt g = Law.of Pr W hW := by
  have m : Measurable fun ω => W ω * g := measurable_mat_mul hW measurable_const
  have p1 : IsProbabilityMeasure (Pr.map W) := Measure.isProbabilityMeasure_map hW.aemeasurable
  have p2 : IsProbabilityMeasure (Pr.map fun ω => W ω * g) := Measure.isProbabilityMeasure_map m.aemeasurable
  rw [of_mul_pt]
  refine Subtype.ext ?_
  show Pr.map (fun ω => W ω * g) = Pr.map W
  refine ext_of_forall_integral_eq_of_IsFiniteMeasure fun f => ?_
  rw [integral_map m.aemeasurable f.continuous.measurable.aestronglyMeasurable, integral_map hW.aemeasurable f.continuous.measurable.aestronglyMeasurable]
  exact hR f g hg

theorem right_of_law {Ω : Type} [MeasurableSpace Ω] {Pr : Measure Ω} [IsProbabilityMeasure Pr] {n k : ℕ} {W : Ω → Matrix (Fin n) (Fin n) ℂ}
    (hW : Measurable W) (h : ∀ g ∈ HeadUnitary n k, Law.of Pr W hW * pt g = Law.of Pr W hW) : RightInv Pr n k W := by
  intro f g hg
  have m : Measurable fun ω => W ω * g := measurable_mat_mul hW measurable_const
  have e := h g hg
  rw [of_mul_pt] at e
  have e : Pr.map (fun ω => W ω * g) = Pr.map W := congrArg Subtype.val e
  rw [← integral_map (φ := fun ω => W ω * g) (f := fun M => f M) m.aemeasurable f.continuous.measurable.aestronglyMeasurable, e,
    integral_map hW.aemeasurable f.continuous.measurable.aestronglyMeasurable]

/-- Rails in front of the first chain: three nodes with the indices of the triangular mesh. -/
theorem first_trio {n : ℕ} (hn : 3 ≤ n) : trioLaw n 0 1 2 1 0 0 * pt (swapMat (⟨0, by omega⟩ : Fin n) ⟨2, by omega⟩) = trioLaw n 0 1 2 1 0 0 := by
  obtain ⟨inv1, i1⟩ := exists_betaincinv ((0 + 1 : ℕ) : ℝ) ((1 : ℕ) : ℝ) (by norm_num) (by norm_num)
  obtain ⟨inv2, i2⟩ := exists_betaincinv ((1 + 1 : ℕ) : ℝ) ((1 : ℕ) : ℝ) (by norm_num) (by norm_num)
  have m1 := i1.aemeasurable
  have m2 := i2.aemeasurable
  let X : ℕ → ℝ × ℝ → Elements := fun k x => mziElements .top false 0 0 0 0 (idealPhase ((if k = 1 then m2.mk _ else m1.mk _) x.1)) (2 * Real.pi * x.2)
  have n1 := haar_node 0 inv1 i1 (m1.mk _) m1.measurable_mk m1.ae_eq_mk
  have n2 := haar_node 1 inv2 i2 (m2.mk _) m2.measurable_mk m2.ae_eq_mk
  have hX : HaarNodes X 3 0 := by
    refine ⟨fun i hi => ?_, fun i hi => ?_, fun i hi => absurd hi (Nat.not_lt_zero i), trivial⟩
    · have hi : i < 2 := hi
      obtain rfl | rfl : i = 0 ∨ i = 1 := by omega
      · exact n1
      · exact n2
    · have hi : i < 1 := hi
      obtain rfl : i = 0 := by omega
      exact n1
  have hD : UniformDraws (Measure.infinitePi fun _ : Fin 3 × ℕ => uniform01) (fun i ω => ω i) :=
    ⟨fun i => measurable_pi_apply i, fun i => Measure.infinitePi_map_eval _ i, iIndepFun_infinitePi (X := fun _ x => x) fun _ => measurable_id⟩
  have hXm : ∀ k i j, Measurable fun x => (X k x).mat i j := by
    intro k i j
    have : HaarNode (X k) (if k = 1 then 1 else 0) := by
      by_cases hk : k = 1
      · simp only [X, if_pos hk]; exact n2
      · simp only [X, if_neg hk]; exact n1
    fin_cases i <;> fin_cases j <;> simp only [Elements.mat] <;> simp
    exacts [this.m11, this.m21, this.m12, this.m22]
  have mG : Measurable fun x : Fin 3 × ℕ → ℝ => (diagonal fun i : Fin n => if i.val ≤ 2 then exp (I * ((2 * Real.pi * x (2, i.val) : ℝ) : ℂ)) else 1 : Matrix (Fin n) (Fin n) ℂ) := by
    refine measurable_diagonal fun i => ?_
    split_ifs
    · exact measurable_phaseOf.comp (measurable_pi_apply _)
    · exact measurable_const
  have hexec : execParts n false 2 0 0 = (List.range 2).map (fun i => shiftNode 0 (colOffset n 2 false 0) { chainNode 3 n i with column := i }) ++
      (List.range 1).map (fun i => shiftNode 2 (colOffset n 1 false (0 + numColumns (tree 3 n false))) { chainNode 2 n i with column := i }) := by
    simp only [execParts, chain_exec 3 n (by omega), chain_exec 2 n (by omega), List.map_map, List.append_nil]
    rfl
  have hn1 := node_drawn n 0 0 inv1 i1 (m1.mk _) m1.measurable_mk m1.ae_eq_mk
  have hn2 := node_drawn n 1 1 inv2 i2 (m2.mk _) m2.measurable_mk m2.ae_eq_mk
  have hlaw := network_law hD (n := n) X hXm (fun a => if a.top = 1 then 1 else 0) _ mG (fun x y h => by
      congr 1
      funext i
      rw [h i.val i.isLt]) (Law.of (Measure.infinitePi fun _ : Fin 3 × ℕ => uniform01) _ mG) rfl (execParts n false 2 0 0) (by
      intro a ha
      rw [hexec] at ha
      simp only [List.mem_append, List.mem_map, List.mem_range] at ha
      rcases ha with ⟨i, hi, rfl⟩ | ⟨i, hi, rfl⟩
      · obtain rfl | rfl : i = 0 ∨ i = 1 := by omega
        · exact ⟨rfl, hn1⟩
        · exact ⟨rfl, hn2⟩
      · obtain rfl : i = 0 := by omega
        exact ⟨rfl, hn1⟩) (by rw [hexec]; simp [List.range_succ, shiftNode, chainNode])
  have hw : (execParts n false 2 0 0).map (fun a => (a.top, if a.top = 1 then 1 else 0)) = [(0, 0), (1, 1), (0, 0)] := by
    rw [hexec]; rfl
  rw [hw] at hlaw
  have hre := fun x => triangular_random n X x 2 0 0 (by omega) hX
  simp only [hre] at hlaw
  have hR := randomHead_inv hD (n := n) X 3 0 hn hX
  have mW : Measurable fun x : Fin 3 × ℕ → ℝ => randomHead n X 3 0 x := measurable_randomHead 3 0 hX
  have hs : swapMat (⟨0, by omega⟩ : Fin n) ⟨2, by omega⟩ ∈ HeadUnitary n 3 := by
    refine head_of_rows (mem_unitaryGroup_iff.2 ?_) fun i j hj => ?_
    · rw [star_eq_conjTranspose, show (swapMat (⟨0, by omega⟩ : Fin n) ⟨2, by omega⟩)ᴴ = swapMat (⟨0, by omega⟩ : Fin n) ⟨2, by omega⟩ from ?_, swap_mul]
      · ext i j
        exact congrArg (fun k => (1 : Matrix (Fin n) (Fin n) ℂ) k j) (Equiv.swap_apply_self _ _ i)
      · rw [conjTranspose, swap_transpose]
        ext i j
        simp [swapMat, Matrix.one_apply, apply_ite]
    · rw [swapMat, submatrix_apply, Equiv.swap_apply_of_ne_of_ne, id, Matrix.one_apply]
      · exact if_congr eq_comm rfl rfl
      · exact fun h => by rw [h] at hj; exact absurd hj (by norm_num)
      · exact fun h => by rw [h] at hj; exact absurd hj (by norm_num)
  have h1 := law_of_right mW hR hs
  have h2 : Law.of (Measure.infinitePi fun _ : Fin 3 × ℕ => uniform01) _ mW = Law.of (Measure.infinitePi fun _ : Fin 3 × ℕ => uniform01) _ mG * wordLaw n [(0, 0), (1, 1), (0, 0)] :=
    Subtype.ext hlaw
  have h3 : torus n * Law.of (Measure.infinitePi fun _ : Fin 3 × ℕ => uniform01) _ mG = torus n :=
    (torus_rinv n).absorb _ _ (fun x i => by split_ifs; exacts [norm_exp_I _, norm_one]) _
  have h4 : torus n * wordLaw n [(0, 0), (1, 1), (0, 0)] = trioLaw n 0 1 2 1 0 0 := by
    have t := torus_rinv n
    simp only [wordLaw, one_mul]
    have t1 := t.mul_node (k := 0) (show 0 + 1 < n by omega)
    have t2 := t1.mul_node (k := 1) (show 1 + 1 < n by omega)
    rw [← mul_assoc, ← mul_assoc, t2.node_phased (by omega), t1.node_phased (by omega), t.node_phased (by omega), torus_phased, trioLaw, ← mul_assoc]
  have h5 : torus n * Law.of (Measure.infinitePi fun _ : Fin 3 × ℕ => uniform01) _ mW = trioLaw n 0 1 2 1 0 0 := by
    rw [h2, ← mul_assoc, h3, h4]
  rw [← h5, mul_assoc, h1]

theorem node_trio {n i : ℕ} (hi : i + 2 < n) : trioLaw n i (i + 1) (i + 2) 1 0 0 * pt (swapMat (⟨i, by omega⟩ : Fin n) ⟨i + 2, hi⟩) = trioLaw n i (i + 1) (i + 2) 1 0 0 := by
  have : NeZero n := ⟨by omega⟩
  let σ : Equiv.Perm (Fin n) := Equiv.subRight ⟨i, by omega⟩
  have e : ∀ c (hc : c < 3), σ ⟨i + c, by omega⟩ = ⟨c, by omega⟩ := by
    intro c hc
    refine Fin.ext ?_
    show (n - i + (i + c)) % n = c
    rw [show n - i + (i + c) = c + n by omega, Nat.add_mod_right, Nat.mod_eq_of_lt (by omega)]
  have h := trio_move σ ⟨i + 0, by omega⟩ ⟨i + 1, by omega⟩ ⟨i + 2, hi⟩ 1 0 0
  rw [e 0 (by omega), e 1 (by omega), e 2 (by omega)] at h
  exact h (first_trio (by omega))

/-- Three consecutive nodes on three rails may be replaced by three nodes in the other order, with their outer indices exchanged. -/
theorem node_exchange {n i : ℕ} (hi : i + 2 < n) (p q : ℕ) {X : Law n} (hX : RInv X) :
    X * nodeLaw n i q * nodeLaw n (i + 1) (p + q + 1) * nodeLaw n i p = X * nodeLaw n (i + 1) p * nodeLaw n i (p + q + 1) * nodeLaw n (i + 1) q := by
  have a1 := hX.mul_node (k := q) (show i + 1 < n by omega)
  have a2 := a1.mul_node (k := p + q + 1) (show i + 1 + 1 < n by omega)
  have b1 := hX.mul_node (k := p) (show i + 1 + 1 < n by omega)
  have b2 := b1.mul_node (k := p + q + 1) (show i + 1 < n by omega)
  rw [a2.node_phased (by omega), a1.node_phased (by omega), hX.node_phased (by omega), b2.node_phased (by omega), b1.node_phased (by omega), hX.node_phased (by omega)]
  have h := trio_exchange (a := (⟨i, by omega⟩ : Fin n)) (b := ⟨i + 1, by omega⟩) (c := ⟨i + 2, hi⟩) (by simp) (by simp) (by simp) p q (node_trio hi)
  have := congrArg (fun Y => X * Y) h
  simpa only [← mul_assoc] using this

/-! ### Networks that sort the lines -/

/-- The numbers on the rails after those of rails `i` and `i + 1` change places. -/
def crossed (x : ℕ → ℕ) (i : ℕ) : ℕ → ℕ := fun r => x (Equiv.swap i (i + 1) r)

theorem crossed_left (x : ℕ → ℕ) (i : ℕ) : crossed x i i = x (i + 1) := by rw [crossed, Equiv.swap_apply_left]

theorem crossed_right (x : ℕ → ℕ) (i : ℕ) : crossed x i (i + 1) = x i := by rw [crossed, Equiv.swap_apply_right]

theorem crossed_ne (x : ℕ → ℕ) {i r : ℕ} (h : r ≠ i) (h' : r ≠ i + 1) : crossed x i r = x r := by rw [crossed, Equiv.swap_apply_of_ne_of_ne h h']

theorem crossed_braid (x : ℕ → ℕ) (i : ℕ) : crossed (crossed (crossed x (i + 1)) i) (i + 1) = crossed (crossed (crossed x i) (i + 1)) i := by
  funext r
  by_cases h0 : r = i
  · subst h0
    rw [crossed_ne _ (by omega) (by omega), crossed_left, crossed_left, crossed_left, crossed_left, crossed_ne _ (by omega) (by omega)]
  by_cases h1 : r = i + 1
  · subst h1
    rw [crossed_left, crossed_right, crossed_ne _ (by omega) (by omega), crossed_right, crossed_ne _ (by omega) (by omega), crossed_left]
  by_cases h2 : r = i + 1 + 1
  · subst h2
    rw [crossed_right, crossed_right, crossed_ne _ (by omega) (by omega), crossed_ne _ (by omega) (by omega), crossed_right, crossed_right]
  · rw [crossed_ne _ h1 h2, crossed_ne _ h0 h1, crossed_ne _ h1 h2, crossed_ne _ h0 h1, crossed_ne _ h1 h2, crossed_ne _ h0 h1]

theorem crossed_far (x : ℕ → ℕ) {i j : ℕ} (h : i + 1 < j) : crossed (crossed x j) i = crossed (crossed x i) j := by
  funext r
  by_cases h0 : r = i
  · subst h0
    rw [crossed_left, crossed_ne _ (by omega) (by omega), crossed_ne _ (by omega) (by omega), crossed_left]
  by_cases h1 : r = i + 1
  · subst h1
    rw [crossed_right, crossed_ne _ (by omega) (by omega), crossed_ne _ (by omega) (by omega), crossed_right]
  by_cases h2 : r = j
  · subst h2
    rw [crossed_ne _ (by omega) (by omega), crossed_left, crossed_left, crossed_ne _ (by omega) (by omega)]
  by_cases h3 : r = j + 1
  · subst h3
    rw [crossed_ne _ (by omega) (by omega), crossed_right, crossed_right, crossed_ne _ (by omega) (by omega)]
  · rw [crossed_ne _ h0 h1, crossed_ne _ h2 h3, crossed_ne _ h2 h3, crossed_ne _ h0 h1]

/-- A network of nodes whose lines carry numbers that they bring in the opposite order, each node crossing two lines in the original order, with the
index one less than the difference of their numbers. -/
def Sorts (n : ℕ) : List (ℕ × ℕ) → (ℕ → ℕ) → Prop
  | [], x => ∀ i, i + 1 < n → x (i + 1) ≤ x i
  | a :: w, x => a.1 + 1 < n ∧ x (a.1 + 1) = x a.1 + a.2 + 1 ∧ Sorts n w (crossed x a.1)

/-- How far the numbers are from the opposite order. -/
def disorder (n : ℕ) (x : ℕ → ℕ) : ℕ := ∑ i ∈ Finset.range n, i * x i

theorem disorder_crossed {n i : ℕ} {x : ℕ → ℕ} (hi : i + 1 < n) (h : x i < x (i + 1)) : disorder n (crossed x i) < disorder n x := by
  have e : ∀ y : ℕ → ℕ, disorder n y = i * y i + (i + 1) * y (i + 1) + ∑ r ∈ ((Finset.range n).erase i).erase (i + 1), r * y r := by
    intro y
    rw [disorder, ← Finset.add_sum_erase (Finset.range n) _ (Finset.mem_range.2 (show i < n by omega)),
      ← Finset.add_sum_erase ((Finset.range n).erase i) _ (Finset.mem_erase.2 ⟨by omega, Finset.mem_range.2 hi⟩), add_assoc]
  have e2 : ∑ r ∈ ((Finset.range n).erase i).erase (i + 1), r * crossed x i r = ∑ r ∈ ((Finset.range n).erase i).erase (i + 1), r * x r := by
    refine Finset.sum_congr rfl fun r hr => ?_
    simp only [Finset.mem_erase] at hr
    rw [crossed, Equiv.swap_apply_of_ne_of_ne hr.2.1 hr.1]
  rw [e, e, e2]
  simp only [crossed, Equiv.swap_apply_left, Equiv.swap_apply_right]
  nlinarith

theorem sorts_exists {n : ℕ} (x : ℕ → ℕ) : ∃ w, Sorts n w x := by
  induction hN : disorder n x using Nat.strong_induction_on generalizing x with
  | _ N ih =>
    by_cases h : ∃ i, i + 1 < n ∧ x i < x (i + 1)
    · obtain ⟨i, hi, hx⟩ := h
      obtain ⟨w, hw⟩ := ih _ (hN ▸ disorder_crossed hi hx) (crossed x i) rfl
      exact ⟨(i, x (i + 1) - x i - 1) :: w, hi, by show x (i + 1) = x i + (x (i + 1) - x i - 1) + 1; omega, hw⟩
    · push Not at h
      exact ⟨[], h⟩

theorem word_rinv {n : ℕ} : ∀ (w : List (ℕ × ℕ)) (x : ℕ → ℕ), Sorts n w x → RInv (torus n * wordLaw n w)
  | [], _, _ => by rw [wordLaw, mul_one]; exact torus_rinv n
  | a :: w, x, h => by
    rw [wordLaw, ← mul_assoc]
    exact (word_rinv w _ h.2.2).mul_node h.1

/-- Two networks that reverse the same numbers have the same law. -/
theorem sorts_law {n : ℕ} (x : ℕ → ℕ) : ∀ w w' : List (ℕ × ℕ), Sorts n w x → Sorts n w' x → torus n * wordLaw n w = torus n * wordLaw n w' := by
  induction hN : disorder n x using Nat.strong_induction_on generalizing x with
  | _ N ih =>
    have key : ∀ (i k j l : ℕ) (u v : List (ℕ × ℕ)), i ≤ j → Sorts n ((i, k) :: u) x → Sorts n ((j, l) :: v) x →
        torus n * wordLaw n ((i, k) :: u) = torus n * wordLaw n ((j, l) :: v) := by
      rintro i k j l u v hij ⟨hi, hxi, hu⟩ ⟨hj, hxj, hv⟩
      simp only at hi hxi hu hj hxj hv
      have hu' := ih _ (hN ▸ disorder_crossed hi (by omega)) (crossed x i) rfl
      have hv' := ih _ (hN ▸ disorder_crossed hj (by omega)) (crossed x j) rfl
      simp only [wordLaw]
      rw [← mul_assoc, ← mul_assoc]
      rcases Nat.lt_trichotomy j (i + 1) with h | h | h
      · obtain rfl : i = j := by omega
        obtain rfl : k = l := by omega
        rw [hu' u v hu hv]
      · subst h
        have e := crossed_braid x i
        obtain ⟨w0, hw0⟩ := sorts_exists (n := n) (crossed (crossed (crossed x i) (i + 1)) i)
        have su : Sorts n ((i + 1, k + l + 1) :: (i, l) :: w0) (crossed x i) := by
          refine ⟨hj, ?_, hi, ?_, hw0⟩
          · show crossed x i (i + 1 + 1) = crossed x i (i + 1) + (k + l + 1) + 1
            rw [crossed_ne _ (by omega) (by omega), crossed_right]; omega
          · show crossed (crossed x i) (i + 1) (i + 1) = crossed (crossed x i) (i + 1) i + l + 1
            rw [crossed_left, crossed_ne _ (by omega) (by omega), crossed_ne _ (by omega) (by omega), crossed_left]; omega
        have sv : Sorts n ((i, k + l + 1) :: (i + 1, k) :: w0) (crossed x (i + 1)) := by
          refine ⟨hi, ?_, hj, ?_, e ▸ hw0⟩
          · show crossed x (i + 1) (i + 1) = crossed x (i + 1) i + (k + l + 1) + 1
            rw [crossed_left, crossed_ne _ (by omega) (by omega)]; omega
          · show crossed (crossed x (i + 1)) i (i + 1 + 1) = crossed (crossed x (i + 1)) i (i + 1) + k + 1
            rw [crossed_ne _ (by omega) (by omega), crossed_right, crossed_right, crossed_ne _ (by omega) (by omega)]; omega
        rw [hu' u _ hu su, hv' v _ hv sv]
        simp only [wordLaw]
        have := node_exchange (n := n) (i := i) (by omega) k l (word_rinv w0 _ hw0)
        simpa only [← mul_assoc] using this
      · have e := crossed_far x h
        obtain ⟨w0, hw0⟩ := sorts_exists (n := n) (crossed (crossed x i) j)
        have su : Sorts n ((j, l) :: w0) (crossed x i) := by
          refine ⟨hj, ?_, hw0⟩
          show crossed x i (j + 1) = crossed x i j + l + 1
          rw [crossed_ne _ (by omega) (by omega), crossed_ne _ (by omega) (by omega)]; omega
        have sv : Sorts n ((i, k) :: w0) (crossed x j) := by
          refine ⟨hi, ?_, e ▸ hw0⟩
          show crossed x j (i + 1) = crossed x j i + k + 1
          rw [crossed_ne _ (by omega) (by omega), crossed_ne _ (by omega) (by omega)]; omega
        rw [hu' u _ hu su, hv' v _ hv sv]
        simp only [wordLaw]
        rw [← mul_assoc, ← mul_assoc, mul_assoc _ (nodeLaw n j l), mul_assoc _ (nodeLaw n i k), node_far h hj]
    intro w w' hw hw'
    match w, w', hw, hw' with
    | [], [], _, _ => rfl
    | [], a :: v, hw, hw' => exact absurd (hw a.1 hw'.1) (by rw [hw'.2.1]; omega)
    | a :: u, [], hw, hw' => exact absurd (hw' a.1 hw.1) (by rw [hw.2.1]; omega)
    | a :: u, b :: v, hw, hw' =>
      rcases le_total a.1 b.1 with h | h
      · exact key a.1 a.2 b.1 b.2 u v h hw hw'
      · exact (key b.1 b.2 a.1 a.2 v u h hw' hw).symm

end Simphox
