import Verif.CascadeErrors
import Verif.NullifyStyleProps
import Verif.NullBasisProps

/-!
# Phases are determined by the matrix (C176)

Two settings of a tree that route the same vector to its last rail, and two settings of a cascade with the same transfer
matrix, are equal, as long as the internal phases of one of them lie strictly between 0 and π and the other phases are in
the range `vector_unit` and `cascade` return (`theta` in `[0, π]`, `phi` in `[0, 2π)`); so that programming a mesh with the
matrix read off a programmed mesh returns the same phases.
-/

namespace Simphox

open Matrix Complex

/-! ### One node -/

theorem ampB_sq_cos (e theta : ℝ) : ‖ampB e theta‖ ^ 2 = Real.cos (2 * e) ^ 2 * (1 + Real.cos theta) / 2 := by
  rw [norm_ampB_sq, ← four_cs_sq]; ring

theorem exp_I_injOn {x y : ℝ} (hx : 0 ≤ x ∧ x < 2 * Real.pi) (hy : 0 ≤ y ∧ y < 2 * Real.pi)
    (h : exp (I * x) = exp (I * y)) : x = y := by
  obtain ⟨n, hn⟩ := Complex.exp_eq_exp_iff_exists_int.1 h
  have h1 : x = y + n * (2 * Real.pi) := by
    have h2 : I * (x : ℂ) = I * ((y + n * (2 * Real.pi) : ℝ) : ℂ) := by rw [hn]; push_cast; ring
    exact_mod_cast mul_left_cancel₀ I_ne_zero h2
  have hp := Real.pi_pos
  have h2 : n = 0 := by
    have a1 : (n : ℝ) < 1 := by
      by_contra hc
      push Not at hc
      nlinarith [hx.2, hy.1]
    have a2 : (-1 : ℝ) < n := by
      by_contra hc
      push Not at hc
      nlinarith [hx.1, hy.2]
    have b1 : n < 1 := by exact_mod_cast a1
    have b2 : -1 < n := by exact_mod_cast a2
    omega
  rw [h1, h2]; simp

/-- Two settings that null the top output for the same nonzero inputs agree. -/
theorem node_phases_unique {style : PhaseStyle} (hs : style = .top ∨ style = .bottom) {e : ℝ} (he : Real.cos (2 * e) ≠ 0)
    {th ph th' ph' : ℝ} (hth : 0 ≤ th ∧ th ≤ Real.pi) (hth' : 0 ≤ th' ∧ th' ≤ Real.pi)
    (hph : 0 ≤ ph ∧ ph < 2 * Real.pi) (hph' : 0 ≤ ph' ∧ ph' < 2 * Real.pi) {t b : ℂ} (ht : t ≠ 0) (hb : b ≠ 0)
    (h : (mziElements style false e e 0 0 th ph).t11 * t + (mziElements style false e e 0 0 th ph).t21 * b = 0)
    (h' : (mziElements style false e e 0 0 th' ph').t11 * t + (mziElements style false e e 0 0 th' ph').t21 * b = 0) :
    th = th' ∧ ph = ph' := by
  have share : ∀ x y : ℝ, (mziElements style false e e 0 0 x y).t11 * t + (mziElements style false e e 0 0 x y).t21 * b = 0 →
      ‖ampB e x‖ ^ 2 * (‖t‖ ^ 2 + ‖b‖ ^ 2) = ‖t‖ ^ 2 ∧ ‖(mziElements style false e e 0 0 x y).t11‖ * ‖t‖ =
        ‖(mziElements style false e e 0 0 x y).t21‖ * ‖b‖ := by
    intro x y hxy
    have h1 : ‖(mziElements style false e e 0 0 x y).t11‖ * ‖t‖ = ‖(mziElements style false e e 0 0 x y).t21‖ * ‖b‖ := by
      rw [← norm_mul, ← norm_mul, eq_neg_of_add_eq_zero_left hxy, norm_neg]
    have h2 := (unitary2_rows (mziElements_unitary style false e e x y)).1
    have h3 : ‖(mziElements style false e e 0 0 x y).t11‖ ^ 2 + ‖(mziElements style false e e 0 0 x y).t21‖ ^ 2 = 1 := by
      rw [Complex.mul_conj', Complex.mul_conj'] at h2
      exact_mod_cast h2
    refine ⟨?_, h1⟩
    rw [← elements_norm_t21 hs e x y]
    have h4 : (‖(mziElements style false e e 0 0 x y).t11‖ * ‖t‖) ^ 2 = (‖(mziElements style false e e 0 0 x y).t21‖ * ‖b‖) ^ 2 := by
      rw [h1]
    nlinarith [h4, h3]
  obtain ⟨s1, n1⟩ := share _ _ h
  obtain ⟨s2, n2⟩ := share _ _ h'
  have hpos : 0 < ‖t‖ ^ 2 + ‖b‖ ^ 2 := by positivity
  have hth2 : th = th' := by
    have h1 : ‖ampB e th‖ ^ 2 = ‖ampB e th'‖ ^ 2 := mul_right_cancel₀ hpos.ne' (s1.trans s2.symm)
    rw [ampB_sq_cos, ampB_sq_cos] at h1
    have h2 : Real.cos (2 * e) ^ 2 ≠ 0 := pow_ne_zero _ he
    have h3 : Real.cos th = Real.cos th' := by
      have : Real.cos (2 * e) ^ 2 * (Real.cos th - Real.cos th') = 0 := by linarith
      have := (mul_eq_zero.1 this).resolve_left h2
      linarith
    exact Real.injOn_cos ⟨hth.1, hth.2⟩ ⟨hth'.1, hth'.2⟩ h3
  subst hth2
  refine ⟨rfl, ?_⟩
  -- both amplitudes are nonzero
  have hB : ‖ampB e th‖ ^ 2 ≠ 0 := by
    intro h0
    rw [h0, zero_mul] at s1
    exact pow_ne_zero 2 (norm_ne_zero_iff.2 ht) s1.symm
  have hexp : exp (I * ph) = exp (I * ph') := by
    rcases hs with rfl | rfl
    · have e1 : ∀ y : ℝ, (mziElements .top false e e 0 0 th y).t11 = ampA e th * exp (I * y) := by
        intro y; simp [mziElements, ampA]
      have e2 : ∀ y : ℝ, (mziElements .top false e e 0 0 th y).t21 = (mziElements .top false e e 0 0 th 0).t21 := by
        intro y; simp [mziElements]
      have hA : ampA e th ≠ 0 := by
        intro h0
        rw [e1, h0, zero_mul, zero_mul, zero_add] at h
        have := (mul_eq_zero.1 h).resolve_right hb
        rw [← norm_eq_zero, elements_norm_t21 (Or.inl rfl)] at this
        rw [this] at hB; simp at hB
      rw [e1, e2] at h h'
      have : ampA e th * t * (exp (I * ph) - exp (I * ph')) = 0 := by linear_combination h - h'
      have := (mul_eq_zero.1 this).resolve_left (mul_ne_zero hA ht)
      exact sub_eq_zero.1 this
    · have e1 : ∀ y : ℝ, (mziElements .bottom false e e 0 0 th y).t11 = (mziElements .bottom false e e 0 0 th 0).t11 := by
        intro y; simp [mziElements]
      have e2 : ∀ y : ℝ, (mziElements .bottom false e e 0 0 th y).t21 =
          (mziElements .bottom false e e 0 0 th 0).t21 * exp (I * y) := by
        intro y; simp [mziElements]
      have hB' : (mziElements .bottom false e e 0 0 th 0).t21 ≠ 0 := by
        intro h0
        rw [← norm_eq_zero, elements_norm_t21 (Or.inr rfl)] at h0
        rw [h0] at hB; simp at hB
      rw [e1, e2] at h h'
      have : (mziElements .bottom false e e 0 0 th 0).t21 * b * (exp (I * ph) - exp (I * ph')) = 0 := by
        linear_combination h - h'
      have := (mul_eq_zero.1 this).resolve_left (mul_ne_zero hB' hb)
      exact sub_eq_zero.1 this
  exact exp_I_injOn hph hph' hexp

/-- For `0 < theta < π` a node sends light from both inputs to its bottom output. -/
theorem bottom_row_ne_zero {style : PhaseStyle} (hs : style = .top ∨ style = .bottom) {e : ℝ} (he : Real.cos (2 * e) ≠ 0)
    {th ph : ℝ} (h0 : 0 < th) (h1 : th < Real.pi) :
    (mziElements style false e e 0 0 th ph).t12 ≠ 0 ∧ (mziElements style false e e 0 0 th ph).t22 ≠ 0 := by
  have hc1 : Real.cos th < 1 := by
    rw [← Real.cos_zero]
    exact Real.cos_lt_cos_of_nonneg_of_le_pi le_rfl h1.le h0
  have hc2 : -1 < Real.cos th := by
    rw [← Real.cos_pi]
    exact Real.cos_lt_cos_of_nonneg_of_le_pi h0.le le_rfl h1
  have hle : Real.cos (2 * e) ^ 2 ≤ 1 := by nlinarith [Real.sin_sq_add_cos_sq (2 * e), sq_nonneg (Real.sin (2 * e))]
  have hpos : 0 < Real.cos (2 * e) ^ 2 := by positivity
  obtain ⟨r1, r2, r3, r4⟩ := unitary2_rows (mziElements_unitary style false e e th ph)
  set m := mziElements style false e e 0 0 th ph with hm
  have hB : ‖m.t21‖ ^ 2 = Real.cos (2 * e) ^ 2 * (1 + Real.cos th) / 2 := by
    rw [hm, elements_norm_t21 hs, ampB_sq_cos]
  have h21 : m.t21 ≠ 0 := by
    intro h
    rw [h, norm_zero] at hB
    nlinarith
  have h11 : m.t11 ≠ 0 := by
    intro h
    rw [h, zero_mul, zero_add, Complex.mul_conj'] at r1
    have : ‖m.t21‖ ^ 2 = 1 := by exact_mod_cast r1
    nlinarith
  constructor
  · intro h
    rw [h, map_zero, mul_zero, zero_add] at r2
    have h22 : m.t22 = 0 := by
      have := (mul_eq_zero.1 r2).resolve_left h21
      simpa using this
    rw [h, h22] at r4
    simp at r4
  · intro h
    rw [h, map_zero, mul_zero, add_zero] at r2
    have h12 : m.t12 = 0 := by
      have := (mul_eq_zero.1 r2).resolve_left h11
      simpa using this
    rw [h, h12] at r4
    simp at r4

theorem unitary2_cols {m : Elements} (h : m.mat ∈ unitaryGroup (Fin 2) ℂ) :
    (starRingEnd ℂ) m.t11 * m.t11 + (starRingEnd ℂ) m.t12 * m.t12 = 1 ∧
    (starRingEnd ℂ) m.t11 * m.t21 + (starRingEnd ℂ) m.t12 * m.t22 = 0 ∧
    (starRingEnd ℂ) m.t21 * m.t11 + (starRingEnd ℂ) m.t22 * m.t12 = 0 ∧
    (starRingEnd ℂ) m.t21 * m.t21 + (starRingEnd ℂ) m.t22 * m.t22 = 1 := by
  rw [mem_unitaryGroup_iff'] at h
  have e := fun i j => congrFun (congrFun h i) j
  have e00 := e 0 0
  have e01 := e 0 1
  have e10 := e 1 0
  have e11 := e 1 1
  simp [Elements.mat, star_eq_conjTranspose, Matrix.mul_apply, Fin.sum_univ_two] at e00 e01 e10 e11
  exact ⟨e00, e01, e10, e11⟩

/-! ### A list of nodes -/

/-- The top rail of a node is not used by later nodes. -/
def DarkOrder (l : List Node) : Prop := l.Pairwise fun a b => b.top ≠ a.top ∧ b.bottom ≠ a.top

/-- Every node's bottom output is `z` or enters a later node on its top rail. -/
def Feeds (z : ℕ) : List Node → Prop
  | [] => True
  | a :: s => (a.bottom = z ∨ ∃ b ∈ s, b.top = a.bottom) ∧ Feeds z s

theorem feeds_of_cover {z : ℕ} : ∀ {l : List Node}, DarkOrder l → (∀ a ∈ l, a.top ≠ a.bottom) →
    (∀ a ∈ l, a.bottom = z ∨ ∃ b ∈ l, b.top = a.bottom) → Feeds z l
  | [], _, _, _ => trivial
  | a :: s, hd, ht, hc => by
    have hd' := List.pairwise_cons.1 hd
    refine ⟨?_, feeds_of_cover hd'.2 (fun x hx => ht x (by simp [hx])) ?_⟩
    · rcases hc a (by simp) with h | ⟨b, hb, h⟩
      · exact Or.inl h
      · rcases List.mem_cons.1 hb with rfl | hb
        · exact absurd h (ht _ (by simp))
        · exact Or.inr ⟨b, hb, h⟩
    · intro x hx
      rcases hc x (by simp [hx]) with h | ⟨b, hb, h⟩
      · exact Or.inl h
      · rcases List.mem_cons.1 hb with rfl | hb
        · exact absurd h.symm (hd'.1 x hx).2
        · exact Or.inr ⟨b, hb, h⟩

theorem top_after {el : ℕ → Elements} {a : Node} {s : List Node} (hd : DarkOrder (a :: s)) (v : ℕ → ℂ) :
    seqApply el (a :: s) v a.top = (el a.id).t11 * v a.top + (el a.id).t21 * v a.bottom := by
  rw [seqApply_cons, seqApply_other]
  · simp [nodeAct]
  · intro b hb
    have := (List.pairwise_cons.1 hd).1 b hb
    exact ⟨this.1.symm, this.2.symm⟩

/-- If all top outputs are dark and rail `z` is lit at the end, all rails that are still to be merged are lit. -/
theorem alive {el : ℕ → Elements} {z : ℕ} : ∀ {l : List Node}, DarkOrder l → Feeds z l → (∀ a ∈ l, a.top ≠ a.bottom ∧ a.top ≠ z) →
    (∀ a ∈ l, (el a.id).mat ∈ unitaryGroup (Fin 2) ℂ ∧ (el a.id).t12 ≠ 0 ∧ (el a.id).t22 ≠ 0) → ∀ v : ℕ → ℂ,
    (∀ a ∈ l, seqApply el l v a.top = 0) → seqApply el l v z ≠ 0 → v z ≠ 0 ∧ ∀ a ∈ l, v a.top ≠ 0
  | [], _, _, _, _, v, _, hz => ⟨hz, by simp⟩
  | a :: s, hd, hf, ht, hu, v, h0, hz => by
    have hd' := List.pairwise_cons.1 hd
    set v1 := nodeAct (el a.id) a.top a.bottom v with hv1
    have hrec := alive hd'.2 hf.2 (fun x hx => ht x (by simp [hx])) (fun x hx => hu x (by simp [hx])) v1
      (fun x hx => h0 x (by simp [hx])) hz
    have hta := ht a (by simp)
    obtain ⟨hua, h12, h22⟩ := hu a (by simp)
    have e1 : (el a.id).t11 * v a.top + (el a.id).t21 * v a.bottom = 0 := by
      rw [← top_after hd]; exact h0 a (by simp)
    have e2 : v1 a.bottom = (el a.id).t12 * v a.top + (el a.id).t22 * v a.bottom := by
      simp [hv1, nodeAct, hta.1.symm]
    have hb1 : v1 a.bottom ≠ 0 := by
      rcases hf.1 with h | ⟨b, hb, h⟩
      · rw [h]; exact hrec.1
      · rw [← h]; exact hrec.2 b hb
    obtain ⟨r1, r2, r3, r4⟩ := unitary2_rows hua
    have hc := unitary2_cols hua
    have f1 : v a.top = (starRingEnd ℂ) (el a.id).t12 * v1 a.bottom := by
      rw [e2]
      linear_combination (starRingEnd ℂ) (el a.id).t11 * e1 - v a.top * hc.1 - v a.bottom * hc.2.1
    have f2 : v a.bottom = (starRingEnd ℂ) (el a.id).t22 * v1 a.bottom := by
      rw [e2]
      linear_combination (starRingEnd ℂ) (el a.id).t21 * e1 - v a.top * hc.2.2.1 - v a.bottom * hc.2.2.2
    have g1 : v a.top ≠ 0 := by
      rw [f1]; exact mul_ne_zero (by simpa using h12) hb1
    have g2 : v a.bottom ≠ 0 := by
      rw [f2]; exact mul_ne_zero (by simpa using h22) hb1
    have other : ∀ r, r ≠ a.top → v1 r ≠ 0 → v r ≠ 0 := by
      intro r hr h
      by_cases hrb : r = a.bottom
      · rw [hrb]; exact g2
      · have : v1 r = v r := by simp [hv1, nodeAct, hr, hrb]
        rwa [← this]
    refine ⟨other z hta.2.symm hrec.1, ?_⟩
    intro x hx
    rcases List.mem_cons.1 hx with rfl | hx
    · exact g1
    · exact other _ (hd'.1 x hx).1 (hrec.2 x hx)

/-! ### Trees -/

theorem tree_darkOrder {n R : ℕ} (hn : 2 ≤ n) (b : Bool) : DarkOrder (executionOrder (tree n R b)) := by
  have h := executionOrder_ordered (tree_disjoint n R b)
  refine List.Pairwise.imp_of_mem ?_ h
  intro x y hx hy hxy
  have hx' := mem_executionOrder.1 hx
  have hy' := mem_executionOrder.1 hy
  rcases hxy with h | h
  · exact ⟨h.1.symm, h.2.1.symm⟩
  · exact tree_dark hn b x hx' y hy' h

theorem tree_feeds {n R : ℕ} (hn : 2 ≤ n) (b : Bool) : Feeds (n - 1) (executionOrder (tree n R b)) := by
  refine feeds_of_cover (tree_darkOrder hn b) ?_ ?_
  · intro a ha
    have := tree_rails hn b (mem_executionOrder.1 ha)
    omega
  · intro a ha
    have h1 := tree_rails hn b (mem_executionOrder.1 ha)
    by_cases h : a.bottom = n - 1
    · exact Or.inl h
    · right
      have : a.bottom ∈ (tree n R b).map Node.top := (tree_tops n R b).mem_iff.2 (List.mem_range.2 (by omega))
      obtain ⟨c, hc, he⟩ := List.mem_map.1 this
      exact ⟨c, mem_executionOrder.2 hc, he⟩

theorem Feeds.right {z : ℕ} : ∀ {l1 l2 : List Node}, Feeds z (l1 ++ l2) → Feeds z l2
  | [], _, h => h
  | _ :: _, _, h => Feeds.right h.2

theorem Feeds.mem {z : ℕ} : ∀ {l : List Node}, Feeds z l → ∀ a ∈ l, a.bottom = z ∨ ∃ b ∈ l, b.top = a.bottom
  | [], _, a, ha => by simp at ha
  | c :: s, h, a, ha => by
    rcases List.mem_cons.1 ha with rfl | ha
    · rcases h.1 with h | ⟨b, hb, h⟩
      · exact Or.inl h
      · exact Or.inr ⟨b, by simp [hb], h⟩
    · rcases Feeds.mem h.2 a ha with h | ⟨b, hb, h⟩
      · exact Or.inl h
      · exact Or.inr ⟨b, by simp [hb], h⟩

/-- The internal phases computed by `parallel_nullify` lie in `[0, π]`. -/
theorem nodePhases_theta_mem {style : PhaseStyle} (hs : style = .top ∨ style = .bottom) (eps e : ℝ) (c : ℕ) (w : ℕ → ℕ → ℂ)
    (a : Node) : 0 ≤ (nodePhases eps style e c w a).1 ∧ (nodePhases eps style e c w a).1 ≤ Real.pi := by
  rcases hs with rfl | rfl <;>
  · simp only [nodePhases, nullifyPhases, Option.getD_some, transmissivityToPhase]
    exact ⟨Real.arccos_nonneg _, Real.arccos_le_pi _⟩

/-- If the setting `P` routes column `c` of `v` to the last rail, the programming loop finds `P`. -/
theorem nullLoop_recovers {style : PhaseStyle} (hs : style = .top ∨ style = .bottom) {e : ℝ} (he : Real.cos (2 * e) ≠ 0)
    {m R : ℕ} (hm : 2 ≤ m) (balanced : Bool) (c : ℕ) (v : ℕ → ℕ → ℂ) (P : Params)
    (hth : ∀ k, k < m - 1 → 0 < P.thetas k ∧ P.thetas k < Real.pi)
    (hph : ∀ k, k < m - 1 → 0 ≤ P.phis k ∧ P.phis k < 2 * Real.pi)
    (hd : ∀ r, r + 1 < m → seqApply (programmedElements style e P) (executionOrder (tree m R balanced)) (fun r => v r c) r = 0)
    (hl : seqApply (programmedElements style e P) (executionOrder (tree m R balanced)) (fun r => v r c) (m - 1) ≠ 0) (K : ℕ) :
    ∀ st, nullLoop 0 style e c (tree m R balanced) (List.range K) ⟨v, fun _ => 0, fun _ => 0⟩ = some st →
      ∀ a ∈ tree m R balanced, a.column < K → st.thetas a.id = P.thetas a.id ∧ st.phis a.id = P.phis a.id := by
  have hid : ((tree m R balanced).map Node.id).Nodup := (tree_ids m R balanced).nodup_iff.2 List.nodup_range
  have L := laminar_tree (R := R) hm balanced
  have hidlt : ∀ a ∈ tree m R balanced, a.id < m - 1 := by
    intro a ha
    have : a.id ∈ (tree m R balanced).map Node.id := List.mem_map_of_mem ha
    rwa [(tree_ids m R balanced).mem_iff, List.mem_range] at this
  induction K with
  | zero => intro st _ a _ h; omega
  | succ K ih =>
    intro st hst
    rw [List.range_succ, nullLoop_append] at hst
    obtain ⟨st0, h0, h1⟩ := Option.bind_eq_some_iff.1 hst
    simp only [nullLoop, Option.bind_eq_bind, Option.bind_eq_some_iff, Option.some.injEq] at h1
    obtain ⟨st1, h1, rfl⟩ := h1
    have ih0 := ih st0 h0
    have hidk : ((columnNodes (tree m R balanced) K).map Node.id).Nodup :=
      List.Nodup.sublist (List.Sublist.map _ List.filter_sublist) hid
    obtain ⟨st1', h1', ho, hn, -⟩ := nullColumn_spec hs 0 e c (columnNodes (tree m R balanced) K) hidk st0
    rw [h1'] at h1
    obtain rfl := Option.some.inj h1
    intro a ha hK
    rcases Nat.lt_succ_iff_lt_or_eq.1 hK with hlt | heq
    · have := ho a.id (fun b hb hbe => by
        obtain ⟨hb', hbk⟩ := mem_columnNodes.1 hb
        have := List.inj_on_of_nodup_map hid hb' ha hbe
        subst this
        omega)
      rw [this.1, this.2]
      exact ih0 a ha hlt
    · have hac : a ∈ columnNodes (tree m R balanced) K := mem_columnNodes.2 ⟨ha, heq⟩
      obtain ⟨n1, n2⟩ := hn a hac
      -- the matrix so far is the one transformed by `P`
      obtain ⟨st0', g1, -, g3⟩ := nullLoop_spec hs 0 e c (tree m R balanced) hid (List.range K) List.nodup_range
        ⟨v, fun _ => 0, fun _ => 0⟩
      rw [h0] at g1
      obtain rfl := Option.some.inj g1
      have hw : ∀ r, st0.w r c = columnsApply (programmedElements style e P) (tree m R balanced) (List.range K)
          (fun r => v r c) r := by
        intro r
        have := congrFun (g3 c) r
        rw [this]
        refine congrFun (columnsApply_congr' _ ?_ _) r
        intro x hx hxc
        rw [List.mem_range] at hxc
        have := ih0 x hx hxc
        unfold storedElements programmedElements
        rw [this.1, this.2]
      -- the rest of the network
      have hKN : K < numColumns (tree m R balanced) := heq ▸ column_lt_numColumns ha
      have hsplit : executionOrder (tree m R balanced) = (List.range K).flatMap (columnNodes (tree m R balanced)) ++
          (List.range' K (numColumns (tree m R balanced) - K)).flatMap (columnNodes (tree m R balanced)) := by
        have : List.range (numColumns (tree m R balanced)) =
            List.range K ++ List.range' K (numColumns (tree m R balanced) - K) := by
          obtain ⟨d, hd'⟩ : ∃ d, numColumns (tree m R balanced) = K + d := ⟨_, (Nat.add_sub_of_le hKN.le).symm⟩
          rw [hd', Nat.add_sub_cancel_left, List.range_eq_range', List.range_eq_range', ← List.range'_append_1, Nat.zero_add]
        unfold executionOrder
        rw [this, List.flatMap_append]
      set suf := (List.range' K (numColumns (tree m R balanced) - K)).flatMap (columnNodes (tree m R balanced)) with hsuf
      have hD : DarkOrder suf := by
        have := tree_darkOrder (R := R) hm balanced
        rw [hsplit] at this
        exact (List.pairwise_append.1 this).2.1
      have hF : Feeds (m - 1) suf := by
        have := tree_feeds (R := R) hm balanced
        rw [hsplit] at this
        exact this.right
      have hmem : ∀ x ∈ suf, x ∈ tree m R balanced := by
        intro x hx
        exact mem_executionOrder.1 (by rw [hsplit]; exact List.mem_append_right _ hx)
      have hasuf : a ∈ suf := by
        rw [hsuf, List.mem_flatMap]
        exact ⟨K, by rw [List.mem_range'_1]; omega, hac⟩
      have hseq : seqApply (programmedElements style e P) (executionOrder (tree m R balanced)) (fun r => v r c) =
          seqApply (programmedElements style e P) suf (fun r => st0.w r c) := by
        have : (fun r => st0.w r c) = seqApply (programmedElements style e P)
            ((List.range K).flatMap (columnNodes (tree m R balanced))) (fun r => v r c) := by
          rw [← columnsApply_eq_seq (fun k => tree_goodColumn hm balanced k)]
          exact funext hw
        rw [hsplit, seqApply_append, this]
      have hal := alive (el := programmedElements style e P) hD hF (fun x hx => by
          have := tree_rails hm balanced (hmem x hx)
          omega) (fun x hx => by
          have hx' := hidlt x (hmem x hx)
          have := bottom_row_ne_zero hs he (ph := P.phis x.id) (hth _ hx').1 (hth _ hx').2
          exact ⟨mziElements_unitary _ _ _ _ _ _, this.1, this.2⟩) (fun r => st0.w r c) (fun x hx => by
          rw [← hseq]
          have := tree_rails hm balanced (hmem x hx)
          exact hd _ (by omega)) (by rw [← hseq]; exact hl)
      have ht : st0.w a.top c ≠ 0 := hal.2 a hasuf
      have hb : st0.w a.bottom c ≠ 0 := by
        rcases hF.mem a hasuf with h | ⟨b, hb, h⟩
        · rw [h]; exact hal.1
        · rw [← h]; exact hal.2 b hb
      -- `P` nulls the top output
      have hP : (programmedElements style e P a.id).t11 * st0.w a.top c + (programmedElements style e P a.id).t21 * st0.w a.bottom c = 0 := by
        have hr := tree_rails hm balanced ha
        have h2 := hd a.top (by omega)
        have h3 : seqApply (programmedElements style e P) (executionOrder (tree m R balanced)) (fun r => v r c) =
            columnsApply (programmedElements style e P) (tree m R balanced) (List.range (numColumns (tree m R balanced)))
              (fun r => v r c) := by
          rw [columnsApply_eq_seq (fun k => tree_goodColumn hm balanced k)]; rfl
        rw [h3, columnsApply_top_after L _ ha (column_lt_numColumns ha), columnsApply_top_at L _ ha, heq] at h2
        rw [hw, hw]
        exact h2
      have hs' : style ≠ .symmetric := by rcases hs with rfl | rfl <;> simp
      have hreach : directTransmissivity 0 (st0.w a.top c) (st0.w a.bottom c) ≤ Real.cos (2 * e) ^ 2 := by
        have := nulled_share hs _ _ _ _ _ hP
        unfold directTransmissivity
        rw [add_zero]
        exact div_le_of_le_mul₀ (by positivity) (by positivity) this
      have hres := nullify_residual style hs le_rfl e he _ _ hreach (nodePhases_some hs' 0 e c st0.w a)
      rw [Real.sqrt_zero] at hres
      have hres' := norm_le_zero_iff.1 hres
      rw [← mziElements_modTwoPi style hs] at hres'
      have := node_phases_unique hs he (nodePhases_theta_mem hs 0 e c st0.w a)
        ⟨(hth _ (hidlt a ha)).1.le, (hth _ (hidlt a ha)).2.le⟩ (modTwoPi_mem _) (hph _ (hidlt a ha)) ht hb hres' hP
      rw [n1, n2]
      exact this

theorem programVectorUnit_recovers {style : PhaseStyle} (hs : style = .top ∨ style = .bottom) {e : ℝ} (he : Real.cos (2 * e) ≠ 0)
    {m R : ℕ} (hm : 2 ≤ m) (balanced : Bool) (c : ℕ) (v : ℕ → ℕ → ℂ) (P : Params)
    (hth : ∀ k, k < m - 1 → 0 < P.thetas k ∧ P.thetas k < Real.pi)
    (hph : ∀ k, k < m - 1 → 0 ≤ P.phis k ∧ P.phis k < 2 * Real.pi)
    (hd : ∀ r, r + 1 < m → seqApply (programmedElements style e P) (executionOrder (tree m R balanced)) (fun r => v r c) r = 0)
    (hl : seqApply (programmedElements style e P) (executionOrder (tree m R balanced)) (fun r => v r c) (m - 1) ≠ 0)
    {P' : Params} {w : ℕ → ℕ → ℂ} (h : programVectorUnit 0 style e m c (tree m R balanced) v = some (P', w)) :
    ∀ k, k < m - 1 → P'.thetas k = P.thetas k ∧ P'.phis k = P.phis k := by
  simp only [programVectorUnit, Option.bind_eq_bind, Option.bind_eq_some_iff, Option.some.injEq, Prod.mk.injEq] at h
  obtain ⟨st, h1, rfl, -⟩ := h
  intro k hk
  have : k ∈ (tree m R balanced).map Node.id := (tree_ids m R balanced).mem_iff.2 (List.mem_range.2 hk)
  obtain ⟨a, ha, rfl⟩ := List.mem_map.1 this
  exact nullLoop_recovers hs he hm balanced c v P hth hph hd hl _ st h1 a ha (column_lt_numColumns ha)

/-! ### The loop of `cascade` -/

/-- If the setting `Q` makes the matrix lower triangular with a lit diagonal, the loop of `cascade` finds `Q`. -/
theorem cascadeLoop_recovers {style : PhaseStyle} (hs : style = .top ∨ style = .bottom) {e : ℝ} (he : Real.cos (2 * e) ≠ 0)
    (n : ℕ) (b : Bool) (Q : Params) : ∀ (k : ℕ) (st f : CascadeState), st.thetas.length = st.numNodes →
      st.phis.length = st.numNodes →
      (∀ i, st.numNodes ≤ i → i < st.numNodes + tri k → 0 < Q.thetas i ∧ Q.thetas i < Real.pi) →
      (∀ i, st.numNodes ≤ i → i < st.numNodes + tri k → 0 ≤ Q.phis i ∧ Q.phis i < 2 * Real.pi) →
      (∀ c, 1 ≤ c → c ≤ k → ∀ r, r < c → seqApply (programmedElements style e Q)
        (execParts n b k st.numNodes st.numColumns) (fun r => st.w r c) r = 0) →
      (∀ c, 1 ≤ c → c ≤ k → seqApply (programmedElements style e Q)
        (execParts n b k st.numNodes st.numColumns) (fun r => st.w r c) c ≠ 0) →
      cascadeLoop 0 style e n b (downTo k) st = some f →
      ∀ i, st.numNodes ≤ i → i < st.numNodes + tri k → f.thetas.getD i 0 = Q.thetas i ∧ f.phis.getD i 0 = Q.phis i := by
  intro k
  induction k with
  | zero => intro st f _ _ _ _ _ _ _ i h1 h2; simp [tri] at h2; omega
  | succ k ih =>
    intro st f l1 l2 hth hph hd hl hf
    rw [downTo_succ] at hf
    simp only [cascadeLoop, Option.bind_eq_bind, Option.bind_eq_some_iff] at hf
    obtain ⟨s1, hs1, hf⟩ := hf
    obtain ⟨P, w, hp, hpw, -⟩ := programVectorUnit_struct hs 0 e (k + 1 + 1) n (k + 1) (by omega) b st.w
    simp only [cascadeStep, hp, Option.bind_eq_bind, Option.bind_some, Option.some.injEq] at hs1
    have hN : s1.numNodes = st.numNodes + (k + 1) := by rw [← hs1]; simp [tree_length]
    have hC : s1.numColumns = st.numColumns + numColumns (tree (k + 2) n b) := by rw [← hs1]
    have hl1 : s1.thetas.length = s1.numNodes := by rw [← hs1]; simp [l1, tree_length]
    have hl2 : s1.phis.length = s1.numNodes := by rw [← hs1]; simp [l2, tree_length]
    have hw1 : s1.w = w := by rw [← hs1]
    have ht1 : s1.thetas = st.thetas ++ (List.range (k + 1)).map P.thetas := by rw [← hs1]
    have hp1 : s1.phis = st.phis ++ (List.range (k + 1)).map P.phis := by rw [← hs1]
    set Q' : Params := ⟨fun i => Q.thetas (i + st.numNodes), fun i => Q.phis (i + st.numNodes), Q.gammas⟩ with hQ'
    have hshift : ∀ x : ℕ → ℂ, seqApply (programmedElements style e Q)
        ((executionOrder (tree (k + 2) n b)).map (shiftNode st.numNodes (colOffset n (k + 1) b st.numColumns))) x =
        seqApply (programmedElements style e Q') (executionOrder (tree (k + 2) n b)) x := by
      intro x
      exact seqApply_shift _ _ _ _ _ (fun a _ => rfl) x
    have hall : ∀ x : ℕ → ℂ, seqApply (programmedElements style e Q) (execParts n b (k + 1) st.numNodes st.numColumns) x =
        seqApply (programmedElements style e Q) (execParts n b k s1.numNodes s1.numColumns)
          (seqApply (programmedElements style e Q') (executionOrder (tree (k + 2) n b)) x) := by
      intro x
      rw [execParts, seqApply_append, hshift, hN, hC]
    have hrails : ∀ a ∈ execParts n b k s1.numNodes s1.numColumns, a.top < a.bottom ∧ a.bottom ≤ k := fun a ha =>
      parts_rails ((execParts_perm n b k _ _).mem_iff.1 ha)
    have htri : tri (k + 1) = tri k + (k + 1) := rfl
    -- column `k + 1` is routed by its own subunit
    have hdark : ∀ r, r + 1 < k + 1 + 1 → seqApply (programmedElements style e Q') (executionOrder (tree (k + 2) n b))
        (fun r => st.w r (k + 1)) r = 0 := by
      have hpow := seqApply_power (programmedElements style e Q) (execParts n b k s1.numNodes s1.numColumns) (k + 1)
          (fun a ha => by have := hrails a ha; omega)
          (fun a _ => mziElements_unitary _ _ _ _ _ _)
          (seqApply (programmedElements style e Q') (executionOrder (tree (k + 2) n b)) (fun r => st.w r (k + 1)))
      rw [← hall] at hpow
      have hz : ∑ r : Fin (k + 1), ‖seqApply (programmedElements style e Q)
          (execParts n b (k + 1) st.numNodes st.numColumns) (fun r => st.w r (k + 1)) r.val‖ ^ 2 = 0 := by
        apply Finset.sum_eq_zero
        intro r _
        rw [hd (k + 1) (by omega) le_rfl r.val r.isLt]
        simp
      rw [hz] at hpow
      intro r hr
      have := (Finset.sum_eq_zero_iff_of_nonneg fun _ _ => sq_nonneg _).1 hpow.symm ⟨r, by omega⟩ (Finset.mem_univ _)
      simpa using this
    have hlit : seqApply (programmedElements style e Q') (executionOrder (tree (k + 2) n b))
        (fun r => st.w r (k + 1)) (k + 1 + 1 - 1) ≠ 0 := by
      have := hl (k + 1) (by omega) le_rfl
      rw [hall, seqApply_other] at this
      · exact this
      · intro a ha
        have := hrails a ha
        omega
    have hrec := programVectorUnit_recovers hs he (R := n) (show 2 ≤ k + 1 + 1 by omega) b (k + 1) st.w Q'
      (fun i hi => hth _ (by omega) (by omega)) (fun i hi => hph _ (by omega) (by omega)) hdark hlit hp
    have hw : ∀ j, (fun r => s1.w r j) = seqApply (programmedElements style e Q') (executionOrder (tree (k + 2) n b))
        (fun r => st.w r j) := by
      intro j
      rw [hw1, hpw j]
      refine seqApply_congr _ ?_ _
      intro a ha
      have : a.id ∈ (tree (k + 2) n b).map Node.id := List.mem_map_of_mem (mem_executionOrder.1 ha)
      rw [(tree_ids (k + 2) n b).mem_iff, List.mem_range] at this
      obtain ⟨q1, q2⟩ := hrec a.id this
      unfold programmedElements
      rw [q1, q2]
    intro i hi1 hi2
    rcases Nat.lt_or_ge i (st.numNodes + (k + 1)) with hlt | hge
    · obtain ⟨j, rfl⟩ : ∃ j, i = j + st.numNodes := ⟨i - st.numNodes, by omega⟩
      obtain ⟨x, th, ph, -, hx, -, e3, -, e5, -⟩ := cascadeLoop_struct hs 0 e n b k s1 hl1 hl2
      rw [hf] at hx
      obtain rfl := Option.some.inj hx
      obtain ⟨q1, q2⟩ := hrec j (by omega)
      constructor
      · rw [e3, ht1]
        conv_lhs => rw [← l1]
        rw [getD_mid _ _ _ _ (by omega), q1]
      · rw [e5, hp1]
        conv_lhs => rw [← l2]
        rw [getD_mid _ _ _ _ (by omega), q2]
    · refine ih s1 f hl1 hl2 ?_ ?_ ?_ ?_ hf i (by omega) (by omega)
      · intro j h1 h2; exact hth j (by omega) (by omega)
      · intro j h1 h2; exact hph j (by omega) (by omega)
      · intro c h1 h2 r hr
        rw [hw, ← hall]
        exact hd c h1 (by omega) r hr
      · intro c h1 h2
        rw [hw, ← hall]
        exact hl c h1 (by omega)

/-! ### C176 -/

/-- Specification: the phases of the given nodes are in the open range in which they act differently: `theta` strictly
between 0 and `π` (neither bar nor cross state), `phi` in `[0, 2π)`. -/
def GenericPhases (nodes : List Node) (P : Params) : Prop :=
  ∀ a ∈ nodes, (0 < P.thetas a.id ∧ P.thetas a.id < Real.pi) ∧ (0 ≤ P.phis a.id ∧ P.phis a.id < 2 * Real.pi)

/-- C176: for every vector `v ≠ 0`, both layouts, styles TOP and BOTTOM and every common splitting error that is not fully
unbalanced: if a setting with generic phases makes the mesh of the unit send all of `v` to the last rail, then
`vector_unit(v)` returns exactly the phases of that setting. -/
theorem C176_vector_unit_recovers (style : PhaseStyle) (hs : style = .top ∨ style = .bottom) (e : ℝ)
    (he : Real.cos (2 * e) ≠ 0) (n : ℕ) (hn : 2 ≤ n) (balanced : Bool) (v : ℕ → ℂ) (hv : restrict n v ≠ 0) (P : Params)
    (hP : GenericPhases (tree n n balanced) P)
    (hd : ∀ r : Fin n, r.val + 1 < n →
      (((errorMesh (tree n n balanced) e style).matrix n P false).mulVec (restrict n v)) r = 0) :
    ∃ P' w, vectorUnit 0 style e n balanced v = some (errorMesh (tree n n balanced) e style, P', w) ∧
      ∀ a ∈ tree n n balanced, P'.thetas a.id = P.thetas a.id ∧ P'.phis a.id = P.phis a.id := by
  have hwf : (errorMesh (tree n n balanced) e style).WellFormed n := by
    rw [errorMesh_eq]
    exact errMesh_wellFormed hn balanced _ (by simp) style
  have hids : ∀ k, k < n - 1 → ∃ a ∈ tree n n balanced, a.id = k := by
    intro k hk
    have : k ∈ (tree n n balanced).map Node.id := (tree_ids n n balanced).mem_iff.2 (List.mem_range.2 hk)
    exact List.mem_map.1 this
  have hout : ∀ r : Fin n, ((errorMesh (tree n n balanced) e style).matrix n P false).mulVec (restrict n v) r =
      exp (I * P.gammas r.val) * seqApply (programmedElements style e P) (executionOrder (tree n n balanced)) v r.val := by
    intro r
    rw [Mesh.matrix_mulVec hwf]
    simp only [Mesh.apply, Bool.false_eq_true, if_false]
    rw [columnsApply_eq_seq hwf.goodColumn]
    have h2 : (columnOrder (errorMesh (tree n n balanced) e style).nodes false).flatMap
      (columnNodes (errorMesh (tree n n balanced) e style).nodes) = executionOrder (tree n n balanced) := rfl
    rw [h2, seqApply_congr (el' := programmedElements style e P)]
    · simp only [restrict, gammaApply]
    · intro a ha
      exact errorMesh_elements _ _ _ _ (hwf.ids a (mem_executionOrder.1 ha))
  have hd' : ∀ r, r + 1 < n → seqApply (programmedElements style e P) (executionOrder (tree n n balanced)) v r = 0 := by
    intro r hr
    have := hd ⟨r, by omega⟩ hr
    rw [hout] at this
    exact (mul_eq_zero.1 this).resolve_left (exp_ne_zero _)
  obtain ⟨P', w, hp, -, -⟩ := programVectorUnit_struct hs 0 e n n 0 hn balanced (fun r _ => v r)
  refine ⟨P', fun r => w r 0, by simp [vectorUnit, hp], ?_⟩
  intro a ha
  refine programVectorUnit_recovers hs he hn balanced 0 (fun r _ => v r) P ?_ ?_ hd' ?_ hp a.id (tree_id_lt ha)
  · intro k hk
    obtain ⟨a, ha, rfl⟩ := hids k hk
    exact (hP a ha).1
  · intro k hk
    obtain ⟨a, ha, rfl⟩ := hids k hk
    exact (hP a ha).2
  · intro h0
    apply hv
    have hpow := seqApply_power (programmedElements style e P) (executionOrder (tree n n balanced)) n
      (fun a ha => by have := tree_rails hn balanced (mem_executionOrder.1 ha); omega)
      (fun a _ => mziElements_unitary _ _ _ _ _ _) v
    have hz : ∀ r : Fin n, seqApply (programmedElements style e P) (executionOrder (tree n n balanced)) v r.val = 0 := by
      intro r
      rcases Nat.lt_or_ge (r.val + 1) n with h | h
      · exact hd' _ h
      · have : r.val = n - 1 := by omega
        rw [this]; exact h0
    simp only [hz, norm_zero] at hpow
    have h1 := (Finset.sum_eq_zero_iff_of_nonneg fun _ _ => sq_nonneg _).1 (hpow.symm.trans (by simp))
    funext r
    have := h1 r (Finset.mem_univ _)
    simpa [restrict] using this

/-- The mesh returned by `cascade` does not depend on the matrix. -/
theorem cascade_mesh {e : ℝ} {n : ℕ} (hn : 2 ≤ n) {b : Bool} {u : Matrix (Fin n) (Fin n) ℂ} {M : Mesh} {P : Params}
    (h : cascade 0 .top e n b u = some (M, P)) : M = errorMesh (parts n b (n - 1) 0 0) e .top := by
  obtain ⟨st, -, -, -, h1, -⟩ := cascadeLoop_struct (Or.inl rfl) 0 e n b (n - 1)
    ⟨[], [], [], [], 0, 0, fun r c => if h : r < n ∧ c < n then (starRingEnd ℂ) (u ⟨c, h.2⟩ ⟨r, h.1⟩) else 0⟩ rfl rfl
  obtain ⟨P', h2, -⟩ := cascade_err_matrix e n hn b u h1
  rw [h] at h2
  exact congrArg Prod.fst (Option.some.inj h2)

/-- C176: let `M` be the mesh `cascade` builds for `n` rails (it is the same for all matrices). For every setting `P` of it
with generic phases, programming the matrix of `M` under `P` gives `M` again with exactly the phases `P` at all nodes and
the same output phases (as phase factors; as numbers if they are in `[-π, π)`). Any common error with `cos 2e ≠ 0`, both
layouts. -/
theorem C176_cascade_recovers (e : ℝ) (he : Real.cos (2 * e) ≠ 0) (n : ℕ) (hn : 2 ≤ n) (balanced : Bool)
    (u0 : Matrix (Fin n) (Fin n) ℂ) (M : Mesh) (P0 : Params) (h0 : cascade 0 .top e n balanced u0 = some (M, P0))
    (P : Params) (hP : GenericPhases M.nodes P) :
    ∃ P', cascade 0 .top e n balanced (M.matrix n P false) = some (M, P') ∧
      (∀ a ∈ M.nodes, P'.thetas a.id = P.thetas a.id ∧ P'.phis a.id = P.phis a.id) ∧
      ∀ r, r < n → exp (I * P'.gammas r) = exp (I * P.gammas r) ∧
        (-Real.pi ≤ P.gammas r → P.gammas r < Real.pi → P'.gammas r = P.gammas r) := by
  obtain rfl := cascade_mesh hn h0
  set M := errorMesh (parts n balanced (n - 1) 0 0) e .top with hM
  obtain ⟨st, th, ph, g, h1, -⟩ := cascadeLoop_struct (Or.inl rfl) 0 e n balanced (n - 1)
    ⟨[], [], [], [], 0, 0, fun r c => if h : r < n ∧ c < n then
      (starRingEnd ℂ) ((M.matrix n P false) ⟨c, h.2⟩ ⟨r, h.1⟩) else 0⟩ rfl rfl
  obtain ⟨P', c1, c2, hwf, c4, c5⟩ := cascade_err_matrix e n hn balanced (M.matrix n P false) h1
  rw [← hM] at c1 hwf c5
  have hunit := C06_lossless_unitary n M hwf (errorMesh_lossless _ _ _) P false
  have huu : M.matrix n P false * (M.matrix n P false)ᴴ = 1 := by
    have := mem_unitaryGroup_iff.1 hunit
    rwa [star_eq_conjTranspose] at this
  -- under `P` the columns of the conjugate transpose go to one rail each
  have hseq : ∀ c r : Fin n, seqApply (programmedElements .top e P) (execParts n balanced (n - 1) 0 0)
      (fun r => if h : r < n ∧ c.val < n then (starRingEnd ℂ) ((M.matrix n P false) ⟨c.val, h.2⟩ ⟨r, h.1⟩) else 0) r.val =
      exp (-(I * P.gammas r.val)) * (1 : Matrix (Fin n) (Fin n) ℂ) r c := by
    intro c r
    have k1 : (M.matrix n P false * (M.matrix n P false)ᴴ) r c =
      (M.matrix n P false).mulVec (((M.matrix n P false)ᴴ).col c) r := rfl
    rw [huu, ← cascade_w0_col, Mesh.matrix_mulVec hwf] at k1
    simp only [Mesh.apply, Bool.false_eq_true, if_false] at k1
    rw [columnsApply_eq_seq hwf.goodColumn] at k1
    have k2 : (columnOrder M.nodes false).flatMap (columnNodes M.nodes) =
      executionOrder (parts n balanced (n - 1) 0 0) := rfl
    rw [k2, seqApply_parts _ n balanced (n - 1) 0 0 (by omega),
      seqApply_congr (el' := programmedElements .top e P)] at k1
    · rw [k1]
      simp only [restrict, gammaApply]
      rw [← mul_assoc, ← Complex.exp_add, neg_add_cancel, Complex.exp_zero, one_mul]
    · intro a ha
      have ha' := (execParts_perm n balanced (n - 1) 0 0).mem_iff.1 ha
      exact errorMesh_elements _ _ _ _ (hwf.ids a ha')
  have hidm : ∀ i, i < tri (n - 1) → ∃ a ∈ M.nodes, a.id = i := by
    intro i hi
    have : i ∈ (parts n balanced (n - 1) 0 0).map Node.id := (parts_ids n balanced (n - 1) 0 0).mem_iff.2
      (List.mem_range'_1.2 (by omega))
    exact List.mem_map.1 this
  have hrec := cascadeLoop_recovers (Or.inl rfl) he n balanced P (n - 1) _ st rfl rfl
    (fun i _ hi => by
      obtain ⟨a, ha, rfl⟩ := hidm i (by simpa using hi)
      exact (hP a ha).1)
    (fun i _ hi => by
      obtain ⟨a, ha, rfl⟩ := hidm i (by simpa using hi)
      exact (hP a ha).2)
    (fun c hc1 hc2 r hr => by
      have := hseq ⟨c, by omega⟩ ⟨r, by omega⟩
      rw [Matrix.one_apply_ne (by simp [Fin.ext_iff]; omega), mul_zero] at this
      exact this)
    (fun c hc1 hc2 => by
      have := hseq ⟨c, by omega⟩ ⟨c, by omega⟩
      rw [Matrix.one_apply_eq, mul_one] at this
      intro h
      exact exp_ne_zero _ (this.symm.trans h)) h1
  have hph' : ∀ k, P'.phis k = st.phis.getD k 0 := by
    intro k
    have : cascade 0 .top e n balanced (M.matrix n P false) = some (M, P') := c1
    simp only [cascade, Option.bind_eq_bind] at this
    rw [← downTo, h1] at this
    simp only [Option.bind_some, Option.some.injEq, Prod.mk.injEq] at this
    rw [← this.2]
  have hnodes : ∀ a ∈ M.nodes, P'.thetas a.id = P.thetas a.id ∧ P'.phis a.id = P.phis a.id := by
    intro a ha
    have hi : a.id < tri (n - 1) := by
      have : a.id ∈ (parts n balanced (n - 1) 0 0).map Node.id := List.mem_map_of_mem ha
      rw [(parts_ids n balanced (n - 1) 0 0).mem_iff, List.mem_range'_1] at this
      omega
    have := hrec a.id (Nat.zero_le _) (by simpa using hi)
    rw [c2, hph']
    exact this
  refine ⟨P', c1, hnodes, ?_⟩
  intro r hr
  -- the diagonal of the final matrix
  have hdiag : st.w r r = exp (-(I * P.gammas r)) := by
    obtain ⟨x, _, _, _, hx, -, -, -, -, -, -, -, -, e10⟩ := cascadeLoop_struct (Or.inl rfl) 0 e n balanced (n - 1)
      ⟨[], [], [], [], 0, 0, fun r c => if h : r < n ∧ c < n then
        (starRingEnd ℂ) ((M.matrix n P false) ⟨c, h.2⟩ ⟨r, h.1⟩) else 0⟩ rfl rfl
    rw [h1] at hx
    obtain rfl := Option.some.inj hx
    have k1 := congrFun (e10 r) r
    have k2 := hseq ⟨r, hr⟩ ⟨r, hr⟩
    rw [Matrix.one_apply_eq, mul_one] at k2
    rw [← k2]
    refine k1.trans (congrFun (seqApply_congr _ ?_ _) r)
    intro a ha
    have ha' : a ∈ M.nodes := (execParts_perm n balanced (n - 1) 0 0).mem_iff.1 ha
    obtain ⟨q1, q2⟩ := hnodes a ha'
    rw [c2] at q1
    rw [hph'] at q2
    unfold listElementsErr programmedElements
    rw [q1, q2]
  have hg : P'.gammas r = -arg (exp (-(I * P.gammas r))) := by rw [c4 r hr, hdiag]
  constructor
  · have h2 := exp_neg_arg_mul (exp (-(I * P.gammas r)))
    have h3 : ‖exp (-(I * (P.gammas r : ℂ)))‖ = 1 := by
      rw [show -(I * (P.gammas r : ℂ)) = ((-P.gammas r : ℝ) : ℂ) * I by push_cast; ring]
      exact norm_exp_ofReal_mul_I _
    rw [h3, ← hg] at h2
    have h4 : exp (I * P'.gammas r) * exp (-(I * P.gammas r)) * exp (I * P.gammas r) = exp (I * P.gammas r) := by
      rw [h2]; simp
    rwa [mul_assoc, ← Complex.exp_add, neg_add_cancel, Complex.exp_zero, mul_one] at h4
  · intro b1 b2
    have : arg (exp (-(I * (P.gammas r : ℂ)))) = -P.gammas r := by
      rw [show -(I * (P.gammas r : ℂ)) = ((-P.gammas r : ℝ) : ℂ) * I by push_cast; ring, Complex.arg_exp_mul_I]
      rw [toIocMod_eq_self]
      constructor <;> [linarith; (have := Real.pi_pos; linarith)]
    rw [hg, this, neg_neg]

/-- C176: two settings with generic phases under which the mesh of `cascade` has the same transfer matrix are the same:
every `theta` and every `phi` is equal, and the output phases are equal as phase factors. -/
theorem C176_identifiable (e : ℝ) (he : Real.cos (2 * e) ≠ 0) (n : ℕ) (hn : 2 ≤ n) (balanced : Bool)
    (u0 : Matrix (Fin n) (Fin n) ℂ) (M : Mesh) (P0 : Params) (h0 : cascade 0 .top e n balanced u0 = some (M, P0))
    (P Q : Params) (hP : GenericPhases M.nodes P) (hQ : GenericPhases M.nodes Q)
    (h : M.matrix n P false = M.matrix n Q false) :
    (∀ a ∈ M.nodes, P.thetas a.id = Q.thetas a.id ∧ P.phis a.id = Q.phis a.id) ∧
      ∀ r, r < n → exp (I * P.gammas r) = exp (I * Q.gammas r) := by
  obtain ⟨P', h1, h2, h3⟩ := C176_cascade_recovers e he n hn balanced u0 M P0 h0 P hP
  obtain ⟨Q', k1, k2, k3⟩ := C176_cascade_recovers e he n hn balanced u0 M P0 h0 Q hQ
  rw [h, k1] at h1
  have : Q' = P' := (Prod.mk.injEq _ _ _ _ ▸ Option.some.inj h1).2
  subst this
  refine ⟨fun a ha => ?_, fun r hr => ?_⟩
  · exact ⟨(h2 a ha).1.symm.trans (k2 a ha).1, (h2 a ha).2.symm.trans (k2 a ha).2⟩
  · exact (h3 r hr).1.symm.trans (k3 r hr).1

/-- The open range is needed: at `theta = π` (bar state) the external phase of a node of a two-rail cascade can be traded for
an output phase, so that two settings with the same matrix differ. -/
theorem C176_bar_state_ambiguous : ∃ (M : Mesh) (P0 P Q : Params), cascade 0 .top 0 2 false 1 = some (M, P0) ∧
    M.matrix 2 P false = M.matrix 2 Q false ∧ (∀ a ∈ M.nodes, P.thetas a.id = Real.pi ∧ Q.thetas a.id = Real.pi) ∧
    (∃ a ∈ M.nodes, P.phis a.id ≠ Q.phis a.id) := by
  obtain ⟨st, -, -, -, h1, -⟩ := cascadeLoop_struct (Or.inl rfl) 0 0 2 false (2 - 1)
    ⟨[], [], [], [], 0, 0, fun r c => if h : r < 2 ∧ c < 2 then
      (starRingEnd ℂ) ((1 : Matrix (Fin 2) (Fin 2) ℂ) ⟨c, h.2⟩ ⟨r, h.1⟩) else 0⟩ rfl rfl
  obtain ⟨P0, h2, -⟩ := cascade_err_matrix 0 2 le_rfl false 1 h1
  have hparts : parts 2 false (2 - 1) 0 0 = [⟨0, 0, 1, 2, 1, 1, 0⟩] := by decide +kernel
  rw [hparts] at h2
  refine ⟨_, P0, ⟨fun _ => Real.pi, fun _ => 0, fun _ => 0⟩,
    ⟨fun _ => Real.pi, fun _ => Real.pi, fun r => if r = 0 then Real.pi else 0⟩, h2, ?_, ?_, ?_⟩
  · rw [matrix_two, matrix_two]
    obtain ⟨k1, k2, k3, k4⟩ := terms_half
    have hpi : exp (I * Real.pi) = -1 := by rw [mul_comm, exp_pi_mul_I]
    ext i j
    rw [diagonal_mul, diagonal_mul]
    fin_cases i <;> fin_cases j <;>
    simp [mziElements, Elements.mat, k1, k2, k3, k4, hpi]
  · intro a _; exact ⟨rfl, rfl⟩
  · exact ⟨⟨0, 0, 1, 2, 1, 1, 0⟩, by simp [errorMesh], Real.pi_pos.ne⟩

/-- The hypotheses can be met: on three rails, both layouts, all phases `π / 2`; and the matrix programmed back is a
genuine three-rail unitary. -/
example (balanced : Bool) : ∃ (M : Mesh) (P0 : Params), cascade 0 .top (Real.pi / 20) 3 balanced 1 = some (M, P0) ∧
    GenericPhases M.nodes ⟨fun _ => Real.pi / 2, fun _ => Real.pi / 2, fun _ => 1⟩ ∧ M.nodes.length = 3 ∧
    Real.cos (2 * (Real.pi / 20)) ≠ 0 := by
  obtain ⟨st, -, -, -, h1, -⟩ := cascadeLoop_struct (Or.inl rfl) 0 (Real.pi / 20) 3 balanced (3 - 1)
    ⟨[], [], [], [], 0, 0, fun r c => if h : r < 3 ∧ c < 3 then
      (starRingEnd ℂ) ((1 : Matrix (Fin 3) (Fin 3) ℂ) ⟨c, h.2⟩ ⟨r, h.1⟩) else 0⟩ rfl rfl
  obtain ⟨P0, h2, -⟩ := cascade_err_matrix (Real.pi / 20) 3 (by omega) balanced 1 h1
  have hp := Real.pi_pos
  refine ⟨_, P0, h2, ?_, by simp [errorMesh, parts_length, tri], ?_⟩
  · intro a _
    simp only
    exact ⟨⟨by linarith, by linarith⟩, by linarith, by linarith⟩
  · exact (Real.cos_pos_of_mem_Ioo ⟨by linarith, by linarith⟩).ne'

/-- On two rails the generic setting `theta = π / 2`, `phi = 0` routes `v = (1, -1)`. -/
example : (((errorMesh (tree 2 2 false) 0 .top).matrix 2 ⟨fun _ => Real.pi / 2, fun _ => 0, fun _ => 0⟩ false).mulVec
    (restrict 2 fun r => if r = 0 then 1 else -1)) 0 = 0 := by
  have htree : tree 2 2 false = [⟨0, 0, 1, 2, 1, 1, 0⟩] := by decide +kernel
  obtain ⟨k1, k2, k3, k4⟩ := terms_half
  have hpi : exp (I * (Real.pi / 2 : ℝ)) = I := by
    rw [mul_comm]; push_cast; exact exp_pi_div_two_mul_I
  rw [htree, matrix_two, ← mulVec_mulVec, mulVec_diagonal]
  simp [mziElements, Elements.mat, Matrix.mulVec, dotProduct, Fin.sum_univ_two, restrict, k1, k2, k3, k4]
  push_cast at hpi
  rw [hpi]
  ring_nf
  simp

end Simphox
