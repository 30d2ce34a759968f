import Verif.HaarNetworks
import Verif.Identify
import Verif.RectProps
import Verif.RectFlow

/-!
# Identifiability of networks of crossing lines (C208)

A mesh in which every node crosses two neighbouring lines that have not crossed before is determined by its transfer matrix, up to the settings in the
bar and cross states. The proof follows sets of rails: light on more rails than the lines with low labels have can avoid all outputs of these lines
(`net_degenerate`), and light on the rails of these lines cannot if no node is in the bar state (`net_faithful`). Comparing the two in front of a node
gives an input for which the node must leave its lower output dark (`first_nodes`), which fixes its phases.
-/

namespace Simphox

open Matrix Complex

/-! ### Sets of rails -/

/-- The number of the first `r` rails that are in the set. -/
def cnt {n : ℕ} (J : Finset (Fin n)) (r : ℕ) : ℕ := (J.filter fun j => j.val < r).card

theorem cnt_succ {n : ℕ} (J : Finset (Fin n)) {r : ℕ} (h : r < n) : cnt J (r + 1) = cnt J r + if ⟨r, h⟩ ∈ J then 1 else 0 := by
  unfold cnt
  by_cases hm : (⟨r, h⟩ : Fin n) ∈ J
  · rw [if_pos hm, ← Finset.card_insert_of_notMem (s := J.filter fun j => j.val < r) (a := ⟨r, h⟩) (by simp)]
    congr 1
    ext j
    simp only [Finset.mem_filter, Finset.mem_insert, Fin.ext_iff]
    constructor
    · rintro ⟨h1, h2⟩
      by_cases h3 : j.val = r
      · exact Or.inl h3
      · exact Or.inr ⟨h1, by omega⟩
    · rintro (h1 | ⟨h1, h2⟩)
      · exact ⟨by rw [show j = ⟨r, h⟩ from Fin.ext h1]; exact hm, by omega⟩
      · exact ⟨h1, by omega⟩
  · rw [if_neg hm, add_zero]
    congr 1
    ext j
    simp only [Finset.mem_filter]
    refine and_congr_right fun h1 => ⟨fun h2 => ?_, fun h2 => by omega⟩
    have : j.val ≠ r := fun h3 => hm (by rw [← show j = ⟨r, h⟩ from Fin.ext h3]; exact h1)
    omega

/-- The exchange of two neighbouring rails. -/
def railSwap {n : ℕ} (i : ℕ) (hi : i + 1 < n) : Equiv.Perm (Fin n) := Equiv.swap ⟨i, by omega⟩ ⟨i + 1, hi⟩

theorem railSwap_val {n i : ℕ} (hi : i + 1 < n) (j : Fin n) : (railSwap i hi j).val = Equiv.swap i (i + 1) j.val := by
  rw [railSwap, Equiv.swap_apply_def, Equiv.swap_apply_def]
  simp only [Fin.ext_iff]
  split_ifs <;> rfl

theorem cnt_swap {n i r : ℕ} (hi : i + 1 < n) (J : Finset (Fin n)) (hr : r ≠ i + 1) : cnt (J.map (railSwap i hi).toEmbedding) r = cnt J r := by
  unfold cnt
  rw [Finset.filter_map, Finset.card_map]
  congr 1
  refine Finset.filter_congr fun j _ => ?_
  show (railSwap i hi j).val < r ↔ _
  rw [railSwap_val, Equiv.swap_apply_def]
  split_ifs <;> omega

/-- The rails whose lines have labels below a threshold. -/
def lowRails (n : ℕ) (x : ℕ → ℕ) (t : ℕ) : Finset (Fin n) := Finset.univ.filter fun j => x j.val < t

theorem mem_lowRails {n t : ℕ} {x : ℕ → ℕ} {j : Fin n} : j ∈ lowRails n x t ↔ x j.val < t := by simp [lowRails]

theorem lowRails_crossed {n i t : ℕ} (hi : i + 1 < n) (x : ℕ → ℕ) : lowRails n (crossed x i) t = (lowRails n x t).map (railSwap i hi).toEmbedding := by
  ext j
  rw [mem_lowRails, Finset.mem_map_equiv, mem_lowRails, crossed]
  have : ((railSwap i hi).symm j).val = Equiv.swap i (i + 1) j.val := by
    rw [← railSwap_val hi, railSwap, Equiv.symm_swap]
  rw [this]

/-- The set does not fit below the lines of the other: among some first rails it has more. -/
def Overfull {n : ℕ} (J T : Finset (Fin n)) : Prop := ∃ r, cnt T r < cnt J r

theorem overfull_crossed {n i t : ℕ} (hi : i + 1 < n) {x : ℕ → ℕ} (hx : x i < x (i + 1)) {J : Finset (Fin n)} (h : Overfull J (lowRails n x t)) :
    Overfull J (lowRails n (crossed x i) t) ∧ Overfull (J.map (railSwap i hi).toEmbedding) (lowRails n (crossed x i) t) := by
  have key : ∃ r, r ≠ i + 1 ∧ cnt (lowRails n x t) r < cnt J r := by
    obtain ⟨r, hr⟩ := h
    by_cases h1 : r = i + 1
    · subst h1
      have e1 := cnt_succ (lowRails n x t) (show i < n by omega)
      have e2 := cnt_succ (lowRails n x t) hi
      have e3 := cnt_succ J (show i < n by omega)
      have e4 := cnt_succ J hi
      by_cases h2 : x i < t
      · rw [if_pos (mem_lowRails.2 h2)] at e1
        refine ⟨i, by omega, ?_⟩
        split_ifs at e3 <;> omega
      · rw [if_neg (fun h => h2 (mem_lowRails.1 h))] at e1
        rw [if_neg (fun h => by have := mem_lowRails.1 h; simp only at this; omega)] at e2
        exact ⟨i + 1 + 1, by omega, by omega⟩
    · exact ⟨r, h1, hr⟩
  obtain ⟨r, h1, h2⟩ := key
  rw [lowRails_crossed hi]
  exact ⟨⟨r, by rwa [cnt_swap hi _ h1]⟩, ⟨r, by rwa [cnt_swap hi _ h1, cnt_swap hi _ h1]⟩⟩

/-! ### Light that reaches none of the given rails -/

/-- Light on the rails of the set only. -/
def SuppOn {n : ℕ} (J : Finset (Fin n)) (v : Fin n → ℂ) : Prop := ∀ j, j ∉ J → v j = 0

/-- Light that leaves these rails dark. -/
def Dark {n : ℕ} (C : Matrix (Fin n) (Fin n) ℂ) (S : Finset (Fin n)) (v : Fin n → ℂ) : Prop := ∀ r ∈ S, C.mulVec v r = 0

theorem Dark.comb {n : ℕ} {C : Matrix (Fin n) (Fin n) ℂ} {S : Finset (Fin n)} {v w : Fin n → ℂ} (hv : Dark C S v) (hw : Dark C S w) (a b : ℂ) :
    Dark C S (a • v + b • w) := fun r hr => by
  rw [mulVec_add, mulVec_smul, mulVec_smul, Pi.add_apply, Pi.smul_apply, Pi.smul_apply, hv r hr, hw r hr]; simp

/-- Two invertible matrices that act on rails `i` and `i + 1` only. -/
structure NodePair (n i : ℕ) (hi : i + 1 < n) (E F : Matrix (Fin n) (Fin n) ℂ) : Prop where
  mul : E * F = 1
  inv : F * E = 1
  far : ∀ v : Fin n → ℂ, ∀ j : Fin n, j.val ≠ i → j.val ≠ i + 1 → F.mulVec v j = v j
  far' : ∀ v : Fin n → ℂ, ∀ j : Fin n, j.val ≠ i → j.val ≠ i + 1 → E.mulVec v j = v j
  none : ∀ v : Fin n → ℂ, v ⟨i, by omega⟩ = 0 → v ⟨i + 1, hi⟩ = 0 → F.mulVec v = v
  none' : ∀ v : Fin n → ℂ, v ⟨i, by omega⟩ = 0 → v ⟨i + 1, hi⟩ = 0 → E.mulVec v = v

theorem nodePair {n i : ℕ} (hi : i + 1 < n) {m : Matrix (Fin 2) (Fin 2) ℂ} (hm : m ∈ unitaryGroup (Fin 2) ℂ) :
    NodePair n i hi (embed2 n i (i + 1) m) (embed2 n i (i + 1) mᴴ) := by
  have e := fun (m : Matrix (Fin 2) (Fin 2) ℂ) v j => embed2_mulVec (n := n) (i := i) (j := i + 1) (by omega) hi (by omega) m v j
  have h0 : ∀ (m : Matrix (Fin 2) (Fin 2) ℂ) (v : Fin n → ℂ), v ⟨i, by omega⟩ = 0 → v ⟨i + 1, hi⟩ = 0 → (embed2 n i (i + 1) m).mulVec v = v := by
    intro m v h1 h2
    funext j
    rw [e, h1, h2]
    split_ifs with a b
    · rw [show j = ⟨i, by omega⟩ from Fin.ext a, h1]; simp
    · rw [show j = ⟨i + 1, hi⟩ from Fin.ext b, h2]; simp
    · rfl
  refine ⟨?_, ?_, fun v j h1 h2 => by rw [e, if_neg h1, if_neg h2], fun v j h1 h2 => by rw [e, if_neg h1, if_neg h2], h0 _, h0 _⟩
  · rw [← embed2_mul (by omega) hi (by omega), ← star_eq_conjTranspose, mem_unitaryGroup_iff.1 hm, embed2_one (by omega) hi (by omega)]
  · rw [← embed2_mul (by omega) hi (by omega), ← star_eq_conjTranspose, mem_unitaryGroup_iff'.1 hm, embed2_one (by omega) hi (by omega)]

theorem NodePair.back_ne {n i : ℕ} {hi : i + 1 < n} {E F : Matrix (Fin n) (Fin n) ℂ} (h : NodePair n i hi E F) {v : Fin n → ℂ} (hv : v ≠ 0) : F.mulVec v ≠ 0 := by
  intro h0
  have : (E * F).mulVec v = 0 := by rw [← mulVec_mulVec, h0, mulVec_zero]
  rw [h.mul, one_mulVec] at this
  exact hv this

theorem NodePair.back_dark {n i : ℕ} {hi : i + 1 < n} {E F : Matrix (Fin n) (Fin n) ℂ} (h : NodePair n i hi E F) {C : Matrix (Fin n) (Fin n) ℂ}
    {S : Finset (Fin n)} {v : Fin n → ℂ} (hv : Dark C S v) : Dark (C * E) S (F.mulVec v) := by
  intro r hr
  rw [mulVec_mulVec, mul_assoc, h.mul, mul_one]
  exact hv r hr

/-- Some light on the rails of `J` leaves `S` dark. -/
def Degenerate {n : ℕ} (C : Matrix (Fin n) (Fin n) ℂ) (S J : Finset (Fin n)) : Prop := ∃ v, v ≠ 0 ∧ SuppOn J v ∧ Dark C S v

/-- In front of a node, from two sets that differ in its rails. -/
theorem degenerate_mixed {n i : ℕ} {hi : i + 1 < n} {E F : Matrix (Fin n) (Fin n) ℂ} (h : NodePair n i hi E F) {C : Matrix (Fin n) (Fin n) ℂ}
    {S J J' : Finset (Fin n)} (p q : Fin n) (hpq : (p.val = i ∧ q.val = i + 1) ∨ (p.val = i + 1 ∧ q.val = i)) (hp : p ∈ J) (hq : q ∉ J)
    (hJ : ∀ j, j ∈ J' → j = q ∨ (j ∈ J ∧ j ≠ p)) (h1 : Degenerate C S J) (h2 : Degenerate C S J') : Degenerate (C * E) S J := by
  obtain ⟨y1, n1, s1, d1⟩ := h1
  obtain ⟨y2, n2, s2, d2⟩ := h2
  have hP : ∀ v : Fin n → ℂ, v p = 0 → v q = 0 → v ⟨i, by omega⟩ = 0 ∧ v ⟨i + 1, hi⟩ = 0 := by
    intro v hv hv'
    rcases hpq with ⟨a, b⟩ | ⟨a, b⟩
    · rw [show p = ⟨i, by omega⟩ from Fin.ext a] at hv
      rw [show q = ⟨i + 1, hi⟩ from Fin.ext b] at hv'
      exact ⟨hv, hv'⟩
    · rw [show p = ⟨i + 1, hi⟩ from Fin.ext a] at hv
      rw [show q = ⟨i, by omega⟩ from Fin.ext b] at hv'
      exact ⟨hv', hv⟩
  have hne : p ≠ q := fun hh => hq (hh ▸ hp)
  have y2p : y2 p = 0 := s2 p fun hh => by
    rcases hJ p hh with h3 | ⟨-, h3⟩
    · exact hne h3
    · exact h3 rfl
  have y1q : y1 q = 0 := s1 q hq
  have out : ∀ v : Fin n → ℂ, (∀ j, j ∉ J → j ≠ q → v j = 0) → (F.mulVec v) q = 0 → SuppOn J (F.mulVec v) := by
    intro v hv hvq j hj
    by_cases hjq : j = q
    · rw [hjq, hvq]
    · have hjp : j ≠ p := fun hh => hj (hh ▸ hp)
      rw [h.far v j, hv j hj hjq]
      · intro hh; rcases hpq with ⟨a, b⟩ | ⟨a, b⟩
        · exact hjp (Fin.ext (hh.trans a.symm))
        · exact hjq (Fin.ext (hh.trans b.symm))
      · intro hh; rcases hpq with ⟨a, b⟩ | ⟨a, b⟩
        · exact hjq (Fin.ext (hh.trans b.symm))
        · exact hjp (Fin.ext (hh.trans a.symm))
  have o1 : ∀ j, j ∉ J → j ≠ q → y1 j = 0 := fun j hj _ => s1 j hj
  have o2 : ∀ j, j ∉ J → j ≠ q → y2 j = 0 := fun j hj hjq => s2 j fun hh => by
    rcases hJ j hh with h3 | ⟨h3, -⟩
    · exact hjq h3
    · exact hj h3
  by_cases h0 : y2 q = 0
  · have e := h.none y2 (hP y2 y2p h0).1 (hP y2 y2p h0).2
    refine ⟨F.mulVec y2, h.back_ne n2, out y2 o2 ?_, h.back_dark d2⟩
    rw [e, h0]
  · by_cases ha : (F.mulVec y1) q = 0
    · exact ⟨F.mulVec y1, h.back_ne n1, out y1 o1 ha, h.back_dark d1⟩
    · let z := (F.mulVec y2) q • y1 + (-(F.mulVec y1) q) • y2
      have hz : z ≠ 0 := by
        intro hz
        have := congrFun hz q
        simp only [z, Pi.add_apply, Pi.smul_apply, smul_eq_mul, y1q, mul_zero, zero_add, Pi.zero_apply] at this
        rcases mul_eq_zero.1 this with h3 | h3
        · exact ha (neg_eq_zero.1 h3)
        · exact h0 h3
      refine ⟨F.mulVec z, h.back_ne hz, out z (fun j hj hjq => ?_) ?_, h.back_dark (d1.comb d2 _ _)⟩
      · simp only [z, Pi.add_apply, Pi.smul_apply, o1 j hj hjq, o2 j hj hjq, smul_zero, add_zero]
      · simp only [z, mulVec_add, mulVec_smul, Pi.add_apply, Pi.smul_apply, smul_eq_mul]
        ring

/-! ### Networks -/

/-- The matrix of nodes given by their upper rail and 2 × 2 matrix, in the order of the light. -/
noncomputable def netMat (n : ℕ) : List (ℕ × Matrix (Fin 2) (Fin 2) ℂ) → Matrix (Fin n) (Fin n) ℂ
  | [] => 1
  | a :: w => netMat n w * embed2 n a.1 (a.1 + 1) a.2

/-- Unitary nodes that cross lines in their original order only. -/
def Reduced (n : ℕ) : List (ℕ × Matrix (Fin 2) (Fin 2) ℂ) → (ℕ → ℕ) → Prop
  | [], _ => True
  | a :: w, x => a.1 + 1 < n ∧ x a.1 < x (a.1 + 1) ∧ a.2 ∈ unitaryGroup (Fin 2) ℂ ∧ Reduced n w (crossed x a.1)

/-- The labels behind the network. -/
def finalLabel : List (ℕ × Matrix (Fin 2) (Fin 2) ℂ) → (ℕ → ℕ) → ℕ → ℕ
  | [], x => x
  | a :: w, x => finalLabel w (crossed x a.1)

/-- Too much light for the lines with low labels: some of it avoids their outputs. -/
theorem net_degenerate {n : ℕ} (c : Fin n → ℂ) (t : ℕ) : ∀ (w : List (ℕ × Matrix (Fin 2) (Fin 2) ℂ)) (x : ℕ → ℕ), Reduced n w x →
    ∀ J : Finset (Fin n), Overfull J (lowRails n x t) → Degenerate (diagonal c * netMat n w) (lowRails n (finalLabel w x) t) J
  | [], x, _, J, hJ => by
    obtain ⟨r, hr⟩ := hJ
    have : ∃ j ∈ J, j ∉ lowRails n x t := by
      by_contra h
      push Not at h
      have : cnt J r ≤ cnt (lowRails n x t) r := Finset.card_le_card (Finset.filter_subset_filter _ h)
      omega
    obtain ⟨j, hj, hj'⟩ := this
    refine ⟨Pi.single j 1, by simp, fun l hl => ?_, fun r hr => ?_⟩
    · rw [Pi.single_apply, if_neg]
      intro h
      exact hl (by rw [h]; exact hj)
    · rw [netMat, mul_one, mulVec_diagonal, Pi.single_apply, if_neg, mul_zero]
      intro h
      exact hj' (by rw [← h]; exact hr)
  | (i, m) :: w, x, ⟨hi, hx, hm, hw⟩, J, hJ => by
    simp only at hi hx hm hw
    have hE := nodePair hi hm
    obtain ⟨o1, o2⟩ := overfull_crossed hi hx hJ
    have d1 := net_degenerate c t w _ hw _ o1
    have d2 := net_degenerate c t w _ hw _ o2
    show Degenerate (diagonal c * (netMat n w * embed2 n i (i + 1) m)) (lowRails n (finalLabel w (crossed x i)) t) J
    rw [← mul_assoc]
    have hmap : ∀ j, j ∈ J.map (railSwap i hi).toEmbedding ↔ railSwap i hi j ∈ J := by
      intro j
      rw [Finset.mem_map_equiv, show (railSwap i hi).symm = railSwap i hi from Equiv.symm_swap _ _]
    have hsw0 : railSwap i hi ⟨i, by omega⟩ = ⟨i + 1, hi⟩ := Equiv.swap_apply_left _ _
    have hsw1 : railSwap i hi ⟨i + 1, hi⟩ = ⟨i, by omega⟩ := Equiv.swap_apply_right _ _
    have hsw : ∀ j, j ≠ ⟨i, by omega⟩ → j ≠ ⟨i + 1, hi⟩ → railSwap i hi j = j := fun j h1 h2 => Equiv.swap_apply_of_ne_of_ne h1 h2
    by_cases a : (⟨i, by omega⟩ : Fin n) ∈ J <;> by_cases b : (⟨i + 1, hi⟩ : Fin n) ∈ J
    · obtain ⟨y, hy, s, d⟩ := d1
      refine ⟨_, hE.back_ne hy, fun j hj => ?_, hE.back_dark d⟩
      rw [hE.far y j (fun h => hj (by rw [show j = ⟨i, by omega⟩ from Fin.ext h]; exact a)) (fun h => hj (by rw [show j = ⟨i + 1, hi⟩ from Fin.ext h]; exact b)), s j hj]
    · refine degenerate_mixed hE ⟨i, by omega⟩ ⟨i + 1, hi⟩ (Or.inl ⟨rfl, rfl⟩) a b (fun j hj => ?_) d1 d2
      rw [hmap] at hj
      by_cases h1 : j = ⟨i + 1, hi⟩
      · exact Or.inl h1
      · by_cases h2 : j = ⟨i, by omega⟩
        · rw [h2, hsw0] at hj; exact absurd hj b
        · rw [hsw j h2 h1] at hj; exact Or.inr ⟨hj, h2⟩
    · refine degenerate_mixed hE ⟨i + 1, hi⟩ ⟨i, by omega⟩ (Or.inr ⟨rfl, rfl⟩) b a (fun j hj => ?_) d1 d2
      rw [hmap] at hj
      by_cases h1 : j = ⟨i + 1, hi⟩
      · rw [h1, hsw1] at hj; exact absurd hj a
      · by_cases h2 : j = ⟨i, by omega⟩
        · exact Or.inl h2
        · rw [hsw j h2 h1] at hj; exact Or.inr ⟨hj, h1⟩
    · obtain ⟨y, hy, s, d⟩ := d1
      have e := hE.none y (s _ a) (s _ b)
      refine ⟨_, hE.back_ne hy, fun j hj => ?_, hE.back_dark d⟩
      rw [e, s j hj]

/-- No light on the rails of the lines with low labels avoids their outputs. -/
def Faithful {n : ℕ} (C : Matrix (Fin n) (Fin n) ℂ) (S J : Finset (Fin n)) : Prop := ∀ v, SuppOn J v → Dark C S v → v = 0

theorem overfull_after {n i t : ℕ} (hi : i + 1 < n) {x : ℕ → ℕ} (h0 : x i < t) (h1 : ¬ x (i + 1) < t) : Overfull (lowRails n x t) (lowRails n (crossed x i) t) := by
  refine ⟨i + 1, ?_⟩
  have e1 := cnt_succ (lowRails n x t) (show i < n by omega)
  have e2 := cnt_succ (lowRails n (crossed x i) t) (show i < n by omega)
  rw [if_pos (mem_lowRails.2 h0)] at e1
  rw [if_neg (fun h => h1 (by have := mem_lowRails.1 h; rwa [crossed_left] at this))] at e2
  have e3 := cnt_swap hi (lowRails n x t) (show i ≠ i + 1 by omega)
  rw [← lowRails_crossed] at e3
  omega

/-- If all nodes send light from their upper input down, the network is faithful. -/
theorem net_faithful {n : ℕ} (c : Fin n → ℂ) (hc : ∀ i, c i ≠ 0) (t : ℕ) : ∀ (w : List (ℕ × Matrix (Fin 2) (Fin 2) ℂ)) (x : ℕ → ℕ), Reduced n w x →
    (∀ a ∈ w, a.2 1 0 ≠ 0) → Faithful (diagonal c * netMat n w) (lowRails n (finalLabel w x) t) (lowRails n x t)
  | [], x, _, _ => by
    intro v hv hd
    funext j
    by_cases hj : j ∈ lowRails n x t
    · have := hd j hj
      rw [netMat, mul_one, mulVec_diagonal] at this
      exact (mul_eq_zero.1 this).resolve_left (hc j)
    · exact hv j hj
  | (i, m) :: w, x, ⟨hi, hx, hm, hw⟩, hne => by
    simp only at hi hx hm hw
    have hE := nodePair hi hm
    have ih := net_faithful c hc t w _ hw fun a ha => hne a (List.mem_cons_of_mem _ ha)
    have hm10 : m 1 0 ≠ 0 := hne _ List.mem_cons_self
    intro v hv hd
    have hd' : Dark (diagonal c * netMat n w) (lowRails n (finalLabel w (crossed x i)) t) ((embed2 n i (i + 1) m).mulVec v) := by
      intro r hr
      have := hd r hr
      rw [mulVec_mulVec, mul_assoc]
      exact this
    have back : (embed2 n i (i + 1) m).mulVec v = 0 → v = 0 := by
      intro h0
      have : (embed2 n i (i + 1) mᴴ * embed2 n i (i + 1) m).mulVec v = 0 := by rw [← mulVec_mulVec, h0, mulVec_zero]
      rwa [hE.inv, one_mulVec] at this
    have e := fun v j => embed2_mulVec (n := n) (i := i) (j := i + 1) (by omega) hi (by omega) m v j
    by_cases h0 : x i < t <;> by_cases h1 : x (i + 1) < t
    · refine back (ih _ (fun j hj => ?_) hd')
      rw [lowRails_crossed hi, Finset.mem_map_equiv] at hj
      have h2 : j.val ≠ i := fun h => hj (mem_lowRails.2 (by
        rw [show (railSwap i hi).symm = railSwap i hi from Equiv.symm_swap _ _, railSwap_val, h, Equiv.swap_apply_left]; exact h1))
      have h3 : j.val ≠ i + 1 := fun h => hj (mem_lowRails.2 (by
        rw [show (railSwap i hi).symm = railSwap i hi from Equiv.symm_swap _ _, railSwap_val, h, Equiv.swap_apply_right]; exact h0))
      rw [hE.far' v j h2 h3]
      refine hv j fun h => hj (mem_lowRails.2 ?_)
      rw [show (railSwap i hi).symm = railSwap i hi from Equiv.symm_swap _ _, railSwap_val, Equiv.swap_apply_of_ne_of_ne h2 h3]
      exact mem_lowRails.1 h
    · -- the line of rail `i` goes down
      obtain ⟨y, hy, sy, dy⟩ := net_degenerate c t w _ hw _ (overfull_after hi h0 h1)
      have vi1 : v ⟨i + 1, hi⟩ = 0 := hv _ fun h => h1 (mem_lowRails.1 h)
      have yi1 : y ⟨i + 1, hi⟩ = 0 := sy _ fun h => h1 (mem_lowRails.1 h)
      have low : ∀ u : Fin n → ℂ, u ⟨i, by omega⟩ = 0 → (∀ j, j ∉ lowRails n x t → j.val ≠ i + 1 → u j = 0) → SuppOn (lowRails n (crossed x i) t) u := by
        intro u hu hu' j hj
        by_cases h2 : j.val = i
        · rw [show j = ⟨i, by omega⟩ from Fin.ext h2, hu]
        · by_cases h3 : j.val = i + 1
          · exact absurd (mem_lowRails.2 (by rw [h3, crossed_right]; exact h0)) hj
          · refine hu' j (fun h => hj (mem_lowRails.2 ?_)) h3
            rw [crossed_ne x h2 h3]
            exact mem_lowRails.1 h
      have yi : y ⟨i, by omega⟩ ≠ 0 := fun h => hy (ih y (low y h fun j hj _ => sy j hj) dy)
      set u := (embed2 n i (i + 1) m).mulVec v with hu
      have hus : ∀ j, j ∉ lowRails n x t → j.val ≠ i + 1 → u j = 0 := by
        intro j hj h3
        have h2 : j.val ≠ i := fun h => hj (mem_lowRails.2 (by rw [h]; exact h0))
        rw [hu, hE.far' v j h2 h3]
        exact hv j hj
      have hz := ih (1 • u + (-(u ⟨i, by omega⟩ / y ⟨i, by omega⟩)) • y) (low _ (by
          simp only [Pi.add_apply, Pi.smul_apply, one_smul, smul_eq_mul]; field_simp; ring) fun j hj h3 => by
          simp only [Pi.add_apply, Pi.smul_apply, hus j hj h3, sy j hj, smul_zero, add_zero]) (hd'.comb dy 1 _)
      have hz1 := congrFun hz ⟨i + 1, hi⟩
      simp only [Pi.add_apply, Pi.smul_apply, one_smul, smul_eq_mul, yi1, mul_zero, add_zero, Pi.zero_apply] at hz1
      rw [hu, e, if_neg (by simp), if_pos rfl, vi1, mul_zero, add_zero] at hz1
      have vi : v ⟨i, by omega⟩ = 0 := (mul_eq_zero.1 hz1).resolve_left hm10
      have ev : u = v := hE.none' v vi vi1
      rw [ev] at hd'
      exact ih v (low v vi fun j hj _ => hv j hj) hd'
    · omega
    · have ev := hE.none' v (hv _ fun h => h0 (mem_lowRails.1 h)) (hv _ fun h => h1 (mem_lowRails.1 h))
      rw [ev] at hd'
      refine ih v (fun j hj => ?_) hd'
      by_cases h2 : j.val = i
      · rw [show j = ⟨i, by omega⟩ from Fin.ext h2]; exact hv _ fun h => h0 (mem_lowRails.1 h)
      · by_cases h3 : j.val = i + 1
        · rw [show j = ⟨i + 1, hi⟩ from Fin.ext h3]; exact hv _ fun h => h1 (mem_lowRails.1 h)
        · exact hv j fun h => hj (mem_lowRails.2 (by rw [crossed_ne x h2 h3]; exact mem_lowRails.1 h))


/-- Behind a node that crosses a low line down, light on the low rails and the lower rail that avoids the low outputs leaves the lower rail dark. -/
theorem star_dark {n i : ℕ} {hi : i + 1 < n} {E F : Matrix (Fin n) (Fin n) ℂ} (h : NodePair n i hi E F) {C : Matrix (Fin n) (Fin n) ℂ}
    {S T : Finset (Fin n)} (h0 : (⟨i, by omega⟩ : Fin n) ∈ T) (hF : Faithful (C * E) S T) (hD : Degenerate C S T)
    (h1 : (⟨i + 1, hi⟩ : Fin n) ∉ T) {u : Fin n → ℂ} (hu : ∀ j, j ∉ T → j.val ≠ i + 1 → u j = 0) (hd : Dark C S u) : u ⟨i + 1, hi⟩ = 0 := by
  obtain ⟨y, hy, sy, dy⟩ := hD
  have out : ∀ v : Fin n → ℂ, (∀ j, j ∉ T → j.val ≠ i + 1 → v j = 0) → (F.mulVec v) ⟨i + 1, hi⟩ = 0 → SuppOn T (F.mulVec v) := by
    intro v hv hv1 j hj
    by_cases h2 : j.val = i + 1
    · rw [show j = ⟨i + 1, hi⟩ from Fin.ext h2, hv1]
    · rw [h.far v j (fun h3 => hj (by rw [show j = ⟨i, by omega⟩ from Fin.ext h3]; exact h0)) h2, hv j hj h2]
  have zero : ∀ v : Fin n → ℂ, (∀ j, j ∉ T → j.val ≠ i + 1 → v j = 0) → (F.mulVec v) ⟨i + 1, hi⟩ = 0 → Dark C S v → v = 0 := by
    intro v hv hv1 hdv
    by_contra hne
    exact h.back_ne hne (hF _ (out v hv hv1) (h.back_dark hdv))
  by_contra hne
  have oy : ∀ j, j ∉ T → j.val ≠ i + 1 → y j = 0 := fun j hj _ => sy j hj
  have hz := zero ((F.mulVec y) ⟨i + 1, hi⟩ • u + (-(F.mulVec u) ⟨i + 1, hi⟩) • y) (fun j hj hj' => by
      simp only [Pi.add_apply, Pi.smul_apply, hu j hj hj', oy j hj hj', smul_zero, add_zero]) (by
      simp only [mulVec_add, mulVec_smul, Pi.add_apply, Pi.smul_apply, smul_eq_mul]; ring) (hd.comb dy _ _)
  have hz1 := congrFun hz ⟨i + 1, hi⟩
  simp only [Pi.add_apply, Pi.smul_apply, smul_eq_mul, sy _ h1, mul_zero, add_zero, Pi.zero_apply] at hz1
  exact hy (zero y oy ((mul_eq_zero.1 hz1).resolve_right hne) dy)

theorem finalLabel_congr : ∀ (w w' : List (ℕ × Matrix (Fin 2) (Fin 2) ℂ)) (x : ℕ → ℕ), w'.map Prod.fst = w.map Prod.fst → finalLabel w' x = finalLabel w x
  | [], [], _, _ => rfl
  | [], _ :: _, _, h => by simp at h
  | _ :: _, [], _, h => by simp at h
  | a :: w, b :: w', x, h => by
    simp only [List.map_cons, List.cons.injEq] at h
    rw [finalLabel, finalLabel, h.1]
    exact finalLabel_congr w w' _ h.2

/-- The first nodes of two networks with one matrix leave their lower output dark for a common input. -/
theorem first_nodes {n i : ℕ} {x : ℕ → ℕ} {m m' : Matrix (Fin 2) (Fin 2) ℂ} {w w' : List (ℕ × Matrix (Fin 2) (Fin 2) ℂ)} {c c' : Fin n → ℂ}
    (hc : ∀ k, c k ≠ 0) (hP : Reduced n ((i, m) :: w) x) (hQ : Reduced n ((i, m') :: w') x) (hw : w'.map Prod.fst = w.map Prod.fst)
    (hne : ∀ a ∈ (i, m) :: w, a.2 1 0 ≠ 0) (heq : diagonal c * netMat n ((i, m) :: w) = diagonal c' * netMat n ((i, m') :: w')) :
    ∃ p q : ℂ, (p ≠ 0 ∨ q ≠ 0) ∧ m 1 0 * p + m 1 1 * q = 0 ∧ m' 1 0 * p + m' 1 1 * q = 0 := by
  have hFa := net_faithful c hc (x i + 1) _ x hP hne
  obtain ⟨hi, hx, hm, hPw⟩ := hP
  obtain ⟨-, -, hm', hQw⟩ := hQ
  simp only at hi hx hm hPw hm' hQw
  have hE := nodePair hi hm
  have hE' := nodePair hi hm'
  have h0 : x i < x i + 1 := by omega
  have h1 : ¬ x (i + 1) < x i + 1 := by omega
  have hov := overfull_after (t := x i + 1) hi h0 h1
  have hD := net_degenerate c (x i + 1) w _ hPw _ hov
  have hD' := net_degenerate c' (x i + 1) w' _ hQw _ hov
  rw [finalLabel_congr w w' _ hw] at hD'
  have m0 : (⟨i, by omega⟩ : Fin n) ∈ lowRails n x (x i + 1) := mem_lowRails.2 h0
  have m1 : (⟨i + 1, hi⟩ : Fin n) ∉ lowRails n x (x i + 1) := fun h => h1 (mem_lowRails.1 h)
  have hF1 : Faithful (diagonal c * netMat n w * embed2 n i (i + 1) m) (lowRails n (finalLabel w (crossed x i)) (x i + 1)) (lowRails n x (x i + 1)) := by
    rw [mul_assoc]; exact hFa
  have heq1 : diagonal c * netMat n w * embed2 n i (i + 1) m = diagonal c' * netMat n w' * embed2 n i (i + 1) m' := by
    rw [mul_assoc, mul_assoc]; exact heq
  obtain ⟨y, hy, sy, dy⟩ := hD
  have yi : y ⟨i, by omega⟩ ≠ 0 := by
    intro h
    have e := hE.none y h (sy _ m1)
    have := hE.back_dark dy
    rw [e] at this
    exact hy (hF1 y sy this)
  set X := (embed2 n i (i + 1) mᴴ).mulVec y with hX
  have hEX : (embed2 n i (i + 1) m).mulVec X = y := by rw [hX, mulVec_mulVec, hE.mul, one_mulVec]
  have e := fun m v j => embed2_mulVec (n := n) (i := i) (j := i + 1) (by omega) hi (by omega) m v j
  have r0 := congrFun hEX ⟨i, by omega⟩
  have r1 := congrFun hEX ⟨i + 1, hi⟩
  rw [e, if_pos rfl] at r0
  rw [e, if_neg (by simp), if_pos rfl, sy _ m1] at r1
  have hXs : ∀ j, j ∉ lowRails n x (x i + 1) → j.val ≠ i + 1 → X j = 0 := by
    intro j hj h2
    have h3 : j.val ≠ i := fun h => hj (by rw [show j = ⟨i, by omega⟩ from Fin.ext h]; exact m0)
    rw [hX, hE.far y j h3 h2]
    exact sy j hj
  have hXd := hE.back_dark dy
  rw [← hX, heq1] at hXd
  have hst := star_dark hE' m0 (heq1 ▸ hF1) hD' m1 (u := (embed2 n i (i + 1) m').mulVec X) (fun j hj h2 => by
      have h3 : j.val ≠ i := fun h => hj (by rw [show j = ⟨i, by omega⟩ from Fin.ext h]; exact m0)
      rw [hE'.far' X j h3 h2]
      exact hXs j hj h2) (fun r hr => by rw [mulVec_mulVec]; exact hXd r hr)
  rw [e, if_neg (by simp), if_pos rfl] at hst
  refine ⟨X ⟨i, by omega⟩, X ⟨i + 1, hi⟩, ?_, r1, hst⟩
  by_contra h
  push Not at h
  rw [h.1, h.2] at r0
  exact yi (by rw [← r0]; simp)

/-- Two networks of the same crossing lines with one matrix agree node by node, if the nodes of one are determined by their dark lower output. -/
theorem network_identified {n : ℕ} (el el' : ℕ → Elements) (good : Node → Prop) : ∀ (L : List Node) (x : ℕ → ℕ) (c c' : Fin n → ℂ),
    (∀ k, c k ≠ 0) → Reduced n (L.map fun a => (a.top, (el a.id).mat)) x → Reduced n (L.map fun a => (a.top, (el' a.id).mat)) x →
    (∀ a ∈ L, (el a.id).t12 ≠ 0) →
    (∀ a ∈ L, ∀ p q : ℂ, (p ≠ 0 ∨ q ≠ 0) → (el a.id).t12 * p + (el a.id).t22 * q = 0 → (el' a.id).t12 * p + (el' a.id).t22 * q = 0 → good a) →
    (∀ a ∈ L, good a → (el a.id).mat = (el' a.id).mat) →
    diagonal c * netMat n (L.map fun a => (a.top, (el a.id).mat)) = diagonal c' * netMat n (L.map fun a => (a.top, (el' a.id).mat)) →
    (∀ a ∈ L, good a) ∧ c = c'
  | [], x, c, c', _, _, _, _, _, _, heq => by
    simp only [List.map_nil, netMat, mul_one] at heq
    exact ⟨fun a ha => absurd ha (by simp), diagonal_injective heq⟩
  | a :: L, x, c, c', hc, hP, hQ, hne, hdet, hgood, heq => by
    obtain ⟨p, q, hpq, e1, e2⟩ := first_nodes hc hP hQ (by simp only [List.map_map, Function.comp_def]) (fun b hb => by
      rw [← List.map_cons (f := fun a : Node => (a.top, (el a.id).mat))] at hb
      obtain ⟨d, hd, rfl⟩ := List.mem_map.1 hb
      exact hne d hd) heq
    have ga := hdet a List.mem_cons_self p q hpq e1 e2
    have hmat := hgood a List.mem_cons_self ga
    obtain ⟨hi, hx, hm, hPw⟩ := hP
    obtain ⟨-, -, -, hQw⟩ := hQ
    simp only at hi hx hm hPw hQw
    have hE := nodePair hi hm
    have heq' : diagonal c * netMat n (L.map fun a => (a.top, (el a.id).mat)) = diagonal c' * netMat n (L.map fun a => (a.top, (el' a.id).mat)) := by
      simp only [List.map_cons, netMat] at heq
      rw [← hmat, ← mul_assoc, ← mul_assoc] at heq
      have := congrArg (· * embed2 n a.top (a.top + 1) (el a.id).matᴴ) heq
      simp only [mul_assoc, hE.mul, mul_one] at this
      exact this
    obtain ⟨g1, g2⟩ := network_identified el el' good L _ c c' hc hPw hQw (fun b hb => hne b (List.mem_cons_of_mem _ hb))
      (fun b hb => hdet b (List.mem_cons_of_mem _ hb)) (fun b hb => hgood b (List.mem_cons_of_mem _ hb)) heq'
    refine ⟨fun b hb => ?_, g2⟩
    rcases List.mem_cons.1 hb with rfl | hb
    · exact ga
    · exact g1 b hb


theorem block_netMat {n : ℕ} (el : ℕ → Elements) : ∀ L : List Node, (∀ a ∈ L, a.bottom = a.top + 1) →
    blockProduct n el L = netMat n (L.map fun a => (a.top, (el a.id).mat))
  | [], _ => by simp [blockProduct, netMat]
  | a :: L, h => by
    have ih := block_netMat (n := n) el L fun b hb => h b (List.mem_cons_of_mem _ hb)
    unfold blockProduct at ih ⊢
    rw [List.map_cons, List.reverse_cons, List.prod_append, ih, List.prod_singleton, List.map_cons, netMat, h a List.mem_cons_self]

theorem reduced_of_lines {n : ℕ} (el : ℕ → Elements) : ∀ (L : List Node) (x : ℕ → ℕ),
    (∀ L1 a L2, L = L1 ++ a :: L2 → a.bottom = a.top + 1 ∧ a.top + 1 < n ∧ (el a.id).mat ∈ unitaryGroup (Fin 2) ℂ ∧
      L1.foldl (fun x a => x ∘ Equiv.swap a.top a.bottom) x a.top < L1.foldl (fun x a => x ∘ Equiv.swap a.top a.bottom) x a.bottom) →
    Reduced n (L.map fun a => (a.top, (el a.id).mat)) x
  | [], _, _ => trivial
  | a :: L, x, h => by
    obtain ⟨h1, h2, h3, h4⟩ := h [] a L rfl
    rw [h1] at h4
    refine ⟨h2, h4, h3, ?_⟩
    have e : crossed x a.top = x ∘ Equiv.swap a.top a.bottom := by rw [h1]; rfl
    show Reduced n _ (crossed x a.top)
    rw [e]
    exact reduced_of_lines el L _ (fun L1 c L2 hL => h (a :: L1) c L2 (by rw [hL]; rfl))

/-- A node is determined by an input that leaves its lower output dark. -/
theorem node_of_dark {style : PhaseStyle} (hs : style = .top ∨ style = .bottom) {e : ℝ} (he : Real.cos (2 * e) ≠ 0) {th ph th' ph' : ℝ}
    (hth : 0 < th ∧ th < Real.pi) (hth' : 0 ≤ th' ∧ th' ≤ Real.pi) (hph : 0 ≤ ph ∧ ph < 2 * Real.pi) (hph' : 0 ≤ ph' ∧ ph' < 2 * Real.pi) {p q : ℂ}
    (hpq : p ≠ 0 ∨ q ≠ 0) (h : (mziElements style false e e 0 0 th ph).t12 * p + (mziElements style false e e 0 0 th ph).t22 * q = 0)
    (h' : (mziElements style false e e 0 0 th' ph').t12 * p + (mziElements style false e e 0 0 th' ph').t22 * q = 0) : th = th' ∧ ph = ph' := by
  obtain ⟨b1, b2⟩ := bottom_row_ne_zero hs he (ph := ph) hth.1 hth.2
  have hp : p ≠ 0 := by
    rintro rfl
    rw [mul_zero, zero_add] at h
    rcases mul_eq_zero.1 h with h | h
    · exact b2 h
    · rcases hpq with h0 | h0
      · exact h0 rfl
      · exact h0 h
  have hq : q ≠ 0 := by
    rintro rfl
    rw [mul_zero, add_zero] at h
    rcases mul_eq_zero.1 h with h | h
    · exact b1 h
    · exact hp h
  have key : ∀ x y : ℝ, (mziElements style false e e 0 0 x y).t12 * p + (mziElements style false e e 0 0 x y).t22 * q = 0 →
      (mziElements style false e e 0 0 x y).t11 * (starRingEnd ℂ) q + (mziElements style false e e 0 0 x y).t21 * -(starRingEnd ℂ) p = 0 := by
    intro x y hxy
    obtain ⟨-, r2, -, r4⟩ := unitary2_rows (mziElements_unitary style false e e x y)
    generalize mziElements style false e e 0 0 x y = m at *
    have e12 : m.t12 = -m.t22 * q / p := by
      field_simp
      linear_combination hxy
    have h22 : m.t22 ≠ 0 := by
      intro h0
      rw [e12, h0] at r4
      simp at r4
    rw [e12, map_div₀, map_mul, map_neg] at r2
    have hc : (starRingEnd ℂ) p ≠ 0 := (map_ne_zero _).2 hp
    have hc22 : (starRingEnd ℂ) m.t22 ≠ 0 := (map_ne_zero _).2 h22
    field_simp at r2
    have : (starRingEnd ℂ) m.t22 * (m.t11 * (starRingEnd ℂ) q + m.t21 * -(starRingEnd ℂ) p) = 0 := by
      linear_combination -r2
    exact (mul_eq_zero.1 this).resolve_left hc22
  exact node_phases_unique hs he ⟨hth.1.le, hth.2.le⟩ hth' hph hph' ((map_ne_zero _).2 hq) (neg_ne_zero.2 ((map_ne_zero _).2 hp)) (key _ _ h) (key _ _ h')

/-- C208: in every mesh of crossing lines — each node crosses two neighbouring lines that have not crossed before — with a common splitting error, in the
styles TOP and BOTTOM: two settings with the same transfer matrix, one of which has all internal phases strictly between 0 and π, are the same setting. -/
theorem C208_network (style : PhaseStyle) (hs : style = .top ∨ style = .bottom) (e : ℝ) (he : Real.cos (2 * e) ≠ 0) (n : ℕ) (nodes : List Node)
    (hM : (errorMesh nodes e style).WellFormed n)
    (hnode : ∀ L a L', executionOrder nodes = L ++ a :: L' → a.bottom = a.top + 1 ∧ lineOn L a.top < lineOn L a.bottom)
    (P Q : Params) (hP : GenericPhases nodes P)
    (hQ : ∀ a ∈ nodes, (0 ≤ Q.thetas a.id ∧ Q.thetas a.id ≤ Real.pi) ∧ (0 ≤ Q.phis a.id ∧ Q.phis a.id < 2 * Real.pi))
    (h : (errorMesh nodes e style).matrix n P false = (errorMesh nodes e style).matrix n Q false) :
    (∀ a ∈ nodes, Q.thetas a.id = P.thetas a.id ∧ Q.phis a.id = P.phis a.id) ∧ ∀ r < n, exp (I * Q.gammas r) = exp (I * P.gammas r) := by
  have hmem : ∀ a ∈ executionOrder nodes, a ∈ nodes := fun a ha => (executionOrder_perm nodes).mem_iff.1 ha
  have hadj : ∀ a ∈ executionOrder nodes, a.bottom = a.top + 1 := by
    intro a ha
    obtain ⟨L, L', e⟩ := List.append_of_mem ha
    exact (hnode L a L' e).1
  have hel : ∀ (R : Params), ∀ a ∈ executionOrder nodes, (errorMesh nodes e style).elements R false a.id = programmedElements style e R a.id :=
    fun R a ha => errorMesh_elements nodes e style R (hM.ids a (hmem a ha))
  have hred : ∀ R : Params, Reduced n ((executionOrder nodes).map fun a => (a.top, ((programmedElements style e R) a.id).mat)) id := by
    intro R
    refine reduced_of_lines _ _ id fun L1 a L2 eL => ?_
    have ha : a ∈ executionOrder nodes := by rw [eL]; simp
    obtain ⟨h1, h2⟩ := hnode L1 a L2 eL
    refine ⟨h1, ?_, mziElements_unitary _ _ _ _ _ _, h2⟩
    have := (hM.rails a (hmem a ha)).2.1
    omega
  have hmat : ∀ R : Params, (errorMesh nodes e style).matrix n R false = (diagonal fun i : Fin n => exp (I * R.gammas i.val)) *
      netMat n ((executionOrder nodes).map fun a => (a.top, ((programmedElements style e R) a.id).mat)) := by
    intro R
    rw [Mesh.matrix_eq hM, if_neg (by decide), visitOrder_false]
    show _ * blockProduct n _ (executionOrder nodes) = _
    rw [block_netMat _ _ hadj]
    congr 2
    refine List.map_congr_left fun a ha => ?_
    rw [hel R a ha]
  rw [hmat, hmat] at h
  have := network_identified (programmedElements style e P) (programmedElements style e Q)
    (fun a => P.thetas a.id = Q.thetas a.id ∧ P.phis a.id = Q.phis a.id) (executionOrder nodes) id _ _ (fun k => exp_ne_zero _) (hred P) (hred Q)
    (fun a ha => (bottom_row_ne_zero hs he (hP a (hmem a ha)).1.1 (hP a (hmem a ha)).1.2).1)
    (fun a ha p q hpq h1 h2 => node_of_dark hs he (hP a (hmem a ha)).1 (hQ a (hmem a ha)).1 (hP a (hmem a ha)).2 (hQ a (hmem a ha)).2 hpq h1 h2)
    (fun a ha hg => by
      show (mziElements _ _ _ _ _ _ _ _).mat = (mziElements _ _ _ _ _ _ _ _).mat
      rw [hg.1, hg.2]) h
  refine ⟨fun a ha => ?_, fun r hr => (congrFun this.2 ⟨r, hr⟩).symm⟩
  have := this.1 a ((executionOrder_perm nodes).mem_iff.2 ha)
  exact ⟨this.1.symm, this.2.symm⟩

/-- C208: two settings of a rectangular mesh with the same transfer matrix, one of which has all internal phases strictly between 0 and π, are the same
setting; also with a common splitting error, in the styles TOP and BOTTOM. -/
theorem C208_rectangular_identifiable (style : PhaseStyle) (hs : style = .top ∨ style = .bottom) (e : ℝ) (he : Real.cos (2 * e) ≠ 0) (n : ℕ)
    (u0 : Matrix (Fin n) (Fin n) ℂ) (nodes : List Node) (hnodes : nodes = (rectangular n u0).1.nodes) (P Q : Params) (hP : GenericPhases nodes P)
    (hQ : ∀ a ∈ nodes, (0 ≤ Q.thetas a.id ∧ Q.thetas a.id ≤ Real.pi) ∧ (0 ≤ Q.phis a.id ∧ Q.phis a.id < 2 * Real.pi))
    (h : (errorMesh nodes e style).matrix n P false = (errorMesh nodes e style).matrix n Q false) :
    (∀ a ∈ nodes, Q.thetas a.id = P.thetas a.id ∧ Q.phis a.id = P.phis a.id) ∧ ∀ r < n, exp (I * Q.gammas r) = exp (I * P.gammas r) := by
  subst hnodes
  have hw := rectangular_wellFormed n u0
  refine C208_network style hs e he n _ (errorMesh_wellFormed e style hw.ids hw.rails hw.disjoint) (fun L a L' eL => ?_) P Q hP hQ h
  have ha : a ∈ rectNodes n n := (executionOrder_perm _).mem_iff.1 (by show a ∈ executionOrder (rectangular n u0).1.nodes; rw [eL]; simp)
  have := (C205_distance n u0).1 L a L' eL
  refine ⟨(rectNodes_spec n n a ha).2.2.1, by omega⟩

theorem rectStep_theta_mem (n : ℕ) (s : RectState n) (x : ℕ × ℕ) (h : ∀ r c, 0 ≤ s.theta r c ∧ s.theta r c ≤ Real.pi) :
    ∀ r c, 0 ≤ (rectStep n s x).theta r c ∧ (rectStep n s x).theta r c ≤ Real.pi := by
  have key : ∀ z w : ℂ, 0 ≤ arctan2 ‖z‖ ‖w‖ * 2 ∧ arctan2 ‖z‖ ‖w‖ * 2 ≤ Real.pi := by
    intro z w
    have h1 : 0 ≤ arctan2 ‖z‖ ‖w‖ := Complex.arg_nonneg_iff.2 (norm_nonneg z)
    have h2 : arctan2 ‖z‖ ‖w‖ ≤ Real.pi / 2 := Complex.arg_le_pi_div_two_iff.2 (Or.inl (norm_nonneg w))
    constructor <;> linarith
  intro r c
  unfold rectStep
  split_ifs
  · simp only [rectLeft, setCell]
    split_ifs
    · exact key _ _
    · exact h r c
  · simp only [rectRight, setCell]
    split_ifs
    · exact key _ _
    · exact h r c

theorem rectLoop_theta_mem (n : ℕ) (u : Matrix (Fin n) (Fin n) ℂ) : ∀ r c, 0 ≤ (rectLoop n u).theta r c ∧ (rectLoop n u).theta r c ≤ Real.pi := by
  have : ∀ (l : List (ℕ × ℕ)) (s : RectState n), (∀ r c, 0 ≤ s.theta r c ∧ s.theta r c ≤ Real.pi) →
      ∀ r c, 0 ≤ (l.foldl (rectStep n) s).theta r c ∧ (l.foldl (rectStep n) s).theta r c ≤ Real.pi := by
    intro l
    induction l with
    | nil => exact fun s h => h
    | cons x l ih => exact fun s h => ih _ (rectStep_theta_mem n s x h)
  exact this _ _ fun r c => ⟨le_rfl, Real.pi_pos.le⟩

/-- C208: `rectangular` programmed with the matrix of a rectangular mesh in generic phases returns these phases. -/
theorem C208_rectangular (n : ℕ) (hn : 2 ≤ n) (u0 : Matrix (Fin n) (Fin n) ℂ) (M : Mesh) (hM : M = (rectangular n u0).1) (P : Params)
    (hP : GenericPhases M.nodes P) :
    (rectangular n (M.matrix n P false)).1 = M ∧
    (∀ a ∈ M.nodes, (rectangular n (M.matrix n P false)).2.thetas a.id = P.thetas a.id ∧
      (rectangular n (M.matrix n P false)).2.phis a.id = P.phis a.id) ∧
    ∀ r < n, exp (I * (rectangular n (M.matrix n P false)).2.gammas r) = exp (I * P.gammas r) ∧
      (0 ≤ P.gammas r → P.gammas r < 2 * Real.pi → (rectangular n (M.matrix n P false)).2.gammas r = P.gammas r) := by
  subst hM
  have hw := rectangular_wellFormed n u0
  set U := (rectangular n u0).1.matrix n P false with hU
  have hUu : U ∈ unitaryGroup (Fin n) ℂ := by
    rw [hU, Mesh.matrix_eq hw, if_neg (by decide)]
    refine mul_mem (gamma_unitary n _) (blockProduct_unitary (fun a ha => hw.rails a (mem_visitOrder.1 ha)) fun a _ => ?_)
    show ((idealMesh (rectNodes n n) .top).elements P false a.id).mat ∈ _
    rw [ideal_elements]
    exact mziElements_unitary _ _ _ _ _ _
  have hback := C18_rectangular_matrix n hn U hUu
  have hflow := C30_flow_top_only n n (rectPhi n (rectLoop n U)) (fun r => rectPhi n (rectLoop n U) r n)
  have hid := C208_rectangular_identifiable .top (Or.inl rfl) 0 (by simp) n u0 _ rfl P (rectangular n U).2 hP (fun a ha => by
    have ha' : a ∈ rectNodes n n := ha
    have e1 : (rectangular n U).2.thetas a.id = (rectLoop n U).theta a.top a.column := rectParams_getD n _ n a ha'
    have e2 : (rectangular n U).2.phis a.id = (commonModeFlow n n (rectPhi n (rectLoop n U)) (fun r => rectPhi n (rectLoop n U) r n)).1 a.top a.column :=
      rectParams_getD n _ n a ha'
    rw [e1, e2]
    exact ⟨rectLoop_theta_mem n U _ _, hflow.2.1 _ _⟩) (hU.symm.trans hback.symm)
  refine ⟨rfl, hid.1, fun r hr => ⟨hid.2 r hr, fun h0 h1 => ?_⟩⟩
  have hg := hflow.2.2 r
  have he := hid.2 r hr
  rw [Complex.exp_eq_exp_iff_exists_int] at he
  obtain ⟨k, hk⟩ := he
  have hre : (rectangular n U).2.gammas r = P.gammas r + k * (2 * Real.pi) := by
    have := congrArg Complex.im hk
    simpa using this
  have hk0 : k = 0 := by
    have hg1 : 0 ≤ (rectangular n U).2.gammas r := hg.1
    have hg2 : (rectangular n U).2.gammas r < 2 * Real.pi := hg.2
    have hpi := Real.pi_pos
    have a1 : (k : ℝ) < 1 := by by_contra hc; push Not at hc; nlinarith
    have a2 : -1 < (k : ℝ) := by by_contra hc; push Not at hc; nlinarith
    have b1 : k < 1 := by exact_mod_cast a1
    have b2 : -1 < k := by exact_mod_cast a2
    omega
  rw [hre, hk0]
  simp

/-- C208 is not empty: the mesh for five rails has ten nodes in five columns, and half-open couplers with any phase are generic. -/
theorem C208_case (u0 : Matrix (Fin 5) (Fin 5) ℂ) : (rectangular 5 u0).1.nodes.length = 10 ∧
    (executionOrder (rectangular 5 u0).1.nodes).map (fun a => (a.top, a.column)) =
      [(0, 0), (2, 0), (1, 1), (3, 1), (0, 2), (2, 2), (1, 3), (3, 3), (0, 4), (2, 4)] ∧
    GenericPhases (rectangular 5 u0).1.nodes ⟨fun _ => Real.pi / 2, fun k => k / 2, fun _ => 1⟩ := by
  have hl : ∀ a ∈ rectNodes 5 5, a.id < 10 := by decide +kernel
  have hp := Real.pi_gt_three
  refine ⟨by show (rectNodes 5 5).length = 10; decide +kernel, by
    show (executionOrder (rectNodes 5 5)).map (fun a => (a.top, a.column)) = _; decide +kernel, fun a ha => ⟨⟨by simp only; linarith, by simp only; linarith⟩, by positivity, ?_⟩⟩
  have h1 : a.id < 10 := hl a ha
  have h2 : (a.id : ℝ) ≤ 9 := by exact_mod_cast (show a.id ≤ 9 by omega)
  simp only
  linarith

end Simphox
