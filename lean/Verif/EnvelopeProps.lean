import Verif.Envelope

/-! # `envelope.py` against the meshes it sizes (C108) -/

namespace Simphox

theorem ceilLog2_eq (n : ℕ) : ceilLog2 n = (Nat.clog 2 n : ℕ) := by
  rw [ceilLog2]
  have := Real.ceil_logb_natCast (b := 2) (r := (n : ℝ)) (by positivity)
  rw [show ((2 : ℕ) : ℝ) = 2 by norm_num] at this
  rw [this, Int.clog_natCast]
  norm_cast

theorem ceilLog2_tree {n : ℕ} (hn : 2 ≤ n) : ceilLog2 n = (numColumns (tree n n true) : ℝ) := by
  rw [ceilLog2_eq, numColumns_tree hn]
  rfl

/-- C108 (partial: `n ≥ 3`). The `layers` entry of `rectangular_depth_size` is the number of columns of the
balanced input tree on `n` rails, plus one rectangular mesh (two with `svd`), plus one layer of attenuators
with `svd`. -/
theorem C108_rectangular_layers_partial (n : ℕ) (hn : 3 ≤ n) (pitch device lossDb : ℝ) (svd : Bool)
    (u : Matrix (Fin n) (Fin n) ℂ) :
    (rectangularDepthSize n pitch device lossDb svd).layers =
      numColumns (tree n n true) + (if svd then 2 * numColumns (rectangular n u).1.nodes + 1
        else numColumns (rectangular n u).1.nodes : ℕ) := by
  have h1 := ceilLog2_tree (n := n) (by omega)
  have h2 : numColumns (rectangular n u).1.nodes = n := by
    rcases rectNodes_numColumns (n := n) (by omega) with h | h
    · omega
    · exact h.2
  rw [h2]
  cases svd <;> simp [rectangularDepthSize, envelopeOf, h1]
  ring

/-- C108 fails at `n = 2`: the estimate counts two columns per rectangular mesh, the mesh has one. -/
theorem C108_rectangular_layers_counterexample (pitch device lossDb : ℝ) (svd : Bool)
    (u : Matrix (Fin 2) (Fin 2) ℂ) :
    (rectangularDepthSize 2 pitch device lossDb svd).layers =
      numColumns (tree 2 2 true) + (if svd then 2 * numColumns (rectangular 2 u).1.nodes + 1
        else numColumns (rectangular 2 u).1.nodes : ℕ) + (if svd then 2 else 1) := by
  have h1 := ceilLog2_tree (n := 2) le_rfl
  have h2 : numColumns (rectangular 2 u).1.nodes = 1 := by
    rcases rectNodes_numColumns (n := 2) le_rfl with h | h
    · exact h.2
    · omega
  rw [h2]
  cases svd <;> simp [rectangularDepthSize, envelopeOf, h1] <;> ring

/-- C108. `binary_svd_depth_size(n, k)` counts `k + 1` balanced trees on `n` rails, each followed by one more
layer. -/
theorem C108_binary_svd_layers (n : ℕ) (hn : 2 ≤ n) (k : ℕ) (pitch device lossDb : ℝ) :
    (binarySvdDepthSize n k pitch device lossDb).layers = ((k + 1) * (numColumns (tree n n true) + 1) : ℕ) := by
  simp only [binarySvdDepthSize, envelopeOf, ceilLog2_tree hn]
  push_cast
  ring

/-- C108. `binary_equiv_cascade_size(n, n_equiv)` uses the least whole number of inputs whose product with
`n` reaches `n_equiv²`, and that many balanced trees plus the input tree, each followed by one layer. -/
theorem C108_equiv_layers (n : ℕ) (hn : 2 ≤ n) (nEquiv : ℕ) (pitch device lossDb : ℝ) :
    ∃ k : ℕ, nEquiv ^ 2 ≤ k * n ∧ (∀ j, nEquiv ^ 2 ≤ j * n → k ≤ j) ∧
      (binaryEquivCascadeSize n nEquiv pitch device lossDb).layers =
        ((k + 1) * (numColumns (tree n n true) + 1) : ℕ) := by
  have hn0 : (0 : ℝ) < n := by exact_mod_cast (by omega : 0 < n)
  have h0 : 0 ≤ ⌈(nEquiv : ℝ) ^ 2 / n⌉ := Int.ceil_nonneg (by positivity)
  obtain ⟨k, hk⟩ := Int.eq_ofNat_of_zero_le h0
  refine ⟨k, ?_, ?_, ?_⟩
  · have := Int.le_ceil ((nEquiv : ℝ) ^ 2 / n)
    rw [hk, div_le_iff₀ hn0] at this
    exact_mod_cast this
  · intro j hj
    have : ⌈(nEquiv : ℝ) ^ 2 / n⌉ ≤ (j : ℤ) := by
      rw [Int.ceil_le, div_le_iff₀ hn0]
      exact_mod_cast hj
    rw [hk] at this
    exact_mod_cast this
  · simp only [binaryEquivCascadeSize, envelopeOf, equivInputs, ceilLog2_tree hn, hk]
    push_cast
    ring

/-- C108. In all three tables the footprint in cm² is the length in cm times the height in cm. -/
theorem C108_footprint (n k : ℕ) (pitch device lossDb : ℝ) (svd : Bool) (e : Envelope)
    (he : e = binarySvdDepthSize n k pitch device lossDb ∨ e = rectangularDepthSize n pitch device lossDb svd ∨
      e = binaryEquivCascadeSize n k pitch device lossDb) : e.footprint = e.length * e.height := by
  rcases he with rfl | rfl | rfl
  · simp only [binarySvdDepthSize, envelopeOf]; ring
  · simp only [rectangularDepthSize, envelopeOf]; ring
  · simp only [binaryEquivCascadeSize, envelopeOf]; ring

/-- C108. A larger rectangular mesh never needs fewer layers, less area, or loses less light. -/
theorem C108_rectangular_monotone {m n : ℕ} (hm : 1 ≤ m) (h : m ≤ n) {pitch device lossDb : ℝ} (hp : 0 ≤ pitch)
    (hd : 0 ≤ device) (hl : 0 ≤ lossDb) (svd : Bool) :
    let a := rectangularDepthSize m pitch device lossDb svd
    let b := rectangularDepthSize n pitch device lossDb svd
    a.layers ≤ b.layers ∧ a.length ≤ b.length ∧ a.height ≤ b.height ∧ a.footprint ≤ b.footprint ∧
      b.loss ≤ a.loss := by
  intro a b
  have h' : (m : ℝ) ≤ n := by exact_mod_cast h
  have h1 : ceilLog2 m ≤ ceilLog2 n := by
    rw [ceilLog2_eq, ceilLog2_eq]; exact_mod_cast Nat.clog_mono_right 2 h
  have h0 : 0 ≤ ceilLog2 m := by rw [ceilLog2_eq]; positivity
  have hlay : a.layers ≤ b.layers := by
    simp only [a, b, rectangularDepthSize, envelopeOf]
    cases svd <;> simp <;> linarith
  have ha0 : 0 ≤ a.layers := by
    simp only [a, rectangularDepthSize, envelopeOf]
    cases svd <;> simp <;> positivity
  have hlen : a.length ≤ b.length := by
    change device * a.layers / 1e4 ≤ device * b.layers / 1e4
    gcongr
  have hhei : a.height ≤ b.height := by
    change (m : ℝ) * pitch / 1e4 ≤ n * pitch / 1e4
    gcongr
  refine ⟨hlay, hlen, hhei, ?_, ?_⟩
  · change device * a.layers * (m * pitch) / 1e8 ≤ device * b.layers * (n * pitch) / 1e8
    have := ha0.trans hlay
    gcongr
  · change -b.layers * lossDb - 10 * Real.logb 10 n - 3 * (if svd then 1 else 0) ≤
      -a.layers * lossDb - 10 * Real.logb 10 m - 3 * (if svd then 1 else 0)
    have hlog : Real.logb 10 m ≤ Real.logb 10 n :=
      Real.logb_le_logb_of_le (by norm_num) (by exact_mod_cast hm) h'
    have := mul_le_mul_of_nonneg_right hlay hl
    linarith

/-- C108, losses. The transmission `10^(loss/10)` of the tables: every layer transmits `10^(-loss_db/10)`, light is shared by `n` guides (and by the
`ceil(n/k)` rows of the binary architecture), and an SVD architecture gives away another 3 dB. -/
theorem C108_losses (n k : ℕ) (hn : 1 ≤ n) (hk : 1 ≤ k) (pitch device lossDb : ℝ) (svd : Bool) :
    let layer : ℝ := (10 : ℝ) ^ (-lossDb / 10)
    let a := binarySvdDepthSize n k pitch device lossDb
    let b := rectangularDepthSize n pitch device lossDb svd
    let c := binaryEquivCascadeSize n k pitch device lossDb
    (10 : ℝ) ^ (a.loss / 10) = layer ^ a.layers * (1 / (⌈(n : ℝ) / k⌉ : ℤ)) * (1 / n) * (10 : ℝ) ^ (-3 / 10 : ℝ) ∧
    (10 : ℝ) ^ (b.loss / 10) = layer ^ b.layers * (1 / n) * (if svd then (10 : ℝ) ^ (-3 / 10 : ℝ) else 1) ∧
    (10 : ℝ) ^ (c.loss / 10) = layer ^ c.layers * (1 / n) ∧
    a.height * 1e4 = ⌈(n : ℝ) / k⌉ * n * pitch ∧ b.height * 1e4 = n * pitch ∧ c.height * 1e4 = n * pitch ∧
    ∀ e, (e = a ∨ e = b ∨ e = c) → e.length * 1e4 = device * e.layers := by
  intro layer a b c
  have hn' : (0 : ℝ) < n := by exact_mod_cast hn
  have hk' : (0 : ℝ) < k := by exact_mod_cast hk
  have hr : (0 : ℝ) < ((⌈(n : ℝ) / k⌉ : ℤ) : ℝ) := by
    exact_mod_cast Int.ceil_pos.2 (div_pos hn' hk')
  have h10 : (0 : ℝ) < 10 := by norm_num
  have db : ∀ x : ℝ, 0 < x → (10 : ℝ) ^ (10 * Real.logb 10 x / 10) = x := by
    intro x hx
    rw [show 10 * Real.logb 10 x / 10 = Real.logb 10 x by ring, Real.rpow_logb h10 (by norm_num) hx]
  have lay : ∀ l : ℝ, layer ^ l = (10 : ℝ) ^ (-l * lossDb / 10) := by
    intro l
    rw [← Real.rpow_mul h10.le]
    congr 1
    ring
  have hei : ∀ l g p d s : ℝ, (envelopeOf l g p d s).height * 1e4 = g * p := by
    intros; simp only [envelopeOf]; ring
  refine ⟨?_, ?_, ?_, hei _ _ _ _ _, hei _ _ _ _ _, hei _ _ _ _ _, ?_⟩
  · simp only [lay]
    show (10 : ℝ) ^ ((-a.layers * lossDb + 10 * Real.logb 10 (1 / ((⌈(n : ℝ) / k⌉ : ℤ) : ℝ)) + 10 * Real.logb 10 (1 / n) - 3) / 10) = _
    rw [show (-a.layers * lossDb + 10 * Real.logb 10 (1 / ((⌈(n : ℝ) / k⌉ : ℤ) : ℝ)) + 10 * Real.logb 10 (1 / n) - 3) / 10 =
      -a.layers * lossDb / 10 + 10 * Real.logb 10 (1 / ((⌈(n : ℝ) / k⌉ : ℤ) : ℝ)) / 10 + 10 * Real.logb 10 (1 / n) / 10 + (-3 / 10) by ring,
      Real.rpow_add h10, Real.rpow_add h10, Real.rpow_add h10, db _ (by positivity), db _ (by positivity)]
  · simp only [lay]
    show (10 : ℝ) ^ ((-b.layers * lossDb - 10 * Real.logb 10 n - 3 * (if svd then 1 else 0)) / 10) = _
    rw [show (-b.layers * lossDb - 10 * Real.logb 10 n - 3 * (if svd then 1 else 0)) / 10 =
      -b.layers * lossDb / 10 + 10 * Real.logb 10 (1 / n) / 10 + (-3 * (if svd then 1 else 0) / 10) by
        rw [one_div, Real.logb_inv]; ring,
      Real.rpow_add h10, Real.rpow_add h10, db _ (by positivity)]
    cases svd <;> simp
  · simp only [lay]
    show (10 : ℝ) ^ ((-c.layers * lossDb + 10 * Real.logb 10 (1 / n)) / 10) = _
    rw [add_div, Real.rpow_add h10, db _ (by positivity)]
  · have len : ∀ l g p d s : ℝ, (envelopeOf l g p d s).length * 1e4 = d * (envelopeOf l g p d s).layers := by
      intros; simp only [envelopeOf]; ring
    rintro e (rfl | rfl | rfl) <;> exact len _ _ _ _ _

/-- Non-vacuity: 64 rails with `svd` take 6 input layers, two meshes of 64 columns and the attenuators. -/
example : (rectangularDepthSize 64 25 200 0.3 true).layers = 135 := by
  rw [C108_rectangular_layers_partial 64 (by norm_num) _ _ _ _ 0]
  have h2 : numColumns (rectangular 64 0).1.nodes = 64 := by
    rcases rectNodes_numColumns (n := 64) (by norm_num) with h | h
    · omega
    · exact h.2
  rw [h2, numColumns_tree (by norm_num)]
  norm_num [treeDepth, show Nat.clog 2 64 = 6 by decide +kernel]

end Simphox
