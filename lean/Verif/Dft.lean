import Verif.ButterflyProps
import Verif.MeshLemmas
import Mathlib.Analysis.SpecialFunctions.Complex.Circle
import Mathlib.Algebra.BigOperators.Field
import Mathlib.Data.Fintype.BigOperators

/-! # The butterfly mesh: paths (C194) and the discrete Fourier transform (C195)

`butterfly(2^k)` joins in column `c` the rails that differ in bit `c` only. So there is exactly one path from
any input to any output, and every matrix entry is the product of the elements met on it (C194). With all
`thetas = pi/2` and explicit `phis`, `gammas` the mesh is the discrete Fourier transform of its inputs taken
in bit-reversed order (C195). -/

namespace Simphox

open Complex

/-! ### Specification -/

/-- The number with the `k` lowest bits of `j` in reverse order. -/
def bitrev : ℕ → ℕ → ℕ
  | 0, _ => 0
  | k + 1, j => (j % 2) * 2 ^ k + bitrev k (j / 2)

/-- The discrete Fourier transform of length `n` with root of unity `exp(-2πi s/n)`: `np.fft.fft` for `s = 1`,
`n * np.fft.ifft` for `s = -1`. -/
noncomputable def dft (s : ℤ) (n : ℕ) (x : ℕ → ℂ) (i : ℕ) : ℂ :=
  ∑ m ∈ Finset.range n, x m * exp (-(2 * Real.pi * I * s * i * m / n))

/-- The settings `thetas[:] = pi/2`, `phis[k] = 2*pi*s*(node.top % 2**c)/2**(c+1)` for the `k`-th node of the
mesh and its column `c`, and `gammas[r] = -2*pi*s*sum((r % 2**c)/2**(c+1) for c in range(k)) - 3*pi*k/4`. -/
noncomputable def dftParams (s : ℤ) (k : ℕ) : Params where
  thetas := fun _ => Real.pi / 2
  phis := fun q => ((butterfly (2 ^ k) (2 ^ k)).map fun a =>
    2 * Real.pi * s * (a.top % 2 ^ a.column : ℕ) / 2 ^ (a.column + 1)).getD q 0
  gammas := fun r => -(∑ c ∈ Finset.range k, 2 * Real.pi * s * (r % 2 ^ c : ℕ) / 2 ^ (c + 1)) - 3 * Real.pi * k / 4

/-! ### Structure -/

/-- In column `j` the upper rail of a node has bit `j` equal to zero. -/
theorem butterflyNodes_even (R : ℕ) : ∀ k q c, ∀ a ∈ butterflyNodes (2 ^ k) R (q * 2 ^ k) c,
    a.top / 2 ^ (k - 1 - (a.column - c)) % 2 = 0
  | 0, q, c => by
    rw [butterflyNodes_one (by norm_num)]
    simp
  | k + 1, q, c => by
    intro a ha
    have hk : 2 ≤ 2 ^ (k + 1) := by
      rw [pow_succ]; have := Nat.one_le_two_pow (n := k); omega
    have h2 : 2 ^ (k + 1) / 2 = 2 ^ k := by rw [pow_succ]; omega
    have h3 : 2 ^ (k + 1) - 2 ^ k = 2 ^ k := by rw [pow_succ]; omega
    rw [butterflyNodes_mem hk, h2, h3] at ha
    have e1 : q * 2 ^ (k + 1) = (2 * q) * 2 ^ k := by rw [pow_succ]; ring
    have e2 : q * 2 ^ (k + 1) + 2 ^ k = (2 * q + 1) * 2 ^ k := by rw [pow_succ]; ring
    rcases ha with ⟨i, hi, rfl⟩ | ha | ha
    · simp only [Nat.sub_self, Nat.add_sub_cancel, Nat.sub_zero]
      rw [e1, Nat.mul_comm (2 * q), Nat.mul_add_div (Nat.two_pow_pos k), Nat.div_eq_of_lt hi]
      omega
    · rw [e1] at ha
      have hb := butterflyNodes_bounds R _ _ _ a ha
      have := butterflyNodes_even R k (2 * q) (c + 1) a ha
      rwa [show k + 1 - 1 - (a.column - c) = k - 1 - (a.column - (c + 1)) by omega]
    · rw [e2] at ha
      have hb := butterflyNodes_bounds R _ _ _ a ha
      have := butterflyNodes_even R k (2 * q + 1) (c + 1) a ha
      rwa [show k + 1 - 1 - (a.column - c) = k - 1 - (a.column - (c + 1)) by omega]

theorem butterfly_even (k : ℕ) (hk : 1 ≤ k) (a : Node) (ha : a ∈ butterfly (2 ^ k) (2 ^ k)) :
    a.top / 2 ^ a.column % 2 = 0 := by
  obtain ⟨b, hb, e1, e2, e3, e4⟩ := mem_butterfly ha
  have h := butterflyNodes_even (2 ^ k) k 0 0 b (by simpa using hb)
  rw [butterfly_numColumns k _ hk] at e4
  rw [e1, e4]
  simpa using h

theorem butterfly_goodColumn (n R c : ℕ) : GoodColumn (columnNodes (butterfly n R) c) := by
  obtain ⟨-, h2, h3⟩ := C24_any_size n R
  refine ⟨fun a ha => ?_, ?_⟩
  · have := h2 a (List.mem_of_mem_filter ha)
    omega
  · unfold columnNodes
    have hp := (h3.sublist (List.filter_sublist (p := fun a => decide (a.column = c))))
    refine List.Pairwise.imp_of_mem ?_ hp
    intro a b ha hb h
    have h1 : a.column = c := by simpa using (List.mem_filter.1 ha).2
    have h2 : b.column = c := by simpa using (List.mem_filter.1 hb).2
    exact h (by omega)

/-! ### Paths -/

theorem bit_add (t c c' : ℕ) (h : c' < c) : Fin.ofNat 2 ((t + 2 ^ c) / 2 ^ c') = Fin.ofNat 2 (t / 2 ^ c') := by
  obtain ⟨d, rfl⟩ : ∃ d, c = c' + (d + 1) := ⟨c - c' - 1, by omega⟩
  rw [pow_add, Nat.add_mul_div_left _ _ (Nat.two_pow_pos c')]
  apply Fin.ext
  simp only [Fin.ofNat]
  rw [pow_succ]; omega

theorem mod_add (t c c' : ℕ) (h : c' ≤ c) : (t + 2 ^ c) % 2 ^ c' = t % 2 ^ c' := by
  obtain ⟨d, rfl⟩ : ∃ d, c = c' + d := ⟨c - c', by omega⟩
  rw [pow_add, Nat.add_mul_mod_self_left]

/-- The rail on which light from `j` to `i` enters column `c`: the bits below `c` are those of `i`, the others
those of `j`. -/
def pathRail (i j c : ℕ) : ℕ := i % 2 ^ c + 2 ^ c * (j / 2 ^ c)

theorem pathRail_lt {i j c k : ℕ} (hc : c ≤ k) (hj : j < 2 ^ k) : pathRail i j c < 2 ^ k := by
  unfold pathRail
  obtain ⟨d, rfl⟩ : ∃ d, k = c + d := ⟨k - c, by omega⟩
  have h1 : i % 2 ^ c < 2 ^ c := Nat.mod_lt _ (Nat.two_pow_pos c)
  have h2 : j / 2 ^ c < 2 ^ d := by
    rw [Nat.div_lt_iff_lt_mul (Nat.two_pow_pos c), ← pow_add, Nat.add_comm d c]; exact hj
  calc i % 2 ^ c + 2 ^ c * (j / 2 ^ c) < 2 ^ c + 2 ^ c * (j / 2 ^ c) := by omega
    _ = 2 ^ c * (j / 2 ^ c + 1) := by ring
    _ ≤ 2 ^ c * 2 ^ d := Nat.mul_le_mul_left _ h2
    _ = 2 ^ (c + d) := (pow_add _ _ _).symm

theorem columns_path (k : ℕ) (hk : 1 ≤ k) (el : ℕ → Elements) (j : ℕ) (N : ℕ → ℕ → Node)
    (hN : ∀ c < k, ∀ r < 2 ^ k, N c r ∈ butterfly (2 ^ k) (2 ^ k) ∧ (N c r).column = c ∧
      (r = (N c r).top ∨ r = (N c r).bottom)) :
    ∀ c ≤ k, ∀ r < 2 ^ k,
      columnsApply el (butterfly (2 ^ k) (2 ^ k)) (List.range c) (fun r => if r = j then 1 else 0) r =
        if r / 2 ^ c = j / 2 ^ c then ∏ c' ∈ Finset.range c,
          (el (N c' (pathRail r j c')).id).mat (Fin.ofNat 2 (r / 2 ^ c')) (Fin.ofNat 2 (j / 2 ^ c')) else 0 := by
  obtain ⟨-, -, -, hb, hu⟩ := C24_butterfly k hk
  intro c
  induction c with
  | zero => intro _ r _; simp [columnsApply]
  | succ c ih =>
    intro hc r hr
    obtain ⟨a1, a2, a3⟩ := hN c (by omega) r hr
    have hcol : N c r ∈ columnNodes (butterfly (2 ^ k) (2 ^ k)) c := List.mem_filter.2 ⟨a1, by simpa using a2⟩
    obtain ⟨-, b2, b3⟩ := hb _ a1
    have hev := butterfly_even k hk _ a1
    rw [a2] at b3 hev
    have hNu : ∀ r' < 2 ^ k, (r' = (N c r).top ∨ r' = (N c r).bottom) → N c r' = N c r := by
      intro r' hr' h
      obtain ⟨x, -, hx⟩ := hu c (by omega) r' hr'
      obtain ⟨y1, y2, y3⟩ := hN c (by omega) r' hr'
      rw [hx (N c r') ⟨y1, y2, y3⟩, hx (N c r) ⟨a1, a2, h⟩]
    generalize N c r = a at a1 a2 a3 hcol b2 b3 hev hNu
    have htop : a.top < 2 ^ k := lt_of_le_of_lt (by rw [b3]; exact Nat.le_add_right _ _) b2
    have res := parallelTransform_result (el := el) (butterfly_goodColumn (2 ^ k) (2 ^ k) c)
      (columnsApply el (butterfly (2 ^ k) (2 ^ k)) (List.range c) (fun r => if r = j then 1 else 0))
    have hstep : columnsApply el (butterfly (2 ^ k) (2 ^ k)) (List.range (c + 1)) (fun r => if r = j then 1 else 0) =
        parallelTransform el (columnNodes (butterfly (2 ^ k) (2 ^ k)) c)
          (columnsApply el (butterfly (2 ^ k) (2 ^ k)) (List.range c) (fun r => if r = j then 1 else 0)) := by
      unfold columnsApply
      rw [List.range_succ, List.foldl_append, List.foldl_cons, List.foldl_nil]
    rw [hstep]
    have vt := ih (by omega) a.top htop
    have vb := ih (by omega) a.bottom b2
    obtain ⟨p, hp⟩ : ∃ p, ∏ c' ∈ Finset.range c,
          (el (N c' (pathRail a.top j c')).id).mat (Fin.ofNat 2 (a.top / 2 ^ c')) (Fin.ofNat 2 (j / 2 ^ c')) = p := ⟨_, rfl⟩
    have hpb : ∏ c' ∈ Finset.range c,
          (el (N c' (pathRail a.bottom j c')).id).mat (Fin.ofNat 2 (a.bottom / 2 ^ c')) (Fin.ofNat 2 (j / 2 ^ c')) = p := by
      rw [← hp, b3]
      refine Finset.prod_congr rfl fun c' hc' => ?_
      have hc' := Finset.mem_range.1 hc'
      unfold pathRail
      rw [bit_add _ _ _ hc', mod_add _ _ _ hc'.le]
    have hpr : ∏ c' ∈ Finset.range c,
          (el (N c' (pathRail r j c')).id).mat (Fin.ofNat 2 (r / 2 ^ c')) (Fin.ofNat 2 (j / 2 ^ c')) = p := by
      rcases a3 with h | h
      · rw [h]; exact hp
      · rw [h]; exact hpb
    rw [hp] at vt
    rw [hpb] at vb
    have hbd : a.bottom / 2 ^ c = a.top / 2 ^ c + 1 := by
      rw [b3, Nat.add_div_right _ (Nat.two_pow_pos c)]
    have hbm : a.bottom % 2 ^ c = a.top % 2 ^ c := by rw [b3, Nat.add_mod_right]
    have hrm : r % 2 ^ c = a.top % 2 ^ c := by
      rcases a3 with h | h
      · rw [h]
      · rw [h, hbm]
    have hmix0 : j / 2 ^ c = a.top / 2 ^ c → pathRail r j c = a.top := by
      intro h
      unfold pathRail
      rw [hrm, h, Nat.mod_add_div]
    have hmix1 : j / 2 ^ c = a.top / 2 ^ c + 1 → pathRail r j c = a.bottom := by
      intro h
      unfold pathRail
      rw [hrm, h, ← hbd, ← hbm, Nat.mod_add_div]
    rw [Finset.prod_range_succ, hpr, pow_succ, ← Nat.div_div_eq_div_mul, ← Nat.div_div_eq_div_mul]
    rw [hbd] at vb
    by_cases h0 : j / 2 ^ c = a.top / 2 ^ c
    · rw [if_pos h0.symm] at vt
      rw [if_neg (by omega)] at vb
      rw [hmix0 h0, hNu _ htop (Or.inl rfl)]
      have hbj : Fin.ofNat 2 (j / 2 ^ c) = 0 := by
        apply Fin.ext; simp only [Fin.ofNat]; rw [h0, hev]; rfl
      rw [hbj]
      rcases a3 with h | h
      · subst h
        have hbr : Fin.ofNat 2 (a.top / 2 ^ c) = 0 := by
          apply Fin.ext; simp only [Fin.ofNat]; rw [hev]; rfl
        rw [res.top a hcol, vt, vb, if_pos (by omega), hbr]
        simp [Elements.mat]; ring
      · subst h
        have hbr : Fin.ofNat 2 (a.bottom / 2 ^ c) = 1 := by
          apply Fin.ext; simp only [Fin.ofNat]; rw [hbd]; show _ = 1; omega
        rw [res.bottom a hcol, vt, vb, if_pos (by omega), hbr]
        simp [Elements.mat]; ring
    · rw [if_neg (by omega)] at vt
      by_cases h1 : j / 2 ^ c = a.top / 2 ^ c + 1
      · rw [if_pos h1.symm] at vb
        rw [hmix1 h1, hNu _ b2 (Or.inr rfl)]
        have hbj : Fin.ofNat 2 (j / 2 ^ c) = 1 := by
          apply Fin.ext; simp only [Fin.ofNat]; rw [h1]; show _ = 1; omega
        rw [hbj]
        rcases a3 with h | h
        · subst h
          have hbr : Fin.ofNat 2 (a.top / 2 ^ c) = 0 := by
            apply Fin.ext; simp only [Fin.ofNat]; rw [hev]; rfl
          rw [res.top a hcol, vt, vb, if_pos (by omega), hbr]
          simp [Elements.mat]; ring
        · subst h
          have hbr : Fin.ofNat 2 (a.bottom / 2 ^ c) = 1 := by
            apply Fin.ext; simp only [Fin.ofNat]; rw [hbd]; show _ = 1; omega
          rw [res.bottom a hcol, vt, vb, if_pos (by omega), hbr]
          simp [Elements.mat]; ring
      · rw [if_neg (by omega)] at vb
        rcases a3 with h | h
        · subst h
          rw [res.top a hcol, vt, vb, if_neg (by omega)]; ring
        · subst h
          rw [res.bottom a hcol, vt, vb, if_neg (by omega)]; ring

/-- C194: every entry of the matrix of a butterfly mesh (any style, errors, losses and phases) is the product
of the elements on the only path from input `j` to output `i`, times the output phase. `path c` is the node of
column `c` on the rail `pathRail i j c`; it exists and is unique by C24. -/
theorem C194_paths (k : ℕ) (hk : 1 ≤ k) (M : Mesh) (hM : M.nodes = butterfly (2 ^ k) (2 ^ k)) (P : Params)
    (i j : Fin (2 ^ k)) (path : ℕ → Node)
    (hpath : ∀ c < k, path c ∈ M.nodes ∧ (path c).column = c ∧
      (pathRail i j c = (path c).top ∨ pathRail i j c = (path c).bottom)) :
    M.matrix (2 ^ k) P false i j = exp (I * P.gammas i) *
      ∏ c ∈ Finset.range k, (M.elements P false (path c).id).mat (Fin.ofNat 2 (i / 2 ^ c)) (Fin.ofNat 2 (j / 2 ^ c)) := by
  obtain ⟨-, -, hnc, -, hu⟩ := C24_butterfly k hk
  have hex : ∀ c r, ∃ a : Node, c < k → r < 2 ^ k → a ∈ butterfly (2 ^ k) (2 ^ k) ∧ a.column = c ∧
      (r = a.top ∨ r = a.bottom) := by
    intro c r
    by_cases h : c < k ∧ r < 2 ^ k
    · obtain ⟨a, ha, -⟩ := hu c h.1 r h.2
      exact ⟨a, fun _ _ => ha⟩
    · exact ⟨default, fun h1 h2 => absurd ⟨h1, h2⟩ h⟩
  choose N hN using hex
  show M.apply P false _ _ = _
  unfold Mesh.apply
  rw [if_neg (by simp)]
  unfold gammaApply columnOrder
  rw [if_neg (by simp), hM, hnc]
  congr 1
  rw [columns_path k hk (M.elements P false) j N (fun c hc r hr => hN c r hc hr) k le_rfl i i.isLt, if_pos]
  · refine Finset.prod_congr rfl fun c hc => ?_
    have hc := Finset.mem_range.1 hc
    have hlt : pathRail i j c < 2 ^ k := pathRail_lt hc.le j.isLt
    obtain ⟨x, -, hx⟩ := hu c hc _ hlt
    rw [hx _ (hN c _ hc hlt), hx (path c) (by have := hpath c hc; rwa [hM] at this)]
  · rw [Nat.div_eq_of_lt i.isLt, Nat.div_eq_of_lt j.isLt]

theorem ideal_elements (nodes : List Node) (style : PhaseStyle) (P : Params) (q : ℕ) :
    (idealMesh nodes style).elements P false q = mziElements style false 0 0 0 0 (P.thetas q) (P.phis q) := by
  have h : ∀ q, ((nodes.map fun _ => ((0 : ℝ), (0 : ℝ))).getD q (0, 0)) = (0, 0) := by
    intro q
    rw [List.getD_eq_getElem?_getD, List.getElem?_map]
    cases nodes[q]? <;> rfl
  unfold Mesh.elements idealMesh
  simp only [h]

theorem exp_half_pi : exp (I * ((Real.pi / 2 : ℝ) : ℂ)) = I := by
  rw [mul_comm, exp_mul_I, ← Complex.ofReal_cos, ← Complex.ofReal_sin, Real.cos_pi_div_two, Real.sin_pi_div_two]
  simp

theorem terms_ideal : mziTerms 0 0 = ⟨1 / 2, 1 / 2, 1 / 2, 1 / 2⟩ := by
  have h : Real.sqrt 2 / 2 * (Real.sqrt 2 / 2) = 1 / 2 := by
    have := Real.mul_self_sqrt (show (0:ℝ) ≤ 2 by norm_num)
    nlinarith
  unfold mziTerms
  simp only [add_zero, Real.cos_pi_div_four, Real.sin_pi_div_four, h]

theorem split_aux (g z : ℂ) (hg : Complex.normSq g = 1 / 2) (hz : z.re = 0) : ‖g * exp z‖ ^ 2 = 1 / 2 := by
  rw [norm_mul, Complex.norm_exp, hz, Real.exp_zero, mul_one, ← Complex.normSq_eq_norm_sq, hg]

theorem split_aux1 (g : ℂ) (hg : Complex.normSq g = 1 / 2) : ‖g‖ ^ 2 = 1 / 2 := by
  rw [← Complex.normSq_eq_norm_sq, hg]

theorem half_split (style : PhaseStyle) {nodes : List Node} (P : Params) (q : ℕ) (h : P.thetas q = Real.pi / 2)
    (o b : Fin 2) : ‖((idealMesh nodes style).elements P false q).mat o b‖ ^ 2 = 1 / 2 := by
  rw [ideal_elements, h]
  have hz : I * ((Real.pi / 2 : ℝ) : ℂ) + ((Real.log 10 * 0 / 20 : ℝ) : ℂ) = I * ((Real.pi / 2 : ℝ) : ℂ) := by simp
  cases style <;> simp only [mziElements, terms_ideal, Elements.mat, hz, exp_half_pi] <;>
    fin_cases o <;> fin_cases b <;>
    first
    | exact split_aux _ _ (by norm_num [Complex.normSq_apply]) (by simp)
    | exact split_aux1 _ (by norm_num [Complex.normSq_apply])

/-- C194: in a lossless butterfly mesh with perfect couplers and all `thetas = pi/2` every output gets the
fraction `1/2^k` of the power of every input, whatever `phis` and `gammas` are. -/
theorem C194_equal_splitting (k : ℕ) (hk : 1 ≤ k) (P : Params) (hP : ∀ q, P.thetas q = Real.pi / 2)
    (style : PhaseStyle) (i j : Fin (2 ^ k)) :
    ‖(idealMesh (butterfly (2 ^ k) (2 ^ k)) style).matrix (2 ^ k) P false i j‖ ^ 2 = 1 / 2 ^ k := by
  obtain ⟨-, -, hnc, -, hu⟩ := C24_butterfly k hk
  have hex : ∀ c, ∃ a : Node, c < k → a ∈ butterfly (2 ^ k) (2 ^ k) ∧ a.column = c ∧
      (pathRail i j c = a.top ∨ pathRail i j c = a.bottom) := by
    intro c
    by_cases h : c < k
    · obtain ⟨a, ha, -⟩ := hu c h _ (pathRail_lt h.le j.isLt)
      exact ⟨a, fun _ => ha⟩
    · exact ⟨default, fun h1 => absurd h1 h⟩
  choose path hpath using hex
  rw [C194_paths k hk _ rfl P i j path hpath, norm_mul, norm_exp_I, one_mul, norm_prod, ← Finset.prod_pow]
  rw [Finset.prod_congr rfl (g := fun _ => (1 / 2 : ℝ))]
  · simp
  · intro c _
    exact half_split style P (path c).id (hP _) _ _

/-! ### The discrete Fourier transform -/

theorem bitrev_lt : ∀ k j, bitrev k j < 2 ^ k
  | 0, _ => by simp [bitrev]
  | k + 1, j => by
    have := bitrev_lt k (j / 2)
    have h2 : j % 2 < 2 := Nat.mod_lt _ (by norm_num)
    unfold bitrev
    rw [pow_succ]
    have : (j % 2) * 2 ^ k ≤ 1 * 2 ^ k := Nat.mul_le_mul_right _ (by omega)
    omega

theorem bitrev_inj : ∀ k, ∀ i < 2 ^ k, ∀ j < 2 ^ k, bitrev k i = bitrev k j → i = j
  | 0 => by intro i hi j hj _; simp at hi hj; omega
  | k + 1 => by
    intro i hi j hj h
    unfold bitrev at h
    rw [pow_succ] at hi hj
    have b1 := bitrev_lt k (i / 2)
    have b2 := bitrev_lt k (j / 2)
    have m : i % 2 = j % 2 := by
      rcases Nat.mod_two_eq_zero_or_one i with hi2 | hi2 <;> rcases Nat.mod_two_eq_zero_or_one j with hj2 | hj2 <;>
        rw [hi2, hj2] at h <;> omega
    rw [m] at h
    have := bitrev_inj k (i / 2) (by omega) (j / 2) (by omega) (by omega)
    omega

/-- `i * bitrev k j / 2^k` as a sum over the bits of `j`. -/
theorem bitrev_sum (x : ℂ) : ∀ k j, x * (bitrev k j : ℂ) / 2 ^ k =
    ∑ c ∈ Finset.range k, x * ((j / 2 ^ c % 2 : ℕ) : ℂ) / 2 ^ (c + 1)
  | 0, j => by simp [bitrev]
  | k + 1, j => by
    rw [Finset.sum_range_succ', bitrev]
    have h : ∑ c ∈ Finset.range k, x * ((j / 2 ^ (c + 1) % 2 : ℕ) : ℂ) / 2 ^ (c + 1 + 1) =
        (∑ c ∈ Finset.range k, x * ((j / 2 / 2 ^ c % 2 : ℕ) : ℂ) / 2 ^ (c + 1)) / 2 := by
      rw [Finset.sum_div]
      refine Finset.sum_congr rfl fun c _ => ?_
      rw [Nat.div_div_eq_div_mul, pow_succ 2 c, Nat.mul_comm (2 ^ c) 2, pow_succ (2 : ℂ) (c + 1)]
      field_simp
    rw [h, ← bitrev_sum x k (j / 2)]
    push_cast
    simp only [Nat.div_one]
    field_simp
    ring

/-- The elements of a node with `theta = pi/2` in TOP style. -/
theorem top_half_elements (nodes : List Node) (P : Params) (q : ℕ) (h : P.thetas q = Real.pi / 2) (o b : Fin 2) :
    ((idealMesh nodes .top).elements P false q).mat o b =
      (-1 + I) / 2 * ((if b = 0 then exp (I * P.phis q) else 1) * (if o = 1 ∧ b = 1 then -1 else 1)) := by
  rw [ideal_elements, h]
  have hz : I * ((Real.pi / 2 : ℝ) : ℂ) + ((Real.log 10 * 0 / 20 : ℝ) : ℂ) = I * ((Real.pi / 2 : ℝ) : ℂ) := by simp
  simp only [mziElements, terms_ideal, Elements.mat, hz, exp_half_pi]
  fin_cases o <;> fin_cases b <;> simp <;> ring_nf <;> simp <;> ring

theorem global_phase : ((-1 + I) / 2 : ℂ) * exp (I * ((-(3 * Real.pi / 4) : ℝ) : ℂ)) = ((Real.sqrt 2)⁻¹ : ℝ) := by
  have hc : Real.cos (-(3 * Real.pi / 4)) = -(Real.sqrt 2 / 2) := by
    rw [Real.cos_neg, show 3 * Real.pi / 4 = Real.pi - Real.pi / 4 by ring, Real.cos_pi_sub, Real.cos_pi_div_four]
  have hs : Real.sin (-(3 * Real.pi / 4)) = -(Real.sqrt 2 / 2) := by
    rw [Real.sin_neg, show 3 * Real.pi / 4 = Real.pi - Real.pi / 4 by ring, Real.sin_pi_sub, Real.sin_pi_div_four]
  rw [mul_comm I, exp_mul_I, ← Complex.ofReal_cos, ← Complex.ofReal_sin, hc, hs]
  have : (Real.sqrt 2)⁻¹ = Real.sqrt 2 / 2 := by
    rw [inv_eq_one_div, div_eq_div_iff (by positivity) (by norm_num), Real.mul_self_sqrt (by norm_num)]
    norm_num
  rw [this]
  apply Complex.ext <;> simp <;> ring

/-- One factor of the twiddle phases. -/
theorem twiddle (s : ℤ) (hs : Odd s) (i j c : ℕ) :
    exp (-(2 * Real.pi * I * s * (i * ((j / 2 ^ c % 2 : ℕ) : ℂ) / 2 ^ (c + 1)))) =
      exp (I * ((-(2 * Real.pi * s * (i % 2 ^ c : ℕ) / 2 ^ (c + 1)) : ℝ) : ℂ)) *
      ((if Fin.ofNat 2 (j / 2 ^ c) = 0 then exp (I * ((2 * Real.pi * s * (i % 2 ^ c : ℕ) / 2 ^ (c + 1) : ℝ) : ℂ)) else 1) *
      (if Fin.ofNat 2 (i / 2 ^ c) = 1 ∧ Fin.ofNat 2 (j / 2 ^ c) = 1 then -1 else 1)) := by
  have hb : ∀ x : ℕ, x % 2 = 0 → Fin.ofNat 2 x = 0 := fun x h => Fin.ext h
  have hb1 : ∀ x : ℕ, x % 2 = 1 → Fin.ofNat 2 x = 1 := fun x h => Fin.ext h
  rcases Nat.mod_two_eq_zero_or_one (j / 2 ^ c) with h | h
  · rw [hb _ h, h, if_pos rfl, if_neg (by simp), mul_one, ← Complex.exp_add]
    congr 1
    push_cast; ring
  · rw [hb1 _ h, h, if_neg (by decide), one_mul]
    have hi : (i : ℂ) = 2 ^ (c + 1) * ((i / 2 ^ c / 2 : ℕ) : ℂ) + 2 ^ c * ((i / 2 ^ c % 2 : ℕ) : ℂ) + ((i % 2 ^ c : ℕ) : ℂ) := by
      have e1 := Nat.div_add_mod i (2 ^ c)
      have e2 := Nat.div_add_mod (i / 2 ^ c) 2
      have : i = 2 ^ (c + 1) * (i / 2 ^ c / 2) + 2 ^ c * (i / 2 ^ c % 2) + i % 2 ^ c := by
        rw [pow_succ]
        calc i = 2 ^ c * (i / 2 ^ c) + i % 2 ^ c := e1.symm
          _ = 2 ^ c * (2 * (i / 2 ^ c / 2) + i / 2 ^ c % 2) + i % 2 ^ c := by rw [e2]
          _ = _ := by ring
      exact_mod_cast this
    obtain ⟨m, rfl⟩ := hs
    have e0 : ∀ N : ℤ, exp (N * (2 * Real.pi * I)) = 1 := fun N => Complex.exp_int_mul_two_pi_mul_I N
    have hne : (2 : ℂ) ^ c ≠ 0 := pow_ne_zero _ two_ne_zero
    obtain ⟨q, hq⟩ : ∃ q, i / 2 ^ c / 2 = q := ⟨_, rfl⟩
    rw [hq] at hi
    rcases Nat.mod_two_eq_zero_or_one (i / 2 ^ c) with h' | h'
    · rw [hb _ h', if_neg (by simp), mul_one]
      rw [h'] at hi
      have := e0 (-((2 * m + 1) * q))
      rw [← mul_one (exp (I * _)), ← this, ← Complex.exp_add]
      congr 1
      rw [hi]
      push_cast
      rw [pow_succ]
      field_simp
      ring
    · rw [hb1 _ h', if_pos ⟨rfl, rfl⟩]
      rw [h'] at hi
      have := e0 (-((2 * m + 1) * q) - m - 1)
      rw [show (-1 : ℂ) = exp (Real.pi * I) from Complex.exp_pi_mul_I.symm, ← mul_one (exp (I * _)), ← this,
        ← Complex.exp_add, ← Complex.exp_add]
      congr 1
      rw [hi]
      push_cast
      rw [pow_succ]
      field_simp
      ring

/-- C195: with the settings `dftParams` the entry `(i, j)` of the matrix of `butterfly(2^k)` is
`exp(-2πi s i bitrev(j)/2^k)/√(2^k)`, for every odd `s`. -/
theorem C195_dft_matrix (k : ℕ) (hk : 1 ≤ k) (s : ℤ) (hs : Odd s) (i j : Fin (2 ^ k)) :
    (idealMesh (butterfly (2 ^ k) (2 ^ k)) .top).matrix (2 ^ k) (dftParams s k) false i j =
      exp (-(2 * Real.pi * I * s * i * bitrev k j / (2 ^ k : ℕ))) / Real.sqrt (2 ^ k) := by
  obtain ⟨hlen, hids, hnc, hb, hu⟩ := C24_butterfly k hk
  have hex : ∀ c, ∃ a : Node, c < k → a ∈ butterfly (2 ^ k) (2 ^ k) ∧ a.column = c ∧
      (pathRail i j c = a.top ∨ pathRail i j c = a.bottom) := by
    intro c
    by_cases h : c < k
    · obtain ⟨a, ha, -⟩ := hu c h _ (pathRail_lt h.le j.isLt)
      exact ⟨a, fun _ => ha⟩
    · exact ⟨default, fun h1 => absurd h1 h⟩
  choose path hpath using hex
  rw [C194_paths k hk _ rfl _ i j path hpath]
  have hphi : ∀ c < k, (dftParams s k).phis (path c).id = 2 * Real.pi * s * ((i : ℕ) % 2 ^ c : ℕ) / 2 ^ (c + 1) := by
    intro c hc
    obtain ⟨p1, p2, p3⟩ := hpath c hc
    obtain ⟨q, hq, e⟩ := List.getElem_of_mem p1
    have hid : (path c).id = q := by
      have : ((butterfly (2 ^ k) (2 ^ k)).map Node.id)[q]'(by simpa using hq) = q := by
        simp only [hids, List.getElem_range]
      rw [List.getElem_map, e] at this
      exact this
    have htop : (path c).top % 2 ^ c = (i : ℕ) % 2 ^ c := by
      have hpr : pathRail i j c % 2 ^ c = (i : ℕ) % 2 ^ c := by
        unfold pathRail; rw [Nat.add_mul_mod_self_left, Nat.mod_mod]
      rw [← hpr]
      rcases p3 with h | h
      · rw [h]
      · have := (hb _ p1).2.2
        rw [p2] at this
        rw [h, this, Nat.add_mod_right]
    unfold dftParams
    simp only
    rw [hid, List.getD_eq_getElem?_getD, List.getElem?_map, List.getElem?_eq_getElem hq, e]
    simp only [Option.map_some, Option.getD_some]
    rw [p2, htop]
  have hgam : exp (I * (dftParams s k).gammas i) = ∏ c ∈ Finset.range k,
      (exp (I * ((-(2 * Real.pi * s * ((i : ℕ) % 2 ^ c : ℕ) / 2 ^ (c + 1)) : ℝ) : ℂ)) *
        exp (I * ((-(3 * Real.pi / 4) : ℝ) : ℂ))) := by
    rw [Finset.prod_mul_distrib, Finset.prod_const, Finset.card_range, ← Complex.exp_nat_mul, ← Complex.exp_sum,
      ← Complex.exp_add]
    congr 1
    unfold dftParams
    simp only
    rw [← Finset.mul_sum, ← Complex.ofReal_sum, Finset.sum_neg_distrib]
    push_cast
    ring
  rw [hgam, ← Finset.prod_mul_distrib]
  have hfac : ∀ c ∈ Finset.range k, (exp (I * ((-(2 * Real.pi * s * ((i : ℕ) % 2 ^ c : ℕ) / 2 ^ (c + 1)) : ℝ) : ℂ)) *
        exp (I * ((-(3 * Real.pi / 4) : ℝ) : ℂ))) *
        ((idealMesh (butterfly (2 ^ k) (2 ^ k)) .top).elements (dftParams s k) false (path c).id).mat
          (Fin.ofNat 2 (i / 2 ^ c)) (Fin.ofNat 2 (j / 2 ^ c)) =
      exp (-(2 * Real.pi * I * s * ((i : ℕ) * (((j : ℕ) / 2 ^ c % 2 : ℕ) : ℂ) / 2 ^ (c + 1)))) * ((Real.sqrt 2)⁻¹ : ℝ) := by
    intro c hc
    rw [top_half_elements _ _ _ rfl, hphi c (Finset.mem_range.1 hc), twiddle s hs i j c, ← global_phase]
    ring
  rw [Finset.prod_congr rfl hfac, Finset.prod_mul_distrib, Finset.prod_const, Finset.card_range, ← Complex.exp_sum]
  have hsq : Real.sqrt (2 ^ k) = Real.sqrt 2 ^ k := by
    rw [Real.sqrt_eq_iff_mul_self_eq (by positivity) (by positivity), ← mul_pow, Real.mul_self_sqrt (by norm_num)]
  rw [hsq]
  have hsum : ∑ c ∈ Finset.range k, -(2 * Real.pi * I * s * ((i : ℕ) * (((j : ℕ) / 2 ^ c % 2 : ℕ) : ℂ) / 2 ^ (c + 1))) =
      -(2 * Real.pi * I * s * i * bitrev k j / (2 ^ k : ℕ)) := by
    rw [Finset.sum_neg_distrib, ← Finset.mul_sum, ← bitrev_sum]
    push_cast
    ring
  rw [hsum, Complex.ofReal_inv, Complex.ofReal_pow, inv_pow, ← div_eq_mul_inv]

/-- C195: sending `x` into the mesh in bit-reversed order returns the discrete Fourier transform of `x`,
normalised to conserve power. -/
theorem C195_dft (k : ℕ) (hk : 1 ≤ k) (s : ℤ) (hs : Odd s) (x : ℕ → ℂ) (i : Fin (2 ^ k)) :
    ((idealMesh (butterfly (2 ^ k) (2 ^ k)) .top).matrix (2 ^ k) (dftParams s k) false).mulVec
      (fun j : Fin (2 ^ k) => x (bitrev k j)) i = dft s (2 ^ k) x i / Real.sqrt (2 ^ k) := by
  show ∑ j : Fin (2 ^ k), (idealMesh (butterfly (2 ^ k) (2 ^ k)) .top).matrix (2 ^ k) (dftParams s k) false i j *
    x (bitrev k j) = _
  unfold dft
  simp only [C195_dft_matrix k hk s hs i, Finset.sum_div]
  rw [← Fin.sum_univ_eq_sum_range (fun m => x m * exp (-(2 * Real.pi * I * s * i * m / (2 ^ k : ℕ))) / Real.sqrt (2 ^ k))]
  let f : Fin (2 ^ k) → Fin (2 ^ k) := fun j => ⟨bitrev k j, bitrev_lt k j⟩
  have hf : Function.Bijective f := by
    rw [← Finite.injective_iff_bijective]
    intro a b h
    exact Fin.ext (bitrev_inj k a a.isLt b b.isLt (congrArg Fin.val h))
  refine Fintype.sum_bijective f hf _ _ fun j => ?_
  simp only [f]
  ring

example : (List.range 8).map (bitrev 3) = [0, 4, 2, 6, 1, 5, 3, 7] := by decide

end Simphox
