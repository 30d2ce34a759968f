import Verif.Dft

/-! # What a butterfly mesh cannot do (C197)

Every input is joined to every output (C194), but the light of a group of inputs reaches a group of outputs
through one common rail. The corresponding block of the matrix has rank one for all settings, so the butterfly
mesh is not a universal mesh. -/

namespace Simphox

open Complex

/-- Agreement of two rails below bit `c` gives agreement of their lower bits. -/
theorem mod_of_mod {i i' c c' : ℕ} (h : i % 2 ^ c = i' % 2 ^ c) (hc : c' ≤ c) : i % 2 ^ c' = i' % 2 ^ c' := by
  have hd : 2 ^ c' ∣ 2 ^ c := pow_dvd_pow 2 hc
  rw [← Nat.mod_mod_of_dvd i hd, ← Nat.mod_mod_of_dvd i' hd, h]

theorem bit_of_mod {i i' c c' : ℕ} (h : i % 2 ^ c = i' % 2 ^ c) (hc : c' < c) :
    Fin.ofNat 2 (i / 2 ^ c') = Fin.ofNat 2 (i' / 2 ^ c') := by
  have h1 := mod_of_mod h (show c' + 1 ≤ c from hc)
  apply Fin.ext
  show i / 2 ^ c' % 2 = i' / 2 ^ c' % 2
  rw [pow_succ] at h1
  rw [← Nat.mod_mul_right_div_self, ← Nat.mod_mul_right_div_self, h1]

theorem div_of_div {j j' c c' : ℕ} (h : j / 2 ^ c = j' / 2 ^ c) (hc : c ≤ c') : j / 2 ^ c' = j' / 2 ^ c' := by
  obtain ⟨d, rfl⟩ : ∃ d, c' = c + d := ⟨c' - c, by omega⟩
  rw [pow_add, ← Nat.div_div_eq_div_mul, ← Nat.div_div_eq_div_mul, h]

theorem butterfly_path (k : ℕ) (hk : 1 ≤ k) : ∃ N : ℕ → ℕ → Node, ∀ c < k, ∀ r < 2 ^ k,
    N c r ∈ butterfly (2 ^ k) (2 ^ k) ∧ (N c r).column = c ∧ (r = (N c r).top ∨ r = (N c r).bottom) := by
  obtain ⟨-, -, -, -, hu⟩ := C24_butterfly k hk
  have hex : ∀ c r, ∃ a : Node, c < k → r < 2 ^ k → a ∈ butterfly (2 ^ k) (2 ^ k) ∧ a.column = c ∧
      (r = a.top ∨ r = a.bottom) := by
    intro c r
    by_cases h : c < k ∧ r < 2 ^ k
    · obtain ⟨a, ha, -⟩ := hu c h.1 r h.2
      exact ⟨a, fun _ _ => ha⟩
    · exact ⟨default, fun h1 h2 => absurd ⟨h1, h2⟩ h⟩
  choose N hN using hex
  exact ⟨N, fun c hc r hr => hN c r hc hr⟩

/-- C197: blocks of rank one. For outputs that agree in the bits below `c` and inputs that agree in the bits from
`c` on, the entries of the matrix of a butterfly mesh satisfy `M[i,j] M[i',j'] = M[i,j'] M[i',j]`, whatever the
style, the errors, the losses and the phases. -/
theorem C197_rank_one (k : ℕ) (hk : 1 ≤ k) (M : Mesh) (hM : M.nodes = butterfly (2 ^ k) (2 ^ k)) (P : Params)
    (c : ℕ) (i i' j j' : Fin (2 ^ k)) (hi : (i : ℕ) % 2 ^ c = (i' : ℕ) % 2 ^ c) (hj : (j : ℕ) / 2 ^ c = (j' : ℕ) / 2 ^ c) :
    M.matrix (2 ^ k) P false i j * M.matrix (2 ^ k) P false i' j' =
      M.matrix (2 ^ k) P false i j' * M.matrix (2 ^ k) P false i' j := by
  obtain ⟨N, hN⟩ := butterfly_path k hk
  have key : ∀ a b : Fin (2 ^ k), M.matrix (2 ^ k) P false a b = exp (I * P.gammas a) *
      ∏ q ∈ Finset.range k, (M.elements P false (N q (pathRail a b q)).id).mat (Fin.ofNat 2 (a / 2 ^ q))
        (Fin.ofNat 2 (b / 2 ^ q)) := fun a b =>
    C194_paths k hk M hM P a b (fun q => N q (pathRail a b q)) fun q hq => by
      rw [hM]; exact hN q hq _ (pathRail_lt hq.le b.isLt)
  simp only [key]
  have aux : ∀ g g' A B C D : ℂ, A * B = C * D → (g * A) * (g' * B) = (g * C) * (g' * D) := by
    intro g g' A B C D h
    rw [mul_mul_mul_comm, h]; ring
  refine aux _ _ _ _ _ _ ?_
  rw [← Finset.prod_mul_distrib, ← Finset.prod_mul_distrib]
  refine Finset.prod_congr rfl fun q _ => ?_
  by_cases h : q < c
  · have hp : ∀ x : ℕ, pathRail i x q = pathRail i' x q := fun x => by
      unfold pathRail; rw [mod_of_mod hi h.le]
    rw [hp, hp, bit_of_mod hi h]
    ring
  · have hp : ∀ x : ℕ, pathRail x j q = pathRail x j' q := fun x => by
      unfold pathRail; rw [div_of_div hj (by omega)]
    rw [hp, hp, div_of_div hj (show c ≤ q by omega)]

/-- C197: not universal. No setting of a butterfly mesh with four or more rails exchanges rails 1 and 2 and
leaves rail 0 alone: no style, errors, losses and phases give a matrix with `M[0,0] = M[2,1] = 1` and
`M[2,0] = 0`. -/
theorem C197_not_universal (k : ℕ) (hk : 2 ≤ k) (M : Mesh) (hM : M.nodes = butterfly (2 ^ k) (2 ^ k)) (P : Params)
    (σ : Equiv.Perm (Fin (2 ^ k))) (hσ : (σ ⟨0, Nat.two_pow_pos k⟩ : ℕ) = 0)
    (h12 : ∀ r : Fin (2 ^ k), (r : ℕ) = 1 → (σ r : ℕ) = 2) :
    M.matrix (2 ^ k) P false ≠ Matrix.of fun i j => if i = σ j then 1 else 0 := by
  intro h
  have h4 : 4 ≤ 2 ^ k := by
    calc 4 = 2 ^ 2 := by norm_num
      _ ≤ 2 ^ k := Nat.pow_le_pow_right (by norm_num) hk
  have hr := C197_rank_one k (by omega) M hM P 1 ⟨0, by omega⟩ ⟨2, by omega⟩ ⟨0, by omega⟩ ⟨1, by omega⟩
    (by norm_num) (by norm_num)
  rw [h] at hr
  have e1 : σ ⟨0, by omega⟩ = ⟨0, by omega⟩ := Fin.ext hσ
  have e2 : σ ⟨1, by omega⟩ = ⟨2, by omega⟩ := Fin.ext (h12 _ rfl)
  simp only [Matrix.of_apply, e1, e2] at hr
  simp [Fin.ext_iff] at hr

/-- The swap of rails 1 and 2 is such a permutation. -/
example : let σ : Equiv.Perm (Fin (2 ^ 2)) := Equiv.swap 1 2
    (σ ⟨0, Nat.two_pow_pos 2⟩ : ℕ) = 0 ∧ ∀ r : Fin (2 ^ 2), (r : ℕ) = 1 → (σ r : ℕ) = 2 := by decide

end Simphox
