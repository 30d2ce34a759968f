import Verif.Rectangular
import Verif.VectorLemmas

/-! # The common-mode flow preserves the transfer matrix (C30, C99) -/

namespace Simphox

open Matrix Complex

theorem isUpper_iff (n i r : ℕ) : isUpper n i r ↔ r % 2 = i % 2 ∧ r + 1 < n := by
  unfold isUpper flowEnd
  omega

/-- The loop of `grid_common_mode_flow` preserves what the phases do, for any notion of "screen"
`scr d` (apply the phases `d`) and of coupling layer `C i` commuting with the common phases of its
pairs. -/
theorem flow_transfer {V : Type} (scr : (ℕ → ℝ) → V → V)
    (hadd : ∀ a b v, scr (fun r => a r + b r) v = scr a (scr b v))
    (hexp : ∀ a b : ℕ → ℝ, (∀ r, exp (I * a r) = exp (I * b r)) → scr a = scr b)
    (n layers : ℕ) (C : ℕ → V → V)
    (hC : ∀ i < layers, ∀ d : ℕ → ℝ, (∀ r, r % 2 = i % 2 → r + 1 < n → exp (I * d r) = exp (I * d (r + 1))) →
      ∀ v, C i (scr d v) = scr d (C i v))
    (ext : ℕ → ℕ → ℝ) (gamma : ℕ → ℝ) (v : V) :
    scr (commonModeFlow n layers ext gamma).2
        ((List.range layers).foldl
          (fun v i => C i (scr (fun r => (commonModeFlow n layers ext gamma).1 r i) v)) v) =
      scr gamma ((List.range layers).foldl (fun v i => C i (scr (fun r => ext r i) v)) v) := by
  set orig : ℕ → ℕ → ℝ := fun c r => if c < layers then ext r c else gamma r with horig
  have key : ∀ k ≤ layers,
      let s := (List.range k).foldl (flowStep n) ⟨orig, fun _ _ => 0⟩
      (∀ c > k, s.shifts c = orig c) ∧
      scr (s.shifts k) ((List.range k).foldl (fun v i => C i (scr (s.new i) v)) v) =
        scr (orig k) ((List.range k).foldl (fun v i => C i (scr (fun r => ext r i) v)) v) := by
    intro k
    induction k with
    | zero => intro _; simp
    | succ k ih =>
      intro hk
      obtain ⟨h1, h2⟩ := ih (by omega)
      simp only [List.range_succ, List.foldl_append, List.foldl_cons, List.foldl_nil]
      set s := (List.range k).foldl (flowStep n) ⟨orig, fun _ _ => 0⟩ with hs
      set row := flowNew n s.shifts k with hrow
      have hnew : ∀ i, (flowStep n s k).new i = if i = k then row else s.new i := by
        intro i
        simp only [flowStep, Function.update_apply]
        rfl
      have hsh : (flowStep n s k).shifts (k + 1) =
          fun r => orig (k + 1) r + modTwoPi (s.shifts k r - row r) := by
        funext r
        simp only [flowStep, Function.update_self]
        rw [Function.update_of_ne (by omega), h1 _ (by omega)]
      have hrun : (List.range k).foldl (fun v i => C i (scr ((flowStep n s k).new i) v)) v =
          (List.range k).foldl (fun v i => C i (scr (s.new i) v)) v := by
        apply List.foldl_ext
        intro w i hi
        rw [List.mem_range] at hi
        rw [hnew, if_neg (by omega)]
      refine ⟨?_, ?_⟩
      · intro c hc
        simp only [flowStep]
        rw [Function.update_of_ne (by omega), Function.update_of_ne (by omega), h1 _ (by omega)]
      · have hok : orig k = fun r => ext r k := by funext r; simp [horig, show k < layers by omega]
        rw [hsh, hadd, hrun, hnew, if_pos rfl, ← hok, ← h2]
        congr 1
        have e1 : scr (fun r => modTwoPi (s.shifts k r - row r)) = scr (fun r => s.shifts k r - row r) :=
          hexp _ _ fun r => exp_modTwoPi _
        have e2 : s.shifts k = fun r => (s.shifts k r - row r) + row r := by funext r; ring
        rw [e1, e2, hadd, ← e2]
        symm
        apply hC k (by omega)
        intro r hr hr1
        have hu : isUpper n k r := (isUpper_iff _ _ _).2 ⟨hr, hr1⟩
        have hl : ¬ isUpper n k (r + 1) := by rw [isUpper_iff]; omega
        have r1 : row r = modTwoPi (s.shifts k r) - modTwoPi (s.shifts k (r + 1)) := by
          rw [hrow]; unfold flowNew; rw [if_pos hu]
        have r2 : row (r + 1) = 0 := by rw [hrow]; unfold flowNew; rw [if_neg hl]
        rw [r1, r2]
        have : I * ((s.shifts k r - (modTwoPi (s.shifts k r) - modTwoPi (s.shifts k (r + 1))) : ℝ) : ℂ) =
            I * s.shifts k r - I * modTwoPi (s.shifts k r) + I * modTwoPi (s.shifts k (r + 1)) := by
          push_cast; ring
        rw [this, exp_add, exp_sub, exp_modTwoPi, exp_modTwoPi, div_self (exp_ne_zero _), one_mul, sub_zero]
  obtain ⟨-, h⟩ := key layers le_rfl
  have hol : orig layers = gamma := by funext r; simp [horig]
  rw [hol] at h
  rw [← h]
  simp only [commonModeFlow]
  rw [hexp (fun r => modTwoPi _) _ fun r => exp_modTwoPi _]
  congr 1
  apply List.foldl_ext
  intro w i hi
  rw [hexp (fun r => modTwoPi _) _ fun r => exp_modTwoPi _]

/-- Specification: the transfer matrix of a grid with external phases `ext r c` on rail `r` before
coupling layer `c` and phases `gamma` at the output. Light meets layer 0 first. -/
noncomputable def gridTransfer (n layers : ℕ) (C : ℕ → Matrix (Fin n) (Fin n) ℂ) (ext : ℕ → ℕ → ℝ)
    (gamma : ℕ → ℝ) : Matrix (Fin n) (Fin n) ℂ :=
  diagonal (fun r : Fin n => exp (I * gamma r)) *
    (((List.range layers).map fun c =>
      C c * diagonal (fun r : Fin n => exp (I * ext r c))).reverse).prod

/-- Specification: the coupling layer `c` pairs rails `r, r + 1` with `r ≡ c (mod 2)`; a phase front
that is common to the two rails of each pair passes through it. -/
def CommonModeInvariant (n c : ℕ) (C : Matrix (Fin n) (Fin n) ℂ) : Prop :=
  ∀ d : Fin n → ℂ, (∀ (r : ℕ) (h : r + 1 < n), r % 2 = c % 2 → d ⟨r, by omega⟩ = d ⟨r + 1, h⟩) →
    C * diagonal d = diagonal d * C

theorem foldl_eq_prod {n : ℕ} (f : ℕ → Matrix (Fin n) (Fin n) ℂ) (l : List ℕ) (m : Matrix (Fin n) (Fin n) ℂ) :
    l.foldl (fun v i => f i * v) m = (l.map f).reverse.prod * m := by
  induction l generalizing m with
  | nil => simp
  | cons a l ih => rw [List.foldl_cons, ih]; simp [Matrix.mul_assoc]

/-- C30: the phases returned by `grid_common_mode_flow` give the same transfer matrix, whatever the
coupling layers are, as long as they let common phases of their pairs through. -/
theorem C30_flow_preserves_transfer (n layers : ℕ) (C : ℕ → Matrix (Fin n) (Fin n) ℂ)
    (hC : ∀ c < layers, CommonModeInvariant n c (C c)) (ext : ℕ → ℕ → ℝ) (gamma : ℕ → ℝ) :
    gridTransfer n layers C (commonModeFlow n layers ext gamma).1 (commonModeFlow n layers ext gamma).2 =
      gridTransfer n layers C ext gamma := by
  have h := flow_transfer (V := Matrix (Fin n) (Fin n) ℂ)
    (fun d m => diagonal (fun r : Fin n => exp (I * d r)) * m) ?_ ?_ n layers (fun c m => C c * m) ?_ ext gamma 1
  · simp only [← Matrix.mul_assoc] at h
    rw [foldl_eq_prod, foldl_eq_prod] at h
    simpa [gridTransfer] using h
  · intro a b m
    rw [← Matrix.mul_assoc, diagonal_mul_diagonal]
    congr 2
    funext r
    rw [← exp_add]; push_cast; ring_nf
  · intro a b hab
    funext m
    simp only [hab]
  · intro c hc d hd m
    rw [← Matrix.mul_assoc, ← Matrix.mul_assoc, hC c hc]
    intro r h1 h2
    exact hd r h2 h1

/-- C30: only the upper rail of each pair keeps a phase — every other entry of the returned external
phases is zero — and all returned phases lie in `[0, 2π)`. -/
theorem C30_flow_top_only (n layers : ℕ) (ext : ℕ → ℕ → ℝ) (gamma : ℕ → ℝ) :
    (∀ r c, ¬ (r % 2 = c % 2 ∧ r + 1 < n) → (commonModeFlow n layers ext gamma).1 r c = 0) ∧
    (∀ r c, 0 ≤ (commonModeFlow n layers ext gamma).1 r c ∧
      (commonModeFlow n layers ext gamma).1 r c < 2 * Real.pi) ∧
    ∀ r, 0 ≤ (commonModeFlow n layers ext gamma).2 r ∧
      (commonModeFlow n layers ext gamma).2 r < 2 * Real.pi := by
  refine ⟨?_, fun r c => modTwoPi_mem _, fun r => modTwoPi_mem _⟩
  intro r c hrc
  have key : ∀ (l : List ℕ) (s : FlowState), s.new c r = 0 → (l.foldl (flowStep n) s).new c r = 0 := by
    intro l
    induction l with
    | nil => intro s h; exact h
    | cons i l ih =>
      intro s h
      rw [List.foldl_cons]
      apply ih
      simp only [flowStep, Function.update_apply]
      split
      · rename_i hi; subst hi
        unfold flowNew
        rw [if_neg (by rwa [isUpper_iff])]
      · exact h
  simp only [commonModeFlow]
  rw [key _ _ rfl]
  simp [modTwoPi]

theorem CommonModeInvariant.one (n c : ℕ) : CommonModeInvariant n c 1 := by
  intro d _; simp

theorem CommonModeInvariant.mul {n c : ℕ} {A B : Matrix (Fin n) (Fin n) ℂ} (hA : CommonModeInvariant n c A)
    (hB : CommonModeInvariant n c B) : CommonModeInvariant n c (A * B) := by
  intro d hd
  rw [Matrix.mul_assoc, hB d hd, ← Matrix.mul_assoc, hA d hd, Matrix.mul_assoc]

/-- Any two-port coupler on a pair of layer `c` lets common phases through. -/
theorem CommonModeInvariant.embed2 {n c r : ℕ} (h : r + 1 < n) (hr : r % 2 = c % 2)
    (m : Matrix (Fin 2) (Fin 2) ℂ) : CommonModeInvariant n c (Simphox.embed2 n r (r + 1) m) := by
  intro d hd
  have := hd r h hr
  ext a b
  rw [mul_diagonal, diagonal_mul]
  have e : ∀ x : Fin n, x.val = r → d x = d ⟨r, by omega⟩ := by intro x hx; congr 1; exact Fin.ext hx
  have e' : ∀ x : Fin n, x.val = r + 1 → d x = d ⟨r, by omega⟩ := by
    intro x hx; rw [this]; congr 1; exact Fin.ext hx
  simp only [Simphox.embed2, of_apply]
  split_ifs with h1 h2 h3 h4 h5
  · rw [e' a h1.1, e' b h1.2, mul_comm]
  · rw [e' a h2.1, e b h2.2, mul_comm]
  · rw [e a h3.1, e' b h3.2, mul_comm]
  · rw [e a h4.1, e b h4.2, mul_comm]
  · rw [h5]; ring
  · ring

/-- Non-vacuity: a 4-rail grid of three layers with arbitrary couplers on rails (0,1), (2,3), then
(1,2), then (0,1), (2,3). -/
example (m : ℕ → Matrix (Fin 2) (Fin 2) ℂ) (ext : ℕ → ℕ → ℝ) (gamma : ℕ → ℝ) :
    let C : ℕ → Matrix (Fin 4) (Fin 4) ℂ := fun c =>
      if c % 2 = 0 then embed2 4 0 1 (m c) * embed2 4 2 3 (m (c + 10)) else embed2 4 1 2 (m c)
    gridTransfer 4 3 C (commonModeFlow 4 3 ext gamma).1 (commonModeFlow 4 3 ext gamma).2 =
      gridTransfer 4 3 C ext gamma := by
  intro C
  apply C30_flow_preserves_transfer
  intro c _
  simp only [C]
  split
  · rename_i hc
    exact .mul (.embed2 (r := 0) (by omega) (by omega) _) (.embed2 (r := 2) (by omega) (by omega) _)
  · exact .embed2 (r := 1) (by omega) (by omega) _

/-- C99, the part that holds: on a square grid, omitting `gamma` means zero output phases. -/
theorem C99_default_gamma_partial (n : ℕ) (ext : ℕ → ℕ → ℝ) :
    commonModeFlowOpt n n ext none = commonModeFlowOpt n n ext (some fun _ => 0) := by
  simp [commonModeFlowOpt]

/-- C99 fails: on every grid whose number of layers differs from its number of rails, omitting `gamma`
raises, although an explicit zero `gamma` is accepted. -/
theorem C99_default_gamma_counterexample (n layers : ℕ) (h : layers ≠ n) (ext : ℕ → ℕ → ℝ) :
    commonModeFlowOpt n layers ext none = none ∧
      (commonModeFlowOpt n layers ext (some fun _ => 0)).isSome = true := by
  simp [commonModeFlowOpt, h]

end Simphox
