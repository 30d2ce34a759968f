import Verif.YeeProps
import Verif.FdfdProps

/-!
# Flat sparse matrices and raveled arrays (C171, C172)

`YeeGrid.deriv` and `FDFD.mat` are built with `sp.diags`, `sp.kron`, `sp.eye`, `sp.bmat` on flat (row-major) indices, and fields are
flattened and reshaped around the solve. Here these are modelled on natural-number indices, as scipy and NumPy document them, and
related to the arrays the rest of the model uses.
-/

set_option linter.unusedSectionVars false

namespace Simphox

open Matrix Complex

/-! ### scipy.sparse and NumPy -/

/-- A sparse matrix: its shape and its entries (those outside the shape are never read). -/
structure FlatMat where
  rows : ℕ
  cols : ℕ
  entry : ℕ → ℕ → ℂ

/-- `sp.eye(n)`. -/
def FlatMat.eye (n : ℕ) : FlatMat := ⟨n, n, fun i j => if i = j then 1 else 0⟩

/-- `sp.diags(values, offsets, shape=(n, n))` with scalar values. -/
def FlatMat.diags (n : ℕ) (l : List (ℂ × ℤ)) : FlatMat :=
  ⟨n, n, fun i j => (l.map fun p => if (j : ℤ) - (i : ℤ) = p.2 then p.1 else 0).sum⟩

/-- `sp.diags(v)` for a vector `v` of length `n`. -/
def FlatMat.diag (n : ℕ) (v : ℕ → ℂ) : FlatMat := ⟨n, n, fun i j => if i = j then v i else 0⟩

/-- The scalar `0` as an operand of `sp.kron` (a `1 x 1` zero matrix). -/
def FlatMat.scalarZero : FlatMat := ⟨1, 1, fun _ _ => 0⟩

/-- `sp.kron(A, B)`. -/
def FlatMat.kron (A B : FlatMat) : FlatMat :=
  ⟨A.rows * B.rows, A.cols * B.cols, fun i j =>
    A.entry (i / B.rows) (j / B.cols) * B.entry (i % B.rows) (j % B.cols)⟩

/-- `A @ B`; `none` for mismatched shapes. -/
def FlatMat.mul (A B : FlatMat) : Option FlatMat :=
  if A.cols = B.rows then some ⟨A.rows, B.cols, fun i j => ∑ k ∈ Finset.range A.cols, A.entry i k * B.entry k j⟩ else none

/-- `A - B`; `none` for mismatched shapes. -/
def FlatMat.sub (A B : FlatMat) : Option FlatMat :=
  if A.rows = B.rows ∧ A.cols = B.cols then some ⟨A.rows, A.cols, fun i j => A.entry i j - B.entry i j⟩ else none

/-- `-A` and `c * A`. -/
def FlatMat.neg (A : FlatMat) : FlatMat := ⟨A.rows, A.cols, fun i j => -A.entry i j⟩
@[inherit_doc FlatMat.neg]
def FlatMat.smul (c : ℂ) (A : FlatMat) : FlatMat := ⟨A.rows, A.cols, fun i j => c * A.entry i j⟩

/-- `A @ v` for a vector. -/
def FlatMat.mulVec (A : FlatMat) (v : ℕ → ℂ) : ℕ → ℂ := fun i => ∑ k ∈ Finset.range A.cols, A.entry i k * v k

/-- `sp.bmat` of three rows of three blocks of shape `(n, n)`. -/
def FlatMat.bmat3 (n : ℕ) (B : ℕ → ℕ → FlatMat) : FlatMat :=
  ⟨3 * n, 3 * n, fun i j => (B (i / n) (j / n)).entry (i % n) (j % n)⟩

variable {s : Fin 3 → ℕ}

/-- `self.n`, the number of cells. -/
def cellCount (s : Fin 3 → ℕ) : ℕ := s 0 * s 1 * s 2

/-- `arr.reshape(shape3)[i] = arr[(i0 * ny + i1) * nz + i2]` (row-major). -/
def flatIdx (i : GIdx s) : ℕ := ((i 0 : ℕ) * s 1 + (i 1 : ℕ)) * s 2 + (i 2 : ℕ)

/-- `np.unravel_index(k, shape3)`. -/
def unravel [∀ a, NeZero (s a)] (k : ℕ) : GIdx s := fun a =>
  ⟨(if a = 0 then k / (s 1 * s 2) else if a = 1 then k / s 2 else k) % s a, Nat.mod_lt _ (NeZero.pos _)⟩

/-- `f.ravel()` / `f.flatten()` of an array of shape `shape3`. -/
def ravel [∀ a, NeZero (s a)] (f : SField s) : ℕ → ℂ := fun k => f (unravel k)

/-- `f.flatten()` of an array of shape `(3, *shape3)`. -/
def ravelV [∀ a, NeZero (s a)] (f : VField s) : ℕ → ℂ := fun k =>
  if k / cellCount s = 0 then ravel (f 0) (k % cellCount s) else
    if k / cellCount s = 1 then ravel (f 1) (k % cellCount s) else ravel (f 2) (k % cellCount s)

/-- `v.reshape(shape3)`. -/
def reshapeS (v : ℕ → ℂ) : SField s := fun i => v (flatIdx i)

/-- `Grid.reshape(v)` (grid.py:168-178). -/
def reshapeV (v : ℕ → ℂ) : VField s := fun c i => v ((c : ℕ) * cellCount s + flatIdx i)

/-! ### The code on flat matrices -/

/-- `YeeGrid.deriv(back)[ax]` (grid.py:360-391), literally. -/
noncomputable def YeeOps.derivFlat [∀ a, NeZero (s a)] (g : YeeOps s) (back : Bool) (ax : Fin 3) : Option FlatMat :=
  let d : Fin 3 → FlatMat := fun a =>
    if 1 < s a then
      if back then FlatMat.diags (s a) [(1, 0), (-1, -1), (-(starRingEnd ℂ) (g.bloch a), (s a : ℤ) - 1)]
      else FlatMat.diags (s a) [(-1, 0), (1, 1), (g.bloch a, -(s a : ℤ) + 1)]
    else FlatMat.scalarZero
  let tiled : FlatMat := if ax = 0 then (d 0).kron (FlatMat.eye (s 1 * s 2))
    else if ax = 1 then ((FlatMat.eye (s 0)).kron (d 1)).kron (FlatMat.eye (s 2))
    else (FlatMat.eye (s 0 * s 1)).kron (d 2)
  (FlatMat.diag (cellCount s) fun r => 1 / ravel (fun i => g.dx back ax (i ax)) r).mul tiled

/-- `d2curl_op(d)` (utils.py:158-162) for blocks of shape `(n, n)`. -/
def d2curlFlat (n : ℕ) (d0 d1 d2 : FlatMat) : FlatMat :=
  let o : FlatMat := ⟨n, n, fun _ _ => 0⟩
  FlatMat.bmat3 n fun p q =>
    if p = 0 then (if q = 0 then o else if q = 1 then d2.neg else d1)
    else if p = 1 then (if q = 0 then d2 else if q = 1 then o else d0.neg)
    else (if q = 0 then d1.neg else if q = 1 then d0 else o)

/-- `d2curl_op(self.deriv(back))`. -/
noncomputable def YeeOps.curlFlat [∀ a, NeZero (s a)] (g : YeeOps s) (back : Bool) : Option FlatMat := do
  let d0 ← g.derivFlat back 0
  let d1 ← g.derivFlat back 1
  let d2 ← g.derivFlat back 2
  some (d2curlFlat d0.rows d0 d1 d2)

/-- `FDFD.mat` (fdfd.py:124-134). -/
noncomputable def fdfdMatFlat [∀ a, NeZero (s a)] (g : YeeOps s) (k0 : ℝ) (epsT : VField s) : Option FlatMat := do
  let cb ← g.curlFlat true
  let cf ← g.curlFlat false
  let cc ← cb.mul cf
  cc.sub ((FlatMat.diag (3 * cellCount s) (ravelV epsT)).smul (k0 ^ 2 : ℂ))

/-- `FDFD.mat_ez` (fdfd.py:138-149). -/
noncomputable def fdfdMatEzFlat [∀ a, NeZero (s a)] (g : YeeOps s) (k0 : ℝ) (epsT : VField s) : Option FlatMat := do
  let b0 ← g.derivFlat true 0
  let b1 ← g.derivFlat true 1
  let f0 ← g.derivFlat false 0
  let f1 ← g.derivFlat false 1
  let x ← b0.neg.mul f0
  let y ← b1.mul f1
  let ddz ← x.sub y
  ddz.sub ((FlatMat.diag (cellCount s) (ravel (epsT 2))).smul (k0 ^ 2 : ℂ))

/-- `FDFD.mat_hz` (fdfd.py:151-162). -/
noncomputable def fdfdMatHzFlat [∀ a, NeZero (s a)] (g : YeeOps s) (k0 : ℝ) (epsT : VField s) : Option FlatMat := do
  let b0 ← g.derivFlat true 0
  let b1 ← g.derivFlat true 1
  let f0 ← g.derivFlat false 0
  let f1 ← g.derivFlat false 1
  let t0 := FlatMat.diag (cellCount s) fun r => 1 / ravel (epsT 0) r
  let t1 := FlatMat.diag (cellCount s) fun r => 1 / ravel (epsT 1) r
  let x ← b0.neg.mul t1
  let x ← x.mul f0
  let y ← b1.mul t0
  let y ← y.mul f1
  let z ← x.sub y
  z.sub ((FlatMat.eye (cellCount s)).smul (k0 ^ 2 : ℂ))

/-! ### Indices -/

theorem flatIdx_lt (i : GIdx s) : flatIdx i < cellCount s := by
  unfold flatIdx cellCount
  have h0 := (i 0).isLt
  have h1 := (i 1).isLt
  have h2 := (i 2).isLt
  have a1 : (i 0 : ℕ) * s 1 + (i 1 : ℕ) < s 0 * s 1 :=
    calc (i 0 : ℕ) * s 1 + (i 1 : ℕ) < (i 0 : ℕ) * s 1 + s 1 := by omega
      _ = ((i 0 : ℕ) + 1) * s 1 := by ring
      _ ≤ s 0 * s 1 := Nat.mul_le_mul_right _ h0
  calc ((i 0 : ℕ) * s 1 + (i 1 : ℕ)) * s 2 + (i 2 : ℕ) < ((i 0 : ℕ) * s 1 + (i 1 : ℕ)) * s 2 + s 2 := by omega
    _ = ((i 0 : ℕ) * s 1 + (i 1 : ℕ) + 1) * s 2 := by ring
    _ ≤ s 0 * s 1 * s 2 := Nat.mul_le_mul_right _ a1

theorem mul_add_div' {a b n : ℕ} (hb : b < n) : (a * n + b) / n = a := by
  rw [Nat.add_comm, Nat.add_mul_div_right _ _ (by omega), Nat.div_eq_of_lt hb, Nat.zero_add]

theorem mul_add_mod'' {a b n : ℕ} (hb : b < n) : (a * n + b) % n = b := by
  rw [Nat.add_comm, Nat.add_mul_mod_self_right, Nat.mod_eq_of_lt hb]

theorem flatIdx_split0 (i : GIdx s) : flatIdx i = (i 0 : ℕ) * (s 1 * s 2) + ((i 1 : ℕ) * s 2 + (i 2 : ℕ)) := by
  unfold flatIdx; ring

theorem tail_lt (i : GIdx s) : (i 1 : ℕ) * s 2 + (i 2 : ℕ) < s 1 * s 2 := by
  have h1 := (i 1).isLt
  have h2 := (i 2).isLt
  calc (i 1 : ℕ) * s 2 + (i 2 : ℕ) < (i 1 : ℕ) * s 2 + s 2 := by omega
    _ = ((i 1 : ℕ) + 1) * s 2 := by ring
    _ ≤ _ := Nat.mul_le_mul_right _ h1

theorem flatIdx_div0 (i : GIdx s) : flatIdx i / (s 1 * s 2) = i 0 := by
  rw [flatIdx_split0, mul_add_div' (tail_lt i)]

theorem flatIdx_mod0 (i : GIdx s) : flatIdx i % (s 1 * s 2) = (i 1 : ℕ) * s 2 + (i 2 : ℕ) := by
  rw [flatIdx_split0, mul_add_mod'' (tail_lt i)]

theorem flatIdx_div2 (i : GIdx s) : flatIdx i / s 2 = (i 0 : ℕ) * s 1 + (i 1 : ℕ) := mul_add_div' (i 2).isLt

theorem flatIdx_mod2 (i : GIdx s) : flatIdx i % s 2 = i 2 := mul_add_mod'' (i 2).isLt

theorem flatIdx_div21 (i : GIdx s) : flatIdx i / s 2 / s 1 = i 0 := by
  rw [flatIdx_div2]; exact mul_add_div' (i 1).isLt

theorem flatIdx_div2_mod1 (i : GIdx s) : flatIdx i / s 2 % s 1 = i 1 := by
  rw [flatIdx_div2]; exact mul_add_mod'' (i 1).isLt

theorem pair_inj {a b c d n : ℕ} (hb : b < n) (hd : d < n) : a * n + b = c * n + d ↔ a = c ∧ b = d := by
  constructor
  · intro h
    have h1 := congrArg (· / n) h
    have h2 := congrArg (· % n) h
    simp only [mul_add_div' hb, mul_add_div' hd, mul_add_mod'' hb, mul_add_mod'' hd] at h1 h2
    exact ⟨h1, h2⟩
  · rintro ⟨rfl, rfl⟩; rfl

theorem flatIdx_inj {i j : GIdx s} : flatIdx i = flatIdx j ↔ i = j := by
  constructor
  · intro h
    unfold flatIdx at h
    rw [pair_inj (i 2).isLt (j 2).isLt, pair_inj (i 1).isLt (j 1).isLt] at h
    funext a
    fin_cases a
    · exact Fin.ext h.1.1
    · exact Fin.ext h.1.2
    · exact Fin.ext h.2
  · rintro rfl; rfl

variable [∀ a, NeZero (s a)]

theorem unravel_flatIdx (i : GIdx s) : unravel (flatIdx i) = i := by
  funext a
  apply Fin.ext
  fin_cases a
  · change (flatIdx i / (s 1 * s 2)) % s 0 = i 0
    rw [flatIdx_div0, Nat.mod_eq_of_lt (i 0).isLt]
  · change (flatIdx i / s 2) % s 1 = i 1
    exact flatIdx_div2_mod1 i
  · change flatIdx i % s 2 = i 2
    exact flatIdx_mod2 i

theorem flatIdx_unravel {k : ℕ} (hk : k < cellCount s) : flatIdx (unravel (s := s) k) = k := by
  unfold cellCount at hk
  have h2 : 0 < s 2 := NeZero.pos _
  have e0 : ((unravel (s := s) k) 0 : ℕ) = k / (s 1 * s 2) := by
    change (k / (s 1 * s 2)) % s 0 = _
    apply Nat.mod_eq_of_lt
    rw [Nat.div_lt_iff_lt_mul (Nat.mul_pos (NeZero.pos _) h2), ← Nat.mul_assoc]
    exact hk
  have e1 : ((unravel (s := s) k) 1 : ℕ) = k / s 2 % s 1 := rfl
  have e2 : ((unravel (s := s) k) 2 : ℕ) = k % s 2 := rfl
  unfold flatIdx
  rw [e0, e1, e2, Nat.mul_comm (s 1), ← Nat.div_div_eq_div_mul, Nat.div_add_mod', Nat.div_add_mod']

/-- Row-major flattening is a bijection. -/
def flatEquiv : GIdx s ≃ Fin (cellCount s) where
  toFun i := ⟨flatIdx i, flatIdx_lt i⟩
  invFun k := unravel k
  left_inv i := unravel_flatIdx i
  right_inv k := Fin.ext (flatIdx_unravel k.isLt)

theorem ravel_flatIdx (f : SField s) (i : GIdx s) : ravel f (flatIdx i) = f i := by
  unfold ravel; rw [unravel_flatIdx]

theorem sum_flat (F : ℕ → ℂ) : ∑ k ∈ Finset.range (cellCount s), F k = ∑ i : GIdx s, F (flatIdx i) := by
  rw [Finset.sum_range]
  exact (Equiv.sum_comp flatEquiv fun k : Fin (cellCount s) => F k).symm

theorem cellCount_pos : 0 < cellCount s := Nat.mul_pos (Nat.mul_pos (NeZero.pos _) (NeZero.pos _)) (NeZero.pos _)

theorem ravelV_flatIdx (f : VField s) (c : Fin 3) (i : GIdx s) : ravelV f ((c : ℕ) * cellCount s + flatIdx i) = f c i := by
  unfold ravelV
  rw [mul_add_div' (flatIdx_lt i), mul_add_mod'' (flatIdx_lt i)]
  fin_cases c <;> simp [ravel_flatIdx]

theorem sum_flatV (F : ℕ → ℂ) :
    ∑ k ∈ Finset.range (3 * cellCount s), F k = ∑ p : Fin 3 × GIdx s, F ((p.1 : ℕ) * cellCount s + flatIdx p.2) := by
  rw [Fintype.sum_prod_type, Finset.sum_range]
  have e : ∀ c : Fin 3, ∑ i : GIdx s, F ((c : ℕ) * cellCount s + flatIdx i)
      = ∑ k : Fin (cellCount s), F ((c : ℕ) * cellCount s + k) := by
    intro c
    exact Equiv.sum_comp flatEquiv fun k : Fin (cellCount s) => F ((c : ℕ) * cellCount s + k)
  simp only [e]
  rw [← Fintype.sum_prod_type']
  rw [← Equiv.sum_comp finProdFinEquiv]
  refine Finset.sum_congr rfl fun p _ => ?_
  congr 1
  simp [finProdFinEquiv]
  ring

/-! ### Representation -/

/-- `M` is the flat form of the matrix `A` on grid indices. -/
structure Rep (M : FlatMat) (A : Matrix (GIdx s) (GIdx s) ℂ) : Prop where
  rows : M.rows = cellCount s
  cols : M.cols = cellCount s
  entry : ∀ i j, M.entry (flatIdx i) (flatIdx j) = A i j

/-- `M` is the flat form of the matrix `A` on vector-field indices. -/
structure RepV (M : FlatMat) (A : Matrix (Fin 3 × GIdx s) (Fin 3 × GIdx s) ℂ) : Prop where
  rows : M.rows = 3 * cellCount s
  cols : M.cols = 3 * cellCount s
  entry : ∀ p q, M.entry ((p.1 : ℕ) * cellCount s + flatIdx p.2) ((q.1 : ℕ) * cellCount s + flatIdx q.2) = A p q

theorem Rep.mul {M N : FlatMat} {A B : Matrix (GIdx s) (GIdx s) ℂ} (hM : Rep M A) (hN : Rep N B) :
    ∃ P, M.mul N = some P ∧ Rep P (A * B) := by
  refine ⟨_, if_pos (by rw [hM.cols, hN.rows]), ⟨hM.rows, hN.cols, fun i j => ?_⟩⟩
  change ∑ k ∈ Finset.range M.cols, M.entry (flatIdx i) k * N.entry k (flatIdx j) = _
  rw [hM.cols, sum_flat, Matrix.mul_apply]
  exact Finset.sum_congr rfl fun k _ => by rw [hM.entry, hN.entry]

theorem Rep.sub {M N : FlatMat} {A B : Matrix (GIdx s) (GIdx s) ℂ} (hM : Rep M A) (hN : Rep N B) :
    ∃ P, M.sub N = some P ∧ Rep P (A - B) :=
  ⟨_, if_pos ⟨by rw [hM.rows, hN.rows], by rw [hM.cols, hN.cols]⟩, ⟨hM.rows, hM.cols, fun i j => by
    change M.entry _ _ - N.entry _ _ = _
    rw [hM.entry, hN.entry]; rfl⟩⟩

theorem Rep.neg {M : FlatMat} {A : Matrix (GIdx s) (GIdx s) ℂ} (hM : Rep M A) : Rep M.neg (-A) :=
  ⟨hM.rows, hM.cols, fun i j => congrArg Neg.neg (hM.entry i j)⟩

theorem Rep.smul {M : FlatMat} {A : Matrix (GIdx s) (GIdx s) ℂ} (c : ℂ) (hM : Rep M A) : Rep (M.smul c) (c • A) :=
  ⟨hM.rows, hM.cols, fun i j => congrArg (c * ·) (hM.entry i j)⟩

theorem Rep.diag (v : SField s) (w : ℕ → ℂ) (h : ∀ i, w (flatIdx i) = v i) :
    Rep (FlatMat.diag (cellCount s) w) (Matrix.diagonal v) :=
  ⟨rfl, rfl, fun i j => by
    simp only [FlatMat.diag, flatIdx_inj, Matrix.diagonal_apply]
    split_ifs with hij
    · rw [h]
    · rfl⟩

theorem Rep.eye : Rep (FlatMat.eye (cellCount s)) (1 : Matrix (GIdx s) (GIdx s) ℂ) :=
  ⟨rfl, rfl, fun i j => by simp only [FlatMat.eye, flatIdx_inj, Matrix.one_apply]⟩

theorem Rep.mulVec {M : FlatMat} {A : Matrix (GIdx s) (GIdx s) ℂ} (hM : Rep M A) (v : ℕ → ℂ) :
    (reshapeS (M.mulVec v) : SField s) = A *ᵥ reshapeS v := by
  funext i
  simp only [reshapeS, FlatMat.mulVec]
  rw [hM.cols, sum_flat]
  exact Finset.sum_congr rfl fun k _ => by rw [hM.entry]; rfl

theorem RepV.mul {M N : FlatMat} {A B : Matrix (Fin 3 × GIdx s) (Fin 3 × GIdx s) ℂ} (hM : RepV M A) (hN : RepV N B) :
    ∃ P, M.mul N = some P ∧ RepV P (A * B) := by
  refine ⟨_, if_pos (by rw [hM.cols, hN.rows]), ⟨hM.rows, hN.cols, fun i j => ?_⟩⟩
  change ∑ k ∈ Finset.range M.cols, M.entry ((i.1 : ℕ) * cellCount s + flatIdx i.2) k *
    N.entry k ((j.1 : ℕ) * cellCount s + flatIdx j.2) = _
  rw [hM.cols, sum_flatV, Matrix.mul_apply]
  exact Finset.sum_congr rfl fun k _ => by rw [hM.entry, hN.entry]

theorem RepV.sub {M N : FlatMat} {A B : Matrix (Fin 3 × GIdx s) (Fin 3 × GIdx s) ℂ} (hM : RepV M A) (hN : RepV N B) :
    ∃ P, M.sub N = some P ∧ RepV P (A - B) :=
  ⟨_, if_pos ⟨by rw [hM.rows, hN.rows], by rw [hM.cols, hN.cols]⟩, ⟨hM.rows, hM.cols, fun i j => by
    change M.entry _ _ - N.entry _ _ = _
    rw [hM.entry, hN.entry]; rfl⟩⟩

theorem RepV.smul {M : FlatMat} {A : Matrix (Fin 3 × GIdx s) (Fin 3 × GIdx s) ℂ} (c : ℂ) (hM : RepV M A) :
    RepV (M.smul c) (c • A) :=
  ⟨hM.rows, hM.cols, fun i j => congrArg (c * ·) (hM.entry i j)⟩

theorem RepV.diag (f : VField s) : RepV (FlatMat.diag (3 * cellCount s) (ravelV f)) (Matrix.diagonal (vflat f)) :=
  ⟨rfl, rfl, fun p q => by
    obtain ⟨c, i⟩ := p
    obtain ⟨d, j⟩ := q
    simp only [FlatMat.diag, pair_inj (flatIdx_lt i) (flatIdx_lt j), flatIdx_inj, Matrix.diagonal_apply, Prod.mk.injEq, Fin.ext_iff]
    split_ifs with hij
    · exact ravelV_flatIdx f c i
    · rfl⟩

theorem RepV.mulVec {M : FlatMat} {A : Matrix (Fin 3 × GIdx s) (Fin 3 × GIdx s) ℂ} (hM : RepV M A) (v : ℕ → ℂ) :
    vflat (reshapeV (M.mulVec v) : VField s) = A *ᵥ vflat (reshapeV v) := by
  funext i
  simp only [reshapeV, vflat, FlatMat.mulVec]
  rw [hM.cols, sum_flatV]
  exact Finset.sum_congr rfl fun k _ => by rw [hM.entry]; rfl

/-- The single-axis matrices. -/
theorem fwd_entry (n : ℕ) (b : ℂ) (i j : Fin n) :
    (if 1 < n then FlatMat.diags n [(-1, 0), (1, 1), (b, -(n : ℤ) + 1)] else FlatMat.scalarZero).entry i j = fwd1 n b i j := by
  unfold fwd1
  split_ifs <;> rfl

theorem bwd_entry (n : ℕ) (b : ℂ) (i j : Fin n) :
    (if 1 < n then FlatMat.diags n [(1, 0), (-1, -1), (-(starRingEnd ℂ) b, (n : ℤ) - 1)] else FlatMat.scalarZero).entry i j
      = bwd1 n b i j := by
  unfold bwd1
  split_ifs <;> rfl

/-- Tiling a single-axis matrix with identities acts along that axis. -/
theorem rep_kron (d : Fin 3 → FlatMat) (ax : Fin 3) (A : Matrix (Fin (s ax)) (Fin (s ax)) ℂ)
    (hr : (d ax).rows = s ax) (hc : (d ax).cols = s ax) (he : ∀ i j : Fin (s ax), (d ax).entry i j = A i j) :
    Rep (if ax = 0 then (d 0).kron (FlatMat.eye (s 1 * s 2))
      else if ax = 1 then ((FlatMat.eye (s 0)).kron (d 1)).kron (FlatMat.eye (s 2))
      else (FlatMat.eye (s 0 * s 1)).kron (d 2)) (axisOp ax A) := by
  have k0 : ∀ i j : GIdx s, (∀ b : Fin 3, b ≠ 0 → i b = j b) ↔ (i 1 : ℕ) = j 1 ∧ (i 2 : ℕ) = j 2 := by
    intro i j
    refine ⟨fun h => ⟨congrArg Fin.val (h 1 (by decide)), congrArg Fin.val (h 2 (by decide))⟩, fun h b hb => ?_⟩
    fin_cases b
    · exact absurd rfl hb
    · exact Fin.ext h.1
    · exact Fin.ext h.2
  have k1 : ∀ i j : GIdx s, (∀ b : Fin 3, b ≠ 1 → i b = j b) ↔ (i 0 : ℕ) = j 0 ∧ (i 2 : ℕ) = j 2 := by
    intro i j
    refine ⟨fun h => ⟨congrArg Fin.val (h 0 (by decide)), congrArg Fin.val (h 2 (by decide))⟩, fun h b hb => ?_⟩
    fin_cases b
    · exact Fin.ext h.1
    · exact absurd rfl hb
    · exact Fin.ext h.2
  have k2 : ∀ i j : GIdx s, (∀ b : Fin 3, b ≠ 2 → i b = j b) ↔ (i 0 : ℕ) = j 0 ∧ (i 1 : ℕ) = j 1 := by
    intro i j
    refine ⟨fun h => ⟨congrArg Fin.val (h 0 (by decide)), congrArg Fin.val (h 1 (by decide))⟩, fun h b hb => ?_⟩
    fin_cases b
    · exact Fin.ext h.1
    · exact Fin.ext h.2
    · exact absurd rfl hb
  fin_cases ax
  · change Rep ((d 0).kron (FlatMat.eye (s 1 * s 2))) _
    change (d 0).rows = s 0 at hr
    change (d 0).cols = s 0 at hc
    refine ⟨?_, ?_, fun i j => ?_⟩
    · change (d 0).rows * (s 1 * s 2) = _; rw [hr]; unfold cellCount; ring
    · change (d 0).cols * (s 1 * s 2) = _; rw [hc]; unfold cellCount; ring
    · rw [axisOp_apply]
      change (d 0).entry (flatIdx i / (s 1 * s 2)) (flatIdx j / (s 1 * s 2)) *
        (if flatIdx i % (s 1 * s 2) = flatIdx j % (s 1 * s 2) then 1 else 0) = _
      rw [flatIdx_div0, flatIdx_div0, flatIdx_mod0, flatIdx_mod0]
      by_cases h : (i 1 : ℕ) = j 1 ∧ (i 2 : ℕ) = j 2
      · rw [if_pos ((pair_inj (i 2).isLt (j 2).isLt).2 h), mul_one]
        exact (he (i 0) (j 0)).trans (if_pos ((k0 i j).2 h)).symm
      · rw [if_neg (fun h' => h ((pair_inj (i 2).isLt (j 2).isLt).1 h')), mul_zero]
        exact (if_neg (fun h' => h ((k0 i j).1 h'))).symm
  · change Rep (((FlatMat.eye (s 0)).kron (d 1)).kron (FlatMat.eye (s 2))) _
    change (d 1).rows = s 1 at hr
    change (d 1).cols = s 1 at hc
    refine ⟨?_, ?_, fun i j => ?_⟩
    · change s 0 * (d 1).rows * s 2 = _; rw [hr]; rfl
    · change s 0 * (d 1).cols * s 2 = _; rw [hc]; rfl
    · rw [axisOp_apply]
      change (if flatIdx i / s 2 / (d 1).rows = flatIdx j / s 2 / (d 1).cols then 1 else 0) *
        (d 1).entry (flatIdx i / s 2 % (d 1).rows) (flatIdx j / s 2 % (d 1).cols) *
        (if flatIdx i % s 2 = flatIdx j % s 2 then 1 else 0) = _
      rw [hr, hc, flatIdx_div21, flatIdx_div21, flatIdx_div2_mod1, flatIdx_div2_mod1, flatIdx_mod2, flatIdx_mod2]
      by_cases h0 : (i 0 : ℕ) = j 0
      · by_cases h2 : (i 2 : ℕ) = j 2
        · rw [if_pos h0, if_pos h2, mul_one, one_mul]
          exact (he (i 1) (j 1)).trans (if_pos ((k1 i j).2 ⟨h0, h2⟩)).symm
        · rw [if_neg h2, mul_zero]
          exact (if_neg (fun h' => h2 ((k1 i j).1 h').2)).symm
      · rw [if_neg h0, zero_mul, zero_mul]
        exact (if_neg (fun h' => h0 ((k1 i j).1 h').1)).symm
  · change Rep ((FlatMat.eye (s 0 * s 1)).kron (d 2)) _
    change (d 2).rows = s 2 at hr
    change (d 2).cols = s 2 at hc
    refine ⟨?_, ?_, fun i j => ?_⟩
    · change s 0 * s 1 * (d 2).rows = _; rw [hr]; rfl
    · change s 0 * s 1 * (d 2).cols = _; rw [hc]; rfl
    · rw [axisOp_apply]
      change (if flatIdx i / (d 2).rows = flatIdx j / (d 2).cols then 1 else 0) *
        (d 2).entry (flatIdx i % (d 2).rows) (flatIdx j % (d 2).cols) = _
      rw [hr, hc, flatIdx_div2, flatIdx_div2, flatIdx_mod2, flatIdx_mod2]
      by_cases h : (i 0 : ℕ) = j 0 ∧ (i 1 : ℕ) = j 1
      · rw [if_pos ((pair_inj (i 1).isLt (j 1).isLt).2 h), one_mul]
        exact (he (i 2) (j 2)).trans (if_pos ((k2 i j).2 h)).symm
      · rw [if_neg (fun h' => h ((pair_inj (i 1).isLt (j 1).isLt).1 h')), zero_mul]
        exact (if_neg (fun h' => h ((k2 i j).1 h'))).symm

/-- The flat derivative is the derivative on grid indices. -/
theorem rep_deriv (g : YeeOps s) (back : Bool) (ax : Fin 3) :
    ∃ M, g.derivFlat back ax = some M ∧ Rep M (g.deriv back ax) := by
  unfold YeeOps.derivFlat YeeOps.deriv
  refine Rep.mul (Rep.diag _ _ fun i => ?_) ?_
  · rw [ravel_flatIdx]
  · refine rep_kron (s := s) (fun a => if 1 < s a then
        if back then FlatMat.diags (s a) [(1, 0), (-1, -1), (-(starRingEnd ℂ) (g.bloch a), (s a : ℤ) - 1)]
        else FlatMat.diags (s a) [(-1, 0), (1, 1), (g.bloch a, -(s a : ℤ) + 1)]
      else FlatMat.scalarZero) ax _ ?_ ?_ fun i j => ?_
    · have := NeZero.pos (s ax)
      split_ifs with h1 h2
      · rfl
      · rfl
      · change 1 = s ax; omega
    · have := NeZero.pos (s ax)
      split_ifs with h1 h2
      · rfl
      · rfl
      · change 1 = s ax; omega
    · cases back
      · exact fwd_entry _ _ i j
      · exact bwd_entry _ _ i j

theorem rep_curl (g : YeeOps s) (back : Bool) : ∃ M, g.curlFlat back = some M ∧ RepV M (d2curlOp (g.deriv back)) := by
  obtain ⟨d0, h0, r0⟩ := rep_deriv g back 0
  obtain ⟨d1, h1, r1⟩ := rep_deriv g back 1
  obtain ⟨d2, h2, r2⟩ := rep_deriv g back 2
  refine ⟨d2curlFlat d0.rows d0 d1 d2, by simp only [YeeOps.curlFlat, h0, h1, h2, Option.bind_eq_bind, Option.bind_some], ?_, ?_, ?_⟩
  · simp only [d2curlFlat, FlatMat.bmat3, r0.rows]
  · simp only [d2curlFlat, FlatMat.bmat3, r0.rows]
  · rintro ⟨c, i⟩ ⟨d, j⟩
    simp only [d2curlFlat, FlatMat.bmat3, r0.rows, mul_add_div' (flatIdx_lt i), mul_add_div' (flatIdx_lt j),
      mul_add_mod'' (flatIdx_lt i), mul_add_mod'' (flatIdx_lt j)]
    fin_cases c <;> fin_cases d
    · rfl
    · exact congrArg Neg.neg (r2.entry i j)
    · exact r1.entry i j
    · exact r2.entry i j
    · rfl
    · exact congrArg Neg.neg (r0.entry i j)
    · exact congrArg Neg.neg (r1.entry i j)
    · exact r0.entry i j
    · rfl

theorem rep_fdfdMat (g : YeeOps s) (k0 : ℝ) (epsT : VField s) :
    ∃ M, fdfdMatFlat g k0 epsT = some M ∧ RepV M (fdfdMat g k0 epsT) := by
  obtain ⟨cb, h1, r1⟩ := rep_curl g true
  obtain ⟨cf, h2, r2⟩ := rep_curl g false
  obtain ⟨cc, h3, r3⟩ := r1.mul r2
  obtain ⟨M, h4, r4⟩ := r3.sub (RepV.smul (k0 ^ 2 : ℂ) (RepV.diag epsT))
  exact ⟨M, by simp only [fdfdMatFlat, h1, h2, h3, Option.bind_eq_bind, Option.bind_some, h4], r4⟩

theorem rep_fdfdMatEz (g : YeeOps s) (k0 : ℝ) (epsT : VField s) :
    ∃ M, fdfdMatEzFlat g k0 epsT = some M ∧ Rep M (fdfdMatEz g k0 epsT) := by
  obtain ⟨b0, hb0, rb0⟩ := rep_deriv g true 0
  obtain ⟨b1, hb1, rb1⟩ := rep_deriv g true 1
  obtain ⟨f0, hf0, rf0⟩ := rep_deriv g false 0
  obtain ⟨f1, hf1, rf1⟩ := rep_deriv g false 1
  obtain ⟨x, hx, rx⟩ := rb0.neg.mul rf0
  obtain ⟨y, hy, ry⟩ := rb1.mul rf1
  obtain ⟨z, hz, rz⟩ := rx.sub ry
  obtain ⟨M, hM, rM⟩ := rz.sub (Rep.smul (k0 ^ 2 : ℂ) (Rep.diag (epsT 2) (ravel (epsT 2)) (ravel_flatIdx _)))
  exact ⟨M, by simp only [fdfdMatEzFlat, hb0, hb1, hf0, hf1, hx, hy, hz, Option.bind_eq_bind, Option.bind_some, hM], rM⟩

theorem rep_fdfdMatHz (g : YeeOps s) (k0 : ℝ) (epsT : VField s) :
    ∃ M, fdfdMatHzFlat g k0 epsT = some M ∧ Rep M (fdfdMatHz g k0 epsT) := by
  obtain ⟨b0, hb0, rb0⟩ := rep_deriv g true 0
  obtain ⟨b1, hb1, rb1⟩ := rep_deriv g true 1
  obtain ⟨f0, hf0, rf0⟩ := rep_deriv g false 0
  obtain ⟨f1, hf1, rf1⟩ := rep_deriv g false 1
  have t0 : Rep (FlatMat.diag (cellCount s) fun r => 1 / ravel (epsT 0) r) (Matrix.diagonal fun i => 1 / epsT 0 i) :=
    Rep.diag _ _ fun i => by rw [ravel_flatIdx]
  have t1 : Rep (FlatMat.diag (cellCount s) fun r => 1 / ravel (epsT 1) r) (Matrix.diagonal fun i => 1 / epsT 1 i) :=
    Rep.diag _ _ fun i => by rw [ravel_flatIdx]
  obtain ⟨x, hx, rx⟩ := rb0.neg.mul t1
  obtain ⟨x', hx', rx'⟩ := rx.mul rf0
  obtain ⟨y, hy, ry⟩ := rb1.mul t0
  obtain ⟨y', hy', ry'⟩ := ry.mul rf1
  obtain ⟨z, hz, rz⟩ := rx'.sub ry'
  obtain ⟨M, hM, rM⟩ := rz.sub (Rep.smul (k0 ^ 2 : ℂ) Rep.eye)
  exact ⟨M, by simp only [fdfdMatHzFlat, hb0, hb1, hf0, hf1, hx, hx', hy, hy', hz, Option.bind_eq_bind, Option.bind_some, hM], rM⟩

/-! ### C171 -/

theorem ravelV_reshapeV (v : ℕ → ℂ) {k : ℕ} (hk : k < 3 * cellCount s) : ravelV (reshapeV (s := s) v) k = v k := by
  have hp : 0 < cellCount s := cellCount_pos
  have hq : k / cellCount s < 3 := Nat.div_lt_of_lt_mul (by rwa [Nat.mul_comm] at hk)
  have hm := Nat.mod_lt k hp
  have e : k = (⟨k / cellCount s, hq⟩ : Fin 3) * cellCount s + flatIdx (unravel (s := s) (k % cellCount s)) := by
    rw [flatIdx_unravel hm]
    exact (Nat.div_add_mod' k _).symm
  conv_lhs => rw [e]
  rw [ravelV_flatIdx]
  unfold reshapeV
  rw [← e]

/-- C171: flattening and `reshape` are inverse to each other, for vector fields and for scalar ones, on every grid. -/
theorem C171_reshape (f : VField s) (p : SField s) (v : ℕ → ℂ) :
    reshapeV (ravelV f) = f ∧ (∀ k < 3 * cellCount s, ravelV (reshapeV (s := s) v) k = v k) ∧
      reshapeS (ravel p) = p ∧ (∀ k < cellCount s, ravel (reshapeS (s := s) v) k = v k) := by
  refine ⟨?_, fun k hk => ravelV_reshapeV v hk, ?_, fun k hk => ?_⟩
  · funext c i; exact ravelV_flatIdx f c i
  · funext i; exact ravel_flatIdx p i
  · unfold ravel reshapeS; rw [flatIdx_unravel hk]

/-- C171: the derivative matrices applied to a flattened array are the differences of neighbours along the chosen axis of the array,
divided by the cell size; across the boundary the neighbour is the one on the other side, times the Bloch factor (its conjugate for
backward differences). On an axis with one cell they vanish. -/
theorem C171_deriv (g : YeeOps s) (a : Fin 3) :
    ∃ F B, g.derivFlat false a = some F ∧ g.derivFlat true a = some B ∧
      F.rows = cellCount s ∧ F.cols = cellCount s ∧ B.rows = cellCount s ∧ B.cols = cellCount s ∧
      ∀ (f : SField s) (i : GIdx s),
        (∀ h : (i a : ℕ) + 1 < s a, F.mulVec (ravel f) (flatIdx i) =
          (f (Function.update i a ⟨i a + 1, h⟩) - f i) / g.dx false a (i a)) ∧
        ((i a : ℕ) + 1 = s a → 1 < s a → F.mulVec (ravel f) (flatIdx i) =
          (g.bloch a * f (Function.update i a 0) - f i) / g.dx false a (i a)) ∧
        (∀ k : Fin (s a), (k : ℕ) + 1 = i a → B.mulVec (ravel f) (flatIdx i) =
          (f i - f (Function.update i a k)) / g.dx true a (i a)) ∧
        (∀ k : Fin (s a), (k : ℕ) + 1 = s a → (i a : ℕ) = 0 → 1 < s a → B.mulVec (ravel f) (flatIdx i) =
          (f i - (starRingEnd ℂ) (g.bloch a) * f (Function.update i a k)) / g.dx true a (i a)) ∧
        (s a = 1 → F.mulVec (ravel f) (flatIdx i) = 0 ∧ B.mulVec (ravel f) (flatIdx i) = 0) := by
  obtain ⟨F, hF, rF⟩ := rep_deriv g false a
  obtain ⟨B, hB, rB⟩ := rep_deriv g true a
  refine ⟨F, B, hF, hB, rF.rows, rF.cols, rB.rows, rB.cols, fun f i => ?_⟩
  have hr : (reshapeS (ravel f) : SField s) = f := by funext i; exact ravel_flatIdx f i
  have eF : F.mulVec (ravel f) (flatIdx i) = _ := (congrFun (rF.mulVec (ravel f)) i).trans
    (by rw [hr, YeeOps.deriv_forward_mulVec])
  have eB : B.mulVec (ravel f) (flatIdx i) = _ := (congrFun (rB.mulVec (ravel f)) i).trans
    (by rw [hr, YeeOps.deriv_backward_mulVec])
  rw [eF, eB]
  have hv := fin_val_add_one (i a)
  refine ⟨fun h => ?_, fun h h1 => ?_, fun k hk => ?_, fun k hk h0 h1 => ?_, fun h1 => ?_⟩
  · have e : i a + 1 = ⟨i a + 1, h⟩ := Fin.ext (by rw [hv, if_neg (by omega)])
    rw [e, wrapFac, if_neg (by omega), if_neg (by omega), one_mul]
  · have e : i a + 1 = 0 := Fin.ext (by rw [hv, if_pos h]; rfl)
    rw [e, wrapFac, if_neg (by omega), if_pos h]
  · have hkk := fin_val_add_one k
    have e : i a - 1 = k := by
      rw [sub_eq_iff_eq_add]
      exact Fin.ext (by rw [hkk, if_neg (by have := (i a).isLt; omega)]; omega)
    rw [e, wrapFac, if_neg (by have := (i a).isLt; omega), if_neg (by have := (i a).isLt; omega), map_one, one_mul]
  · have hkk := fin_val_add_one k
    have e : i a - 1 = k := by
      rw [sub_eq_iff_eq_add]
      exact Fin.ext (by rw [hkk, if_pos hk, h0])
    rw [e, wrapFac, if_neg (by omega), if_pos hk]
  · have : ∀ x : Fin (s a), x = i a := fun x => Fin.ext (by have := (i a).isLt; have := x.isLt; omega)
    rw [this (i a + 1), this (i a - 1), Function.update_eq_self, wrapFac, if_pos (by omega)]
    simp

/-- C171: the curl matrix applied to a flattened vector field is the flattened curl of array differences (no Bloch phase). -/
theorem C171_curl (g : YeeOps s) (hb : ∀ a, g.bloch a = 1) (ofH : Bool) :
    ∃ M, g.curlFlat ofH = some M ∧ M.rows = 3 * cellCount s ∧ M.cols = 3 * cellCount s ∧
      ∀ v : ℕ → ℂ, (reshapeV (M.mulVec v) : VField s) = g.curl ofH (reshapeV v) := by
  obtain ⟨M, hM, rM⟩ := rep_curl g ofH
  refine ⟨M, hM, rM.rows, rM.cols, fun v => vflat_inj ?_⟩
  rw [rM.mulVec v, (C46_functional_eq_matrix g hb ofH 0 (reshapeV v)).2]

/-! ### C172 -/

theorem flat_eq_iff (x y : ℕ → ℂ) : (∀ k < cellCount s, x k = y k) ↔ ∀ i : GIdx s, x (flatIdx i) = y (flatIdx i) := by
  constructor
  · intro h i; exact h _ (flatIdx_lt i)
  · intro h k hk
    have := h (unravel k)
    rwa [flatIdx_unravel hk] at this

theorem flat_eq_iffV (x y : ℕ → ℂ) :
    (∀ k < 3 * cellCount s, x k = y k) ↔ (reshapeV x : VField s) = reshapeV y := by
  constructor
  · intro h
    funext c i
    apply h
    have := flatIdx_lt i
    have := c.isLt
    calc (c : ℕ) * cellCount s + flatIdx i < ((c : ℕ) + 1) * cellCount s := by rw [add_mul, one_mul]; omega
      _ ≤ _ := Nat.mul_le_mul_right _ (by omega)
  · intro h k hk
    rw [← ravelV_reshapeV (s := s) x hk, ← ravelV_reshapeV (s := s) y hk, h]

/-- C172, three dimensions: the flat vector `v` solves the linear system `FDFD.solve` hands to the solver (matrix `mat`, right-hand
side `k0 * src.flatten()`) exactly if the reshaped field satisfies, in every cell and component, Maxwell's equation
`curl curl e - k0² eps e = k0 src` on the arrays. -/
theorem C172_solve3d (g : YeeOps s) (hb : ∀ a, g.bloch a = 1) (k0 : ℝ) (epsT : VField s) :
    ∃ M, fdfdMatFlat g k0 epsT = some M ∧ M.rows = 3 * cellCount s ∧ M.cols = 3 * cellCount s ∧
      ∀ (src : VField s) (v : ℕ → ℂ), (∀ k < 3 * cellCount s, M.mulVec v k = k0 * ravelV src k) ↔
        ∀ c i, g.curl true (g.curl false (reshapeV v)) c i - k0 ^ 2 * epsT c i * (reshapeV v : VField s) c i = k0 * src c i := by
  obtain ⟨M, hM, rM⟩ := rep_fdfdMat g k0 epsT
  refine ⟨M, hM, rM.rows, rM.cols, fun src v => ?_⟩
  rw [flat_eq_iffV]
  have h1 : (reshapeV (M.mulVec v) : VField s) =
      fun c i => g.curl true (g.curl false (reshapeV v)) c i - k0 ^ 2 * epsT c i * (reshapeV v : VField s) c i := by
    apply vflat_inj
    rw [rM.mulVec v]
    unfold fdfdMat
    rw [Matrix.sub_mulVec, ← Matrix.mulVec_mulVec, ← (C46_functional_eq_matrix g hb false 0 (reshapeV v)).2,
      ← (C46_functional_eq_matrix g hb true 0 _).2]
    funext p
    simp only [Pi.sub_apply, Matrix.smul_mulVec, Pi.smul_apply, Matrix.mulVec_diagonal, smul_eq_mul, vflat]
    ring
  have h2 : (reshapeV (fun k => (k0 : ℂ) * ravelV src k) : VField s) = fun c i => (k0 : ℂ) * src c i := by
    funext c i
    simp only [reshapeV, ravelV_flatIdx]
  rw [h1, h2]
  constructor
  · intro h c i; exact congrFun (congrFun h c) i
  · intro h; funext c i; exact h c i

/-- C172, two dimensions: the same for the `z` components: `mat_ez` is `-D·D e - k0² eps_z e` and `mat_hz` is
`-D·(1/eps) D h - k0² h` on the arrays. -/
theorem C172_solve2d (g : YeeOps s) (hb : ∀ a, g.bloch a = 1) (k0 : ℝ) (epsT : VField s) :
    ∃ E H, fdfdMatEzFlat g k0 epsT = some E ∧ fdfdMatHzFlat g k0 epsT = some H ∧
      (E.rows = cellCount s ∧ E.cols = cellCount s ∧ H.rows = cellCount s ∧ H.cols = cellCount s) ∧
      ∀ (src : SField s) (v : ℕ → ℂ),
        let f : SField s := reshapeS v
        ((∀ k < cellCount s, E.mulVec v k = k0 * ravel src k) ↔ ∀ i,
          -g.diffFn true (g.diffFn false f 0) 0 i - g.diffFn true (g.diffFn false f 1) 1 i - k0 ^ 2 * epsT 2 i * f i
            = k0 * src i) ∧
        ((∀ k < cellCount s, H.mulVec v k = k0 * ravel src k) ↔ ∀ i,
          -g.diffFn true (fun j => g.diffFn false f 0 j / epsT 1 j) 0 i -
            g.diffFn true (fun j => g.diffFn false f 1 j / epsT 0 j) 1 i - k0 ^ 2 * f i = k0 * src i) := by
  obtain ⟨E, hE, rE⟩ := rep_fdfdMatEz g k0 epsT
  obtain ⟨H, hH, rH⟩ := rep_fdfdMatHz g k0 epsT
  refine ⟨E, H, hE, hH, ⟨rE.rows, rE.cols, rH.rows, rH.cols⟩, fun src v => ?_⟩
  intro f
  have hs : ∀ i, (k0 : ℂ) * ravel src (flatIdx i) = k0 * src i := fun i => by rw [ravel_flatIdx]
  have hd : ∀ (w : SField s) (j : GIdx s → ℂ), (Matrix.diagonal j *ᵥ w) = fun i => j i * w i := by
    intro w j; funext i; rw [Matrix.mulVec_diagonal]
  constructor
  · rw [flat_eq_iff]
    refine forall_congr' fun i => ?_
    rw [hs]
    have h1 := congrFun (rE.mulVec v) i
    change E.mulVec v (flatIdx i) = _ at h1
    rw [h1]
    unfold fdfdMatEz
    simp only [Matrix.sub_mulVec, Matrix.neg_mul, Matrix.neg_mulVec, ← Matrix.mulVec_mulVec, Matrix.smul_mulVec,
      ← YeeOps.diffFn_eq g hb, hd, Pi.sub_apply, Pi.neg_apply, Pi.smul_apply, smul_eq_mul]
    rw [mul_assoc]
  · rw [flat_eq_iff]
    refine forall_congr' fun i => ?_
    rw [hs]
    have h1 := congrFun (rH.mulVec v) i
    change H.mulVec v (flatIdx i) = _ at h1
    rw [h1]
    unfold fdfdMatHz
    simp only [Matrix.sub_mulVec, Matrix.neg_mul, Matrix.neg_mulVec, ← Matrix.mulVec_mulVec, Matrix.smul_mulVec,
      ← YeeOps.diffFn_eq g hb, hd, Pi.sub_apply, Pi.neg_apply, Pi.smul_apply, smul_eq_mul, Matrix.one_mulVec, one_div_mul_eq_div]
    rfl

/-- Nontrivial case: on a `2 x 3 x 1` grid cell `(1, 2, 0)` has flat index 5, and all three derivative matrices exist. -/
example : flatIdx (s := shapeOf 2 3 1) (fun a => if h : a = 0 then ⟨1, by subst h; decide⟩ else
    if h' : a = 1 then ⟨2, by subst h'; decide⟩ else ⟨0, by simp [shapeOf, h, h']⟩) = 5 := by
  simp [flatIdx, shapeOf]

end Simphox
