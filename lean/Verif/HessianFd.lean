import Verif.HessianC105

/-! # `hessian_fd` (vector.py:264-314) against `hessian_vector_unit` (C107) -/

namespace Simphox

open Complex

/-! ### Model -/

/-- `mesh.thetas + s * e[i]` and so on: the parameters shifted along two phases (vector.py:297-308). -/
noncomputable def Params.shift2 (P : Params) (p q : Coord) (s t : ℝ) : Params := (P.shift p s).shift q t

/-- One entry: `np.real(err(pp) + err(nn) - err(pn) - err(np)) / (4 * error ** 2)` (vector.py:309-312). -/
noncomputable def fdEntry (E : Params → ℝ) (P : Params) (p q : Coord) (error : ℝ) : ℝ :=
  (E (P.shift2 p q error error) + E (P.shift2 p q (-error) (-error)) - E (P.shift2 p q error (-error)) -
    E (P.shift2 p q (-error) error)) / (4 * error ^ 2)

/-- The four assignments of the double loop of `hessian_fd` for one pair `(i, j)` (vector.py:309-313). -/
noncomputable def fdStep (E : Params → ℝ) (P : Params) (m : ℕ) (error : ℝ) (h : ℕ → ℕ → ℝ) (ij : ℕ × ℕ) : ℕ → ℕ → ℝ :=
  let i := ij.1
  let j := ij.2
  let set (h : ℕ → ℕ → ℝ) (r c : ℕ) (x : ℝ) : ℕ → ℕ → ℝ := fun a b => if a = r ∧ b = c then x else h a b
  let h := set h i j (fdEntry E P (.theta i) (.theta j) error)
  let h := set h (i + m) (j + m) (fdEntry E P (.phi i) (.phi j) error)
  let h := set h (i + m) j (fdEntry E P (.theta i) (.phi j) error)
  set h j (i + m) (h (i + m) j)

/-- `hessian_fd(v, error, balanced)` (vector.py:264-314); `none` for a zero vector or `error = 0` (division by
zero). The imaginary parts of the complex result are zero and left out. `err` is
`2 - 2 * mesh.matrix_fn()(params, v.conj())[-1]` with the mesh programmed by `balanced_tree(v)` /
`unbalanced_tree(v)` (vector.py:188-223), which pass `v.conj()` to `vector_unit`. -/
noncomputable def hessianFd (eps : ℝ) (n : ℕ) (balanced : Bool) (error : ℝ) (v : ℕ → ℂ) : Option (ℕ → ℕ → ℝ) := do
  if ∑ i ∈ Finset.range n, ‖v i‖ ^ 2 = 0 then none
  else if error = 0 then none
  else
    let (M, P, _) ← vectorUnit eps .top 0 n balanced (unitConj n v)
    some (((List.range (n - 1)).flatMap fun i => (List.range (n - 1)).map fun j => (i, j)).foldl
      (fdStep (vectorCost n M (unitConj n v)) P (n - 1) error) fun _ _ => 0)

end Simphox
