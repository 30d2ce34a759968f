import Verif.SymmetryProps
import Verif.TileProps
import Verif.PmlPowerProps

/-!
# Mirroring a simulation (C141)

What happens to FDTD (fdtd.py:117-230) and FDFD (fdfd.py:124-257) fields when the permittivity and the
sources are mirrored along one axis of the grid.
-/

namespace Simphox

open Complex Matrix

variable {s : Fin 3 → ℕ} [∀ a, NeZero (s a)]

/-! ### Specification -/

omit [∀ a, NeZero (s a)] in
/-- Mirror cells (or quantities in the middle of a cell) along axis `a`: cell `k` of `n` becomes cell `n - 1 - k`. -/
def flipCell (a : Fin 3) (i : GIdx s) : GIdx s := Function.update i a (Fin.rev (i a))

/-- Mirror cell edges along axis `a`: the edge between the cells `k - 1` and `k` becomes the edge between the
cells `n - 1 - k` and `n - k`, so edge `k` becomes edge `-k` (modulo `n`). -/
def flipEdge (a : Fin 3) (i : GIdx s) : GIdx s := Function.update i a (-(i a))

/-- The mirrored permittivity: an array flipped along one axis (`np.flip(eps, axis=a)`). -/
def mirrorEps (a : Fin 3) (eps : SField s) : SField s := fun i => eps (flipCell a i)

/-- The mirror image of an electric field on the Yee grid. Along `a` the component `a` sits in the middle of
the cells and changes sign, the other two sit on cell edges. -/
def flipE (a : Fin 3) (e : VField s) : VField s := fun c i => if c = a then -e c (flipCell a i) else e c (flipEdge a i)

/-- The mirror image of a magnetic field (an axial vector) on the Yee grid. -/
def flipH (a : Fin 3) (h : VField s) : VField s := fun c i => if c = a then h c (flipEdge a i) else -h c (flipCell a i)

/-- Positions of the electric field components mirrored (no sign): for permittivity tensors and regions. -/
def mirrorPosE {α : Type} (a : Fin 3) (f : Fin 3 → GIdx s → α) : Fin 3 → GIdx s → α :=
  fun c i => if c = a then f c (flipCell a i) else f c (flipEdge a i)

/-- Positions of the magnetic field components mirrored (no sign). -/
def mirrorPosH {α : Type} (a : Fin 3) (f : Fin 3 → GIdx s → α) : Fin 3 → GIdx s → α :=
  fun c i => if c = a then f c (flipEdge a i) else f c (flipCell a i)

/-- A mirrored source: the electric and the magnetic current as separate entries, because the region of a
source is given by cells while the two fields sit at different places of a cell. -/
def mirrorSource (a : Fin 3) (q : Source s) : List (Source s) :=
  [{ e := q.e.map (flipE a), h := none, region := mirrorPosE a q.region },
   { e := none, h := q.h.map (flipH a), region := mirrorPosH a q.region }]

/-- The mirror image of a state without PML. -/
def mirrorState {np : ℕ} (a : Fin 3) (st : FState s np) : FState s np := (flipE a st.1, flipH a st.2.1, st.2.2.1, st.2.2.2)

/-- The lengths of the cells are symmetric along axis `a`. -/
def SymmetricCells (g : YeeOps s) (a : Fin 3) : Prop :=
  ∀ i : Fin (s a), g.dx false a (Fin.rev i) = g.dx false a i ∧ g.dx true a (-i) = g.dx true a i

/-! ### Lemmas -/

theorem fin_rev_eq {n : ℕ} [NeZero n] (x : Fin n) : Fin.rev x = -(x + 1) := by
  rw [eq_neg_iff_add_eq_zero]
  apply Fin.ext
  rw [Fin.val_add, fin_val_add_one, Fin.val_rev]
  have hx := x.isLt
  have h0 : ((0 : Fin n) : ℕ) = 0 := rfl
  rw [h0]
  split_ifs with h
  · have : n - (↑x + 1) + 0 = 0 := by omega
    rw [this]; exact Nat.zero_mod n
  · have : n - (↑x + 1) + (↑x + 1) = n := by omega
    rw [this]; exact Nat.mod_self n

theorem rev_succ {n : ℕ} [NeZero n] (x : Fin n) : Fin.rev x + 1 = -x := by
  rw [fin_rev_eq, neg_add]; abel

theorem rev_pred {n : ℕ} [NeZero n] (x : Fin n) : Fin.rev (x - 1) = -x := by
  rw [fin_rev_eq, sub_add_cancel]

theorem neg_pred {n : ℕ} [NeZero n] (x : Fin n) : -x - 1 = Fin.rev x := by
  rw [fin_rev_eq, neg_add]; abel

theorem neg_succ' {n : ℕ} [NeZero n] (x : Fin n) : -(x + 1) = Fin.rev x := (fin_rev_eq x).symm

omit [∀ a, NeZero (s a)] in
theorem flipCell_other {a b : Fin 3} (h : b ≠ a) (i : GIdx s) (x : Fin (s b)) :
    flipCell a (Function.update i b x) = Function.update (flipCell a i) b x := by
  unfold flipCell
  rw [Function.update_of_ne h.symm, Function.update_comm h]

omit [∀ a, NeZero (s a)] in
theorem flipEdge_other {a b : Fin 3} (h : b ≠ a) (i : GIdx s) (x : Fin (s b)) :
    flipEdge a (Function.update i b x) = Function.update (flipEdge a i) b x := by
  unfold flipEdge
  rw [Function.update_of_ne h.symm, Function.update_comm h]

omit [∀ a, NeZero (s a)] in
theorem flipCell_at {a b : Fin 3} (h : b ≠ a) (i : GIdx s) : flipCell a i b = i b := Function.update_of_ne h _ _

omit [∀ a, NeZero (s a)] in
theorem flipEdge_at {a b : Fin 3} (h : b ≠ a) (i : GIdx s) : flipEdge a i b = i b := Function.update_of_ne h _ _

omit [∀ a, NeZero (s a)] in
theorem flipCell_flipCell (a : Fin 3) (i : GIdx s) : flipCell a (flipCell a i) = i := by
  unfold flipCell
  rw [Function.update_self, Function.update_idem, Fin.rev_rev, Function.update_eq_self]

omit [∀ a, NeZero (s a)] in
theorem flipEdge_flipEdge (a : Fin 3) (i : GIdx s) : flipEdge a (flipEdge a i) = i := by
  unfold flipEdge
  rw [Function.update_self, Function.update_idem, neg_neg, Function.update_eq_self]

/-- Differences along other axes do not see the mirror. -/
theorem diffFn_flip_other (g : YeeOps s) {a b : Fin 3} (h : b ≠ a) (ofH : Bool) (f : SField s) (i : GIdx s) :
    g.diffFn ofH (fun i => f (flipCell a i)) b i = g.diffFn ofH f b (flipCell a i) ∧
      g.diffFn ofH (fun i => f (flipEdge a i)) b i = g.diffFn ofH f b (flipEdge a i) := by
  cases ofH
  · constructor
    · change (f (flipCell a (Function.update i b (i b + 1))) - f (flipCell a i)) / g.dx false b (i b)
        = (f (Function.update (flipCell a i) b (flipCell a i b + 1)) - f (flipCell a i)) / g.dx false b (flipCell a i b)
      rw [flipCell_other h, flipCell_at h]
    · change (f (flipEdge a (Function.update i b (i b + 1))) - f (flipEdge a i)) / g.dx false b (i b)
        = (f (Function.update (flipEdge a i) b (flipEdge a i b + 1)) - f (flipEdge a i)) / g.dx false b (flipEdge a i b)
      rw [flipEdge_other h, flipEdge_at h]
  · constructor
    · change (f (flipCell a i) - f (flipCell a (Function.update i b (i b - 1)))) / g.dx true b (i b)
        = (f (flipCell a i) - f (Function.update (flipCell a i) b (flipCell a i b - 1))) / g.dx true b (flipCell a i b)
      rw [flipCell_other h, flipCell_at h]
    · change (f (flipEdge a i) - f (flipEdge a (Function.update i b (i b - 1)))) / g.dx true b (i b)
        = (f (flipEdge a i) - f (Function.update (flipEdge a i) b (flipEdge a i b - 1))) / g.dx true b (flipEdge a i b)
      rw [flipEdge_other h, flipEdge_at h]

/-- The forward difference of an edge quantity is a cell quantity with the opposite sign in the mirror. -/
theorem diffFn_flip_fwd (g : YeeOps s) {a : Fin 3} (hg : SymmetricCells g a) (f : SField s) (i : GIdx s) :
    g.diffFn false (fun i => f (flipEdge a i)) a i = -g.diffFn false f a (flipCell a i) := by
  change (f (flipEdge a (Function.update i a (i a + 1))) - f (flipEdge a i)) / g.dx false a (i a)
    = -((f (Function.update (flipCell a i) a (flipCell a i a + 1)) - f (flipCell a i)) / g.dx false a (flipCell a i a))
  have h1 : flipEdge a (Function.update i a (i a + 1)) = flipCell a i := by
    unfold flipEdge flipCell
    rw [Function.update_self, Function.update_idem, neg_succ']
  have h2 : Function.update (flipCell a i) a (flipCell a i a + 1) = flipEdge a i := by
    unfold flipEdge flipCell
    rw [Function.update_self, Function.update_idem, rev_succ]
  have h3 : g.dx false a (flipCell a i a) = g.dx false a (i a) := by
    unfold flipCell
    rw [Function.update_self]
    exact (hg (i a)).1
  rw [h1, h2, h3]
  ring

theorem diffFn_flip_bwd (g : YeeOps s) {a : Fin 3} (hg : SymmetricCells g a) (f : SField s) (i : GIdx s) :
    g.diffFn true (fun i => f (flipCell a i)) a i = -g.diffFn true f a (flipEdge a i) := by
  change (f (flipCell a i) - f (flipCell a (Function.update i a (i a - 1)))) / g.dx true a (i a)
    = -((f (flipEdge a i) - f (Function.update (flipEdge a i) a (flipEdge a i a - 1))) / g.dx true a (flipEdge a i a))
  have h1 : flipCell a (Function.update i a (i a - 1)) = flipEdge a i := by
    unfold flipEdge flipCell
    rw [Function.update_self, Function.update_idem, rev_pred]
  have h2 : Function.update (flipEdge a i) a (flipEdge a i a - 1) = flipCell a i := by
    unfold flipEdge flipCell
    rw [Function.update_self, Function.update_idem, neg_pred]
  have h3 : g.dx true a (flipEdge a i a) = g.dx true a (i a) := by
    unfold flipEdge
    rw [Function.update_self]
    exact (hg (i a)).2
  rw [h1, h2, h3]
  ring

theorem diffFn_neg (g : YeeOps s) (ofH : Bool) (f : SField s) (b : Fin 3) (i : GIdx s) :
    g.diffFn ofH (fun i => -f i) b i = -g.diffFn ofH f b i := by
  cases ofH
  · change (-f _ - -f i) / _ = -((f _ - f i) / _); ring
  · change (-f i - -f _) / _ = -((f i - f _) / _); ring

/-- The curl of a mirrored electric field is the mirrored curl. -/
theorem curl_mirrorE (g : YeeOps s) {a : Fin 3} (hg : SymmetricCells g a) (e : VField s) :
    g.curl false (flipE a e) = flipH a (g.curl false e) := by
  have hC : ∀ (f : SField s) (b : Fin 3), b ≠ a → ∀ i, g.diffFn false (fun i => -f (flipCell a i)) b i = -g.diffFn false f b (flipCell a i) := by
    intro f b hb i
    rw [diffFn_neg g false (fun i => f (flipCell a i)) b i, (diffFn_flip_other g hb false f i).1]
  have hE : ∀ (f : SField s) (b : Fin 3), b ≠ a → ∀ i, g.diffFn false (fun i => f (flipEdge a i)) b i = g.diffFn false f b (flipEdge a i) :=
    fun f b hb i => (diffFn_flip_other g hb false f i).2
  have hA : ∀ (f : SField s) (i : GIdx s), g.diffFn false (fun i => f (flipEdge a i)) a i = -g.diffFn false f a (flipCell a i) :=
    fun f i => diffFn_flip_fwd g hg f i
  funext c i
  match a, c with
  | 0, 0 =>
    change g.diffFn false (fun i => e 2 (flipEdge 0 i)) 1 i - g.diffFn false (fun i => e 1 (flipEdge 0 i)) 2 i
      = g.diffFn false (e 2) 1 (flipEdge 0 i) - g.diffFn false (e 1) 2 (flipEdge 0 i)
    rw [hE _ _ (by decide), hE _ _ (by decide)]
  | 0, 1 =>
    change g.diffFn false (fun i => -e 0 (flipCell 0 i)) 2 i - g.diffFn false (fun i => e 2 (flipEdge 0 i)) 0 i
      = -(g.diffFn false (e 0) 2 (flipCell 0 i) - g.diffFn false (e 2) 0 (flipCell 0 i))
    rw [hC _ _ (by decide), hA]; ring
  | 0, 2 =>
    change g.diffFn false (fun i => e 1 (flipEdge 0 i)) 0 i - g.diffFn false (fun i => -e 0 (flipCell 0 i)) 1 i
      = -(g.diffFn false (e 1) 0 (flipCell 0 i) - g.diffFn false (e 0) 1 (flipCell 0 i))
    rw [hC _ _ (by decide), hA]; ring
  | 1, 0 =>
    change g.diffFn false (fun i => e 2 (flipEdge 1 i)) 1 i - g.diffFn false (fun i => -e 1 (flipCell 1 i)) 2 i
      = -(g.diffFn false (e 2) 1 (flipCell 1 i) - g.diffFn false (e 1) 2 (flipCell 1 i))
    rw [hC _ _ (by decide), hA]; ring
  | 1, 1 =>
    change g.diffFn false (fun i => e 0 (flipEdge 1 i)) 2 i - g.diffFn false (fun i => e 2 (flipEdge 1 i)) 0 i
      = g.diffFn false (e 0) 2 (flipEdge 1 i) - g.diffFn false (e 2) 0 (flipEdge 1 i)
    rw [hE _ _ (by decide), hE _ _ (by decide)]
  | 1, 2 =>
    change g.diffFn false (fun i => -e 1 (flipCell 1 i)) 0 i - g.diffFn false (fun i => e 0 (flipEdge 1 i)) 1 i
      = -(g.diffFn false (e 1) 0 (flipCell 1 i) - g.diffFn false (e 0) 1 (flipCell 1 i))
    rw [hC _ _ (by decide), hA]; ring
  | 2, 0 =>
    change g.diffFn false (fun i => -e 2 (flipCell 2 i)) 1 i - g.diffFn false (fun i => e 1 (flipEdge 2 i)) 2 i
      = -(g.diffFn false (e 2) 1 (flipCell 2 i) - g.diffFn false (e 1) 2 (flipCell 2 i))
    rw [hC _ _ (by decide), hA]; ring
  | 2, 1 =>
    change g.diffFn false (fun i => e 0 (flipEdge 2 i)) 2 i - g.diffFn false (fun i => -e 2 (flipCell 2 i)) 0 i
      = -(g.diffFn false (e 0) 2 (flipCell 2 i) - g.diffFn false (e 2) 0 (flipCell 2 i))
    rw [hC _ _ (by decide), hA]; ring
  | 2, 2 =>
    change g.diffFn false (fun i => e 1 (flipEdge 2 i)) 0 i - g.diffFn false (fun i => e 0 (flipEdge 2 i)) 1 i
      = g.diffFn false (e 1) 0 (flipEdge 2 i) - g.diffFn false (e 0) 1 (flipEdge 2 i)
    rw [hE _ _ (by decide), hE _ _ (by decide)]

/-- The curl of a mirrored magnetic field is the mirrored curl. -/
theorem curl_mirrorH (g : YeeOps s) {a : Fin 3} (hg : SymmetricCells g a) (h : VField s) :
    g.curl true (flipH a h) = flipE a (g.curl true h) := by
  have hC : ∀ (f : SField s) (b : Fin 3), b ≠ a → ∀ i, g.diffFn true (fun i => -f (flipCell a i)) b i = -g.diffFn true f b (flipCell a i) := by
    intro f b hb i
    rw [diffFn_neg g true (fun i => f (flipCell a i)) b i, (diffFn_flip_other g hb true f i).1]
  have hE : ∀ (f : SField s) (b : Fin 3), b ≠ a → ∀ i, g.diffFn true (fun i => f (flipEdge a i)) b i = g.diffFn true f b (flipEdge a i) :=
    fun f b hb i => (diffFn_flip_other g hb true f i).2
  have hA : ∀ (f : SField s) (i : GIdx s), g.diffFn true (fun i => -f (flipCell a i)) a i = g.diffFn true f a (flipEdge a i) := by
    intro f i
    rw [diffFn_neg g true (fun i => f (flipCell a i)) a i, diffFn_flip_bwd g hg, neg_neg]
  funext c i
  match a, c with
  | 0, 0 =>
    change g.diffFn true (fun i => -h 2 (flipCell 0 i)) 1 i - g.diffFn true (fun i => -h 1 (flipCell 0 i)) 2 i
      = -(g.diffFn true (h 2) 1 (flipCell 0 i) - g.diffFn true (h 1) 2 (flipCell 0 i))
    rw [hC _ _ (by decide), hC _ _ (by decide)]; ring
  | 0, 1 =>
    change g.diffFn true (fun i => h 0 (flipEdge 0 i)) 2 i - g.diffFn true (fun i => -h 2 (flipCell 0 i)) 0 i
      = g.diffFn true (h 0) 2 (flipEdge 0 i) - g.diffFn true (h 2) 0 (flipEdge 0 i)
    rw [hE _ _ (by decide), hA]
  | 0, 2 =>
    change g.diffFn true (fun i => -h 1 (flipCell 0 i)) 0 i - g.diffFn true (fun i => h 0 (flipEdge 0 i)) 1 i
      = g.diffFn true (h 1) 0 (flipEdge 0 i) - g.diffFn true (h 0) 1 (flipEdge 0 i)
    rw [hE _ _ (by decide), hA]
  | 1, 0 =>
    change g.diffFn true (fun i => -h 2 (flipCell 1 i)) 1 i - g.diffFn true (fun i => h 1 (flipEdge 1 i)) 2 i
      = g.diffFn true (h 2) 1 (flipEdge 1 i) - g.diffFn true (h 1) 2 (flipEdge 1 i)
    rw [hE _ _ (by decide), hA]
  | 1, 1 =>
    change g.diffFn true (fun i => -h 0 (flipCell 1 i)) 2 i - g.diffFn true (fun i => -h 2 (flipCell 1 i)) 0 i
      = -(g.diffFn true (h 0) 2 (flipCell 1 i) - g.diffFn true (h 2) 0 (flipCell 1 i))
    rw [hC _ _ (by decide), hC _ _ (by decide)]; ring
  | 1, 2 =>
    change g.diffFn true (fun i => h 1 (flipEdge 1 i)) 0 i - g.diffFn true (fun i => -h 0 (flipCell 1 i)) 1 i
      = g.diffFn true (h 1) 0 (flipEdge 1 i) - g.diffFn true (h 0) 1 (flipEdge 1 i)
    rw [hE _ _ (by decide), hA]
  | 2, 0 =>
    change g.diffFn true (fun i => h 2 (flipEdge 2 i)) 1 i - g.diffFn true (fun i => -h 1 (flipCell 2 i)) 2 i
      = g.diffFn true (h 2) 1 (flipEdge 2 i) - g.diffFn true (h 1) 2 (flipEdge 2 i)
    rw [hE _ _ (by decide), hA]
  | 2, 1 =>
    change g.diffFn true (fun i => -h 0 (flipCell 2 i)) 2 i - g.diffFn true (fun i => h 2 (flipEdge 2 i)) 0 i
      = g.diffFn true (h 0) 2 (flipEdge 2 i) - g.diffFn true (h 2) 0 (flipEdge 2 i)
    rw [hE _ _ (by decide), hA]
  | 2, 2 =>
    change g.diffFn true (fun i => -h 1 (flipCell 2 i)) 0 i - g.diffFn true (fun i => -h 0 (flipCell 2 i)) 1 i
      = -(g.diffFn true (h 1) 0 (flipCell 2 i) - g.diffFn true (h 0) 1 (flipCell 2 i))
    rw [hC _ _ (by decide), hC _ _ (by decide)]; ring

/-- Along `x` and `y` the permittivity tensor of the mirrored permittivity is the mirrored tensor. -/
theorem yeeAvgG_mirror (a : Fin 3) (ha : a ≠ 2) (eps : SField s) : yeeAvgG (mirrorEps a eps) = mirrorPosE a (yeeAvgG eps) := by
  have hx : ∀ i : GIdx s, ∀ b : Fin 3, flipCell b (Function.update i b (i b - 1)) = flipEdge b i := by
    intro i b
    unfold flipEdge flipCell
    rw [Function.update_self, Function.update_idem, rev_pred]
  have hm : ∀ i : GIdx s, ∀ b : Fin 3, Function.update (flipEdge b i) b (flipEdge b i b - 1) = flipCell b i := by
    intro i b
    unfold flipEdge flipCell
    rw [Function.update_self, Function.update_idem, neg_pred]
  have ho : ∀ (i : GIdx s) (a b : Fin 3), b ≠ a → Function.update (flipCell a i) b (flipCell a i b - 1) = flipCell a (Function.update i b (i b - 1)) := by
    intro i a b h
    rw [flipCell_other h, flipCell_at h]
  have hoe : ∀ (i : GIdx s) (a b : Fin 3), b ≠ a → Function.update (flipEdge a i) b (flipEdge a i b - 1) = flipEdge a (Function.update i b (i b - 1)) := by
    intro i a b h
    rw [flipEdge_other h, flipEdge_at h]
  funext c i
  match a, c with
  | 2, _ => exact absurd rfl ha
  | 0, 0 =>
    change (eps (flipCell 0 i) + eps (flipCell 0 (Function.update i 1 (i 1 - 1)))) / 2
      = (eps (flipCell 0 i) + eps (Function.update (flipCell 0 i) 1 (flipCell 0 i 1 - 1))) / 2
    rw [ho _ _ _ (by decide)]
  | 0, 1 =>
    change (eps (flipCell 0 i) + eps (flipCell 0 (Function.update i 0 (i 0 - 1)))) / 2
      = (eps (flipEdge 0 i) + eps (Function.update (flipEdge 0 i) 0 (flipEdge 0 i 0 - 1))) / 2
    rw [hx, hm]; ring
  | 0, 2 =>
    change ((eps (flipCell 0 i) + eps (flipCell 0 (Function.update i 0 (i 0 - 1)))) / 2
        + (eps (flipCell 0 (Function.update i 1 (i 1 - 1))) + eps (flipCell 0 (Function.update (Function.update i 1 (i 1 - 1)) 0 ((Function.update i 1 (i 1 - 1)) 0 - 1)))) / 2) / 2
      = ((eps (flipEdge 0 i) + eps (Function.update (flipEdge 0 i) 0 (flipEdge 0 i 0 - 1))) / 2
        + (eps (Function.update (flipEdge 0 i) 1 (flipEdge 0 i 1 - 1)) + eps (Function.update (Function.update (flipEdge 0 i) 1 (flipEdge 0 i 1 - 1)) 0 ((Function.update (flipEdge 0 i) 1 (flipEdge 0 i 1 - 1)) 0 - 1))) / 2) / 2
    rw [hx, hm, hoe _ _ _ (by decide), hm, hx]; ring
  | 1, 0 =>
    change (eps (flipCell 1 i) + eps (flipCell 1 (Function.update i 1 (i 1 - 1)))) / 2
      = (eps (flipEdge 1 i) + eps (Function.update (flipEdge 1 i) 1 (flipEdge 1 i 1 - 1))) / 2
    rw [hx, hm]; ring
  | 1, 1 =>
    change (eps (flipCell 1 i) + eps (flipCell 1 (Function.update i 0 (i 0 - 1)))) / 2
      = (eps (flipCell 1 i) + eps (Function.update (flipCell 1 i) 0 (flipCell 1 i 0 - 1))) / 2
    rw [ho _ _ _ (by decide)]
  | 1, 2 =>
    change ((eps (flipCell 1 i) + eps (flipCell 1 (Function.update i 0 (i 0 - 1)))) / 2
        + (eps (flipCell 1 (Function.update i 1 (i 1 - 1))) + eps (flipCell 1 (Function.update (Function.update i 1 (i 1 - 1)) 0 ((Function.update i 1 (i 1 - 1)) 0 - 1)))) / 2) / 2
      = ((eps (flipEdge 1 i) + eps (Function.update (flipEdge 1 i) 0 (flipEdge 1 i 0 - 1))) / 2
        + (eps (Function.update (flipEdge 1 i) 1 (flipEdge 1 i 1 - 1)) + eps (Function.update (Function.update (flipEdge 1 i) 1 (flipEdge 1 i 1 - 1)) 0 ((Function.update (flipEdge 1 i) 1 (flipEdge 1 i 1 - 1)) 0 - 1))) / 2) / 2
    have h1 : (Function.update i 1 (i 1 - 1)) 0 = i 0 := Function.update_of_ne (by decide) _ _
    rw [hx, hm, h1, Function.update_comm (by decide : (1 : Fin 3) ≠ 0)]
    have h2 : flipCell 1 (Function.update (Function.update i 0 (i 0 - 1)) 1 (i 1 - 1)) = flipEdge 1 (Function.update i 0 (i 0 - 1)) := by
      have := hx (Function.update i 0 (i 0 - 1)) 1
      rw [Function.update_of_ne (by decide : (1 : Fin 3) ≠ 0)] at this
      exact this
    rw [h2, hoe _ _ _ (by decide), ho _ _ _ (by decide)]
    ring

omit [∀ a, NeZero (s a)] in
theorem addSource_mirrorE (a : Fin 3) (jax : Bool) (region : Fin 3 → GIdx s → Bool) (w : VField s) (src : Option (VField s)) (f : VField s) :
    addSource jax (mirrorPosE a region) (mirrorPosE a w) (src.map (flipE a)) (flipE a f) = flipE a (addSource jax region w src f) := by
  cases src with
  | none => rfl
  | some v =>
    funext c i
    simp only [addSource, Option.map_some, mirrorPosE, flipE]
    by_cases hc : c = a
    · simp only [if_pos hc]
      cases jax <;> cases region c (flipCell a i) <;> (simp; try ring)
    · simp only [if_neg hc]

omit [∀ a, NeZero (s a)] in
theorem addSource_mirrorH (a : Fin 3) (jax : Bool) (region : Fin 3 → GIdx s → Bool) (k : ℂ) (src : Option (VField s)) (f : VField s) :
    addSource jax (mirrorPosH a region) (fun _ _ => k) (src.map (flipH a)) (flipH a f) = flipH a (addSource jax region (fun _ _ => k) src f) := by
  cases src with
  | none => rfl
  | some v =>
    funext c i
    simp only [addSource, Option.map_some, mirrorPosH, flipH]
    by_cases hc : c = a
    · simp only [if_pos hc]
    · simp only [if_neg hc]
      cases jax <;> cases region c (flipCell a i) <;> (simp; try ring)

omit [∀ a, NeZero (s a)] in
theorem fold_none (jax : Bool) (region : Fin 3 → GIdx s → Bool) (w f : VField s) : addSource jax region w none f = f := rfl

omit [∀ a, NeZero (s a)] in
theorem foldE_mirror (a : Fin 3) (jax : Bool) (w w' : VField s) (hw : w' = mirrorPosE a w) (l : List (Source s)) (f : VField s) :
    (l.flatMap (mirrorSource a)).foldl (fun f src => addSource jax src.region w' src.e f) (flipE a f)
      = flipE a (l.foldl (fun f src => addSource jax src.region w src.e f) f) := by
  subst hw
  induction l generalizing f with
  | nil => rfl
  | cons q l ih =>
    rw [List.flatMap_cons, List.foldl_append, List.foldl_cons, mirrorSource, List.foldl_cons, List.foldl_cons, List.foldl_nil,
      fold_none, addSource_mirrorE, ih]

omit [∀ a, NeZero (s a)] in
theorem foldH_mirror (a : Fin 3) (jax : Bool) (k : ℂ) (l : List (Source s)) (f : VField s) :
    (l.flatMap (mirrorSource a)).foldl (fun f src => addSource jax src.region (fun _ _ => k) src.h f) (flipH a f)
      = flipH a (l.foldl (fun f src => addSource jax src.region (fun _ _ => k) src.h f) f) := by
  induction l generalizing f with
  | nil => rfl
  | cons q l ih =>
    rw [List.flatMap_cons, List.foldl_append, List.foldl_cons, mirrorSource, List.foldl_cons, List.foldl_cons, List.foldl_nil,
      fold_none, addSource_mirrorH, ih]

/-- The half steps without PML, with sources. -/
theorem stepE_nopml (g : YeeOps s) (epsT : VField s) (dt : ℝ) (pml : Fin 0 → PmlRegion s) (jax : Bool) (st : FState s 0) (l : List (Source s)) :
    Fdtd.stepE ⟨g, epsT, dt, 0, pml⟩ jax st l
      = (l.foldl (fun f src => addSource jax src.region (fun c i => (dt : ℂ) / epsT c i) src.e f)
          (fun c i => st.1 c i + g.curl true st.2.1 c i / epsT c i * dt), st.2.1, st.2.2.1, st.2.2.2) := by
  obtain ⟨e, h, pe, ph⟩ := st
  exact Prod.ext rfl (Prod.ext rfl (Prod.ext (funext fun k => k.elim0) rfl))

theorem stepH_nopml (g : YeeOps s) (epsT : VField s) (dt : ℝ) (pml : Fin 0 → PmlRegion s) (jax : Bool) (st : FState s 0) (l : List (Source s)) :
    Fdtd.stepH ⟨g, epsT, dt, 0, pml⟩ jax st l
      = (st.1, l.foldl (fun f src => addSource jax src.region (fun _ _ => (dt : ℂ)) src.h f)
          (fun c i => st.2.1 c i - g.curl false st.1 c i * dt), st.2.2.1, st.2.2.2) := by
  obtain ⟨e, h, pe, ph⟩ := st
  exact Prod.ext rfl (Prod.ext rfl (Prod.ext rfl (funext fun k => k.elim0)))

theorem step_mirror (g : YeeOps s) (epsT : VField s) (dt : ℝ) (pml : Fin 0 → PmlRegion s) (a : Fin 3) (hg : SymmetricCells g a)
    (jax : Bool) (st : FState s 0) (l : List (Source s)) :
    Fdtd.step ⟨g, mirrorPosE a epsT, dt, 0, pml⟩ jax (mirrorState a st) (l.flatMap (mirrorSource a))
      = mirrorState a (Fdtd.step ⟨g, epsT, dt, 0, pml⟩ jax st l) := by
  have hw : (fun c i => (dt : ℂ) / mirrorPosE a epsT c i) = mirrorPosE a (fun c i => (dt : ℂ) / epsT c i) := by
    funext c i
    by_cases hc : c = a <;> simp [mirrorPosE, hc]
  have hE : Fdtd.stepE ⟨g, mirrorPosE a epsT, dt, 0, pml⟩ jax (mirrorState a st) (l.flatMap (mirrorSource a))
      = mirrorState a (Fdtd.stepE ⟨g, epsT, dt, 0, pml⟩ jax st l) := by
    rw [stepE_nopml, stepE_nopml]
    have h0 : (fun c i => flipE a st.1 c i + g.curl true (flipH a st.2.1) c i / mirrorPosE a epsT c i * dt)
        = flipE a (fun c i => st.1 c i + g.curl true st.2.1 c i / epsT c i * dt) := by
      rw [curl_mirrorH g hg]
      funext c i
      by_cases hc : c = a
      · simp only [flipE, mirrorPosE, if_pos hc]; ring
      · simp only [flipE, mirrorPosE, if_neg hc]
    have h1 := foldE_mirror a jax (fun c i => (dt : ℂ) / epsT c i) _ hw l (fun c i => st.1 c i + g.curl true st.2.1 c i / epsT c i * dt)
    rw [← h0] at h1
    exact Prod.ext h1 rfl
  unfold Fdtd.step
  have hE' := hE
  generalize Fdtd.stepE ⟨g, epsT, dt, 0, pml⟩ jax st l = mid at hE'
  generalize Fdtd.stepE ⟨g, mirrorPosE a epsT, dt, 0, pml⟩ jax (mirrorState a st) (l.flatMap (mirrorSource a)) = mid' at hE'
  subst hE'
  have hH := stepH_nopml g (mirrorPosE a epsT) dt pml jax (mirrorState a mid) (l.flatMap (mirrorSource a))
  have hH0 := stepH_nopml g epsT dt pml jax mid l
  refine hH.trans (Eq.trans ?_ (congrArg (mirrorState a) hH0).symm)
  have h0 : (fun c i => flipH a mid.2.1 c i - g.curl false (flipE a mid.1) c i * dt)
      = flipH a (fun c i => mid.2.1 c i - g.curl false mid.1 c i * dt) := by
    rw [curl_mirrorE g hg]
    funext c i
    by_cases hc : c = a
    · simp only [flipH, if_pos hc]
    · simp only [flipH, if_neg hc]; ring
  have h1 := foldH_mirror a jax (dt : ℂ) l (fun c i => mid.2.1 c i - g.curl false mid.1 c i * dt)
  rw [← h0] at h1
  exact Prod.ext rfl (Prod.ext h1 rfl)

theorem run_mirror (g : YeeOps s) (epsT : VField s) (dt : ℝ) (pml : Fin 0 → PmlRegion s) (a : Fin 3) (hg : SymmetricCells g a)
    (jax : Bool) (srcs : ℕ → List (Source s)) (st : FState s 0) (n : ℕ) :
    Fdtd.run ⟨g, mirrorPosE a epsT, dt, 0, pml⟩ jax (fun k => (srcs k).flatMap (mirrorSource a)) (mirrorState a st) n
      = mirrorState a (Fdtd.run ⟨g, epsT, dt, 0, pml⟩ jax srcs st n) := by
  induction n with
  | zero => rfl
  | succ n ih =>
    rw [Fdtd.run, Fdtd.run, ih]
    exact step_mirror g epsT dt pml a hg jax _ _

/-! ### C141 -/

/-- C141, FDTD: mirroring the permittivity tensor, the initial fields and all sources along an axis mirrors
the fields of every later step; both modes, cells symmetric along the axis, no PML. -/
theorem C141_fdtd_partial (F : Fdtd s) (hF : F.npml = 0) (a : Fin 3) (hg : SymmetricCells F.g a) (jax : Bool)
    (srcs : ℕ → List (Source s)) (st : FState s F.npml) (n : ℕ) :
    Fdtd.run { F with epsT := mirrorPosE a F.epsT } jax (fun k => (srcs k).flatMap (mirrorSource a)) (mirrorState a st) n
      = mirrorState a (F.run jax srcs st n) := by
  obtain ⟨g, epsT, dt, np, pml⟩ := F
  simp only at hF
  subst hF
  exact run_mirror g epsT dt pml a hg jax srcs st n

omit [∀ a, NeZero (s a)] in
theorem uniform_symmetric (bloch : Fin 3 → ℂ) (spacing : Fin 3 → ℝ) (a : Fin 3) : SymmetricCells (uniformOps s bloch spacing) a :=
  fun _ => ⟨rfl, rfl⟩

/-- C141 in terms of the constructor: flipping the permittivity array along `x` or `y`, the initial fields
and the sources, flips the fields of every later step. -/
theorem C141_fdtd_eps_partial (ndim : ℕ) (bloch : Fin 3 → ℂ) (spacing : Fin 3 → ℝ) (eps : SField s) (jax : Bool) (a : Fin 3) (ha : a ≠ 2)
    (srcs : ℕ → List (Source s)) (st : FState s 0) (n : ℕ) :
    (plainFdtd ndim bloch spacing (mirrorEps a eps)).run jax (fun k => (srcs k).flatMap (mirrorSource a)) (mirrorState a st) n
      = mirrorState a ((plainFdtd ndim bloch spacing eps).run jax srcs st n) := by
  have h := C141_fdtd_partial (plainFdtd ndim bloch spacing eps) rfl a (uniform_symmetric bloch spacing a) jax srcs st n
  show Fdtd.run ⟨uniformOps s bloch spacing, yeeAvgG (mirrorEps a eps), courantDt ndim spacing, 0, fun k => k.elim0⟩ jax _ _ n = _
  rw [yeeAvgG_mirror a ha]
  exact h

omit [∀ a, NeZero (s a)] in
theorem flipE_mirrorE (a : Fin 3) (e : VField s) : flipE a (flipE a e) = e := by
  funext c i
  by_cases hc : c = a
  · simp only [flipE, if_pos hc, flipCell_flipCell, neg_neg]
  · simp only [flipE, if_neg hc, flipEdge_flipEdge]

theorem fdfdMat_mirror (g : YeeOps s) (hb : ∀ a, g.bloch a = 1) {a : Fin 3} (hg : SymmetricCells g a) (k0 : ℝ) (epsT e : VField s) :
    fdfdMat g k0 (mirrorPosE a epsT) *ᵥ vflat (flipE a e) = vflat (flipE a (fun c i => (fdfdMat g k0 epsT *ᵥ vflat e) (c, i))) := by
  funext p
  obtain ⟨c, i⟩ := p
  rw [fdfdMat_mulVec, ← curl_eq_curlOf g hb, ← curl_eq_curlOf g hb, curl_mirrorE g hg, curl_mirrorH g hg]
  show _ = (if c = a then -(fdfdMat g k0 epsT *ᵥ vflat e) (c, flipCell a i) else (fdfdMat g k0 epsT *ᵥ vflat e) (c, flipEdge a i))
  rw [fdfdMat_mulVec, fdfdMat_mulVec, ← curl_eq_curlOf g hb, ← curl_eq_curlOf g hb]
  by_cases hc : c = a
  · simp only [flipE, mirrorPosE, if_pos hc]; ring
  · simp only [flipE, mirrorPosE, if_neg hc]

/-- C141, FDFD in three dimensions: flipping the permittivity along `x` or `y` and mirroring the source
mirrors both fields, for exact solvers of the two systems. -/
theorem C141_fdfd_partial (bloch : Fin 3 → ℂ) (hb : ∀ a, bloch a = 1) (spacing : Fin 3 → ℝ) (k0 : ℝ) (a : Fin 3) (ha : a ≠ 2) (eps : SField s)
    (src : VField s) (solver : Solver (Fin 3 × GIdx s)) :
    let g := uniformOps s bloch spacing
    (∀ b, fdfdMat g k0 (yeeAvgG eps) *ᵥ solver (fdfdMat g k0 (yeeAvgG eps)) b = b) →
    (∀ b, fdfdMat g k0 (yeeAvgG (mirrorEps a eps)) *ᵥ solver (fdfdMat g k0 (yeeAvgG (mirrorEps a eps))) b = b) →
    solve3d g k0 (yeeAvgG (mirrorEps a eps)) solver (flipE a src)
      = (flipE a (solve3d g k0 (yeeAvgG eps) solver src).1, flipH a (solve3d g k0 (yeeAvgG eps) solver src).2) := by
  intro g hs hs'
  have hg := uniform_symmetric (s := s) bloch spacing a
  have he : (solve3d g k0 (yeeAvgG (mirrorEps a eps)) solver (flipE a src)).1 = flipE a (solve3d g k0 (yeeAvgG eps) solver src).1 := by
    have hinj := mulVec_inj_of_solver _ _ hs'
    set e := (solve3d g k0 (yeeAvgG eps) solver src).1 with hedef
    have hev : vflat e = solver (fdfdMat g k0 (yeeAvgG eps)) (fun p => (k0 : ℂ) * vflat src p) := by
      funext p; rfl
    have h1 := fdfdMat_mirror g hb hg k0 (yeeAvgG eps) e
    rw [← yeeAvgG_mirror a ha] at h1
    rw [hev, hs] at h1
    have h2 : vflat (flipE a (fun c i => (k0 : ℂ) * vflat src (c, i))) = fun p => (k0 : ℂ) * vflat (flipE a src) p := by
      funext p
      obtain ⟨c, i⟩ := p
      show flipE a (fun c i => (k0 : ℂ) * src c i) c i = (k0 : ℂ) * flipE a src c i
      by_cases hc : c = a
      · simp only [flipE, if_pos hc]; ring
      · simp only [flipE, if_neg hc]
    have h3 := hinj ((hs' (fun p => (k0 : ℂ) * vflat (flipE a src) p)).trans (h2.symm.trans h1.symm))
    funext c i
    exact congrFun h3 (c, i)
  refine Prod.ext he ?_
  funext c i
  show g.curl false (solve3d g k0 (yeeAvgG (mirrorEps a eps)) solver (flipE a src)).1 c i / (I * k0)
    = flipH a (fun c i => g.curl false (solve3d g k0 (yeeAvgG eps) solver src).1 c i / (I * k0)) c i
  rw [he, curl_mirrorE g hg]
  by_cases hc : c = a
  · simp only [flipH, if_pos hc]
  · simp only [flipH, if_neg hc]; ring

/-- C141, symmetric devices have symmetric fields: if the permittivity does not change under the flip and the
source equals its mirror image, so do the fields FDFD returns; likewise for an antisymmetric source. -/
theorem C141_symmetric_device_partial (bloch : Fin 3 → ℂ) (hb : ∀ a, bloch a = 1) (spacing : Fin 3 → ℝ) (k0 : ℝ) (a : Fin 3) (ha : a ≠ 2)
    (eps : SField s) (heps : mirrorEps a eps = eps) (src : VField s) (hsrc : flipE a src = src) (solver : Solver (Fin 3 × GIdx s)) :
    let g := uniformOps s bloch spacing
    (∀ b, fdfdMat g k0 (yeeAvgG eps) *ᵥ solver (fdfdMat g k0 (yeeAvgG eps)) b = b) →
    let f := solve3d g k0 (yeeAvgG eps) solver src
    flipE a f.1 = f.1 ∧ flipH a f.2 = f.2 := by
  intro g hs f
  have h := C141_fdfd_partial bloch hb spacing k0 a ha eps src solver hs (by rw [heps]; exact hs)
  rw [heps, hsrc] at h
  exact ⟨(congrArg Prod.fst h).symm, (congrArg Prod.snd h).symm⟩

/-- C141, two-dimensional FDFD of the electric field (`tm=False`): flipping along `x` or `y` mirrors `e_z`. -/
theorem C141_ez_partial (bloch : Fin 3 → ℂ) (hb : ∀ a, bloch a = 1) (spacing : Fin 3 → ℝ) (k0 : ℝ) (a : Fin 3) (ha : a ≠ 2) (eps : SField s)
    (src : SField s) (solver : Solver (GIdx s)) :
    let g := uniformOps s bloch spacing
    (∀ b, fdfdMatEz g k0 (yeeAvgG eps) *ᵥ solver (fdfdMatEz g k0 (yeeAvgG eps)) b = b) →
    (∀ b, fdfdMatEz g k0 (yeeAvgG (mirrorEps a eps)) *ᵥ solver (fdfdMatEz g k0 (yeeAvgG (mirrorEps a eps))) b = b) →
    (solve2d g k0 (yeeAvgG (mirrorEps a eps)) false solver (fun i => src (flipEdge a i))).1
      = flipE a (solve2d g k0 (yeeAvgG eps) false solver src).1 := by
  intro g hs hs'
  have hg := uniform_symmetric (s := s) bloch spacing a
  have hinj := mulVec_inj_of_solver _ _ hs'
  set e : SField s := solver (fdfdMatEz g k0 (yeeAvgG eps)) (fun i => (k0 : ℂ) * src i) with hedef
  have hee := hs (fun i => (k0 : ℂ) * src i)
  rw [← hedef] at hee
  have hd : ∀ ofH f b, g.deriv ofH b *ᵥ f = g.diffFn ofH f b := fun ofH f b => (YeeOps.diffFn_eq g hb ofH f b).symm
  have hsec : ∀ (b : Fin 3) (i : GIdx s), g.diffFn true (g.diffFn false (fun i => e (flipEdge a i)) b) b i
      = g.diffFn true (g.diffFn false e b) b (flipEdge a i) := by
    intro b i
    by_cases hba : b = a
    · subst hba
      have h1 : g.diffFn false (fun i => e (flipEdge b i)) b = fun i => -g.diffFn false e b (flipCell b i) :=
        funext fun i => diffFn_flip_fwd g hg e i
      rw [h1, diffFn_neg g true (fun i => g.diffFn false e b (flipCell b i)) b i, diffFn_flip_bwd g hg, neg_neg]
    · have h1 : g.diffFn false (fun i => e (flipEdge a i)) b = fun i => g.diffFn false e b (flipEdge a i) :=
        funext fun i => (diffFn_flip_other g hba false e i).2
      rw [h1, (diffFn_flip_other g hba true _ i).2]
  have hz : yeeAvgG (mirrorEps a eps) 2 = fun i => yeeAvgG eps 2 (flipEdge a i) := by
    rw [yeeAvgG_mirror a ha]
    funext i
    show (if (2 : Fin 3) = a then _ else _) = _
    rw [if_neg ha.symm]
  have h1 : fdfdMatEz g k0 (yeeAvgG (mirrorEps a eps)) *ᵥ (fun i => e (flipEdge a i)) = fun i => (k0 : ℂ) * src (flipEdge a i) := by
    funext i
    rw [fdfdMatEz_mulVec]
    have h2 := congrFun hee (flipEdge a i)
    rw [fdfdMatEz_mulVec] at h2
    simp only [hd, one_mul] at h2 ⊢
    rw [hsec, hsec, hz]
    exact h2
  have h3 := hinj ((hs' _).trans h1.symm)
  funext c i
  match c with
  | 0 =>
    change (0 : ℂ) = (if (0 : Fin 3) = a then -(0 : ℂ) else 0)
    split_ifs <;> simp
  | 1 =>
    change (0 : ℂ) = (if (1 : Fin 3) = a then -(0 : ℂ) else 0)
    split_ifs <;> simp
  | 2 =>
    change solver _ _ i = (if (2 : Fin 3) = a then -e (flipCell a i) else e (flipEdge a i))
    rw [if_neg ha.symm]
    exact congrFun h3 i

/-! ### Where mirror symmetry fails -/

/-- The electric part of one FDTD step without PML and sources. -/
theorem mirror_first_step (F : Fdtd s) (hF : F.npml = 0) (jax : Bool) (st : FState s F.npml) (c : Fin 3) (i : GIdx s) :
    (F.run jax (fun _ => []) st 1).1 c i = st.1 c i + F.g.curl true st.2.1 c i / F.epsT c i * F.dt :=
  congrFun (congrFun (step_plain F hF jax st).1 c) i

/-- C141 fails along `z`: on two cells along `z`, whenever their permittivities differ, there is a state whose
mirror image does not stay the mirror image when the permittivity is flipped (the permittivity tensor is not
averaged along `z`). -/
theorem C141_z_counterexample (jax : Bool) (eps : SField (shapeOf 1 1 2)) (hne : eps (fun _ => 0) ≠ eps (flipCell 2 fun _ => 0))
    (h0 : ∀ i, eps i ≠ 0) :
    ∃ st : FState (shapeOf 1 1 2) 0,
      (plainFdtd 3 (fun _ => 1) (fun _ => 1) (mirrorEps 2 eps)).run jax (fun _ => []) (mirrorState 2 st) 1
        ≠ mirrorState 2 ((plainFdtd 3 (fun _ => 1) (fun _ => 1) eps).run jax (fun _ => []) st 1) := by
  refine ⟨(fun _ _ => 0, fun c i => if c = 1 ∧ i 2 = 0 then 1 else 0, fun k => k.elim0, fun k => k.elim0), fun h => ?_⟩
  set st : FState (shapeOf 1 1 2) 0 := (fun _ _ => 0, fun c i => if c = 1 ∧ i 2 = 0 then 1 else 0, fun k => k.elim0, fun k => k.elim0)
  have h0' := congrFun (congrFun (congrArg Prod.fst h) 0) (fun _ => 0)
  have k1 := mirror_first_step (plainFdtd 3 (fun _ => 1) (fun _ => 1) (mirrorEps 2 eps)) rfl jax (mirrorState 2 st) 0 (fun _ => 0)
  have k2 := mirror_first_step (plainFdtd 3 (fun _ => 1) (fun _ => 1) eps) rfl jax st 0 (fun _ => 0)
  have h2 : (mirrorState 2 ((plainFdtd 3 (fun _ => 1) (fun _ => 1) eps).run jax (fun _ => []) st 1)).1 0 (fun _ => 0)
      = ((plainFdtd 3 (fun _ => 1) (fun _ => 1) eps).run jax (fun _ => []) st 1).1 0 (flipEdge 2 fun _ => 0) := rfl
  have hfl : flipEdge 2 (fun _ => 0 : GIdx (shapeOf 1 1 2)) = fun _ => 0 := by
    funext a
    match a with
    | 0 => rfl
    | 1 => rfl
    | 2 => rfl
  rw [hfl] at h2
  have h1 := k1.symm.trans (h0'.trans (h2.trans k2))
  have hc : (uniformOps (shapeOf 1 1 2) (fun _ => 1) (fun _ => 1)).curl true st.2.1 0 (fun _ => 0) = -1 := by
    change ((0 : ℂ) - _) / ((1 : ℝ) : ℂ) - ((if (1 : Fin 3) = 1 ∧ (0 : Fin 2) = 0 then (1 : ℂ) else 0) - (if (1 : Fin 3) = 1 ∧ ((0 : Fin 2) - 1) = 0 then (1 : ℂ) else 0)) / ((1 : ℝ) : ℂ) = -1
    have e1 : rollFwd (s := shapeOf 1 1 2) 1 (st.2.1 2) (fun _ => 0) = 0 := rfl
    simp
    exact e1
  have hc' : (uniformOps (shapeOf 1 1 2) (fun _ => 1) (fun _ => 1)).curl true (mirrorState 2 st).2.1 0 (fun _ => 0) = -1 := by
    have hs := congrFun (congrFun (curl_mirrorH (uniformOps (shapeOf 1 1 2) (fun _ => 1) (fun _ => 1)) (uniform_symmetric _ _ 2) st.2.1) 0) (fun _ => 0)
    refine hs.trans ?_
    change (uniformOps (shapeOf 1 1 2) (fun _ => 1) (fun _ => 1)).curl true st.2.1 0 (flipEdge 2 fun _ => 0) = -1
    rw [hfl, hc]
  change (0 : ℂ) + (uniformOps (shapeOf 1 1 2) (fun _ => 1) (fun _ => 1)).curl true (mirrorState 2 st).2.1 0 (fun _ => 0)
      / ((eps (flipCell 2 fun _ => 0) + eps (flipCell 2 (Function.update (fun _ => 0) 1 (0 - 1)))) / 2) * (courantDt 3 (fun _ => 1) : ℝ)
    = (0 : ℂ) + (uniformOps (shapeOf 1 1 2) (fun _ => 1) (fun _ => 1)).curl true st.2.1 0 (fun _ => 0)
      / ((eps (fun _ => 0) + eps (Function.update (fun _ => 0) 1 (0 - 1))) / 2) * (courantDt 3 (fun _ => 1) : ℝ) at h1
  have hu : (Function.update (fun _ => 0) 1 (0 - 1) : GIdx (shapeOf 1 1 2)) = fun _ => 0 := by
    funext a
    match a with
    | 0 => rfl
    | 1 => rfl
    | 2 => rfl
  rw [hu, hc, hc'] at h1
  have hdt : ((courantDt 3 (fun _ => 1) : ℝ) : ℂ) ≠ 0 := by
    have : courantDt 3 (fun _ => 1) ≠ 0 := by
      unfold courantDt
      rw [Fin.sum_univ_three]
      have : √((1 : ℝ) + 1 + 1) ≠ 0 := (Real.sqrt_pos.mpr (by norm_num)).ne'
      simp [this]
    exact_mod_cast this
  have ha := h0 (fun _ => 0)
  have hb := h0 (flipCell 2 fun _ => 0)
  have haa : (eps (fun _ => 0) + eps (fun _ => 0)) / 2 = eps (fun _ => 0) := by ring
  have hbb : (eps (flipCell 2 fun _ => 0) + eps (flipCell 2 fun _ => 0)) / 2 = eps (flipCell 2 fun _ => 0) := by ring
  rw [haa, hbb, zero_add, zero_add] at h1
  have h3 := mul_right_cancel₀ hdt h1
  rw [div_eq_div_iff hb ha] at h3
  apply hne
  linear_combination -h3

/-- Two cells of permittivity 1 and 2: the hypotheses above are met. -/
example : ∃ eps : SField (shapeOf 1 1 2), eps (fun _ => 0) ≠ eps (flipCell 2 fun _ => 0) ∧ ∀ i, eps i ≠ 0 := by
  refine ⟨fun i => if i 2 = 0 then 1 else 2, ?_, fun i => ?_⟩
  · have : ¬ ((flipCell 2 (fun _ => 0) : GIdx (shapeOf 1 1 2)) 2 = 0) := by decide
    simp [this]
  · dsimp only
    split_ifs <;> norm_num

/-- C141 fails with PML: on a line with a valid PML at both ends, in vacuum, there is a source whose field is
not mirrored when the source is mirrored: the electric stretching factors of the two ends differ. For every
number of cells, thickness and PML parameters. -/
theorem C141_pml_counterexample (n t : ℕ) [NeZero n] (dx m logR k0 pmlEps : ℝ) (hdx : 0 < dx) (hm : 0 < m) (hR : logR ≠ 0)
    (hk : k0 ≠ 0) (hp : pmlEps ≠ 0) (ht : 3 < t) (hn : 2 * t < n) :
    let A := fdfdMatEz (pmlLine n t dx m logR k0 pmlEps) k0 (yeeAvgG fun _ => 1)
    ∃ src ez : SField (shapeOf n 1 1), (A *ᵥ ez = fun i => (k0 : ℂ) * src i) ∧
      A *ᵥ (fun i => ez (flipEdge 0 i)) ≠ fun i => (k0 : ℂ) * src (flipEdge 0 i) := by
  intro A
  have hk' : (k0 : ℂ) ≠ 0 := by exact_mod_cast hk
  set u : SField (shapeOf n 1 1) := fun i => if ((i 0 : Fin (shapeOf n 1 1 0)) : ℕ) = 0 then 1 else 0 with hu
  have huk : ∀ k, u (cell n k) = if k % n = 0 then 1 else 0 := fun k => rfl
  have hfc : ∀ k, k < n → flipEdge 0 (cell n k) = cell n (n - k) := by
    intro k hkn
    apply gidx_line_ext
    have hval : ((flipEdge 0 (cell n k) 0 : Fin (shapeOf n 1 1 0)) : ℕ) = ((-(cell n k 0) : Fin (shapeOf n 1 1 0)) : ℕ) := by
      unfold flipEdge
      rw [Function.update_self]
    rw [hval]
    change (n - (k % n)) % n = (n - k) % n
    rw [Nat.mod_eq_of_lt hkn]
  have humir : (fun i => u (flipEdge 0 i)) = u := by
    funext i
    obtain ⟨k, hkn, rfl⟩ := exists_cell n i
    rw [hfc k hkn, huk, huk, Nat.mod_eq_of_lt hkn]
    by_cases h0 : k = 0
    · subst h0; simp
    · rw [Nat.mod_eq_of_lt (by omega), if_neg (by omega), if_neg h0]
  refine ⟨fun i => (A *ᵥ u) i / k0, u, ?_, ?_⟩
  · funext i; field_simp
  rw [humir]
  intro h
  have h1 := congrFun h (cell n 1)
  rw [hfc 1 (by omega), mul_div_cancel₀ _ hk'] at h1
  have hg : (pmlLine n t dx m logR k0 pmlEps).bloch 0 = 1 := rfl
  have e1 := line_ez n (pmlLine n t dx m logR k0 pmlEps) hg k0 (yeeAvgG fun _ => 1) u 0
  have e2 := line_ez n (pmlLine n t dx m logR k0 pmlEps) hg k0 (yeeAvgG fun _ => 1) u (n - 2)
  rw [show n - 2 + 1 = n - 1 by omega, show n - 2 + 2 = n by omega] at e2
  rw [show (0 : ℕ) + 1 = 1 by rfl, show (0 : ℕ) + 2 = 2 by rfl] at e1
  have un : u (cell n n) = 1 := by rw [huk, Nat.mod_self, if_pos rfl]
  have un1 : u (cell n (n - 1)) = 0 := by rw [huk, Nat.mod_eq_of_lt (by omega), if_neg (by omega)]
  have un2 : u (cell n (n - 2)) = 0 := by rw [huk, Nat.mod_eq_of_lt (by omega), if_neg (by omega)]
  have u0 : u (cell n 0) = 1 := by rw [huk, Nat.zero_mod, if_pos rfl]
  have u1 : u (cell n 1) = 0 := by rw [huk, Nat.mod_eq_of_lt (by omega), if_neg (by omega)]
  have u2 : u (cell n 2) = 0 := by rw [huk, Nat.mod_eq_of_lt (by omega), if_neg (by omega)]
  rw [u0, u1, u2] at e1
  rw [un, un1, un2] at e2
  rw [e1, e2] at h1
  -- the stretching factors
  have hdxk : ∀ (back : Bool) (k : ℕ), k < n → (pmlLine n t dx m logR k0 pmlEps).dx back 0 (cell n k 0)
      = (dx : ℂ) * scpml (fun k => dx * k) n t m logR k0 pmlEps (if back then 1 else 0) k := by
    intro back k hkn
    have : ((cell n k 0 : Fin (shapeOf n 1 1 0)) : ℕ) = k := Nat.mod_eq_of_lt hkn
    change (dx : ℂ) * (if (0 : Fin 3) = 0 then scpml (fun k => dx * k) n t m logR k0 pmlEps (if back then 1 else 0) ((cell n k 0 : Fin (shapeOf n 1 1 0)) : ℕ) else 1) = _
    rw [if_pos rfl, this]
  have hne : ∀ (c : Fin 2) (k : ℕ), scpml (fun k : ℕ => dx * k) n t m logR k0 pmlEps c k ≠ 0 := by
    intro c k h
    have := congrArg Complex.re h
    unfold scpml at this
    rw [Complex.add_re, Complex.one_re, Complex.I_mul_re, Complex.ofReal_im] at this
    norm_num at this
  have d1 : pmlDepth (fun k : ℕ => dx * k) n t 1 1 = pmlDepth (fun k : ℕ => dx * k) n t 1 (n - 1) := by
    unfold pmlDepth pmlD
    rw [if_pos (by omega : 1 < t), if_neg (by omega : ¬ n - 1 < t), if_neg (by omega : ¬ n - 1 < n - t)]
    simp only [one_ne_zero, if_false]
    have hnt : ((n - t : ℕ) : ℝ) = n - t := by rw [Nat.cast_sub (by omega)]
    have hn1 : ((n - 1 : ℕ) : ℝ) = n - 1 := by rw [Nat.cast_sub (by omega)]; simp
    rw [hnt, hn1]
    have ht0 : (t : ℝ) ≠ 0 := by positivity
    push_cast
    congr 1 <;> ring
  have hH : (pmlLine n t dx m logR k0 pmlEps).dx true 0 (cell n (n - 1) 0) = (pmlLine n t dx m logR k0 pmlEps).dx true 0 (cell n 1 0) := by
    rw [hdxk true _ (by omega), hdxk true _ (by omega)]
    simp only [if_true]
    unfold scpml
    rw [d1]
  rw [hH] at h1
  rw [hdxk false 0 (by omega), hdxk false (n - 1) (by omega), hdxk true 1 (by omega), hdxk false (n - 2) (by omega), hdxk false 1 (by omega)] at h1
  simp only [if_true, Bool.false_eq_true, if_false] at h1
  have hdx' : (dx : ℂ) ≠ 0 := by exact_mod_cast hdx.ne'
  have key : scpml (fun k : ℕ => dx * k) n t m logR k0 pmlEps 0 0 = scpml (fun k : ℕ => dx * k) n t m logR k0 pmlEps 0 (n - 1) := by
    have n0 := hne 0 0
    have n1 := hne 0 (n - 1)
    have n2 := hne 0 (n - 2)
    have n3 := hne 0 1
    have n4 := hne 1 1
    generalize scpml (fun k : ℕ => dx * k) n t m logR k0 pmlEps 0 0 = p at *
    generalize scpml (fun k : ℕ => dx * k) n t m logR k0 pmlEps 0 (n - 1) = q at *
    generalize scpml (fun k : ℕ => dx * k) n t m logR k0 pmlEps 0 (n - 2) = q' at *
    generalize scpml (fun k : ℕ => dx * k) n t m logR k0 pmlEps 0 1 = p' at *
    generalize scpml (fun k : ℕ => dx * k) n t m logR k0 pmlEps 1 1 = r at *
    simp only [sub_self, zero_div, mul_zero, sub_zero, zero_sub] at h1
    field_simp at h1
    linear_combination h1
  have d0 : pmlDepth (fun k : ℕ => dx * k) n t 0 0 = t / (t + 1 / 2) := by
    unfold pmlDepth pmlD
    rw [if_pos (by omega : 0 < t)]
    simp only [if_true]
    have : (t : ℝ) + 1 / 2 ≠ 0 := by positivity
    push_cast
    rw [show ((dx * t + dx * (t + 1)) / 2 - (dx * 0 + dx * 1) / 2 : ℝ) = dx * t by ring,
      show ((dx * t + dx * (t + 1)) / 2 - dx * 0 : ℝ) = dx * (t + 1 / 2) by ring, mul_div_mul_left _ _ hdx.ne']
  have hnt : ((n - t : ℕ) : ℝ) = n - t := by rw [Nat.cast_sub (by omega)]
  have hn1 : ((n - 1 : ℕ) : ℝ) = n - 1 := by rw [Nat.cast_sub (by omega)]; simp
  have dn : pmlDepth (fun k : ℕ => dx * k) n t 0 (n - 1) = (t - 1) / (t - 1 / 2) := by
    unfold pmlDepth pmlD
    rw [if_neg (by omega : ¬ n - 1 < t), if_neg (by omega : ¬ n - 1 < n - t)]
    simp only [if_true]
    push_cast
    rw [hnt, hn1]
    rw [show ((dx * (n - 1) + dx * (n - 1 + 1)) / 2 - (dx * (n - t) + dx * (n - t + 1)) / 2 : ℝ) = dx * (t - 1) by ring,
      show (dx * n - (dx * (n - t) + dx * (n - t + 1)) / 2 : ℝ) = dx * (t - 1 / 2) by ring, mul_div_mul_left _ _ hdx.ne']
  have ht' : (4 : ℝ) ≤ t := by exact_mod_cast ht
  have hlt : ((t : ℝ) - 1) / (t - 1 / 2) < t / (t + 1 / 2) := by
    rw [div_lt_div_iff₀ (by linarith) (by linarith)]
    nlinarith
  have hpow : (((t : ℝ) - 1) / (t - 1 / 2)) ^ m < ((t : ℝ) / (t + 1 / 2)) ^ m :=
    Real.rpow_lt_rpow (div_nonneg (by linarith) (by linarith)) hlt hm
  have him := congrArg Complex.im key
  simp only [scpml, d0, dn, Complex.add_im, Complex.one_im, Complex.I_mul_im, Complex.ofReal_re, zero_add] at him
  have hc : (m + 1) * logR / (2 * (k0 * pmlEps)) ≠ 0 :=
    div_ne_zero (mul_ne_zero (by linarith) hR) (mul_ne_zero two_ne_zero (mul_ne_zero hk hp))
  have : (m + 1) * logR / (2 * (k0 * pmlEps)) * ((t : ℝ) / (t + 1 / 2)) ^ m = (m + 1) * logR / (2 * (k0 * pmlEps)) * (((t : ℝ) - 1) / (t - 1 / 2)) ^ m := by
    linear_combination him
  have := mul_left_cancel₀ hc this
  linarith

/-- Along a line, `mat_hz` (fdfd.py:150-157) in terms of neighbouring cells. -/
theorem line_hz (n : ℕ) [NeZero n] (g : YeeOps (shapeOf n 1 1)) (hb : g.bloch 0 = 1) (k0 : ℝ)
    (epsT : VField (shapeOf n 1 1)) (u : SField (shapeOf n 1 1)) (k : ℕ) :
    (fdfdMatHz g k0 epsT *ᵥ u) (cell n (k + 1)) =
      -((1 / epsT 1 (cell n (k + 1)) * ((u (cell n (k + 2)) - u (cell n (k + 1))) / g.dx false 0 (cell n (k + 1) 0))
        - 1 / epsT 1 (cell n k) * ((u (cell n (k + 1)) - u (cell n k)) / g.dx false 0 (cell n k 0))) / g.dx true 0 (cell n (k + 1) 0))
      - k0 ^ 2 * u (cell n (k + 1)) := by
  rw [fdfdMatHz_mulVec, deriv_one_cell g true 1 (shapeOf_one (by decide)), Matrix.zero_mulVec, YeeOps.deriv_backward_mulVec,
    cell_pred, hb, wrapFac_one]
  have hf : ∀ j, (g.deriv false 0 *ᵥ u) (cell n j) = (u (cell n (j + 1)) - u (cell n j)) / g.dx false 0 (cell n j 0) := by
    intro j
    rw [YeeOps.deriv_forward_mulVec, cell_succ, hb, wrapFac_one, one_mul]
  simp only [one_mul, map_one, hf, Pi.zero_apply, sub_zero]

/-- C141 fails for TM simulations: on three unit cells of permittivity 1, 2, 4, for every `k0 ≠ 0`, there are
sources with fields `h_z` whose mirror images are not a source and its field of the mirrored cells: neither when
`h_z` is mirrored as a quantity in the middle of a cell, where the Yee grid has it (with either sign), nor when it
is mirrored as a quantity on cell edges (with either sign). -/
theorem C141_tm_counterexample (k0 : ℝ) (hk : k0 ≠ 0) :
    let g := uniformOps (shapeOf 3 1 1) (fun _ => 1) (fun _ => 1)
    let eps : SField (shapeOf 3 1 1) := line 3 (fun k => 2 ^ k)
    let A := fdfdMatHz g k0 (yeeAvgG eps)
    let A' := fdfdMatHz g k0 (yeeAvgG (mirrorEps 0 eps))
    (∃ src hz : SField (shapeOf 3 1 1), (A *ᵥ hz = fun i => (k0 : ℂ) * src i) ∧
      ∀ sgn : ℂ, sgn = 1 ∨ sgn = -1 →
        A' *ᵥ (fun i => sgn * hz (flipCell 0 i)) ≠ fun i => (k0 : ℂ) * (sgn * src (flipCell 0 i))) ∧
    ∃ src hz : SField (shapeOf 3 1 1), (A *ᵥ hz = fun i => (k0 : ℂ) * src i) ∧
      ∀ sgn : ℂ, sgn = 1 ∨ sgn = -1 →
        A' *ᵥ (fun i => sgn * hz (flipEdge 0 i)) ≠ fun i => (k0 : ℂ) * (sgn * src (flipEdge 0 i)) := by
  intro g eps A A'
  have hk' : (k0 : ℂ) ≠ 0 := by exact_mod_cast hk
  have hb : g.bloch 0 = 1 := rfl
  have hdx : ∀ (p : Bool) (i : Fin (shapeOf 3 1 1 0)), g.dx p 0 i = 1 := fun p i => by
    change ((1 : ℝ) : ℂ) = 1
    simp
  have havg : ∀ (e : SField (shapeOf 3 1 1)) (k : ℕ), yeeAvgG e 1 (cell 3 (k + 1)) = (e (cell 3 (k + 1)) + e (cell 3 k)) / 2 := by
    intro e k
    change (e (cell 3 (k + 1)) + rollFwd 0 e (cell 3 (k + 1))) / 2 = _
    unfold rollFwd
    rw [cell_pred]
  have hfc : ∀ k, flipCell 0 (cell 3 k) = cell 3 (2 - k % 3) := by
    intro k
    apply gidx_line_ext
    have : ((flipCell 0 (cell 3 k) 0 : Fin (shapeOf 3 1 1 0)) : ℕ) = 3 - (k % 3 + 1) := by
      unfold flipCell
      rw [Function.update_self]
      rfl
    rw [this]
    change _ = (2 - k % 3) % 3
    omega
  have hfe : ∀ k, flipEdge 0 (cell 3 k) = cell 3 (3 - k % 3) := by
    intro k
    apply gidx_line_ext
    have : ((flipEdge 0 (cell 3 k) 0 : Fin (shapeOf 3 1 1 0)) : ℕ) = (3 - k % 3) % 3 := by
      unfold flipEdge
      rw [Function.update_self]
      rfl
    rw [this]
    rfl
  have he : ∀ k, eps (cell 3 k) = 2 ^ (k % 3) := fun k => rfl
  have he' : ∀ k, mirrorEps 0 eps (cell 3 k) = 2 ^ ((2 - k % 3) % 3) := by
    intro k
    unfold mirrorEps
    rw [hfc, he]
  have h30 : cell 3 0 = cell 3 3 := (cell_add 3 0).symm
  refine ⟨⟨fun i => (A *ᵥ line 3 fun k => if k = 0 then 1 else 0) i / k0, line 3 fun k => if k = 0 then 1 else 0, ?_, ?_⟩,
    ⟨fun i => (A *ᵥ line 3 fun k => if k = 1 then 1 else 0) i / k0, line 3 fun k => if k = 1 then 1 else 0, ?_, ?_⟩⟩
  · funext i; field_simp
  · intro sgn hsgn h
    have hs0 : sgn ≠ 0 := by rcases hsgn with rfl | rfl <;> norm_num
    have h1 := congrFun h (cell 3 3)
    rw [line_hz 3 g hb k0 _ _ 2] at h1
    simp only [hdx, havg, he', hfc] at h1
    have e2 := line_hz 3 g hb k0 (yeeAvgG eps) (line 3 fun k => if k = 0 then 1 else 0) 1
    simp only [hdx, havg, he, line_cell] at e2
    have e3 := havg eps 0
    rw [he, he] at e3
    norm_num [line_cell] at h1 e2
    rw [show cell 3 2 = cell 3 (1 + 1) from rfl] at h1
    rw [show fdfdMatHz g k0 (yeeAvgG eps) = A from rfl] at e2
    rw [e2] at h1
    norm_num at e3
    have h2 : (A *ᵥ line 3 fun k => if k = 0 then 1 else 0) (cell 3 2) = _ := e2
    field_simp at h1
    norm_num at h1
  · funext i; field_simp
  · intro sgn hsgn h
    have hs0 : sgn ≠ 0 := by rcases hsgn with rfl | rfl <;> norm_num
    have h1 := congrFun h (cell 3 3)
    rw [line_hz 3 g hb k0 _ _ 2] at h1
    simp only [hdx, havg, he', hfe] at h1
    have e2 := line_hz 3 g hb k0 (yeeAvgG eps) (line 3 fun k => if k = 1 then 1 else 0) 2
    simp only [hdx, havg, he, line_cell] at e2
    norm_num [line_cell] at h1 e2
    rw [show fdfdMatHz g k0 (yeeAvgG eps) = A from rfl] at e2
    rw [e2] at h1
    field_simp at h1
    norm_num at h1

end Simphox
