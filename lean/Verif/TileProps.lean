import Verif.SymmetryProps
import Verif.FdfdPowerProps

/-!
# Unit cells: repeated and extruded simulations (C134)

Repeating a periodic simulation any number of times along each axis repeats its fields. With one cell
along an axis this is extrusion: a three dimensional simulation of a device that does not change along
`z` is the two dimensional one.
-/

namespace Simphox

open Complex Matrix

variable {s : Fin 3 → ℕ}

/-! ### Specification -/

/-- The shape of a grid of `k 0 × k 1 × k 2` copies of a grid of shape `s`. -/
def tileShape (k s : Fin 3 → ℕ) : Fin 3 → ℕ := fun a => k a * s a

instance tileShape.neZero (k s : Fin 3 → ℕ) [∀ a, NeZero (k a)] [∀ a, NeZero (s a)] (a : Fin 3) : NeZero (tileShape k s a) :=
  ⟨Nat.mul_ne_zero (NeZero.ne _) (NeZero.ne _)⟩

variable [∀ a, NeZero (s a)]

/-- The cell of the original grid that a cell of the repeated grid is a copy of. -/
def tileIdx (k : Fin 3 → ℕ) (i : GIdx (tileShape k s)) : GIdx s := fun a => ⟨i a % s a, Nat.mod_lt _ (NeZero.pos (s a))⟩

/-- `np.tile` of a scalar array. -/
def tile {α : Type} (k : Fin 3 → ℕ) (f : GIdx s → α) : GIdx (tileShape k s) → α := fun i => f (tileIdx k i)

/-- `np.tile` of all components. -/
def tileV {α : Type} (k : Fin 3 → ℕ) (f : Fin 3 → GIdx s → α) : Fin 3 → GIdx (tileShape k s) → α := fun c => tile k (f c)

/-- The repeated grid: the cells of the original one again and again. -/
def tileOps (k : Fin 3 → ℕ) (g : YeeOps s) : YeeOps (tileShape k s) :=
  { bloch := fun _ => 1, dx := fun back a i => g.dx back a ⟨i % s a, Nat.mod_lt _ (NeZero.pos (s a))⟩ }

/-- A repeated source. -/
def tileSource (k : Fin 3 → ℕ) (q : Source s) : Source (tileShape k s) :=
  { e := q.e.map (tileV k), h := q.h.map (tileV k), region := tileV k q.region }

/-- A repeated state. -/
def tileState {np : ℕ} (k : Fin 3 → ℕ) (st : FState s np) : FState (tileShape k s) np :=
  (tileV k st.1, tileV k st.2.1, fun j q => tile k (st.2.2.1 j q), fun j q => tile k (st.2.2.2 j q))

/-- Repeated absorbing layers. -/
def tileRegion (k : Fin 3 → ℕ) (r : PmlRegion s) : PmlRegion (tileShape k s) :=
  { mask := tile k r.mask, b := fun back => tileV k (r.b back), c := fun back => tileV k (r.c back) }

/-- The repeated simulation, with the same time step. -/
def tileFdtd (k : Fin 3 → ℕ) (F : Fdtd s) : Fdtd (tileShape k s) :=
  { g := tileOps k F.g, epsT := tileV k F.epsT, dt := F.dt, npml := F.npml, pml := fun j => tileRegion k (F.pml j) }

/-! ### Rolls -/

variable {k : Fin 3 → ℕ} [∀ a, NeZero (k a)]

theorem tileIdx_succ (i : GIdx (tileShape k s)) (a : Fin 3) :
    tileIdx k (Function.update i a (i a + 1)) = Function.update (tileIdx k i) a (tileIdx k i a + 1) := by
  funext b
  by_cases h : b = a
  · subst h
    rw [Function.update_self]
    apply Fin.ext
    show (Function.update i b (i b + 1) b : ℕ) % s b = _
    rw [Function.update_self, Fin.val_add, Fin.val_add]
    show ((i b : ℕ) + (1 : Fin (tileShape k s b)).val) % (k b * s b) % s b = ((i b : ℕ) % s b + (1 : Fin (s b)).val) % s b
    rw [Nat.mod_mul_left_mod, Nat.mod_add_mod]
    have h1 : (1 : Fin (tileShape k s b)).val = 1 % (k b * s b) := Fin.val_one' _
    have h2 : (1 : Fin (s b)).val = 1 % s b := Fin.val_one' _
    rw [h1, h2, Nat.add_mod_mod, ← Nat.add_mod_mod, Nat.mod_mul_left_mod, Nat.add_mod_mod]
  · rw [Function.update_of_ne h]
    apply Fin.ext
    show (Function.update i a (i a + 1) b : ℕ) % s b = _
    rw [Function.update_of_ne h]
    rfl

theorem tileIdx_pred (i : GIdx (tileShape k s)) (a : Fin 3) :
    tileIdx k (Function.update i a (i a - 1)) = Function.update (tileIdx k i) a (tileIdx k i a - 1) := by
  have h := tileIdx_succ (k := k) (Function.update i a (i a - 1)) a
  rw [Function.update_self, Function.update_idem, sub_add_cancel, Function.update_eq_self] at h
  have h' := congrArg (fun x => Function.update x a (x a - 1)) h
  simp only [Function.update_self, Function.update_idem, add_sub_cancel_right, Function.update_eq_self] at h'
  exact h'.symm

theorem rollFwd_tile {α : Type} (a : Fin 3) (f : GIdx s → α) : rollFwd a (tile k f) = tile k (rollFwd a f) := by
  funext i
  exact congrArg f (tileIdx_pred i a)

theorem rollBack_tile {α : Type} (a : Fin 3) (f : GIdx s → α) : rollBack a (tile k f) = tile k (rollBack a f) := by
  funext i
  exact congrArg f (tileIdx_succ i a)

theorem diffFn_tile (g : YeeOps s) (ofH : Bool) (f : SField s) (a : Fin 3) :
    (tileOps k g).diffFn ofH (tile k f) a = tile k (g.diffFn ofH f a) := by
  cases ofH
  · show (fun i => (rollBack a (tile k f) i - tile k f i) / _) = _
    rw [rollBack_tile]; rfl
  · show (fun i => (tile k f i - rollFwd a (tile k f) i) / _) = _
    rw [rollFwd_tile]; rfl

theorem curl_tile (g : YeeOps s) (ofH : Bool) (f : VField s) : (tileOps k g).curl ofH (tileV k f) = tileV k (g.curl ofH f) := by
  funext c i
  unfold YeeOps.curl curlFn
  match c with
  | 0 => simp only [tileV, diffFn_tile]; rfl
  | 1 => simp only [tileV, diffFn_tile]; rfl
  | 2 => simp only [tileV, diffFn_tile]; rfl

theorem yeeAvgG_tile (p : SField s) : yeeAvgG (tile k p) = tileV k (yeeAvgG p) := by
  have h : ∀ (f h : SField s), (fun i => (tile k f i + tile k h i) / 2) = tile k (fun i => (f i + h i) / 2) := fun _ _ => rfl
  funext c i
  match c with
  | 0 =>
    show (tile k p i + rollFwd 1 (tile k p) i) / 2 = _
    rw [rollFwd_tile]; rfl
  | 1 =>
    show (tile k p i + rollFwd 0 (tile k p) i) / 2 = _
    rw [rollFwd_tile]; rfl
  | 2 =>
    show ((tile k p i + rollFwd 0 (tile k p) i) / 2 + rollFwd 1 (fun i => (tile k p i + rollFwd 0 (tile k p) i) / 2) i) / 2 = _
    rw [rollFwd_tile, h, rollFwd_tile]; rfl

/-! ### FDTD -/

theorem pmlNext_tile (g : YeeOps s) (r : PmlRegion s) (ofH : Bool) (f : VField s) :
    pmlNext (pmlDiff (tileOps k g) (tileRegion k r) ofH) (tileV k f) = fun q => tile k (pmlNext (pmlDiff g r ofH) f q) := by
  have h : ∀ (f : SField s) a, pmlDiff (tileOps k g) (tileRegion k r) ofH (tile k f) a = tile k (pmlDiff g r ofH f a) := by
    intro f a
    unfold pmlDiff
    rw [diffFn_tile]; rfl
  funext q
  unfold pmlNext
  simp only [tileV, h]
  fin_cases q <;> rfl

omit [∀ a, NeZero (k a)] in
theorem pmlCombine_tile (b : Fin 3 → SField s) (next prev : Psi s) :
    pmlCombine (tileV k b) (fun q => tile k (next q)) (fun q => tile k (prev q)) = tileV k (pmlCombine b next prev) := by
  funext c
  fin_cases c <;> rfl

omit [∀ a, NeZero (k a)] in
theorem foldl_addOn_tile {np : ℕ} (mask : Fin np → GIdx s → Bool) (w : VField s) (phi : Fin np → VField s) (l : List (Fin np)) (f : VField s) :
    l.foldl (fun f j => addOn (tile k (mask j)) (tileV k w) (tileV k (phi j)) f) (tileV k f) =
      tileV k (l.foldl (fun f j => addOn (mask j) w (phi j) f) f) := by
  induction l generalizing f with
  | nil => rfl
  | cons j l ih =>
    simp only [List.foldl_cons]
    rw [← ih]; rfl

omit [∀ a, NeZero (k a)] in
theorem addSource_tile (jax : Bool) (region : Fin 3 → GIdx s → Bool) (w : VField s) (src : Option (VField s)) (f : VField s) :
    addSource jax (tileV k region) (tileV k w) (src.map (tileV k)) (tileV k f) = tileV k (addSource jax region w src f) := by
  cases src <;> rfl

omit [∀ a, NeZero (k a)] in
theorem foldl_source_tile (jax : Bool) (w : VField s) (l : List (Source s)) (f : VField s) :
    ((l.map (tileSource k)).foldl (fun f src => addSource jax src.region (tileV k w) src.e f) (tileV k f) =
      tileV k (l.foldl (fun f src => addSource jax src.region w src.e f) f)) ∧
    (l.map (tileSource k)).foldl (fun f src => addSource jax src.region (tileV k w) src.h f) (tileV k f) =
      tileV k (l.foldl (fun f src => addSource jax src.region w src.h f) f) := by
  rw [List.foldl_map, List.foldl_map]
  constructor
  · induction l generalizing f with
    | nil => rfl
    | cons q l ih =>
      simp only [List.foldl_cons]
      rw [← ih, ← addSource_tile]; rfl
  · induction l generalizing f with
    | nil => rfl
    | cons q l ih =>
      simp only [List.foldl_cons]
      rw [← ih, ← addSource_tile]; rfl

theorem stepE_tile (F : Fdtd s) (jax : Bool) (e h : VField s) (pe ph : Fin F.npml → Psi s) (l : List (Source s)) :
    (tileFdtd k F).stepE jax (tileState k (e, h, pe, ph)) (l.map (tileSource k)) = tileState k (F.stepE jax (e, h, pe, ph) l) := by
  have hn : (fun j => pmlNext (pmlDiff (tileOps k F.g) (tileRegion k (F.pml j)) true) (tileV k h)) =
      fun j q => tile k (pmlNext (pmlDiff F.g (F.pml j) true) h q) := by
    funext j; exact pmlNext_tile F.g (F.pml j) true h
  have hp : (fun j => pmlCombine ((tileRegion k (F.pml j)).b true) (fun q => tile k (pmlNext (pmlDiff F.g (F.pml j) true) h q)) (fun q => tile k (pe j q))) =
      fun j => tileV k (pmlCombine ((F.pml j).b true) (pmlNext (pmlDiff F.g (F.pml j) true) h) (pe j)) := by
    funext j; exact pmlCombine_tile _ _ _
  refine Prod.ext ?_ (Prod.ext rfl (Prod.ext hn rfl))
  have h0 : (fun c i => tileV k e c i + (tileOps k F.g).curl true (tileV k h) c i / tileV k F.epsT c i * F.dt)
      = tileV k (fun c i => e c i + F.g.curl true h c i / F.epsT c i * F.dt) := by
    rw [curl_tile]; rfl
  show (l.map (tileSource k)).foldl (fun f src => addSource jax src.region (tileV k fun c i => (F.dt : ℂ) / F.epsT c i) src.e f)
      ((List.finRange F.npml).foldl (fun f j => addOn (tile k (F.pml j).mask) (tileV k fun c i => (F.dt : ℂ) / F.epsT c i)
        ((fun j => pmlCombine ((tileRegion k (F.pml j)).b true) ((fun j => pmlNext (pmlDiff (tileOps k F.g) (tileRegion k (F.pml j)) true) (tileV k h)) j) (fun q => tile k (pe j q))) j) f)
      (fun c i => tileV k e c i + (tileOps k F.g).curl true (tileV k h) c i / tileV k F.epsT c i * F.dt)) = _
  rw [hn, hp, h0, foldl_addOn_tile (fun j => (F.pml j).mask), (foldl_source_tile jax _ l _).1]
  rfl

theorem stepH_tile (F : Fdtd s) (jax : Bool) (e h : VField s) (pe ph : Fin F.npml → Psi s) (l : List (Source s)) :
    (tileFdtd k F).stepH jax (tileState k (e, h, pe, ph)) (l.map (tileSource k)) = tileState k (F.stepH jax (e, h, pe, ph) l) := by
  have hn : (fun j => pmlNext (pmlDiff (tileOps k F.g) (tileRegion k (F.pml j)) false) (tileV k e)) =
      fun j q => tile k (pmlNext (pmlDiff F.g (F.pml j) false) e q) := by
    funext j; exact pmlNext_tile F.g (F.pml j) false e
  have hp : (fun j => pmlCombine ((tileRegion k (F.pml j)).b false) (fun q => tile k (pmlNext (pmlDiff F.g (F.pml j) false) e q)) (fun q => tile k (ph j q))) =
      fun j => tileV k (pmlCombine ((F.pml j).b false) (pmlNext (pmlDiff F.g (F.pml j) false) e) (ph j)) := by
    funext j; exact pmlCombine_tile _ _ _
  refine Prod.ext rfl (Prod.ext ?_ (Prod.ext rfl hn))
  have h0 : (fun c i => tileV k h c i - (tileOps k F.g).curl false (tileV k e) c i * F.dt)
      = tileV k (fun c i => h c i - F.g.curl false e c i * F.dt) := by
    rw [curl_tile]; rfl
  show (l.map (tileSource k)).foldl (fun f src => addSource jax src.region (tileV k fun _ _ => (F.dt : ℂ)) src.h f)
      ((List.finRange F.npml).foldl (fun f j => addOn (tile k (F.pml j).mask) (tileV k fun _ _ => -(F.dt : ℂ))
        ((fun j => pmlCombine ((tileRegion k (F.pml j)).b false) ((fun j => pmlNext (pmlDiff (tileOps k F.g) (tileRegion k (F.pml j)) false) (tileV k e)) j) (fun q => tile k (ph j q))) j) f)
      (fun c i => tileV k h c i - (tileOps k F.g).curl false (tileV k e) c i * F.dt)) = _
  rw [hn, hp, h0, foldl_addOn_tile (fun j => (F.pml j).mask), (foldl_source_tile jax _ l _).2]
  rfl

/-- C134, FDTD: repeating the permittivity, the layers, the sources and the initial fields of a simulation any number of times along
each axis repeats the fields of every later step (same time step; both modes; with or without PML). With one
cell along `z` this says that a three dimensional run of an extruded device is the extruded two dimensional run. -/
theorem C134_fdtd (k : Fin 3 → ℕ) [∀ a, NeZero (k a)] (F : Fdtd s) (jax : Bool) (srcs : ℕ → List (Source s)) (st : FState s F.npml) (n : ℕ) :
    (tileFdtd k F).run jax (fun j => (srcs j).map (tileSource k)) (tileState k st) n = tileState k (F.run jax srcs st n) := by
  induction n with
  | zero => rfl
  | succ n ih =>
    show (tileFdtd k F).stepH jax ((tileFdtd k F).stepE jax ((tileFdtd k F).run jax (fun j => (srcs j).map (tileSource k)) (tileState k st) n)
      ((srcs n).map (tileSource k))) ((srcs n).map (tileSource k)) = tileState k (F.stepH jax (F.stepE jax (F.run jax srcs st n) (srcs n)) (srcs n))
    rw [ih]
    obtain ⟨e, h, pe, ph⟩ := F.run jax srcs st n
    refine (congrArg (fun x => (tileFdtd k F).stepH jax x ((srcs n).map (tileSource k))) (stepE_tile F jax e h pe ph (srcs n))).trans ?_
    obtain ⟨e', h', pe', ph'⟩ := F.stepE jax (e, h, pe, ph) (srcs n)
    exact stepH_tile F jax e' h' pe' ph' (srcs n)

/-! ### FDFD -/

theorem fdfdMat_tile (g : YeeOps s) (hb : ∀ a, g.bloch a = 1) (k0 : ℝ) (epsT e : VField s) :
    fdfdMat (tileOps k g) k0 (tileV k epsT) *ᵥ vflat (tileV k e) = vflat (tileV k (fun c i => (fdfdMat g k0 epsT *ᵥ vflat e) (c, i))) := by
  funext p
  obtain ⟨c, i⟩ := p
  have hb' : ∀ a, (tileOps k g).bloch a = 1 := fun _ => rfl
  rw [fdfdMat_mulVec, ← curl_eq_curlOf _ hb', ← curl_eq_curlOf _ hb', curl_tile, curl_tile]
  show _ = (fdfdMat g k0 epsT *ᵥ vflat e) (c, tileIdx k i)
  rw [fdfdMat_mulVec, ← curl_eq_curlOf g hb, ← curl_eq_curlOf g hb]
  rfl

theorem fdfdMat2d_tile (g : YeeOps s) (hb : ∀ a, g.bloch a = 1) (k0 : ℝ) (epsT : VField s) (tm : Bool) (f : SField s) :
    (if tm then fdfdMatHz (tileOps k g) k0 (tileV k epsT) else fdfdMatEz (tileOps k g) k0 (tileV k epsT)) *ᵥ tile k f =
      tile k ((if tm then fdfdMatHz g k0 epsT else fdfdMatEz g k0 epsT) *ᵥ f) := by
  have hb' : ∀ a, (tileOps k g).bloch a = 1 := fun _ => rfl
  have hd : ∀ p a (f : SField s), (tileOps k g).deriv p a *ᵥ tile k f = tile k (g.deriv p a *ᵥ f) := by
    intro p a f
    rw [← YeeOps.diffFn_eq _ hb', ← YeeOps.diffFn_eq g hb, diffFn_tile]
  have hm : ∀ u v : SField s, (fun j => (tile k u) j * (tile k v) j) = tile k (fun j => u j * v j) := fun _ _ => rfl
  funext i
  cases tm
  · simp only [Bool.false_eq_true, if_false]
    show _ = (fdfdMatEz g k0 epsT *ᵥ f) (tileIdx k i)
    rw [fdfdMatEz_mulVec, fdfdMatEz_mulVec, hd, hd]
    have h1 : ∀ v : SField s, (fun j => 1 * (tile k v) j) = tile k (fun j => 1 * v j) := fun _ => rfl
    rw [h1, h1, hd, hd]; rfl
  · simp only [if_true]
    show _ = (fdfdMatHz g k0 epsT *ᵥ f) (tileIdx k i)
    rw [fdfdMatHz_mulVec, fdfdMatHz_mulVec, hd, hd]
    have h1 : ∀ (c : Fin 3) (v : SField s), (fun j => 1 / tileV k epsT c j * (tile k v) j) = tile k (fun j => 1 / epsT c j * v j) := fun _ _ => rfl
    rw [h1, h1, hd, hd]; rfl

omit [∀ a, NeZero (s a)] in
theorem mulVec_inj_of_solver {ι : Type} [Fintype ι] [DecidableEq ι] (A : Matrix ι ι ℂ) (x : (ι → ℂ) → ι → ℂ) (hs : ∀ b, A *ᵥ x b = b) :
    Function.Injective A.mulVec :=
  (LinearMap.injective_iff_surjective (f := A.mulVecLin)).2 fun b => ⟨_, hs b⟩

/-- C134, FDFD in three dimensions: both fields are repeated. -/
theorem C134_fdfd (k : Fin 3 → ℕ) [∀ a, NeZero (k a)] (g : YeeOps s) (hb : ∀ a, g.bloch a = 1) (k0 : ℝ) (epsT src : VField s)
    (solver : Solver (Fin 3 × GIdx s)) (solver' : Solver (Fin 3 × GIdx (tileShape k s)))
    (hs : ∀ b, fdfdMat g k0 epsT *ᵥ solver (fdfdMat g k0 epsT) b = b)
    (hs' : ∀ b, fdfdMat (tileOps k g) k0 (tileV k epsT) *ᵥ solver' (fdfdMat (tileOps k g) k0 (tileV k epsT)) b = b) :
    solve3d (tileOps k g) k0 (tileV k epsT) solver' (tileV k src) =
      (tileV k (solve3d g k0 epsT solver src).1, tileV k (solve3d g k0 epsT solver src).2) := by
  have he : (solve3d (tileOps k g) k0 (tileV k epsT) solver' (tileV k src)).1 = tileV k (solve3d g k0 epsT solver src).1 := by
    have h1 : fdfdMat (tileOps k g) k0 (tileV k epsT) *ᵥ vflat (solve3d (tileOps k g) k0 (tileV k epsT) solver' (tileV k src)).1
        = fun p => (k0 : ℂ) * vflat (tileV k src) p := hs' _
    have h2 : fdfdMat (tileOps k g) k0 (tileV k epsT) *ᵥ vflat (tileV k (solve3d g k0 epsT solver src).1)
        = fun p => (k0 : ℂ) * vflat (tileV k src) p := by
      rw [fdfdMat_tile g hb]
      have h3 : fdfdMat g k0 epsT *ᵥ vflat (solve3d g k0 epsT solver src).1 = fun p => (k0 : ℂ) * vflat src p := hs _
      rw [h3]; rfl
    have h4 := mulVec_inj_of_solver _ _ hs' (h1.trans h2.symm)
    funext c i
    exact congrFun h4 (c, i)
  refine Prod.ext he ?_
  funext c i
  show (tileOps k g).curl false (solve3d (tileOps k g) k0 (tileV k epsT) solver' (tileV k src)).1 c i / (I * k0) = _
  rw [he, curl_tile]
  rfl

/-- C134, FDFD in one and two dimensions, both polarisations. -/
theorem C134_fdfd_2d (k : Fin 3 → ℕ) [∀ a, NeZero (k a)] (g : YeeOps s) (hb : ∀ a, g.bloch a = 1) (k0 : ℝ) (epsT : VField s) (tm : Bool) (src : SField s)
    (solver : Solver (GIdx s)) (solver' : Solver (GIdx (tileShape k s)))
    (hs : ∀ b, (if tm then fdfdMatHz g k0 epsT else fdfdMatEz g k0 epsT) *ᵥ solver (if tm then fdfdMatHz g k0 epsT else fdfdMatEz g k0 epsT) b = b)
    (hs' : ∀ b, (if tm then fdfdMatHz (tileOps k g) k0 (tileV k epsT) else fdfdMatEz (tileOps k g) k0 (tileV k epsT)) *ᵥ
      solver' (if tm then fdfdMatHz (tileOps k g) k0 (tileV k epsT) else fdfdMatEz (tileOps k g) k0 (tileV k epsT)) b = b) :
    solve2d (tileOps k g) k0 (tileV k epsT) tm solver' (tile k src) =
      (tileV k (solve2d g k0 epsT tm solver src).1, tileV k (solve2d g k0 epsT tm solver src).2) := by
  have hz : (solver' (if tm then fdfdMatHz (tileOps k g) k0 (tileV k epsT) else fdfdMatEz (tileOps k g) k0 (tileV k epsT)) fun i => (k0 : ℂ) * tile k src i) =
      tile k (solver (if tm then fdfdMatHz g k0 epsT else fdfdMatEz g k0 epsT) fun i => (k0 : ℂ) * src i) := by
    apply mulVec_inj_of_solver _ _ hs'
    rw [hs', fdfdMat2d_tile g hb, hs]; rfl
  unfold solve2d
  simp only
  rw [hz, diffFn_tile, diffFn_tile]
  generalize solver (if tm then fdfdMatHz g k0 epsT else fdfdMatEz g k0 epsT) (fun i => (k0 : ℂ) * src i) = fz
  have h1 : (![0, 0, tile k fz] : VField (tileShape k s)) = tileV k ![0, 0, fz] := by
    funext c; fin_cases c <;> rfl
  have h2 : ∀ u v : SField s, (![tile k u, -tile k v, 0] : VField (tileShape k s)) = tileV k ![u, -v, 0] := by
    intro u v
    funext c; fin_cases c <;> rfl
  rw [h1, h2]
  cases tm <;> rfl

omit [∀ a, NeZero (s a)] in
theorem flat_fdfd (g : YeeOps s) (hs2 : s 2 = 1) (k0 : ℝ) (epsT : VField s) (src fz : SField s)
    (hE : fdfdMatEz g k0 epsT *ᵥ fz = fun i => (k0 : ℂ) * src i) :
    fdfdMat g k0 epsT *ᵥ vflat ![0, 0, fz] = fun p => (k0 : ℂ) * vflat (![0, 0, src] : VField s) p := by
  have hz := fun p => deriv_one_cell g p 2 hs2
  funext p
  obtain ⟨c, i⟩ := p
  rw [fdfdMat_mulVec]
  have hi := congrFun hE i
  rw [fdfdMatEz_mulVec] at hi
  simp only [one_mul] at hi
  have inner : curlOf (g.deriv false) ![0, 0, fz] = ![g.deriv false 1 *ᵥ fz, -(g.deriv false 0 *ᵥ fz), 0] := by
    unfold curlOf
    rw [hz]
    simp
  rw [inner]
  match c with
  | 0 =>
    show (g.deriv true 1 *ᵥ (0 : SField s) - g.deriv true 2 *ᵥ (-(g.deriv false 0 *ᵥ fz))) i - k0 ^ 2 * (epsT 0 i * 0) = k0 * 0
    rw [hz]; simp
  | 1 =>
    show (g.deriv true 2 *ᵥ (g.deriv false 1 *ᵥ fz) - g.deriv true 0 *ᵥ (0 : SField s)) i - k0 ^ 2 * (epsT 1 i * 0) = k0 * 0
    rw [hz]; simp
  | 2 =>
    show (g.deriv true 0 *ᵥ (-(g.deriv false 0 *ᵥ fz)) - g.deriv true 1 *ᵥ (g.deriv false 1 *ᵥ fz)) i - k0 ^ 2 * (epsT 2 i * fz i) = k0 * src i
    rw [Matrix.mulVec_neg]
    exact hi

theorem flat_curl (g : YeeOps s) (hb : ∀ a, g.bloch a = 1) (fz : SField s) :
    g.curl false ![0, 0, fz] = ![g.diffFn false fz 1, -g.diffFn false fz 0, 0] := by
  have h4 : ∀ a, g.diffFn false (0 : SField s) a = 0 := fun a => by rw [YeeOps.diffFn_eq g hb, Matrix.mulVec_zero]
  funext c i
  match c with
  | 0 =>
    show (g.diffFn false fz 1 - g.diffFn false (0 : SField s) 2) i = g.diffFn false fz 1 i
    rw [h4]; simp
  | 1 =>
    show (g.diffFn false (0 : SField s) 2 - g.diffFn false fz 0) i = (-g.diffFn false fz 0) i
    rw [h4]; simp
  | 2 =>
    show (g.diffFn false (0 : SField s) 0 - g.diffFn false (0 : SField s) 1) i = 0
    rw [h4, h4]; simp

/-- C134, the link between the dimensions: a three dimensional solve of a device and a `z` source extruded along `z` over any number of
cells gives the extruded fields of the two dimensional `e_z` solve. -/
theorem C134_extrude (k : Fin 3 → ℕ) [∀ a, NeZero (k a)] (g : YeeOps s) (hb : ∀ a, g.bloch a = 1) (hs2 : s 2 = 1) (k0 : ℝ) (eps : SField s) (src : SField s)
    (solver : Solver (GIdx s)) (solver' : Solver (Fin 3 × GIdx (tileShape k s)))
    (hs : ∀ b, fdfdMatEz g k0 (yeeAvgG eps) *ᵥ solver (fdfdMatEz g k0 (yeeAvgG eps)) b = b)
    (hs' : ∀ b, fdfdMat (tileOps k g) k0 (yeeAvgG (tile k eps)) *ᵥ solver' (fdfdMat (tileOps k g) k0 (yeeAvgG (tile k eps))) b = b) :
    solve3d (tileOps k g) k0 (yeeAvgG (tile k eps)) solver' ![0, 0, tile k src] =
      (tileV k (solve2d g k0 (yeeAvgG eps) false solver src).1, tileV k (solve2d g k0 (yeeAvgG eps) false solver src).2) := by
  have hsrc : (![0, 0, tile k src] : VField (tileShape k s)) = tileV k ![0, 0, src] := by
    funext c; fin_cases c <;> rfl
  rw [yeeAvgG_tile] at hs' ⊢
  set fz := solver (fdfdMatEz g k0 (yeeAvgG eps)) fun i => (k0 : ℂ) * src i with hfz
  have hf := flat_fdfd g hs2 k0 (yeeAvgG eps) src fz (hs _)
  have he : (solve3d (tileOps k g) k0 (tileV k (yeeAvgG eps)) solver' ![0, 0, tile k src]).1 = tileV k ![0, 0, fz] := by
    have h1 : fdfdMat (tileOps k g) k0 (tileV k (yeeAvgG eps)) *ᵥ vflat (solve3d (tileOps k g) k0 (tileV k (yeeAvgG eps)) solver' ![0, 0, tile k src]).1
        = fun p => (k0 : ℂ) * vflat (![0, 0, tile k src] : VField (tileShape k s)) p := hs' _
    have h2 : fdfdMat (tileOps k g) k0 (tileV k (yeeAvgG eps)) *ᵥ vflat (tileV k ![0, 0, fz])
        = fun p => (k0 : ℂ) * vflat (![0, 0, tile k src] : VField (tileShape k s)) p := by
      rw [fdfdMat_tile g hb, hf, hsrc]; rfl
    have h4 := mulVec_inj_of_solver _ _ hs' (h1.trans h2.symm)
    funext c i
    exact congrFun h4 (c, i)
  refine Prod.ext he ?_
  funext c i
  show (tileOps k g).curl false (solve3d (tileOps k g) k0 (tileV k (yeeAvgG eps)) solver' ![0, 0, tile k src]).1 c i / (I * k0) =
    tileV k (![g.diffFn false fz 1, -g.diffFn false fz 0, 0] : VField s) c i / (I * k0)
  rw [he, curl_tile, flat_curl g hb]

theorem inv_mulVec_of_unique {ι : Type} [Fintype ι] [DecidableEq ι] (A : Matrix ι ι ℂ) (h : ∀ w, ∃! v, A *ᵥ v = w) (b : ι → ℂ) :
    A *ᵥ (A⁻¹ *ᵥ b) = b := by
  have hunit : IsUnit A := by
    rw [← Matrix.mulVec_surjective_iff_isUnit]
    exact fun w => (h w).exists
  rw [Matrix.mulVec_mulVec, Matrix.mul_nonsing_inv _ ((Matrix.isUnit_iff_isUnit_det A).1 hunit), Matrix.one_mulVec]

theorem yeeAvgG_im_pos (p : SField s) (h : ∀ i, 0 < (p i).im) (c : Fin 3) (i : GIdx s) : 0 < (yeeAvgG p c i).im := by
  have half : ∀ x y : ℂ, 0 < x.im → 0 < y.im → 0 < ((x + y) / 2).im := by
    intro x y hx hy
    have : ((x + y) / 2).im = (x.im + y.im) / 2 := by
      rw [show (2 : ℂ) = ((2 : ℝ) : ℂ) by norm_num, Complex.div_ofReal_im, add_im]
    rw [this]; linarith
  match c with
  | 0 => exact half _ _ (h _) (h _)
  | 1 => exact half _ _ (h _) (h _)
  | 2 => exact half _ _ (half _ _ (h _) (h _)) (half _ _ (h _) (h _))

/-- The hypotheses are met: every lossy device extruded over any number of cells, solved with the inverse matrices. -/
example (k : Fin 3 → ℕ) [∀ a, NeZero (k a)] (hs2 : s 2 = 1) (eps src : SField s) (heps : ∀ i, 0 < (eps i).im) :
    let g := uniformOps s (fun _ => 1) (fun _ => (1 / 10 : ℝ))
    (solve3d (tileOps k g) 4 (yeeAvgG (tile k eps)) (fun M v => M⁻¹ *ᵥ v) ![0, 0, tile k src]).1 =
      tileV k (solve2d g 4 (yeeAvgG eps) false (fun M v => M⁻¹ *ᵥ v) src).1 := by
  intro g
  refine congrArg Prod.fst (C134_extrude k g (fun _ => rfl) hs2 4 eps src (fun M v => M⁻¹ *ᵥ v) (fun M v => M⁻¹ *ᵥ v) ?_ ?_)
  · exact inv_mulVec_of_unique _ (C124_unique _ _ 4 (by norm_num) _ (Or.inl (yeeAvgG_im_pos eps heps))).2.1
  · exact inv_mulVec_of_unique _ (C124_unique (fun _ => 1) (fun _ => (1 / 10 : ℝ)) 4 (by norm_num) _
      (Or.inl (yeeAvgG_im_pos (tile k eps) fun i => heps _))).1

end Simphox
