import Verif.FdtdSteady

/-!
# Symmetries of the solvers: translations (C131), real fields (C132)
-/

namespace Simphox

open Complex Matrix

variable {s : Fin 3 → ℕ} [∀ a, NeZero (s a)]

/-! ### Specification of C131 -/

/-- `np.roll` of a scalar array by `d` cells along the three axes (the sign is immaterial). -/
def translate {α : Type} (d : GIdx s) (f : GIdx s → α) : GIdx s → α := fun i => f (i + d)

/-- All components of a field rolled. -/
def translateV {α : Type} (d : GIdx s) (f : Fin 3 → GIdx s → α) : Fin 3 → GIdx s → α := fun c => translate d (f c)

/-- A source rolled: its region and its values. -/
def translateSource (d : GIdx s) (q : Source s) : Source s :=
  { e := q.e.map (translateV d), h := q.h.map (translateV d), region := translateV d q.region }

/-- A state rolled. -/
def translateState {np : ℕ} (d : GIdx s) (st : FState s np) : FState s np :=
  (translateV d st.1, translateV d st.2.1, fun k => fun q => translate d (st.2.2.1 k q), fun k => fun q => translate d (st.2.2.2 k q))

/-- The cells along one axis are equally long. -/
def EqualCells (g : YeeOps s) : Prop := ∀ back a (i j : Fin (s a)), g.dx back a i = g.dx back a j

/-! ### Lemmas -/

omit [∀ a, NeZero (s a)] in
theorem update_add (d i : GIdx s) (a : Fin 3) (x : Fin (s a)) : Function.update i a x + d = Function.update (i + d) a (x + d a) := by
  funext b
  by_cases h : b = a
  · subst h; simp
  · simp [h]

theorem rollFwd_translate {α : Type} (d : GIdx s) (a : Fin 3) (f : GIdx s → α) : rollFwd a (translate d f) = translate d (rollFwd a f) := by
  funext i
  unfold rollFwd translate
  rw [update_add]
  congr 2
  show i a - 1 + d a = (i + d) a - 1
  rw [Pi.add_apply]; abel

theorem rollBack_translate {α : Type} (d : GIdx s) (a : Fin 3) (f : GIdx s → α) : rollBack a (translate d f) = translate d (rollBack a f) := by
  funext i
  unfold rollBack translate
  rw [update_add]
  congr 2
  show i a + 1 + d a = (i + d) a + 1
  rw [Pi.add_apply]; abel

theorem diffFn_translate (g : YeeOps s) (hg : EqualCells g) (d : GIdx s) (ofH : Bool) (f : SField s) (a : Fin 3) :
    g.diffFn ofH (translate d f) a = translate d (g.diffFn ofH f a) := by
  funext i
  unfold YeeOps.diffFn
  cases ofH
  · simp only [Bool.false_eq_true, if_false]
    rw [rollBack_translate]
    unfold translate
    rw [hg false a (i a) ((i + d) a)]
  · simp only [if_true]
    rw [rollFwd_translate]
    unfold translate
    rw [hg true a (i a) ((i + d) a)]

theorem curl_translate (g : YeeOps s) (hg : EqualCells g) (d : GIdx s) (ofH : Bool) (f : VField s) :
    g.curl ofH (translateV d f) = translateV d (g.curl ofH f) := by
  funext c i
  unfold YeeOps.curl curlFn
  match c with
  | 0 => simp only [translateV, diffFn_translate g hg]; rfl
  | 1 => simp only [translateV, diffFn_translate g hg]; rfl
  | 2 => simp only [translateV, diffFn_translate g hg]; rfl

theorem yeeAvgG_translate (d : GIdx s) (p : SField s) : yeeAvgG (translate d p) = translateV d (yeeAvgG p) := by
  have h : ∀ (f h : SField s), (fun i => (translate d f i + translate d h i) / 2) = translate d (fun i => (f i + h i) / 2) := fun _ _ => rfl
  funext c i
  match c with
  | 0 =>
    show (translate d p i + rollFwd 1 (translate d p) i) / 2 = _
    rw [rollFwd_translate]; rfl
  | 1 =>
    show (translate d p i + rollFwd 0 (translate d p) i) / 2 = _
    rw [rollFwd_translate]; rfl
  | 2 =>
    show ((translate d p i + rollFwd 0 (translate d p) i) / 2 + rollFwd 1 (fun i => (translate d p i + rollFwd 0 (translate d p) i) / 2) i) / 2 = _
    rw [rollFwd_translate, h, rollFwd_translate]; rfl

omit [∀ a, NeZero (s a)] in
theorem addSource_translate (d : GIdx s) (jax : Bool) (region : Fin 3 → GIdx s → Bool) (w : VField s) (src : Option (VField s)) (f : VField s) :
    addSource jax (translateV d region) (translateV d w) (src.map (translateV d)) (translateV d f) = translateV d (addSource jax region w src f) := by
  cases src <;> rfl

/-! ### C131 -/

/-- C131, FDTD: rolling the permittivity, the initial fields and all sources by any number of cells rolls
the fields of every later step; both modes, uniform cells, no PML. -/
theorem C131_fdtd (F : Fdtd s) (hF : F.npml = 0) (hg : EqualCells F.g) (jax : Bool) (d : GIdx s) (srcs : ℕ → List (Source s))
    (st : FState s F.npml) (n : ℕ) :
    Fdtd.run { F with epsT := translateV d F.epsT } jax (fun k => (srcs k).map (translateSource d)) (translateState d st) n
      = translateState d (F.run jax srcs st n) := by
  obtain ⟨g, epsT, dt, np, pml⟩ := F
  simp only at hF
  subst hF
  have hstep : ∀ (st : FState s 0) (l : List (Source s)),
      Fdtd.step ⟨g, translateV d epsT, dt, 0, pml⟩ jax (translateState d st) (l.map (translateSource d))
        = translateState d (Fdtd.step ⟨g, epsT, dt, 0, pml⟩ jax st l) := by
    intro st l
    obtain ⟨e, h, pe, ph⟩ := st
    have hE : Fdtd.stepE ⟨g, translateV d epsT, dt, 0, pml⟩ jax (translateState d (e, h, pe, ph)) (l.map (translateSource d))
        = translateState d (Fdtd.stepE ⟨g, epsT, dt, 0, pml⟩ jax (e, h, pe, ph) l) := by
      refine Prod.ext ?_ (Prod.ext rfl (Prod.ext (funext fun k => k.elim0) (funext fun k => k.elim0)))
      have key : ∀ (l : List (Source s)) (f : VField s),
          (l.map (translateSource d)).foldl (fun f src => addSource jax src.region (fun c i => (dt : ℂ) / translateV d epsT c i) src.e f) (translateV d f)
            = translateV d (l.foldl (fun f src => addSource jax src.region (fun c i => (dt : ℂ) / epsT c i) src.e f) f) := by
        intro l
        induction l with
        | nil => intro f; rfl
        | cons q l ih =>
          intro f
          simp only [List.map_cons, List.foldl_cons]
          rw [← ih]
          congr 1
          exact addSource_translate d jax q.region (fun c i => (dt : ℂ) / epsT c i) q.e f
      have h0 : (fun c i => translateV d e c i + g.curl true (translateV d h) c i / translateV d epsT c i * dt)
          = translateV d (fun c i => e c i + g.curl true h c i / epsT c i * dt) := by
        rw [curl_translate g hg]; rfl
      show (l.map (translateSource d)).foldl (fun f src => addSource jax src.region (fun c i => (dt : ℂ) / translateV d epsT c i) src.e f)
          (fun c i => translateV d e c i + g.curl true (translateV d h) c i / translateV d epsT c i * dt) = _
      rw [h0]
      exact key l _
    unfold Fdtd.step
    rw [hE]
    obtain ⟨e', h', pe', ph'⟩ := Fdtd.stepE ⟨g, epsT, dt, 0, pml⟩ jax (e, h, pe, ph) l
    refine Prod.ext rfl (Prod.ext ?_ (Prod.ext (funext fun k => k.elim0) (funext fun k => k.elim0)))
    have key : ∀ (l : List (Source s)) (f : VField s),
        (l.map (translateSource d)).foldl (fun f src => addSource jax src.region (fun _ _ => (dt : ℂ)) src.h f) (translateV d f)
          = translateV d (l.foldl (fun f src => addSource jax src.region (fun _ _ => (dt : ℂ)) src.h f) f) := by
      intro l
      induction l with
      | nil => intro f; rfl
      | cons q l ih =>
        intro f
        simp only [List.map_cons, List.foldl_cons]
        rw [← ih]
        congr 1
        exact addSource_translate d jax q.region (fun _ _ => (dt : ℂ)) q.h f
    have h0 : (fun c i => translateV d h' c i - g.curl false (translateV d e') c i * dt)
        = translateV d (fun c i => h' c i - g.curl false e' c i * dt) := by
      rw [curl_translate g hg]; rfl
    show (l.map (translateSource d)).foldl (fun f src => addSource jax src.region (fun _ _ => (dt : ℂ)) src.h f)
        (fun c i => translateV d h' c i - g.curl false (translateV d e') c i * dt) = _
    rw [h0]
    exact key l _
  induction n with
  | zero => rfl
  | succ n ih =>
    show Fdtd.step ⟨g, translateV d epsT, dt, 0, pml⟩ jax (Fdtd.run ⟨g, translateV d epsT, dt, 0, pml⟩ jax _ _ n) _ = _
    have ih' : Fdtd.run ⟨g, translateV d epsT, dt, 0, pml⟩ jax (fun k => (srcs k).map (translateSource d)) (translateState d st) n
      = translateState d (Fdtd.run ⟨g, epsT, dt, 0, pml⟩ jax srcs st n) := ih
    rw [ih']
    exact hstep _ _

/-- C131 in terms of the constructor: the translated permittivity is the one the user rolls. -/
theorem C131_fdtd_eps (ndim : ℕ) (bloch : Fin 3 → ℂ) (spacing : Fin 3 → ℝ) (eps : SField s) (jax : Bool) (d : GIdx s)
    (srcs : ℕ → List (Source s)) (st : FState s 0) (n : ℕ) :
    (plainFdtd ndim bloch spacing (translate d eps)).run jax (fun k => (srcs k).map (translateSource d)) (translateState d st) n
      = translateState d ((plainFdtd ndim bloch spacing eps).run jax srcs st n) := by
  have h := C131_fdtd (plainFdtd ndim bloch spacing eps) rfl (fun _ _ _ _ => rfl) jax d srcs st n
  show Fdtd.run ⟨uniformOps s bloch spacing, yeeAvgG (translate d eps), courantDt ndim spacing, 0, fun k => k.elim0⟩ jax _ _ n = _
  rw [yeeAvgG_translate]
  exact h

/-- C131, uniform structures give uniform fields: if the permittivity, the initial fields and all sources do not
change under the roll, neither do the fields of any later step. -/
theorem C131_fdtd_invariant (F : Fdtd s) (hF : F.npml = 0) (hg : EqualCells F.g) (jax : Bool) (d : GIdx s) (srcs : ℕ → List (Source s))
    (st : FState s F.npml) (heps : translateV d F.epsT = F.epsT) (hst : translateState d st = st)
    (hsrc : ∀ k, ∀ q ∈ srcs k, translateSource d q = q) (n : ℕ) :
    translateState d (F.run jax srcs st n) = F.run jax srcs st n := by
  have h := C131_fdtd F hF hg jax d srcs st n
  have e1 : ({ F with epsT := translateV d F.epsT } : Fdtd s) = F := by rw [heps]
  have e2 : (fun k => (srcs k).map (translateSource d)) = srcs := by
    funext k
    exact (List.map_congr_left (hsrc k)).trans (List.map_id _)
  rw [e2, hst] at h
  rw [← h]
  obtain ⟨g, epsT, dt, np, pml⟩ := F
  simp only at heps ⊢
  rw [heps]

theorem fdfdMat_translate (g : YeeOps s) (hb : ∀ a, g.bloch a = 1) (hg : EqualCells g) (k0 : ℝ) (d : GIdx s) (epsT e : VField s) :
    fdfdMat g k0 (translateV d epsT) *ᵥ vflat (translateV d e) = vflat (translateV d (fun c i => (fdfdMat g k0 epsT *ᵥ vflat e) (c, i))) := by
  funext p
  obtain ⟨c, i⟩ := p
  rw [fdfdMat_mulVec, ← curl_eq_curlOf g hb, ← curl_eq_curlOf g hb, curl_translate g hg, curl_translate g hg]
  show _ = (fdfdMat g k0 epsT *ᵥ vflat e) (c, i + d)
  rw [fdfdMat_mulVec, ← curl_eq_curlOf g hb, ← curl_eq_curlOf g hb]
  rfl

/-- C131, FDFD: rolling the permittivity and the source rolls both fields FDFD returns, for exact solvers
of the two systems. -/
theorem C131_fdfd (g : YeeOps s) (hb : ∀ a, g.bloch a = 1) (hg : EqualCells g) (k0 : ℝ) (d : GIdx s) (epsT src : VField s)
    (solver : Solver (Fin 3 × GIdx s)) (hs : ∀ b, fdfdMat g k0 epsT *ᵥ solver (fdfdMat g k0 epsT) b = b)
    (hs' : ∀ b, fdfdMat g k0 (translateV d epsT) *ᵥ solver (fdfdMat g k0 (translateV d epsT)) b = b) :
    solve3d g k0 (translateV d epsT) solver (translateV d src) =
      (translateV d (solve3d g k0 epsT solver src).1, translateV d (solve3d g k0 epsT solver src).2) := by
  have hsurj : Function.Surjective (fdfdMat g k0 (translateV d epsT)).mulVec := fun b => ⟨_, hs' b⟩
  have hinj : Function.Injective (fdfdMat g k0 (translateV d epsT)).mulVec :=
    (LinearMap.injective_iff_surjective (f := (fdfdMat g k0 (translateV d epsT)).mulVecLin)).2 hsurj
  have he : (solve3d g k0 (translateV d epsT) solver (translateV d src)).1 = translateV d (solve3d g k0 epsT solver src).1 := by
    have h1 : fdfdMat g k0 (translateV d epsT) *ᵥ vflat (solve3d g k0 (translateV d epsT) solver (translateV d src)).1
        = fun p => (k0 : ℂ) * vflat (translateV d src) p := hs' _
    have h2 : fdfdMat g k0 (translateV d epsT) *ᵥ vflat (translateV d (solve3d g k0 epsT solver src).1)
        = fun p => (k0 : ℂ) * vflat (translateV d src) p := by
      rw [fdfdMat_translate g hb hg]
      have h3 : fdfdMat g k0 epsT *ᵥ vflat (solve3d g k0 epsT solver src).1 = fun p => (k0 : ℂ) * vflat src p := hs _
      rw [h3]; rfl
    have h4 := hinj (h1.trans h2.symm)
    funext c i
    exact congrFun h4 (c, i)
  refine Prod.ext he ?_
  funext c i
  show g.curl false (solve3d g k0 (translateV d epsT) solver (translateV d src)).1 c i / (I * k0) = _
  rw [he, curl_translate g hg]
  rfl

/-! ### C132 -/

/-- The value is real. -/
def IsReal (z : ℂ) : Prop := z.im = 0

/-- All values of a state (fields and PML memory) are real. -/
def RealState {np : ℕ} (st : FState s np) : Prop :=
  (∀ c i, IsReal (st.1 c i)) ∧ (∀ c i, IsReal (st.2.1 c i)) ∧ (∀ k q i, IsReal (st.2.2.1 k q i)) ∧ ∀ k q i, IsReal (st.2.2.2 k q i)

/-- A source with real values. -/
def RealSource (q : Source s) : Prop := (∀ v ∈ q.e, ∀ c i, IsReal (v c i)) ∧ ∀ v ∈ q.h, ∀ c i, IsReal (v c i)

/-- A simulation with real cell sizes, permittivity and PML coefficients. -/
structure RealFdtd (F : Fdtd s) : Prop where
  dx : ∀ back a i, IsReal (F.g.dx back a i)
  eps : ∀ c i, IsReal (F.epsT c i)
  b : ∀ k back a i, IsReal ((F.pml k).b back a i)
  c : ∀ k back a i, IsReal ((F.pml k).c back a i)

/-- The real numbers inside the complex ones. -/
noncomputable def realSub : Subfield ℂ := Complex.ofRealHom.fieldRange

theorem mem_realSub {z : ℂ} : z ∈ realSub ↔ IsReal z := by
  unfold realSub IsReal
  rw [RingHom.mem_fieldRange]
  constructor
  · rintro ⟨x, rfl⟩; simp
  · intro h
    exact ⟨z.re, Complex.ext (by simp) (by simp [h])⟩

theorem diffFn_real (g : YeeOps s) (hg : ∀ back a i, g.dx back a i ∈ realSub) (ofH : Bool) (f : SField s) (hf : ∀ i, f i ∈ realSub) (a : Fin 3) (i : GIdx s) :
    g.diffFn ofH f a i ∈ realSub := by
  unfold YeeOps.diffFn
  cases ofH
  · exact div_mem (sub_mem (hf _) (hf _)) (hg _ _ _)
  · exact div_mem (sub_mem (hf _) (hf _)) (hg _ _ _)

theorem curl_real (g : YeeOps s) (hg : ∀ back a i, g.dx back a i ∈ realSub) (ofH : Bool) (f : VField s) (hf : ∀ c i, f c i ∈ realSub) (c : Fin 3) (i : GIdx s) :
    g.curl ofH f c i ∈ realSub := by
  have h := fun c a i => diffFn_real g hg ofH (f c) (hf c) a i
  unfold YeeOps.curl curlFn
  match c with
  | 0 => exact sub_mem (h _ _ _) (h _ _ _)
  | 1 => exact sub_mem (h _ _ _) (h _ _ _)
  | 2 => exact sub_mem (h _ _ _) (h _ _ _)

theorem pmlNext_real (g : YeeOps s) (hg : ∀ back a i, g.dx back a i ∈ realSub) (r : PmlRegion s) (hc : ∀ back a i, r.c back a i ∈ realSub)
    (ofH : Bool) (f : VField s) (hf : ∀ c i, f c i ∈ realSub) (q : Fin 6) (i : GIdx s) : pmlNext (pmlDiff g r ofH) f q i ∈ realSub := by
  have h : ∀ c a i, pmlDiff g r ofH (f c) a i ∈ realSub := by
    intro c a i
    unfold pmlDiff
    split_ifs
    · exact mul_mem (hc _ _ _) (diffFn_real g hg ofH _ (hf c) a i)
    · exact zero_mem _
  unfold pmlNext
  match q with
  | 0 => exact h _ _ _
  | 1 => exact h _ _ _
  | 2 => exact h _ _ _
  | 3 => exact h _ _ _
  | 4 => exact h _ _ _
  | 5 => exact h _ _ _

omit [∀ a, NeZero (s a)] in
theorem pmlCombine_real (b : Fin 3 → SField s) (hb : ∀ a i, b a i ∈ realSub) (next prev : Psi s) (hn : ∀ q i, next q i ∈ realSub)
    (hp : ∀ q i, prev q i ∈ realSub) (c : Fin 3) (i : GIdx s) : pmlCombine b next prev c i ∈ realSub := by
  have h := fun q a => mul_mem (hp q i) (hb a i)
  unfold pmlCombine
  match c with
  | 0 => exact sub_mem (sub_mem (add_mem (hn _ _) (h _ _)) (hn _ _)) (h _ _)
  | 1 => exact sub_mem (sub_mem (add_mem (hn _ _) (h _ _)) (hn _ _)) (h _ _)
  | 2 => exact sub_mem (sub_mem (add_mem (hn _ _) (h _ _)) (hn _ _)) (h _ _)

omit [∀ a, NeZero (s a)] in
theorem foldl_real {α : Type} (step : VField s → α → VField s) (l : List α) (f : VField s) (hf : ∀ c i, f c i ∈ realSub)
    (hs : ∀ a ∈ l, ∀ f : VField s, (∀ c i, f c i ∈ realSub) → ∀ c i, step f a c i ∈ realSub) (c : Fin 3) (i : GIdx s) :
    l.foldl step f c i ∈ realSub := by
  induction l generalizing f with
  | nil => exact hf c i
  | cons a l ih =>
    exact ih (step f a) (hs a (by simp) f hf) (fun b hb => hs b (by simp [hb]))

omit [∀ a, NeZero (s a)] in
theorem addSource_real (jax : Bool) (region : Fin 3 → GIdx s → Bool) (w : VField s) (hw : ∀ c i, w c i ∈ realSub) (src : Option (VField s))
    (hs : ∀ v ∈ src, ∀ c i, v c i ∈ realSub) (f : VField s) (hf : ∀ c i, f c i ∈ realSub) (c : Fin 3) (i : GIdx s) :
    addSource jax region w src f c i ∈ realSub := by
  unfold addSource
  cases src with
  | none => exact hf c i
  | some v =>
    have hv := hs v rfl
    simp only
    split_ifs
    · exact mul_mem (neg_mem (hv _ _)) (hw _ _)
    · exact sub_mem (hf _ _) (mul_mem (hv _ _) (hw _ _))
    · exact hf c i

omit [∀ a, NeZero (s a)] in
theorem addOn_real (mask : GIdx s → Bool) (w phi f : VField s) (hw : ∀ c i, w c i ∈ realSub) (hp : ∀ c i, phi c i ∈ realSub)
    (hf : ∀ c i, f c i ∈ realSub) (c : Fin 3) (i : GIdx s) : addOn mask w phi f c i ∈ realSub := by
  unfold addOn
  split_ifs
  · exact add_mem (hf _ _) (mul_mem (hp _ _) (hw _ _))
  · exact hf c i

/-- C132: real simulations have real fields. With real cells, permittivity, PML coefficients, initial state and
sources, all fields and the PML memory stay real in every step, in both modes. -/
theorem C132_stays_real (F : Fdtd s) (hF : RealFdtd F) (jax : Bool) (srcs : ℕ → List (Source s))
    (hsrc : ∀ k, ∀ q ∈ srcs k, RealSource q) (st : FState s F.npml) (hst : RealState st) (n : ℕ) :
    RealState (F.run jax srcs st n) := by
  have hdx : ∀ back a i, F.g.dx back a i ∈ realSub := fun _ _ _ => mem_realSub.2 (hF.dx _ _ _)
  have heps : ∀ c i, F.epsT c i ∈ realSub := fun _ _ => mem_realSub.2 (hF.eps _ _)
  have hb : ∀ k back a i, (F.pml k).b back a i ∈ realSub := fun _ _ _ _ => mem_realSub.2 (hF.b _ _ _ _)
  have hc : ∀ k back a i, (F.pml k).c back a i ∈ realSub := fun _ _ _ _ => mem_realSub.2 (hF.c _ _ _ _)
  have hdt : (F.dt : ℂ) ∈ realSub := mem_realSub.2 (by simp [IsReal])
  have hE : ∀ (st : FState s F.npml) (l : List (Source s)), (∀ q ∈ l, RealSource q) → RealState st → RealState (F.stepE jax st l) := by
    intro st l hl hst
    obtain ⟨e, h, pe, ph⟩ := st
    obtain ⟨h1, h2, h3, h4⟩ := hst
    simp only [← mem_realSub] at h1 h2 h3 h4
    have hn : ∀ k q i, pmlNext (pmlDiff F.g (F.pml k) true) h q i ∈ realSub := fun k => pmlNext_real F.g hdx _ (hc k) true h h2
    have hw : ∀ c i, (fun c i => (F.dt : ℂ) / F.epsT c i : VField s) c i ∈ realSub := fun c i => div_mem hdt (heps c i)
    refine ⟨fun c i => mem_realSub.1 ?_, fun c i => mem_realSub.1 (h2 c i), fun k q i => mem_realSub.1 (hn k q i), fun k q i => mem_realSub.1 (h4 k q i)⟩
    refine foldl_real _ l _ ?_ ?_ c i
    · refine foldl_real _ _ _ ?_ ?_
      · intro c i
        exact add_mem (h1 c i) (mul_mem (div_mem (curl_real F.g hdx true h h2 c i) (heps c i)) hdt)
      · intro k _ f hf
        exact addOn_real _ _ _ f hw (pmlCombine_real _ (hb k true) _ _ (hn k) (h3 k)) hf
    · intro q hq f hf
      exact addSource_real jax _ _ hw q.e (fun v hv c i => mem_realSub.2 ((hl q hq).1 v hv c i)) f hf
  have hH : ∀ (st : FState s F.npml) (l : List (Source s)), (∀ q ∈ l, RealSource q) → RealState st → RealState (F.stepH jax st l) := by
    intro st l hl hst
    obtain ⟨e, h, pe, ph⟩ := st
    obtain ⟨h1, h2, h3, h4⟩ := hst
    simp only [← mem_realSub] at h1 h2 h3 h4
    have hn : ∀ k q i, pmlNext (pmlDiff F.g (F.pml k) false) e q i ∈ realSub := fun k => pmlNext_real F.g hdx _ (hc k) false e h1
    refine ⟨fun c i => mem_realSub.1 (h1 c i), fun c i => mem_realSub.1 ?_, fun k q i => mem_realSub.1 (h3 k q i), fun k q i => mem_realSub.1 (hn k q i)⟩
    refine foldl_real _ l _ ?_ ?_ c i
    · refine foldl_real _ _ _ ?_ ?_
      · intro c i
        exact sub_mem (h2 c i) (mul_mem (curl_real F.g hdx false e h1 c i) hdt)
      · intro k _ f hf
        exact addOn_real _ _ _ f (fun _ _ => neg_mem hdt) (pmlCombine_real _ (hb k false) _ _ (hn k) (h4 k)) hf
    · intro q hq f hf
      exact addSource_real jax _ _ (fun _ _ => hdt) q.h (fun v hv c i => mem_realSub.2 ((hl q hq).2 v hv c i)) f hf
  induction n with
  | zero => exact hst
  | succ n ih => exact hH _ _ (hsrc n) (hE _ _ (hsrc n) ih)

/-- The simulations `FDTD` builds are real if the permittivity is: without PML ... -/
example (ndim : ℕ) (spacing : Fin 3 → ℝ) (eps : SField s) (he : ∀ i, IsReal (eps i)) : RealFdtd (plainFdtd ndim (fun _ => 1) spacing eps) := by
  have he' : ∀ i, eps i ∈ realSub := fun i => mem_realSub.2 (he i)
  have h2 : (2 : ℂ) ∈ realSub := mem_realSub.2 (by simp [IsReal])
  refine ⟨fun _ _ _ => by simp [plainFdtd, uniformOps, IsReal], fun c i => mem_realSub.1 ?_, fun k => k.elim0, fun k => k.elim0⟩
  show yeeAvgG eps c i ∈ realSub
  match c with
  | 0 => exact div_mem (add_mem (he' _) (he' _)) h2
  | 1 => exact div_mem (add_mem (he' _) (he' _)) h2
  | 2 => exact div_mem (add_mem (div_mem (add_mem (he' _) (he' _)) h2) (div_mem (add_mem (he' _) (he' _)) h2)) h2

omit [∀ a, NeZero (s a)] in
/-- ... and the PML coefficients of `_set_pml` are real. -/
theorem setPml_real (dt : ℝ) (pos : (a : Fin 3) → ℕ → ℝ) (t : Fin 3 → ℕ) (expScale logR corr : ℝ) (r : Fin 6) (back : Bool) (a : Fin 3) (i : GIdx s) :
    IsReal ((setPml dt pos t expScale logR corr r : PmlRegion s).b back a i) ∧ IsReal ((setPml dt pos t expScale logR corr r : PmlRegion s).c back a i) := by
  constructor
  · exact ofReal_im _
  · exact ofReal_im _

/-- C132 for the constructor: `FDTD(grid, pml)` with equal cells, a real permittivity and the layers of `_set_pml` keeps real fields
real. -/
theorem C132_constructed (spacing : Fin 3 → ℝ) (eps : SField s) (heps : ∀ i, IsReal (eps i)) (dt : ℝ) (pos : (a : Fin 3) → ℕ → ℝ) (t : Fin 3 → ℕ)
    (expScale logR corr : ℝ) (np : ℕ) (which : Fin np → Fin 6) (jax : Bool) (srcs : ℕ → List (Source s)) (hsrc : ∀ k, ∀ q ∈ srcs k, RealSource q)
    (st : FState s np) (hst : RealState st) (n : ℕ) :
    RealState ((⟨uniformOps s (fun _ => 1) spacing, yeeAvgG eps, dt, np, fun k => setPml dt pos t expScale logR corr (which k)⟩ : Fdtd s).run jax srcs st n) := by
  refine C132_stays_real (⟨uniformOps s (fun _ => 1) spacing, yeeAvgG eps, dt, np, fun k => setPml dt pos t expScale logR corr (which k)⟩ : Fdtd s) ?_ jax srcs
    hsrc st hst n
  have he' : ∀ i, eps i ∈ realSub := fun i => mem_realSub.2 (heps i)
  have h2 : (2 : ℂ) ∈ realSub := mem_realSub.2 (by simp [IsReal])
  refine ⟨fun _ _ _ => by simp [uniformOps, IsReal], fun c i => mem_realSub.1 ?_, fun k back a i => (setPml_real _ _ _ _ _ _ _ _ _ _).1,
    fun k back a i => (setPml_real _ _ _ _ _ _ _ _ _ _).2⟩
  show yeeAvgG eps c i ∈ realSub
  match c with
  | 0 => exact div_mem (add_mem (he' _) (he' _)) h2
  | 1 => exact div_mem (add_mem (he' _) (he' _)) h2
  | 2 => exact div_mem (add_mem (div_mem (add_mem (he' _) (he' _)) h2) (div_mem (add_mem (he' _) (he' _)) h2)) h2

end Simphox
