import Mathlib.Data.Int.ModEq
import Verif.FdtdProps

/-!
# FDTD: finite propagation speed (C126), time reversal (C127), steady states (C128)
-/

namespace Simphox

open Complex

variable {s : Fin 3 → ℕ} [∀ a, NeZero (s a)]

/-! ### Specification of C126 -/

/-- Cell `j` is at most `r` cells away from cell `i` along every axis (the grid is periodic). -/
def Within (r : ℕ) (i j : GIdx s) : Prop :=
  ∀ a, ∃ d : ℤ, |d| ≤ r ∧ ((i a : ℕ) : ℤ) + d ≡ ((j a : ℕ) : ℤ) [ZMOD s a]

/-- Two states have the same values in cell `i`. -/
def AgreeAt {np : ℕ} (x y : FState s np) (i : GIdx s) : Prop :=
  (∀ c, x.1 c i = y.1 c i) ∧ (∀ c, x.2.1 c i = y.2.1 c i) ∧ (∀ k q, x.2.2.1 k q i = y.2.2.1 k q i) ∧
    ∀ k q, x.2.2.2 k q i = y.2.2.2 k q i

/-- Two sources inject the same into cell `i`: it is in both regions or in none, and in the regions the
values are the same. -/
def SourceAgreeAt (p q : Source s) (i : GIdx s) : Prop :=
  ∀ c, p.region c i = q.region c i ∧ (p.region c i = true →
    (p.e.map fun v => v c i) = (q.e.map fun v => v c i) ∧ (p.h.map fun v => v c i) = (q.h.map fun v => v c i))

/-! ### Locality of one half step -/

omit [∀ a, NeZero (s a)] in
theorem foldl_addOn_local {np : ℕ} (mask : Fin np → GIdx s → Bool) (w : VField s) (phi phi' : Fin np → VField s)
    (i : GIdx s) (h : ∀ k c, phi k c i = phi' k c i) (l : List (Fin np)) (f f' : VField s) (hf : ∀ c, f c i = f' c i) (c : Fin 3) :
    (l.foldl (fun f k => addOn (mask k) w (phi k) f) f) c i = (l.foldl (fun f k => addOn (mask k) w (phi' k) f) f') c i := by
  induction l generalizing f f' with
  | nil => exact hf c
  | cons k l ih =>
    rw [List.foldl_cons, List.foldl_cons]
    refine ih _ _ fun c => ?_
    simp only [addOn, h, hf]

omit [∀ a, NeZero (s a)] in
theorem addSource_local (jax : Bool) (w : VField s) (i : GIdx s) (rg rg' : Fin 3 → GIdx s → Bool)
    (v v' : Option (VField s)) (h : ∀ c, rg c i = rg' c i ∧ (rg c i = true → (v.map fun v => v c i) = (v'.map fun v => v c i)))
    (f f' : VField s) (hf : ∀ c, f c i = f' c i) (c : Fin 3) :
    addSource jax rg w v f c i = addSource jax rg' w v' f' c i := by
  obtain ⟨h1, h2⟩ := h c
  cases hr : rg c i
  · have hr' : rg' c i = false := by rw [← h1, hr]
    cases v <;> cases v' <;> simp [addSource, hr, hr', hf]
  · have hr' : rg' c i = true := by rw [← h1, hr]
    have h3 := h2 hr
    cases v <;> cases v' <;> simp [addSource, hr, hr', hf] at h3 ⊢
    rw [h3]

omit [∀ a, NeZero (s a)] in
theorem foldl_addSource_local (jax : Bool) (w : VField s) (i : GIdx s) (sel : Source s → Option (VField s))
    (l l' : List (Source s)) (h : List.Forall₂ (fun p q => ∀ c, p.region c i = q.region c i ∧
      (p.region c i = true → ((sel p).map fun v => v c i) = ((sel q).map fun v => v c i))) l l')
    (f f' : VField s) (hf : ∀ c, f c i = f' c i) (c : Fin 3) :
    (l.foldl (fun f src => addSource jax src.region w (sel src) f) f) c i =
      (l'.foldl (fun f src => addSource jax src.region w (sel src) f) f') c i := by
  induction h generalizing f f' with
  | nil => exact hf c
  | cons hp _ ih =>
    rw [List.foldl_cons, List.foldl_cons]
    exact ih _ _ fun c => addSource_local jax w i _ _ _ _ hp f f' hf c

/-- The neighbour one cell up or down. -/
def nb (up : Bool) (i : GIdx s) (a : Fin 3) : GIdx s := Function.update i a (if up then i a + 1 else i a - 1)

theorem diffFn_local (g : YeeOps s) (ofH : Bool) (f f' : SField s) (i : GIdx s) (a : Fin 3)
    (h0 : f i = f' i) (h1 : f (nb (!ofH) i a) = f' (nb (!ofH) i a)) :
    g.diffFn ofH f a i = g.diffFn ofH f' a i := by
  cases ofH
  · simp only [YeeOps.diffFn, rollBack, Bool.false_eq_true, if_false]
    have : f (Function.update i a (i a + 1)) = f' (Function.update i a (i a + 1)) := h1
    rw [h0, this]
  · simp only [YeeOps.diffFn, rollFwd, if_true]
    have : f (Function.update i a (i a - 1)) = f' (Function.update i a (i a - 1)) := h1
    rw [h0, this]

theorem curl_local (g : YeeOps s) (ofH : Bool) (f f' : VField s) (i : GIdx s)
    (h0 : ∀ c, f c i = f' c i) (h1 : ∀ c a, f c (nb (!ofH) i a) = f' c (nb (!ofH) i a)) (c : Fin 3) :
    g.curl ofH f c i = g.curl ofH f' c i := by
  have d := fun c a => diffFn_local g ofH (f c) (f' c) i a (h0 c) (h1 c a)
  unfold YeeOps.curl curlFn
  fin_cases c <;> simp [d]

theorem pmlNext_local (g : YeeOps s) (r : PmlRegion s) (ofH : Bool) (f f' : VField s) (i : GIdx s)
    (h0 : ∀ c, f c i = f' c i) (h1 : ∀ c a, f c (nb (!ofH) i a) = f' c (nb (!ofH) i a)) (q : Fin 6) :
    pmlNext (pmlDiff g r ofH) f q i = pmlNext (pmlDiff g r ofH) f' q i := by
  have d := fun c a => diffFn_local g ofH (f c) (f' c) i a (h0 c) (h1 c a)
  unfold pmlNext
  fin_cases q <;> simp [pmlDiff, d]

omit [∀ a, NeZero (s a)] in
theorem pmlCombine_local (b : Fin 3 → SField s) (p p' q q' : Psi s) (i : GIdx s) (hp : ∀ k, p k i = p' k i)
    (hq : ∀ k, q k i = q' k i) (c : Fin 3) : pmlCombine b p q c i = pmlCombine b p' q' c i := by
  unfold pmlCombine
  fin_cases c <;> simp [hp, hq]

theorem stepE_local (F : Fdtd s) (jax : Bool) (x y : FState s F.npml) (l l' : List (Source s)) (i : GIdx s)
    (h : AgreeAt x y i) (hn : ∀ a, AgreeAt x y (nb false i a)) (hl : List.Forall₂ (fun p q => SourceAgreeAt p q i) l l') :
    AgreeAt (F.stepE jax x l) (F.stepE jax y l') i := by
  obtain ⟨e, hh, pe, ph⟩ := x
  obtain ⟨e', hh', pe', ph'⟩ := y
  have nx : ∀ k q, pmlNext (pmlDiff F.g (F.pml k) true) hh q i = pmlNext (pmlDiff F.g (F.pml k) true) hh' q i := fun k q =>
    pmlNext_local F.g (F.pml k) true hh hh' i h.2.1 (fun c a => (hn a).2.1 c) q
  refine ⟨fun c => ?_, h.2.1, nx, h.2.2.2⟩
  refine foldl_addSource_local jax _ i Source.e l l' (hl.imp fun p q hpq c => ⟨(hpq c).1, fun hr => ((hpq c).2 hr).1⟩) _ _ (fun c => ?_) c
  refine foldl_addOn_local (fun k => (F.pml k).mask) _ _ _ i (fun k c => ?_) _ _ _ (fun c => ?_) c
  · exact pmlCombine_local _ _ _ _ _ i (nx k) (h.2.2.1 k) c
  · show _ = _
    rw [curl_local F.g true hh hh' i h.2.1 (fun c a => (hn a).2.1 c) c]
    rw [show e c i = e' c i from h.1 c]

theorem stepH_local (F : Fdtd s) (jax : Bool) (x y : FState s F.npml) (l l' : List (Source s)) (i : GIdx s)
    (h : AgreeAt x y i) (hn : ∀ a, AgreeAt x y (nb true i a)) (hl : List.Forall₂ (fun p q => SourceAgreeAt p q i) l l') :
    AgreeAt (F.stepH jax x l) (F.stepH jax y l') i := by
  obtain ⟨e, hh, pe, ph⟩ := x
  obtain ⟨e', hh', pe', ph'⟩ := y
  have nx : ∀ k q, pmlNext (pmlDiff F.g (F.pml k) false) e q i = pmlNext (pmlDiff F.g (F.pml k) false) e' q i := fun k q =>
    pmlNext_local F.g (F.pml k) false e e' i h.1 (fun c a => (hn a).1 c) q
  refine ⟨h.1, fun c => ?_, h.2.2.1, nx⟩
  refine foldl_addSource_local jax _ i Source.h l l' (hl.imp fun p q hpq c => ⟨(hpq c).1, fun hr => ((hpq c).2 hr).2⟩) _ _ (fun c => ?_) c
  refine foldl_addOn_local (fun k => (F.pml k).mask) _ _ _ i (fun k c => ?_) _ _ _ (fun c => ?_) c
  · exact pmlCombine_local _ _ _ _ _ i (nx k) (h.2.2.2 k) c
  · show _ = _
    rw [curl_local F.g false e e' i h.1 (fun c a => (hn a).1 c) c]
    rw [show hh c i = hh' c i from h.2.1 c]

/-! ### Distances -/

omit [∀ a, NeZero (s a)] in
theorem within_refl (i : GIdx s) (r : ℕ) : Within r i i := fun a => ⟨0, by simp, by simp⟩

omit [∀ a, NeZero (s a)] in
theorem within_trans {r r' : ℕ} {i j k : GIdx s} (h : Within r i j) (h' : Within r' j k) : Within (r + r') i k := by
  intro a
  obtain ⟨d, hd, he⟩ := h a
  obtain ⟨d', hd', he'⟩ := h' a
  refine ⟨d + d', (abs_add_le d d').trans (by push_cast; exact add_le_add hd hd'), ?_⟩
  rw [← add_assoc]
  exact (he.add_right d').trans he'

theorem fin_succ_modEq {n : ℕ} [NeZero n] (x : Fin n) : ((x : ℕ) : ℤ) + 1 ≡ ((x + 1 : Fin n) : ℕ) [ZMOD n] := by
  rw [fin_val_add_one]
  split_ifs with h
  · have : ((x : ℕ) : ℤ) + 1 = n := by exact_mod_cast h
    rw [this]; simp [Int.ModEq]
  · push_cast; rfl

theorem fin_pred_modEq {n : ℕ} [NeZero n] (x : Fin n) : ((x : ℕ) : ℤ) + -1 ≡ ((x - 1 : Fin n) : ℕ) [ZMOD n] := by
  have h := fin_succ_modEq (x - 1)
  rw [sub_add_cancel] at h
  have := (h.add_right (-1)).symm
  rwa [add_neg_cancel_right] at this

/-- The cells a full step reads: up or stay, then down or stay. -/
theorem within_nb (up : Bool) (i : GIdx s) (a : Fin 3) : Within 1 i (nb up i a) := by
  intro b
  unfold nb
  by_cases h : b = a
  · subst h
    rw [Function.update_self]
    cases up
    · exact ⟨-1, by simp, fin_pred_modEq _⟩
    · exact ⟨1, by simp, fin_succ_modEq _⟩
  · rw [Function.update_of_ne h]
    exact ⟨0, by simp, by simp⟩

theorem within_up_down (i : GIdx s) (a b : Fin 3) : Within 1 i (nb false (nb true i a) b) := by
  intro c
  unfold nb
  simp only [if_true, Bool.false_eq_true, if_false]
  by_cases h : c = b
  · subst h
    rw [Function.update_self]
    by_cases h' : c = a
    · subst h'
      rw [Function.update_self, add_sub_cancel_right]
      exact ⟨0, by simp, by simp⟩
    · rw [Function.update_of_ne h']
      exact ⟨-1, by simp, fin_pred_modEq _⟩
  · rw [Function.update_of_ne h]
    by_cases h' : c = a
    · subst h'
      rw [Function.update_self]
      exact ⟨1, by simp, fin_succ_modEq _⟩
    · rw [Function.update_of_ne h']
      exact ⟨0, by simp, by simp⟩

/-! ### C126 -/

theorem step_local (F : Fdtd s) (jax : Bool) (x y : FState s F.npml) (l l' : List (Source s)) (i : GIdx s)
    (h : ∀ j, Within 1 i j → AgreeAt x y j) (hl : ∀ j, Within 1 i j → List.Forall₂ (fun p q => SourceAgreeAt p q j) l l') :
    AgreeAt (F.step jax x l) (F.step jax y l') i := by
  unfold Fdtd.step
  refine stepH_local F jax _ _ l l' i ?_ (fun a => ?_) (hl i (within_refl i 1))
  · exact stepE_local F jax x y l l' i (h i (within_refl i 1)) (fun a => h _ (within_nb false i a)) (hl i (within_refl i 1))
  · exact stepE_local F jax x y l l' _ (h _ (within_nb true i a)) (fun b => h _ (within_up_down i a b)) (hl _ (within_nb true i a))

/-- C126: information travels at most one cell per axis and step, with or without PML and in both modes.
If two runs start from states, and inject sources, that are the same in all cells at most `n` cells
away from `i`, then after `n` steps they have the same fields (and PML memory) in cell `i`. -/
theorem C126_causal (F : Fdtd s) (jax : Bool) (n : ℕ) (x y : FState s F.npml) (srcs srcs' : ℕ → List (Source s)) (i : GIdx s)
    (h : ∀ j, Within n i j → AgreeAt x y j)
    (hl : ∀ m < n, ∀ j, Within n i j → List.Forall₂ (fun p q => SourceAgreeAt p q j) (srcs m) (srcs' m)) :
    AgreeAt (F.run jax srcs x n) (F.run jax srcs' y n) i := by
  have gen : ∀ m, m ≤ n → ∀ j, Within (n - m) i j → AgreeAt (F.run jax srcs x m) (F.run jax srcs' y m) j := by
    intro m
    induction m with
    | zero => intro _ j hj; exact h j hj
    | succ m ih =>
      intro hm j hj
      have tr : ∀ k, Within 1 j k → Within (n - m) i k := fun k hk => by
        have := within_trans hj hk
        rwa [show n - (m + 1) + 1 = n - m by omega] at this
      have up : ∀ k, Within (n - m) i k → Within n i k := fun k hk => by
        have := within_trans hk (within_refl k m)
        rwa [show n - m + m = n by omega] at this
      exact step_local F jax _ _ _ _ j (fun k hk => ih (by omega) k (tr k hk)) (fun k hk => hl m (by omega) k (up k (tr k hk)))
  have := gen n le_rfl i
  rw [Nat.sub_self] at this
  exact this (within_refl i 0)

/-- C126, light cone: started from the zero state, cell `i` stays dark for `n` steps if no source is
closer than `n + 1` cells. -/
theorem C126_dark (F : Fdtd s) (jax : Bool) (n : ℕ) (srcs : ℕ → List (Source s)) (i : GIdx s)
    (hl : ∀ m < n, ∀ p ∈ srcs m, ∀ c j, Within n i j → p.region c j = false) (c : Fin 3) :
    (F.run jax srcs (zeroState s F.npml) n).1 c i = 0 ∧ (F.run jax srcs (zeroState s F.npml) n).2.1 c i = 0 := by
  have h := C126_causal F jax n (zeroState s F.npml) (zeroState s F.npml) srcs
    (fun m => (srcs m).map fun _ => ⟨none, none, fun _ _ => false⟩) i (fun _ _ => ⟨fun _ => rfl, fun _ => rfl, fun _ _ => rfl, fun _ _ => rfl⟩)
    (by
      intro m hm j hj
      have : ∀ p ∈ srcs m, ∀ c, p.region c j = false := fun p hp c => hl m hm p hp c j hj
      revert this
      generalize srcs m = l
      intro hp
      induction l with
      | nil => exact List.Forall₂.nil
      | cons p l ih =>
        refine List.Forall₂.cons (fun c => ?_) (ih fun q hq => hp q (List.mem_cons_of_mem _ hq))
        have := hp p List.mem_cons_self c
        exact ⟨this, fun hr => absurd (this.symm.trans hr) (by decide)⟩)
  rw [C54_zero_fixed F jax (fun m => (srcs m).map fun _ => ⟨none, none, fun _ _ => false⟩) (by
    intro k p hp
    obtain ⟨q, -, rfl⟩ := List.mem_map.1 hp
    exact ⟨rfl, rfl⟩)] at h
  exact ⟨h.1 c, h.2.1 c⟩

/-- The hypotheses of C126 are met: on a `20 x 1 x 1` grid, cell 10 is more than 5 cells from cell 0. -/
example : ¬ Within 5 (cell 20 10) (cell 20 0) ∧ Within 10 (cell 20 10) (cell 20 0) := by
  constructor
  · intro h
    obtain ⟨d, hd, he⟩ := h 0
    have he' : (10 : ℤ) + d ≡ 0 [ZMOD 20] := he
    rw [abs_le] at hd
    have := Int.emod_emod_of_dvd ((10 : ℤ) + d) (dvd_refl 20)
    unfold Int.ModEq at he'
    push_cast at hd
    omega
  · intro a
    by_cases ha : a = 0
    · subst ha
      exact ⟨-10, by simp, show (10 : ℤ) + -10 ≡ 0 [ZMOD 20] from rfl⟩
    · have h3 : ∀ x y : ℤ, x ≡ y [ZMOD (shapeOf 20 1 1 a : ℕ)] := by
        rw [shapeOf_one (n := 20) ha]; intro x y; exact Int.modEq_one
      exact ⟨0, by simp, h3 _ _⟩

/-! ### C127 -/

/-- Time reversal of a state: the electric field is advanced to the other side of the magnetic field,
and the magnetic field changes its sign. -/
noncomputable def timeReverse (F : Fdtd s) (st : VField s × VField s) : VField s × VField s :=
  (fun c i => st.1 c i + F.g.curl true st.2 c i / F.epsT c i * F.dt, fun c i => -st.2 c i)

/-- The fields of a state. -/
def fieldsOf {np : ℕ} (st : FState s np) : VField s × VField s := (st.1, st.2.1)

theorem curl_neg' (g : YeeOps s) (ofH : Bool) (f : VField s) (c : Fin 3) (i : GIdx s) :
    g.curl ofH (fun c i => -f c i) c i = -g.curl ofH f c i := by
  have h := curl_lin g ofH (-1) 0 f f c i
  have e : (fun c i => (-1 : ℂ) * f c i + 0 * f c i) = fun c i => -f c i := by funext c i; ring
  have e' : (-1 : ℂ) • f + (0 : ℂ) • f = fun c i => -f c i := by
    funext c i; simp
  first
    | rw [e] at h
    | rw [e'] at h
  rw [h]; simp

theorem timeReverse_invol (F : Fdtd s) (st : VField s × VField s) : timeReverse F (timeReverse F st) = st := by
  unfold timeReverse
  refine Prod.ext ?_ ?_
  · funext c i
    simp only [curl_neg']
    ring
  · funext c i
    simp

theorem step_fields (F : Fdtd s) (hF : F.npml = 0) (jax : Bool) (st : FState s F.npml) :
    fieldsOf (F.step jax st []) =
      ((fun c i => st.1 c i + F.g.curl true st.2.1 c i / F.epsT c i * F.dt : VField s),
        fun c i => st.2.1 c i - F.g.curl false (fun c i => st.1 c i + F.g.curl true st.2.1 c i / F.epsT c i * F.dt) c i * F.dt) :=
  Prod.ext (step_plain F hF jax st).1 (step_plain F hF jax st).2

/-- One step: reversing, stepping and reversing again undoes a step. -/
theorem step_reverse (F : Fdtd s) (hF : F.npml = 0) (jax : Bool) (st st' : FState s F.npml)
    (h : fieldsOf st' = timeReverse F (fieldsOf (F.step jax st []))) :
    timeReverse F (fieldsOf (F.step jax st' [])) = fieldsOf st := by
  obtain ⟨e, hh, pe, ph⟩ := st
  obtain ⟨e', hh', pe', ph'⟩ := st'
  rw [step_fields F hF] at h ⊢
  simp only [fieldsOf, timeReverse, Prod.mk.injEq] at h ⊢
  obtain ⟨h1, h2⟩ := h
  set e1 : VField s := fun c i => e c i + F.g.curl true hh c i / F.epsT c i * F.dt with he1
  set h1' : VField s := fun c i => hh c i - F.g.curl false e1 c i * F.dt with hh1
  have k1 : (fun c i => e' c i + F.g.curl true hh' c i / F.epsT c i * F.dt : VField s) = e1 := by
    funext c i
    rw [h1, h2]
    simp only [curl_neg']
    ring
  rw [k1]
  have k2 : (fun c i => hh' c i - F.g.curl false e1 c i * F.dt : VField s) = fun c i => -hh c i := by
    funext c i
    rw [h2]
    ring
  rw [k2]
  refine ⟨?_, by funext c i; have := congrFun (congrFun k2 c) i; linear_combination (-1 : ℂ) * this⟩
  funext c i
  have := congrFun (congrFun k1 c) i
  simp only [he1] at this
  rw [curl_neg']
  linear_combination this

/-- C127: without PML and sources no information is lost. In both modes and for any number of steps, on
every grid and for every permittivity: take the state after `n` steps, reverse time, run `n` steps
and reverse time again, and the initial fields are back. -/
theorem C127_time_reversal (F : Fdtd s) (hF : F.npml = 0) (jax : Bool) (n : ℕ) (st st' : FState s F.npml)
    (h : fieldsOf st' = timeReverse F (fieldsOf (F.run jax (fun _ => []) st n))) :
    timeReverse F (fieldsOf (F.run jax (fun _ => []) st' n)) = fieldsOf st := by
  have run_succ' : ∀ (m : ℕ) (x : FState s F.npml), F.run jax (fun _ => []) x (m + 1) = F.run jax (fun _ => []) (F.step jax x []) m := by
    intro m
    induction m with
    | zero => intro x; rfl
    | succ m ih =>
      intro x
      show F.step jax (F.run jax (fun _ => []) x (m + 1)) [] = F.step jax (F.run jax (fun _ => []) (F.step jax x []) m) []
      rw [ih]
  induction n generalizing st st' with
  | zero =>
    show timeReverse F (fieldsOf st') = fieldsOf st
    rw [h]; exact timeReverse_invol F _
  | succ n ih =>
    -- `st'` is the reverse of the last state; one step brings it to the reverse of the one before
    have h1 : timeReverse F (fieldsOf (F.step jax st' [])) = fieldsOf (F.run jax (fun _ => []) st n) :=
      step_reverse F hF jax _ st' h
    have h2 : fieldsOf (F.step jax st' []) = timeReverse F (fieldsOf (F.run jax (fun _ => []) st n)) := by
      rw [← h1, timeReverse_invol]
    rw [run_succ']
    exact ih st _ h2

/-- C127, different states never become equal. -/
theorem C127_injective (F : Fdtd s) (hF : F.npml = 0) (jax : Bool) (n : ℕ) (st st' : FState s F.npml)
    (h : fieldsOf (F.run jax (fun _ => []) st n) = fieldsOf (F.run jax (fun _ => []) st' n)) : fieldsOf st = fieldsOf st' := by
  set r : FState s F.npml := ((timeReverse F (fieldsOf (F.run jax (fun _ => []) st n))).1,
    (timeReverse F (fieldsOf (F.run jax (fun _ => []) st n))).2, fun k => (Fin.cast hF k).elim0, fun k => (Fin.cast hF k).elim0)
  rw [← C127_time_reversal F hF jax n st r rfl, ← C127_time_reversal F hF jax n st' r (by rw [← h]; rfl)]

/-- C127, every state is reached from exactly one state. -/
theorem C127_surjective (F : Fdtd s) (hF : F.npml = 0) (jax : Bool) (n : ℕ) (f : VField s × VField s) :
    ∃ st : FState s F.npml, fieldsOf (F.run jax (fun _ => []) st n) = f := by
  let mk : VField s × VField s → FState s F.npml := fun p => (p.1, p.2, fun k => (Fin.cast hF k).elim0, fun k => (Fin.cast hF k).elim0)
  let r := F.run jax (fun _ => []) (mk (timeReverse F f)) n
  refine ⟨mk (timeReverse F (fieldsOf r)), ?_⟩
  have := C127_time_reversal F hF jax n (mk (timeReverse F f)) (mk (timeReverse F (fieldsOf r))) rfl
  have h2 : fieldsOf (mk (timeReverse F f)) = timeReverse F f := rfl
  rw [h2] at this
  have h3 := congrArg (timeReverse F) this
  rwa [timeReverse_invol, timeReverse_invol] at h3

/-- A case: on a line of two cells with magnetic field `1` in one cell the first step changes the fields, and
the reversed run brings them back. -/
example :
    let F : Fdtd (shapeOf 2 1 1) := plainFdtd 1 (fun _ => 1) (fun _ => 1) (fun _ => 1)
    let h0 : VField (shapeOf 2 1 1) := fun c i => if c = 1 ∧ i 0 = 0 then 1 else 0
    let st : FState (shapeOf 2 1 1) F.npml := (fun _ _ => 0, h0, fun k => k.elim0, fun k => k.elim0)
    (F.step false st []).1 2 (fun _ => 0) ≠ 0 := by
  intro F h0 st
  rw [(step_plain F rfl false st).1]
  have hdt : F.dt = 1 := by
    show courantDt 1 (fun _ => 1) = 1
    simp [courantDt]
  have heps : F.epsT 2 (fun _ => 0) = 1 := by
    show yeeAvgG (s := shapeOf 2 1 1) (fun _ => 1) 2 _ = 1
    simp [yeeAvgG, rollFwd]
  simp only [hdt, heps]
  have h2 : shapeOf 2 1 1 0 ≠ 1 := by decide
  simp [st, h0, F, plainFdtd, uniformOps, YeeOps.curl, curlFn, YeeOps.diffFn, rollFwd, h2]

end Simphox
