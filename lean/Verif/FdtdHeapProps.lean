import Mathlib.Tactic.NormNum
import Verif.FdtdHeap
import Verif.FdtdEnergy

/-!
# C58 (synchronised measurement in `run_cw_port`), C86 (`step` and the caller's state)
-/

namespace Simphox

open Complex

variable {s : Fin 3 → ℕ} [∀ a, NeZero (s a)]

/-- Effect of one step on the heap: the returned state has the values of `step`, the references are well
formed again, array addresses are only allocated, and arrays below the old limit other than `e`, `h` keep
their value. In NumPy mode the references are unchanged; in JAX mode they are new. -/
theorem stepHeap_spec (F : Fdtd s) (jax : Bool) (H : FHeap s F.npml) (r : SRef) (hr : r.Ok H)
    (srcs : List (Source s)) :
    let p := F.stepHeap jax H r srcs
    p.1.read p.2 = F.step jax (H.read r) srcs ∧ p.2.Ok p.1 ∧ H.next ≤ p.1.next
      ∧ (∀ a, a < H.next → (jax = true ∨ (a ≠ r.e ∧ a ≠ r.h)) → p.1.arr a = H.arr a)
      ∧ (jax = false → p.2 = r) ∧ (p.2.pe = r.pe ∧ p.2.ph = r.ph)
      ∧ (∀ a, a ≠ r.pe → a ≠ r.ph → p.1.lst a = H.lst a) := by
  obtain ⟨e, h, pe, ph⟩ := r
  obtain ⟨h1, h2, h3, h4⟩ := hr
  simp only at h1 h2 h3 h4
  have h4' : ph ≠ pe := Ne.symm h4
  have h1' : h ≠ e := Ne.symm h1
  have hhn : h ≠ H.next := by omega
  cases jax
  · refine ⟨?_, ?_, ?_, ?_, fun _ => rfl, ⟨rfl, rfl⟩, ?_⟩
    · simp only [Fdtd.stepHeap, Fdtd.step, FHeap.store, FHeap.read, Bool.false_eq_true, if_false,
        Function.update_self, Function.update_of_ne h1', Function.update_of_ne h4',
        Function.update_of_ne h1, Function.update_of_ne h4]
      rfl
    · exact ⟨h1, h2, h3, h4⟩
    · exact le_refl _
    · intro a ha hb
      rcases hb with hb | ⟨hb1, hb2⟩
      · exact absurd hb (by decide)
      · simp only [Fdtd.stepHeap, FHeap.store, Bool.false_eq_true, if_false]
        rw [Function.update_of_ne hb2, Function.update_of_ne hb1]
    · intro a ha hb
      simp only [Fdtd.stepHeap, FHeap.store, Bool.false_eq_true, if_false]
      rw [Function.update_of_ne hb, Function.update_of_ne ha]
  · have hn1 : H.next ≠ H.next + 1 := by omega
    have hn2 : h ≠ H.next + 1 := by omega
    refine ⟨?_, ?_, ?_, ?_, fun hj => absurd hj (by decide), ⟨rfl, rfl⟩, ?_⟩
    · simp only [Fdtd.stepHeap, Fdtd.step, FHeap.store, FHeap.read, if_true,
        Function.update_self, Function.update_of_ne h4', Function.update_of_ne hhn,
        Function.update_of_ne hn1, Function.update_of_ne h4]
      rfl
    · refine ⟨?_, ?_, ?_, h4⟩
      · simp only [Fdtd.stepHeap, FHeap.store, if_true]; omega
      · simp only [Fdtd.stepHeap, FHeap.store, if_true]; omega
      · simp only [Fdtd.stepHeap, FHeap.store, if_true]; omega
    · simp only [Fdtd.stepHeap, FHeap.store, if_true]; omega
    · intro a ha _
      simp only [Fdtd.stepHeap, FHeap.store, if_true]
      rw [Function.update_of_ne (by omega), Function.update_of_ne (by omega)]
    · intro a ha hb
      simp only [Fdtd.stepHeap, FHeap.store, if_true]
      rw [Function.update_of_ne hb, Function.update_of_ne ha]

theorem runCw_succ (F : Fdtd s) (jax : Bool) (srcs : ℕ → List (Source s)) (H : FHeap s F.npml) (r : SRef) (n : ℕ) :
    F.runCw jax srcs H r (n + 1) =
      (let p := F.runCw jax srcs H r n
       let q := F.stepHeap jax p.1 p.2.1 (srcs n)
       (q.1, q.2, p.2.2 ++ [(q.1.arr q.2.e, fun c i => (q.1.arr p.2.1.h c i + q.1.arr q.2.h c i) / 2)])) := rfl

theorem runCw_read (F : Fdtd s) (jax : Bool) (srcs : ℕ → List (Source s)) (H : FHeap s F.npml) (r : SRef)
    (hr : r.Ok H) (n : ℕ) :
    let p := F.runCw jax srcs H r n
    p.1.read p.2.1 = F.run jax srcs (H.read r) n ∧ p.2.1.Ok p.1 := by
  induction n with
  | zero => exact ⟨rfl, hr⟩
  | succ n ih =>
    obtain ⟨ih1, ih2⟩ := ih
    obtain ⟨h1, h2, -⟩ := stepHeap_spec F jax _ _ ih2 (srcs n)
    rw [runCw_succ]
    refine ⟨?_, h2⟩
    change FHeap.read _ _ = F.step jax (F.run jax srcs (H.read r) n) (srcs n)
    rw [← ih1]
    exact h1

/-- The fields the documentation asks `run_cw_port` to measure: the initial fields, then after each step
the new `e` and the average of `h` before and after the step. -/
noncomputable def syncFields {np : ℕ} (st : ℕ → FState s np) : ℕ → List (VField s × VField s)
  | 0 => [((st 0).1, (st 0).2.1)]
  | n + 1 => syncFields st n ++ [((st (n + 1)).1, fun c i => ((st n).2.1 c i + (st (n + 1)).2.1 c i) / 2)]

/-- C58, what holds: in JAX mode, for every grid, PML, sources, initial state and number of steps, the
measured fields are the synchronised ones. -/
theorem C58_jax_partial (F : Fdtd s) (srcs : ℕ → List (Source s)) (H : FHeap s F.npml) (r : SRef)
    (hr : r.Ok H) (n : ℕ) :
    (F.runCw true srcs H r n).2.2 = syncFields (F.run true srcs (H.read r)) n := by
  induction n with
  | zero => rfl
  | succ n ih =>
    obtain ⟨h1, h2⟩ := runCw_read F true srcs H r hr n
    obtain ⟨h3, -, -, h4, -⟩ := stepHeap_spec F true _ _ h2 (srcs n)
    rw [runCw_succ]
    set p := F.runCw true srcs H r n with hp
    set q := F.stepHeap true p.1 p.2.1 (srcs n) with hq
    have e0 : p.1.arr p.2.1.h = (F.run true srcs (H.read r) n).2.1 := congrArg (fun x => x.2.1) h1
    have e1 : q.1.read q.2 = F.run true srcs (H.read r) (n + 1) := by
      rw [h3, h1]; rfl
    have e2 : q.1.arr q.2.e = (F.run true srcs (H.read r) (n + 1)).1 := congrArg (fun x => x.1) e1
    have e3 : q.1.arr q.2.h = (F.run true srcs (H.read r) (n + 1)).2.1 := congrArg (fun x => x.2.1) e1
    have e4 : q.1.arr p.2.1.h = (F.run true srcs (H.read r) n).2.1 := by
      rw [h4 _ h2.2.2.1 (Or.inl rfl), e0]
    change p.2.2 ++ [(q.1.arr q.2.e, fun c i => (q.1.arr p.2.1.h c i + q.1.arr q.2.h c i) / 2)]
      = syncFields _ n ++ _
    rw [← ih, e2, e3, e4]

/-- C58, what NumPy mode measures instead: the magnetic field at the end of the step. -/
theorem C58_numpy_partial (F : Fdtd s) (srcs : ℕ → List (Source s)) (H : FHeap s F.npml) (r : SRef)
    (hr : r.Ok H) (n : ℕ) :
    (F.runCw false srcs H r n).2.2
      = (List.range (n + 1)).map fun k =>
          ((F.run false srcs (H.read r) k).1, (F.run false srcs (H.read r) k).2.1) := by
  induction n with
  | zero => rfl
  | succ n ih =>
    obtain ⟨h1, h2⟩ := runCw_read F false srcs H r hr n
    obtain ⟨h3, -, -, -, h5, -⟩ := stepHeap_spec F false _ _ h2 (srcs n)
    rw [runCw_succ, List.range_succ, List.map_append, ← ih]
    set p := F.runCw false srcs H r n with hp
    set q := F.stepHeap false p.1 p.2.1 (srcs n) with hq
    have e1 : q.1.read q.2 = F.run false srcs (H.read r) (n + 1) := by
      rw [h3, h1]; rfl
    have e2 : q.1.arr q.2.e = (F.run false srcs (H.read r) (n + 1)).1 := congrArg (fun x => x.1) e1
    have e3 : q.1.arr q.2.h = (F.run false srcs (H.read r) (n + 1)).2.1 := congrArg (fun x => x.2.1) e1
    have e4 : q.1.arr p.2.1.h = (F.run false srcs (H.read r) (n + 1)).2.1 := by
      rw [← e3, h5 rfl]
    change p.2.2 ++ [(q.1.arr q.2.e, fun c i => (q.1.arr p.2.1.h c i + q.1.arr q.2.h c i) / 2)]
      = p.2.2 ++ _
    congr 1
    rw [e2, e3, e4, List.map_cons, List.map_nil]
    congr 2
    funext c i
    ring

/-- A heap holding a given state at references 0 (e), 1 (h) and lists 0, 1. -/
def heapOf {np : ℕ} (st : FState s np) : FHeap s np :=
  { arr := fun a => if a = 0 then st.1 else st.2.1, lst := fun a => if a = 0 then st.2.2.1 else st.2.2.2, next := 2 }

/-- C58 fails in NumPy mode: two cells of vacuum, one step from the alternating electric field. The
average of the magnetic fields is `-1`, the measured one `-2` (at cell 0). -/
theorem C58_counterexample :
    let F := plainFdtd (s := shapeOf 2 1 1) 1 (fun _ => 1) (fun _ => 1) (fun _ => 1)
    let H : FHeap (shapeOf 2 1 1) F.npml := heapOf (altState 1 0)
    let r : SRef := ⟨0, 1, 0, 1⟩
    r.Ok H ∧ (F.runCw false (fun _ => []) H r 1).2.2
      ≠ syncFields (F.run false (fun _ => []) (H.read r)) 1 := by
  intro F H r
  have hr : r.Ok H := ⟨by decide, by decide, by decide, by decide⟩
  refine ⟨hr, fun h => ?_⟩
  rw [C58_numpy_partial F _ H r hr] at h
  have hread : H.read r = altState 1 0 := rfl
  rw [hread] at h
  have h1 : F.run false (fun _ => []) (altState 1 0) 1 = altState _ _ := C56_vacuum_growth false 1
  have h0 : F.run false (fun _ => []) (altState 1 0) 0 = altState _ _ := C56_vacuum_growth false 0
  have h2 := congrArg (fun l : List (VField (shapeOf 2 1 1) × VField (shapeOf 2 1 1)) => (l.getD 1 (0, 0)).2 1 0) h
  change (F.run false (fun _ => []) (altState 1 0) 1).2.1 1 0
    = ((F.run false (fun _ => []) (altState 1 0) 0).2.1 1 0 + (F.run false (fun _ => []) (altState 1 0) 1).2.1 1 0) / 2 at h2
  rw [h1, h0] at h2
  have ha : altField 2 0 = 1 := rfl
  change (((-1) ^ 1 * (2 * (1 : ℕ)) : ℝ) : ℂ) * altField 2 0
    = ((((-1) ^ 0 * (2 * (0 : ℕ)) : ℝ) : ℂ) * altField 2 0 + (((-1) ^ 1 * (2 * (1 : ℕ)) : ℝ) : ℂ) * altField 2 0) / 2 at h2
  rw [ha] at h2
  norm_num at h2

/-! ### C86 -/

/-- C86, what holds: in JAX mode every array the caller holds keeps its value; without PML the caller's
state therefore still has the values it had, and stepping it again gives the same result. -/
theorem C86_jax_partial (F : Fdtd s) (hF : F.npml = 0) (H : FHeap s F.npml) (r : SRef) (hr : r.Ok H)
    (srcs : List (Source s)) :
    let p := F.stepHeap true H r srcs
    (∀ a, a < H.next → p.1.arr a = H.arr a) ∧ p.1.read r = H.read r
      ∧ (F.stepHeap true p.1 r srcs).1.read (F.stepHeap true p.1 r srcs).2 = p.1.read p.2 := by
  intro p
  obtain ⟨h1, h2, h3, h4, -, -, -⟩ := stepHeap_spec F true H r hr srcs
  have hread : p.1.read r = H.read r := by
    have hlst : ∀ l l' : Fin F.npml → Psi s, l = l' := by
      rw [hF]; intro l l'; funext k; exact k.elim0
    unfold FHeap.read
    rw [h4 r.e hr.2.1 (Or.inl rfl), h4 r.h hr.2.2.1 (Or.inl rfl), hlst (p.1.lst r.pe) (H.lst r.pe),
      hlst (p.1.lst r.ph) (H.lst r.ph)]
  have hr' : r.Ok p.1 := ⟨hr.1, lt_of_lt_of_le hr.2.1 h3, lt_of_lt_of_le hr.2.2.1 h3, hr.2.2.2⟩
  refine ⟨fun a ha => h4 a ha (Or.inl rfl), hread, ?_⟩
  obtain ⟨g1, -⟩ := stepHeap_spec F true p.1 r hr' srcs
  rw [g1, hread]
  exact h1.symm

/-- C86, what NumPy mode does instead: the caller's state is overwritten with the result, so the second
call on the same state is the second step. -/
theorem C86_numpy_partial (F : Fdtd s) (H : FHeap s F.npml) (r : SRef) (hr : r.Ok H) (srcs : List (Source s)) :
    let p := F.stepHeap false H r srcs
    p.1.read r = F.step false (H.read r) srcs
      ∧ (F.stepHeap false p.1 r srcs).1.read r = F.step false (F.step false (H.read r) srcs) srcs := by
  intro p
  obtain ⟨h1, h2, -, -, h5, -⟩ := stepHeap_spec F false H r hr srcs
  have hpr : p.2 = r := h5 rfl
  have hread : p.1.read r = F.step false (H.read r) srcs := by
    have : p.1.read p.2 = F.step false (H.read r) srcs := h1
    rwa [hpr] at this
  have hr' : r.Ok p.1 := by
    have : p.2.Ok p.1 := h2
    rwa [hpr] at this
  obtain ⟨g1, -, -, -, g5, -⟩ := stepHeap_spec F false p.1 r hr' srcs
  refine ⟨hread, ?_⟩
  rw [← hread]
  have : (F.stepHeap false p.1 r srcs).2 = r := g5 rfl
  rw [this] at g1
  exact g1

/-- C86 fails in NumPy mode: two cells of vacuum; one step changes the caller's magnetic field from 0. -/
theorem C86_counterexample :
    let F := plainFdtd (s := shapeOf 2 1 1) 1 (fun _ => 1) (fun _ => 1) (fun _ => 1)
    let H : FHeap (shapeOf 2 1 1) F.npml := heapOf (altState 1 0)
    let r : SRef := ⟨0, 1, 0, 1⟩
    r.Ok H ∧ (F.stepHeap false H r []).1.read r ≠ H.read r := by
  intro F H r
  have hr : r.Ok H := ⟨by decide, by decide, by decide, by decide⟩
  refine ⟨hr, fun h => ?_⟩
  rw [(C86_numpy_partial F H r hr []).1] at h
  have hread : H.read r = altState 1 0 := rfl
  rw [hread, altState_step] at h
  have h2 := congrArg (fun x : FState (shapeOf 2 1 1) 0 => x.2.1 1 0) h
  have ha : altField 2 0 = 1 := rfl
  change ((0 - 2 * (1 + 2 * 0) : ℝ) : ℂ) * altField 2 0 = ((0 : ℝ) : ℂ) * altField 2 0 at h2
  rw [ha] at h2
  norm_num at h2

end Simphox
