import Verif.Pardiso
import Mathlib.Tactic.Linarith
import Mathlib.Tactic.NormNum

/-!
# C59-C61: solver cache and cached permittivity
-/

namespace Simphox

/-! ### C59 -/

/-- A call that MKL and the wrapper accept: a valid matrix that MKL factorises, with a right-hand
side of matching length; or a matrix rejected up front by `_set_mat` (dtype/shape). -/
def POp.Clean (facOk : SpMat → Bool) : POp → Prop
  | .factor m => m.valid = false ∨ facOk m = true
  | .solve m len => m.valid = false ∨ (facOk m = true ∧ len = m.n)
  | .free => False

/-- The matrix of a call. -/
def POp.mat? : POp → Option SpMat
  | .factor m => some m
  | .solve m _ => some m
  | .free => none

/-- The hash distinguishes the matrices of a history from each other and from the "no matrix" value. -/
def Distinguishes (H : ℕ × ℕ × List (ℕ × ℕ × ℚ) → ℤ) (ops : List POp) : Prop :=
  (∀ op ∈ ops, ∀ m, op.mat? = some m → matHash H m ≠ 0) ∧
  (∀ op ∈ ops, ∀ op' ∈ ops, ∀ m m', op.mat? = some m → op'.mat? = some m' → matHash H m = matHash H m' →
    m = m')

/-- Specification: the correct result of a call: the solution for the given matrix, or a `ValueError`
for a rejected one. -/
def POp.correct : POp → POut
  | .factor m => if m.valid then .done else .raised .valueError
  | .solve m _ => if m.valid then .solution m else .raised .valueError
  | .free => .done

/-- The invariant: either nothing was stored, or the stored matrix is valid, is the one that was
hashed and the one that is factorised. -/
def PState.Good (H : ℕ × ℕ × List (ℕ × ℕ × ℚ) → ℤ) (s : PState) (M : SpMat → Prop) : Prop :=
  s.hash = 0 ∨ ∃ m, s.mat = some m ∧ s.factors = some m ∧ s.hash = matHash H m ∧ M m ∧ m.valid = true

theorem step_clean (H : ℕ × ℕ × List (ℕ × ℕ × ℚ) → ℤ) (facOk : SpMat → Bool) (M : SpMat → Prop)
    (hM0 : ∀ m, M m → matHash H m ≠ 0) (hinj : ∀ m m', M m → M m' → matHash H m = matHash H m' → m = m')
    (s : PState) (hs : s.Good H M) (op : POp) (hop : op.Clean facOk) (hmat : ∀ m, op.mat? = some m → M m) :
    (s.step H facOk op).1.Good H M ∧ (s.step H facOk op).2 = op.correct := by
  cases op with
  | free => exact absurd hop (by simp [POp.Clean])
  | factor m =>
    have hm := hmat m rfl
    simp only [PState.step, POp.correct]
    by_cases hv : m.valid = true
    · have hok : facOk m = true := by
        rcases hop with h | h
        · rw [h] at hv; simp at hv
        · exact h
      simp only [hv, if_true, PState.native, hM0 m hm, hok]
      exact ⟨Or.inr ⟨m, rfl, rfl, rfl, hm, hv⟩, by simp⟩
    · simp only [hv]; exact ⟨hs, rfl⟩
  | solve m len =>
    have hm := hmat m rfl
    simp only [PState.step, POp.correct]
    by_cases hv : m.valid = true
    · obtain ⟨hok, hlen⟩ : facOk m = true ∧ len = m.n := by
        rcases hop with h | h
        · rw [h] at hv; simp at hv
        · exact h
      by_cases hh : matHash H m ≠ s.hash
      · simp only [if_pos hh, hv, if_true, PState.native, hM0 m hm, hlen, hok]
        exact ⟨Or.inr ⟨m, by simp, by simp, by simp, hm, hv⟩, by simp⟩
      · have he : matHash H m = s.hash := not_not.1 hh
        rcases hs with hs | ⟨m', h1, h2, h3, h4, h5⟩
        · exact absurd (he.trans hs) (hM0 m hm)
        · have : m = m' := hinj m m' hm h4 (he.trans h3)
          subst this
          rw [if_neg hh]
          have hne : s.hash ≠ 0 := by rw [← he]; exact hM0 m hm
          simp only [PState.native, hne, if_false, h1, h2, hlen, hv, if_true]
          exact ⟨Or.inr ⟨m, by simpa using h1, by simpa using h2, by simpa using h3, hm, hv⟩, by simp⟩
    · by_cases hh : matHash H m ≠ s.hash
      · simp only [if_pos hh, hv]; exact ⟨hs, rfl⟩
      · have he : matHash H m = s.hash := not_not.1 hh
        rcases hs with hs | ⟨m', h1, h2, h3, h4, h5⟩
        · exact absurd (he.trans hs) (hM0 m hm)
        · have : m = m' := hinj m m' hm h4 (he.trans h3)
          subst this
          exact absurd h5 hv

/-- C59 (partial): in every history of `factor`/`solve` calls from a fresh solver in which every right-hand side
has the length of its matrix, MKL factorises every matrix, and the string hash distinguishes the
matrices, every `solve` returns the solution for the matrix it was given (and rejected matrices raise).
Missing: histories with a failed call (`C59_failed_call_counterexample`), with `free` (C60), and
matrices the string does not distinguish (`C59_truncated_hash_counterexample`). -/
theorem C59_no_stale_partial (H : ℕ × ℕ × List (ℕ × ℕ × ℚ) → ℤ) (facOk : SpMat → Bool) (ops : List POp)
    (hclean : ∀ op ∈ ops, op.Clean facOk) (hH : Distinguishes H ops) :
    (PState.run H facOk PState.init ops).2 = ops.map POp.correct := by
  have gen : ∀ (ops' : List POp) (s : PState), (∀ op ∈ ops', op ∈ ops) →
      s.Good H (fun m => ∃ op ∈ ops, op.mat? = some m) →
      (PState.run H facOk s ops').2 = ops'.map POp.correct := by
    intro ops'
    induction ops' with
    | nil => intro s _ _; rfl
    | cons op ops' ih =>
      intro s hsub hs
      have h := step_clean H facOk (fun m => ∃ op ∈ ops, op.mat? = some m)
        (fun m ⟨o, ho, hom⟩ => hH.1 o ho m hom)
        (fun m m' ⟨o, ho, hom⟩ ⟨o', ho', hom'⟩ => hH.2 o ho o' ho' m m' hom hom')
        s hs op (hclean op (hsub op (by simp))) (fun m hm => ⟨op, hsub op (by simp), hm⟩)
      simp only [PState.run, List.map_cons, h.2]
      rw [ih _ (fun o ho => hsub o (by simp [ho])) h.1]
  exact gen ops PState.init (fun _ h => h) (Or.inl rfl)

/-- Two distinct small matrices. -/
def demoA : SpMat := ⟨1, [(0, 0, 1)], true⟩
def demoB : SpMat := ⟨1, [(0, 0, 2)], true⟩

/-- A hash by the sum of numerators of printed entries, enough for the examples. -/
def demoHash (x : ℕ × ℕ × List (ℕ × ℕ × ℚ)) : ℤ := (x.2.2.map fun e => e.2.2.num).sum

example : (∀ op ∈ [POp.solve demoA 1, .factor demoB, .solve demoA 1, .solve demoB 1], op.Clean fun _ => true) ∧
    Distinguishes demoHash [POp.solve demoA 1, .factor demoB, .solve demoA 1, .solve demoB 1] := by
  refine ⟨by simp [POp.Clean, demoA, demoB], ?_, ?_⟩
  · simp [POp.mat?, matHash, SpMat.shown, demoHash, demoA, demoB]
  · simp [POp.mat?, matHash, SpMat.shown, demoHash, demoA, demoB]

/-- Entries of a 51 x 51 diagonal matrix, with value `v` in row 25. -/
def bigEntries (v : ℚ) : List (ℕ × ℕ × ℚ) :=
  (List.range 51).map fun i => (i, i, if i = 25 then v else 1)

/-- C59 is false for every string hash as soon as a matrix has more than 50 stored entries: the printed
form omits the middle. Solving with a diagonal `51 x 51` matrix and then with one that differs in its
middle entry returns, the second time, the solution for the first matrix. -/
theorem C59_truncated_hash_counterexample (H : ℕ × ℕ × List (ℕ × ℕ × ℚ) → ℤ)
    (h0 : matHash H ⟨51, bigEntries 1, true⟩ ≠ 0) :
    (PState.run H (fun _ => true) PState.init
      [.solve ⟨51, bigEntries 1, true⟩ 51, .solve ⟨51, bigEntries 2, true⟩ 51]).2 =
      [.solution ⟨51, bigEntries 1, true⟩, .solution ⟨51, bigEntries 1, true⟩] ∧
    (⟨51, bigEntries 1, true⟩ : SpMat) ≠ ⟨51, bigEntries 2, true⟩ := by
  have hs : SpMat.shown ⟨51, bigEntries 2, true⟩ = SpMat.shown ⟨51, bigEntries 1, true⟩ := by
    decide +kernel
  have hh : matHash H ⟨51, bigEntries 2, true⟩ = matHash H ⟨51, bigEntries 1, true⟩ := by
    unfold matHash; rw [hs]
  refine ⟨?_, by decide +kernel⟩
  simp only [PState.run, PState.step, PState.init, hh]
  simp [PState.native, h0]

/-- C59 is false after a failed call, even with a perfect hash: a `solve` with a right-hand side of the
wrong length stores the new matrix's hash before failing, and the retry is solved with the factors of
the previous matrix. -/
theorem C59_failed_call_counterexample :
    (PState.run demoHash (fun _ => true) PState.init
      [.solve demoA 1, .solve demoB 7, .solve demoB 1]).2 =
      [.solution demoA, .raised .runtimeError, .solution demoA] := by
  decide +kernel

/-! ### C60 -/

/-- C60 (partial): rejecting a matrix never changes the solver's state (so whatever could be solved
before still can), and in the histories of C59 no call ever solves without factors. Missing: `free`,
after which the claim is false (`C60_free_counterexample`), and failed factorisations. -/
theorem C60_lifecycle_partial (H : ℕ × ℕ × List (ℕ × ℕ × ℚ) → ℤ) (facOk : SpMat → Bool) :
    (∀ (s : PState) (m : SpMat), m.valid = false → (s.step H facOk (.factor m)).1 = s ∧
      (s.step H facOk (.factor m)).2 = .raised .valueError ∧
      ∀ len, matHash H m ≠ s.hash → (s.step H facOk (.solve m len)).1 = s ∧
        (s.step H facOk (.solve m len)).2 = .raised .valueError) ∧
    (∀ ops : List POp, (∀ op ∈ ops, op.Clean facOk) → Distinguishes H ops →
      POut.garbage ∉ (PState.run H facOk PState.init ops).2) := by
  refine ⟨fun s m hv => ⟨by simp [PState.step, hv], by simp [PState.step, hv], fun len hne =>
    ⟨by simp [PState.step, hv, hne], by simp [PState.step, hv, hne]⟩⟩, fun ops hc hH hg => ?_⟩
  rw [C59_no_stale_partial H facOk ops hc hH, List.mem_map] at hg
  obtain ⟨op, hop, h⟩ := hg
  cases op with
  | factor m => simp only [POp.correct] at h; split_ifs at h
  | solve m len => simp only [POp.correct] at h; split_ifs at h
  | free => exact hc _ hop

/-- C60 is false after `free()`: the hash is kept, so the next `solve` with the same matrix does not
refactorise and solves without factors. -/
theorem C60_free_counterexample :
    (PState.run demoHash (fun _ => true) PState.init [.solve demoA 1, .free, .solve demoA 1]).2 =
      [.solution demoA, .done, .garbage] := by
  decide +kernel

/-- C60 is false after a failed factorisation: the error is raised once, the retry solves without
factors. -/
theorem C60_failed_factorisation_counterexample :
    (PState.run demoHash (fun m => decide (m ≠ demoB)) PState.init [.solve demoB 1, .solve demoB 1]).2 =
      [.raised .runtimeError, .garbage] := by
  decide +kernel

/-- C60: a matrix whose hash is 0 can never be solved: the fresh solver raises `RuntimeError`. -/
theorem C60_zero_hash_raises (H : ℕ × ℕ × List (ℕ × ℕ × ℚ) → ℤ) (facOk : SpMat → Bool) (m : SpMat) (len : ℕ)
    (h : matHash H m = 0) : (PState.init.step H facOk (.solve m len)).2 = .raised .runtimeError := by
  simp [PState.step, PState.init, h, PState.native]

/-! ### C61 -/

/-- The permittivity at the moment the cache entry was filled, as a function of the history: the
specification of what `eps_t` returns. -/
def lastFill {α β : Type} (s : CacheState α β) : List (CacheOp α) → α → Option α → α × Option α
  | [], e, f => (e, f)
  | .set a :: ops, _, f => lastFill s ops a f
  | .evict :: ops, e, _ => lastFill s ops e none
  | .read :: ops, e, f => lastFill s ops e (f.or (some e))

theorem run_lastFill {α β : Type} (f : α → β) (ops : List (CacheOp α)) (s : CacheState α β) (e : α)
    (c : Option α) (h : s.eps = e) (hc : s.cached = c.map f) :
    (s.run f ops).eps = (lastFill s ops e c).1 ∧ (s.run f ops).cached = (lastFill s ops e c).2.map f := by
  have gen : ∀ (ops : List (CacheOp α)) (t : CacheState α β) (e : α) (c : Option α), t.eps = e →
      t.cached = c.map f → (t.run f ops).eps = (lastFill s ops e c).1 ∧
        (t.run f ops).cached = (lastFill s ops e c).2.map f := by
    intro ops
    induction ops with
    | nil => intro t e c h hc; exact ⟨h, hc⟩
    | cons op ops ih =>
      intro t e c h hc
      cases op with
      | set a => exact ih _ a c rfl hc
      | evict => exact ih _ e none h rfl
      | read =>
        cases c with
        | none =>
          simp only [Option.map_none] at hc
          refine ih _ e (some e) ?_ ?_ <;> simp [CacheState.step, hc, h]
        | some x =>
          simp only [Option.map_some] at hc
          refine ih _ e (some x) ?_ ?_ <;> simp [CacheState.step, hc, h]
  exact gen ops s e c h hc

/-- C61 (partial): on a fresh grid, if `eps` is never changed after `eps_t` was read (changes first,
then any reads and evictions), every read returns the average of the current permittivity. Missing:
changes after a read, for which the claim is false (`C61_stale_counterexample`). -/
theorem C61_eps_t_partial {α β : Type} (f : α → β) (e0 : α) (sets : List α) (rest : List (CacheOp α))
    (hrest : ∀ op ∈ rest, op = .read ∨ op = .evict) :
    ((CacheState.run f ⟨e0, none⟩ (sets.map .set ++ rest)).step f .read).2 =
      some (f (sets.getLastD e0)) := by
  have h1 : ∀ (sets : List α) (e : α), CacheState.run f (⟨e, none⟩ : CacheState α β) (sets.map .set) =
      ⟨sets.getLastD e, none⟩ := by
    intro sets
    induction sets with
    | nil => intro e; rfl
    | cons a sets ih =>
      intro e
      have h := ih a
      have h' : CacheState.run f (⟨e, none⟩ : CacheState α β) ((a :: sets).map .set) =
          CacheState.run f (⟨a, none⟩ : CacheState α β) (sets.map .set) := rfl
      rw [h', h]
      cases sets <;> rfl
  have h2 : ∀ (rest : List (CacheOp α)) (s : CacheState α β), (∀ op ∈ rest, op = .read ∨ op = .evict) →
      (s.cached = none ∨ s.cached = some (f s.eps)) →
      ((s.run f rest).eps = s.eps ∧ ((s.run f rest).cached = none ∨ (s.run f rest).cached = some (f s.eps))) := by
    intro rest
    induction rest with
    | nil => intro s _ h; exact ⟨rfl, h⟩
    | cons op rest ih =>
      intro s hr hs
      have hr' : ∀ op ∈ rest, op = .read ∨ op = .evict := fun o ho => hr o (by simp [ho])
      rcases hr op (by simp) with rfl | rfl
      · rcases hs with hs | hs
        · have := ih ((s.step f .read).1) hr' (by right; simp [CacheState.step, hs])
          simpa [CacheState.run, CacheState.step, hs] using this
        · have := ih ((s.step f .read).1) hr' (by right; simp [CacheState.step, hs])
          simpa [CacheState.run, CacheState.step, hs] using this
      · have := ih ((s.step f .evict).1) hr' (by left; simp [CacheState.step])
        simpa [CacheState.run, CacheState.step] using this
  have h3 : CacheState.run f (⟨e0, none⟩ : CacheState α β) (sets.map .set ++ rest) =
      CacheState.run f ⟨sets.getLastD e0, none⟩ rest := by
    have := h1 sets e0
    unfold CacheState.run at this ⊢
    rw [List.foldl_append, this]
  obtain ⟨g1, g2⟩ := h2 rest ⟨sets.getLastD e0, none⟩ hrest (Or.inl rfl)
  rw [h3]
  generalize sets.getLastD e0 = e at g1 g2 ⊢
  rcases g2 with g2 | g2
  · simp only [CacheState.step, g2, g1]
  · simp only [CacheState.step, g2]

/-- What `eps_t` really returns, for every history: the average of the permittivity at the last cache
fill (the first read after the last eviction). -/
theorem C61_returns_last_fill {α β : Type} (f : α → β) (e0 : α) (ops : List (CacheOp α)) :
    ((CacheState.run f (⟨e0, none⟩ : CacheState α β) ops).step f .read).2 =
      some (f ((lastFill (⟨e0, none⟩ : CacheState α β) ops e0 none).2.getD
        (lastFill (⟨e0, none⟩ : CacheState α β) ops e0 none).1)) := by
  obtain ⟨h1, h2⟩ := run_lastFill f ops ⟨e0, none⟩ e0 none rfl rfl
  rcases hf : (lastFill (⟨e0, none⟩ : CacheState α β) ops e0 none).2 with _ | x
  · rw [hf] at h2; simp [CacheState.step, h1, h2]
  · rw [hf] at h2; simp [CacheState.step, h2]

/-- C61 is false: read `eps_t`, change `eps`, read again: the second read returns the old value. For any
two permittivities with different averages. -/
theorem C61_stale_counterexample {α β : Type} (f : α → β) (a b : α) (h : f a ≠ f b) :
    ((CacheState.run f (⟨a, none⟩ : CacheState α β) [.read, .set b]).step f .read).2 ≠ some (f b) := by
  simpa [CacheState.run, CacheState.step] using h

end Simphox
