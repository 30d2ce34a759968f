import Verif.Lru
import Mathlib.Data.List.Induction
import Mathlib.Data.List.Perm.Subperm

/-! # C109: cached modes and the current permittivity -/

namespace Simphox

variable {E A R : Type} [DecidableEq A]

/-! ### Specification -/

/-- The permittivity of a grid after a history: its last assignment. -/
def epsAfter (eps0 : ℕ → E) (h : List (ModesOp E A)) (g : ℕ) : E :=
  h.foldl (fun e op => match op with
    | .setEps g' e' => if g' = g then e' else e
    | .call _ => e) (eps0 g)

/-- The keys a history calls. -/
def calledKeys (h : List (ModesOp E A)) : List (ModesKey A) :=
  h.filterMap fun op => match op with
    | .call k => some k
    | .setEps _ _ => none

/-! ### Invariants -/

theorem run_snoc (cap : ℕ) (solve : E → A → R) (eps0 : ℕ → E) (h : List (ModesOp E A)) (op : ModesOp E A) :
    modesRun cap solve eps0 (h ++ [op]) = (modesRun cap solve eps0 h).step cap solve op := by
  simp [modesRun]

theorem run_eps (cap : ℕ) (solve : E → A → R) (eps0 : ℕ → E) (h : List (ModesOp E A)) (g : ℕ) :
    (modesRun cap solve eps0 h).eps g = epsAfter eps0 h g := by
  induction h using List.reverseRecOn with
  | nil => rfl
  | append_singleton h op ih =>
    rw [run_snoc, epsAfter, List.foldl_append]
    change _ = (match op with
      | .setEps g' e' => if g' = g then e' else epsAfter eps0 h g
      | .call _ => epsAfter eps0 h g)
    cases op with
    | setEps g' e' =>
      simp only [ModesState.step, Function.update_apply, ih, eq_comm]
    | call k =>
      simp only [ModesState.step, lruCall, ← ih]
      split <;> rfl

/-- Every cached result was computed at an earlier call of its key, from the permittivity of that moment. -/
theorem run_cache (cap : ℕ) (solve : E → A → R) (eps0 : ℕ → E) (h : List (ModesOp E A)) (k : ModesKey A) (r : R)
    (hm : (k, r) ∈ (modesRun cap solve eps0 h).cache) :
    ∃ h1 h2, h = h1 ++ .call k :: h2 ∧ r = solve (epsAfter eps0 h1 k.grid) k.args := by
  induction h using List.reverseRecOn with
  | nil => simp [modesRun] at hm
  | append_singleton h op ih =>
    rw [run_snoc] at hm
    have old : (k, r) ∈ (modesRun cap solve eps0 h).cache → ∃ h1 h2, h ++ [op] = h1 ++ ModesOp.call k :: h2 ∧
        r = solve (epsAfter eps0 h1 k.grid) k.args := fun hm => by
      obtain ⟨h1, h2, e, er⟩ := ih hm
      exact ⟨h1, h2 ++ [op], by rw [e]; simp, er⟩
    cases op with
    | setEps g e => exact old hm
    | call k' =>
      simp only [ModesState.step, lruCall] at hm
      split at hm
      · rename_i p hp
        rcases List.mem_cons.1 hm with rfl | hm
        · exact old (List.mem_of_find?_eq_some hp)
        · exact old (List.mem_of_mem_filter hm)
      · rcases List.mem_cons.1 (List.mem_of_mem_take hm) with e | hm
        · simp only [Prod.mk.injEq] at e
          obtain ⟨rfl, rfl⟩ := e
          exact ⟨h, [], rfl, by rw [run_eps]⟩
        · exact old hm

/-- C109 (what does hold). After every history of calls and permittivity changes on any number of grids,
`grid.modes(args)` returns the modes for this grid and these arguments, for the permittivity the grid had
at this moment or at an earlier call with the same arguments: never another grid's and never another
argument's. -/
theorem C109_own_modes_partial (cap : ℕ) (solve : E → A → R) (eps0 : ℕ → E) (h : List (ModesOp E A))
    (k : ModesKey A) :
    modesResult cap solve eps0 h k = solve (epsAfter eps0 h k.grid) k.args ∨
      ∃ h1 h2, h = h1 ++ .call k :: h2 ∧ modesResult cap solve eps0 h k = solve (epsAfter eps0 h1 k.grid) k.args := by
  simp only [modesResult, lruCall]
  split
  · rename_i p hp
    have h1 := List.mem_of_find?_eq_some hp
    have h2 : p.1 = k := by simpa using List.find?_some hp
    obtain ⟨k', r⟩ := p
    simp only at h2
    subst h2
    exact .inr (run_cache cap solve eps0 h k' r h1)
  · exact .inl (by rw [run_eps])

/-- C109 (partial). If the permittivity of the grid is what it was at every earlier call with the same
arguments, the result is the current one. -/
theorem C109_unchanged_partial (cap : ℕ) (solve : E → A → R) (eps0 : ℕ → E) (h : List (ModesOp E A))
    (k : ModesKey A)
    (hk : ∀ h1 h2, h = h1 ++ .call k :: h2 → epsAfter eps0 h1 k.grid = epsAfter eps0 h k.grid) :
    modesResult cap solve eps0 h k = solve (epsAfter eps0 h k.grid) k.args := by
  rcases C109_own_modes_partial cap solve eps0 h k with e | ⟨h1, h2, e, er⟩
  · exact e
  · rw [er, hk h1 h2 e]

/-! ### Eviction -/

theorem run_keys_nodup (cap : ℕ) (solve : E → A → R) (eps0 : ℕ → E) (h : List (ModesOp E A)) :
    ((modesRun cap solve eps0 h).cache.map Prod.fst).Nodup ∧
      (modesRun cap solve eps0 h).cache.length ≤ cap := by
  induction h using List.reverseRecOn with
  | nil => simp [modesRun]
  | append_singleton h op ih =>
    rw [run_snoc]
    cases op with
    | setEps g e => exact ih
    | call k =>
      simp only [ModesState.step, lruCall]
      split
      · rename_i p hp
        have hpk : p.1 = k := by simpa using List.find?_some hp
        constructor
        · simp only [List.map_cons, List.nodup_cons]
          constructor
          · intro hmem
            obtain ⟨q, hq, e⟩ := List.mem_map.1 hmem
            have := (List.mem_filter.1 hq).2
            simp only [ne_eq, decide_not, Bool.not_eq_eq_eq_not, Bool.not_true, decide_eq_false_iff_not] at this
            exact this (e.trans hpk)
          · exact (ih.1.sublist ((List.filter_sublist).map _))
        · have hlt : ((modesRun cap solve eps0 h).cache.filter fun q => q.1 ≠ k).length <
              (modesRun cap solve eps0 h).cache.length := by
            refine List.length_filter_lt_length_iff_exists.2 ⟨p, List.mem_of_find?_eq_some hp, ?_⟩
            simp [hpk]
          simp only [List.length_cons]
          omega
      · rename_i hn
        have hk : k ∉ (modesRun cap solve eps0 h).cache.map Prod.fst := by
          intro hmem
          obtain ⟨q, hq, e⟩ := List.mem_map.1 hmem
          have := List.find?_eq_none.1 hn q hq
          simp [e] at this
        constructor
        · rw [List.map_take]
          refine List.Nodup.sublist (List.take_sublist _ _) ?_
          simp only [List.map_cons, List.nodup_cons]
          exact ⟨hk, ih.1⟩
        · simp

/-- The distinct keys a history calls, most recently called first. -/
def recent (h : List (ModesOp E A)) : List (ModesKey A) :=
  h.foldl (fun l op => match op with
    | .call k => k :: l.filter fun q => q ≠ k
    | .setEps _ _ => l) []

theorem recent_snoc_call (h : List (ModesOp E A)) (k : ModesKey A) :
    recent (h ++ [.call k]) = k :: (recent h).filter fun q => q ≠ k := by
  simp [recent]

theorem recent_snoc_set (h : List (ModesOp E A)) (g : ℕ) (e : E) : recent (h ++ [.setEps g e]) = recent h := by
  simp [recent]

theorem recent_nodup (h : List (ModesOp E A)) : (recent h).Nodup := by
  induction h using List.reverseRecOn with
  | nil => simp [recent]
  | append_singleton h op ih =>
    cases op with
    | setEps g e => rw [recent_snoc_set]; exact ih
    | call k =>
      rw [recent_snoc_call, List.nodup_cons]
      exact ⟨by simp, ih.filter _⟩

theorem take_filter_hit {K : Type} [DecidableEq K] (k : K) (l : List K) (cap : ℕ) (hl : l.Nodup) (hk : k ∈ l.take cap) :
    (l.take cap).filter (fun q => q ≠ k) = (l.filter fun q => q ≠ k).take (cap - 1) := by
  induction l generalizing cap with
  | nil => simp
  | cons a l ih =>
    obtain ⟨ha, hl⟩ := List.nodup_cons.1 hl
    cases cap with
    | zero => simp at hk
    | succ cap =>
      rw [List.take_succ_cons] at hk ⊢
      by_cases h : a = k
      · subst h
        have h1 : ∀ m, (m : List K).Sublist l → m.filter (fun q => q ≠ a) = m := by
          intro m hm
          rw [List.filter_eq_self]
          intro q hq
          simp only [ne_eq, decide_not, Bool.not_eq_eq_eq_not, Bool.not_true, decide_eq_false_iff_not]
          rintro rfl
          exact ha (hm.subset hq)
        rw [List.filter_cons_of_neg (by simp), List.filter_cons_of_neg (by simp), h1 _ (List.take_sublist _ _),
          h1 _ (List.Sublist.refl _)]
        simp
      · have hk' : k ∈ l.take cap := by
          rcases List.mem_cons.1 hk with e | e
          · exact absurd e.symm h
          · exact e
        rw [List.filter_cons_of_pos (by simpa using h), List.filter_cons_of_pos (by simpa using h), ih cap hl hk']
        cases cap with
        | zero => simp at hk'
        | succ cap => simp

theorem take_filter_miss {K : Type} [DecidableEq K] (k : K) (l : List K) (cap : ℕ) (hk : k ∉ l.take cap) :
    l.take cap = (l.filter fun q => q ≠ k).take cap := by
  induction l generalizing cap with
  | nil => simp
  | cons a l ih =>
    cases cap with
    | zero => simp
    | succ cap =>
      rw [List.take_succ_cons, List.mem_cons, not_or] at hk
      rw [List.filter_cons_of_pos (by simpa using Ne.symm hk.1), List.take_succ_cons, List.take_succ_cons, ih cap hk.2]

theorem run_keys (cap : ℕ) (hcap : 1 ≤ cap) (solve : E → A → R) (eps0 : ℕ → E) (h : List (ModesOp E A)) :
    (modesRun cap solve eps0 h).cache.map Prod.fst = (recent h).take cap := by
  induction h using List.reverseRecOn with
  | nil => simp [modesRun, recent]
  | append_singleton h op ih =>
    rw [run_snoc]
    cases op with
    | setEps g e => rw [recent_snoc_set]; exact ih
    | call k =>
      rw [recent_snoc_call]
      obtain ⟨c, rfl⟩ := Nat.exists_eq_add_of_le' hcap
      rw [List.take_succ_cons]
      simp only [ModesState.step, lruCall]
      split
      · rename_i p hp
        have hpk : p.1 = k := by simpa using List.find?_some hp
        have hin : k ∈ (recent h).take (c + 1) := by
          rw [← ih]; exact List.mem_map.2 ⟨p, List.mem_of_find?_eq_some hp, hpk⟩
        have := take_filter_hit k (recent h) (c + 1) (recent_nodup h) hin
        simp only [Nat.add_sub_cancel] at this
        rw [List.map_cons, hpk, ← this, ← ih, List.filter_map]
        rfl
      · rename_i hn
        have hin : k ∉ (recent h).take (c + 1) := by
          rw [← ih]
          intro hmem
          obtain ⟨q, hq, e⟩ := List.mem_map.1 hmem
          have := List.find?_eq_none.1 hn q hq
          simp [e] at this
        have hin' : k ∉ (recent h).take c := fun hm => hin (by
          have : (recent h).take c = ((recent h).take (c + 1)).take c := by simp [List.take_take]
          rw [this] at hm
          exact List.mem_of_mem_take hm)
        rw [List.take_succ_cons, List.map_cons, List.map_take, ih, List.take_take, Nat.min_eq_left (Nat.le_succ c),
          take_filter_miss k _ c hin']

omit [DecidableEq A] in
theorem calledKeys_snoc_call (h : List (ModesOp E A)) (k : ModesKey A) :
    calledKeys (h ++ [.call k]) = calledKeys h ++ [k] := by simp [calledKeys]

omit [DecidableEq A] in
theorem calledKeys_snoc_set (h : List (ModesOp E A)) (g : ℕ) (e : E) :
    calledKeys (h ++ [.setEps g e]) = calledKeys h := by simp [calledKeys]

theorem recent_split (h1 h2 : List (ModesOp E A)) (k : ModesKey A) (hk : k ∉ calledKeys h2) :
    ∃ pre post, recent (h1 ++ .call k :: h2) = pre ++ k :: post ∧ ∀ x, x ∈ pre ↔ x ∈ calledKeys h2 := by
  induction h2 using List.reverseRecOn with
  | nil => exact ⟨[], _, recent_snoc_call h1 k, by simp [calledKeys]⟩
  | append_singleton h2 op ih =>
    rw [show h1 ++ ModesOp.call k :: (h2 ++ [op]) = (h1 ++ .call k :: h2) ++ [op] by simp]
    cases op with
    | setEps g e =>
      rw [calledKeys_snoc_set] at hk ⊢
      rw [recent_snoc_set]
      exact ih hk
    | call k' =>
      rw [calledKeys_snoc_call, List.mem_append, not_or, List.mem_singleton] at hk
      obtain ⟨pre, post, e, hx⟩ := ih hk.1
      refine ⟨k' :: pre.filter (fun q => q ≠ k'), post.filter (fun q => q ≠ k'), ?_, ?_⟩
      · rw [recent_snoc_call, e, List.filter_append, List.filter_cons_of_pos (by simpa using hk.2)]
        rfl
      · intro x
        rw [calledKeys_snoc_call]
        simp only [List.mem_cons, List.mem_filter, ne_eq, decide_not, Bool.not_eq_eq_eq_not, Bool.not_true,
          decide_eq_false_iff_not, List.mem_append, hx, List.not_mem_nil, or_false]
        by_cases hxk : x = k' <;> simp [hxk]

theorem pre_length {l : List (ModesKey A)} (pre post : List (ModesKey A)) (k : ModesKey A) (hn : (pre ++ k :: post).Nodup)
    (hx : ∀ x, x ∈ pre ↔ x ∈ l) : pre.length = l.dedup.length :=
  ((List.perm_ext_iff_of_nodup (List.nodup_append.1 hn).1 (List.nodup_dedup l)).2
    fun x => by rw [hx, List.mem_dedup]).length_eq

/-- C109. A result stays in the cache until 128 (`cap`) other calls, counted without repetition, have been
made since; after that, `modes` computes from the current permittivity. -/
theorem C109_evicted_partial (cap : ℕ) (hcap : 1 ≤ cap) (solve : E → A → R) (eps0 : ℕ → E)
    (h1 h2 : List (ModesOp E A)) (k : ModesKey A) (hk : k ∉ calledKeys h2)
    (hc : cap ≤ (calledKeys h2).dedup.length) :
    modesResult cap solve eps0 (h1 ++ .call k :: h2) k =
      solve (epsAfter eps0 (h1 ++ .call k :: h2) k.grid) k.args := by
  obtain ⟨pre, post, e, hx⟩ := recent_split h1 h2 k hk
  have hn := recent_nodup (h1 ++ .call k :: h2)
  rw [e] at hn
  have hl := pre_length pre post k hn hx
  have hnot : k ∉ (modesRun cap solve eps0 (h1 ++ .call k :: h2)).cache.map Prod.fst := by
    rw [run_keys cap hcap, e, List.take_append_of_le_length (by omega)]
    intro hm
    exact hk ((hx k).1 (List.mem_of_mem_take hm))
  simp only [modesResult, lruCall]
  split
  · rename_i p hp
    have hpk : p.1 = k := by simpa using List.find?_some hp
    exact absurd (List.mem_map.2 ⟨p, List.mem_of_find?_eq_some hp, hpk⟩) hnot
  · rw [run_eps]

theorem call_cached (cap : ℕ) (hcap : 1 ≤ cap) (solve : E → A → R) (eps0 : ℕ → E)
    (h1 h2 : List (ModesOp E A)) (k : ModesKey A) (hk : k ∉ calledKeys h2)
    (hc : (calledKeys h2).dedup.length < cap) :
    (k, modesResult cap solve eps0 h1 k) ∈ (modesRun cap solve eps0 (h1 ++ .call k :: h2)).cache := by
  induction h2 using List.reverseRecOn with
  | nil =>
    rw [run_snoc]
    simp only [ModesState.step, modesResult, lruCall]
    split
    · rename_i p hp
      have hpk : p.1 = k := by simpa using List.find?_some hp
      simp [← hpk]
    · obtain ⟨c, rfl⟩ := Nat.exists_eq_add_of_le' hcap
      simp
  | append_singleton h2 op ih =>
    rw [show h1 ++ ModesOp.call k :: (h2 ++ [op]) = (h1 ++ .call k :: h2) ++ [op] by simp]
    have hkeys := run_keys cap hcap solve eps0 ((h1 ++ .call k :: h2) ++ [op])
    obtain ⟨pre, post, e, hx⟩ := recent_split h1 (h2 ++ [op]) k hk
    have hn := recent_nodup (h1 ++ .call k :: (h2 ++ [op]))
    rw [e] at hn
    have hl := pre_length pre post k hn hx
    rw [show h1 ++ ModesOp.call k :: (h2 ++ [op]) = (h1 ++ .call k :: h2) ++ [op] by simp] at e
    have hin : k ∈ (modesRun cap solve eps0 ((h1 ++ .call k :: h2) ++ [op])).cache.map Prod.fst := by
      rw [hkeys, e, List.take_append, List.mem_append]
      right
      rw [show cap - pre.length = (cap - pre.length - 1) + 1 by omega, List.take_succ_cons]
      exact List.mem_cons_self
    rw [run_snoc] at hin ⊢
    cases op with
    | setEps g e =>
      rw [calledKeys_snoc_set] at hk hc
      exact ih hk hc
    | call k' =>
      rw [calledKeys_snoc_call] at hk hc
      have hk1 : k ∉ calledKeys h2 := fun hm => hk (List.mem_append_left _ hm)
      have hk2 : k ≠ k' := fun e => hk (by simp [e])
      have hc1 : (calledKeys h2).dedup.length < cap := by
        refine lt_of_le_of_lt ?_ hc
        exact (List.subperm_of_subset (List.nodup_dedup _) fun x hx => by
          rw [List.mem_dedup] at hx ⊢; exact List.mem_append_left _ hx).length_le
      have hold := ih hk1 hc1
      have hnd := (run_keys_nodup cap solve eps0 (h1 ++ .call k :: h2)).1
      simp only [ModesState.step, lruCall] at hin ⊢
      split at hin
      · rename_i p hp
        refine List.mem_cons_of_mem _ (List.mem_filter.2 ⟨hold, by simpa using hk2⟩)
      · rename_i hp
        obtain ⟨q, hq, hqk⟩ := List.mem_map.1 hin
        rcases List.mem_cons.1 (List.mem_of_mem_take hq) with e | hq'
        · rw [e] at hqk; exact absurd hqk.symm hk2
        · have : q = (k, modesResult cap solve eps0 h1 k) :=
            List.inj_on_of_nodup_map hnd hq' hold hqk
          rw [← this]; exact hq

/-- **C109, violated**: as long as fewer than 128 (`cap`) other calls, counted without repetition, come in
between, `modes` with the same arguments repeats the earlier answer, whatever happened to the permittivity. -/
theorem C109_stale_counterexample (cap : ℕ) (hcap : 1 ≤ cap) (solve : E → A → R) (eps0 : ℕ → E)
    (h1 h2 : List (ModesOp E A)) (k : ModesKey A) (hk : k ∉ calledKeys h2)
    (hc : (calledKeys h2).dedup.length < cap) :
    modesResult cap solve eps0 (h1 ++ .call k :: h2) k = modesResult cap solve eps0 h1 k := by
  have hin := call_cached cap hcap solve eps0 h1 h2 k hk hc
  have hnd := (run_keys_nodup cap solve eps0 (h1 ++ .call k :: h2)).1
  conv_lhs => rw [modesResult]
  simp only [lruCall]
  split
  · rename_i p hp
    have hpk : p.1 = k := by simpa using List.find?_some hp
    have := List.inj_on_of_nodup_map hnd (List.mem_of_find?_eq_some hp) hin hpk
    rw [this]
  · rename_i hn
    have := List.find?_eq_none.1 hn _ hin
    simp at this

/-- In particular: solve, change the permittivity of the grid, solve again: the old modes come back. -/
theorem C109_set_eps_counterexample (cap : ℕ) (hcap : 1 ≤ cap) (solve : E → A → R) (eps0 : ℕ → E) (k : ModesKey A)
    (e : E) (hne : solve (eps0 k.grid) k.args ≠ solve e k.args) :
    let h := [.call k, .setEps k.grid e]
    modesResult cap solve eps0 h k = solve (eps0 k.grid) k.args ∧
      modesResult cap solve eps0 h k ≠ solve (epsAfter eps0 h k.grid) k.args := by
  intro h
  have h1 := C109_stale_counterexample cap hcap solve eps0 [] [.setEps k.grid e] k (by simp [calledKeys])
    (by simp [calledKeys]; omega)
  have h2 : modesResult cap solve eps0 [] k = solve (eps0 k.grid) k.args := by simp [modesResult, lruCall, modesRun]
  simp only [List.nil_append] at h1
  refine ⟨h1.trans h2, ?_⟩
  rw [show modesResult cap solve eps0 h k = _ from h1.trans h2]
  simpa [h, epsAfter] using hne

/-- Non-vacuity: the hypotheses of the eviction theorem are met with `cap = 1` and one other call. -/
example : modesResult 1 (fun (e a : ℕ) => e + a) (fun _ => 0)
    ([] ++ .call ⟨0, 5⟩ :: [.setEps 0 7, .call ⟨1, 5⟩]) ⟨0, 5⟩ = 12 := by
  rw [C109_evicted_partial 1 le_rfl _ _ _ _ _ (by simp [calledKeys]) (by simp [calledKeys])]
  rfl

example : modesResult 128 (fun (e a : ℕ) => e + a) (fun _ => 0) [.call ⟨0, 5⟩, .setEps 0 7, .call ⟨1, 5⟩] ⟨0, 5⟩ = 5 := by
  decide +kernel

end Simphox
