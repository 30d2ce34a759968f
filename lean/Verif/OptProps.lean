import Mathlib.Data.List.FinRange
import Mathlib.Tactic.NormNum
import Mathlib.Tactic.Linarith
import Verif.Opt

/-!
# Properties of optimisation runs: C69, C70, C93
-/

namespace Simphox

section

variable {P D E M S : Type}

/-- Specification: the optimiser state before update `k`. -/
noncomputable def optSeq (grad : (P → ℝ) → P → P) (optim : Optimizer P S) (problems : List (OptProblem P D E M)) (init : P) : ℕ → S
  | 0 => optim.init init
  | k + 1 => optim.update k (grad (meanCost problems) (optim.params (optSeq grad optim problems init k)))
      (optSeq grad optim problems init k)

/-- The name of the simulation of a problem. -/
def OptProblem.simName (op : OptProblem P D E M) : String := (op.sim.map Prod.snd).getD ""

/-- The identity of the simulation of a problem. -/
def OptProblem.simId (op : OptProblem P D E M) : ℕ := (op.sim.map Prod.fst).getD 0

/-- The last problem of the list that uses simulation `id`. -/
def lastUser (problems : List (OptProblem P D E M)) (id : ℕ) : Option (OptProblem P D E M) :=
  problems.reverse.find? fun op => op.simId = id

theorem updateEps_ok (rho : P) (problems : List (OptProblem P D E M)) (h : ∀ op ∈ problems, op.sim.isSome)
    (heap : ℕ → Option E) :
    ∃ heap', updateEps rho problems heap = .ok heap' ∧
      ∀ id, heap' id = ((lastUser problems id).map fun op => op.transform rho).or (heap id) := by
  induction problems generalizing heap with
  | nil => exact ⟨heap, rfl, fun id => by simp [lastUser]⟩
  | cons op ops ih =>
    obtain ⟨s, hs⟩ := Option.isSome_iff_exists.1 (h op List.mem_cons_self)
    obtain ⟨h', h1, h2⟩ := ih (fun o ho => h o (List.mem_cons_of_mem _ ho)) (Function.update heap s.1 (some (op.transform rho)))
    refine ⟨h', by simp only [updateEps, hs]; exact h1, fun id => ?_⟩
    rw [h2 id]
    have hid : op.simId = s.1 := by simp [OptProblem.simId, hs]
    unfold lastUser
    rw [List.reverse_cons, List.find?_append]
    cases hf : ops.reverse.find? fun o => o.simId = id with
    | some o => simp
    | none =>
      by_cases he : id = s.1
      · subst he; simp [hid]
      · rw [Function.update_of_ne he]
        simp [hid, Ne.symm he]

theorem updateEps_error (rho : P) (problems : List (OptProblem P D E M)) (h : ∃ op ∈ problems, op.sim = none)
    (heap : ℕ → Option E) : updateEps rho problems heap = .error .attributeError := by
  induction problems generalizing heap with
  | nil => obtain ⟨_, h, _⟩ := h; cases h
  | cons op ops ih =>
    cases hs : op.sim with
    | none => simp only [updateEps, hs]
    | some s =>
      simp only [updateEps, hs]
      obtain ⟨o, ho, hn⟩ := h
      rcases List.mem_cons.1 ho with rfl | ho
      · rw [hs] at hn; cases hn
      · exact ih ⟨o, ho, hn⟩ _

theorem lastUser_isSome (problems : List (OptProblem P D E M)) (op : OptProblem P D E M) (h : op ∈ problems) :
    ∃ o, lastUser problems op.simId = some o ∧ o ∈ problems ∧ o.simId = op.simId := by
  have : (lastUser problems op.simId).isSome := by
    unfold lastUser
    rw [List.find?_isSome]
    exact ⟨op, List.mem_reverse.2 h, by simp⟩
  obtain ⟨o, ho⟩ := Option.isSome_iff_exists.1 this
  refine ⟨o, ho, ?_, ?_⟩
  · exact List.mem_reverse.1 (List.mem_of_find?_eq_some ho)
  · have := List.find?_some ho; simpa using this

/-- What one iteration appends to the metrics. -/
def metricEntries (l : List (OptProblem P D E M × D)) : List (String × M) :=
  l.filterMap fun x => x.1.metrics.map fun f => (x.1.simName, f x.2)

/-- Whenever the inner loop succeeds, this is what it did. -/
theorem recordAll_sound (cfg : OptConfig) (i : ℕ) (l : List (OptProblem P D E M × D)) (st st' : OptState P D E M S)
    (h : recordAll cfg i l st = .ok st') :
    st'.opt = st.opt ∧ st'.costs = st.costs ∧ st'.heap = st.heap ∧
    st'.metrics = st.metrics ++ (if due cfg.metricInterval i && cfg.viz then metricEntries l else []) ∧
    st'.eps = st.eps ++ (if due cfg.epsInterval i then
      l.filterMap fun x => (st.heap x.1.simId).map fun e => (x.1.simName, i, e) else []) ∧
    st'.fields = st.fields ++ (if due cfg.fieldInterval i then l.map fun x => (x.1.simName, i, x.2) else []) := by
  induction l generalizing st with
  | nil =>
    simp only [recordAll, Except.ok.injEq] at h
    subst h
    simp [metricEntries]
  | cons x l ih =>
    obtain ⟨sop, d⟩ := x
    simp only [recordAll] at h
    cases hr : recordOne cfg i sop d st with
    | error e => rw [hr] at h; cases h
    | ok st1 =>
      rw [hr] at h
      obtain ⟨i1, i2, i3, i4, i5, i6⟩ := ih st1 h
      unfold recordOne at hr
      cases hs : sop.sim with
      | none => simp [hs] at hr
      | some s =>
        obtain ⟨sid, name⟩ := s
        simp only [hs] at hr
        cases hm : recordMetrics cfg i name sop.metrics d st.metrics with
        | error e => simp [hm] at hr
        | ok ms =>
          simp only [hm] at hr
          cases hh : st.heap sid with
          | none => simp [hh] at hr
          | some e =>
            simp only [hh, Except.ok.injEq] at hr
            have hname : sop.simName = name := by simp [OptProblem.simName, hs]
            have hsid : sop.simId = sid := by simp [OptProblem.simId, hs]
            subst hr
            refine ⟨i1, i2, i3, ?_, ?_, ?_⟩
            · rw [i4]
              unfold recordMetrics at hm
              by_cases hd : (due cfg.metricInterval i && cfg.viz) = true
              · rw [if_pos hd] at hm
                cases hf : sop.metrics with
                | none => rw [hf] at hm; cases hm
                | some f =>
                  rw [hf] at hm
                  simp only at hm
                  split at hm
                  · cases hm
                  · simp only [Except.ok.injEq] at hm
                    subst hm
                    simp [metricEntries, hd, hf, hname]
              · rw [if_neg hd] at hm
                simp only [Except.ok.injEq] at hm
                subst hm
                simp [hd]
            · rw [i5]
              by_cases hd : due cfg.epsInterval i = true
              · simp [hd, hsid, hh, hname]
              · simp [hd]
            · rw [i6]
              by_cases hd : due cfg.fieldInterval i = true
              · simp [hd, hname]
              · simp [hd]

/-- Conditions under which the inner loop succeeds. -/
theorem recordAll_ok (cfg : OptConfig) (i : ℕ) (l : List (OptProblem P D E M × D)) (st : OptState P D E M S)
    (hsim : ∀ x ∈ l, x.1.sim.isSome) (hheap : ∀ x ∈ l, (st.heap x.1.simId).isSome)
    (hmet : 0 < cfg.metricInterval → ∀ x ∈ l, x.1.metrics.isSome)
    (hnames : (l.map fun x => x.1.simName).Nodup)
    (hcount : due cfg.metricInterval i = true → ∀ x ∈ l, (st.metrics.filter fun e => e.1 = x.1.simName).length = i) :
    ∃ st', recordAll cfg i l st = .ok st' := by
  induction l generalizing st with
  | nil => exact ⟨st, rfl⟩
  | cons x l ih =>
    obtain ⟨sop, d⟩ := x
    have hx := List.mem_cons_self (a := (sop, d)) (l := l)
    obtain ⟨s, hs⟩ := Option.isSome_iff_exists.1 (hsim _ hx)
    obtain ⟨e, he⟩ := Option.isSome_iff_exists.1 (hheap _ hx)
    obtain ⟨sid, name⟩ := s
    change sop.sim = _ at hs
    have hname : sop.simName = name := by simp [OptProblem.simName, hs]
    have hsid : sop.simId = sid := by simp [OptProblem.simId, hs]
    change st.heap sop.simId = _ at he
    rw [hsid] at he
    rw [List.map_cons, List.nodup_cons] at hnames
    have hm : ∃ ms, recordMetrics cfg i name sop.metrics d st.metrics = .ok ms ∧
        (due cfg.metricInterval i = true → ∀ y ∈ l, (ms.filter fun e => e.1 = y.1.simName).length = i) := by
      unfold recordMetrics
      by_cases hd : (due cfg.metricInterval i && cfg.viz) = true
      · rw [if_pos hd]
        rw [Bool.and_eq_true] at hd
        have hpos : 0 < cfg.metricInterval := by
          have := hd.1; unfold due at this
          rw [Bool.and_eq_true] at this
          simpa using this.1
        obtain ⟨f, hf⟩ := Option.isSome_iff_exists.1 (hmet hpos _ hx)
        change sop.metrics = _ at hf
        rw [hf]
        have hc := hcount hd.1 _ hx
        change (st.metrics.filter fun e => e.1 = sop.simName).length = i at hc
        rw [hname] at hc
        refine ⟨st.metrics ++ [(name, f d)], ?_, fun _ y hy => ?_⟩
        · simp only [List.filter_append, List.length_append, hc]
          simp
        · rw [List.filter_append, List.length_append, hcount hd.1 y (List.mem_cons_of_mem _ hy)]
          have : name ≠ y.1.simName := fun h => hnames.1 (by
            change sop.simName ∈ _
            rw [hname, h]
            exact List.mem_map.2 ⟨y, hy, rfl⟩)
          simp [this]
      · rw [if_neg hd]
        exact ⟨_, rfl, fun h y hy => hcount h y (List.mem_cons_of_mem _ hy)⟩
    obtain ⟨ms, hm1, hm2⟩ := hm
    have hone : recordOne cfg i sop d st = .ok { st with
          metrics := ms
          eps := if due cfg.epsInterval i then st.eps ++ [(name, i, e)] else st.eps
          fields := if due cfg.fieldInterval i then st.fields ++ [(name, i, d)] else st.fields } := by
      unfold recordOne
      simp only [hs, hm1, he]
    obtain ⟨st', h'⟩ := ih { st with
          metrics := ms
          eps := if due cfg.epsInterval i then st.eps ++ [(name, i, e)] else st.eps
          fields := if due cfg.fieldInterval i then st.fields ++ [(name, i, d)] else st.fields } (fun y hy => hsim y (List.mem_cons_of_mem _ hy))
      (fun y hy => hheap y (List.mem_cons_of_mem _ hy)) (fun hp y hy => hmet hp y (List.mem_cons_of_mem _ hy))
      hnames.2 hm2
    refine ⟨st', ?_⟩
    simp only [recordAll, hone]
    exact h'

/-- The zipped list of an iteration with parameters `rho`. -/
def zipped (problems : List (OptProblem P D E M)) (rho : P) : List (OptProblem P D E M × D) :=
  (simProblems problems).zip (problems.map fun op => op.aux rho)

theorem zipped_fst (problems : List (OptProblem P D E M)) (rho : P) :
    (zipped problems rho).map Prod.fst = simProblems problems := by
  unfold zipped
  rw [List.map_fst_zip]
  rw [List.length_map]
  exact List.length_filter_le _ _

theorem mem_zipped {problems : List (OptProblem P D E M)} {rho : P} {x : OptProblem P D E M × D}
    (h : x ∈ zipped problems rho) : x.1 ∈ problems ∧ x.1.sim.isSome := by
  have : x.1 ∈ simProblems problems := by rw [← zipped_fst problems rho]; exact List.mem_map_of_mem h
  unfold simProblems at this
  rw [List.mem_filter, Bool.and_eq_true] at this
  exact ⟨this.1, this.2.1⟩

/-- What a successful loop has done, from iteration `i` on. -/
theorem optLoop_sound (cfg : OptConfig) (grad : (P → ℝ) → P → P) (optim : Optimizer P S)
    (problems : List (OptProblem P D E M)) (init : P) (k i : ℕ) (st st' : OptState P D E M S)
    (hopt : st.opt = optSeq grad optim problems init i)
    (h : optLoop cfg grad optim problems i k st = .ok st') :
    st'.opt = optSeq grad optim problems init (i + k) ∧
    st'.costs = st.costs ++ (List.range' i k).map (fun j => meanCost problems (optim.params (optSeq grad optim problems init j))) ∧
    st'.metrics = st.metrics ++ (List.range' i k).flatMap (fun j =>
      if due cfg.metricInterval j && cfg.viz then
        metricEntries (zipped problems (optim.params (optSeq grad optim problems init j))) else []) ∧
    st'.fields = st.fields ++ (List.range' i k).flatMap (fun j => if due cfg.fieldInterval j then
      (zipped problems (optim.params (optSeq grad optim problems init j))).map fun x => (x.1.simName, j, x.2) else []) ∧
    st'.eps = st.eps ++ (List.range' i k).flatMap (fun j => if due cfg.epsInterval j then
      (simProblems problems).filterMap fun op => (lastUser problems op.simId).map fun o =>
        (op.simName, j, o.transform (optim.params (optSeq grad optim problems init (j + 1)))) else []) ∧
    (0 < k → ∀ op ∈ problems, op.sim.isSome) ∧ (0 < k → cfg.pbar = true) := by
  induction k generalizing i st with
  | zero =>
    simp only [optLoop, Except.ok.injEq] at h
    subst h
    simp [hopt]
  | succ k ih =>
    simp only [optLoop] at h
    cases hi : optIter cfg grad optim problems i st with
    | error e => rw [hi] at h; cases h
    | ok st1 =>
      rw [hi] at h
      simp only at h
      unfold optIter at hi
      simp only at hi
      have hsim : ∀ op ∈ problems, op.sim.isSome := by
        by_contra hc
        push Not at hc
        obtain ⟨op, ho, hn⟩ := hc
        rw [updateEps_error _ _ ⟨op, ho, by simpa using hn⟩] at hi
        cases hi
      obtain ⟨heap', hu1, hu2⟩ := updateEps_ok (optim.params (optim.update i (grad (meanCost problems) (optim.params st.opt)) st.opt))
        problems hsim st.heap
      rw [hu1] at hi
      simp only at hi
      cases hr : recordAll cfg i ((simProblems problems).zip (problems.map fun op => op.aux (optim.params st.opt)))
          { st with opt := optim.update i (grad (meanCost problems) (optim.params st.opt)) st.opt, heap := heap' } with
      | error e => rw [hr] at hi; cases hi
      | ok st2 =>
        rw [hr] at hi
        simp only at hi
        by_cases hp : cfg.pbar = true
        · rw [if_pos hp] at hi
          simp only [Except.ok.injEq] at hi
          obtain ⟨r1, r2, r3, r4, r5, r6⟩ := recordAll_sound cfg i _ _ _ hr
          simp only at r1 r2 r3 r4 r5 r6
          have hopt1 : st1.opt = optSeq grad optim problems init (i + 1) := by
            rw [← hi]; simp only [r1, hopt, optSeq]
          obtain ⟨j1, j2, j3, j4, j5, -, -⟩ := ih (i + 1) st1 hopt1 h
          refine ⟨by rw [j1]; congr 1; omega, ?_, ?_, ?_, ?_, fun _ => hsim, fun _ => hp⟩
          · rw [j2, ← hi, List.range'_succ]
            simp only [r2, hopt, List.map_cons, List.append_assoc, List.singleton_append]
          · rw [j3, ← hi, List.range'_succ]
            simp only [r4, hopt, List.flatMap_cons, List.append_assoc]
            rfl
          · rw [j4, ← hi, List.range'_succ]
            simp only [r6, hopt, List.flatMap_cons, List.append_assoc]
            rfl
          · rw [j5, ← hi, List.range'_succ]
            simp only [r5, List.flatMap_cons, List.append_assoc]
            congr 2
            by_cases hd : due cfg.epsInterval i = true
            · rw [if_pos hd, if_pos hd]
              have hz := zipped_fst problems (optim.params st.opt)
              conv_rhs => rw [← hz]
              rw [List.filterMap_map]
              refine List.filterMap_congr fun x hx => ?_
              have hx' : x ∈ zipped problems (optim.params st.opt) := hx
              obtain ⟨o, ho, -, -⟩ := lastUser_isSome problems x.1 (mem_zipped hx').1
              simp only [Function.comp, hu2, ho, Option.map_some, Option.some_or, optSeq, hopt]
            · rw [if_neg hd, if_neg hd]
        · rw [if_neg hp] at hi; cases hi

/-- The conditions under which a run is well configured. -/
structure OptConfig.Good (cfg : OptConfig) (problems : List (OptProblem P D E M)) : Prop where
  pbar : cfg.pbar = true
  viz : cfg.viz = true
  sims : ∀ op ∈ problems, op.sim.isSome
  names : ((simProblems problems).map OptProblem.simName).Nodup
  interval : cfg.metricInterval ≤ 1
  metrics : 0 < cfg.metricInterval → ∀ op ∈ simProblems problems, op.metrics.isSome

theorem filterMap_names (problems : List (OptProblem P D E M)) :
    ((simProblems problems).filterMap fun op => op.sim.map Prod.snd) = (simProblems problems).map OptProblem.simName := by
  rw [← List.filterMap_eq_map]
  refine List.filterMap_congr fun op hop => ?_
  unfold simProblems at hop
  rw [List.mem_filter, Bool.and_eq_true] at hop
  obtain ⟨s, hs⟩ := Option.isSome_iff_exists.1 hop.2.1
  simp [OptProblem.simName, hs]

theorem metricEntries_names (l : List (OptProblem P D E M × D)) (h : ∀ x ∈ l, x.1.metrics.isSome) :
    (metricEntries l).map Prod.fst = l.map fun x => x.1.simName := by
  induction l with
  | nil => rfl
  | cons x l ih =>
    obtain ⟨f, hf⟩ := Option.isSome_iff_exists.1 (h x List.mem_cons_self)
    unfold metricEntries at ih ⊢
    rw [List.filterMap_cons_some (by rw [hf]; rfl)]
    simp only [List.map_cons]
    rw [ih fun y hy => h y (List.mem_cons_of_mem _ hy)]

theorem count_names (l : List (String × M)) (name : String) :
    (l.filter fun e => e.1 = name).length = (l.map Prod.fst).count name := by
  rw [List.count, List.countP_map, List.countP_eq_length_filter]
  congr 1

theorem due_one (i : ℕ) : due 1 i = true := by simp [due, Nat.mod_one]
theorem due_zero (i : ℕ) : due 0 i = false := by simp [due]

/-- The history of a simulation grows by one entry per recorded iteration. -/
theorem count_iteration (problems : List (OptProblem P D E M)) (hn : ((simProblems problems).map OptProblem.simName).Nodup)
    (hm : ∀ op ∈ simProblems problems, op.metrics.isSome) (rho : P) (name : String)
    (hname : name ∈ (simProblems problems).map OptProblem.simName) :
    ((metricEntries (zipped problems rho)).filter fun e => e.1 = name).length = 1 := by
  have h1 : ∀ x ∈ zipped problems rho, x.1.metrics.isSome := fun x hx => hm _ (by
    rw [← zipped_fst problems rho]; exact List.mem_map_of_mem hx)
  rw [count_names, metricEntries_names _ h1]
  have h2 : ((zipped problems rho).map fun x => x.1.simName) = (simProblems problems).map OptProblem.simName := by
    rw [← zipped_fst problems rho, List.map_map]; rfl
  rw [h2]
  exact List.count_eq_one_of_mem hn hname

/-- A well configured loop succeeds. -/
theorem optLoop_ok (cfg : OptConfig) (grad : (P → ℝ) → P → P) (optim : Optimizer P S)
    (problems : List (OptProblem P D E M)) (hg : cfg.Good problems) (k i : ℕ) (st : OptState P D E M S)
    (hc : cfg.metricInterval = 1 → ∀ name ∈ (simProblems problems).map OptProblem.simName,
      (st.metrics.filter fun e => e.1 = name).length = i) :
    ∃ st', optLoop cfg grad optim problems i k st = .ok st' := by
  induction k generalizing i st with
  | zero => exact ⟨st, rfl⟩
  | succ k ih =>
    set rho := optim.params st.opt with hrho
    set opt' := optim.update i (grad (meanCost problems) rho) st.opt with hopt'
    obtain ⟨heap', hu1, hu2⟩ := updateEps_ok (optim.params opt') problems hg.sims st.heap
    have hmemz : ∀ x ∈ zipped problems rho, x.1 ∈ simProblems problems := fun x hx => by
      rw [← zipped_fst problems rho]; exact List.mem_map_of_mem hx
    have hdue : ∀ j, due cfg.metricInterval j = true → cfg.metricInterval = 1 := fun j hj => by
      rcases Nat.lt_or_ge 0 cfg.metricInterval with h | h
      · have := hg.interval; omega
      · have h0 : cfg.metricInterval = 0 := by omega
        rw [h0, due_zero] at hj; cases hj
    obtain ⟨st2, hr⟩ := recordAll_ok cfg i (zipped problems rho) { st with opt := opt', heap := heap' }
      (fun x hx => (mem_zipped hx).2)
      (fun x hx => by
        obtain ⟨o, ho, -, -⟩ := lastUser_isSome problems x.1 (mem_zipped hx).1
        simp [hu2, ho])
      (fun hp x hx => hg.metrics hp _ (hmemz x hx))
      (by
        have : ((zipped problems rho).map fun x => x.1.simName) = (simProblems problems).map OptProblem.simName := by
          rw [← zipped_fst problems rho, List.map_map]; rfl
        rw [this]; exact hg.names)
      (fun hd x hx => hc (hdue i hd) _ (List.mem_map_of_mem (hmemz x hx)))
    have hit : optIter cfg grad optim problems i st = .ok { st2 with costs := st2.costs ++ [meanCost problems rho] } := by
      unfold optIter
      simp only
      rw [← hrho, ← hopt', hu1]
      simp only
      rw [show (simProblems problems).zip (problems.map fun op => op.aux rho) = zipped problems rho from rfl, hr]
      simp only [hg.pbar, if_true]
    obtain ⟨-, -, -, r4, -, -⟩ := recordAll_sound cfg i _ _ _ hr
    obtain ⟨st', h'⟩ := ih (i + 1) { st2 with costs := st2.costs ++ [meanCost problems rho] } (fun h1 name hname => by
      simp only [r4, h1, due_one, hg.viz, Bool.and_self, if_true]
      rw [List.filter_append, List.length_append, hc h1 name hname,
        count_iteration problems hg.names (hg.metrics (by omega)) rho name hname])
    refine ⟨st', ?_⟩
    simp only [optLoop, hit]
    exact h'

/-- What a successful run returned. -/
theorem optRun_sound (cfg : OptConfig) (grad : (P → ℝ) → P → P) (optim : Optimizer P S)
    (problems : List (OptProblem P D E M)) (init : P) (n : ℕ) (heap : ℕ → Option E) (r : OptRecord P D E M)
    (h : optRun cfg grad optim problems init n heap = .ok r) :
    r.costs = (List.range n).map (fun j => meanCost problems (optim.params (optSeq grad optim problems init j))) ∧
    r.params = optim.params (optSeq grad optim problems init n) ∧
    r.metrics = (List.range n).flatMap (fun j => if due cfg.metricInterval j && cfg.viz then
        metricEntries (zipped problems (optim.params (optSeq grad optim problems init j))) else []) ∧
    r.fields = (List.range n).flatMap (fun j => if due cfg.fieldInterval j then
      (zipped problems (optim.params (optSeq grad optim problems init j))).map fun x => (x.1.simName, j, x.2) else []) ∧
    r.eps = (List.range n).flatMap (fun j => if due cfg.epsInterval j then
      (simProblems problems).filterMap fun op => (lastUser problems op.simId).map fun o =>
        (op.simName, j, o.transform (optim.params (optSeq grad optim problems init (j + 1)))) else []) ∧
    (∀ op ∈ problems, op.sim.isSome) ∧
    (∀ id, r.heap id = ((lastUser problems id).map fun op => op.transform r.params).or (r.heap id)) ∧
    cfg.viz = true ∧ (0 < n → cfg.pbar = true) ∧
    (cfg.metricInterval ≠ 0 → cfg.titles = true → ∀ name ∈ (simProblems problems).map OptProblem.simName,
      (r.metrics.filter fun e => e.1 = name).length = n) := by
  unfold optRun at h
  simp only at h
  split at h
  · cases h
  · cases hl : optLoop cfg grad optim problems 0 n ⟨optim.init init, [], [], [], [], heap⟩ with
    | error e => rw [hl] at h; cases h
    | ok st =>
      rw [hl] at h
      simp only at h
      obtain ⟨l1, l2, l3, l4, l5, l6, l7⟩ := optLoop_sound cfg grad optim problems init n 0
        ⟨optim.init init, [], [], [], [], heap⟩ st rfl hl
      have hsim : ∀ op ∈ problems, op.sim.isSome := by
        by_contra hc
        push Not at hc
        obtain ⟨op, ho, hn⟩ := hc
        rw [updateEps_error _ _ ⟨op, ho, by simpa using hn⟩] at h
        cases h
      obtain ⟨heap', hu1, hu2⟩ := updateEps_ok (optim.params st.opt) problems hsim st.heap
      rw [hu1] at h
      simp only at h
      split at h
      · cases h
      · rename_i hv
        split at h
        · cases h
        · rename_i hmm
          simp only [Except.ok.injEq] at h
          subst h
          rw [Nat.zero_add] at l1
          rw [← List.range_eq_range'] at l2 l3 l4 l5
          simp only [List.nil_append] at l2 l3 l4 l5
          refine ⟨l2, by rw [l1], l3, l4, l5, hsim, fun id => ?_, by simpa using hv, l7, fun h0 ht name hname => ?_⟩
          · simp only [hu2]
            cases lastUser problems id <;> simp
          · rw [filterMap_names] at hmm
            simp only [h0, ht, ne_eq, not_false_eq_true, decide_true, Bool.and_self, Bool.true_and,
              List.any_eq_true, Bool.not_eq_true', beq_eq_false_iff_ne, not_exists, not_and, not_not] at hmm
            exact hmm name hname

/-- **C69, partial** In a well configured run (a progress bar and a visualisation are given, every problem
has a simulation, distinct simulation names, metrics recorded every iteration or never) `opt_run` succeeds for every
number of iterations, every optimiser and gradient: exactly `n` costs, the `k`-th being the mean cost of
*all* problems at the parameters before update `k`; the returned parameters are those after `n` updates;
and every simulation ends with the permittivity of the last problem that uses it, at the final parameters.
(Partial: without progress bar, visualisation or simulation the run raises, see the counterexamples.) -/
theorem C69_run_partial (cfg : OptConfig) (grad : (P → ℝ) → P → P) (optim : Optimizer P S)
    (problems : List (OptProblem P D E M)) (hg : cfg.Good problems) (init : P) (n : ℕ) (heap : ℕ → Option E) :
    ∃ r, optRun cfg grad optim problems init n heap = .ok r ∧ r.costs.length = n ∧
      (∀ k (hk : k < r.costs.length), r.costs[k] =
        (problems.map fun op => op.cost (optim.params (optSeq grad optim problems init k))).sum / problems.length) ∧
      r.params = optim.params (optSeq grad optim problems init n) ∧
      ∀ op ∈ problems, (∀ o ∈ problems, o.simId = op.simId → o = op) →
        r.heap op.simId = some (op.transform (optim.params (optSeq grad optim problems init n))) := by
  have hloop := optLoop_ok cfg grad optim problems hg n 0 ⟨optim.init init, [], [], [], [], heap⟩ (fun _ _ _ => rfl)
  obtain ⟨st, hl⟩ := hloop
  obtain ⟨l1, l2, l3, l4, l5, -, -⟩ := optLoop_sound cfg grad optim problems init n 0
        ⟨optim.init init, [], [], [], [], heap⟩ st rfl hl
  obtain ⟨heap', hu1, hu2⟩ := updateEps_ok (optim.params st.opt) problems hg.sims st.heap
  have hcount : ∀ name ∈ (simProblems problems).map OptProblem.simName, cfg.metricInterval ≠ 0 →
      (st.metrics.filter fun e => e.1 = name).length = n := by
    intro name hname h0
    have h1 : cfg.metricInterval = 1 := by have := hg.interval; omega
    rw [l3, h1, hg.viz]
    simp only [due_one, Bool.and_self, if_true, List.nil_append]
    have : ∀ l : List ℕ, ((l.flatMap fun j => metricEntries (zipped problems (optim.params (optSeq grad optim problems init j)))).filter
        fun e => e.1 = name).length = l.length := by
      intro l
      induction l with
      | nil => rfl
      | cons a l ih =>
        rw [List.flatMap_cons, List.filter_append, List.length_append, ih,
          count_iteration problems hg.names (hg.metrics (by omega)) _ name hname, List.length_cons]
        omega
    rw [this, List.length_range']
  have hrun : optRun cfg grad optim problems init n heap =
      .ok ⟨st.costs, optim.params st.opt, st.metrics, st.eps, st.fields, heap'⟩ := by
    unfold optRun
    simp only
    rw [filterMap_names, hg.names.dedup, if_neg (by simp), hl]
    simp only
    rw [hu1]
    simp only
    rw [hg.viz, if_neg (by simp), if_neg]
    rw [Bool.and_eq_true, Bool.and_eq_true]
    rintro ⟨⟨h0, -⟩, h2⟩
    rw [List.any_eq_true] at h2
    obtain ⟨name, hname, hne⟩ := h2
    have := hcount name hname (by simpa using h0)
    simp [this] at hne
  obtain ⟨s1, s2, -, -, -, -, s7, -⟩ := optRun_sound cfg grad optim problems init n heap _ hrun
  refine ⟨_, hrun, ?_, ?_, s2, fun op hop huniq => ?_⟩
  · rw [s1]; simp
  · intro k hk
    have h1 : st.costs = (List.range n).map (fun j => meanCost problems (optim.params (optSeq grad optim problems init j))) := s1
    have h2 : st.costs[k]? = some (meanCost problems (optim.params (optSeq grad optim problems init k))) := by
      have hk' : k < n := by
        have : k < st.costs.length := hk
        rw [h1] at this; simpa using this
      rw [h1, List.getElem?_map, List.getElem?_range hk']
      rfl
    exact Option.some.inj ((List.getElem?_eq_getElem hk).symm.trans h2)
  · obtain ⟨o, ho, ho1, ho2⟩ := lastUser_isSome problems op hop
    have : o = op := huniq o ho1 ho2
    rw [s7, ho, Option.map_some, Option.some_or, this, s2]

/-- **C69, violated**: without a progress bar (the documented default) every run of at least one iteration
raises. -/
theorem C69_pbar_counterexample (cfg : OptConfig) (hp : cfg.pbar = false) (grad : (P → ℝ) → P → P) (optim : Optimizer P S)
    (problems : List (OptProblem P D E M)) (init : P) (n : ℕ) (hn : 0 < n) (heap : ℕ → Option E) :
    ∃ err, optRun cfg grad optim problems init n heap = .error err := by
  cases h : optRun cfg grad optim problems init n heap with
  | error e => exact ⟨e, rfl⟩
  | ok r =>
    have := (optRun_sound cfg grad optim problems init n heap r h).2.2.2.2.2.2.2.2.1 hn
    rw [hp] at this; cases this

/-- **C69, violated**: without a visualisation (the documented default) every run raises at the end, after
all iterations. -/
theorem C69_viz_counterexample (cfg : OptConfig) (hp : cfg.viz = false) (grad : (P → ℝ) → P → P) (optim : Optimizer P S)
    (problems : List (OptProblem P D E M)) (init : P) (n : ℕ) (heap : ℕ → Option E) :
    ∃ err, optRun cfg grad optim problems init n heap = .error err := by
  cases h : optRun cfg grad optim problems init n heap with
  | error e => exact ⟨e, rfl⟩
  | ok r =>
    have := (optRun_sound cfg grad optim problems init n heap r h).2.2.2.2.2.2.2.1
    rw [hp] at this; cases this

/-- **C69, violated**: a problem without a simulation (documented as allowed: "FDFD is not run if fdfd is
None") makes every run raise. -/
theorem C69_no_sim_counterexample (cfg : OptConfig) (grad : (P → ℝ) → P → P) (optim : Optimizer P S)
    (problems : List (OptProblem P D E M)) (hs : ∃ op ∈ problems, op.sim = none) (init : P) (n : ℕ) (heap : ℕ → Option E) :
    ∃ err, optRun cfg grad optim problems init n heap = .error err := by
  cases h : optRun cfg grad optim problems init n heap with
  | error e => exact ⟨e, rfl⟩
  | ok r =>
    obtain ⟨op, hop, hn⟩ := hs
    have := (optRun_sound cfg grad optim problems init n heap r h).2.2.2.2.2.1 op hop
    rw [hn] at this; cases this

/-- **C69, violated**: recording metrics only every `m >= 2` iterations raises for every run of at least
two iterations with a simulation problem (the iteration axis of the metrics always has one entry per
iteration). -/
theorem C69_interval_counterexample (cfg : OptConfig) (hm : 2 ≤ cfg.metricInterval) (ht : cfg.titles = true)
    (grad : (P → ℝ) → P → P) (optim : Optimizer P S)
    (problems : List (OptProblem P D E M)) (hne : simProblems problems ≠ [])
    (hmet : ∀ op ∈ simProblems problems, op.metrics.isSome)
    (hnames : ((simProblems problems).map OptProblem.simName).Nodup) (init : P) (n : ℕ) (hn : 2 ≤ n) (heap : ℕ → Option E) :
    ∃ err, optRun cfg grad optim problems init n heap = .error err := by
  cases h : optRun cfg grad optim problems init n heap with
  | error e => exact ⟨e, rfl⟩
  | ok r =>
    exfalso
    obtain ⟨-, -, s3, -, -, -, -, s8, -, s10⟩ := optRun_sound cfg grad optim problems init n heap r h
    obtain ⟨op, hop⟩ := List.exists_mem_of_ne_nil _ hne
    have hname : op.simName ∈ (simProblems problems).map OptProblem.simName := List.mem_map_of_mem hop
    have hc := s10 (by omega) ht _ hname
    rw [s3, s8] at hc
    have key : ∀ l : List ℕ, ((l.flatMap fun j => if due cfg.metricInterval j && true then
        metricEntries (zipped problems (optim.params (optSeq grad optim problems init j))) else []).filter
        fun e => e.1 = op.simName).length = (l.filter (due cfg.metricInterval)).length := by
      intro l
      induction l with
      | nil => rfl
      | cons a l ih =>
        rw [List.flatMap_cons, List.filter_append, List.length_append, ih]
        by_cases hd : due cfg.metricInterval a = true
        · rw [if_pos (by simp [hd]), count_iteration problems hnames hmet _ _ hname, List.filter_cons_of_pos hd,
            List.length_cons]
          omega
        · rw [if_neg (by simp [hd]), List.filter_cons_of_neg hd]
          simp
    rw [key] at hc
    have hlt : ((List.range n).filter (due cfg.metricInterval)).length < n := by
      have h1 : (List.range n).length = n := List.length_range
      rw [← h1]
      conv_lhs => rw [h1]
      refine (List.length_filter_lt_length_iff_exists).2 ⟨1, List.mem_range.2 (by omega), ?_⟩
      simp only [due, Nat.mod_eq_of_lt (show 1 < cfg.metricInterval by omega)]
      simp
    omega

/-! ### C70 -/

/-- **C70, partial** If every problem is a simulation problem with a source, every field and metric
recorded for iteration `j` under a simulation's name is computed from that problem's own auxiliary data
at the parameters of iteration `j`. -/
theorem C70_own_data_partial (cfg : OptConfig) (grad : (P → ℝ) → P → P) (optim : Optimizer P S)
    (problems : List (OptProblem P D E M)) (hs : ∀ op ∈ problems, op.sim.isSome ∧ op.hasSource = true)
    (init : P) (n : ℕ) (heap : ℕ → Option E) (r : OptRecord P D E M)
    (h : optRun cfg grad optim problems init n heap = .ok r) :
    r.fields = (List.range n).flatMap (fun j => if due cfg.fieldInterval j then
      problems.map fun op => (op.simName, j, op.aux (optim.params (optSeq grad optim problems init j))) else []) ∧
    r.metrics = (List.range n).flatMap (fun j => if due cfg.metricInterval j then
      problems.filterMap fun op => op.metrics.map fun f =>
        (op.simName, f (op.aux (optim.params (optSeq grad optim problems init j)))) else []) := by
  obtain ⟨-, -, s3, s4, -, -, -, s8, -⟩ := optRun_sound cfg grad optim problems init n heap r h
  have hsim : simProblems problems = problems := by
    unfold simProblems
    rw [List.filter_eq_self]
    intro op hop
    simp [hs op hop]
  have hz : ∀ rho, zipped problems rho = problems.map fun op => (op, op.aux rho) := by
    intro rho
    unfold zipped
    rw [hsim]
    induction problems with
    | nil => rfl
    | cons a l ih =>
      clear s3 s4 h ih hs hsim
      have : ∀ l : List (OptProblem P D E M), l.zip (l.map fun op => op.aux rho) = l.map fun op => (op, op.aux rho) := by
        intro l
        induction l with
        | nil => rfl
        | cons b l ih => simp only [List.map_cons, List.zip_cons_cons, ih]
      exact this _
  constructor
  · rw [s4]
    simp only [hz, List.map_map]
    rfl
  · rw [s3, s8]
    simp only [hz, metricEntries, List.filterMap_map, Bool.and_true]
    rfl

/-- **C70, violated**: a problem `a` with a simulation but no source before a simulation problem `b`: the
fields recorded under `b`'s name are the auxiliary data of `a`. -/
theorem C70_misaligned_counterexample (cfg : OptConfig) (hf : cfg.fieldInterval = 1) (grad : (P → ℝ) → P → P)
    (optim : Optimizer P S) (a b : OptProblem P D E M) (ha : a.hasSource = false) (hb : b.sim.isSome) (hb' : b.hasSource = true)
    (init : P) (n : ℕ) (heap : ℕ → Option E) (r : OptRecord P D E M)
    (h : optRun cfg grad optim [a, b] init n heap = .ok r) :
    r.fields = (List.range n).map fun j => (b.simName, j, a.aux (optim.params (optSeq grad optim [a, b] init j))) := by
  obtain ⟨-, -, -, s4, -⟩ := optRun_sound cfg grad optim [a, b] init n heap r h
  have hz : ∀ rho, zipped [a, b] rho = [(b, a.aux rho)] := fun rho => by
    simp [zipped, simProblems, ha, hb, hb']
  rw [s4, hf]
  simp only [due_one, if_true, hz, List.map_cons, List.map_nil]
  exact List.flatMap_pure_eq_map _ _

/-! ### C93 -/

/-- **C93, violated in every run**: the permittivity recorded for iteration `j` belongs to the parameters
*after* update `j`, while the cost, the fields and the metrics of iteration `j` belong to the parameters
before it. (For simulations used by one problem only.) -/
theorem C93_eps_shift_counterexample (cfg : OptConfig) (grad : (P → ℝ) → P → P) (optim : Optimizer P S)
    (problems : List (OptProblem P D E M)) (hu : ∀ o ∈ problems, ∀ op ∈ problems, o.simId = op.simId → o = op)
    (init : P) (n : ℕ) (heap : ℕ → Option E) (r : OptRecord P D E M)
    (h : optRun cfg grad optim problems init n heap = .ok r) :
    r.eps = (List.range n).flatMap (fun j => if due cfg.epsInterval j then
      (simProblems problems).map fun op =>
        (op.simName, j, op.transform (optim.params (optSeq grad optim problems init (j + 1)))) else []) := by
  obtain ⟨-, -, -, -, s5, -⟩ := optRun_sound cfg grad optim problems init n heap r h
  rw [s5]
  congr 1
  funext j
  congr 1
  rw [← List.filterMap_eq_map]
  refine List.filterMap_congr fun op hop => ?_
  have hm : op ∈ problems := List.mem_of_mem_filter hop
  obtain ⟨o, ho, ho1, ho2⟩ := lastUser_isSome problems op hm
  rw [ho, hu o ho1 op hm ho2]
  rfl

end

/-! A concrete configuration that meets the hypotheses, with a run of two iterations of plain gradient
descent on `x ↦ x`. -/

/-- A problem with cost `x`, data `x`, permittivity `x` and metric `x`. -/
noncomputable def demoProblem (id : ℕ) (name : String) (src : Bool) (scale : ℝ) : OptProblem ℝ ℝ ℝ ℝ :=
  ⟨some (id, name), src, fun x => scale * x, fun x => scale * x, fun x => scale * x, some fun x => x⟩

theorem demo_good : (OptConfig.Good ⟨true, true, true, 1, 1, 1⟩ [demoProblem 0 "a" true 1, demoProblem 1 "b" true 2]) where
  pbar := rfl
  viz := rfl
  sims := by intro op hop; fin_cases hop <;> rfl
  names := by decide
  interval := le_refl _
  metrics := by intro _ op hop; fin_cases hop <;> rfl

example : ∃ r, optRun ⟨true, true, true, 1, 1, 1⟩ (fun _ _ => 1) ⟨fun x => x, fun x => x, fun _ g x => x - g⟩
    [demoProblem 0 "a" true 1, demoProblem 1 "b" true 2] 4 2 (fun _ => none) = .ok r ∧ r.costs = [6, 9 / 2] ∧ r.params = 2 := by
  obtain ⟨r, h, -, -, h4, -⟩ := C69_run_partial _ (fun _ _ => (1 : ℝ)) ⟨fun x => x, fun x => x, fun _ g x => x - g⟩ _ demo_good 4 2 (fun _ => none)
  refine ⟨r, h, ?_, ?_⟩
  · rw [(optRun_sound _ _ _ _ _ _ _ _ h).1]
    simp [List.range_succ, meanCost, demoProblem, optSeq]
    norm_num
  · rw [h4]; simp [optSeq]; norm_num

end Simphox
