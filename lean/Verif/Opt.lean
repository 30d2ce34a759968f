import Mathlib.Data.Real.Basic
import Verif.Utils

/-!
# Model of `simphox/opt.py` (`OptProblem`, `opt_run`)

Parameters of the model: the JAX gradient (`grad`), the optimiser (`Optimizer`, Adam in the code), the
cost, auxiliary-output, transform and metric functions of every problem. `P` are design parameters, `D`
auxiliary data (s-parameters and fields), `E` permittivities, `M` metrics, `S` optimiser states. Simulation
objects have an identity (a number), because `opt_run` assigns to their `eps` attribute. Not modelled: the
plotting pipes, JIT compilation, array shapes of `eps` and `fields` in the returned `DataArray`s.
-/

namespace Simphox

/-- `OptProblem` (opt.py:28-64). `sim` is the identity and name of the simulation object. -/
structure OptProblem (P D E M : Type) where
  sim : Option (ℕ × String)
  hasSource : Bool
  cost : P → ℝ
  aux : P → D
  transform : P → E
  metrics : Option (D → M)

/-- `__post_init__` (opt.py:61-64): a source without a simulation raises `AttributeError`. -/
def OptProblem.construct {P D E M : Type} (op : OptProblem P D E M) : Except PyError (OptProblem P D E M) :=
  if op.hasSource && op.sim.isNone then .error .attributeError else .ok op

/-- `adam(step_size)` (opt.py:156): any stateful optimiser. -/
structure Optimizer (P S : Type) where
  init : P → S
  params : S → P
  update : ℕ → P → S → S

/-- The optional arguments of `opt_run` that matter here. `pbar`: a progress bar was given. `viz`: a
visualisation made by `opt_viz` was given; `titles` says whether its `metric_config` is nonempty. -/
structure OptConfig where
  pbar : Bool
  viz : Bool
  titles : Bool
  metricInterval : ℕ
  epsInterval : ℕ
  fieldInterval : ℕ

/-- The mutable state of the loop (opt.py:157, 192-193) and the `eps` attribute of every simulation. -/
structure OptState (P D E M S : Type) where
  opt : S
  costs : List ℝ
  metrics : List (String × M)
  eps : List (String × ℕ × E)
  fields : List (String × ℕ × D)
  heap : ℕ → Option E

/-- `OptRecord` (opt.py:97-117) plus the final `eps` attributes of the simulations. -/
structure OptRecord (P D E M : Type) where
  costs : List ℝ
  params : P
  metrics : List (String × M)
  eps : List (String × ℕ × E)
  fields : List (String × ℕ × D)
  heap : ℕ → Option E

section run

variable {P D E M S : Type}

/-- `overall_cost_fn(rho)[0]` (opt.py:174-176). -/
noncomputable def meanCost (problems : List (OptProblem P D E M)) (rho : P) : ℝ :=
  (problems.map fun op => op.cost rho).sum / problems.length

/-- `sim_opt_problems` (opt.py:164). -/
def simProblems (problems : List (OptProblem P D E M)) : List (OptProblem P D E M) :=
  problems.filter fun op => op.sim.isSome && op.hasSource

/-- `_update_eps(state)` (opt.py:184-187): assigns to `op.sim.eps` for every problem, `AttributeError` on
`None`. -/
def updateEps (rho : P) : List (OptProblem P D E M) → (ℕ → Option E) → Except PyError (ℕ → Option E)
  | [], heap => .ok heap
  | op :: ops, heap =>
    match op.sim with
    | none => .error .attributeError
    | some s => updateEps rho ops (Function.update heap s.1 (some (op.transform rho)))

/-- `i % interval == 0` guarded by `interval > 0`. -/
def due (interval i : ℕ) : Bool := decide (0 < interval) && decide (i % interval = 0)

/-- The metrics part of the inner loop (opt.py:210-227). The titled pipes build a `DataArray` whose
iteration axis has `i + 1` entries; other lengths of the recorded history raise `ValueError`. -/
def recordMetrics (cfg : OptConfig) (i : ℕ) (name : String) (f : Option (D → M)) (d : D)
    (hist : List (String × M)) : Except PyError (List (String × M)) :=
  if due cfg.metricInterval i && cfg.viz then
    match f with
    | none => .error .typeError
    | some f =>
      let hist' := hist ++ [(name, f d)]
      if cfg.titles && !((hist'.filter fun e => e.1 = name).length == i + 1) then .error .valueError
      else .ok hist'
  else .ok hist

/-- The body of `for sop, sparams_fields in zip(sim_opt_problems, data)` (opt.py:200-231). -/
def recordOne (cfg : OptConfig) (i : ℕ) (sop : OptProblem P D E M) (d : D) (st : OptState P D E M S) :
    Except PyError (OptState P D E M S) :=
  match sop.sim with
  | none => .error .attributeError
  | some (sid, name) =>
    match recordMetrics cfg i name sop.metrics d st.metrics with
    | .error e => .error e
    | .ok ms =>
      match st.heap sid with
      | none => .error .attributeError
      | some e => .ok { st with
          metrics := ms
          eps := if due cfg.epsInterval i then st.eps ++ [(name, i, e)] else st.eps
          fields := if due cfg.fieldInterval i then st.fields ++ [(name, i, d)] else st.fields }

/-- The whole inner loop over the zipped lists. -/
def recordAll (cfg : OptConfig) (i : ℕ) : List (OptProblem P D E M × D) → OptState P D E M S →
    Except PyError (OptState P D E M S)
  | [], st => .ok st
  | (sop, d) :: rest, st =>
    match recordOne cfg i sop d st with
    | .error e => .error e
    | .ok st' => recordAll cfg i rest st'

/-- One iteration (opt.py:196-235). `iterator.set_description` needs a progress bar: a plain `range` has no
such attribute. -/
noncomputable def optIter (cfg : OptConfig) (grad : (P → ℝ) → P → P) (optim : Optimizer P S)
    (problems : List (OptProblem P D E M)) (i : ℕ) (st : OptState P D E M S) : Except PyError (OptState P D E M S) :=
  let rho := optim.params st.opt
  let v := meanCost problems rho
  let opt' := optim.update i (grad (meanCost problems) rho) st.opt
  let data := problems.map fun op => op.aux rho
  match updateEps (optim.params opt') problems st.heap with
  | .error e => .error e
  | .ok heap' =>
    match recordAll cfg i ((simProblems problems).zip data) { st with opt := opt', heap := heap' } with
    | .error e => .error e
    | .ok st' => if cfg.pbar then .ok { st' with costs := st'.costs ++ [v] } else .error .attributeError

/-- `for i in iterator` from iteration `i`, `k` iterations left. -/
noncomputable def optLoop (cfg : OptConfig) (grad : (P → ℝ) → P → P) (optim : Optimizer P S)
    (problems : List (OptProblem P D E M)) : ℕ → ℕ → OptState P D E M S → Except PyError (OptState P D E M S)
  | _, 0, st => .ok st
  | i, k + 1, st =>
    match optIter cfg grad optim problems i st with
    | .error e => .error e
    | .ok st' => optLoop cfg grad optim problems (i + 1) k st'

/-- `opt_run` (opt.py:119-268). With a `viz` from `opt_viz` the number of simulation pipes is the number of
distinct names of the simulation problems. At the end `viz.metric_config` is read unconditionally; the
metrics `DataArray` needs `num_iters` entries per simulation. -/
noncomputable def optRun (cfg : OptConfig) (grad : (P → ℝ) → P → P) (optim : Optimizer P S)
    (problems : List (OptProblem P D E M)) (init : P) (numIters : ℕ) (heap : ℕ → Option E) :
    Except PyError (OptRecord P D E M) :=
  let names := (simProblems problems).filterMap fun op => op.sim.map Prod.snd
  if cfg.viz && !(names.dedup.length == names.length) then .error .valueError
  else
    match optLoop cfg grad optim problems 0 numIters ⟨optim.init init, [], [], [], [], heap⟩ with
    | .error e => .error e
    | .ok st =>
      match updateEps (optim.params st.opt) problems st.heap with
      | .error e => .error e
      | .ok heap' =>
        if !cfg.viz then .error .attributeError
        else if decide (cfg.metricInterval ≠ 0) && cfg.titles &&
            names.any (fun n => !((st.metrics.filter fun e => e.1 = n).length == numIters)) then .error .valueError
        else .ok ⟨st.costs, optim.params st.opt, st.metrics, st.eps, st.fields, heap'⟩

end run

end Simphox
