import Mathlib.Tactic.FinCases
import Mathlib.Analysis.InnerProductSpace.Basic
import Mathlib.Analysis.SpecialFunctions.Trigonometric.Bounds
import Mathlib.Tactic.LinearCombination
import Verif.Sim

/-!
# Properties of the simulation grid: C40, C66, C67, C68, C90, C91, C92
-/

namespace Simphox

open Complex

/-! ### C66 measurements line up with ports -/

/-- Specification: the port looks along the positive direction of its axis when its angle, up to whole
turns, is in `[0, 180)` (0 and 90 degrees), and along the negative direction otherwise (180 and 270). -/
def FacesPositive (angle : ℚ) : Prop := ∃ k : ℤ, 0 ≤ angle + 360 * k ∧ angle + 360 * k < 180

theorem anglePositive_iff (a : ℚ) : anglePositive a = true ↔ FacesPositive a := by
  simp only [anglePositive, decide_eq_true_eq, FacesPositive]
  have h1 := Int.floor_le (a / 360)
  have h2 := Int.lt_floor_add_one (a / 360)
  constructor
  · intro h
    exact ⟨-⌊a / 360⌋, by push_cast; linarith, by push_cast; linarith⟩
  · rintro ⟨k, h3, h4⟩
    have : ⌊a / 360⌋ = -k := by
      rw [Int.floor_eq_iff]
      push_cast
      constructor <;> linarith
    rw [this]; push_cast; linarith

open Classical in
/-- Specification: one pair per request, in request order; the wave travelling in the positive direction of
the axis is the first of the pair for a port that faces that way, the second otherwise. -/
noncomputable def measureSpec (angle : String → ℚ) (request : List (String × ℕ)) (meas : String × ℕ → ℂ × ℂ) :
    List (ℂ × ℂ) :=
  request.map fun r => if FacesPositive (angle r.1) then meas r else ((meas r).2, (meas r).1)

theorem measureSpec_eq (angle : String → ℚ) (request : List (String × ℕ)) (meas : String × ℕ → ℂ × ℂ) :
    measureSpec angle request meas = request.map fun r => orient (anglePositive (angle r.1)) (meas r) := by
  simp only [measureSpec, ← anglePositive_iff, orient]

theorem setOrder_length {l order : List String} (h : SetOrder l order) : order.length = l.dedup.length := by
  have : order.Perm l.dedup := (List.perm_ext_iff_of_nodup h.1 (List.nodup_dedup l)).2 fun x => by
    rw [h.2, List.mem_dedup]
  exact this.length_eq

theorem measureAll_eq_iff (angle : String → ℚ) (request : List (String × ℕ)) (order : List String)
    (hset : SetOrder (request.map Prod.fst) order) (hd : (request.map Prod.fst).Nodup) :
    (∀ meas, measureAll angle order request meas = measureSpec angle request meas) ↔
      ∀ i (h1 : i < order.length) (h2 : i < request.length),
        anglePositive (angle order[i]) = anglePositive (angle request[i].1) := by
  have hlen : order.length = request.length := by
    rw [setOrder_length hset, hd.dedup, List.length_map]
  constructor
  · intro h i h1 h2
    have hm := h fun _ => (1, 0)
    have h3 := congrArg (fun l => l[i]?) hm
    simp only [measureAll, measureSpec_eq, List.getElem?_map, List.getElem?_range h1, List.getElem?_eq_getElem h2,
      Option.map_some, Option.some.injEq] at h3
    have h4 : order.getD i "" = order[i] := by
      simp [List.getD_eq_getElem?_getD, List.getElem?_eq_getElem h1]
    rw [h4] at h3
    cases ha : anglePositive (angle order[i]) <;> cases hb : anglePositive (angle request[i].1) <;>
      rw [ha, hb] at h3 <;> simp [orient] at h3
  · intro h meas
    apply List.ext_getElem
    · simp [measureAll, measureSpec_eq, hlen]
    · intro i h1 h2
      have h1' : i < order.length := by simpa [measureAll] using h1
      have h2' : i < request.length := hlen ▸ h1'
      simp only [measureAll, measureSpec_eq, List.getElem_map, List.getElem_range]
      have e1 : order.getD i "" = order[i] := by
        simp [List.getD_eq_getElem?_getD, List.getElem?_eq_getElem h1']
      have e2 : request.getD i ("", 0) = request[i] := by
        simp [List.getD_eq_getElem?_getD, List.getElem?_eq_getElem h2']
      rw [e1, e2, h i h1' h2']

/-- **C66, partial** When the requested ports are distinct, the result is right exactly when, position by
position, the port in the set's iteration order faces the same way as the requested port; in particular
when the iteration order happens to be the request order. -/
theorem C66_measure_partial (angle : String → ℚ) (request : List (String × ℕ)) (order : List String)
    (hset : SetOrder (request.map Prod.fst) order) (hd : (request.map Prod.fst).Nodup) :
    (∀ meas, measureAll angle order request meas = measureSpec angle request meas) ↔
      ∀ i (h1 : i < order.length) (h2 : i < request.length),
        (FacesPositive (angle order[i]) ↔ FacesPositive (angle request[i].1)) := by
  rw [measureAll_eq_iff angle request order hset hd]
  refine forall_congr' fun i => forall_congr' fun h1 => forall_congr' fun h2 => ?_
  rw [← anglePositive_iff, ← anglePositive_iff]
  exact Bool.eq_iff_iff

/-- The iteration order that equals the request order meets the condition. -/
theorem C66_request_order_partial (angle : String → ℚ) (request : List (String × ℕ))
    (hd : (request.map Prod.fst).Nodup) (meas : String × ℕ → ℂ × ℂ) :
    measureAll angle (request.map Prod.fst) request meas = measureSpec angle request meas := by
  refine (C66_measure_partial angle request (request.map Prod.fst) ⟨hd, fun _ => Iff.rfl⟩ hd).2 ?_ meas
  intro i h1 h2
  rw [List.getElem_map]

/-- **C66, violated**: an input port at 180 degrees and an output port at 0 degrees; when the set happens
to iterate in the other order, both ports are read the wrong way round (incoming and outgoing waves
exchanged). -/
theorem C66_set_order_counterexample :
    SetOrder ([("a0", 0), ("b0", 0)].map Prod.fst) ["b0", "a0"] ∧
    ∀ meas : String × ℕ → ℂ × ℂ,
      measureAll (fun p => if p = "a0" then 180 else 0) ["b0", "a0"] [("a0", 0), ("b0", 0)] meas =
        [(meas ("a0", 0)).swap.swap, (meas ("b0", 0)).swap] ∧
      measureSpec (fun p => if p = "a0" then 180 else 0) [("a0", 0), ("b0", 0)] meas =
        [(meas ("a0", 0)).swap, meas ("b0", 0)] := by
  refine ⟨⟨by decide, fun x => by simp [or_comm]⟩, fun meas => ⟨?_, ?_⟩⟩
  · have h0 : anglePositive 0 = true := by decide +kernel
    have h1 : anglePositive 180 = false := by decide +kernel
    simp [measureAll, List.range_succ, h0, h1, orient, Prod.swap]
  · have h0 : anglePositive 0 = true := by decide +kernel
    have h1 : anglePositive 180 = false := by decide +kernel
    simp [measureSpec_eq, h0, h1, orient, Prod.swap]

/-- **C66, violated**: there is one result per distinct port, not per request: whenever some port is
requested twice (two modes of a multimode port), results are missing. -/
theorem C66_missing_counterexample (angle : String → ℚ) (request : List (String × ℕ)) (order : List String)
    (hset : SetOrder (request.map Prod.fst) order) (hd : ¬ (request.map Prod.fst).Nodup)
    (meas : String × ℕ → ℂ × ℂ) :
    (measureAll angle order request meas).length < request.length := by
  have h1 : (measureAll angle order request meas).length = order.length := by simp [measureAll]
  rw [h1, setOrder_length hset]
  have h2 : (request.map Prod.fst).dedup.length ≤ (request.map Prod.fst).length := (List.dedup_sublist _).length_le
  rcases Nat.lt_or_ge (request.map Prod.fst).dedup.length (request.map Prod.fst).length with h | h
  · simpa using h
  · exact absurd (((List.dedup_sublist (request.map Prod.fst)).eq_of_length_le h) ▸ List.nodup_dedup _) hd

example : ¬ ([("a0", 0), ("a0", 1)].map Prod.fst : List String).Nodup := by decide

/-! ### C67 enough modes are solved -/

theorem le_foldr_max (l : List ℕ) (k : ℕ) (h : k ∈ l) : k ≤ l.foldr max 0 := by
  induction l with
  | nil => cases h
  | cons a l ih =>
    rcases List.mem_cons.1 h with rfl | h
    · exact le_max_left _ _
    · exact (ih h).trans (le_max_right _ _)

theorem foldr_max_mem (l : List ℕ) (h : l ≠ []) : l.foldr max 0 ∈ l := by
  induction l with
  | nil => exact absurd rfl h
  | cons a l ih =>
    rw [List.foldr_cons]
    by_cases hl : l = []
    · subst hl; simp
    · rcases max_choice a (l.foldr max 0) with h1 | h1
      · rw [h1]; exact List.mem_cons_self
      · rw [h1]; exact List.mem_cons_of_mem _ (ih hl)

/-- **C67, partial** `port_modes` has one entry per requested port, solved with exactly
`max(requested mode index) + 1` modes, whatever the set order: every requested mode is below that number,
and no smaller number would do. -/
theorem C67_port_modes_partial (solve : String → ℕ → List ℝ) (order : List String) (exc : List (String × ℕ))
    (hset : SetOrder (exc.map Prod.fst) order) (p : String) (k : ℕ) (h : (p, k) ∈ exc) :
    ∃ m, dictGet (portModes solve order exc) p = .ok (solve p m) ∧ k < m ∧ ∃ k', (p, k') ∈ exc ∧ m = k' + 1 := by
  have hp : p ∈ order := (hset.2 p).2 (List.mem_map.2 ⟨_, h, rfl⟩)
  have hget : dictGet (portModes solve order exc) p = .ok (solve p (numModes exc p)) := by
    unfold dictGet portModes
    have : ((order.map fun name => (name, solve name (numModes exc name))).find? fun q => q.1 = p) =
        some (p, solve p (numModes exc p)) := by
      clear hset
      induction order with
      | nil => cases hp
      | cons a l ih =>
        rw [List.map_cons, List.find?_cons]
        by_cases ha : a = p
        · subst ha; simp
        · have hp' : p ∈ l := (List.mem_cons.1 hp).resolve_left fun e => ha e.symm
          simp only [ha, decide_false]
          exact ih hp'
    rw [this]
  have hmem : k ∈ (exc.filter fun e => e.1 = p).map Prod.snd :=
    List.mem_map.2 ⟨(p, k), List.mem_filter.2 ⟨h, by simp⟩, rfl⟩
  refine ⟨numModes exc p, hget, Nat.lt_succ_of_le (le_foldr_max _ _ hmem), ?_⟩
  have hne : (exc.filter fun e => e.1 = p).map Prod.snd ≠ [] := List.ne_nil_of_mem hmem
  obtain ⟨q, hq, hq2⟩ := List.mem_map.1 (foldr_max_mem _ hne)
  obtain ⟨hq1, hq3⟩ := List.mem_filter.1 hq
  have : q.1 = p := by simpa using hq3
  refine ⟨q.2, by rw [← this]; exact hq1, ?_⟩
  rw [hq2]; rfl

theorem dictGet_default (solve : String → ℕ → List ℝ) (order ports : List String) (hset : SetOrder ports order)
    (p : String) (hp : p ∈ ports) :
    dictGet (portModes solve order (ports.map fun q => (q, 0))) p = .ok (solve p 1) := by
  have hset' : SetOrder ((ports.map fun q => (q, 0)).map Prod.fst) order := by
    refine ⟨hset.1, fun x => (hset.2 x).trans ?_⟩
    simp
  obtain ⟨m, h1, h2, k', h3, h4⟩ := C67_port_modes_partial solve order (ports.map fun q => (q, 0)) hset' p 0
    (List.mem_map.2 ⟨p, hp, rfl⟩)
  obtain ⟨q, _, hq⟩ := List.mem_map.1 h3
  have : k' = 0 := by cases hq; rfl
  rw [h1, h4, this]

/-- **C67, partial** A source on fundamental modes finds its modes, if every port guides at least one. -/
theorem C67_source_partial (solve : String → ℕ → List ℝ) (order ports : List String) (hset : SetOrder ports order)
    (hsolve : ∀ p ∈ ports, (solve p 1).length = 1) (src : List String) (hsrc : ∀ p ∈ src, p ∈ ports) :
    ∃ bs, portSourceBetas solve order ports (src.map fun p => .pair p 0) = .ok bs ∧ bs.length = src.length := by
  induction src with
  | nil => exact ⟨[], rfl, rfl⟩
  | cons p src ih =>
    obtain ⟨bs, h1, h2⟩ := ih fun q hq => hsrc q (List.mem_cons_of_mem _ hq)
    have hp := hsrc p List.mem_cons_self
    have hb : ∃ b, (solve p 1)[0]? = some b := ⟨_, List.getElem?_eq_getElem (by rw [hsolve p hp]; omega)⟩
    obtain ⟨b, hb⟩ := hb
    refine ⟨b :: bs, ?_, by simp [h2]⟩
    unfold portSourceBetas at h1 ⊢
    rw [List.map_cons, List.mapM_cons, h1]
    simp only [sourceBeta, dictGet_default solve order ports hset p hp, bind, Except.bind, hb]
    rfl

/-- **C67, violated**: `port_source` with any higher mode `k >= 1` of an existing port raises
`IndexError`, even if the port guides that mode: `port_modes()` is called without the excitation and
solves one mode per port (`num_modes=1` yields at most one). -/
theorem C67_source_counterexample (solve : String → ℕ → List ℝ) (order ports : List String) (hset : SetOrder ports order)
    (hsolve : ∀ p m, (solve p m).length ≤ m) (p : String) (hp : p ∈ ports) (k : ℕ) (hk : 1 ≤ k) (rest : List PortKey) :
    portSourceBetas solve order ports (.pair p k :: rest) = .error .indexError := by
  unfold portSourceBetas
  rw [List.mapM_cons]
  have hb : (solve p 1)[k]? = none := List.getElem?_eq_none ((hsolve p 1).trans hk)
  simp only [sourceBeta, dictGet_default solve order ports hset p hp, bind, Except.bind, hb]

/-- **C67, violated**: the documented source form `{port: weight}` raises for every port name: a string
key is unpacked into its characters. -/
theorem C67_name_counterexample (library : List (String × List ℝ)) (port : String) :
    ∃ err, sourceBeta library (.name port) = .error err := by
  unfold sourceBeta
  match h : port.toList with
  | [] => exact ⟨_, by simp [h]; rfl⟩
  | [a] => exact ⟨_, by simp [h]; rfl⟩
  | [c, d] =>
    simp only [h]
    cases hd : dictGet library (String.ofList [c]) with
    | error e => exact ⟨e, rfl⟩
    | ok v => exact ⟨.indexError, rfl⟩
  | a :: b :: c :: l => exact ⟨_, by simp [h]; rfl⟩

example : ∃ solve : String → ℕ → List ℝ, (∀ p m, (solve p m).length ≤ m) ∧
    SetOrder ["a0", "b0"] ["b0", "a0"] :=
  ⟨fun _ m => List.replicate m 1, fun _ _ => by simp, by decide, fun x => by simp [or_comm]⟩

/-! ### C68 fidelity -/

section fidelity

variable {n : ℕ}

local notation "vec" => (WithLp.toLp 2 : (Fin n → ℂ) → EuclideanSpace ℂ (Fin n))

theorem norm_normalise (s : Fin n → ℂ) (hs : s ≠ 0) : ‖vec (normalise s)‖ = 1 := by
  have hne : ‖vec s‖ ≠ 0 := by
    rw [norm_ne_zero_iff]
    intro h
    exact hs (by simpa using congrArg WithLp.ofLp h)
  have h1 : vec (normalise s) = ((‖vec s‖ : ℂ))⁻¹ • vec s := by
    ext i
    simp only [normalise, PiLp.smul_apply, smul_eq_mul]
    rw [div_eq_inv_mul]
  rw [h1, norm_smul, norm_inv, Complex.norm_real, norm_norm, inv_mul_cancel₀ hne]

/-- The overlap computed by the code is the inner product with the conjugate. -/
theorem overlap_eq_inner (s x : Fin n → ℂ) :
    ∑ i, s i * x i = inner ℂ (vec fun i => (starRingEnd ℂ) (s i)) (vec x) := by
  rw [PiLp.inner_apply]
  refine Finset.sum_congr rfl fun i _ => ?_
  simp [mul_comm]

theorem norm_conj_vec (s : Fin n → ℂ) : ‖vec fun i => (starRingEnd ℂ) (s i)‖ = ‖vec s‖ := by
  simp [EuclideanSpace.norm_eq]

theorem overlap_le (s x : Fin n → ℂ) (hs : s ≠ 0) : ‖∑ i, normalise s i * x i‖ ≤ ‖vec x‖ := by
  rw [overlap_eq_inner]
  refine (norm_inner_le_norm _ _).trans ?_
  rw [norm_conj_vec, norm_normalise s hs, one_mul]

/-- **C68, partial** Without insertion weight, the cost lies between `-|x|^2` and `0`, and reaches the
minimum exactly on multiples of the *complex conjugate* of the desired vector. (Partial: the property asks
for multiples of the desired vector, see `C68_conjugate_counterexample`; the two agree for real desired
vectors, see `C68_real_desired`.) -/
theorem C68_fidelity_partial (desired x : Fin n → ℂ) (hd : desired ≠ 0) :
    -‖vec x‖ ^ 2 ≤ fidelityCost desired 0 x ∧ fidelityCost desired 0 x ≤ 0 ∧
    (fidelityCost desired 0 x = -‖vec x‖ ^ 2 ↔ ∃ c : ℂ, ∀ i, x i = c * (starRingEnd ℂ) (desired i)) := by
  have hcost : fidelityCost desired 0 x = -‖∑ i, normalise desired i * x i‖ ^ 2 := by
    simp [fidelityCost]
  have hle := overlap_le desired x hd
  rw [hcost]
  refine ⟨by nlinarith [norm_nonneg (∑ i, normalise desired i * x i)], by nlinarith [sq_nonneg ‖∑ i, normalise desired i * x i‖], ?_⟩
  have hnn : ‖vec desired‖ ≠ 0 := by
    rw [norm_ne_zero_iff]
    intro h
    exact hd (by simpa using congrArg WithLp.ofLp h)
  have h1 : (-‖∑ i, normalise desired i * x i‖ ^ 2 = -‖vec x‖ ^ 2) ↔ ‖∑ i, normalise desired i * x i‖ = ‖vec x‖ := by
    rw [neg_inj, sq_eq_sq₀ (norm_nonneg _) (norm_nonneg _)]
  rw [h1]
  set y : EuclideanSpace ℂ (Fin n) := vec fun i => (starRingEnd ℂ) (normalise desired i) with hy
  have hy1 : ‖y‖ = 1 := by rw [hy, norm_conj_vec, norm_normalise desired hd]
  have hy0 : y ≠ 0 := by intro h; rw [h, norm_zero] at hy1; exact zero_ne_one hy1
  have h2 : ‖∑ i, normalise desired i * x i‖ = ‖vec x‖ ↔ ‖inner ℂ y (vec x)‖ = ‖y‖ * ‖vec x‖ := by
    rw [overlap_eq_inner, hy1, one_mul]
  have h3 : ‖inner ℂ y (vec x)‖ = ‖y‖ * ‖vec x‖ ↔ (y = 0 ∨ ∃ r : ℂ, vec x = r • y) :=
    (norm_inner_eq_norm_tfae ℂ y (vec x)).out 0 2
  rw [h2, h3, or_iff_right hy0]
  have hyi : ∀ i, y i = (starRingEnd ℂ) (desired i) / (‖vec desired‖ : ℂ) := fun i => by
    simp [hy, normalise]
  have hnc : (‖vec desired‖ : ℂ) ≠ 0 := by exact_mod_cast hnn
  constructor
  · rintro ⟨r, hr⟩
    refine ⟨r / (‖vec desired‖ : ℂ), fun i => ?_⟩
    have h3 : x i = r * y i := by
      have := congrArg (fun v : EuclideanSpace ℂ (Fin n) => v i) hr
      simpa using this
    rw [h3, hyi]; ring
  · rintro ⟨c, hc⟩
    refine ⟨c * (‖vec desired‖ : ℂ), ?_⟩
    ext i
    rw [PiLp.smul_apply, hyi, smul_eq_mul]
    simp only [hc i]
    field_simp

/-- **C68** For a real desired vector the minimum is reached exactly on its multiples. -/
theorem C68_real_desired (desired x : Fin n → ℂ) (hd : desired ≠ 0)
    (hreal : ∀ i, (starRingEnd ℂ) (desired i) = desired i) :
    fidelityCost desired 0 x = -‖vec x‖ ^ 2 ↔ ∃ c : ℂ, ∀ i, x i = c * desired i := by
  rw [(C68_fidelity_partial desired x hd).2.2]
  simp only [hreal]

/-- **C68** With an insertion weight in `[0, 1]` (or none), the cost of a passive measurement `|x| <= 1`
(nonzero, otherwise the code divides by zero) lies in `[-1, 0]`. -/
theorem C68_passive_bounds (desired x : Fin n → ℂ) (hd : desired ≠ 0) (hx : x ≠ 0) (weight : ℝ)
    (h0 : 0 ≤ weight) (h1 : weight ≤ 1) (hp : ‖vec x‖ ≤ 1) :
    -1 ≤ fidelityCost desired weight x ∧ fidelityCost desired weight x ≤ 0 := by
  by_cases hw : weight = 0
  · subst hw
    obtain ⟨h2, h3, -⟩ := C68_fidelity_partial desired x hd
    exact ⟨by nlinarith [norm_nonneg (vec x)], h3⟩
  · have hle : ‖∑ i, normalise desired i * normalise x i‖ ≤ 1 := by
      have := overlap_le desired (normalise x) hd
      rwa [norm_normalise x hx] at this
    have hn0 := norm_nonneg (∑ i, normalise desired i * normalise x i)
    have hv0 := norm_nonneg (vec x)
    have e : fidelityCost desired weight x =
        -‖∑ i, normalise desired i * normalise x i‖ ^ 2 * (1 - weight) - ‖vec x‖ ^ 2 * weight := by
      simp [fidelityCost, hw]
    rw [e]
    have ha : ‖∑ i, normalise desired i * normalise x i‖ ^ 2 ≤ 1 := by nlinarith
    have hb : ‖vec x‖ ^ 2 ≤ 1 := by nlinarith
    have ha0 := sq_nonneg ‖∑ i, normalise desired i * normalise x i‖
    have hb0 := sq_nonneg ‖vec x‖
    constructor <;> nlinarith

end fidelity

/-- **C68, violated**: desired sparams `(1, i)`: the cost of measuring exactly the desired sparams is `0`,
the worst possible value, while the minimum `-2` is reached on the conjugate `(1, -i)`. -/
theorem C68_conjugate_counterexample :
    fidelityCost ![1, I] 0 ![1, I] = 0 ∧ fidelityCost ![1, I] 0 ![1, -I] = -2 := by
  have hne : (![1, I] : Fin 2 → ℂ) ≠ 0 := fun h => by simpa using congrFun h 0
  constructor
  · simp only [fidelityCost, ne_eq, not_true_eq_false, if_false, normalise, Fin.sum_univ_two]
    have : (1 : ℂ) / (‖(WithLp.toLp 2 ![1, I] : EuclideanSpace ℂ (Fin 2))‖ : ℂ) * 1 +
        I / (‖(WithLp.toLp 2 ![1, I] : EuclideanSpace ℂ (Fin 2))‖ : ℂ) * I = 0 := by
      rw [mul_one, div_mul_eq_mul_div, I_mul_I, ← add_div]; simp
    simpa using this
  · have h := ((C68_fidelity_partial ![1, I] ![1, -I] hne).2.2).2 ⟨1, fun i => by fin_cases i <;> simp⟩
    rw [h, EuclideanSpace.norm_eq, Real.sq_sqrt (Finset.sum_nonneg fun _ _ => sq_nonneg _)]
    simp [Fin.sum_univ_two]; norm_num

theorem findIdx?_spec {l : List (String × ℕ)} {key : String × ℕ} {k : ℕ}
    (h : (l.findIdx? fun e => e = key) = some k) : l[k]? = some key := by
  rw [List.findIdx?_eq_some_iff_getElem] at h
  obtain ⟨h1, h2, -⟩ := h
  rw [List.getElem?_eq_getElem h1]
  simpa using h2

/-- **C68** The desired vector: for distinct measured entries and a dictionary of desired weights (distinct
keys) all of which are measured, entry `k` is the weight given for measurement `k`, and `0` where none is
given; a key that is not measured raises `ValueError`. -/
theorem C68_desired_vector (info : List (String × ℕ)) (hinfo : info.Nodup) :
    ∀ (d : List ((String × ℕ) × ℂ)) (s : List ℂ), s.length = info.length → (d.map Prod.fst).Nodup →
    ((∃ e ∈ d, e.1 ∉ info) → desiredVec info d s = .error .valueError) ∧
    ((∀ e ∈ d, e.1 ∈ info) → ∃ v, desiredVec info d s = .ok v ∧ v.length = info.length ∧
      ∀ k (h : k < info.length), (∀ w, (info[k], w) ∈ d → v[k]? = some w) ∧
        (info[k] ∉ d.map Prod.fst → v[k]? = s[k]?)) := by
  intro d
  induction d with
  | nil =>
    intro s hs _
    refine ⟨fun ⟨e, he, _⟩ => absurd he (by simp), fun _ => ⟨s, rfl, hs, fun k hk => ⟨fun w hw => absurd hw (by simp), fun _ => rfl⟩⟩⟩
  | cons e d ih =>
    intro s hs hnd
    rw [List.map_cons, List.nodup_cons] at hnd
    rcases hf : info.findIdx? fun a => a = e.1 with - | k0
    · have hnot : e.1 ∉ info := by
        rw [List.findIdx?_eq_none_iff] at hf
        intro hm
        simpa using hf _ hm
      refine ⟨fun _ => by simp only [desiredVec, hf], fun h => absurd (h e List.mem_cons_self) hnot⟩
    · have hk0 := findIdx?_spec hf
      have hk0' : k0 < info.length := by
        by_contra hc
        rw [List.getElem?_eq_none (by omega)] at hk0; cases hk0
      have hk0e : info[k0] = e.1 := by
        rw [List.getElem?_eq_getElem hk0'] at hk0; exact Option.some.inj hk0
      have he : e.1 ∈ info := List.mem_of_getElem? hk0
      have hstep : desiredVec info (e :: d) s = desiredVec info d (s.set k0 e.2) := by
        simp only [desiredVec, hf]
      obtain ⟨i1, i2⟩ := ih (s.set k0 e.2) (by rw [List.length_set, hs]) hnd.2
      rw [hstep]
      refine ⟨fun ⟨a, ha, hna⟩ => i1 ⟨a, ?_, hna⟩, fun hall => ?_⟩
      · rcases List.mem_cons.1 ha with rfl | ha
        · exact absurd he hna
        · exact ha
      · obtain ⟨v, v1, v2, v3⟩ := i2 fun a ha => hall a (List.mem_cons_of_mem _ ha)
        refine ⟨v, v1, v2, fun k hk => ⟨fun w hw => ?_, fun hno => ?_⟩⟩
        · rcases List.mem_cons.1 hw with hw | hw
          · have hkk : info[k] = e.1 := congrArg Prod.fst hw
            have hkk0 : k = k0 := (List.Nodup.getElem_inj_iff hinfo).1 (hkk.trans hk0e.symm)
            rw [(v3 k hk).2 (by rw [hkk]; exact hnd.1), hkk0, List.getElem?_set_self (by rw [hs]; exact hk0')]
            rw [← hw]
          · exact (v3 k hk).1 w hw
        · rw [List.map_cons, List.mem_cons, not_or] at hno
          have hkk0 : k0 ≠ k := fun h => hno.1 (by subst h; exact hk0e)
          rw [(v3 k hk).2 hno.2, List.getElem?_set_ne hkk0]

example : desiredVec [("a", 0), ("b", 0)] [(("b", 0), 2)] [0, 0] = .ok [0, 2] := rfl

/-! ### C40 profile and view orientations -/

theorem npTranspose_view_profile {α : Type} (a : Fin 3) (f : (Fin 3 → ℤ) → α) :
    npTranspose (viewAxes a) (npTranspose (profileAxes a) f) = f := by
  funext j
  unfold npTranspose
  congr 1
  funext k
  fin_cases a <;> fin_cases k <;> rfl

theorem profileAxes_viewAxes (a c : Fin 3) : profileAxes a (viewAxes a c) = c := by
  revert a c; decide

/-- The signs that remain after viewing a profile. -/
def residualSigns : Fin 3 → Fin 3 → ℂ := ![![-1, 1, 1], ![1, 1, 1], ![1, 1, -1]]

/-- **C40, partial** If a field agrees with the oriented profile of a mode on a region, then viewing that
region along the same axis gives back every component of the mode at every pixel, up to the sign table
`residualSigns` (one component flips for axes 0 and 2, none for axis 1). -/
theorem C40_view_profile_partial (a : Fin 3) (o : Fin 3 → ℤ) (mode field : Fin 3 → (Fin 3 → ℤ) → ℂ)
    (hf : ∀ c p, field c (o + p) = profile a mode c p) :
    view a o field = fun c j => residualSigns a c * mode c j := by
  funext c
  unfold view
  simp only [hf]
  have h : (fun p => profile a mode (viewAxes a c) p) =
      npTranspose (profileAxes a) fun p => residualSigns a c * mode c p := by
    unfold profile
    rw [profileAxes_viewAxes]
    refine congrArg (npTranspose (profileAxes a)) (funext fun p => ?_)
    congr 1
    fin_cases a <;> fin_cases c <;> rfl
  rw [h, npTranspose_view_profile]

/-- **C40, partial** For modes propagating along `y` the view is an exact inverse. -/
theorem C40_view_profile_y_partial (o : Fin 3 → ℤ) (mode field : Fin 3 → (Fin 3 → ℤ) → ℂ)
    (hf : ∀ c p, field c (o + p) = profile 1 mode c p) : view 1 o field = mode := by
  rw [C40_view_profile_partial 1 o mode field hf]
  funext c j
  fin_cases c <;> simp [residualSigns]

/-- The view region and the profile see the same axis when exactly one of the grid's axes has zero size
(on a two dimensional grid the third entry of the port size does not matter). -/
theorem C40_axes_agree_partial (ndim : ℕ) (size : Fin 3 → ℚ) (a : Fin 3) (ha : a.1 < ndim) (h0 : size a = 0)
    (h1 : ∀ b : Fin 3, b.1 < ndim → b ≠ a → size b ≠ 0) :
    viewAxis ndim size = a ∧ propAxis size = .ok a := by
  have key : ∀ b : Fin 3, b < a → size b ≠ 0 := fun b hb =>
    h1 b (lt_of_lt_of_le hb (le_of_lt ha)) (ne_of_lt hb)
  have key2 : ∀ b : Fin 3, b ≠ a → (decide (b.1 < ndim) && decide (size b = 0)) = false := fun b hb => by
    by_cases h : b.1 < ndim
    · simp [h, h1 b h hb]
    · simp [h]
  have hl : List.finRange 3 = [0, 1, 2] := by decide
  unfold viewAxis propAxis
  rw [hl]
  constructor
  · fin_cases a
    · have e1 := key2 1 (by decide); have e2 := key2 2 (by decide)
      simp only [List.filter, e1, e2]
      simp_all
    · have e1 := key2 0 (by decide); have e2 := key2 2 (by decide)
      simp only [List.filter, e1, e2]
      simp_all
    · have e1 := key2 0 (by decide); have e2 := key2 1 (by decide)
      simp only [List.filter, e1, e2]
      simp_all
  · fin_cases a
    · simp_all [List.filter]
    · have := key 0 (by decide)
      simp_all [List.filter]
    · have e0 := key 0 (by decide); have e1 := key 1 (by decide)
      simp_all [List.filter]

example : viewAxis 2 ![0, 3, 0] = 0 ∧ propAxis ![0, 3, 0] = .ok 0 :=
  C40_axes_agree_partial 2 _ 0 (by decide) rfl (by decide +kernel)

/-- **C40, violated** for propagation along `x` (and `z`): the first (third) component comes back negated. -/
theorem C40_sign_counterexample (o : Fin 3 → ℤ) (mode field : Fin 3 → (Fin 3 → ℤ) → ℂ) :
    ((∀ c p, field c (o + p) = profile 0 mode c p) → view 0 o field 0 = fun j => -mode 0 j) ∧
    ((∀ c p, field c (o + p) = profile 2 mode c p) → view 2 o field 2 = fun j => -mode 2 j) := by
  constructor <;> intro h <;> rw [C40_view_profile_partial _ o mode field h] <;> funext j <;>
    simp [residualSigns]

/-- **C40, violated** by `ModeLibrary.place`: the components are not permuted with the axes, so the view
returns the components in the wrong slots: for propagation along `x` the viewed components are
`(y, z, x)` of the mode, along `y` they are `(x, z, y)`. -/
theorem C40_place_components_counterexample (a : Fin 3) (o : Fin 3 → ℤ) (mode field : Fin 3 → (Fin 3 → ℤ) → ℂ)
    (hf : ∀ c p, field c (o + p) = placeProfile a mode c p) :
    view a o field = fun c j => mode (viewAxes a c) j := by
  funext c
  unfold view
  simp only [hf]
  exact npTranspose_view_profile a _

/-- **C40, violated** by `ModeLibrary.place` on a three dimensional grid: a cross section normal to `x`
at pixel `c0 >= 3` raises `IndexError`, because the region's `x` index is applied to the component axis. -/
theorem C40_place_x_counterexample (shape : Fin 3 → ℕ) (c0 : ℤ) (h : 3 ≤ c0) (ry rz : AxisIndex) :
    placeTarget shape (.point c0, ry, rz) = .error .indexError := by
  have : (AxisIndex.point c0).valid 3 = false := by
    simp only [AxisIndex.valid, decide_eq_false_iff_not, not_and, not_lt]
    intro _; exact_mod_cast h
  simp [placeTarget, this]

/-- **C40, violated** by `ModeLibrary.place`: a cross section normal to `y` (or `z`) whose `x` range
starts at pixel 3 or later is not written at all (the code writes nothing or raises). -/
theorem C40_place_y_counterexample (shape : Fin 3 → ℕ) (x0 x1 : ℤ) (h : 3 ≤ x0) (ry rz : AxisIndex)
    (hv : (ry.valid (shape 0) && rz.valid (shape 1)) = true) :
    ∃ written, placeTarget shape (.range x0 x1, ry, rz) = .ok written ∧ ∀ c p, written c p = false := by
  rw [Bool.and_eq_true] at hv
  have hr : (AxisIndex.range x0 x1).valid 3 = true := rfl
  refine ⟨_, by simp only [placeTarget, hr, hv.1, hv.2, Bool.and_self, if_true]; rfl, fun c p => ?_⟩
  have : (AxisIndex.range x0 x1).selects 3 c.1 = false := by
    simp only [AxisIndex.selects, decide_eq_false_iff_not, not_and, not_lt]
    intro hle
    have : resolveBound 3 x0 = 3 := by
      unfold resolveBound
      rw [if_neg (by omega)]
      exact min_eq_right (by exact_mod_cast h)
    rw [this] at hle
    have := c.2
    omega
  rw [this]; simp

example : ((AxisIndex.point 4).valid 10 && (AxisIndex.range 2 5).valid 10) = true := by decide

/-! ### C90 scattering parameters are normalised by the source port -/

/-- **C90, partial** With the default measurement info and distinct port names, source port `k` and
measured `(out, in)` pairs in port order, parameter `j` is `out_j / in_k`. -/
theorem C90_default_partial (ports : List String) (hp : ports.Nodup) (measured : List (ℂ × ℂ))
    (hm : measured.length = ports.length) (k : ℕ) (hk : k < ports.length) :
    simSparams ports measured (some (ports[k], 0)) none =
      .ok (measured.map fun m => m.1 / (measured[k]'(hm ▸ hk)).2) := by
  have hf : ((ports.map fun p => (p, 0)).findIdx? fun e => e = (ports[k], 0)) = some k := by
    rw [List.findIdx?_eq_some_iff_getElem]
    refine ⟨by simpa using hk, by simp, fun j hj => ?_⟩
    have hj' : j < ports.length := by omega
    simp only [List.getElem_map, Prod.mk.injEq, and_true, decide_eq_true_eq]
    intro h
    exact absurd ((List.Nodup.getElem_inj_iff hp).1 h) (by omega)
  simp only [simSparams, Option.getD_none, Option.some_or, hf, List.getElem?_eq_getElem (show k < measured.length by omega)]

/-- Without a port name the first port is the source. -/
theorem C90_default_source_partial (ports : List String) (p : String) (rest : List String) (hp : ports = p :: rest)
    (measured : List (ℂ × ℂ)) :
    simSparams ports measured none none = simSparams ports measured (some (p, 0)) none := by
  subst hp; rfl

/-- **C90, violated**: `measure_info` only moves the position that is used for the normalisation, not what
is measured. With ports `a, b`, source `a` and measurement info `[b, a]`, everything is divided by the
incoming amplitude at `b`. -/
theorem C90_measure_info_counterexample (oa ia ob ib : ℂ) :
    simSparams ["a", "b"] [(oa, ia), (ob, ib)] (some ("a", 0)) (some [("b", 0), ("a", 0)]) =
      .ok [oa / ib, ob / ib] := by
  simp [simSparams, List.findIdx?_cons]

/-- **C90, violated**: a source on a higher mode that is not in the (default) measurement info raises
`ValueError`. -/
theorem C90_mode_counterexample (ports : List String) (measured : List (ℂ × ℂ)) (p : String) (k : ℕ) (hk : 1 ≤ k) :
    simSparams ports measured (some (p, k)) none = .error .valueError := by
  have hf : ((ports.map fun p => (p, 0)).findIdx? fun e => e = (p, k)) = none := by
    rw [List.findIdx?_eq_none_iff]
    intro e he
    obtain ⟨q, _, rfl⟩ := List.mem_map.1 he
    simp only [Prod.mk.injEq, decide_eq_false_iff_not, not_and]
    intro _; omega
  simp only [simSparams, Option.getD_none, Option.some_or, hf]

/-! ### C91 unidirectional sources -/

/-- Specification: the field of sheets radiating on a line of cells of length `dx` with propagation
constant `b`: every sheet emits outgoing waves `exp(-i b |x - x0|)` (the time convention of the mode
solver documentation, mode.py:38, which the PML absorbs). -/
noncomputable def sheetField (b dx : ℝ) (sheets : List (ℤ × ℂ)) (k : ℤ) : ℂ :=
  (sheets.map fun s => s.2 * exp (-I * b * dx * ((k - s.1).natAbs : ℝ))).sum

/-- The specification is a solution of the discrete Helmholtz equation: away from the sheets, the second
difference is `(2 cos (b dx) - 2)` times the field. -/
theorem sheetField_helmholtz (b dx : ℝ) (sheets : List (ℤ × ℂ)) (k : ℤ) (hk : ∀ s ∈ sheets, s.1 ≠ k) :
    sheetField b dx sheets (k + 1) - 2 * sheetField b dx sheets k + sheetField b dx sheets (k - 1) =
      (exp (I * b * dx) + exp (-I * b * dx) - 2) * sheetField b dx sheets k := by
  unfold sheetField
  induction sheets with
  | nil => simp
  | cons s l ih =>
    have ih' := ih fun t ht => hk t (List.mem_cons_of_mem _ ht)
    simp only [List.map_cons, List.sum_cons]
    have hs := hk s List.mem_cons_self
    have key : exp (-I * b * dx * ((k + 1 - s.1).natAbs : ℝ)) + exp (-I * b * dx * ((k - 1 - s.1).natAbs : ℝ)) =
        (exp (I * b * dx) + exp (-I * b * dx)) * exp (-I * b * dx * ((k - s.1).natAbs : ℝ)) := by
      rw [add_mul, ← Complex.exp_add, ← Complex.exp_add]
      rcases lt_or_gt_of_ne hs with h | h
      · have e1 : (((k + 1 - s.1).natAbs : ℝ) : ℂ) = ((k - s.1).natAbs : ℝ) + 1 := by
          have : (k + 1 - s.1).natAbs = (k - s.1).natAbs + 1 := by omega
          rw [this]; push_cast; ring
        have e2 : (((k - 1 - s.1).natAbs : ℝ) : ℂ) = ((k - s.1).natAbs : ℝ) - 1 := by
          have : (k - s.1).natAbs = (k - 1 - s.1).natAbs + 1 := by omega
          rw [this]; push_cast; ring
        rw [e1, e2, add_comm]
        congr 2 <;> ring
      · have e1 : (((k + 1 - s.1).natAbs : ℝ) : ℂ) = ((k - s.1).natAbs : ℝ) - 1 := by
          have : (k - s.1).natAbs = (k + 1 - s.1).natAbs + 1 := by omega
          rw [this]; push_cast; ring
        have e2 : (((k - 1 - s.1).natAbs : ℝ) : ℂ) = ((k - s.1).natAbs : ℝ) + 1 := by
          have : (k - 1 - s.1).natAbs = (k - s.1).natAbs + 1 := by omega
          rw [this]; push_cast; ring
        rw [e1, e2]
        congr 2 <;> ring
    linear_combination ih' + s.2 * key

open Classical in
/-- The outward direction of a port. -/
noncomputable def outward (angle : ℚ) : ℤ := if FacesPositive angle then 1 else -1

theorem outward_eq (angle : ℚ) : outward angle = if anglePositive angle then 1 else -1 := by
  simp only [outward, ← anglePositive_iff]

/-- General formula: with grid propagation constant `b` and mode propagation constant `beta`, at distance
`3 + d` cells outward the field is `w (1 - exp(i (b - beta) dx)) e^{-i b dx (1 + d)}`, at distance `d`
cells inward of the first sheet it is `w (1 - exp(-i (b + beta) dx)) e^{-i b dx d}`. -/
theorem sheetField_sides (angle : ℚ) (b beta dx : ℝ) (w : ℂ) (d : ℕ) :
    sheetField b dx (sourceSheets angle dx beta w) (outward angle * (3 + d)) =
      w * (1 - exp (I * (b - beta) * dx)) * exp (-I * b * dx * (1 + d)) ∧
    sheetField b dx (sourceSheets angle dx beta w) (outward angle * (2 - d)) =
      w * (1 - exp (-I * (b + beta) * dx)) * exp (-I * b * dx * d) := by
  have hpi : exp (-I * dx * beta - I * Real.pi) = -exp (-I * dx * beta) := by
    rw [Complex.exp_sub, mul_comm I, Complex.exp_pi_mul_I, div_neg, div_one]
  have n1 : ∀ s : ℤ, s = 1 ∨ s = -1 → (s * (3 + (d : ℤ)) - 2 * s).natAbs = 1 + d ∧
      (s * (3 + (d : ℤ)) - (2 * s + s)).natAbs = d ∧ (s * (2 - (d : ℤ)) - 2 * s).natAbs = d ∧
      (s * (2 - (d : ℤ)) - (2 * s + s)).natAbs = d + 1 := by
    rintro s (rfl | rfl) <;> omega
  have hs : outward angle = 1 ∨ outward angle = -1 := by
    rw [outward_eq]; split <;> simp
  obtain ⟨m1, m2, m3, m4⟩ := n1 (outward angle) hs
  have hsh : sourceSheets angle dx beta w =
      [(2 * outward angle, w), (2 * outward angle + outward angle, w * exp (-I * dx * beta - I * Real.pi))] := by
    rw [outward_eq]; rfl
  rw [hsh]
  simp only [sheetField, List.map_cons, List.map_nil, List.sum_cons, List.sum_nil, add_zero, hpi]
  constructor
  · rw [m1, m2]
    have : exp (-I * dx * beta) * exp (-I * b * dx * ((d : ℝ) : ℂ)) =
        exp (I * (b - beta) * dx) * exp (-I * b * dx * (1 + d)) := by
      rw [← Complex.exp_add, ← Complex.exp_add]; congr 1; push_cast; ring
    push_cast at this ⊢
    linear_combination -w * this
  · rw [m3, m4]
    have : exp (-I * dx * beta) * exp (-I * b * dx * (((d + 1 : ℕ) : ℝ) : ℂ)) =
        exp (-I * (b + beta) * dx) * exp (-I * b * dx * d) := by
      rw [← Complex.exp_add, ← Complex.exp_add]; congr 1; push_cast; ring
    push_cast at this ⊢
    linear_combination -w * this

/-- **C91, partial** Where waves along the propagation axis have the mode's own propagation constant, the
two sheets emit nothing at all on the outward side (from the second sheet on), for any port angle and
weight, and on the inward side a wave of constant amplitude `|w| |1 - exp(-2 i beta dx)|`. -/
theorem C91_unidirectional_partial (angle : ℚ) (beta dx : ℝ) (w : ℂ) (d : ℕ) :
    sheetField beta dx (sourceSheets angle dx beta w) (outward angle * (3 + d)) = 0 ∧
    ‖sheetField beta dx (sourceSheets angle dx beta w) (outward angle * (2 - d))‖ =
      ‖w‖ * ‖1 - exp (-2 * I * beta * dx)‖ := by
  obtain ⟨h1, h2⟩ := sheetField_sides angle beta beta dx w d
  refine ⟨by rw [h1]; simp, ?_⟩
  rw [h2, norm_mul, norm_mul]
  have h3 : ‖exp (-I * beta * dx * d)‖ = 1 := by
    rw [Complex.norm_exp]; simp
  rw [h3, mul_one]
  congr 4
  ring

/-- **C91, partial** The inward wave is nonzero for a resolved mode, `0 < beta dx < pi`, `w ≠ 0`. -/
theorem C91_emits_partial (angle : ℚ) (beta dx : ℝ) (w : ℂ) (hw : w ≠ 0) (h0 : 0 < beta * dx) (hpi : beta * dx < Real.pi)
    (d : ℕ) : sheetField beta dx (sourceSheets angle dx beta w) (outward angle * (2 - d)) ≠ 0 := by
  rw [← norm_ne_zero_iff, (C91_unidirectional_partial angle beta dx w d).2]
  refine mul_ne_zero (norm_ne_zero_iff.2 hw) (norm_ne_zero_iff.2 fun h => ?_)
  have h1 : exp (-2 * I * beta * dx) = 1 := (sub_eq_zero.1 h).symm
  rw [Complex.exp_eq_one_iff] at h1
  obtain ⟨n, hn⟩ := h1
  have h2 : (beta * dx : ℝ) = -n * Real.pi := by
    have hI := congrArg Complex.im hn
    simp at hI
    linarith
  have hp := Real.pi_pos
  have h3 : (0 : ℝ) < -n := by
    by_contra hc
    nlinarith
  have h4 : (-n : ℝ) < 1 := by
    by_contra hc
    nlinarith
  have h5 : (0 : ℤ) < -n := by exact_mod_cast h3
  have h6 : -n < 1 := by exact_mod_cast h4
  omega

/-- **C91, violated** on the simulation grid itself: there a wave with `beta` in the continuum has the
numerical propagation constant `b` with `2 - 2 cos (b dx) = (beta dx)^2`, and for every resolved mode the
outward side is not dark: its amplitude is `|w| |1 - exp(i (b - beta) dx)| ≠ 0`. -/
theorem C91_grid_counterexample (angle : ℚ) (b beta dx : ℝ) (w : ℂ) (hw : w ≠ 0)
    (hdx : 0 < dx) (hb0 : 0 < b * dx) (hb1 : b * dx ≤ Real.pi) (hbeta : 0 < beta)
    (hdisp : 2 - 2 * Real.cos (b * dx) = (beta * dx) ^ 2) (d : ℕ) :
    sheetField b dx (sourceSheets angle dx beta w) (outward angle * (3 + d)) ≠ 0 := by
  rw [(sheetField_sides angle b beta dx w d).1]
  refine mul_ne_zero (mul_ne_zero hw fun h => ?_) (Complex.exp_ne_zero _)
  have h1 : exp (I * (b - beta) * dx) = 1 := (sub_eq_zero.1 h).symm
  rw [Complex.exp_eq_one_iff] at h1
  obtain ⟨n, hn⟩ := h1
  have h2 : (b - beta) * dx = 2 * n * Real.pi := by
    have hI := congrArg Complex.im hn
    simp at hI
    linarith
  have hbd : 0 < beta * dx := mul_pos hbeta hdx
  -- beta dx = 2 sin (b dx / 2) < b dx, and b dx <= pi
  have hsin : (beta * dx) ^ 2 = (2 * Real.sin (b * dx / 2)) ^ 2 := by
    rw [← hdisp]
    have := Real.cos_sq' (b * dx / 2)
    have h3 := Real.cos_two_mul (b * dx / 2)
    have h4 : 2 * (b * dx / 2) = b * dx := by ring
    rw [h4] at h3
    nlinarith
  have hlt : Real.sin (b * dx / 2) < b * dx / 2 := Real.sin_lt (by linarith)
  have hpos : 0 < Real.sin (b * dx / 2) := Real.sin_pos_of_pos_of_lt_pi (by linarith) (by linarith [Real.pi_pos])
  have hbe : beta * dx = 2 * Real.sin (b * dx / 2) := by
    rcases sq_eq_sq_iff_eq_or_eq_neg.1 hsin with h | h
    · exact h
    · linarith
  have hp := Real.pi_pos
  have h5 : 0 < 2 * (n : ℝ) * Real.pi := by rw [← h2]; nlinarith
  have h6 : 2 * (n : ℝ) * Real.pi < Real.pi := by rw [← h2]; nlinarith
  have h7 : (0 : ℝ) < n := by
    by_contra hc; nlinarith
  have h8 : (n : ℝ) < 1 := by
    by_contra hc; nlinarith
  have h9 : (0 : ℤ) < n := by exact_mod_cast h7
  have h10 : n < 1 := by exact_mod_cast h8
  omega

/-- Such a mode exists: `b dx = pi / 2`, `beta = sqrt 2`, `dx = 1`. -/
example : 2 - 2 * Real.cos (Real.pi / 2 * 1) = (Real.sqrt 2 * 1) ^ 2 := by
  rw [mul_one, mul_one, Real.cos_pi_div_two, Real.sq_sqrt (by norm_num)]; norm_num

/-! ### C92 projection to two dimensions -/

/-- **C92, violated**: `to_2d` raises on every three dimensional grid, whatever the wavelength, slab
location, ports and permittivity: with a default slab location `TypeError` (three positional arguments
for a one-argument method) or `ValueError` (no port), otherwise `AttributeError` or `ValueError` from the
slab mode solver, whose `size` has three entries and whose permittivity is one dimensional. -/
theorem C92_to2d_counterexample (spacing : List ℚ) (hsp : spacing.length = 3) (nz : ℕ) (slabEps : Idx3 → ℚ)
    (wavelength : Option ℚ) (slabLoc : Option (ℚ × ℚ)) (hasPort : Bool) :
    ∃ err, to2dStart 3 spacing nz slabEps wavelength slabLoc hasPort = .error err := by
  unfold to2dStart
  rw [if_neg (by simp)]
  match wavelength with
  | none => exact ⟨_, rfl⟩
  | some w =>
    by_cases hw : w = 0
    · exact ⟨_, by simp [hw]; rfl⟩
    · simp only [hw, if_false]
      match slabLoc with
      | none => cases hasPort <;> exact ⟨_, rfl⟩
      | some l =>
        match spacing, hsp with
        | [d0, d1, d2], _ =>
          simp only [Grid.make, Grid.spacingList, List.map, List.length_cons, List.length_nil, ne_eq,
            not_true_eq_false, if_false, List.zipWith]
          rw [if_neg (by omega)]
          split
          · exact ⟨_, rfl⟩
          · rw [if_neg (by intro h; simpa using congrArg List.length h)]
            exact ⟨_, rfl⟩

/-- With the default slab location on a grid with ports the error is `TypeError`. -/
theorem C92_default_counterexample (spacing : List ℚ) (nz : ℕ) (slabEps : Idx3 → ℚ) (w : ℚ) (hw : w ≠ 0) :
    to2dStart 3 spacing nz slabEps (some w) none true = .error .typeError := by
  simp [to2dStart, hw]

/-- **C92, partial** Grids that are not three dimensional are refused with `RuntimeError`, and a missing
or zero wavelength with `ValueError`. -/
theorem C92_refuses_partial (ndim : ℕ) (spacing : List ℚ) (nz : ℕ) (slabEps : Idx3 → ℚ)
    (wavelength : Option ℚ) (slabLoc : Option (ℚ × ℚ)) (hasPort : Bool) :
    (ndim ≠ 3 → to2dStart ndim spacing nz slabEps wavelength slabLoc hasPort = .error .runtimeError) ∧
    to2dStart 3 spacing nz slabEps none slabLoc hasPort = .error .valueError ∧
    to2dStart 3 spacing nz slabEps (some 0) slabLoc hasPort = .error .valueError := by
  refine ⟨fun h => by simp [to2dStart, h], by simp [to2dStart], by simp [to2dStart]⟩

end Simphox
