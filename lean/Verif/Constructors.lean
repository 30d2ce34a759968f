import Verif.Grid
import Mathlib.Analysis.SpecialFunctions.Complex.Circle

/-!
# Constructors of the simulation grids: Bloch phase and PML arguments (C149)
-/

namespace Simphox

open Complex

/-! ### Model -/

/-- The `bloch_phase` argument: a Python float, a Python int, a tuple or list of numbers, or a numpy array. -/
inductive PhaseArg
  | float (x : ℝ)
  | int (k : ℤ)
  | tuple (l : List ℝ)
  | array (l : List ℝ)

/-- The `pml` argument: `None`, a number or a sequence. -/
inductive PmlArg
  | none
  | scalar (x : ℚ)
  | seq (l : List ℚ)

/-- The attributes that `YeeGrid.__init__` sets from these arguments; `realFields` says that `dtype` is `float64`. -/
structure YeeAttrs where
  pmlShape : Option (List ℤ)
  bloch : List ℂ
  realFields : Bool

/-- numpy broadcasting of two one-dimensional arrays. -/
def broadcast1 {α β γ : Type} (f : α → β → γ) : List α → List β → Except PyError (List γ)
  | [a], b => .ok (b.map (f a))
  | a, [b] => .ok (a.map fun x => f x b)
  | a, b => if a.length = b.length then .ok (List.zipWith f a b) else .error .valueError

/-- `pml_shape` with its two checks (grid.py:343-352): `np.asarray(pml) / spacing` truncated. -/
def initPml (shape : List ℕ) (spacing : List ℚ) (pml : PmlArg) : Except PyError (Option (List ℤ)) :=
  match pml with
  | .none => .ok none
  | .scalar x => check (spacing.map fun d => pyInt (x / d))
  | .seq l => do check (← broadcast1 (fun x d => pyInt (x / d)) l spacing)
where
  check (ps : List ℤ) : Except PyError (Option (List ℤ)) := do
    let big ← broadcast1 (fun (a : ℤ) (n : ℕ) => decide (((n / 2 : ℕ) : ℤ) ≤ a)) ps shape
    if (ps.any fun a => decide (a ≤ 3)) || big.any id then .error .attributeError
    else if ps.length ≠ shape.length then .error .attributeError
    else .ok (some ps)

/-- The Bloch factors (grid.py:353-357). `len` of a 0-d result raises `TypeError`. -/
noncomputable def initBloch (ndim : ℕ) (phase : PhaseArg) : Except PyError (List ℂ) :=
  match phase with
  | .float x => .ok (List.replicate ndim (exp (I * x)))
  | .int _ => .error .typeError
  | .tuple l | .array l => if l.length = ndim then .ok (l.map fun x => exp (I * (x : ℝ))) else .error .attributeError

open Classical in
/-- `pml is None and bloch_phase == 0` (grid.py:358): a tuple is never equal to 0; the truth value of an array with more than one
entry raises `ValueError`. -/
noncomputable def initReal (pml : PmlArg) (phase : PhaseArg) : Except PyError Bool :=
  match pml with
  | .none =>
    match phase with
    | .float x => .ok (decide (x = 0))
    | .int k => .ok (decide (k = 0))
    | .tuple _ => .ok false
    | .array [x] => .ok (decide (x = 0))
    | .array _ => .error .valueError
  | _ => .ok false

/-- `YeeGrid.__init__` (grid.py:325-359), after `Grid.__init__` has set `shape` and `spacing` (with `ndim` entries). -/
noncomputable def yeeInit (shape : List ℕ) (spacing : List ℚ) (pml : PmlArg) (phase : PhaseArg) : Except PyError YeeAttrs := do
  let ps ← initPml shape spacing pml
  let bloch ← initBloch shape.length phase
  let r ← initReal pml phase
  return ⟨ps, bloch, r⟩

/-- `FDTD.__init__` (fdtd.py:36-50): no Bloch phase, and `_set_pml` (fdtd.py:306-318) reads `pml_shape[ax]` for three axes. -/
noncomputable def fdtdInit (shape : List ℕ) (spacing : List ℚ) (pml : PmlArg) : Except PyError YeeAttrs := do
  let a ← yeeInit shape spacing pml (.float 0)
  match a.pmlShape with
  | none => return a
  | some ps => if ps.length < 3 then .error .indexError else return a

/-- `FDFD.from_simgrid` (fdfd.py:102-122): `bloch_phase` is not handed over, `pml` is the pixel count. -/
noncomputable def fdfdFromSimgrid (shape : List ℕ) (spacing : List ℚ) (sim : YeeAttrs) : Except PyError YeeAttrs :=
  yeeInit shape spacing (match sim.pmlShape with | none => .none | some ps => .seq (ps.map fun z => (z : ℚ))) (.float 0)

/-! ### Lemmas -/

theorem broadcast1_eq {α β γ : Type} (f : α → β → γ) (a : List α) (b : List β) (h : a.length = b.length) :
    broadcast1 f a b = .ok (List.zipWith f a b) := by
  match a, b with
  | [], [] => rfl
  | [x], [y] => rfl
  | x :: x' :: xs, y :: y' :: ys => simp only [broadcast1]; rw [if_pos h]

theorem initPml_seq (shape : List ℕ) (spacing l : List ℚ) (h : shape.length = spacing.length) (hl : l.length = spacing.length) :
    initPml shape spacing (.seq l) =
      if ((List.zipWith (fun x d => pyInt (x / d)) l spacing).any fun a => decide (a ≤ 3)) ||
          (List.zipWith (fun (a : ℤ) (n : ℕ) => decide (((n / 2 : ℕ) : ℤ) ≤ a)) (List.zipWith (fun x d => pyInt (x / d)) l spacing) shape).any id
        then .error .attributeError else .ok (some (List.zipWith (fun x d => pyInt (x / d)) l spacing)) := by
  have h1 : (List.zipWith (fun x d => pyInt (x / d)) l spacing).length = shape.length := by
    rw [List.length_zipWith, hl, h, min_self]
  have hb := broadcast1_eq (fun x d => pyInt (x / d)) l spacing hl
  have hb2 := broadcast1_eq (fun (a : ℤ) (n : ℕ) => decide (((n / 2 : ℕ) : ℤ) ≤ a)) _ shape h1
  have e1 : initPml shape spacing (.seq l) = (broadcast1 (fun x d => pyInt (x / d)) l spacing >>= initPml.check shape) := rfl
  rw [e1, hb]
  change initPml.check shape _ = _
  unfold initPml.check
  rw [hb2]
  change (if _ then _ else if _ then _ else _) = _
  rw [if_neg (not_not.2 h1)]

/-- An accepted PML has one thickness per axis. -/
theorem initPml_length (shape : List ℕ) (spacing : List ℚ) (pml : PmlArg) (hp : pml ≠ .none) (ps : Option (List ℤ))
    (hi : initPml shape spacing pml = .ok ps) : ∃ l, ps = some l ∧ l.length = shape.length := by
  have hck : ∀ q : List ℤ, initPml.check shape q = .ok ps → ∃ l, ps = some l ∧ l.length = shape.length := by
    intro q hq
    unfold initPml.check at hq
    cases hb : broadcast1 (fun (a : ℤ) (n : ℕ) => decide (((n / 2 : ℕ) : ℤ) ≤ a)) q shape with
    | error e => rw [hb] at hq; cases hq
    | ok big =>
      rw [hb] at hq
      change (if _ then _ else if _ then _ else _) = _ at hq
      split_ifs at hq with h1 h2
      exact ⟨q, (Except.ok.inj hq).symm, not_not.1 h2⟩
  match pml, hp with
  | .scalar x, _ => exact hck _ hi
  | .seq l, _ =>
    change (broadcast1 (fun x d => pyInt (x / d)) l spacing >>= initPml.check shape) = _ at hi
    cases hb : broadcast1 (fun x d => pyInt (x / d)) l spacing with
    | error e => rw [hb] at hi; cases hi
    | ok q => rw [hb] at hi; exact hck q hi

/-! ### C149: PML -/

/-- C149: for a PML given per axis the constructor accepts exactly the thicknesses of more than 3 and less than half the number of
cells on every axis, and keeps the thickness in cells. For every dimension, shape and spacing. -/
theorem C149_pml_partial (shape : List ℕ) (spacing l : List ℚ) (h : shape.length = spacing.length) (hl : l.length = spacing.length)
    (ps : Option (List ℤ)) :
    initPml shape spacing (.seq l) = .ok ps ↔
      ps = some (List.zipWith (fun x d => pyInt (x / d)) l spacing) ∧
      ∀ (a : ℕ) (h1 : a < shape.length), 3 < pyInt (l[a]'(by omega) / spacing[a]'(by omega)) ∧
        pyInt (l[a]'(by omega) / spacing[a]'(by omega)) < ((shape[a] / 2 : ℕ) : ℤ) := by
  rw [initPml_seq shape spacing l h hl]
  have hc : (((List.zipWith (fun x d => pyInt (x / d)) l spacing).any fun a => decide (a ≤ 3)) ||
      (List.zipWith (fun (a : ℤ) (n : ℕ) => decide (((n / 2 : ℕ) : ℤ) ≤ a)) (List.zipWith (fun x d => pyInt (x / d)) l spacing) shape).any id) = true ↔
      ¬ ∀ (a : ℕ) (h1 : a < shape.length), 3 < pyInt (l[a]'(by omega) / spacing[a]'(by omega)) ∧
        pyInt (l[a]'(by omega) / spacing[a]'(by omega)) < ((shape[a] / 2 : ℕ) : ℤ) := by
    rw [Bool.or_eq_true, List.any_eq_true, List.any_eq_true]
    push Not
    constructor
    · rintro (⟨x, hx, hx3⟩ | ⟨x, hx, hx2⟩)
      · obtain ⟨a, ha, rfl⟩ := List.getElem_of_mem hx
        rw [List.length_zipWith] at ha
        refine ⟨a, by omega, fun h3 => absurd (of_decide_eq_true hx3) ?_⟩
        rw [List.getElem_zipWith]
        omega
      · obtain ⟨a, ha, rfl⟩ := List.getElem_of_mem hx
        rw [List.length_zipWith, List.length_zipWith] at ha
        refine ⟨a, by omega, fun _ => ?_⟩
        rw [id, List.getElem_zipWith, List.getElem_zipWith] at hx2
        exact of_decide_eq_true hx2
    · rintro ⟨a, ha, h3⟩
      have e : (List.zipWith (fun x d => pyInt (x / d)) l spacing)[a]'(by rw [List.length_zipWith]; omega)
          = pyInt (l[a]'(by omega) / spacing[a]'(by omega)) := List.getElem_zipWith
      by_cases hh : 3 < pyInt (l[a]'(by omega) / spacing[a]'(by omega))
      · right
        refine ⟨true, ?_, rfl⟩
        have hm := List.getElem_mem (l := List.zipWith (fun (a : ℤ) (n : ℕ) => decide (((n / 2 : ℕ) : ℤ) ≤ a))
          (List.zipWith (fun x d => pyInt (x / d)) l spacing) shape) (n := a) (by rw [List.length_zipWith, List.length_zipWith]; omega)
        rw [List.getElem_zipWith, e, decide_eq_true (h3 hh)] at hm
        exact hm
      · left
        refine ⟨_, List.getElem_mem (n := a) (by rw [List.length_zipWith]; omega), ?_⟩
        rw [e]
        exact decide_eq_true (by omega)
  split_ifs with hcond
  · have := hc.1 hcond
    exact ⟨fun h => absurd h (by intro h; cases h), fun h => absurd h.2 this⟩
  · have := not_not.1 (fun h => hcond (hc.2 h))
    exact ⟨fun h => ⟨(Except.ok.inj h).symm, this⟩, fun h => by rw [h.1]⟩

/-- C149: a single number means the same thickness on every axis. -/
theorem C149_pml_scalar_partial (shape : List ℕ) (spacing : List ℚ) (x : ℚ) :
    initPml shape spacing (.scalar x) = initPml shape spacing (.seq (List.replicate spacing.length x)) := by
  have hz : ∀ s : List ℚ, List.zipWith (fun x d => pyInt (x / d)) (List.replicate s.length x) s = s.map fun d => pyInt (x / d) := by
    intro s
    induction s with
    | nil => rfl
    | cons d s ih => simp only [List.length_cons, List.replicate_succ, List.zipWith_cons_cons, List.map_cons, ih]
  have e1 : initPml shape spacing (.seq (List.replicate spacing.length x))
      = (broadcast1 (fun x d => pyInt (x / d)) (List.replicate spacing.length x) spacing >>= initPml.check shape) := rfl
  rw [e1, broadcast1_eq _ _ _ (by simp), hz]
  rfl

/-! ### C149: Bloch phase -/

/-- C149: with a float, or one phase per axis as a tuple, the grid gets the factors `exp(i phase)`; a float is the same as that
float on every axis. For every dimension and every accepted PML. -/
theorem C149_bloch_partial (shape : List ℕ) (spacing : List ℚ) (pml : PmlArg) (ps : Option (List ℤ)) (hp : initPml shape spacing pml = .ok ps)
    (l : List ℝ) (hl : l.length = shape.length) (x : ℝ) :
    (∃ a, yeeInit shape spacing pml (.tuple l) = .ok a ∧ a.pmlShape = ps ∧ a.bloch.length = shape.length ∧
      ∀ k (hk : k < l.length), a.bloch[k]? = some (exp (I * (l[k] : ℝ)))) ∧
    ∃ a, yeeInit shape spacing pml (.float x) = .ok a ∧ a.pmlShape = ps ∧ a.bloch.length = shape.length ∧
      ∀ k < shape.length, a.bloch[k]? = some (exp (I * x)) := by
  have hr : ∃ r, initReal pml (.tuple l) = .ok r := by cases pml <;> exact ⟨_, rfl⟩
  have hr2 : ∃ r, initReal pml (.float x) = .ok r := by cases pml <;> exact ⟨_, rfl⟩
  obtain ⟨r, hr⟩ := hr
  obtain ⟨r2, hr2⟩ := hr2
  constructor
  · refine ⟨⟨ps, l.map fun x => exp (I * (x : ℝ)), r⟩, ?_, rfl, by simpa using hl, fun k hk => by simp [hk]⟩
    have hb : initBloch shape.length (.tuple l) = .ok (l.map fun x => exp (I * (x : ℝ))) := if_pos hl
    unfold yeeInit
    rw [hp, hb, hr]
    rfl
  · refine ⟨⟨ps, List.replicate shape.length (exp (I * x)), r2⟩, ?_, rfl, by simp, fun k hk => by simp [hk]⟩
    unfold yeeInit
    rw [hp, hr2]
    rfl

/-- C149: a tuple with the wrong number of phases is refused. -/
theorem C149_bloch_length_partial (shape : List ℕ) (spacing : List ℚ) (pml : PmlArg) (ps : Option (List ℤ))
    (hp : initPml shape spacing pml = .ok ps) (l : List ℝ) (hl : l.length ≠ shape.length) :
    yeeInit shape spacing pml (.tuple l) = .error .attributeError := by
  have hb : initBloch shape.length (.tuple l) = .error .attributeError := if_neg hl
  unfold yeeInit
  rw [hp, hb]
  rfl

/-- **C149, violated**: an integer phase (`bloch_phase=0`) raises for every grid. -/
theorem C149_int_phase_counterexample (shape : List ℕ) (spacing : List ℚ) (pml : PmlArg) (k : ℤ) (a : YeeAttrs) :
    yeeInit shape spacing pml (.int k) ≠ .ok a := by
  unfold yeeInit
  cases initPml shape spacing pml with
  | error e => intro h; cases h
  | ok ps => intro h; cases h

/-- **C149, violated**: a numpy array of phases raises for every two and three dimensional grid without PML (with PML it works). -/
theorem C149_array_phase_counterexample (shape : List ℕ) (spacing : List ℚ) (l : List ℝ) (h2 : 2 ≤ shape.length) (a : YeeAttrs) :
    yeeInit shape spacing .none (.array l) ≠ .ok a := by
  unfold yeeInit
  have hp : initPml shape spacing .none = .ok none := rfl
  rw [hp]
  change (initBloch shape.length (.array l) >>= fun bloch => initReal .none (.array l) >>= fun r => pure (⟨none, bloch, r⟩ : YeeAttrs)) ≠ _
  unfold initBloch
  dsimp only
  split_ifs with hl
  · match l, hl with
    | [], hl => intro h; cases h
    | [x], hl => simp at hl; omega
    | x :: y :: t, hl => intro h; cases h
  · intro h; cases h

/-! ### C149: FDTD and FDFD -/

/-- C149: every three dimensional FDTD with an accepted PML, and every FDTD without PML, is constructed. -/
theorem C149_fdtd_partial (shape : List ℕ) (spacing : List ℚ) (pml : PmlArg) (ps : Option (List ℤ)) (hp : initPml shape spacing pml = .ok ps)
    (h : pml = .none ∨ shape.length = 3) :
    ∃ a, fdtdInit shape spacing pml = .ok a ∧ a.pmlShape = ps := by
  obtain ⟨_, a, ha, hps, _⟩ := C149_bloch_partial shape spacing pml ps hp (List.replicate shape.length 0) (by simp) 0
  refine ⟨a, ?_, hps⟩
  unfold fdtdInit
  rw [ha]
  change (match a.pmlShape with | none => (pure a : Except PyError YeeAttrs) | some ps => if ps.length < 3 then .error .indexError else pure a) = _
  rw [hps]
  by_cases hn : pml = .none
  · subst hn
    have : (none : Option (List ℤ)) = ps := Except.ok.inj hp
    subst this
    rfl
  · obtain ⟨l, rfl, hl⟩ := initPml_length shape spacing pml hn ps hp
    have h3 : shape.length = 3 := h.resolve_left hn
    dsimp only
    rw [if_neg (by omega)]
    rfl

/-- **C149, violated**: no one or two dimensional FDTD has a PML: the constructor raises for every shape, spacing and thickness. -/
theorem C149_fdtd_counterexample (shape : List ℕ) (spacing : List ℚ) (h : shape.length < 3) (pml : PmlArg) (hp : pml ≠ .none) (a : YeeAttrs) :
    fdtdInit shape spacing pml ≠ .ok a := by
  intro hok
  unfold fdtdInit at hok
  cases hy : yeeInit shape spacing pml (.float 0) with
  | error e => rw [hy] at hok; cases hok
  | ok b =>
    rw [hy] at hok
    change (match b.pmlShape with | none => (pure b : Except PyError YeeAttrs) | some ps => if ps.length < 3 then .error .indexError else pure b) = _ at hok
    unfold yeeInit at hy
    cases hi : initPml shape spacing pml with
    | error e => rw [hi] at hy; cases hy
    | ok ps =>
      rw [hi] at hy
      have hbp : b.pmlShape = ps := by
        cases hr : initReal pml (.float 0) with
        | error e => rw [hr] at hy; cases hy
        | ok r =>
          rw [hr] at hy
          have := Except.ok.inj hy
          rw [← this]
      have hlen := initPml_length shape spacing pml hp ps hi
      obtain ⟨l, rfl, hl⟩ := hlen
      rw [hbp] at hok
      dsimp only at hok
      rw [if_pos (by omega)] at hok
      cases hok

/-- **C149, violated**: `FDFD.from_simgrid` forgets the Bloch phase: the factors of the result are 1, whatever those of the grid. -/
theorem C149_from_simgrid_counterexample (shape : List ℕ) (spacing : List ℚ) (sim b : YeeAttrs) (h : fdfdFromSimgrid shape spacing sim = .ok b) :
    ∀ z ∈ b.bloch, z = 1 := by
  unfold fdfdFromSimgrid yeeInit at h
  generalize (match sim.pmlShape with | none => PmlArg.none | some ps => PmlArg.seq (ps.map fun z => (z : ℚ))) = pml at h
  cases hi : initPml shape spacing pml with
  | error e => rw [hi] at h; cases h
  | ok ps =>
    rw [hi] at h
    cases hr : initReal pml (.float 0) with
    | error e => rw [hr] at h; cases h
    | ok r =>
      rw [hr] at h
      have := Except.ok.inj h
      rw [← this]
      intro z hz
      have : z = exp (I * ((0 : ℝ) : ℂ)) := List.eq_of_mem_replicate hz
      rw [this]
      simp

/-- C149, the type of the fields: they are stored as real numbers only if there is no PML and every Bloch factor is 1, and they are
for `bloch_phase=0.` without PML. -/
theorem C149_dtype_partial (shape : List ℕ) (spacing : List ℚ) (pml : PmlArg) (phase : PhaseArg) (a : YeeAttrs)
    (h : yeeInit shape spacing pml phase = .ok a) :
    (a.realFields = true → a.pmlShape = none ∧ ∀ z ∈ a.bloch, z = 1) ∧
    (pml = .none → phase = .float 0 → a.realFields = true) := by
  unfold yeeInit at h
  cases hi : initPml shape spacing pml with
  | error e => rw [hi] at h; cases h
  | ok ps =>
    rw [hi] at h
    cases hb : initBloch shape.length phase with
    | error e => rw [hb] at h; cases h
    | ok b =>
      rw [hb] at h
      cases hr : initReal pml phase with
      | error e => rw [hr] at h; cases h
      | ok r =>
        rw [hr] at h
        have := Except.ok.inj h
        subst this
        constructor
        · intro hreal
          change r = true at hreal
          subst hreal
          cases pml with
          | scalar x => cases hr
          | seq l => cases hr
          | none =>
            refine ⟨(Except.ok.inj hi).symm, ?_⟩
            intro z hz
            change z ∈ b at hz
            cases phase with
            | float x =>
              have hx : x = 0 := of_decide_eq_true (Except.ok.inj hr)
              have h1 := Except.ok.inj hb
              rw [← h1] at hz
              rw [List.eq_of_mem_replicate hz, hx]
              simp
            | int k => cases hb
            | tuple l => cases hr
            | array l =>
              match l, hr, hb with
              | [x], hr, hb =>
                have hx : x = 0 := of_decide_eq_true (Except.ok.inj hr)
                unfold initBloch at hb
                simp only at hb
                split_ifs at hb
                have h1 := Except.ok.inj hb
                rw [← h1, hx] at hz
                simpa using hz
              | [], hr, _ => cases hr
              | _ :: _ :: _, hr, _ => cases hr
        · rintro rfl rfl
          have h1 : initReal .none (.float 0) = .ok true := by simp [initReal]
          rw [h1] at hr
          exact (Except.ok.inj hr).symm

/-- Non-vacuity of `C149_dtype_partial`: a 2D grid without PML and Bloch phase has real fields. -/
example : ∃ a, yeeInit [40, 30] [1 / 20, 1 / 20] .none (.float 0) = .ok a ∧ a.realFields = true := by
  refine ⟨_, rfl, ?_⟩
  simp

/-- A 2D grid of 40 × 30 cells of 1/20 with a PML of 1/4 on each side. -/
example : initPml [40, 30] [1 / 20, 1 / 20] (.scalar (1 / 4)) = .ok (some [5, 5]) := by decide +kernel

example : ∃ b, fdfdFromSimgrid [40, 30] [1 / 20, 1 / 20] ⟨none, [exp (I * 1), exp (I * 1)], false⟩ = .ok b := ⟨_, rfl⟩

end Simphox
