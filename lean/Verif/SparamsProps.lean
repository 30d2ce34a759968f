import Verif.Sparams

/-! # C110: `FDFD.sparams` is normalised by the source -/

namespace Simphox

open ExcDoc

/-- Specification: every measured outgoing amplitude over the incoming amplitude measured for the source. -/
def SparamsOf (req : List (String × ℤ)) (measured : List (ℂ × ℂ)) (src : String × ℤ) (out : List ℂ) : Prop :=
  ∃ k : ℕ, req[k]? = some src ∧ (∀ j : ℕ, j < k → req[j]? ≠ some src) ∧
    ∃ p : ℂ × ℂ, measured[k]? = some p ∧ out = measured.map fun m => m.1 / p.2

theorem pairsOf_map (l : List (String × ℤ)) : pairsOf (l.map pyPair) = .ok l := by
  induction l with
  | nil => rfl
  | cons a l ih => simp only [List.map_cons, pyPair, pairsOf, bind, Except.bind] at ih ⊢; rw [ih]

theorem toPyAll_pairs (l : List (String × ℤ)) :
    toPyAll (l.map fun p => ExcDoc.pair p.1 p.2) = l.map pyPair ∧
      flatAll (l.map fun p => ExcDoc.pair p.1 p.2) = l ∧ handledAll (l.map fun p => ExcDoc.pair p.1 p.2) = true := by
  induction l with
  | nil => simp [toPyAll, flatAll, handledAll]
  | cons a l ih => simp [toPyAll, flatAll, handledAll, toPy, flat, handled, pyPair, ih]

theorem parse_pairs (t : Bool) (l : List (String × ℤ)) (hl : l ≠ []) :
    Exc.parse (.seq t (l.map pyPair)) = .ok (some (l.map pyPair)) := by
  obtain ⟨h1, h2, h3⟩ := toPyAll_pairs l
  have := parse_handled (.group t (l.map fun p => ExcDoc.pair p.1 p.2)) (by
    cases l with
    | nil => exact absurd rfl hl
    | cons a l =>
      simp only [handled, h3, Bool.and_true, Bool.and_eq_true, Bool.not_eq_true']
      cases l <;> simp [isLoneName])
  simpa only [toPy, flat, h1, h2] using this

theorem findIdx_pairs (l : List (String × ℤ)) (port : String) (mode : ℕ) :
    (l.map pyPair).findIdx? (eqPair port mode) = l.findIdx? fun e => e == (port, (mode : ℤ)) := by
  rw [List.findIdx?_map]
  congr 1

theorem infoIndex_pairs (t : Bool) (l : List (String × ℤ)) (port : String) (mode : ℕ)
    (h : (port, (mode : ℤ)) ∈ l) :
    ∃ k, infoIndex port mode (.seq t (l.map pyPair)) = .ok k ∧ l[k]? = some (port, (mode : ℤ)) ∧
      ∀ j, j < k → l[j]? ≠ some (port, (mode : ℤ)) := by
  simp only [infoIndex, findIdx_pairs]
  cases hf : l.findIdx? fun e => e == (port, (mode : ℤ)) with
  | none =>
    rw [List.findIdx?_eq_none_iff] at hf
    simpa using hf _ h
  | some k =>
    rw [List.findIdx?_eq_some_iff_getElem] at hf
    obtain ⟨hk, e, hj⟩ := hf
    refine ⟨k, rfl, ?_, ?_⟩
    · rw [List.getElem?_eq_getElem hk]; simpa using e
    · intro j hjk
      rw [List.getElem?_eq_getElem (by omega)]
      simpa using hj j hjk

/-- C110 (partial: `measure_info` absent or a flat list of `(port, mode)` tuples, source on mode 0). With one
measured pair per request, every entry is the outgoing amplitude over the incoming amplitude at the source. -/
theorem C110_list_partial (solve : String → ℕ → List ℝ) (order ports : List String) (hset : SetOrder ports order)
    (hsolve : ∀ p ∈ ports, (solve p 1).length = 1) (measure : List (String × ℤ) → List (ℂ × ℂ))
    (hm : ∀ l, (measure l).length = l.length) (port : String) (hp : port ∈ ports) (t : Bool)
    (req : List (String × ℤ)) (hreq : (port, 0) ∈ req) :
    ∃ out, fdfdSparams solve order ports measure port 0 (some (.seq t (req.map pyPair))) = .ok out ∧
      SparamsOf req (measure req) (port, 0) out := by
  obtain ⟨bs, hb, _⟩ := C67_source_partial solve order ports hset hsolve [port] (by simpa using hp)
  obtain ⟨k, hk, h1, h2⟩ := infoIndex_pairs t req port 0 (by simpa using hreq)
  simp only [List.map_cons, List.map_nil] at hb
  have hkl : k < (measure req).length := by
    rw [hm]; exact (List.getElem?_eq_some_iff.1 h1).1
  refine ⟨_, ?_, k, by simpa using h1, by simpa using h2, _, List.getElem?_eq_getElem hkl, rfl⟩
  simp only [fdfdSparams, Option.getD_some, parse_pairs t req (List.ne_nil_of_mem hreq), bind, Except.bind, pairsOf_map,
    hb, hk, List.getElem?_eq_getElem hkl]

/-- C110 (partial). Without `measure_info` all ports are measured on mode 0. -/
theorem C110_default_partial (solve : String → ℕ → List ℝ) (order ports : List String) (hset : SetOrder ports order)
    (hsolve : ∀ p ∈ ports, (solve p 1).length = 1) (measure : List (String × ℤ) → List (ℂ × ℂ))
    (hm : ∀ l, (measure l).length = l.length) (port : String) (hp : port ∈ ports) :
    ∃ out, fdfdSparams solve order ports measure port 0 none = .ok out ∧
      SparamsOf (ports.map fun p => (p, 0)) (measure (ports.map fun p => (p, 0))) (port, 0) out := by
  have e : fdfdSparams solve order ports measure port 0 none = fdfdSparams solve order ports measure port 0
      (some (.seq false ((ports.map fun p => (p, (0 : ℤ))).map pyPair))) := by
    have hne : ports.map (fun p => (p, (0 : ℤ))) ≠ [] := by
      simpa using List.ne_nil_of_mem hp
    have hmap : (ports.map fun p => (p, (0 : ℤ))).map pyPair = ports.map fun p => Exc.seq true [.str p, .int 0] := by
      simp [pyPair]
    simp only [fdfdSparams, Option.getD_none, Option.getD_some, parse_pairs false _ hne, bind, Except.bind, pairsOf_map]
    rw [hmap]
  rw [e]
  exact C110_list_partial solve order ports hset hsolve measure hm port hp false _ (List.mem_map.2 ⟨port, hp, rfl⟩)

/-- The plain and the differentiable interface agree by default. -/
theorem C110_agrees_default_partial (solve : String → ℕ → List ℝ) (order ports : List String) (hnd : ports.Nodup)
    (hset : SetOrder ports order) (hsolve : ∀ p ∈ ports, (solve p 1).length = 1)
    (measure : List (String × ℤ) → List (ℂ × ℂ)) (hm : ∀ l, (measure l).length = l.length) (port : String)
    (hp : port ∈ ports) :
    fdfdSparams solve order ports measure port 0 none =
      simSparams ports (measure (ports.map fun p => (p, 0))) (some (port, 0)) none := by
  obtain ⟨out, h1, k, h2, _, p, h4, h5⟩ := C110_default_partial solve order ports hset hsolve measure hm port hp
  rw [h1]
  have hk : k < ports.length := by
    have := (List.getElem?_eq_some_iff.1 h2).1; simpa using this
  have hpk : ports[k] = port := by
    simp [List.getElem?_eq_getElem hk] at h2; exact h2
  have h3 := C90_default_partial ports hnd (measure (ports.map fun p => (p, 0))) (by rw [hm]; simp) k hk
  rw [hpk] at h3
  rw [h3, h5]
  congr 1
  have hkm : k < (measure (ports.map fun p => (p, 0))).length := by rw [hm]; simpa using hk
  rw [List.getElem?_eq_getElem hkm] at h4
  rw [Option.some.inj h4]

/-- **C110, violated**: the documented `measure_info` format, a dict from port to mode indices, never works. -/
theorem C110_dict_counterexample (solve : String → ℕ → List ℝ) (order ports : List String)
    (measure : List (String × ℤ) → List (ℂ × ℂ)) (port : String) (mode : ℕ) (d : List (String × List ℤ)) :
    ∃ err, fdfdSparams solve order ports measure port mode (some (.dict d)) = .error err := by
  cases h : fdfdSparams solve order ports measure port mode (some (.dict d)) with
  | error e => exact ⟨e, rfl⟩
  | ok v =>
    exfalso
    simp only [fdfdSparams, infoIndex, Option.getD_some, bind, Except.bind] at h
    repeat' split at h
    all_goals simp_all

/-- **C110, violated**: nor does a list of bare port names, which `get_measure_fn` accepts. -/
theorem C110_names_counterexample (solve : String → ℕ → List ℝ) (order ports : List String)
    (measure : List (String × ℤ) → List (ℂ × ℂ)) (port : String) (mode : ℕ) (names : List String) (t : Bool) :
    ∃ err, fdfdSparams solve order ports measure port mode (some (.seq t (names.map .str))) = .error err := by
  have hidx : infoIndex port mode (.seq t (names.map .str)) = .error .valueError := by
    have : (names.map Exc.str).findIdx? (eqPair port mode) = none := by
      rw [List.findIdx?_eq_none_iff]
      intro x hx
      obtain ⟨s, _, rfl⟩ := List.mem_map.1 hx
      rfl
    simp only [infoIndex, this]
  cases h : fdfdSparams solve order ports measure port mode (some (.seq t (names.map .str))) with
  | error e => exact ⟨e, rfl⟩
  | ok v =>
    exfalso
    simp only [fdfdSparams, Option.getD_some, bind, Except.bind, hidx] at h
    repeat' split at h
    all_goals simp_all

/-- **C110, violated**: in a nested request the position in the nested list is used in the flat one: with
`[[("a", 0), ("b", 0)], ("c", 0)]` and source `c`, everything is divided by the wave coming in at `b`. -/
theorem C110_nested_counterexample (solve : String → ℕ → List ℝ) (hsolve : ∀ p, (solve p 1).length = 1)
    (oa ia ob ib oc ic : ℂ) :
    fdfdSparams solve ["a", "b", "c"] ["a", "b", "c"] (fun _ => [(oa, ia), (ob, ib), (oc, ic)]) "c" 0
      (some (.seq false [.seq false [pyPair ("a", 0), pyPair ("b", 0)], pyPair ("c", 0)])) =
      .ok [oa / ib, ob / ib, oc / ib] := by
  obtain ⟨bs, hb, _⟩ := C67_source_partial solve ["a", "b", "c"] ["a", "b", "c"] ⟨by decide, fun x => Iff.rfl⟩
    (fun p _ => hsolve p) ["c"] (by simp)
  simp only [List.map_cons, List.map_nil] at hb
  have hparse : Exc.parse (.seq false [.seq false [pyPair ("a", 0), pyPair ("b", 0)], pyPair ("c", 0)]) =
      .ok (some [pyPair ("a", 0), pyPair ("b", 0), pyPair ("c", 0)]) := by
    exact parse_handled (.group false [.group false [.pair "a" 0, .pair "b" 0], .pair "c" 0]) rfl
  have hpairs : pairsOf [pyPair ("a", 0), pyPair ("b", 0), pyPair ("c", 0)] = .ok [("a", 0), ("b", 0), ("c", 0)] :=
    pairsOf_map [("a", 0), ("b", 0), ("c", 0)]
  have hidx : infoIndex "c" 0 (.seq false [.seq false [pyPair ("a", 0), pyPair ("b", 0)], pyPair ("c", 0)]) = .ok 1 := by
    simp [infoIndex, eqPair, pyPair, List.findIdx?_cons]
  simp only [fdfdSparams, Option.getD_some, hparse, hpairs, hb, hidx, bind, Except.bind]
  simp

/-- Non-vacuity: two ports and a solver with one mode each meet the hypotheses. -/
example : ∃ out, fdfdSparams (fun _ _ => [1]) ["b", "a"] ["a", "b"] (fun l => l.map fun _ => (1, 2)) "b" 0
    (some (.seq false [pyPair ("b", 0), pyPair ("a", 0)])) = .ok out := by
  obtain ⟨out, h, _⟩ := C110_list_partial (fun _ _ => [1]) ["b", "a"] ["a", "b"]
    ⟨by decide, fun x => by simp [or_comm]⟩ (by simp) (fun l => l.map fun _ => (1, 2)) (by simp) "b" (by simp) false
    [("b", 0), ("a", 0)] (by simp)
  exact ⟨out, h⟩

end Simphox
