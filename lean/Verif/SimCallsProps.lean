import Verif.SimCalls
import Verif.SimProps

/-!
# The wavelength of sources and measurements (C143) and component models (C144)
-/

namespace Simphox

variable {Lib Src Fld : Type}

/-! ### Specification -/

open Classical in
/-- The outgoing and the incoming amplitude of the fundamental mode at a port, for fields `f`, with the mode of the cross
section `sizeFactor` times the port at the given wavelength. -/
noncomputable def portAmplitudes (S : PortSim Lib Src Fld) (wavelength sizeFactor : ℝ) (f : Fld) (port : String) : ℂ × ℂ :=
  let m := S.measure port (S.modes ⟨port, sizeFactor, wavelength, 1⟩) 0 f
  if FacesPositive (S.angle port) then m else (m.2, m.1)

/-- The fields excited by the fundamental mode of a port, with the mode at the given wavelength. -/
noncomputable def excite (S : PortSim Lib Src Fld) (wavelength sizeFactor : ℝ) (port : String) : Fld :=
  S.fields (S.place port (S.modes ⟨port, sizeFactor, wavelength, 1⟩) 0)

/-- The S-parameter from port `i` to port `o` with all modes at the given wavelength and size factor. -/
noncomputable def sparamAt (S : PortSim Lib Src Fld) (wavelength sizeFactor : ℝ) (i o : String) : ℂ :=
  (portAmplitudes S wavelength sizeFactor (excite S wavelength sizeFactor i) o).1 /
    (portAmplitudes S wavelength sizeFactor (excite S wavelength sizeFactor i) i).2

/-! ### Lemmas -/

theorem numModes_default (ports : List String) (p : String) : numModes (ports.map fun q => (q, 0)) p = 1 := by
  unfold numModes
  have : ∀ l : List ℕ, (∀ x ∈ l, x = 0) → l.foldr max 0 = 0 := by
    intro l
    induction l with
    | nil => intro _; rfl
    | cons a l ih =>
      intro h
      rw [List.foldr_cons, ih fun x hx => h x (List.mem_cons_of_mem _ hx), h a List.mem_cons_self]
      rfl
  rw [this]
  intro x hx
  simp only [List.mem_map, List.mem_filter] at hx
  obtain ⟨e, ⟨⟨q, _, rfl⟩, _⟩, rfl⟩ := hx
  rfl

theorem getMeasureFn_default (S : PortSim Lib Src Fld) (hp : S.ports.Nodup) (ho : S.setOrder S.ports = S.ports) (w c : ℝ) (f : Fld) :
    S.getMeasureFn none w c f = S.ports.map (portAmplitudes S w c f) := by
  unfold PortSim.getMeasureFn
  have he : S.excitation none = S.ports.map fun p => (p, 0) := rfl
  have h1 : (S.ports.map fun p => (p, 0)).map Prod.fst = S.ports := by
    rw [List.map_map]
    exact List.map_id _
  have h2 := C66_request_order_partial S.angle (S.ports.map fun p => (p, 0)) (by rw [h1]; exact hp)
    (fun e => S.measure e.1 (S.modes ⟨e.1, c, w, numModes (S.ports.map fun p => (p, 0)) e.1⟩) e.2 f)
  simp only [he, h1] at h2 ⊢
  rw [ho, h2]
  unfold measureSpec
  rw [List.map_map]
  apply List.map_congr_left
  intro p _
  simp only [Function.comp_apply, numModes_default]
  rfl

theorem fdfd_eq_sim (S : PortSim Lib Src Fld) (i : String) : S.fdfdSparamsFn i 0 none = S.simSparamsFn (some i) 0 3 none := by
  unfold PortSim.fdfdSparamsFn PortSim.simSparamsFn simSparams
  simp only [Option.map_some, Option.some_or, PortSim.excitation, Option.getD_none]
  cases (S.ports.map fun p => (p, 0)).findIdx? fun e => e = (i, 0) with
  | none => rfl
  | some k =>
    dsimp only
    cases (S.getMeasureFn none defaultWavelength 3 (S.fields (S.portSource i 0 3 defaultWavelength)))[k]? <;> rfl

/-! ### C143 -/

/-- What `get_sim_sparams_fn` computes: the source is the mode at 1.55 of the cross section with the given factor, the
measurement uses the modes at 1.55 of the cross sections with factor 3. Ports without repetitions, iterated in order. -/
theorem C143_sim_sparams_partial (S : PortSim Lib Src Fld) (hp : S.ports.Nodup) (ho : S.setOrder S.ports = S.ports) (i : String)
    (hi : i ∈ S.ports) (sizeFactor : ℝ) :
    S.simSparamsFn (some i) 0 sizeFactor none = .ok (S.ports.map fun o =>
      (portAmplitudes S 1.55 3 (excite S 1.55 sizeFactor i) o).1 / (portAmplitudes S 1.55 3 (excite S 1.55 sizeFactor i) i).2) := by
  obtain ⟨k, hk, rfl⟩ := List.getElem_of_mem hi
  unfold PortSim.simSparamsFn
  simp only [Option.map_some, Option.some_or]
  rw [getMeasureFn_default S hp ho]
  have hl : (S.ports.map (portAmplitudes S defaultWavelength 3 (S.fields (S.portSource S.ports[k] 0 sizeFactor defaultWavelength)))).length
      = S.ports.length := List.length_map _
  rw [C90_default_partial S.ports hp _ hl k hk]
  have hsrc : S.fields (S.portSource S.ports[k] 0 sizeFactor defaultWavelength) = excite S 1.55 sizeFactor S.ports[k] := by
    unfold PortSim.portSource excite
    rw [numModes_default]
    rfl
  simp only [List.map_map, List.getElem_map, hsrc]
  rfl

/-- For every port, mode index, size factor and measurement request of `get_sim_sparams_fn`: the fields are those excited by
the named mode of the named port, from a library with a single mode at 1.55 (so that indices above zero do not exist, C67);
all ports are measured, whatever the request. -/
theorem C143_source_exact_partial (S : PortSim Lib Src Fld) (hp : S.ports.Nodup) (ho : S.setOrder S.ports = S.ports) (port : String)
    (mode : ℕ) (sizeFactor : ℝ) (info : Option (List (String × ℕ))) (res : List ℂ) :
    S.simSparamsFn (some port) mode sizeFactor info = .ok res ↔
      ∃ k, ∃ hk : k < S.ports.length,
        ((info.getD (S.ports.map fun p => (p, 0))).findIdx? fun e => e = (port, mode)) = some k ∧
        res = S.ports.map fun o =>
          (portAmplitudes S 1.55 3 (S.fields (S.place port (S.modes ⟨port, sizeFactor, 1.55, 1⟩) mode)) o).1 /
            (portAmplitudes S 1.55 3 (S.fields (S.place port (S.modes ⟨port, sizeFactor, 1.55, 1⟩) mode)) S.ports[k]).2 := by
  unfold PortSim.simSparamsFn simSparams
  simp only [Option.map_some, Option.some_or]
  rw [getMeasureFn_default S hp ho]
  have hsrc : S.fields (S.portSource port mode sizeFactor defaultWavelength)
      = S.fields (S.place port (S.modes ⟨port, sizeFactor, 1.55, 1⟩) mode) := by
    unfold PortSim.portSource
    rw [numModes_default]
    rfl
  rw [hsrc]
  have hd : (1.55 : ℝ) = defaultWavelength := rfl
  cases hk : (info.getD (S.ports.map fun p => (p, 0))).findIdx? fun e => e = (port, mode) with
  | none => simp
  | some k =>
    dsimp only
    by_cases hkl : k < S.ports.length
    · rw [List.getElem?_map, List.getElem?_eq_getElem hkl]
      simp only [Option.map_some, List.map_map, Except.ok.injEq, hd]
      constructor
      · rintro rfl
        exact ⟨k, hkl, rfl, rfl⟩
      · rintro ⟨k', _, he, rfl⟩
        cases he
        rfl
    · rw [List.getElem?_map, List.getElem?_eq_none (by omega)]
      simp only [Option.map_none, reduceCtorEq, false_iff]
      rintro ⟨k', hk', he, _⟩
      cases he
      exact hkl hk'

/-- C143, what holds: a simulation at the wavelength 1.55 with size factor 3 returns the S-parameters of the modes at
its own wavelength, from `get_sim_sparams_fn` and from `FDFD.sparams`. -/
theorem C143_default_partial (S : PortSim Lib Src Fld) (hp : S.ports.Nodup) (ho : S.setOrder S.ports = S.ports) (i : String)
    (hi : i ∈ S.ports) (hw : S.wavelength = 1.55) :
    S.simSparamsFn (some i) 0 3 none = .ok (S.ports.map (sparamAt S S.wavelength 3 i)) ∧
    S.fdfdSparamsFn i 0 none = .ok (S.ports.map (sparamAt S S.wavelength 3 i)) := by
  have h1 : S.simSparamsFn (some i) 0 3 none = .ok (S.ports.map (sparamAt S S.wavelength 3 i)) := by
    rw [C143_sim_sparams_partial S hp ho i hi, hw]
    rfl
  refine ⟨h1, ?_⟩
  rw [fdfd_eq_sim, h1]

/-- **C143, violated**: nothing that depends on modes at another wavelength than 1.55 enters the results of `get_sim_fn`,
`get_sim_sparams_fn`, `FDFD.sparams` and the measurements of `FDTD.run_cw_port`, whatever the wavelength of the simulation:
replacing the mode solver at all other wavelengths changes nothing. -/
theorem C143_ignored_counterexample (S : PortSim Lib Src Fld) (modes' : ModeQuery → Lib)
    (h : ∀ q : ModeQuery, q.wavelength = 1.55 → modes' q = S.modes q) (w' : ℝ) :
    let S' : PortSim Lib Src Fld := { S with modes := modes', wavelength := w' }
    (∀ src, S'.simFn src = S.simFn src) ∧
    (∀ port mode c info, S'.simSparamsFn port mode c info = S.simSparamsFn port mode c info) ∧
    (∀ port mode info, S'.fdfdSparamsFn port mode info = S.fdfdSparamsFn port mode info) ∧
    ∀ request w c f, S'.cwMeasure request w c f = S.cwMeasure request w c f := by
  intro S'
  have hm : ∀ request c f, S'.getMeasureFn request defaultWavelength c f = S.getMeasureFn request defaultWavelength c f := by
    intro request c f
    unfold PortSim.getMeasureFn
    have : ∀ e : String × ℕ, modes' ⟨e.1, c, defaultWavelength, numModes (S.excitation request) e.1⟩
        = S.modes ⟨e.1, c, defaultWavelength, numModes (S.excitation request) e.1⟩ := fun e => h _ rfl
    change measureAll S.angle (S.setOrder ((S.excitation request).map Prod.fst)) (S.excitation request)
      (fun e => S.measure e.1 (modes' ⟨e.1, c, defaultWavelength, numModes (S.excitation request) e.1⟩) e.2 f) = _
    simp only [this]
  have hs : ∀ port mode c, S'.portSource port mode c defaultWavelength = S.portSource port mode c defaultWavelength := by
    intro port mode c
    unfold PortSim.portSource
    have : modes' ⟨port, c, defaultWavelength, numModes (S.ports.map fun p => (p, 0)) port⟩
        = S.modes ⟨port, c, defaultWavelength, numModes (S.ports.map fun p => (p, 0)) port⟩ := h _ rfl
    change S.place port (modes' ⟨port, c, defaultWavelength, numModes (S.ports.map fun p => (p, 0)) port⟩) mode = _
    rw [this]
  refine ⟨fun src => hm _ _ _, fun port mode c info => ?_, fun port mode info => ?_, fun request w c f => hm _ _ _⟩
  · unfold PortSim.simSparamsFn
    have he : S'.excitation info = S.excitation info := rfl
    rw [he]
    cases (port.map fun p => (p, mode)).or (S.excitation info).head? with
    | none => rfl
    | some src =>
      dsimp only
      rw [hs, hm]
  · unfold PortSim.fdfdSparamsFn
    rw [hs, hm]
    rfl

/-- **C143, violated**: for every wavelength other than 1.55 there is a two port simulation whose S-parameters are not those
of the modes at its wavelength (the amplitude that mode solver and overlap assign to a port may depend on the wavelength:
here the overlap is the wavelength of the mode). -/
theorem C143_wavelength_counterexample (w : ℝ) (hw : w ≠ 1.55) :
    ∃ S : PortSim ℝ Unit Unit, S.wavelength = w ∧ S.ports = ["a0", "b0"] ∧ S.setOrder S.ports = S.ports ∧
      S.simSparamsFn (some "a0") 0 3 none ≠ .ok (S.ports.map (sparamAt S S.wavelength 3 "a0")) ∧
      S.fdfdSparamsFn "a0" 0 none ≠ .ok (S.ports.map (sparamAt S S.wavelength 3 "a0")) := by
  set S : PortSim ℝ Unit Unit :=
    { ports := ["a0", "b0"], angle := fun p => if p = "a0" then 180 else 0, setOrder := fun l => l, modes := fun q => q.wavelength,
      place := fun _ _ _ => (), measure := fun p lib _ _ => if p = "a0" then (1, 0) else ((lib : ℂ), 0), fields := fun _ => (), wavelength := w } with hS
  have hp : S.ports.Nodup := show (["a0", "b0"] : List String).Nodup by decide
  have ha : "a0" ∈ S.ports := show "a0" ∈ ["a0", "b0"] by decide
  have hbm : "b0" ∈ S.ports := show "b0" ∈ ["a0", "b0"] by decide
  have hda : ¬ FacesPositive (S.angle "a0") := by
    rw [← anglePositive_iff]
    exact show ¬ anglePositive (if "a0" = "a0" then 180 else 0) = true by decide +kernel
  have hdb : FacesPositive (S.angle "b0") := by
    rw [← anglePositive_iff]
    exact show anglePositive (if "b0" = "a0" then 180 else 0) = true by decide +kernel
  have hb : ∀ v : ℝ, sparamAt S v 3 "a0" "b0" = v := by
    intro v
    unfold sparamAt portAmplitudes
    simp only [if_pos hdb, if_neg hda]
    simp [hS]
  have key := C143_sim_sparams_partial S hp rfl "a0" ha 3
  have h2 : S.fdfdSparamsFn "a0" 0 none = S.simSparamsFn (some "a0") 0 3 none := fdfd_eq_sim S "a0"
  have hne : S.simSparamsFn (some "a0") 0 3 none ≠ .ok (S.ports.map (sparamAt S S.wavelength 3 "a0")) := by
    rw [key]
    intro h
    have h' := Except.ok.inj h
    have h3 : S.ports.map (sparamAt S 1.55 3 "a0") = S.ports.map (sparamAt S w 3 "a0") := h'
    have h4 := List.map_inj_left.1 h3 "b0" hbm
    rw [hb, hb] at h4
    exact hw (Complex.ofReal_injective h4).symm
  exact ⟨S, rfl, rfl, rfl, hne, by rw [h2]; exact hne⟩

/-- **C143, violated**: the size factor given to `get_sim_sparams_fn` is used for the source only. For every factor other
than 3 there is a simulation at 1.55 whose S-parameters are not those of modes with that factor. -/
theorem C143_size_factor_counterexample (c : ℝ) (hc : c ≠ 3) :
    ∃ S : PortSim ℝ Unit Unit, S.wavelength = 1.55 ∧ S.ports = ["a0", "b0"] ∧ S.setOrder S.ports = S.ports ∧
      S.simSparamsFn (some "a0") 0 c none ≠ .ok (S.ports.map (sparamAt S S.wavelength c "a0")) := by
  set S : PortSim ℝ Unit Unit :=
    { ports := ["a0", "b0"], angle := fun p => if p = "a0" then 180 else 0, setOrder := fun l => l, modes := fun q => q.sizeFactor,
      place := fun _ _ _ => (), measure := fun p lib _ _ => if p = "a0" then (1, 0) else ((lib : ℂ), 0), fields := fun _ => (), wavelength := 1.55 } with hS
  have hp : S.ports.Nodup := show (["a0", "b0"] : List String).Nodup by decide
  have ha : "a0" ∈ S.ports := show "a0" ∈ ["a0", "b0"] by decide
  have hbm : "b0" ∈ S.ports := show "b0" ∈ ["a0", "b0"] by decide
  have hda : ¬ FacesPositive (S.angle "a0") := by
    rw [← anglePositive_iff]
    exact show ¬ anglePositive (if "a0" = "a0" then 180 else 0) = true by decide +kernel
  have hdb : FacesPositive (S.angle "b0") := by
    rw [← anglePositive_iff]
    exact show anglePositive (if "b0" = "a0" then 180 else 0) = true by decide +kernel
  refine ⟨S, rfl, rfl, rfl, fun h => ?_⟩
  rw [C143_sim_sparams_partial S hp rfl "a0" ha c] at h
  have h4 := List.map_inj_left.1 (Except.ok.inj h) "b0" hbm
  unfold sparamAt portAmplitudes at h4
  simp only [if_pos hdb, if_neg hda] at h4
  have h5 : ((3 : ℝ) : ℂ) / 1 = ((c : ℝ) : ℂ) / 1 := h4
  rw [div_one, div_one] at h5
  exact hc (Complex.ofReal_injective h5).symm

/-- C143, what holds in the time domain: the sources of `run_cw_port` are modes at the requested wavelength, one library per
source port, with enough modes for every requested index. -/
theorem C143_cw_sources_partial (S : PortSim Lib Src Fld) (sources : List (String × ℕ)) (w c : ℝ)
    (ho : SetOrder (sources.map Prod.fst) (S.setOrder (sources.map Prod.fst))) (p : String) (m : ℕ) (hpm : (p, m) ∈ sources) :
    ∃ k, m < k ∧ ((S.cwSourceModes sources w c).filter fun e => e.1 = p) = [(p, S.modes ⟨p, c, w, k⟩)] := by
  refine ⟨numModes sources p, ?_, ?_⟩
  · unfold numModes
    have hm : m ∈ (sources.filter fun e => e.1 = p).map Prod.snd :=
      List.mem_map.2 ⟨(p, m), List.mem_filter.2 ⟨hpm, by simp⟩, rfl⟩
    have : ∀ l : List ℕ, m ∈ l → m ≤ l.foldr max 0 := by
      intro l
      induction l with
      | nil => intro h; exact absurd h List.not_mem_nil
      | cons a l ih =>
        intro h
        rw [List.foldr_cons]
        rcases List.mem_cons.1 h with rfl | h
        · exact le_max_left _ _
        · exact le_max_of_le_right (ih h)
    exact Nat.lt_succ_of_le (this _ hm)
  · unfold PortSim.cwSourceModes
    have hin : p ∈ S.setOrder (sources.map Prod.fst) := (ho.2 p).2 (List.mem_map.2 ⟨_, hpm, rfl⟩)
    have hnd := ho.1
    generalize S.setOrder (sources.map Prod.fst) = l at hin hnd
    induction l with
    | nil => exact absurd hin List.not_mem_nil
    | cons a l ih =>
      obtain ⟨ha, hnd'⟩ := List.nodup_cons.1 hnd
      rw [List.map_cons, List.filter_cons]
      by_cases h : a = p
      · subst h
        simp only [decide_true, if_true]
        congr 1
        rw [List.filter_eq_nil_iff]
        intro e he
        obtain ⟨b, hb, rfl⟩ := List.mem_map.1 he
        simp only [decide_eq_true_eq]
        rintro rfl
        exact ha hb
      · simp only [h, decide_false, Bool.false_eq_true, if_false]
        exact ih ((List.mem_cons.1 hin).resolve_left fun h' => h h'.symm) hnd'

/-! ### C144 -/

theorem findIdx_nodup {α : Type} [DecidableEq α] (l : List α) (hl : l.Nodup) (k : ℕ) (hk : k < l.length) :
    (l.findIdx? fun x => x = l[k]) = some k := by
  rw [List.findIdx?_eq_some_iff_getElem]
  refine ⟨hk, by simp, fun j hj => ?_⟩
  simp only [decide_eq_true_eq]
  intro h
  exact absurd ((List.Nodup.getElem_inj_iff hl).1 h) (by omega)

theorem ok_bind {α β : Type} (a : α) (f : α → Except PyError β) : (Except.ok a >>= f) = f a := rfl

theorem mapM_ok {α β : Type} (f : α → Except PyError β) (g : α → β) (l : List α) (h : ∀ a ∈ l, f a = .ok (g a)) :
    l.mapM f = .ok (l.map g) := by
  induction l with
  | nil => rfl
  | cons a l ih =>
    rw [List.mapM_cons, h a List.mem_cons_self, ih fun b hb => h b (List.mem_cons_of_mem _ hb)]
    rfl

/-- What `from_fdfd` returns: labels are assigned by position. The entry labelled with the `k`-th input label and the `l`-th
output label is the S-parameter from the `k`-th to the `l`-th port of the pattern, with the modes that `get_sim_sparams_fn` uses
(C143). For all numbers of ports and wavelengths. -/
theorem C144_positional_partial (ports : List String) (hp : ports.Nodup) (sims : ℝ → PortSim Lib Src Fld) (hs : ∀ w, (sims w).ports = ports)
    (ho : ∀ w, (sims w).setOrder ports = ports) (wavelengths : List ℝ) (hw : wavelengths.Nodup) (inP outP : List String) (hi : inP.Nodup)
    (hout : outP.Nodup) (c : ℝ) (m : Model3) (h : fromFdfd ports sims wavelengths (some inP) (some outP) c = .ok m) (w : ℝ) (hwm : w ∈ wavelengths)
    (k l : ℕ) (hk : k < ports.length) (hl : l < ports.length) (hk' : k < inP.length) (hl' : l < outP.length) :
    m.sel w inP[k] outP[l] = some ((portAmplitudes (sims w) 1.55 3 (excite (sims w) 1.55 c ports[k]) ports[l]).1 /
      (portAmplitudes (sims w) 1.55 3 (excite (sims w) 1.55 c ports[k]) ports[k]).2) := by
  set row : ℝ → String → List ℂ := fun w p => ports.map fun o =>
    (portAmplitudes (sims w) 1.55 3 (excite (sims w) 1.55 c p) o).1 / (portAmplitudes (sims w) 1.55 3 (excite (sims w) 1.55 c p) p).2 with hrow
  have hdata : (wavelengths.mapM fun w => ports.mapM fun p => (sims w).simSparamsFn (some p) 0 c none)
      = .ok (wavelengths.map fun w => ports.map (row w)) := by
    apply mapM_ok
    intro w _
    apply mapM_ok
    intro p hpp
    have := C143_sim_sparams_partial (sims w) (by rw [hs]; exact hp) (by rw [hs]; exact ho w) p (by rw [hs]; exact hpp) c
    rw [this, hs]
  unfold fromFdfd at h
  rw [hdata] at h
  rw [ok_bind] at h
  unfold makeModel at h
  split_ifs at h with h1
  dsimp only at h
  split_ifs at h with h2
  · have hm := Except.ok.inj h
    subst hm
    obtain ⟨a, ha, rfl⟩ := List.getElem_of_mem hwm
    unfold Model3.sel
    rw [findIdx_nodup _ hw a ha, findIdx_nodup _ hi k hk', findIdx_nodup _ hout l hl']
    simp only [Option.bind_eq_bind, Option.bind_some, List.getElem?_map, List.getElem?_eq_getElem ha, List.getElem?_eq_getElem hk, Option.map_some]
    rw [hrow]
    simp only [List.getElem?_map, List.getElem?_eq_getElem hl, Option.map_some]

/-- C144, what holds: labelled with the ports of the pattern in their own order, `from_fdfd` succeeds for every non-empty
list of wavelengths and ports, and the entry of ports `i` and `o` is the S-parameter from `i` to `o` (with modes at 1.55). -/
theorem C144_own_order_partial (ports : List String) (hp : ports.Nodup) (hne : ports ≠ []) (sims : ℝ → PortSim Lib Src Fld)
    (hs : ∀ w, (sims w).ports = ports) (ho : ∀ w, (sims w).setOrder ports = ports) (wavelengths : List ℝ) (hw : wavelengths.Nodup)
    (hwne : wavelengths ≠ []) :
    ∃ m, fromFdfd ports sims wavelengths (some ports) (some ports) 3 = .ok m ∧
      ∀ w ∈ wavelengths, ∀ i ∈ ports, ∀ o ∈ ports, m.sel w i o = some (sparamAt (sims w) 1.55 3 i o) := by
  have hdata : (wavelengths.mapM fun w => ports.mapM fun p => (sims w).simSparamsFn (some p) 0 3 none)
      = .ok (wavelengths.map fun w => ports.map fun p => ports.map fun o => sparamAt (sims w) 1.55 3 p o) := by
    apply mapM_ok
    intro w _
    apply mapM_ok
    intro p hpp
    have := C143_sim_sparams_partial (sims w) (by rw [hs]; exact hp) (by rw [hs]; exact ho w) p (by rw [hs]; exact hpp) 3
    rw [this, hs]
    rfl
  have hex : fromFdfd ports sims wavelengths (some ports) (some ports) 3
      = .ok ⟨wavelengths, ports, ports, wavelengths.map fun w => ports.map fun p => ports.map fun o => sparamAt (sims w) 1.55 3 p o⟩ := by
    unfold fromFdfd
    rw [hdata]
    rw [ok_bind]
    unfold makeModel
    rw [if_neg]
    · simp
    · rintro (h | h)
      · exact hwne (List.map_eq_nil_iff.1 h)
      · exact hne (List.length_eq_zero_iff.1 h)
  refine ⟨_, hex, fun w hwm i hi o hoo => ?_⟩
  obtain ⟨k, hk, rfl⟩ := List.getElem_of_mem hi
  obtain ⟨l, hl, rfl⟩ := List.getElem_of_mem hoo
  exact C144_positional_partial ports hp sims hs ho wavelengths hw ports ports hp hp 3 _ hex w hwm k l hk hl hk hl

/-- **C144, violated**: without `in_ports` or `out_ports` (both default to `None`) `from_fdfd` never returns a component. -/
theorem C144_default_ports_counterexample (ports : List String) (sims : ℝ → PortSim Lib Src Fld) (wavelengths : List ℝ)
    (inP outP : Option (List String)) (h : inP = none ∨ outP = none) (c : ℝ) (m : Model3) :
    fromFdfd ports sims wavelengths inP outP c ≠ .ok m := by
  unfold fromFdfd
  intro hm
  cases hd : (wavelengths.mapM fun w => ports.mapM fun p => (sims w).simSparamsFn (some p) 0 c none) with
  | error e => rw [hd] at hm; exact absurd hm (by intro h; cases h)
  | ok data =>
    rw [hd] at hm
    rw [ok_bind] at hm
    unfold makeModel at hm
    split_ifs at hm
    rcases h with rfl | rfl
    · exact absurd hm (by intro h; cases h)
    · cases inP <;> exact absurd hm (by intro h; cases h)

/-- **C144, violated**: ports named in another order than that of the pattern mislabel the data: with ports `a`, `b` and
`in_ports = ["b", "a"]`, the entry labelled "from b" is the S-parameter from `a`. -/
theorem C144_order_counterexample (sims : ℝ → PortSim Lib Src Fld) (hs : ∀ w, (sims w).ports = ["a", "b"])
    (ho : ∀ w, (sims w).setOrder ["a", "b"] = ["a", "b"]) (w : ℝ) (m : Model3)
    (h : fromFdfd ["a", "b"] sims [w] (some ["b", "a"]) (some ["a", "b"]) 3 = .ok m) (l : ℕ) (hl : l < 2) :
    m.sel w "b" (["a", "b"][l]) = some (sparamAt (sims w) 1.55 3 "a" (["a", "b"][l])) :=
  C144_positional_partial ["a", "b"] (by decide) sims hs ho [w] (by simp) ["b", "a"] ["a", "b"] (by decide) (by decide) 3 m h w (by simp)
    0 l (by decide) hl (by decide) hl

/-- **C144, violated**: naming only some of the ports never returns a component either. -/
theorem C144_subset_counterexample (ports : List String) (sims : ℝ → PortSim Lib Src Fld) (wavelengths : List ℝ)
    (inP outP : List String) (h : inP.length ≠ ports.length ∨ outP.length ≠ ports.length) (c : ℝ) (m : Model3) :
    fromFdfd ports sims wavelengths (some inP) (some outP) c ≠ .ok m := by
  unfold fromFdfd
  intro hm
  cases hd : (wavelengths.mapM fun w => ports.mapM fun p => (sims w).simSparamsFn (some p) 0 c none) with
  | error e => rw [hd] at hm; exact absurd hm (by intro h; cases h)
  | ok data =>
    rw [hd] at hm
    rw [ok_bind] at hm
    unfold makeModel at hm
    split_ifs at hm with h1
    dsimp only at hm
    split_ifs at hm with h2
    exact h.elim (fun h => h h2.1) (fun h => h h2.2)

/-- The hypotheses are met by a two port simulation. -/
example : ∃ sims : ℝ → PortSim ℝ Unit Unit, (∀ w, (sims w).ports = ["a", "b"]) ∧ ∀ w, (sims w).setOrder ["a", "b"] = ["a", "b"] :=
  ⟨fun w => { ports := ["a", "b"], angle := fun _ => 0, setOrder := fun l => l, modes := fun q => q.wavelength, place := fun _ _ _ => (), measure := fun _ lib _ _ => ((lib : ℂ), 1), fields := fun _ => (), wavelength := w }, fun _ => rfl, fun _ => rfl⟩

end Simphox
