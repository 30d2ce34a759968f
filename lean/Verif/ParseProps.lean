import Verif.Parse
import Mathlib.Tactic.Linarith

/-!
# C31, C32: excitation and source formats
-/

namespace Simphox

/-! ### C31 -/

/-- The documented excitation formats (simphox/typing.py and the docstring), nested lists included. -/
inductive ExcDoc where
  | name (s : String)
  | pair (s : String) (i : ℤ)
  | group (isTuple : Bool) (l : List ExcDoc)
  | dict (l : List (String × List ℤ))

namespace ExcDoc

mutual
/-- The Python value written by the user. -/
def toPy : ExcDoc → Exc
  | .name s => .str s
  | .pair s i => .seq true [.str s, .int i]
  | .group t l => .seq t (toPyAll l)
  | .dict l => .dict l
def toPyAll : List ExcDoc → List Exc
  | [] => []
  | a :: l => toPy a :: toPyAll l
end

mutual
/-- Specification: the flat list of `(port, mode)` pairs in order. -/
def flat : ExcDoc → List (String × ℤ)
  | .name s => [(s, 0)]
  | .pair s i => [(s, i)]
  | .group _ l => flatAll l
  | .dict l => l.flatMap fun e => e.2.map fun i => (e.1, i)
def flatAll : List ExcDoc → List (String × ℤ)
  | [] => []
  | a :: l => flat a ++ flatAll l
end

/-- A one-element group that contains just a name. -/
def isLoneName : List ExcDoc → Bool
  | [.name _] => true
  | _ => false

mutual
/-- Formats the code handles: no empty group, no group consisting of a single bare name, no empty
index list in a dict. -/
def handled : ExcDoc → Bool
  | .name _ => true
  | .pair _ _ => true
  | .group _ l => !l.isEmpty && !isLoneName l && handledAll l
  | .dict l => l.all fun e => !e.2.isEmpty
def handledAll : List ExcDoc → Bool
  | [] => true
  | a :: l => handled a && handledAll l
end

/-- The Python tuple `(port, mode)`. -/
def pyPair (p : String × ℤ) : Exc := .seq true [.str p.1, .int p.2]

theorem isInt_toPy (d : ExcDoc) : d.toPy.isInt = false := by cases d <;> simp [toPy, Exc.isInt]

theorem isPair_toPyAll (l : List ExcDoc) (h1 : l.isEmpty = false) (h2 : isLoneName l = false) :
    Exc.isPair (toPyAll l) = .ok false := by
  match l, h1, h2 with
  | [a], _, h2 =>
    cases a <;> simp [isLoneName] at h2 <;> simp [toPyAll, toPy, Exc.isPair, Exc.isLabel]
  | a :: b :: l, _, _ =>
    simp [toPyAll, Exc.isPair, isInt_toPy]

theorem dict_parts (l : List (String × List ℤ)) (h : l.all (fun e => !e.2.isEmpty) = true) :
    ∃ parts, l.mapM Exc.parseEntry = .ok parts ∧
      Exc.sumParts parts = .ok ((l.flatMap fun e => e.2.map fun i => (e.1, i)).map pyPair) := by
  induction l with
  | nil => exact ⟨[], rfl, rfl⟩
  | cons e l ih =>
    simp only [List.all_cons, Bool.and_eq_true] at h
    obtain ⟨parts, h1, h2⟩ := ih h.2
    have he : e.2.isEmpty = false := by simpa using h.1
    refine ⟨some (e.2.map fun i => .seq true [.str e.1, .int i]) :: parts, ?_, ?_⟩
    · rw [List.mapM_cons, h1]
      simp only [Exc.parseEntry, he]; rfl
    · simp only [Exc.sumParts, h2]
      show Except.ok _ = Except.ok _
      congr 1
      simp [pyPair, Function.comp_def]

mutual
theorem parse_handled : ∀ (d : ExcDoc), d.handled = true →
    Exc.parse d.toPy = .ok (some (d.flat.map pyPair))
  | .name s, _ => by simp [toPy, Exc.parse, flat, pyPair]
  | .pair s i, _ => by
    simp [toPy, Exc.parse, Exc.isPair, Exc.isLabel, Exc.isInt, flat, pyPair, bind, Except.bind]
  | .group t l, h => by
    simp only [handled, Bool.and_eq_true, Bool.not_eq_true'] at h
    obtain ⟨parts, h1, h2⟩ := parseAll_handled l h.2
    simp only [toPy, Exc.parse, isPair_toPyAll l h.1.1 h.1.2, h1, h2, flat, bind, Except.bind]
    simp
  | .dict l, h => by
    simp only [handled] at h
    obtain ⟨parts, h1, h2⟩ := dict_parts l h
    simp only [toPy, Exc.parse, h1, h2, flat, bind, Except.bind]
theorem parseAll_handled : ∀ (l : List ExcDoc), handledAll l = true →
    ∃ parts, Exc.parseAll (toPyAll l) = .ok parts ∧ Exc.sumParts parts = .ok ((flatAll l).map pyPair)
  | [], _ => ⟨[], by simp [toPyAll, Exc.parseAll], by simp [Exc.sumParts, flatAll]⟩
  | a :: l, h => by
    simp only [handledAll, Bool.and_eq_true] at h
    obtain ⟨parts, h1, h2⟩ := parseAll_handled l h.2
    refine ⟨some (a.flat.map pyPair) :: parts, ?_, ?_⟩
    · simp only [toPyAll, Exc.parseAll, parse_handled a h.1, h1, bind, Except.bind]
    · simp only [Exc.sumParts, h2, bind, Except.bind, flatAll, List.map_append]
end

end ExcDoc

open ExcDoc

/-- C31 (partial): for every documented format (names, `(name, index)` pairs, dicts and arbitrarily
nested lists/tuples of them) without an empty group, a group with a single bare name, or an empty index list,
parsing returns exactly the flat list of `(port, mode)` tuples in order, and parsing a nonempty result
again returns it unchanged. Missing: the three excluded shapes, which raise
(`C31_documented_raises_counterexample`). -/
theorem C31_excitation_formats_partial (d : ExcDoc) (h : d.handled = true) :
    Exc.parse d.toPy = .ok (some (d.flat.map pyPair)) ∧
    (d.flat ≠ [] → Exc.parse (.seq false (d.flat.map pyPair)) = .ok (some (d.flat.map pyPair))) := by
  refine ⟨parse_handled d h, fun hne => ?_⟩
  have key : ∀ l : List (String × ℤ), toPyAll (l.map fun p => ExcDoc.pair p.1 p.2) = l.map pyPair ∧
      flatAll (l.map fun p => ExcDoc.pair p.1 p.2) = l ∧
      handledAll (l.map fun p => ExcDoc.pair p.1 p.2) = true := by
    intro l
    induction l with
    | nil => simp [toPyAll, flatAll, handledAll]
    | cons a l ih => simp [toPyAll, flatAll, handledAll, toPy, flat, handled, pyPair, ih]
  obtain ⟨k1, k2, k3⟩ := key d.flat
  have hh : (ExcDoc.group false (d.flat.map fun p => ExcDoc.pair p.1 p.2)).handled = true := by
    simp only [handled, k3, Bool.and_true, Bool.and_eq_true, Bool.not_eq_true']
    rcases hf : d.flat with _ | ⟨a, _ | ⟨b, l⟩⟩
    · exact absurd hf hne
    · simp [isLoneName]
    · simp [isLoneName]
  have := parse_handled _ hh
  simp only [toPy, k1, flat, k2] at this
  exact this

/-- A nested non-trivial documented excitation that meets the hypothesis. -/
example : (ExcDoc.group false [.name "a0", .pair "b0" 1, .dict [("b1", [0, 2])],
    .group true [.name "c0", .name "c1"]]).handled = true := by decide

/-- C31 is false: the documented one-element list of a name, the empty list, and a dict with an empty
index list all raise `IndexError`. -/
theorem C31_documented_raises_counterexample (s : String) (t : Bool) :
    Exc.parse (ExcDoc.group t [.name s]).toPy = .error .indexError ∧
    Exc.parse (ExcDoc.group t []).toPy = .error .indexError ∧
    Exc.parse (ExcDoc.dict [(s, [])]).toPy = .error .indexError := by
  refine ⟨?_, ?_, ?_⟩
  · simp [toPy, toPyAll, Exc.parse, Exc.isPair, Exc.isLabel, bind, Except.bind]
  · simp [toPy, toPyAll, Exc.parse, Exc.isPair, bind, Except.bind]
  · simp [toPy, Exc.parse, Exc.parseEntry, bind, Except.bind]

/-- C31: a name and a number followed by more is not taken for a pair; such lists are refused. -/
theorem C31_long_refused_partial (s : String) (i : ℤ) (c : Exc) (l : List Exc) (t : Bool) :
    ∃ e, Exc.parse (.seq t (.str s :: .int i :: c :: l)) = .error e := by
  cases h : Exc.parseAll (c :: l) with
  | error e => exact ⟨e, by simp [Exc.parse, Exc.isPair, Exc.parseAll, Exc.isLabel, Exc.isInt, bind, Except.bind] at h ⊢; simp [h]⟩
  | ok r => exact ⟨.typeError, by simp [Exc.parse, Exc.isPair, Exc.parseAll, Exc.isLabel, Exc.isInt, bind, Except.bind, Exc.sumParts] at h ⊢; simp [h, Exc.sumParts, bind, Except.bind]⟩

/-! ### C32 -/

/-- Documented source formats, nested lists included. -/
inductive SrcDoc where
  | name (s : String)
  | pair (s : String) (i : ℤ)
  | group (l : List SrcDoc)
  | dict (l : List (SrcKey × ℚ))

namespace SrcDoc

mutual
def toPy : SrcDoc → Src
  | .name s => .str s
  | .pair s i => .seq [.str s, .int i]
  | .group l => .seq (toPyAll l)
  | .dict l => .dict l
def toPyAll : List SrcDoc → List Src
  | [] => []
  | a :: l => toPy a :: toPyAll l
end

mutual
/-- Specification: all assignments `(port, mode) := weight` in order. -/
def assigns : SrcDoc → List ((String × ℤ) × ℚ)
  | .name s => [((s, 0), 1)]
  | .pair s i => [((s, i), 1)]
  | .group l => assignsAll l
  | .dict l => l.map fun e => (match e.1 with | .name s => (s, 0) | .pair s i => (s, i), e.2)
def assignsAll : List SrcDoc → List ((String × ℤ) × ℚ)
  | [] => []
  | a :: l => assigns a ++ assignsAll l
end

/-- Specification: the weight of a key is that of the last assignment to it. -/
def lastWeight (l : List ((String × ℤ) × ℚ)) (k : String × ℤ) : Option ℚ :=
  l.foldl (fun acc e => if e.1 = k then some e.2 else acc) none

def isLoneName : List SrcDoc → Bool
  | [.name _] => true
  | _ => false

mutual
def handled : SrcDoc → Bool
  | .name _ => true
  | .pair _ _ => true
  | .group l => !l.isEmpty && !isLoneName l && handledAll l
  | .dict _ => true
def handledAll : List SrcDoc → Bool
  | [] => true
  | a :: l => handled a && handledAll l
end

/-- `d.get(k)`. -/
def get (d : SrcDict) (k : String × ℤ) : Option ℚ := (d.find? fun e => e.1 = k).map (·.2)

/-- Keys of a dict are distinct. -/
def KeysDistinct (d : SrcDict) : Prop := (d.map (·.1)).Nodup

theorem get_cons (e : (String × ℤ) × ℚ) (d : SrcDict) (k : String × ℤ) :
    get (e :: d) k = if e.1 = k then some e.2 else get d k := by
  unfold get
  by_cases h : e.1 = k <;> simp [h]

theorem get_dictSet (d : SrcDict) (k k' : String × ℤ) (v : ℚ) :
    get (dictSet d k v) k' = if k = k' then some v else get d k' := by
  unfold dictSet
  split_ifs with h1 h2 h2
  · subst h2
    induction d with
    | nil => simp at h1
    | cons e d ih =>
      rw [List.map_cons, get_cons]
      by_cases he : e.1 = k
      · simp [he]
      · simp only [he, if_false]
        simp only [List.any_cons, he, decide_false, Bool.false_or] at h1
        exact ih h1
  · clear h1
    induction d with
    | nil => rfl
    | cons e d ih =>
      rw [List.map_cons, get_cons, get_cons, ih]
      by_cases he : e.1 = k
      · rw [if_pos he, if_neg h2, if_neg (by rw [he]; exact h2)]
      · rw [if_neg he]
  · subst h2
    induction d with
    | nil => simp [get]
    | cons e d ih =>
      simp only [List.any_cons, Bool.or_eq_true, not_or, decide_eq_true_eq] at h1
      rw [List.cons_append, get_cons, if_neg h1.1]
      exact ih h1.2
  · clear h1
    induction d with
    | nil => simp [get, h2]
    | cons e d ih => rw [List.cons_append, get_cons, get_cons, ih]

theorem keys_dictSet (d : SrcDict) (k : String × ℤ) (v : ℚ) (h : KeysDistinct d) :
    KeysDistinct (dictSet d k v) := by
  unfold dictSet KeysDistinct at *
  split_ifs with h1
  · rw [List.map_map]
    have : d.map ((fun e => e.1) ∘ fun e => if e.1 = k then (k, v) else e) = d.map (·.1) := by
      apply List.map_congr_left
      intro e _
      simp only [Function.comp]
      split_ifs with he
      · exact he.symm
      · rfl
    rw [this]; exact h
  · rw [List.map_append, List.nodup_append]
    refine ⟨h, by simp, ?_⟩
    intro a ha b hb
    simp only [List.map_cons, List.map_nil, List.mem_singleton] at hb
    rw [List.mem_map] at ha
    obtain ⟨e, he, rfl⟩ := ha
    rintro rfl
    apply h1
    rw [List.any_eq_true]
    exact ⟨e, he, by simp [hb]⟩

theorem get_foldl (l : List ((String × ℤ) × ℚ)) (d : SrcDict) (k : String × ℤ) :
    get (l.foldl (fun d e => dictSet d e.1 e.2) d) k =
      l.foldl (fun acc e => if e.1 = k then some e.2 else acc) (get d k) := by
  induction l generalizing d with
  | nil => rfl
  | cons e l ih => rw [List.foldl_cons, ih, get_dictSet, List.foldl_cons]

theorem get_dictOf (l : List ((String × ℤ) × ℚ)) (k : String × ℤ) : get (dictOf l) k = lastWeight l k := by
  unfold dictOf lastWeight
  rw [get_foldl]; rfl

theorem keys_dictOf (l : List ((String × ℤ) × ℚ)) : KeysDistinct (dictOf l) := by
  unfold dictOf
  have : ∀ d : SrcDict, KeysDistinct d → KeysDistinct (l.foldl (fun d e => dictSet d e.1 e.2) d) := by
    induction l with
    | nil => exact fun d h => h
    | cons e l ih => exact fun d h => ih _ (keys_dictSet d e.1 e.2 h)
  exact this [] (by simp [KeysDistinct])

/-- For a dict with distinct keys, lookup is the last (only) assignment. -/
theorem lastWeight_of_keys (d : SrcDict) (h : KeysDistinct d) (k : String × ℤ) :
    lastWeight d k = get d k := by
  have gen : ∀ (d : SrcDict) (acc : Option ℚ), KeysDistinct d →
      d.foldl (fun acc e => if e.1 = k then some e.2 else acc) acc = (get d k).or acc := by
    intro d
    induction d with
    | nil => intro acc _; simp [get]
    | cons e d ih =>
      intro acc h
      unfold KeysDistinct at h
      rw [List.map_cons, List.nodup_cons] at h
      rw [List.foldl_cons, ih _ h.2, get_cons]
      by_cases he : e.1 = k
      · have : get d k = none := by
          unfold get
          rw [Option.map_eq_none_iff, List.find?_eq_none]
          intro x hx hxk
          apply h.1
          rw [he, ← of_decide_eq_true hxk]
          exact List.mem_map_of_mem hx
        simp [he, this]
      · simp [he]
  have := gen d none h
  rw [Option.or_none] at this
  exact this

theorem lastWeight_append (a b : List ((String × ℤ) × ℚ)) (k : String × ℤ) :
    lastWeight (a ++ b) k = (lastWeight b k).or (lastWeight a k) := by
  have gen : ∀ (b : List ((String × ℤ) × ℚ)) (acc : Option ℚ),
      b.foldl (fun acc e => if e.1 = k then some e.2 else acc) acc = (lastWeight b k).or acc := by
    intro b
    induction b with
    | nil => intro acc; simp [lastWeight]
    | cons e b ih =>
      intro acc
      unfold lastWeight
      rw [List.foldl_cons, List.foldl_cons, ih, ih]
      by_cases he : e.1 = k
      · simp only [if_pos he]
        cases lastWeight b k <;> rfl
      · simp only [if_neg he, Option.or_none]
  conv_lhs => unfold lastWeight
  rw [List.foldl_append, gen]; rfl

theorem isInt_toPy (d : SrcDoc) : d.toPy.isInt = false := by cases d <;> simp [toPy, Src.isInt]

theorem isPair_toPyAll (l : List SrcDoc) (h1 : l.isEmpty = false) (h2 : isLoneName l = false) :
    Src.isPair (toPyAll l) = .ok false := by
  match l, h1, h2 with
  | [a], _, h2 =>
    cases a <;> simp [isLoneName] at h2 <;> simp [toPyAll, toPy, Src.isPair, Src.isStr]
  | a :: b :: l, _, _ =>
    simp [toPyAll, Src.isPair, isInt_toPy]

theorem not_pairShape (l : List SrcDoc) (s : String) (i : ℤ) : toPyAll l ≠ [.str s, .int i] := by
  match l with
  | [] => simp [toPyAll]
  | [a] => simp [toPyAll]
  | [a, b] =>
    simp only [toPyAll]
    intro h
    injection h with _ h
    injection h with h _
    have := isInt_toPy b
    rw [h] at this
    simp [Src.isInt] at this
  | a :: b :: c :: l => simp [toPyAll]

theorem parse_seq (l : List Src) (h : ∀ s i, l ≠ [.str s, .int i]) :
    Src.parse (.seq l) = (do
      let _ ← Src.isPair l
      let r ← Src.parseAll l
      .ok (some (dictOf r))) := by
  rw [Src.parse]
  intro s i hl
  exact h s i hl

mutual
theorem parse_handled : ∀ (d : SrcDoc), d.handled = true →
    ∃ r, Src.parse d.toPy = .ok (some r) ∧ KeysDistinct r ∧ ∀ k, get r k = lastWeight d.assigns k
  | .name s, _ => ⟨[((s, 0), 1)], by simp [toPy, Src.parse], by simp [KeysDistinct],
      fun k => by simp [get_cons, get, lastWeight, assigns]⟩
  | .pair s i, _ => ⟨[((s, i), 1)], by simp [toPy, Src.parse], by simp [KeysDistinct],
      fun k => by simp [get_cons, get, lastWeight, assigns]⟩
  | .group l, h => by
    simp only [handled, Bool.and_eq_true, Bool.not_eq_true'] at h
    obtain ⟨r, h1, h2⟩ := parseAll_handled l h.2
    refine ⟨dictOf r, ?_, keys_dictOf r, fun k => ?_⟩
    · rw [toPy, parse_seq _ (not_pairShape l), isPair_toPyAll l h.1.1 h.1.2, h1]; rfl
    · rw [get_dictOf, h2 k, assigns]
  | .dict l, _ => by
    refine ⟨_, by simp only [toPy, Src.parse]; rfl, keys_dictOf _, fun k => ?_⟩
    rw [get_dictOf, assigns]
    congr 1
theorem parseAll_handled : ∀ (l : List SrcDoc), handledAll l = true →
    ∃ r, Src.parseAll (toPyAll l) = .ok r ∧ ∀ k, lastWeight r k = lastWeight (assignsAll l) k
  | [], _ => ⟨[], by simp [toPyAll, Src.parseAll], fun k => by simp [assignsAll]⟩
  | a :: l, h => by
    simp only [handledAll, Bool.and_eq_true] at h
    obtain ⟨d, h1, h2, h3⟩ := parse_handled a h.1
    obtain ⟨r, h4, h5⟩ := parseAll_handled l h.2
    refine ⟨d ++ r, ?_, fun k => ?_⟩
    · simp only [toPyAll, Src.parseAll, h1, h4, bind, Except.bind]
    · rw [lastWeight_append, lastWeight_of_keys d h2, h3, h5, assignsAll, lastWeight_append]
end

end SrcDoc

open SrcDoc in
/-- C32 (partial): for every source format (names, pairs, dicts, nested lists) without an empty
group or a group holding a single bare name, the result is a dict with distinct keys in which every
`(port, mode)` has the weight of the last assignment to it: names mean mode 0 with weight 1, pairs
weight 1, dict weights are kept. Missing: the two excluded shapes, which raise
(`C32_raises_counterexample`). -/
theorem C32_source_formats_partial (d : SrcDoc) (h : d.handled = true) :
    ∃ r, Src.parse d.toPy = .ok (some r) ∧ KeysDistinct r ∧ ∀ k, get r k = lastWeight d.assigns k :=
  parse_handled d h

/-- The three formats documented in `SourceLabel` (a name, a dict by name, a dict by pair) are all
handled, with the stated weights. -/
theorem C32_documented (s : String) (l : List (SrcKey × ℚ)) :
    Src.parse (.str s) = .ok (some [((s, 0), 1)]) ∧
    ∃ r, Src.parse (.dict l) = .ok (some r) ∧ SrcDoc.KeysDistinct r ∧
      ∀ k, SrcDoc.get r k = SrcDoc.lastWeight (SrcDoc.dict l).assigns k :=
  ⟨by simp [Src.parse], SrcDoc.parse_handled (.dict l) (by simp [SrcDoc.handled])⟩

example : (SrcDoc.group [.name "a0", .pair "b0" 1, .dict [(.name "a0", 3)]]).handled = true ∧
    SrcDoc.lastWeight (SrcDoc.group [.name "a0", .pair "b0" 1, .dict [(.name "a0", 3)]]).assigns ("a0", 0) =
      some 3 := by
  constructor <;> decide

/-- C32 is false for a list with a single name and for the empty list: both raise `IndexError`. -/
theorem C32_raises_counterexample (s : String) :
    Src.parse (SrcDoc.group [.name s]).toPy = .error .indexError ∧
    Src.parse (SrcDoc.group []).toPy = .error .indexError := by
  constructor
  · simp [SrcDoc.toPy, SrcDoc.toPyAll, Src.parse, Src.isPair, Src.isStr, bind, Except.bind]
  · simp [SrcDoc.toPy, SrcDoc.toPyAll, Src.parse, Src.isPair, bind, Except.bind]

end Simphox
