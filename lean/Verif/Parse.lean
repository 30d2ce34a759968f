import Verif.Utils

/-!
# Model of `simphox/parse.py`

Python values that can occur in an excitation or a source are modelled by small inductive types;
exceptions are values.
-/

namespace Simphox

/-- Values passed to `parse_excitation`: strings, ints, tuples/lists, dicts from port name to a list of
mode indices. -/
inductive Exc where
  | str (s : String)
  | int (i : ℤ)
  | seq (isTuple : Bool) (l : List Exc)
  | dict (l : List (String × List ℤ))

namespace Exc

/-- `isinstance(x, str) or isinstance(x, int)`. -/
def isLabel : Exc → Bool
  | .str _ => true
  | .int _ => true
  | _ => false

/-- `isinstance(x, int)`. -/
def isInt : Exc → Bool
  | .int _ => true
  | _ => false

/-- The test of parse.py:17: `(str or int at [0]) and int at [1] and len == 2`, with short-circuit
evaluation: an empty sequence raises at `[0]`, a one-element sequence that starts with a label raises
at `[1]`. -/
def isPair : List Exc → Except PyError Bool
  | [] => .error .indexError
  | [a] => if a.isLabel then .error .indexError else .ok false
  | a :: b :: l => .ok (a.isLabel && b.isInt && l.isEmpty)

/-- `sum(parts, [])` where a part may be `None` (parse.py:19, 21). -/
def sumParts : List (Option (List Exc)) → Except PyError (List Exc)
  | [] => .ok []
  | none :: _ => .error .typeError
  | some p :: ps => do
    let r ← sumParts ps
    .ok (p ++ r)

/-- One dict entry: `parse_excitation([(mi, idx) for idx in excitation[mi]])` (parse.py:21). For a
nonempty index list this is a list of pairs, each returned as it is. -/
def parseEntry (e : String × List ℤ) : Except PyError (Option (List Exc)) :=
  if e.2.isEmpty then .error .indexError
  else .ok (some (e.2.map fun i => .seq true [.str e.1, .int i]))

mutual
/-- `parse_excitation` (parse.py:4-21). `none` is the implicit `None` for other types. -/
def parse : Exc → Except PyError (Option (List Exc))
  | .str s => .ok (some [.seq true [.str s, .int 0]])
  | .int _ => .ok none
  | .seq t l => do
    let b ← isPair l
    if b then .ok (some [.seq t l])
    else
      let parts ← parseAll l
      let r ← sumParts parts
      .ok (some r)
  | .dict l => do
    let parts ← l.mapM parseEntry
    let r ← sumParts parts
    .ok (some r)

/-- The list comprehension `[parse_excitation(mi) for mi in excitation]` (parse.py:19). -/
def parseAll : List Exc → Except PyError (List (Option (List Exc)))
  | [] => .ok []
  | a :: l => do
    let p ← parse a
    let r ← parseAll l
    .ok (p :: r)
end

end Exc

/-! ### Sources -/

/-- Keys of a source dictionary. -/
inductive SrcKey where
  | name (s : String)
  | pair (s : String) (i : ℤ)
  deriving DecidableEq

/-- Values passed to `parse_source_port`. -/
inductive Src where
  | str (s : String)
  | int (i : ℤ)
  | seq (l : List Src)
  | dict (l : List (SrcKey × ℚ))

/-- A Python dict from `(port, mode)` to weight, in insertion order. -/
abbrev SrcDict := List ((String × ℤ) × ℚ)

/-- `d[k] = v`: keeps the position of an existing key. -/
def dictSet (d : SrcDict) (k : String × ℤ) (v : ℚ) : SrcDict :=
  if d.any (fun e => e.1 = k) then d.map fun e => if e.1 = k then (k, v) else e else d ++ [(k, v)]

/-- A dict comprehension: assignments from left to right. -/
def dictOf (l : List ((String × ℤ) × ℚ)) : SrcDict := l.foldl (fun d e => dictSet d e.1 e.2) []

namespace Src

def isStr : Src → Bool
  | .str _ => true
  | _ => false

def isInt : Src → Bool
  | .int _ => true
  | _ => false

/-- The test of parse.py:36. -/
def isPair : List Src → Except PyError Bool
  | [] => .error .indexError
  | [a] => if a.isStr then .error .indexError else .ok false
  | a :: b :: l => .ok (a.isStr && b.isInt && l.isEmpty)

/-- `(s, 0) if isinstance(s, str) else s` (parse.py:40). -/
def normKey : SrcKey → String × ℤ
  | .name s => (s, 0)
  | .pair s i => (s, i)

mutual
/-- `parse_source_port` (parse.py:24-40). A non-source element makes `.items()` raise
`AttributeError` on `None`. -/
def parse : Src → Except PyError (Option SrcDict)
  | .str s => .ok (some [((s, 0), 1)])
  | .int _ => .ok none
  | .seq [.str s, .int i] => .ok (some [((s, i), 1)])
  | .seq l => do
    let _ ← isPair l
    let r ← parseAll l
    .ok (some (dictOf r))
  | .dict l => .ok (some (dictOf (l.map fun e => (normKey e.1, e.2))))

/-- All `(key, weight)` items of the comprehension of parse.py:38, in order. -/
def parseAll : List Src → Except PyError (List ((String × ℤ) × ℚ))
  | [] => .ok []
  | a :: l => do
    let p ← parse a
    match p with
    | none => .error .attributeError
    | some d => do
      let r ← parseAll l
      .ok (d ++ r)
end

end Src

end Simphox
