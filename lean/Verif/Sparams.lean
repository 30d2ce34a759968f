import Verif.SimProps
import Verif.ParseProps

/-! # `FDFD.sparams` (fdfd.py:299-316) -/

namespace Simphox

/-- `for port_name, m in measure_port` (sim.py:218-220): the parsed entries unpacked. -/
def pairsOf : List Exc → Except PyError (List (String × ℤ))
  | [] => .ok []
  | .seq _ [.str s, .int i] :: l => do
    let r ← pairsOf l
    .ok ((s, i) :: r)
  | _ :: _ => .error .typeError

/-- `x == (port, mode)` for a member of `measure_info` (a list never equals a tuple). -/
def eqPair (port : String) (mode : ℕ) : Exc → Bool
  | .seq true [.str s, .int i] => s == port && i == mode
  | _ => false

/-- `measure_info.index((port_name, mode_idx))` (fdfd.py:315): `TypeError` on a string, `AttributeError` on a
dict or an int, `ValueError` if absent. -/
def infoIndex (port : String) (mode : ℕ) : Exc → Except PyError ℕ
  | .str _ => .error .typeError
  | .int _ => .error .attributeError
  | .dict _ => .error .attributeError
  | .seq _ l => match l.findIdx? (eqPair port mode) with
    | some k => .ok k
    | none => .error .valueError

/-- `FDFD.sparams(port_name, mode_idx, measure_info)` (fdfd.py:299-316). `measure` gives the `(s_out, s_in)`
pairs that `get_measure_fn` returns for the parsed request on the solved fields; the source is the model of
`port_source` (only its failure matters here). -/
noncomputable def fdfdSparams (solve : String → ℕ → List ℝ) (order ports : List String)
    (measure : List (String × ℤ) → List (ℂ × ℂ)) (port : String) (mode : ℕ) (info : Option Exc) :
    Except PyError (List ℂ) := do
  let info' := info.getD (.seq false (ports.map fun p => .seq true [.str p, .int 0]))
  let parsed ← match info with
    | none => .ok (ports.map fun p => (p, 0))
    | some e => do
      let r ← Exc.parse e
      match r with
      | none => .error .typeError
      | some l => pairsOf l
  let _ ← portSourceBetas solve order ports [.pair port mode]
  let k ← infoIndex port mode info'
  match (measure parsed)[k]? with
  | none => .error .indexError
  | some inPair => .ok ((measure parsed).map fun m => m.1 / inPair.2)

end Simphox
