import Verif.Model.HeapMethods
import Verif.Model.Parser

/-!
# `UnmarshalJSON` in memory
-/

namespace VJ

/-- `UnmarshalJSON` (codegen/codegen.go:31-64) on the receiver at `p`, given the method
`FillFromJSON`; see `unmarshalJSON`. -/
def hunmarshalJSON (m : HMethods) (data : Str) (p : Spot) (h : Heap) : Out (Option Err × Heap) :=
  match parseBytes data with
  | none => .ok (some (.plain .notJSON), h)
  | some v => m.fill v p h

end VJ
