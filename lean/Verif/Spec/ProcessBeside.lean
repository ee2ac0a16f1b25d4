import Verif.Spec.NoCommon
import Verif.Model.Processors
/-!
# Processing one of two events (C115)
-/

namespace Sawmill

/-- The value `c` has become `c'`: it is the same, or it is a list, and some elements have been added at its end. -/
def Longer (c c' : Cell) : Prop := c' = c ∨ c.type = .array ∧ ∃ items, c' = { c with array := some (c.array.getD [] ++ items) }

/-- The value that the processor `b` is configured to set, if it is one that sets a value, is in memory, and there is no map to which one gets by names from it and also from the map `m`. -/
def Builtin.ValueApart (h : Heap) (m : Option Nat) (b : Builtin) : Prop := ∀ v copyFrom target, b = .set v copyFrom target → v < h.length ∧ NoCommonValue h (some v) m

end Sawmill
