import Verif.Spec.Convert
import Verif.Spec.GoJson
import Verif.Spec.Wire
import Verif.Model.WireMsg
/-!
# When two events are the same protobuf message: the words of C108
-/

namespace Sawmill

/-- The contents of an event with nil slices and nil maps replaced by empty ones, at every depth: an event without contents counts as an empty one. -/
def filledFields (f : Fields) : List (Bytes × Val) := Val.filledE (f.getD [])

mutual
/-- No map in the value, at any depth, has more than one field. -/
def Val.Narrow : Val → Prop
  | .arr vs => Val.NarrowL vs
  | .obj es => es.length ≤ 1 ∧ Val.NarrowE es
  | _ => True
def Val.NarrowL : List Val → Prop
  | [] => True
  | v :: vs => v.Narrow ∧ Val.NarrowL vs
def Val.NarrowE : List (Bytes × Val) → Prop
  | [] => True
  | (_, v) :: es => v.Narrow ∧ Val.NarrowE es
end

/-- `Marshal` of the message may return `bs`: it does for some order in which the maps are iterated. -/
def Wire.MayWrite (m : PWrapper) (bs : Bytes) : Prop := ∃ a, SameMessage m a ∧ marshal a = .ok bs

end Sawmill
