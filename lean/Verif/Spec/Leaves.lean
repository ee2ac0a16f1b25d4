import Verif.Spec.History
import Verif.Spec.Path
/-!
# The leaves of an event

A leaf is a value that is not an object with entries: a scalar, an array (a key cannot reach into it), an empty object.
-/

namespace Sawmill
namespace Spec

mutual
/-- The leaves at and below a value, each with the names that lead to it. -/
def leaves : Val → List (List Bytes × Val)
  | .obj (e :: es) => leavesE (e :: es)
  | v => [([], v)]
def leavesE : List (Bytes × Val) → List (List Bytes × Val)
  | [] => []
  | (k, v) :: es => (leaves v).map (fun (path, leaf) => (k :: path, leaf)) ++ leavesE es
end

mutual
/-- All names on the way to leaves can be written in a key. -/
def Writable : Val → Prop
  | .obj es => WritableE es
  | _ => True
def WritableE : List (Bytes × Val) → Prop
  | [] => True
  | (k, v) :: es => GoodName k ∧ Writable v ∧ WritableE es
end

end Spec
end Sawmill
