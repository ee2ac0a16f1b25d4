import Verif.Spec.Reflect
import Verif.Spec.Json
/-!
# An event's contents through plain Go maps: what changes
-/

namespace Sawmill

mutual
/-- The contents with empty arrays and objects where there were nil ones. Nothing else changes. -/
def Val.filled : Val → Val
  | .arrNil => .arr []
  | .objNil => .obj []
  | .arr vs => .arr (Val.filledL vs)
  | .obj es => .obj (Val.filledE es)
  | v => v
def Val.filledL : List Val → List Val
  | [] => []
  | v :: vs => v.filled :: Val.filledL vs
def Val.filledE : List (Bytes × Val) → List (Bytes × Val)
  | [] => []
  | (k, v) :: es => (k, v.filled) :: Val.filledE es
end

mutual
/-- There is no nil array and no nil object inside. -/
def Val.NoNilLists : Val → Prop
  | .arrNil => False
  | .objNil => False
  | .arr vs => Val.NoNilListsL vs
  | .obj es => Val.NoNilListsE es
  | _ => True
def Val.NoNilListsL : List Val → Prop
  | [] => True
  | v :: vs => v.NoNilLists ∧ Val.NoNilListsL vs
def Val.NoNilListsE : List (Bytes × Val) → Prop
  | [] => True
  | (_, v) :: es => v.NoNilLists ∧ Val.NoNilListsE es
end

mutual
/-- A value after its trip through Go values: nil pointers are null values, nil arrays and objects are empty ones, and dots in the names of (inner) objects have a backslash in front. -/
def Val.tripped : Val → Val
  | .nilp => .scalar .null
  | .arrNil => .arr []
  | .objNil => .obj []
  | .arr vs => .arr (Val.trippedL vs)
  | .obj es => .obj (AMap.ofEntries (Val.trippedE es) [])
  | .scalar s => .scalar s
def Val.trippedL : List Val → List Val
  | [] => []
  | v :: vs => v.tripped :: Val.trippedL vs
def Val.trippedE : List (Bytes × Val) → List (Bytes × Val)
  | [] => []
  | (k, v) :: es => (escapeKey k, v.tripped) :: Val.trippedE es
end

mutual
/-- No nil inside, and no dot in the name of an inner object's field; objects are maps (listed in the order of their distinct names). -/
def Val.Steady : Val → Prop
  | .nilp => False
  | .arrNil => False
  | .objNil => False
  | .arr vs => Val.SteadyL vs
  | .obj es => AMap.Sorted es ∧ Val.SteadyE es
  | .scalar _ => True
def Val.SteadyL : List Val → Prop
  | [] => True
  | v :: vs => v.Steady ∧ Val.SteadyL vs
def Val.SteadyE : List (Bytes × Val) → Prop
  | [] => True
  | (k, v) :: es => dot ∉ k ∧ v.Steady ∧ Val.SteadyE es
end

end Sawmill
