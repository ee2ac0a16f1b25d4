import Verif.Spec.Wire
import Verif.Spec.History
/-!
# What the conversions should give, on trees
-/

namespace Sawmill
open Wire

mutual
/-- Nesting depth. -/
def Val.depth : Val → Nat
  | .arr vs => Val.depthL vs + 1
  | .obj es => Val.depthE es + 1
  | _ => 1
def Val.depthL : List Val → Nat
  | [] => 0
  | v :: vs => max v.depth (Val.depthL vs)
def Val.depthE : List (Bytes × Val) → Nat
  | [] => 0
  | (_, v) :: es => max v.depth (Val.depthE es)
end

mutual
/-- The protobuf value that says the same as an event value. -/
def protoOf : Val → PValue
  | .nilp => .nil
  | .scalar .null => .mk (.null 0) []
  | .scalar (.bool b) => .mk (.boolean b) []
  | .scalar (.int i) => .mk (.integer i) []
  | .scalar (.uint u) => .mk (.unsigned u) []
  | .scalar (.float f) => .mk (.float f) []
  | .scalar (.str s) => .mk (.string (some s)) []
  | .scalar (.ts t) => .mk (.timestamp t) []
  | .arrNil => .mk (.array (.mk [] [])) []
  | .arr vs => .mk (.array (.mk (protoOfL vs) [])) []
  | .objNil => .mk (.object (.mk [] [])) []
  | .obj es => .mk (.object (.mk (protoOfE es) [])) []
def protoOfL : List Val → List PValue
  | [] => []
  | v :: vs => protoOf v :: protoOfL vs
def protoOfE : List (Bytes × Val) → List (Bytes × PValue)
  | [] => []
  | (k, v) :: es => (k, protoOf v) :: protoOfE es
end

/-- The message for an event: an event without fields has no object. -/
def messageOf (f : Fields) : PWrapper :=
  match f.getD [] with
  | [] => ⟨some (.mk .nil []), []⟩
  | es => ⟨some (.mk (.mk (protoOfE es) []) []), []⟩

mutual
/-- Every value in the message has a kind, and none is nil. -/
def HasKind : PValue → Prop
  | .nil => False
  | .mk kind _ => HasKindK kind
def HasKindK : PKind → Prop
  | .unset => False
  | .array .nil => False
  | .array (.mk items _) => HasKindL items
  | .object .nil => False
  | .object (.mk fields _) => HasKindE fields
  | _ => True
def HasKindL : List PValue → Prop
  | [] => True
  | v :: vs => HasKind v ∧ HasKindL vs
def HasKindE : List (Bytes × PValue) → Prop
  | [] => True
  | (_, v) :: es => HasKind v ∧ HasKindE es
end

mutual
/-- The event value for a protobuf value with kinds (`nilp` where there is none). The names inside objects come out escaped. -/
def valueOf : PValue → Val
  | .nil => .nilp
  | .mk kind _ => valueOfK kind
def valueOfK : PKind → Val
  | .unset => .nilp
  | .null _ => .scalar .null
  | .array .nil => .nilp
  | .array (.mk items _) => .arr (valueOfL items)
  | .boolean b => .scalar (.bool b)
  | .float f => .scalar (.float f)
  | .integer i => .scalar (.int i)
  | .object .nil => .nilp
  | .object (.mk fields _) => .obj (AMap.ofEntries (valueOfE fields) [])
  | .string s => .scalar (.str (s.getD []))
  | .timestamp t => .scalar (.ts t)
  | .unsigned u => .scalar (.uint u)
def valueOfL : List PValue → List Val
  | [] => []
  | v :: vs => valueOf v :: valueOfL vs
def valueOfE : List (Bytes × PValue) → List (Bytes × Val)
  | [] => []
  | (k, v) :: es => (escapeKey k, valueOf v) :: valueOfE es
end

/-- The name under which a top level field is stored: backslashes disappear. -/
def topName (k : Bytes) : Bytes := k.filter (· ≠ bsl)

/-- The top level entries in the order in which they are put: those whose name is empty are lost. -/
def topEntries (fields : List (Bytes × PValue)) : List (Bytes × Val) :=
  (fields.map fun e => (topName e.1, valueOf e.2)).filter (·.1 ≠ [])

/-- The contents of the event made from the fields of a log message; the map is made by the first `Put`. -/
def logContents (fields : List (Bytes × PValue)) : Fields :=
  if topEntries fields = [] then none else some (AMap.ofEntries (topEntries fields) [])

mutual
/-- No nil anywhere in a value, not even in arrays. -/
def Val.Solid : Val → Prop
  | .nilp => False
  | .arr vs => Val.SolidL vs
  | .obj es => Val.SolidE es
  | _ => True
def Val.SolidL : List Val → Prop
  | [] => True
  | v :: vs => Val.Solid v ∧ Val.SolidL vs
def Val.SolidE : List (Bytes × Val) → Prop
  | [] => True
  | (_, v) :: es => Val.Solid v ∧ Val.SolidE es
end

mutual
/-- What a value becomes on the way through a message: the names inside objects are escaped, nil slices and nil maps become empty ones. -/
def Val.hop : Val → Val
  | .nilp => .nilp
  | .scalar s => .scalar s
  | .arrNil => .arr []
  | .arr vs => .arr (Val.hopL vs)
  | .objNil => .obj []
  | .obj es => .obj (AMap.ofEntries (Val.hopE es) [])
def Val.hopL : List Val → List Val
  | [] => []
  | v :: vs => Val.hop v :: Val.hopL vs
def Val.hopE : List (Bytes × Val) → List (Bytes × Val)
  | [] => []
  | (k, v) :: es => (escapeKey k, Val.hop v) :: Val.hopE es
end

mutual
/-- A value without nil slices and nil maps in which no name inside an object contains a dot. -/
def Val.Plain : Val → Prop
  | .arrNil => False
  | .arr vs => Val.PlainL vs
  | .objNil => False
  | .obj es => Val.PlainE es
  | _ => True
def Val.PlainL : List Val → Prop
  | [] => True
  | v :: vs => Val.Plain v ∧ Val.PlainL vs
def Val.PlainE : List (Bytes × Val) → Prop
  | [] => True
  | (k, v) :: es => dot ∉ k ∧ Val.Plain v ∧ Val.PlainE es
end

/-- The address of `event.NullValue`. -/
def IsNull (h : Heap) (nul : Ptr) : Prop := deref h nul = some nullCell


end Sawmill
