import Verif.Model.JsonInto
import Verif.Spec.Json
/-!
# What a value shows after a sequence of documents has been decoded into it

Described by the documents alone. `hist` is the list of the earlier documents, oldest first.
-/

namespace Sawmill
namespace Spec

/-- The part after the last element that satisfies `p`. -/
def since {α : Type} (p : α → Bool) : List α → List α
  | [] => []
  | x :: xs => if (x :: xs).any p then since p xs else x :: xs

def isNull : Json → Bool
  | .null => true
  | _ => false

/-- The entries of a document that is an object. -/
def entriesOf : Json → List (Bytes × Json)
  | .obj es => es
  | _ => []

/-- The elements of a document that is an array. -/
def elementsOf : Json → Option (List Json)
  | .arr js => some js
  | _ => none

mutual
/-- After the documents `hist` and then `j`. Of an object: the entries of all objects ever decoded, later ones replacing earlier ones with the same name. Of an array: each element is, in the same way, the outcome of all documents decoded at that position, in
arrays since the last empty one, and since the last `null` at that position. -/
def shown (env : JEnv) : Json → List Json → Val
  | .null, _ => .scalar .null
  | .bool b, _ => .scalar (.bool b)
  | .num t, _ => .scalar (.float ((env.atof t).getD 0))
  | .str s, _ => .scalar (.str s)
  | .arr js, hist => .arr (shownL env js (since List.isEmpty (hist.filterMap elementsOf)))
  | .obj es, hist => .obj (AMap.ofEntries (jsonValE env (hist.flatMap entriesOf ++ es)) [])
/-- The elements of the last array, given the earlier arrays. -/
def shownL (env : JEnv) : List Json → List (List Json) → List Val
  | [], _ => []
  | .null :: js, arrays => .nilp :: shownL env js (arrays.map List.tail)
  | j :: js, arrays => shown env j (since isNull (arrays.filterMap List.head?)) :: shownL env js (arrays.map List.tail)
end

/-- The text is the JSON of an event with these contents (`null` is an event without a map). -/
def EventText (env : JEnv) (bs : Bytes) (fs : Fields) : Prop :=
  (Rfc.Document .null bs ∧ fs = none) ∨ ∃ es, Rfc.Document (.obj es) bs ∧ Rfc.depthE es < 10000 ∧ InRangeE env es ∧ fs = some (AMap.ofEntries (jsonValE env es) [])

mutual
/-- There is no object in the document. -/
def NoObject : Json → Prop
  | .arr js => NoObjectL js
  | .obj _ => False
  | _ => True
def NoObjectL : List Json → Prop
  | [] => True
  | j :: js => NoObject j ∧ NoObjectL js
end

end Spec

mutual
/-- What a value shows: the field that `Type` refers to. -/
def FVal.visible : FVal → Val
  | .nil => .nilp
  | .val t l an ss n on es =>
    match t with
    | .null | .unknown => .scalar .null
    | .bool => .scalar (.bool l.bool)
    | .float => .scalar (.float l.float)
    | .integer => .scalar (.int l.integer)
    | .unsigned => .scalar (.uint l.unsigned)
    | .string => .scalar (.str l.string)
    | .timestamp => .scalar (.ts l.timestamp)
    | .array => if an then .arrNil else .arr ((FVal.visibleL ss).take n)
    | .object => if on then .objNil else .obj (FVal.visibleE es)
def FVal.visibleL : List FVal → List Val
  | [] => []
  | v :: vs => v.visible :: FVal.visibleL vs
def FVal.visibleE : List (Bytes × FVal) → List (Bytes × Val)
  | [] => []
  | (k, v) :: es => (k, v.visible) :: FVal.visibleE es
end

end Sawmill
