import Verif.Spec.Convert
import Verif.Model.Format
/-!
# What is printed for a value
-/

namespace Sawmill

/-- The name of the type of a leaf. -/
def Scalar.typeName : Scalar → Bytes
  | .null => lit "null_type"
  | .bool _ => lit "bool_type"
  | .int _ => lit "integer_type"
  | .uint _ => lit "unsigned_integer_type"
  | .float _ => lit "float_type"
  | .str _ => lit "string_type"
  | .ts _ => lit "timestamp_type"

/-- A leaf without its type: numbers in decimal (a timestamp as the number of nanoseconds), strings as they are. -/
def Scalar.plain (ftoa : BitVec 64 → Bytes) : Scalar → Bytes
  | .null => lit "<nil>"
  | .bool b => if b then lit "true" else lit "false"
  | .int i => intText i.toInt
  | .uint u => itoa u.toNat
  | .float f => ftoa f
  | .str s => s
  | .ts t => intText t.toInt

/-- Words with a space between them. -/
def spaced : List Bytes → Bytes
  | [] => []
  | [w] => w
  | w :: ws => w ++ 32 :: spaced ws

mutual
/-- The text: `<type>:<value>`, and `<nil>` for a nil pointer. -/
def Val.print (ftoa : BitVec 64 → Bytes) : Val → Bytes
  | .nilp => lit "<nil>"
  | .scalar s => s.typeName ++ 58 :: s.plain ftoa
  | .arrNil => lit "array_type:[]"
  | .arr vs => lit "array_type:[" ++ (spaced (Val.printL ftoa vs) ++ lit "]")
  | .objNil => lit "object_type:map[]"
  | .obj es => lit "object_type:map[" ++ (spaced (Val.printE ftoa es) ++ lit "]")
def Val.printL (ftoa : BitVec 64 → Bytes) : List Val → List Bytes
  | [] => []
  | v :: vs => v.print ftoa :: Val.printL ftoa vs
def Val.printE (ftoa : BitVec 64 → Bytes) : List (Bytes × Val) → List Bytes
  | [] => []
  | (k, v) :: es => (k ++ 58 :: v.print ftoa) :: Val.printE ftoa es
end

/-- The type of a value. -/
def Val.kind : Val → Option VType
  | .nilp => none
  | .scalar .null => some .null
  | .scalar (.bool _) => some .bool
  | .scalar (.int _) => some .integer
  | .scalar (.uint _) => some .unsigned
  | .scalar (.float _) => some .float
  | .scalar (.str _) => some .string
  | .scalar (.ts _) => some .timestamp
  | .arrNil => some .array
  | .arr _ => some .array
  | .objNil => some .object
  | .obj _ => some .object

end Sawmill
