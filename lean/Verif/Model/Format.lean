import Verif.Model.Json
/-!
# Printing values (pkg/event/value.go:56-61, 101-104)

Simplifications. `ftoa` is what package fmt prints for a float64 with the verb `%v`. The outcome `none` means that the recursion is deeper than the bound (if for every bound: Go exhausts the stack).
-/

namespace Sawmill

/-- `valueTypeNames` and `ValueType.String`: value.go:44-61. -/
def VType.name : VType → Bytes
  | .null => lit "null_type"
  | .array => lit "array_type"
  | .bool => lit "bool_type"
  | .float => lit "float_type"
  | .integer => lit "integer_type"
  | .object => lit "object_type"
  | .string => lit "string_type"
  | .timestamp => lit "timestamp_type"
  | .unsigned => lit "unsigned_integer_type"
  | .unknown => lit "unknown_type"

/-- The loops of fmt's `printValue` over slices and maps: the elements, with a space in between. -/
def printAll {α : Type} (f : α → Option Bytes) : List α → Option Bytes
  | [] => some []
  | [x] => f x
  | x :: xs =>
    match f x with
    | none => none
    | some a =>
      match printAll f xs with
      | none => none
      | some b => some (a ++ 32 :: b)

/-- fmt on a `*Value` with any verb and flags: it calls `Value.Format` (value.go:101-104), which ignores them. For a nil pointer the method panics and fmt prints `<nil>`. Maps are printed in the order of their keys (standard library, internal/fmtsort), in which the model lists them. -/
def formatPtr (ftoa : BitVec 64 → Bytes) (h : Heap) : Nat → Ptr → Option Bytes
  | 0, _ => none
  | n + 1, p =>
    match deref h p with
    | none => some (lit "<nil>")
    | some c =>
      (match c.type with
      | .array => (printAll (formatPtr ftoa h n) (c.array.getD [])).map fun t => 91 :: (t ++ [93])
      | .bool => some (if c.bool then lit "true" else lit "false")
      | .float => some (ftoa c.float)
      | .integer => some (intText c.integer.toInt)
      | .object => (printAll (fun e : Bytes × Ptr => (formatPtr ftoa h n e.2).map fun t => e.1 ++ 58 :: t) (mapOf h c.object)).map fun t => lit "map[" ++ (t ++ [93])
      | .string => some c.string
      | .timestamp => some (timeString c.timestamp.toInt)
      | .unsigned => some (itoa c.unsigned.toNat)
      | .null => some (lit "<nil>")
      | .unknown => some (lit "<nil>") : Option Bytes).map fun t => c.type.name ++ 58 :: t

end Sawmill
