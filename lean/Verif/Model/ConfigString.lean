import Verif.Model.Json
/-!
# The text of a processor: `String`, `processor.ConfigString` (pkg/processor/api.go)

encoding/json (Go 1.17) on the `Config` structs, with `SetEscapeHTML(false)`.
-/

namespace Sawmill

/-- The loop of `encodeState.string` without `escapeHTML` (standard library, encoding/json/encode.go): as `encChars`, but `<`, `>` and `&` are written as they are. -/
def plainChars : Nat → Bytes → Bytes
  | 0, _ => []
  | _ + 1, [] => []
  | n + 1, b :: r =>
    if b.toNat < 128 then
      (if b = 34 ∨ b = 92 then [92, b]
      else if b = 10 then [92, 110]
      else if b = 13 then [92, 114]
      else if b = 9 then [92, 116]
      else if b.toNat < 32 then [92, 117, 48, 48, hexDigit (b.toNat / 16), hexDigit (b.toNat % 16)]
      else [b]) ++ plainChars n r
    else
      match multi (b :: r) with
      | none => [92, 117, 102, 102, 102, 100] ++ plainChars n r
      | some (m, r') =>
        (if m = [0xE2, 0x80, 0xA8] then [92, 117, 50, 48, 50, 56]
        else if m = [0xE2, 0x80, 0xA9] then [92, 117, 50, 48, 50, 57]
        else m) ++ plainChars n r'

def plainStr (s : Bytes) : Bytes := 34 :: (plainChars s.length s ++ [34])

/-- A field of a `Config` struct. `value` is a `config.EventValue` (pkg/config/config.go:25), which has the fields of `event.Value` but none of its methods; `strs none` is a nil slice. -/
inductive StructField where
  | str (s : Bytes)
  | bool (b : Bool)
  | int16 (i : BitVec 16)
  | strs (l : Option (List Bytes))
  | value (c : Cell)

/-- The `Config` structs with all their fields. append.go:35-49, community_id.go:35-73, lowercase.go:35-46, remove.go:35-42, set.go:36-53, uppercase.go:35-46. -/
inductive PConfig where
  | append (allowDuplicates : Bool) (field : Bytes) (ignoreMissing : Bool) (value : Bytes)
  | communityId (destinationIP destinationPort ianaNumber icmpCode icmpType : Bytes) (ignoreFailure : Bool) (seed : BitVec 16) (sourceIP sourcePort targetField transport : Bytes)
  | lowercase (field : Bytes) (ignoreMissing : Bool) (targetField : Bytes)
  | remove (fields : Option (List Bytes)) (ignoreMissing : Bool)
  | set (copyFrom : Bytes) (ignoreFailure ignoreMissing : Bool) (targetField : Bytes) (value : Cell)
  | uppercase (field : Bytes) (ignoreMissing : Bool) (targetField : Bytes)

/-- `processorName`: append.go:31, and the same constant of the others. -/
def PConfig.name : PConfig → Bytes
  | .append .. => lit "append"
  | .communityId .. => lit "community_id"
  | .lowercase .. => lit "lowercase"
  | .remove .. => lit "remove"
  | .set .. => lit "set"
  | .uppercase .. => lit "uppercase"

/-- The fields in the order of their declarations: the lines of `PConfig`. There are no `json` tags, so that the names are those in Go. -/
def PConfig.fields : PConfig → List (Bytes × StructField)
  | .append d f m v => [(lit "AllowDuplicates", .bool d), (lit "Field", .str f), (lit "IgnoreMissing", .bool m), (lit "Value", .str v)]
  | .communityId dip dp iana code type fail seed sip sp target transport =>
    [(lit "DestinationIP", .str dip), (lit "DestinationPort", .str dp), (lit "IANANumber", .str iana), (lit "ICMPCode", .str code), (lit "ICMPType", .str type), (lit "IgnoreFailure", .bool fail),
      (lit "Seed", .int16 seed), (lit "SourceIP", .str sip), (lit "SourcePort", .str sp), (lit "TargetField", .str target), (lit "Transport", .str transport)]
  | .lowercase f m t => [(lit "Field", .str f), (lit "IgnoreMissing", .bool m), (lit "TargetField", .str t)]
  | .remove fs m => [(lit "Fields", .strs fs), (lit "IgnoreMissing", .bool m)]
  | .set c f m t v => [(lit "CopyFrom", .str c), (lit "IgnoreFailure", .bool f), (lit "IgnoreMissing", .bool m), (lit "TargetField", .str t), (lit "Value", .value v)]
  | .uppercase f m t => [(lit "Field", .str f), (lit "IgnoreMissing", .bool m), (lit "TargetField", .str t)]

/-- The number of a `ValueType`: value.go:30-41. Simplification: all numbers that are not types are shown as 9. -/
def typeNum : VType → Nat
  | .null => 0
  | .array => 1
  | .bool => 2
  | .float => 3
  | .integer => 4
  | .object => 5
  | .string => 6
  | .timestamp => 7
  | .unsigned => 8
  | .unknown => 9

/-- The members of an object with their names in quotes: `structEncoder` and `mapEncoder` (standard library, encoding/json/encode.go). -/
def encMembers (es : List (Bytes × JOut Bytes)) : JOut Bytes :=
  (joinText (fun e : Bytes × JOut Bytes => e.2.bind fun t => .ok (e.1 ++ 58 :: t)) es).bind fun t => .ok (123 :: (t ++ [125]))

/-- The name of a struct field, in quotes (none of the names needs an escape). -/
def quoted (s : Bytes) : Bytes := 34 :: (s ++ [34])

/-- `sliceEncoder` on a `[]*Value` (standard library): the elements encode themselves (value.go:106-110). -/
def encSlice (env : JEnv) (h : Heap) (n : Nat) : Option (List Ptr) → JOut Bytes
  | none => .ok (lit "null")
  | some ps => (joinText (marshalPtr env h n) ps).bind fun t => .ok (91 :: (t ++ [93]))

/-- `mapEncoder` on a `map[string]*Value` (standard library): the names are strings of this encoder, the values encode themselves. -/
def encMap (env : JEnv) (h : Heap) (n : Nat) : Option Nat → JOut Bytes
  | none => .ok (lit "null")
  | some m => encMembers ((mapOf h (some m)).map fun e => (plainStr e.1, marshalPtr env h n e.2))

/-- `structEncoder` on a `config.EventValue`: all fields of value.go:62-72, in order. `Time` has its own `MarshalJSON` (time.go:41-43). -/
def encEventValue (env : JEnv) (h : Heap) (n : Nat) (c : Cell) : JOut Bytes :=
  encMembers [
    (quoted (lit "Integer"), .ok (intText c.integer.toInt)),
    (quoted (lit "UnsignedInteger"), .ok (itoa c.unsigned.toNat)),
    (quoted (lit "Float"), if finite c.float then .ok (env.ftoa c.float) else .error),
    (quoted (lit "Timestamp"), compact (timeMarshalJSON c.timestamp.toInt)),
    (quoted (lit "String"), .ok (plainStr c.string)),
    (quoted (lit "Array"), encSlice env h n c.array),
    (quoted (lit "Object"), encMap env h n c.object),
    (quoted (lit "Bool"), .ok (if c.bool then lit "true" else lit "false")),
    (quoted (lit "Type"), .ok (itoa (typeNum c.type)))]

/-- The encoder of a field of a `Config`. -/
def encField (env : JEnv) (h : Heap) (n : Nat) : StructField → JOut Bytes
  | .str s => .ok (plainStr s)
  | .bool b => .ok (if b then lit "true" else lit "false")
  | .int16 i => .ok (intText i.toInt)
  | .strs none => .ok (lit "null")
  | .strs (some l) => (joinText (fun s => .ok (plainStr s)) l).bind fun t => .ok (91 :: (t ++ [93]))
  | .value c => encEventValue env h n c

/-- `ConfigString` (api.go:43-53) as called by `String` (append.go:76-78 and the others). `Encode` writes the text and a line feed, or nothing if there is an error, which is dropped. No text if the recursion is deeper than the bound. -/
def PConfig.string (env : JEnv) (h : Heap) (n : Nat) (p : PConfig) : Option Bytes :=
  match encMembers (p.fields.map fun f => (quoted f.1, encField env h n f.2)) with
  | .ok t => some (p.name ++ [61] ++ (t ++ [10]))
  | .error => some (p.name ++ [61])
  | .fuel => none

end Sawmill
