import Verif.Model.PbGet
import Verif.Spec.Convert
/-!
# Reading a message with its getters
-/

namespace Sawmill
open Wire

/-- One step into a value: to a field of an object, or to an item of an array. -/
inductive PStep where
  | name (k : Bytes)
  | item (i : Nat)

/-- What the kinds of a value are called in event.proto. -/
inductive KindName where
  | null | array | boolean | float | integer | object | string | timestamp | unsignedInteger
deriving DecidableEq

/-- What a Go program learns about a value by calling its getters: which kind `GetKind` returns, the results of the getters of scalars, `len(v.GetArray().GetItems())`, `len(v.GetObject().GetFields())`, and for which names
`v.GetObject().GetFields()` has an entry. -/
structure Readings where
  kind : Option KindName := none
  null : BitVec 32 := 0
  boolean : Bool := false
  float : BitVec 64 := 0
  integer : BitVec 64 := 0
  string : Option Bytes := none
  timestamp : BitVec 64 := 0
  unsignedInteger : BitVec 64 := 0
  items : Nat := 0
  fields : Nat := 0
  has : Bytes → Bool := fun _ => false

/-- A type switch on `GetKind()`. -/
def kindOf : PKind → Option KindName
  | .unset => none
  | .null _ => some .null
  | .array _ => some .array
  | .boolean _ => some .boolean
  | .float _ => some .float
  | .integer _ => some .integer
  | .object _ => some .object
  | .string _ => some .string
  | .timestamp _ => some .timestamp
  | .unsigned _ => some .unsignedInteger

/-- Indexing a map: `m[k]` is nil if there is no entry. -/
def atName (m : List (Bytes × PValue)) (k : Bytes) : PValue := ((m.find? fun e => e.1 == k).map Prod.snd).getD .nil

/-- `_, ok := m[k]`. -/
def hasName {α : Type} (m : List (Bytes × α)) (k : Bytes) : Bool := m.any fun e => e.1 == k

/-- All the readings of a value (or of a nil pointer). -/
def Wire.PValue.readings (v : PValue) : Readings where
  kind := kindOf v.getKind
  null := v.getNull
  boolean := v.getBoolean
  float := v.getFloat
  integer := v.getInteger
  string := v.getString
  timestamp := v.getTimestamp
  unsignedInteger := v.getUnsigned
  items := v.getArray.getItems.length
  fields := v.getObject.getFields.length
  has := hasName v.getObject.getFields

/-- One step with getters: `v.GetObject().GetFields()[k]`, or `v.GetArray().GetItems()[i]` if there are that many. -/
def Wire.PValue.step (v : PValue) : PStep → PValue
  | .name k => atName v.getObject.getFields k
  | .item i => v.getArray.getItems[i]?.getD .nil

/-- Step after step. -/
def Wire.PValue.walk (v : PValue) : List PStep → PValue
  | [] => v
  | s :: path => (v.step s).walk path

/-- From a message: `m.GetLog().GetObject().GetFields()[k]` and on. -/
def walkMessage (m : Option PWrapper) (k : Bytes) (path : List PStep) : PValue := (atName (getLogOf m).getObject.getFields k).walk path

/-! ## The same on the contents of an event -/

/-- One step into a value; `nilp` if there is nothing. -/
def Val.step : Val → PStep → Val
  | .obj es, .name k => (AMap.lookup es k).getD .nilp
  | .arr vs, .item i => vs[i]?.getD .nilp
  | _, _ => .nilp

/-- Step after step. -/
def Val.walk (v : Val) : List PStep → Val
  | [] => v
  | s :: path => (v.step s).walk path

/-- What should be read of a value: its kind, its contents, and for everything else zero. -/
def Val.readings : Val → Readings
  | .nilp => {}
  | .scalar .null => { kind := some .null }
  | .scalar (.bool b) => { kind := some .boolean, boolean := b }
  | .scalar (.int i) => { kind := some .integer, integer := i }
  | .scalar (.uint u) => { kind := some .unsignedInteger, unsignedInteger := u }
  | .scalar (.float f) => { kind := some .float, float := f }
  | .scalar (.str s) => { kind := some .string, string := some s }
  | .scalar (.ts t) => { kind := some .timestamp, timestamp := t }
  | .arrNil => { kind := some .array }
  | .arr vs => { kind := some .array, items := vs.length }
  | .objNil => { kind := some .object }
  | .obj es => { kind := some .object, fields := es.length, has := hasName es }

mutual
/-- A value without nil slices and nil maps (they read like empty ones). -/
def Val.Made : Val → Prop
  | .arrNil => False
  | .objNil => False
  | .arr vs => Val.MadeL vs
  | .obj es => Val.MadeE es
  | _ => True
def Val.MadeL : List Val → Prop
  | [] => True
  | v :: vs => Val.Made v ∧ Val.MadeL vs
def Val.MadeE : List (Bytes × Val) → Prop
  | [] => True
  | (_, v) :: es => Val.Made v ∧ Val.MadeE es
end

end Sawmill
