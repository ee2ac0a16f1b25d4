import Verif.Model.WireMsg
/-!
# The other methods of protobuf messages: getters and `XXX_Marshal` (pkg/serialization/protobuf/event.pb.go)

A nil `*MessageWrapper` is `none`; the other pointers have their own nil. A getter returns a pointer into the message, modelled by what it points to.
-/

namespace Sawmill.Wire

/-! ## Getters -/

/-- `MessageWrapper.GetMessage`: event.pb.go:131-136. -/
def getMessage : Option PWrapper → Option PLog
  | some m => m.message
  | none => none

/-- `MessageWrapper.GetLog`: event.pb.go:138-143. -/
def getLogOf (m : Option PWrapper) : PLog :=
  match getMessage m with
  | some l => l
  | none => .nil

/-- `Log.GetObject`: event.pb.go:197-202. -/
def PLog.getObject : PLog → PObject
  | .mk object _ => object
  | .nil => .nil

/-- `Value.GetKind`: event.pb.go:303-308. -/
def PValue.getKind : PValue → PKind
  | .mk kind _ => kind
  | .nil => .unset

/-- `Value.GetNull`: event.pb.go:310-315. -/
def PValue.getNull (m : PValue) : BitVec 32 :=
  match m.getKind with
  | .null x => x
  | _ => 0

/-- `Value.GetArray`: event.pb.go:317-322. -/
def PValue.getArray (m : PValue) : PArray :=
  match m.getKind with
  | .array x => x
  | _ => .nil

/-- `Value.GetBoolean`: event.pb.go:324-329. -/
def PValue.getBoolean (m : PValue) : Bool :=
  match m.getKind with
  | .boolean x => x
  | _ => false

/-- `Value.GetFloat`: event.pb.go:331-336. The bits of 0 are 0. -/
def PValue.getFloat (m : PValue) : BitVec 64 :=
  match m.getKind with
  | .float x => x
  | _ => 0

/-- `Value.GetInteger`: event.pb.go:338-343. -/
def PValue.getInteger (m : PValue) : BitVec 64 :=
  match m.getKind with
  | .integer x => x
  | _ => 0

/-- `Value.GetObject`: event.pb.go:345-350. -/
def PValue.getObject (m : PValue) : PObject :=
  match m.getKind with
  | .object x => x
  | _ => .nil

/-- `Value.GetString_`: event.pb.go:352-357; `none` is a nil slice. -/
def PValue.getString (m : PValue) : Option Bytes :=
  match m.getKind with
  | .string x => x
  | _ => none

/-- `Value.GetTimestamp`: event.pb.go:359-364. -/
def PValue.getTimestamp (m : PValue) : BitVec 64 :=
  match m.getKind with
  | .timestamp x => x
  | _ => 0

/-- `Value.GetUnsignedInteger`: event.pb.go:366-371. -/
def PValue.getUnsigned (m : PValue) : BitVec 64 :=
  match m.getKind with
  | .unsigned x => x
  | _ => 0

/-- `ValueArray.GetItems`: event.pb.go:433-438. -/
def PArray.getItems : PArray → List PValue
  | .mk items _ => items
  | .nil => []

/-- `ValueObject.GetFields`: event.pb.go:485-490. -/
def PObject.getFields : PObject → List (Bytes × PValue)
  | .mk fields _ => fields
  | .nil => []

/-! ## `XXX_Marshal`, not deterministic

`b = b[:cap(b)]`: only the array up to the capacity matters, not how much of it is in use. With `deterministic` the library does the work: not modelled. -/

/-- The common text of the five methods: `marshal` is `MarshalToSizedBuffer`. -/
def xxxMarshalWith (marshal : Bytes → Nat → Nat → Res (Bytes × Nat)) (array : Bytes) : Res Bytes := do
  let (mem, n) ← marshal array 0 array.length
  .ok (mem.take n)

/-- `MessageWrapper.XXX_Marshal`: event.pb.go:92-104. -/
def PWrapper.xxxMarshal (m : PWrapper) (array : Bytes) : Res Bytes := xxxMarshalWith (marshalWrapper m) array

/-- `Log.XXX_Marshal`: event.pb.go:170-182. -/
def PLog.xxxMarshal (m : PLog) (array : Bytes) : Res Bytes := xxxMarshalWith (marshalLog m) array

/-- `Value.XXX_Marshal`: event.pb.go:232-244. -/
def PValue.xxxMarshal (m : PValue) (array : Bytes) : Res Bytes := xxxMarshalWith (marshalValue m) array

/-- `ValueArray.XXX_Marshal`: event.pb.go:406-418. -/
def PArray.xxxMarshal (m : PArray) (array : Bytes) : Res Bytes := xxxMarshalWith (marshalArray m) array

/-- `ValueObject.XXX_Marshal`: event.pb.go:458-470. -/
def PObject.xxxMarshal (m : PObject) (array : Bytes) : Res Bytes := xxxMarshalWith (marshalObject m) array

/-! ## `Marshal` of the parts of a message -/

/-- The common text of the `Marshal` methods: a new array of `Size()` bytes. -/
def marshalWith (size : Nat) (marshal : Bytes → Nat → Nat → Res (Bytes × Nat)) : Res Bytes := do
  let (mem, n) ← marshal (List.replicate size 0) 0 size
  .ok (mem.take n)

/-- `Log.Marshal`: event.pb.go:595-603. -/
def PLog.marshal (m : PLog) : Res Bytes := marshalWith (sizeLog m) (marshalLog m)

/-- `Value.Marshal`: event.pb.go:634-642. -/
def PValue.marshal (m : PValue) : Res Bytes := marshalWith (sizeValue m) (marshalValue m)

/-- `ValueArray.Marshal`: event.pb.go:815-823. -/
def PArray.marshal (m : PArray) : Res Bytes := marshalWith (sizeArray m) (marshalArray m)

/-- `ValueObject.Marshal`: event.pb.go:856-864. -/
def PObject.marshal (m : PObject) : Res Bytes := marshalWith (sizeObject m) (marshalObject m)

/-! ## `MarshalTo` -/

/-- The common text of the `MarshalTo` methods of messages: `m.MarshalToSizedBuffer(dAtA[:size])`. `array` is what is behind `dAtA`, up to its capacity: Go lets a slice be extended as far as that. The result is the array and the number of bytes. -/
def marshalToWith (size : Nat) (marshal : Bytes → Nat → Nat → Res (Bytes × Nat)) (array : Bytes) : Res (Bytes × Nat) :=
  if size ≤ array.length then marshal array 0 size else .panic

/-- `MessageWrapper.MarshalTo`: event.pb.go:547-550. -/
def PWrapper.marshalTo (m : PWrapper) (array : Bytes) : Res (Bytes × Nat) := marshalToWith (sizeWrapper m) (marshalWrapper m) array

/-- `Log.MarshalTo`: event.pb.go:605-608. -/
def PLog.marshalTo (m : PLog) (array : Bytes) : Res (Bytes × Nat) := marshalToWith (sizeLog m) (marshalLog m) array

/-- `Value.MarshalTo`: event.pb.go:644-647. -/
def PValue.marshalTo (m : PValue) (array : Bytes) : Res (Bytes × Nat) := marshalToWith (sizeValue m) (marshalValue m) array

/-- `ValueArray.MarshalTo`: event.pb.go:825-828. -/
def PArray.marshalTo (m : PArray) (array : Bytes) : Res (Bytes × Nat) := marshalToWith (sizeArray m) (marshalArray m) array

/-- `ValueObject.MarshalTo`: event.pb.go:866-869. -/
def PObject.marshalTo (m : PObject) (array : Bytes) : Res (Bytes × Nat) := marshalToWith (sizeObject m) (marshalObject m) array
end Sawmill.Wire
