import Verif.Base.Bytes
/-!
# Protobuf messages and their encoder (pkg/serialization/protobuf/event.pb.go)

Go structs are modelled with their pointers (`nil` constructors), so that the encoder's nil dereferences are visible.

Simplifications. A nil byte slice `XXX_unrecognized` and an empty one are not distinguished (the code treats them alike), nor are a nil and an empty `Fields` map or `Items` slice.
A oneof interface holding a typed nil pointer (such as `(*Value_Array)(nil)`) is not modelled.  Sizes and indices are natural numbers: a Go slice is shorter than 2^63 bytes, so none of
the encoder's sums wraps around.  `XXX_sizecache` is never used by this code.  The entries of a `Fields` map are listed in the order in which `range` yields them, which may be
different in every run.
-/

namespace Sawmill.Wire

mutual
/-- `*Value`: event.pb.go:204-219. -/
inductive PValue where
  | nil
  | mk (kind : PKind) (unrec : Bytes)
/-- `isValue_Kind`, the oneof of `Value`: event.pb.go:259-291; `unset` is the nil interface. `float` holds the bits of the float64. -/
inductive PKind where
  | unset
  | null (v : BitVec 32)
  | array (a : PArray)
  | boolean (b : Bool)
  | float (bits : BitVec 64)
  | integer (i : BitVec 64)
  | object (o : PObject)
  | string (s : Option Bytes)
  | timestamp (t : BitVec 64)
  | unsigned (u : BitVec 64)
/-- `*ValueArray`: event.pb.go:388-393. -/
inductive PArray where
  | nil
  | mk (items : List PValue) (unrec : Bytes)
/-- `*ValueObject`: event.pb.go:440-445. -/
inductive PObject where
  | nil
  | mk (fields : List (Bytes × PValue)) (unrec : Bytes)
end

/-- `*Log`: event.pb.go:152-157. -/
inductive PLog where
  | nil
  | mk (object : PObject) (unrec : Bytes)

/-- `MessageWrapper`: event.pb.go:72-79, 119-127; the oneof `Message` is nil or a `*MessageWrapper_Log` holding a `*Log`. -/
structure PWrapper where
  message : Option PLog
  unrec : Bytes

/-! ## Sizes -/

/-- `bits.Len64`. -/
def len64 (x : Nat) : Nat := if x = 0 then 0 else x.log2 + 1

/-- `sovEvent`: event.pb.go:1122-1124. -/
def sov (x : Nat) : Nat := (len64 (x ||| 1) + 6) / 7

/-- `uint64(m.Null)`: sign extension of an int32. -/
def nullBits (v : BitVec 32) : Nat := (v.signExtend 64).toNat

def PValue.isNil : PValue → Bool | .nil => true | .mk .. => false
def PArray.isNil : PArray → Bool | .nil => true | .mk .. => false
def PObject.isNil : PObject → Bool | .nil => true | .mk .. => false
def PLog.isNil : PLog → Bool | .nil => true | .mk .. => false

mutual
/-- `Value.Size`: event.pb.go:965-978. -/
def sizeValue : PValue → Nat
  | .nil => 0
  | .mk kind unrec => sizeKind kind + unrec.length
/-- The `Size` methods of the oneof wrappers: event.pb.go:980-1077; an absent kind adds nothing (event.pb.go:971). -/
def sizeKind : PKind → Nat
  | .unset => 0
  | .null v => 1 + sov (nullBits v)
  | .array a => if a.isNil then 0 else let l := sizeArray a; 1 + l + sov l
  | .boolean _ => 2
  | .float _ => 9
  | .integer i => 1 + sov i.toNat
  | .object o => if o.isNil then 0 else let l := sizeObject o; 1 + l + sov l
  | .string none => 0
  | .string (some s) => let l := s.length; 1 + l + sov l
  | .timestamp t => 1 + sov t.toNat
  | .unsigned u => 1 + sov u.toNat
/-- `ValueArray.Size`: event.pb.go:1079-1095. -/
def sizeArray : PArray → Nat
  | .nil => 0
  | .mk items unrec => sizeItems items + unrec.length
/-- Its loop: event.pb.go:1086-1089. -/
def sizeItems : List PValue → Nat
  | [] => 0
  | v :: vs => let l := sizeValue v; (1 + l + sov l) + sizeItems vs
/-- `ValueObject.Size`: event.pb.go:1097-1120. -/
def sizeObject : PObject → Nat
  | .nil => 0
  | .mk fields unrec => sizeFields fields + unrec.length
/-- Its loop: event.pb.go:1104-1114. -/
def sizeFields : List (Bytes × PValue) → Nat
  | [] => 0
  | (k, v) :: es =>
    let l := if v.isNil then 0 else let l := sizeValue v; l + (1 + sov l)
    let mapEntrySize := 1 + k.length + sov k.length + l
    (mapEntrySize + 1 + sov mapEntrySize) + sizeFields es
end

/-- `Log.Size`: event.pb.go:949-963. -/
def sizeLog : PLog → Nat
  | .nil => 0
  | .mk object unrec => (if object.isNil then 0 else let l := sizeObject object; 1 + l + sov l) + unrec.length

/-- `MessageWrapper_Log.Size`: event.pb.go:936-947. -/
def sizeLogField (m : PLog) : Nat := if m.isNil then 0 else let l := sizeLog m; 1 + l + sov l

/-- `MessageWrapper.Size`: event.pb.go:921-934. -/
def sizeWrapper (m : PWrapper) : Nat :=
  (match m.message with | none => 0 | some l => sizeLogField l) + m.unrec.length

/-! ## Writing backwards into a slice

A slice is a window of `len` bytes at `off` in the backing array `mem`; all the slices made during one `Marshal` are windows of the same array. -/

/-- `dAtA[j] = b`. -/
def setByte (mem : Bytes) (off len j : Nat) (b : UInt8) : Res Bytes :=
  if j < len then .ok (mem.set (off + j) b) else .panic

/-- The bytes at `pos` overwritten. -/
def writeAt (mem : Bytes) (pos : Nat) (bs : Bytes) : Bytes := mem.take pos ++ bs ++ mem.drop (pos + bs.length)

/-- `copy(dAtA[j:], src)`: as much as fits. -/
def copyAt (mem : Bytes) (off len j : Nat) (src : Bytes) : Res Bytes :=
  if j ≤ len then .ok (writeAt mem (off + j) (src.take (len - j))) else .panic

/-- `i--; dAtA[i] = b`. -/
def pushByte (off len : Nat) (b : UInt8) (mem : Bytes) (i : Nat) : Res (Bytes × Nat) :=
  if i < 1 then .panic else (setByte mem off len (i - 1) b).map (·, i - 1)

/-- `i -= len(src); copy(dAtA[i:], src)`. -/
def pushBytes (off len : Nat) (src : Bytes) (mem : Bytes) (i : Nat) : Res (Bytes × Nat) :=
  if i < src.length then .panic else (copyAt mem off len (i - src.length) src).map (·, i - src.length)

/-- The loop of `encodeVarintEvent`: event.pb.go:911-918. -/
def encodeVarintLoop (off len : Nat) (mem : Bytes) (offset : Nat) (v : Nat) : Res Bytes :=
  if h : v ≥ 128 then
    match setByte mem off len offset (UInt8.ofNat (v % 128 + 128)) with      -- uint8(v&0x7f | 0x80)
    | .panic => .panic
    | .ok mem => encodeVarintLoop off len mem (offset + 1) (v / 128)          -- v >>= 7
  else setByte mem off len offset (UInt8.ofNat v)
termination_by v

/-- `encodeVarintEvent`: event.pb.go:909-919. -/
def encodeVarint (off len : Nat) (v : Nat) (mem : Bytes) (i : Nat) : Res (Bytes × Nat) :=
  if i < sov v then .panic else (encodeVarintLoop off len mem (i - sov v) v).map (·, i - sov v)

/-- The `k` lowest bytes of a number, least significant first. -/
def leBytes : Nat → Nat → Bytes
  | 0, _ => []
  | k + 1, n => UInt8.ofNat (n % 256) :: leBytes k (n / 256)

/-- The eight bytes of `binary.LittleEndian.PutUint64`. -/
def le64 (v : BitVec 64) : Bytes := leBytes 8 v.toNat

/-- After a nested message of `size` bytes has been written: `i -= size; i = encodeVarintEvent(dAtA, i, uint64(size)); i--; dAtA[i] = tag`. -/
def pushHeader (off len : Nat) (tag : UInt8) (size : Nat) (mem : Bytes) (i : Nat) : Res (Bytes × Nat) :=
  if i < size then .panic
  else match encodeVarint off len size mem (i - size) with
    | .panic => .panic
    | .ok (mem, i) => pushByte off len tag mem i

mutual
/-- `Value.MarshalToSizedBuffer`: event.pb.go:649-668. Returns the array and the number of bytes written; no error is ever returned.
`m.Kind.MarshalTo(dAtA[i:])` takes the first `m.Kind.Size()` bytes of that slice (e.g. event.pb.go:670-673). -/
def marshalValue : PValue → Bytes → Nat → Nat → Res (Bytes × Nat)
  | .nil, _, _, _ => .panic                                             -- m.XXX_unrecognized with m == nil
  | .mk kind unrec, mem, off, len => do
    let (mem, i) ← pushBytes off len unrec mem len
    let size := sizeKind kind
    if i < size then .panic
    else
      let i := i - size
      let mem ← marshalKind kind mem (off + i) size
      .ok (mem, len - i)
/-- The `MarshalToSizedBuffer` methods of the oneof wrappers: event.pb.go:675-813 (`unset`: nothing happens, event.pb.go:658). `i := len(dAtA)` at the start. -/
def marshalKind : PKind → Bytes → Nat → Nat → Res Bytes
  | .unset, mem, _, _ => .ok mem
  | .null v, mem, off, len => do
    let (mem, i) ← encodeVarint off len (nullBits v) mem len
    let (mem, _) ← pushByte off len 0x8 mem i
    .ok mem
  | .array a, mem, off, len => if a.isNil then .ok mem else do
    let (mem, size) ← marshalArray a mem off len
    let (mem, _) ← pushHeader off len 0x12 size mem len
    .ok mem
  | .boolean b, mem, off, len => do
    let (mem, i) ← pushByte off len (if b then 1 else 0) mem len
    let (mem, _) ← pushByte off len 0x18 mem i
    .ok mem
  | .float f, mem, off, len => do
    let (mem, i) ← pushBytes off len (le64 f) mem len
    let (mem, _) ← pushByte off len 0x21 mem i
    .ok mem
  | .integer v, mem, off, len => do
    let (mem, i) ← encodeVarint off len v.toNat mem len
    let (mem, _) ← pushByte off len 0x28 mem i
    .ok mem
  | .object o, mem, off, len => if o.isNil then .ok mem else do
    let (mem, size) ← marshalObject o mem off len
    let (mem, _) ← pushHeader off len 0x32 size mem len
    .ok mem
  | .string none, mem, _, _ => .ok mem
  | .string (some s), mem, off, len => do
    let (mem, i) ← pushBytes off len s mem len
    let (mem, i) ← encodeVarint off len s.length mem i
    let (mem, _) ← pushByte off len 0x3a mem i
    .ok mem
  | .timestamp v, mem, off, len => do
    let (mem, i) ← encodeVarint off len v.toNat mem len
    let (mem, _) ← pushByte off len 0x40 mem i
    .ok mem
  | .unsigned v, mem, off, len => do
    let (mem, i) ← encodeVarint off len v.toNat mem len
    let (mem, _) ← pushByte off len 0x48 mem i
    .ok mem
/-- `ValueArray.MarshalToSizedBuffer`: event.pb.go:830-854. -/
def marshalArray : PArray → Bytes → Nat → Nat → Res (Bytes × Nat)
  | .nil, _, _, _ => .panic
  | .mk items unrec, mem, off, len => do
    let (mem, i) ← pushBytes off len unrec mem len
    let (mem, i) ← marshalItems items mem off len i
    .ok (mem, len - i)
/-- Its loop, from the last item to the first: event.pb.go:840-851. Returns the array and the index `i`. -/
def marshalItems : List PValue → Bytes → Nat → Nat → Nat → Res (Bytes × Nat)
  | [], mem, _, _, i => .ok (mem, i)
  | v :: vs, mem, off, len, i => do
    let (mem, i) ← marshalItems vs mem off len i
    let (mem, size) ← marshalValue v mem off i                    -- dAtA[:i]
    pushHeader off len 0xa size mem i
/-- `ValueObject.MarshalToSizedBuffer`: event.pb.go:871-907. -/
def marshalObject : PObject → Bytes → Nat → Nat → Res (Bytes × Nat)
  | .nil, _, _, _ => .panic
  | .mk fields unrec, mem, off, len => do
    let (mem, i) ← pushBytes off len unrec mem len
    let (mem, i) ← marshalFields fields mem off len i
    .ok (mem, len - i)
/-- Its loop, in iteration order: event.pb.go:881-904. -/
def marshalFields : List (Bytes × PValue) → Bytes → Nat → Nat → Nat → Res (Bytes × Nat)
  | [], mem, _, _, i => .ok (mem, i)
  | (k, v) :: es, mem, off, len, baseI => do
    let (mem, i) ← (if v.isNil then .ok (mem, baseI) else (do        -- 884-895
      let (mem, size) ← marshalValue v mem off baseI
      pushHeader off len 0x12 size mem baseI))
    let (mem, i) ← pushBytes off len k mem i                      -- 896-897
    let (mem, i) ← encodeVarint off len k.length mem i            -- 898
    let (mem, i) ← pushByte off len 0xa mem i                     -- 899-900
    let (mem, i) ← encodeVarint off len (baseI - i) mem i         -- 901
    let (mem, i) ← pushByte off len 0xa mem i                     -- 902-903
    marshalFields es mem off len i
end

/-- `Log.MarshalToSizedBuffer`: event.pb.go:610-632. -/
def marshalLog : PLog → Bytes → Nat → Nat → Res (Bytes × Nat)
  | .nil, _, _, _ => .panic
  | .mk object unrec, mem, off, len => do
    let (mem, i) ← pushBytes off len unrec mem len
    let (mem, i) ← (if object.isNil then .ok (mem, i) else (do
      let (mem, size) ← marshalObject object mem off i
      pushHeader off len 0xa size mem i))
    .ok (mem, len - i)

/-- `MessageWrapper_Log.MarshalToSizedBuffer`: event.pb.go:578-593. -/
def marshalLogField (l : PLog) (mem : Bytes) (off len : Nat) : Res Bytes :=
  if l.isNil then .ok mem else do
    let (mem, size) ← marshalLog l mem off len
    let (mem, _) ← pushHeader off len 0xa size mem len
    .ok mem

/-- `MessageWrapper.MarshalToSizedBuffer`: event.pb.go:552-571. -/
def marshalWrapper (m : PWrapper) (mem : Bytes) (off len : Nat) : Res (Bytes × Nat) := do
  let (mem, i) ← pushBytes off len m.unrec mem len
  match m.message with
  | none => .ok (mem, len - i)
  | some l =>
    let size := sizeLogField l
    if i < size then .panic
    else
      let i := i - size
      let mem ← marshalLogField l mem (off + i) size
      .ok (mem, len - i)

/-- `MessageWrapper.Marshal`: event.pb.go:537-545: `dAtA[:n]` of a new array of `Size()` bytes. -/
def marshal (m : PWrapper) : Res Bytes := do
  let size := sizeWrapper m
  let (mem, n) ← marshalWrapper m (List.replicate size 0) 0 size
  .ok (mem.take n)

end Sawmill.Wire
