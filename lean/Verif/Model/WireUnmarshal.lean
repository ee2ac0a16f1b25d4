import Verif.Model.WireMsg
/-!
# The protobuf decoder (pkg/serialization/protobuf/event.pb.go)

Every read and every slice expression is checked against the bounds of the input, and the additions that may overflow an `int` wrap around, so that a crash of the decoder would be visible
as the outcome `panic`.  Loops and the recursion between messages are given fuel; running out of fuel is an outcome of its own, and it is proved never to happen.
The depth of Go's call stack (which the runtime limits to 1 GB) is not modelled.
-/

namespace Sawmill.Wire

/-- The errors the decoder returns (the text of an error is not modelled). -/
inductive UErr where
  | intOverflow | unexpectedEOF | invalidLength | unexpectedEndOfGroup      -- event.pb.go:1915-1919, io.ErrUnexpectedEOF
  | endGroupForNonGroup | illegalTag | wrongWireType | illegalWireType
deriving DecidableEq, Repr

/-- Outcome of the decoder: a result, an error, a crash, or out of fuel. -/
inductive UOut (α : Type) where
  | ok (a : α)
  | err (e : UErr)
  | panic
  | fuel
deriving DecidableEq, Repr

def UOut.bind {α β : Type} : UOut α → (α → UOut β) → UOut β
  | .ok a, f => f a
  | .err e, _ => .err e
  | .panic, _ => .panic
  | .fuel, _ => .fuel

instance : Monad UOut where
  pure := .ok
  bind := UOut.bind

/-- Addition of two `int`s wraps around. -/
def wrap64 (x : Int) : Int := (x + 2 ^ 63) % 2 ^ 64 - 2 ^ 63

/-- `len(dAtA)`. -/
def dlen (d : Bytes) : Int := d.length

/-- `dAtA[i]`. -/
def rd (d : Bytes) (i : Int) : UOut UInt8 :=
  if i < 0 then .panic
  else match d[i.toNat]? with
    | some b => .ok b
    | none => .panic

/-- `dAtA[i:j]`. -/
def slice (d : Bytes) (i j : Int) : UOut Bytes :=
  if 0 ≤ i ∧ i ≤ j ∧ j ≤ dlen d then .ok ((d.take j.toNat).drop i.toNat) else .panic

/-- The loop reading a varint into a variable of `w` bits (64, or 32 for `ValueNull`), e.g. event.pb.go:1136-1149; `v |= T(b&0x7F) << shift`.
There are at most eleven iterations, because the shift grows by 7 up to 64. -/
def varintLoop (w : Nat) (d : Bytes) : Nat → Nat → Int → BitVec w → UOut (BitVec w × Int)
  | 0, _, _, _ => .fuel
  | n + 1, shift, iNdEx, v =>
    if shift ≥ 64 then .err .intOverflow
    else if iNdEx ≥ dlen d then .err .unexpectedEOF
    else
      match rd d iNdEx with
      | .ok b =>
        let v := v ||| (BitVec.ofNat w (b.toNat % 128)) <<< shift
        if b.toNat < 128 then .ok (v, iNdEx + 1) else varintLoop w d n (shift + 7) (iNdEx + 1) v
      | .err e => .err e
      | .panic => .panic
      | .fuel => .fuel

/-- Read a varint at `iNdEx`; the new index is returned too. -/
def readVarint (w : Nat) (d : Bytes) (iNdEx : Int) : UOut (BitVec w × Int) := varintLoop w d 11 0 iNdEx 0

/-- Read the length of a length-delimited field at `iNdEx` and check it: e.g. event.pb.go:1163-1186. Returns the index of the contents and the index behind them. -/
def readLength (d : Bytes) (iNdEx : Int) : UOut (Int × Int) := do
  let (msglen, iNdEx) ← readVarint 64 d iNdEx
  if msglen.toInt < 0 then .err .invalidLength
  else
    let postIndex := wrap64 (iNdEx + msglen.toInt)
    if postIndex < 0 then .err .invalidLength
    else if postIndex > dlen d then .err .unexpectedEOF
    else .ok (iNdEx, postIndex)

/-- One field of `skipEvent`, after its tag: event.pb.go:1858-1905. Returns the index behind it and the group depth. -/
def skipField (d : Bytes) (wireType : Nat) (iNdEx : Int) (depth : Nat) : UOut (Int × Nat) :=
  match wireType with
  | 0 => do                                                            -- only the bytes are skipped; the same loop
    let (_, iNdEx) ← readVarint 64 d iNdEx
    .ok (iNdEx, depth)
  | 1 => .ok (wrap64 (iNdEx + 8), depth)
  | 2 => do
    let (length, iNdEx) ← readVarint 64 d iNdEx
    if length.toInt < 0 then .err .invalidLength
    else .ok (wrap64 (iNdEx + length.toInt), depth)
  | 3 => .ok (iNdEx, depth + 1)
  | 4 => if depth = 0 then .err .unexpectedEndOfGroup else .ok (iNdEx, depth - 1)
  | 5 => .ok (wrap64 (iNdEx + 4), depth)
  | _ => .err .illegalWireType

/-- The loop of `skipEvent`: event.pb.go:1843-1912. -/
def skipLoop (d : Bytes) : Nat → Int → Nat → UOut Int
  | 0, _, _ => .fuel
  | n + 1, iNdEx, depth =>
    if iNdEx < dlen d then do
      let (wire, iNdEx) ← readVarint 64 d iNdEx
      let (iNdEx, depth) ← skipField d (wire.toNat % 8) iNdEx depth
      if iNdEx < 0 then .err .invalidLength
      else if depth = 0 then .ok iNdEx
      else skipLoop d n iNdEx depth
    else .err .unexpectedEOF

/-- `skipEvent`: event.pb.go:1839-1913. -/
def skipEvent (d : Bytes) : UOut Int := skipLoop d (d.length + 1) 0 0

/-- Skipping an unknown field at `iNdEx`: e.g. event.pb.go:1196-1206 (`limit` is `l`, or `postIndex` in a map entry). Returns the index behind it. -/
def skipAt (d : Bytes) (iNdEx limit : Int) : UOut Int := do
  let rest ← slice d iNdEx (dlen d)
  let skippy ← skipEvent rest
  if skippy < 0 ∨ wrap64 (iNdEx + skippy) < 0 then .err .invalidLength
  else if wrap64 (iNdEx + skippy) > limit then .err .unexpectedEOF
  else .ok (wrap64 (iNdEx + skippy))

/-- `int32(wire >> 3)`. -/
def fieldNumber (wire : BitVec 64) : Int := ((wire >>> 3).setWidth 32).toInt

/-- The loop shared by the `Unmarshal` methods (e.g. event.pb.go:1130-1215). `handle` is the `switch` on the field number: it answers `none` in the default case, and otherwise the outcome
of the case, with the new index; `keep` appends to `XXX_unrecognized`. Each pass consumes at least one byte. -/
def fieldLoop {σ : Type} (d : Bytes) (handle : Nat → Nat → Int → σ → Option (UOut (σ × Int))) (keep : σ → Bytes → σ) : Nat → Int → σ → UOut σ
  | 0, _, _ => .fuel
  | n + 1, iNdEx, m =>
    if iNdEx < dlen d then do
      let (wire, iNdEx1) ← readVarint 64 d iNdEx
      if wire.toNat % 8 = 4 then .err .endGroupForNonGroup
      else if fieldNumber wire ≤ 0 then .err .illegalTag
      else match handle (fieldNumber wire).toNat (wire.toNat % 8) iNdEx1 m with
        | some r => do
          let (m, iNdEx) ← r
          fieldLoop d handle keep n iNdEx m
        | none => do
          let next ← skipAt d iNdEx (dlen d)
          let u ← slice d iNdEx next
          fieldLoop d handle keep n next (keep m u)
    else if iNdEx > dlen d then .err .unexpectedEOF
    else .ok m

/-- A whole `Unmarshal` method. -/
def fields {σ : Type} (d : Bytes) (handle : Nat → Nat → Int → σ → Option (UOut (σ × Int))) (keep : σ → Bytes → σ) (m : σ) : UOut σ :=
  fieldLoop d handle keep (d.length + 1) 0 m

/-- The decoded contents of an array, of an object and of a value. -/
structure ArrayMsg where
  items : List PValue
  unrec : Bytes
structure ObjectMsg where
  fields : List (Bytes × PValue)
  unrec : Bytes
structure ValueMsg where
  kind : PKind
  unrec : Bytes

/-- A varint field (`case 5`, `8`, `9` and similar): check the wire type, read, and set the kind. -/
def varintCase {σ : Type} (w : Nat) (d : Bytes) (wireType : Nat) (iNdEx : Int) (set : BitVec w → σ) : UOut (σ × Int) :=
  if wireType ≠ 0 then .err .wrongWireType
  else do
    let (v, iNdEx) ← readVarint w d iNdEx
    .ok (set v, iNdEx)

/-- A length-delimited field: check the wire type, read the length, and pass the contents to `body`. -/
def lengthCase {σ : Type} (d : Bytes) (wireType : Nat) (iNdEx : Int) (body : Bytes → UOut σ) : UOut (σ × Int) :=
  if wireType ≠ 2 then .err .wrongWireType
  else do
    let (iNdEx, postIndex) ← readLength d iNdEx
    let contents ← slice d iNdEx postIndex
    let v ← body contents
    .ok (v, postIndex)

/-- `ValueArray.Unmarshal`, event.pb.go:1572-1656: the switch. A new `Value` is appended and decoded in place. -/
def handleArray (value : Bytes → UOut ValueMsg) (d : Bytes) (num wireType : Nat) (iNdEx : Int) (m : ArrayMsg) : Option (UOut (ArrayMsg × Int)) :=
  match num with
  | 1 => some (lengthCase d wireType iNdEx fun contents => do
      let v ← value contents
      .ok { m with items := m.items ++ [.mk v.kind v.unrec] })
  | _ => none

def unmarshalArray (value : Bytes → UOut ValueMsg) (d : Bytes) : UOut ArrayMsg :=
  fields d (handleArray value d) (fun m u => { m with unrec := m.unrec ++ u }) ⟨[], []⟩

/-- `m[k] = v` on a Go map, listed with the entry written last in front. -/
def setField (fs : List (Bytes × PValue)) (k : Bytes) (v : PValue) : List (Bytes × PValue) := (k, v) :: fs.filter fun e => e.1 ≠ k

/-- The loop over one map entry: event.pb.go:1720-1803. The lengths of the key and of the value are compared with the end of the whole message, `l`, not with the end of the entry. -/
def entryLoop (value : Bytes → UOut ValueMsg) (d : Bytes) (postIndex : Int) : Nat → Int → Bytes → PValue → UOut (Bytes × PValue)
  | 0, _, _, _ => .fuel
  | n + 1, iNdEx, mapkey, mapvalue =>
    if iNdEx < postIndex then do
      let (wire, iNdEx1) ← readVarint 64 d iNdEx
      if fieldNumber wire = 1 then do
        let (iNdEx, post) ← readLength d iNdEx1
        let mapkey ← slice d iNdEx post
        entryLoop value d postIndex n post mapkey mapvalue
      else if fieldNumber wire = 2 then do
        let (iNdEx, post) ← readLength d iNdEx1
        let contents ← slice d iNdEx post
        let v ← value contents
        entryLoop value d postIndex n post mapkey (.mk v.kind v.unrec)
      else do
        let next ← skipAt d iNdEx postIndex
        entryLoop value d postIndex n next mapkey mapvalue
    else .ok (mapkey, mapvalue)

/-- `ValueObject.Unmarshal`, event.pb.go:1658-1837: the switch. `iNdEx = postIndex` afterwards, even if the entry was read beyond it. -/
def handleObject (value : Bytes → UOut ValueMsg) (d : Bytes) (num wireType : Nat) (iNdEx : Int) (m : ObjectMsg) : Option (UOut (ObjectMsg × Int)) :=
  match num with
  | 1 => some (
      if wireType ≠ 2 then .err .wrongWireType
      else do
        let (iNdEx, postIndex) ← readLength d iNdEx
        let (k, v) ← entryLoop value d postIndex (d.length + 1) iNdEx [] .nil
        .ok ({ m with fields := setField m.fields k v }, postIndex))
  | _ => none

def unmarshalObject (value : Bytes → UOut ValueMsg) (d : Bytes) (m : ObjectMsg) : UOut ObjectMsg :=
  fields d (handleObject value d) (fun m u => { m with unrec := m.unrec ++ u }) m

/-- `binary.LittleEndian.Uint64` of eight bytes. -/
def uint64le (b : Bytes) : BitVec 64 := BitVec.ofNat 64 (b.foldr (fun x acc => x.toNat + 256 * acc) 0)

/-- `case 4` of `Value.Unmarshal`: event.pb.go:1409-1420. `Uint64` indexes `dAtA[iNdEx:][7]`. -/
def float64Case (d : Bytes) (wireType : Nat) (iNdEx : Int) : UOut (PKind × Int) :=
  if wireType ≠ 1 then .err .wrongWireType
  else if wrap64 (iNdEx + 8) > dlen d then .err .unexpectedEOF
  else do
    let b ← slice d iNdEx (iNdEx + 8)
    .ok (.float (uint64le b), iNdEx + 8)

/-- `Value.Unmarshal`, event.pb.go:1305-1570: the switch. -/
def handleValue (value : Bytes → UOut ValueMsg) (d : Bytes) (num wireType : Nat) (iNdEx : Int) (m : ValueMsg) : Option (UOut (ValueMsg × Int)) :=
  let setKind (r : UOut (PKind × Int)) : Option (UOut (ValueMsg × Int)) := some (do
    let (k, i) ← r
    .ok ({ m with kind := k }, i))
  match num with
  | 1 => setKind (varintCase 32 d wireType iNdEx .null)
  | 2 => setKind (lengthCase d wireType iNdEx fun c => do let a ← unmarshalArray value c; .ok (.array (.mk a.items a.unrec)))
  | 3 => setKind (varintCase 64 d wireType iNdEx fun v => .boolean (v != 0))
  | 4 => setKind (float64Case d wireType iNdEx)
  | 5 => setKind (varintCase 64 d wireType iNdEx .integer)
  | 6 => setKind (lengthCase d wireType iNdEx fun c => do let o ← unmarshalObject value c ⟨[], []⟩; .ok (.object (.mk o.fields o.unrec)))
  | 7 => setKind (lengthCase d wireType iNdEx fun c => .ok (.string (some c)))
  | 8 => setKind (varintCase 64 d wireType iNdEx .timestamp)
  | 9 => setKind (varintCase 64 d wireType iNdEx .unsigned)
  | _ => none

/-- `Value.Unmarshal` into a new `Value`; the fuel bounds the nesting. -/
def unmarshalValue : Nat → Bytes → UOut ValueMsg
  | 0, _ => .fuel
  | n + 1, d => fields d (handleValue (unmarshalValue n) d) (fun m u => { m with unrec := m.unrec ++ u }) ⟨.unset, []⟩

/-- The decoder of values inside a message of `n` bytes (which can nest at most `n` deep). -/
def valueDecoder (d : Bytes) : Bytes → UOut ValueMsg := unmarshalValue (d.length + 1)

/-- `Log.Unmarshal`, event.pb.go:1217-1303: the switch. A second `Object` field is merged into the first. -/
structure LogMsg where
  object : Option ObjectMsg
  unrec : Bytes

def handleLog (d : Bytes) (num wireType : Nat) (iNdEx : Int) (m : LogMsg) : Option (UOut (LogMsg × Int)) :=
  match num with
  | 1 => some (lengthCase d wireType iNdEx fun c => do
      let o ← unmarshalObject (valueDecoder c) c (m.object.getD ⟨[], []⟩)
      .ok { m with object := some o })
  | _ => none

def unmarshalLog (d : Bytes) : UOut LogMsg :=
  fields d (handleLog d) (fun m u => { m with unrec := m.unrec ++ u }) ⟨none, []⟩

/-- The message as the caller sees it. -/
def LogMsg.toLog (m : LogMsg) : PLog :=
  .mk (match m.object with | none => .nil | some o => .mk o.fields o.unrec) m.unrec

/-- `MessageWrapper.Unmarshal`, event.pb.go:1130-1215: the switch. A new `Log` replaces a previous one. -/
def handleWrapper (d : Bytes) (num wireType : Nat) (iNdEx : Int) (m : PWrapper) : Option (UOut (PWrapper × Int)) :=
  match num with
  | 1 => some (lengthCase d wireType iNdEx fun c => do
      let l ← unmarshalLog c
      .ok { m with message := some l.toLog })
  | _ => none

/-- `m.Unmarshal(dAtA)` for a given `m`. -/
def unmarshalInto (d : Bytes) (m : PWrapper) : UOut PWrapper :=
  fields d (handleWrapper d) (fun m u => { m with unrec := m.unrec ++ u }) m

/-- `Unmarshal` into a new `MessageWrapper`. -/
def unmarshal (d : Bytes) : UOut PWrapper := unmarshalInto d ⟨none, []⟩

end Sawmill.Wire
