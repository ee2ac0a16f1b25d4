import Verif.Model.Heap
import Verif.Model.WireUnmarshal
/-!
# Converting events to protobuf messages and back (pkg/serialization/protobuf/protobuf.go)

`fuel` as an outcome means that the recursion is deeper than the given bound; if it is the outcome for every bound, the Go program exhausts its stack.

Simplifications. A Go string and the `[]byte` made from it are both lists of bytes. The entries of a map are visited in the order in which the model lists them (`SameMessage` of
Spec/Wire.lean relates the listings of a message that Go's random iteration order can produce).
-/

namespace Sawmill
open Wire

/-- A `for` loop that converts every element and collects the results. -/
def collect {α β : Type} (f : α → UOut β) : List α → UOut (List β)
  | [] => .ok []
  | x :: xs => do
    let y ← f x
    let ys ← collect f xs
    .ok (y :: ys)

/-- `fromEventValueObject`: protobuf.go:111-128, given the conversion of values. -/
def fromEventValueObject (conv : Ptr → UOut PValue) (h : Heap) (p : Ptr) : UOut PObject :=
  match deref h p with
  | none => .ok .nil
  | some c =>
    if c.type ≠ .object then .panic
    else do
      let fields ← collect (fun e : Bytes × Ptr => do let v ← conv e.2; .ok (e.1, v)) (mapOf h c.object)
      .ok (.mk fields [])

/-- `fromEventValue`: protobuf.go:39-109. -/
def fromEventValue (h : Heap) : Nat → Ptr → UOut PValue
  | 0, _ => .fuel
  | n + 1, p =>
    match deref h p with
    | none => .ok .nil
    | some c =>
      match c.type with
      | .array => do
        let items ← collect (fromEventValue h n) (c.array.getD [])
        .ok (.mk (.array (.mk items [])) [])
      | .bool => .ok (.mk (.boolean c.bool) [])
      | .float => .ok (.mk (.float c.float) [])
      | .integer => .ok (.mk (.integer c.integer) [])
      | .object => do
        let o ← fromEventValueObject (fromEventValue h n) h p
        .ok (.mk (.object o) [])
      | .string => .ok (.mk (.string (some c.string)) [])
      | .timestamp => .ok (.mk (.timestamp c.timestamp) [])
      | .unsigned => .ok (.mk (.unsigned c.unsigned) [])
      | .null => .ok (.mk (.null 0) [])                                   -- ValueNull_NULL_VALUE
      | .unknown => .panic

/-- `FromEvent`: protobuf.go:29-37. -/
def fromEvent (n : Nat) (h : Heap) (e : Event) : UOut PWrapper :=
  match apiGet h e (lit ".") with
  | .panic => .panic
  | .ok (h, p) => do
    let o ← fromEventValueObject (fromEventValue h n) h p
    .ok ⟨some (.mk o []), []⟩

mutual
/-- `toEventValue`: protobuf.go:143-173. `nul` is the package variable `event.NullValue` (pkg/event/value.go:26). -/
def toEventValue (nul : Ptr) : PValue → Heap → Res (Heap × Ptr)
  | .nil, _ => .panic                                                       -- the kind of a nil value is nil: `default`
  | .mk kind _, h => toEventKind nul kind h
def toEventKind (nul : Ptr) : PKind → Heap → Res (Heap × Ptr)
  | .unset, _ => .panic
  | .null _, h => .ok (h, nul)
  | .array .nil, _ => .panic                                                -- t.Array.Items with t.Array == nil
  | .array (.mk items _), h =>
    match toEventItems nul items h with
    | .panic => .panic
    | .ok (h, ps) => let (h, a) := h.alloc (.cell (arrCell (some ps))); .ok (h, some a)
  | .boolean b, h => let (h, a) := h.alloc (.cell (boolCell b)); .ok (h, some a)
  | .float f, h => let (h, a) := h.alloc (.cell (floatCell f)); .ok (h, some a)
  | .integer i, h => let (h, a) := h.alloc (.cell (intCell i)); .ok (h, some a)
  | .object .nil, _ => .panic                                               -- t.Object.Fields with t.Object == nil
  | .object (.mk fields _), h =>
    let (h, m) := h.alloc (.map [])
    match toEventFields nul m fields h with
    | .panic => .panic
    | .ok h => let (h, a) := h.alloc (.cell (objCell (some m))); .ok (h, some a)
  | .string s, h => let (h, a) := h.alloc (.cell (strCell (s.getD []))); .ok (h, some a)
  | .timestamp t, h => let (h, a) := h.alloc (.cell (tsCell t)); .ok (h, some a)
  | .unsigned u, h => let (h, a) := h.alloc (.cell (uintCell u)); .ok (h, some a)
/-- The loop over the items: protobuf.go:148-151. -/
def toEventItems (nul : Ptr) : List PValue → Heap → Res (Heap × List Ptr)
  | [], h => .ok (h, [])
  | v :: vs, h =>
    match toEventValue nul v h with
    | .panic => .panic
    | .ok (h, p) =>
      match toEventItems nul vs h with
      | .panic => .panic
      | .ok (h, ps) => .ok (h, p :: ps)
/-- The loop over the fields: protobuf.go:160-162. -/
def toEventFields (nul : Ptr) (m : Nat) : List (Bytes × PValue) → Heap → Res Heap
  | [], h => .ok h
  | (k, v) :: es, h =>
    match toEventValue nul v h with
    | .panic => .panic
    | .ok (h, p) =>
      match mapWrite h (some m) (escapeKey k) p with
      | .panic => .panic
      | .ok h => toEventFields nul m es h
end

/-- The loop of `ToLogEvent`: protobuf.go:137-139; the results of `Put` are ignored. -/
def toLogLoop (nul : Ptr) : List (Bytes × PValue) → Heap → Event → Res (Heap × Event)
  | [], h, e => .ok (h, e)
  | (k, v) :: es, h, e =>
    match toEventValue nul v h with
    | .panic => .panic
    | .ok (h, p) =>
      match apiPut h e (escapeKey k) p with
      | .panic => .panic
      | .ok (h, e, _, _) => toLogLoop nul es h e

/-- `ToLogEvent`: protobuf.go:131-141. The result is nil or a new event. -/
def toLogEvent (nul : Ptr) (l : PLog) (h : Heap) : Res (Heap × Option Event) :=
  match l with
  | .nil => .ok (h, none)
  | .mk .nil _ => .ok (h, none)
  | .mk (.mk fields _) _ => (toLogLoop nul fields h newEvent).map fun r => (r.1, some r.2)

/-- `MessageWrapper.GetLog`: event.pb.go:136-141. -/
def Wire.PWrapper.getLog (m : PWrapper) : PLog := m.message.getD .nil

end Sawmill
