import Verif.Model.Json
/-!
# Decoding JSON into a `*Value` that has been used before: pkg/event/value.go:112-157

`encoding/json` decodes an array into the existing slice, element by element into the `*Value`s that are already there (also those beyond the length of the slice, up to its capacity), and an object into the existing map. So what a `Value` held before matters.

Simplification: the `Value`s are a tree (no two pointers to the same `Value`, slice or map). Addresses do not matter then.
-/

namespace Sawmill

/-- The fields of a `Value` other than `Type`, `Array` and `Object`: value.go:62-72. -/
structure Leaves where
  integer : BitVec 64 := 0
  unsigned : BitVec 64 := 0
  float : BitVec 64 := 0
  timestamp : BitVec 64 := 0
  string : Bytes := []
  bool : Bool := false
deriving DecidableEq, Repr

/-- A `*Value` with everything that its fields hold, also those that `Type` does not refer to: value.go:62-72. `slots` is the memory of the slice `Array` up to its capacity (what is beyond the list is nil), `len` its length; `arrNil`, `objNil` say that `Array`, `Object` are nil. -/
inductive FVal where
  | nil
  | val (type : VType) (leaves : Leaves) (arrNil : Bool) (slots : List FVal) (len : Nat) (objNil : Bool) (entries : List (Bytes × FVal))

/-- `new(Value)` -/
def FVal.zero : FVal := .val .null {} true [] 0 true []

/-- `indirect` of encoding/json: a nil pointer is replaced by a new `Value`. -/
def FVal.made : FVal → FVal
  | .nil => .zero
  | v => v

/-- `v.Type = t` and the assignments to other fields: value.go:136-150. -/
def FVal.put (t : VType) (f : Leaves → Leaves) : FVal → FVal
  | .nil => .nil
  | .val _ l an ss n on es => .val t (f l) an ss n on es

def FVal.slots : FVal → List FVal
  | .nil => []
  | .val _ _ _ ss _ _ _ => ss

def FVal.entries : FVal → List (Bytes × FVal)
  | .nil => []
  | .val _ _ _ _ _ _ es => es

/-- After decoding into `&v.Array`: value.go:120-123. With an error the elements so far are there, and the slice is as long as before or as what was decoded of it; `Type` is not set. -/
def FVal.setArray (ok : Bool) (done rest : List FVal) : FVal → FVal
  | .nil => .nil
  | .val t l _ _ n on es => .val (if ok then .array else t) l false (done ++ rest) (if ok then done.length else max n done.length) on es

/-- After decoding into `&v.Object`: value.go:125-128. -/
def FVal.setObject (ok : Bool) (es : List (Bytes × FVal)) : FVal → FVal
  | .nil => .nil
  | .val t l an ss n _ _ => .val (if ok then .object else t) l an ss n false es

mutual
/-- `json.Unmarshal` of a document into a place of type `*Value` (`null` sets it to nil), with `Value.UnmarshalJSON`: value.go:112-157. Whether it succeeded, and what is there afterwards. -/
def decodeSlot (env : JEnv) : Json → FVal → Bool × FVal
  | .null, _ => (true, .nil)
  | .bool b, v => (true, v.made.put .bool fun l => { l with bool := b })
  | .num t, v =>
    match env.atof t with
    | none => (false, v.made)
    | some f => (true, v.made.put .float fun l => { l with float := f })
  | .str s, v => (true, v.made.put .string fun l => { l with string := s })
  | .arr js, v =>
    let r := decodeSlots env js v.made.slots
    (r.1, v.made.setArray r.1 r.2.1 (if js.isEmpty then [] else r.2.2))
  | .obj es, v =>
    let r := decodeMap env es v.made.entries
    (r.1, v.made.setObject r.1 r.2)
/-- The array loop of encoding/json: the elements decoded (the last of them with the error), and the places after them. -/
def decodeSlots (env : JEnv) : List Json → List FVal → Bool × List FVal × List FVal
  | [], ss => (true, [], ss)
  | j :: js, ss =>
    let r := decodeSlot env j (ss.headD .nil)
    if r.1 then
      let rs := decodeSlots env js ss.tail
      (rs.1, r.2 :: rs.2.1, rs.2.2)
    else (false, [r.2], ss.tail)
/-- The object loop of encoding/json: each element is decoded into a new place and then stored. -/
def decodeMap (env : JEnv) : List (Bytes × Json) → List (Bytes × FVal) → Bool × List (Bytes × FVal)
  | [], m => (true, m)
  | (k, j) :: es, m =>
    let r := decodeSlot env j .nil
    if r.1 then decodeMap env es (AMap.insert m k r.2) else (false, m)
end

/-- `Value.UnmarshalJSON` of `v` (not nil) for a parsed document: value.go:112-157. Here `null` gives a value of type null. -/
def decodeValue (env : JEnv) (j : Json) (v : FVal) : Bool × FVal :=
  match j with
  | .null => (true, v.put .null id)
  | j => decodeSlot env j v

/-- `json.Unmarshal(data, v)` for a `v *Value` that is not nil. -/
def unmarshalValue (env : JEnv) (bs : Bytes) (v : FVal) : Bool × FVal :=
  match parseDoc bs with
  | none => (false, v)
  | some j => decodeValue env j v

/-- A sequence of calls of `json.Unmarshal` on the same value. -/
def unmarshalValues (env : JEnv) (docs : List Bytes) (v : FVal) : FVal := docs.foldl (fun v bs => (unmarshalValue env bs v).2) v

/-- A sequence of calls of `json.Unmarshal` on the same event: event.go:144-151. -/
def unmarshalEvents (env : JEnv) (docs : List Bytes) (h : Heap) (e : Event) : Heap × Event :=
  docs.foldl (fun he bs => (unmarshalEvent env bs he.1).getD he) (h, e)

end Sawmill
