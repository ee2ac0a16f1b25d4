import Verif.Model.Json
import Verif.Model.Processors
/-!
# Values put together by hand

The fields of `Value` are exported, so a program may fill in more than one of them, or a type that does not exist.
-/

namespace Sawmill

/-- The value as its constructor would make it: only the field that its type names. -/
def Cell.shown (c : Cell) : Cell :=
  match c.type with
  | .null => { type := .null }
  | .array => { type := .array, array := c.array }
  | .bool => { type := .bool, bool := c.bool }
  | .float => { type := .float, float := c.float }
  | .integer => { type := .integer, integer := c.integer }
  | .object => { type := .object, object := c.object }
  | .string => { type := .string, string := c.string }
  | .timestamp => { type := .timestamp, timestamp := c.timestamp }
  | .unsigned => { type := .unsigned, unsigned := c.unsigned }
  | .unknown => { type := .unknown }

/-- Likewise with null in place of a value of an unknown type. -/
def Cell.orNull (c : Cell) : Cell := if c.type = .unknown then { type := .null } else c

/-- The memory with all values changed like this. -/
def HObj.mapCell (f : Cell → Cell) : HObj → HObj
  | .cell c => .cell (f c)
  | .map es => .map es

def Heap.mapCells (f : Cell → Cell) (h : Heap) : Heap := h.map (HObj.mapCell f)

/-- No value that is not an object has a map in its field for objects. -/
def Heap.NoHiddenObject (h : Heap) : Prop := ∀ (a : Nat) (c : Cell), h[a]? = some (.cell c) → c.type ≠ .object → c.object = none

/-- A value of an unknown type is found at `p` or below, where the types lead. -/
inductive HasUnknown (h : Heap) : Ptr → Prop
  | here {p c} (hd : deref h p = some c) (ht : c.type = .unknown) : HasUnknown h p
  | item {p c q} (hd : deref h p = some c) (ht : c.type = .array) (hq : q ∈ c.array.getD []) (hu : HasUnknown h q) : HasUnknown h p
  | field {p c k q} (hd : deref h p = some c) (ht : c.type = .object) (hq : (k, q) ∈ mapOf h c.object) (hu : HasUnknown h q) : HasUnknown h p

end Sawmill
