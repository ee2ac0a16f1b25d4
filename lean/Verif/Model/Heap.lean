import Verif.Model.Path
import Verif.Base.AMap
/-!
# Values, events and the event API on an explicit heap (pkg/event)

Go values are pointers to mutable structs, and maps are references.  The model keeps both explicit: a heap
is a list of objects, each a `Value` struct or a `map[string]*Value`; addresses are positions; allocating
appends.  Nothing is ever freed.

Simplifications.  A slice is a list (no backing-array aliasing: no code in the repository assigns to an
element of an existing slice, and `append` is only ever applied to the slice held by one `Value` struct;
`Model/Slices.lean` has slices with backing arrays, and `Props/Slices.lean` proves when this makes no difference).
Go map iteration order never matters in the functions of this file.  A dangling address cannot occur in Go; the model answers as for nil.
-/

namespace Sawmill

/-- `ValueType`: pkg/event/value.go:28-41 (`unknown` stands for every other `uint8`). -/
inductive VType where
  | null | array | bool | float | integer | object | string | timestamp | unsigned | unknown
deriving DecidableEq, Repr

/-- A `*Value`: `none` is nil. -/
abbrev Ptr := Option Nat

/-- `Value`: pkg/event/value.go:62-72.  `float` is the IEEE-754 bit pattern, `timestamp` the `UnixNanos` of
pkg/event/time.go:25-27; `array = none` is the nil slice; `object = none` the nil map, otherwise the address of a map. -/
structure Cell where
  integer : BitVec 64 := 0
  unsigned : BitVec 64 := 0
  float : BitVec 64 := 0
  timestamp : BitVec 64 := 0
  string : Bytes := []
  array : Option (List Ptr) := none
  object : Option Nat := none
  bool : Bool := false
  type : VType := .null
deriving DecidableEq, Repr

/-- A heap object. -/
inductive HObj where
  | cell (c : Cell)
  | map (es : AMap Ptr)
deriving DecidableEq, Repr

/-- The heap. -/
abbrev Heap := List HObj

/-- Allocation of a fresh object. -/
def Heap.alloc (h : Heap) (o : HObj) : Heap × Nat := (h ++ [o], h.length)

/-- Dereference of a `*Value` (`none` = nil pointer dereference). -/
def deref (h : Heap) : Ptr → Option Cell
  | none => none
  | some a => match h[a]? with
    | some (.cell c) => some c
    | _ => none

/-- Contents of a map reference; a nil map reads as empty. -/
def mapOf (h : Heap) : Option Nat → AMap Ptr
  | none => []
  | some m => match h[m]? with
    | some (.map es) => es
    | _ => []

/-- `m[k] = p`: writing to a nil map panics. -/
def mapWrite (h : Heap) (m : Option Nat) (k : Bytes) (p : Ptr) : Res Heap :=
  match m with
  | none => .panic
  | some m => match h[m]? with
    | some (.map es) => .ok (h.set m (.map (es.insert k p)))
    | _ => .panic

/-- `delete(m, k)` on a map reference (a nil map is left alone). -/
def mapDelete (h : Heap) (m : Option Nat) (k : Bytes) : Heap :=
  match m with
  | none => h
  | some m => match h[m]? with
    | some (.map es) => h.set m (.map (es.erase k))
    | _ => h

/-! ## Constructors: pkg/event/value.go:159-189 (`NullValue`: value.go:26) -/

def nullCell : Cell := { type := .null }
def boolCell (b : Bool) : Cell := { type := .bool, bool := b }
def intCell (i : BitVec 64) : Cell := { type := .integer, integer := i }
def uintCell (u : BitVec 64) : Cell := { type := .unsigned, unsigned := u }
def floatCell (f : BitVec 64) : Cell := { type := .float, float := f }
def strCell (s : Bytes) : Cell := { type := .string, string := s }
def tsCell (t : BitVec 64) : Cell := { type := .timestamp, timestamp := t }
/-- value.go:183-185. `Array()` with no arguments holds a nil slice. -/
def arrCell (ps : Option (List Ptr)) : Cell := { type := .array, array := ps }
/-- value.go:187-189. -/
def objCell (m : Option Nat) : Cell := { type := .object, object := m }

/-! ## The event API: pkg/event/event.go -/

/-- `Event`: event.go:33-35, the struct holding the `fields` map reference (`none` = nil map, as in `New()`, event.go:38-40). -/
abbrev Event := Option Nat

/-- `New`: event.go:38-40. -/
def newEvent : Event := none

/-- Errors of `put` (event.go:27-31, wrapped with `%w` at event.go:62, 74, 82); the path is the one `pathString` prints. -/
inductive PutErr where
  | emptyKey
  | keyExists (path : List Bytes)
  | notObject (path : List Bytes)
deriving DecidableEq, Repr

/-- The loop of `get` for a non-empty path and its final map read: event.go:110-119. -/
def getLoop (h : Heap) : Option Nat → List Bytes → Res Ptr
  | _, [] => .ok none                                      -- not reached: `get` handles the empty path
  | m, [last] => .ok ((mapOf h m).lookup last).join        -- event.go:119; absent reads as nil
  | m, key :: rest =>
    match (mapOf h m).lookup key with                      -- event.go:112
    | none => .ok none                                     -- `!found`
    | some inner =>
      match deref h inner with
      | none => .panic                                     -- `inner.Object` with inner == nil
      | some c =>
        if (mapOf h c.object).length = 0 then .ok none      -- event.go:113
        else getLoop h c.object rest                        -- event.go:116

/-- `get`: event.go:101-120. The root read allocates a new `Value` around the event's own map (event.go:105-108). -/
def get (h : Heap) (e : Event) (path : List Bytes) : Res (Heap × Ptr) :=
  if (mapOf h e).length = 0 then .ok (h, none)
  else match path with
    | [] => let (h', a) := h.alloc (.cell (objCell e)); .ok (h', some a)
    | path => (getLoop h e path).map (h, ·)

/-- `Get`: event.go:97-99. -/
def apiGet (h : Heap) (e : Event) (key : Bytes) : Res (Heap × Ptr) := get h e (keyToPath key)

/-- The loop of `put` and its final map write: event.go:77-91. Returns the new heap or the `ErrTargetKeyNotObject` outcome. -/
def putLoop (h : Heap) : Option Nat → List Bytes → Ptr → Res (Heap × Bool)
  | _, [], _ => .ok (h, true)                               -- not reached: `put` handles the empty path
  | m, [last], val => (mapWrite h m last val).map (·, true) -- event.go:91
  | m, key :: rest, val =>
    match (mapOf h m).lookup key with                       -- event.go:79
    | some inner =>
      match deref h inner with
      | none => .panic                                      -- `inner.Type` with inner == nil
      | some c =>
        if c.type ≠ .object then .ok (h, false)             -- event.go:81-83
        else putLoop h c.object rest val                    -- event.go:84-85
    | none =>
      -- event.go:87-89: a fresh map, a fresh object around it, stored and entered
      let (h1, nm) := h.alloc (.map [])
      let (h2, na) := h1.alloc (.cell (objCell (some nm)))
      match mapWrite h2 m key (some na) with
      | .panic => .panic
      | .ok h3 => putLoop h3 (some nm) rest val

/-- `put`: event.go:60-93. -/
def put (h : Heap) (e : Event) (path : List Bytes) (val : Ptr) (overwrite : Bool) :
    Res (Heap × Event × Ptr × Option PutErr) :=
  if path.length = 0 then .ok (h, e, none, some .emptyKey)  -- event.go:61-63
  else if val = none then .ok (h, e, none, none)            -- event.go:64-66
  else
    -- event.go:68-70
    let (h, e) := match e with
      | none => let (h', m) := h.alloc (.map []); (h', some m)
      | some m => (h, some m)
    match get h e path with                                 -- event.go:72
    | .panic => .panic
    | .ok (h, old) =>
      if old ≠ none ∧ overwrite = false then .ok (h, e, old, some (.keyExists path))   -- event.go:73-75
      else match putLoop h e path val with
        | .panic => .panic
        | .ok (h', true) => .ok (h', e, old, none)
        | .ok (h', false) => .ok (h', e, none, some (.notObject path))

/-- `Put`: event.go:49-51. -/
def apiPut (h : Heap) (e : Event) (key : Bytes) (val : Ptr) := put h e (keyToPath key) val true

/-- `TryPut`: event.go:56-58. -/
def apiTryPut (h : Heap) (e : Event) (key : Bytes) (val : Ptr) := put h e (keyToPath key) val false

/-- `delete`: event.go:127-138. It removes `path[0]`, the whole top-level entry. -/
def delete (h : Heap) (e : Event) (path : List Bytes) : Res (Heap × Ptr) :=
  match path with
  | [] => .ok (h, none)
  | first :: _ =>
    if (mapOf h e).length = 0 then .ok (h, none)
    else match get h e path with
      | .panic => .panic
      | .ok (h, v) => if v ≠ none then .ok (mapDelete h e first, v) else .ok (h, v)

/-- `Delete`: event.go:123-125. -/
def apiDelete (h : Heap) (e : Event) (key : Bytes) : Res (Heap × Ptr) := delete h e (keyToPath key)

end Sawmill
