import Verif.Model.Heap
import Verif.Model.Time
/-!
# Converting Go values to event values (pkg/eventutil/reflect.go, structtag.go) and events to Go maps and back (pkg/serialization/mapinterface)

A Go value is described by what the code can observe of it through type switches and reflection: its kind, whether its type is literally one of the types named in the type switch, its `Error` and
`String` methods, and its parts. Values are finite trees (the documentation says that cycles are not supported).

Simplifications. Of a type only its name is part of the description, where an error mentions it. `strings.ToLower` and the widening of a float32 are parameters. Of `reflect.DeepEqual(current, zero)` only the
outcome is part of the description. A map's entries are visited in the order in which they are listed; a key that is not a string is represented by its `fmt.Sprintf("%v", key)`. `uintptr` has 64 bits.
Stack depth is not limited.
-/

namespace Sawmill

/-- The errors of a conversion: an `UnsupportedTypeError` with the name of the type (pkg/eventutil/reflect.go:36-42), possibly wrapped (reflect.go:87). -/
inductive RErr where
  | unsupportedType (type : Bytes)
  | onKey (key : Bytes) (cause : RErr)
  deriving DecidableEq

/-- The outcome of a conversion. -/
inductive ROut (α : Type) where
  | ok (x : α)
  | unsupported (err : RErr)
  | panic

/-- The methods found on the type of a value that matter here; calling one can panic. -/
structure Methods where
  error : Option (Res Bytes) := none
  string : Option (Res Bytes) := none

inductive IntKind where
  | int | int8 | int16 | int32 | int64
  deriving DecidableEq

inductive UintKind where
  | uint | uint8 | uint16 | uint32 | uint64
  deriving DecidableEq

mutual
/-- A value of interface type: nil, or some value. -/
inductive GIface where
  | nil
  | val (v : GVal)
/-- A value of some other type. `exact`: the type is literally `bool`, `int`, …, `time.Time` or `map[string]interface{}`, not a type defined from it. -/
inductive GVal where
  | mk (exact : Bool) (m : Methods) (d : GData)
/-- The kind of the value and its parts. -/
inductive GData where
  | bool (b : Bool)
  | int (k : IntKind) (i : BitVec 64)
  | uint (k : UintKind) (u : BitVec 64)
  /-- `type`: the name of the type, as `reflect.Type.String` gives it -/
  | uintptr (type : Bytes) (u : BitVec 64)
  | float32 (f : BitVec 32)
  | float64 (f : BitVec 64)
  | string (s : Bytes)
  /-- a struct type convertible to `time.Time`; `loc` is the time zone, 0 for UTC -/
  | time (loc : Nat) (t : GoTime)
  | ptr (target : GTarget)
  /-- an array or slice; `std`: its type is literally `[]interface{}` -/
  | list (std : Bool) (items : List GIface)
  | map (entries : List (Bytes × GIface))
  | struct (fields : List GField)
  /-- a channel, function, complex number or unsafe pointer -/
  | other (type : Bytes)
/-- What a pointer points to. -/
inductive GTarget where
  | nil
  | to (s : GSlot)
/-- A variable: of a concrete type, or of an interface type (its name; with or without an `Error` method in the interface). -/
inductive GSlot where
  | val (v : GVal)
  | iface (type : Bytes) (hasError : Bool) (x : GIface)
/-- A struct field: its name, whether it is exported, its `event` tag, whether it is deeply equal to its zero value, and the variable. -/
inductive GField where
  | mk (name : Bytes) (exported : Bool) (tag : Bytes) (zero : Bool) (s : GSlot)
end

/-- A new value in the heap. -/
def newCell (h : Heap) (c : Cell) : ROut (Heap × Ptr) := .ok ((h.alloc (.cell c)).1, some (h.alloc (.cell c)).2)

/-- A value whose type has an `Error` method is converted to the result of that method: pkg/eventutil/reflect.go:103-107. -/
def orError (m : Methods) (h : Heap) (otherwise : ROut (Heap × Ptr)) : ROut (Heap × Ptr) :=
  match m.error with
  | some (.ok s) => newCell h (strCell s)
  | some .panic => .panic
  | none => otherwise

def GVal.methods : GVal → Methods
  | .mk _ m _ => m

/-- `val.Interface().(fmt.Stringer)`: pkg/eventutil/reflect.go:202. -/
def GSlot.stringer : GSlot → Option (Res Bytes)
  | .val v => v.methods.string
  | .iface _ _ .nil => none
  | .iface _ _ (.val v) => v.methods.string

/-- The parameters: the address of `event.NullValue`, `strings.ToLower`, and `float64(f)` for a float32. -/
structure REnv where
  nul : Ptr
  lower : Bytes → Bytes
  widen : BitVec 32 → BitVec 64

mutual
/-- `interfaceToValue`: pkg/eventutil/reflect.go:48-98. -/
def ifaceToValue (env : REnv) : GIface → Heap → ROut (Heap × Ptr)
  | .nil, h => .ok (h, env.nul)
  | .val v, h => toValue env true v h
/-- With `via`, the type switch of `interfaceToValue` (pkg/eventutil/reflect.go:49-97) followed by its default case; without it, `reflectToValue` (reflect.go:100-138) on a value of a type that is not an
interface. -/
def toValue (env : REnv) (via : Bool) : GVal → Heap → ROut (Heap × Ptr)
  | .mk exact m (.bool b), h => if via && exact then newCell h (boolCell b) else orError m h (newCell h (boolCell b))
  | .mk exact m (.int _ i), h => if via && exact then newCell h (intCell i) else orError m h (newCell h (intCell i))
  | .mk exact m (.uint _ u), h => if via && exact then newCell h (uintCell u) else orError m h (newCell h (uintCell u))
  | .mk exact m (.uintptr t u), h => if via && exact then newCell h (uintCell u) else orError m h (.unsupported (.unsupportedType t))
  | .mk exact m (.float32 f), h => if via && exact then newCell h (floatCell (env.widen f)) else orError m h (newCell h (floatCell (env.widen f)))
  | .mk exact m (.float64 f), h => if via && exact then newCell h (floatCell f) else orError m h (newCell h (floatCell f))
  | .mk exact m (.string s), h => if via && exact then newCell h (strCell s) else orError m h (newCell h (strCell s))
  | .mk exact m (.time _ t), h =>
    let c := tsCell (BitVec.ofInt 64 t.unixNano)
    if via && exact then newCell h c else orError m h (newCell h c)
  | .mk _ m (.ptr .nil), h => orError m h (.ok (h, env.nul))
  | .mk _ m (.ptr (.to s)), h => orError m h (slotToValue env s h)
  | .mk _ m (.list _ items), h => orError m h
      (match listItems env items h with
      | .ok (h, ps) => newCell h (arrCell (some ps))                          -- event.Array(values...), values is not nil
      | .unsupported e => .unsupported e
      | .panic => .panic)
  | .mk exact m (.map entries), h =>
    let r (escape : Bool) := match mapEntries env escape h.length entries (h ++ [.map []]) with
      | .ok h' => newCell h' (objCell (some h.length))
      | .unsupported e => .unsupported e
      | .panic => .panic
    if via && exact then r true else orError m h (r false)
  | .mk _ m (.struct fields), h => orError m h
      (match structFields env h.length fields (h ++ [.map []]) with
      | .ok h' => newCell h' (objCell (some h.length))
      | .unsupported e => .unsupported e
      | .panic => .panic)
  | .mk _ m (.other t), h => orError m h (.unsupported (.unsupportedType t))
/-- `reflectToValue`: pkg/eventutil/reflect.go:100-138, on a variable. One of interface kind is converted if the interface has an `Error` method (and panics if it is nil); otherwise the kind is not supported. -/
def slotToValue (env : REnv) : GSlot → Heap → ROut (Heap × Ptr)
  | .val v, h => toValue env false v h
  | .iface t false _, _ => .unsupported (.unsupportedType t)
  | .iface _ true .nil, _ => .panic                                           -- rv.Interface().(error) on a nil interface
  | .iface _ true (.val v), h => orError v.methods h .panic
/-- The loop of `reflectSliceToArray`: pkg/eventutil/reflect.go:143-150. -/
def listItems (env : REnv) : List GIface → Heap → ROut (Heap × List Ptr)
  | [], h => .ok (h, [])
  | x :: xs, h =>
    match ifaceToValue env x h with
    | .panic => .panic
    | .unsupported e => .unsupported e
    | .ok (h, p) =>
      match listItems env xs h with
      | .panic => .panic
      | .unsupported e => .unsupported e
      | .ok (h, ps) => .ok (h, p :: ps)
/-- The loops over maps: with `escape` pkg/eventutil/reflect.go:84-91, without it `reflectMapToObject` reflect.go:158-166. -/
def mapEntries (env : REnv) (escape : Bool) (m : Nat) : List (Bytes × GIface) → Heap → ROut Heap
  | [], h => .ok h
  | (k, x) :: es, h =>
    match ifaceToValue env x h with
    | .panic => .panic
    | .unsupported e => .unsupported (if escape then .onKey k e else e)
    | .ok (h, p) =>
      match mapWrite h (some m) (if escape then escapeKey k else k) p with
      | .panic => .panic
      | .ok h => mapEntries env escape m es h
/-- `structFields` and the loop of `reflectStructToObject`: pkg/eventutil/reflect.go:172-210, 215-236. -/
def structFields (env : REnv) (m : Nat) : List GField → Heap → ROut Heap
  | [], h => .ok h
  | .mk fname exported tag zero s :: fs, h =>
    if ¬ exported then structFields env m fs h
    else if tag = [45] then structFields env m fs h
    else
      let opts := (parseTag tag).2
      let name := if (parseTag tag).1 ≠ [] then (parseTag tag).1 else env.lower fname
      if tagHas opts (lit "omitempty") && zero then structFields env m fs h
      else
        match slotToValue env s h with
        | .panic => .panic
        | .unsupported e => .unsupported e
        | .ok (h, p) =>
          if tagHas opts (lit "string") then
            match s.stringer with
            | none => structFields env m fs h
            | some .panic => .panic
            | some (.ok t) =>
              match mapWrite (h ++ [.cell (strCell t)]) (some m) name (some h.length) with
              | .panic => .panic
              | .ok h => structFields env m fs h
          else
            match mapWrite h (some m) name p with
            | .panic => .panic
            | .ok h => structFields env m fs h
end

/-! ## mapinterface -/

/-- The loop of `ToEvent`: pkg/serialization/mapinterface/mapinterface.go:48-50; the results of `Put` are ignored. -/
def toEventLoop : List (Bytes × Ptr) → Heap → Event → Res (Heap × Event)
  | [], h, e => .ok (h, e)
  | (k, p) :: es, h, e =>
    match apiPut h e (escapeKey k) p with
    | .panic => .panic
    | .ok (h, e, _, _) => toEventLoop es h e

/-- `ToEvent`: pkg/serialization/mapinterface/mapinterface.go:41-53. `order` is the order in which Go iterates over the object's fields. -/
def mapToEvent (env : REnv) (order : List (Bytes × Ptr) → List (Bytes × Ptr)) (m : List (Bytes × GIface)) (h : Heap) : ROut (Heap × Event) :=
  match ifaceToValue env (.val (.mk true {} (.map m))) h with
  | .panic => .panic
  | .unsupported e => .unsupported e
  | .ok (h, p) =>
    match deref h p with
    | none => .panic
    | some c =>
      match toEventLoop (order (mapOf h c.object)) h newEvent with
      | .panic => .panic
      | .ok r => .ok r

/-- A value of type `time.Time` in UTC; `text` is its `String` method. -/
def stdTime (text : GoTime → Bytes) (t : GoTime) : GVal := .mk true { string := some (.ok (text t)) } (.time 0 t)

/-- A value of a type without methods, named in the type switch. -/
def stdVal (d : GData) : GIface := .val (.mk true {} d)

/-- A loop that converts every element (`fuel` means that the recursion is deeper than the bound). -/
def collectG {α β : Type} (f : α → Option (Res β)) : List α → Option (Res (List β))
  | [] => some (.ok [])
  | x :: xs =>
    match f x with
    | none => none
    | some .panic => some .panic
    | some (.ok y) =>
      match collectG f xs with
      | none => none
      | some .panic => some .panic
      | some (.ok ys) => some (.ok (y :: ys))

/-- The fields of an object: the loop of `fromEventValueObject`, mapinterface.go:69-73. -/
def goFields (conv : Ptr → Option (Res GIface)) (es : List (Bytes × Ptr)) : Option (Res (List (Bytes × GIface))) :=
  collectG (fun e => match conv e.2 with
    | none => none
    | some .panic => some .panic
    | some (.ok x) => some (.ok (e.1, x))) es

/-- `fromEventValue`: mapinterface.go:76-107; nothing is the outcome if the recursion is deeper than the bound. -/
def goValue (text : GoTime → Bytes) (h : Heap) : Nat → Ptr → Option (Res GIface)
  | 0, _ => none
  | n + 1, p =>
    match deref h p with
    | none => some (.ok .nil)
    | some c =>
      match c.type with
      | .array => match collectG (goValue text h n) (c.array.getD []) with
        | none => none
        | some .panic => some .panic
        | some (.ok xs) => some (.ok (.val (.mk false {} (.list true xs))))
      | .bool => some (.ok (stdVal (.bool c.bool)))
      | .float => some (.ok (stdVal (.float64 c.float)))
      | .integer => some (.ok (stdVal (.int .int64 c.integer)))
      | .object => match goFields (goValue text h n) (mapOf h c.object) with
        | none => none
        | some .panic => some .panic
        | some (.ok es) => some (.ok (stdVal (.map es)))
      | .string => some (.ok (stdVal (.string c.string)))
      | .timestamp => some (.ok (.val (stdTime text (timeGoTime c.timestamp.toInt))))
      | .unsigned => some (.ok (stdVal (.uint .uint64 c.unsigned)))
      | .null => some (.ok .nil)
      | .unknown => some .panic

/-- `FromEvent`: mapinterface.go:55-57 with `fromEventValueObject` 59-74. The result is a nil map or a map. -/
def mapFromEvent (text : GoTime → Bytes) (n : Nat) (h : Heap) (e : Event) : Option (Res (Option (List (Bytes × GIface)))) :=
  match apiGet h e (lit ".") with
  | .panic => some .panic
  | .ok (h, p) =>
    match deref h p with
    | none => some (.ok none)
    | some c =>
      if c.type ≠ .object then some .panic
      else match goFields (goValue text h n) (mapOf h c.object) with
        | none => none
        | some .panic => some .panic
        | some (.ok es) => some (.ok (some es))

end Sawmill
