import Verif.Model.Heap
import Verif.Model.Pipeline
/-!
# The processors of pkg/processor and `eventutil.Append`, on the heap

`pipelineEvent.Get`/`Put` (pkg/pipeline/event.go:35-45) only forward to the event.  `strings.ToLower`/`strings.ToUpper` are parameters (`Conv`): the Unicode tables are not
modelled.  The `ignore_missing` and `ignore_failure` options are handled by the engine (`Model/Pipeline.lean`), not by the processors.
-/

namespace Sawmill

/-- The Go error value made from a failed `Put`: event.go:62, 74, 82 (`fmt.Errorf` with `%w`; the sentinel errors are event.go:27-31). -/
def PutErr.toErr : PutErr → Err
  | .emptyKey => .wrap (lit "event put failed: key name is empty") (.other (lit "key name is empty"))
  | .keyExists path => .wrap (lit "event put failed for path <" ++ pathString path ++ lit ">: key already exists") (.other (lit "key already exists"))
  | .notObject path => .wrap (lit "event put failed for path <" ++ pathString path ++ lit ">: target key is not an object") (.other (lit "target key is not an object"))

/-- `_, err := evt.Put(key, v); return err`. -/
def putThen (h : Heap) (e : Event) (key : Bytes) (v : Ptr) : Res (Heap × Event × Option Err) :=
  (apiPut h e key v).map fun (h, e, _, err) => (h, e, err.map PutErr.toErr)

/-- `Lowercase.Process` (pkg/processor/lowercase/process.go:28-47) and `Uppercase.Process` (pkg/processor/uppercase/process.go:28-47), which differ in the conversion and
the message. -/
def convProcess (conv : Bytes → Bytes) (msg : Bytes) (field targetField : Bytes) (h : Heap) (e : Event) : Res (Heap × Event × Option Err) :=
  match apiGet h e field with
  | .panic => .panic
  | .ok (h, none) => .ok (h, e, some (.keyMissing field))
  | .ok (h, some a) =>
    match deref h (some a) with
    | none => .panic
    | some c =>
      if c.type ≠ .string then .ok (h, e, some (.other msg))
      else
        let out := conv c.string
        let target := if targetField ≠ [] then targetField else field
        let (h, n) := h.alloc (.cell (strCell out))
        putThen h e target (some n)

/-- `Set.Process`: pkg/processor/set/process.go:25-38. `value` is the address of `p.config.Value`: the pointer `&p.config.Value` itself goes into the event. -/
def setProcess (value : Nat) (copyFrom targetField : Bytes) (h : Heap) (e : Event) : Res (Heap × Event × Option Err) :=
  match deref h (some value) with
  | none => .panic
  | some c =>
    if c.type ≠ .null then putThen h e targetField (some value)
    else if copyFrom ≠ [] then
      match apiGet h e copyFrom with
      | .panic => .panic
      | .ok (h, none) => .ok (h, e, some (.keyMissing copyFrom))
      | .ok (h, some a) => putThen h e targetField (some a)
    else putThen h e targetField none

/-- `v.Array = append(v.Array, items...)` through the pointer `v`. -/
def appendTo (h : Heap) (a : Nat) (items : List Ptr) : Res Heap :=
  match deref h (some a) with
  | none => .panic
  | some c => .ok (h.set a (.cell { c with array := some (c.array.getD [] ++ items) }))

/-- `Append.Process`: pkg/processor/append/process.go:27-40. `allow_duplicates` is not read. -/
def appendProcess (field value : Bytes) (_allowDuplicates : Bool) (h : Heap) (e : Event) : Res (Heap × Event × Option Err) :=
  match apiGet h e field with
  | .panic => .panic
  | .ok (h, none) =>
    let (h, v) := h.alloc (.cell (arrCell none))             -- event.Array()
    match apiPut h e field (some v) with                      -- results ignored
    | .panic => .panic
    | .ok (h, e, _, _) =>
      let (h, s) := h.alloc (.cell (strCell value))
      (appendTo h v [some s]).map (·, e, none)
  | .ok (h, some a) =>
    match deref h (some a) with
    | none => .panic
    | some c =>
      if c.type = .string then
        let (h, v) := h.alloc (.cell (arrCell (some [some a])))   -- event.Array(v), never put into the event
        let (h, s) := h.alloc (.cell (strCell value))
        (appendTo h v [some s]).map (·, e, none)
      else if c.type ≠ .array then .ok (h, e, some (.other (lit "value to append to is not array")))
      else
        let (h, s) := h.alloc (.cell (strCell value))
        (appendTo h a [some s]).map (·, e, none)

/-- `Remove.Process`: pkg/processor/remove/remove.go:69-72 (a TODO: does nothing). -/
def removeProcess (_fields : List Bytes) (h : Heap) (e : Event) : Res (Heap × Event × Option Err) := .ok (h, e, none)

/-- `CommunityID.Process`: pkg/processor/community_id/community_id.go:117-120 (a TODO: does nothing). -/
def communityIdProcess (h : Heap) (e : Event) : Res (Heap × Event × Option Err) := .ok (h, e, none)

/-- `eventutil.Append`: pkg/eventutil/event.go:29-54. -/
def utilAppend (h : Heap) (e : Event) (key : Bytes) (item : Ptr) : Res (Heap × Event × Option PutErr) :=
  match item with
  | none => .ok (h, e, none)
  | some i =>
    match apiGet h e key with
    | .panic => .panic
    | .ok (h, old) =>
      -- make the target value into an array
      let (h, target) : Heap × Option Nat := match old with
        | none => let (h, n) := h.alloc (.cell (arrCell none)); (h, some n)
        | some a => match deref h (some a) with
          | none => (h, none)
          | some c => if c.type ≠ .array then let (h, n) := h.alloc (.cell (arrCell (some [some a]))); (h, some n) else (h, some a)
      match target, deref h (some i) with
      | some t, some c =>
        let items := if c.type = .array then c.array.getD [] else [some i]
        -- appending no element leaves `targetValue.Array` as it is
        match (if items = [] then .ok h else appendTo h t items) with
        | .panic => .panic
        | .ok h => (apiPut h e key (some t)).map fun (h, e, _, err) => (h, e, err)
      | _, _ => .panic

/-! ## Pipelines of these processors -/

/-- A configured processor of the registry. `set` carries the address of its `config.Value` struct. -/
inductive Builtin where
  | lowercase (field targetField : Bytes)
  | uppercase (field targetField : Bytes)
  | set (value : Nat) (copyFrom targetField : Bytes)
  | append (field value : Bytes) (allowDuplicates : Bool)
  | remove (fields : List Bytes)
  | communityId

/-- What the string conversions do. -/
structure Conv where
  lower : Bytes → Bytes
  upper : Bytes → Bytes

/-- `Process` of a configured processor. -/
def Builtin.step (cv : Conv) : Builtin → Heap → Event → Res (Heap × Event × Option Err)
  | .lowercase f t => convProcess cv.lower (lit "value to lowercase is not a string") f t
  | .uppercase f t => convProcess cv.upper (lit "value to uppercase is not a string") f t
  | .set v c t => setProcess v c t
  | .append f v d => appendProcess f v d
  | .remove fs => removeProcess fs
  | .communityId => communityIdProcess

/-- As a processor of the engine: one interaction with the event, then return its error. -/
def Builtin.prog (b : Builtin) : Prog Builtin (Option Err) := .call b .done

/-- The engine's `call` for these processors: the world is the heap and the contents of the event being processed. -/
def builtinCall (cv : Conv) (_ : Unit) (w : Heap × Event) (b : Builtin) : Res ((Heap × Event) × Option Err) :=
  (b.step cv w.1 w.2).map fun (h, e, err) => ((h, e), err)

end Sawmill
