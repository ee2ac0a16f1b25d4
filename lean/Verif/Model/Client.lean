import Verif.Spec.History
import Verif.Model.Builtins
import Verif.Model.Cli
import Verif.Model.Convert
import Verif.Model.Json
import Verif.Model.Reflect
/-!
# A program that uses the library

A sequential program with any number of events and pipelines, which calls, in any order: `event.New`, the four methods of an event, `Pipeline.Process`, `json.Marshal` and `json.Unmarshal`, `protobuf.FromEvent` and `ToLogEvent`, `mapinterface.FromEvent` and `ToEvent`.

Simplifications. Every value that is passed to an event is newly made; the program keeps no pointer into an event (the other properties say what happens if it does). The pipelines exist from the start. Calls on events or pipelines that do not exist are skipped.
-/

namespace Sawmill
namespace Client

/-- A call. Events and pipelines are numbered. -/
inductive Op where
  /-- `event.New`: pkg/event/event.go:37-40 -/
  | new
  /-- `Put`, `TryPut`, `Get`, `Delete` -/
  | api (i : Nat) (c : Call)
  /-- `Process` of pipeline `k` -/
  | process (k i : Nat)
  | toJson (i : Nat)
  | fromJson (i : Nat) (text : Bytes)
  | toMessage (i : Nat)
  | fromMessage (l : Wire.PLog)
  | toMap (i : Nat)
  | fromMap (m : List (Bytes × GIface))

/-- What the call returns. -/
inductive Reply where
  | done
  | skipped
  /-- pointer and error -/
  | value (r : Ret)
  /-- whether the event or nil is returned, and the error -/
  | processed (event : Bool) (err : Option Err)
  | text (bs : Bytes)
  /-- an error -/
  | refused
  | message (m : Wire.PWrapper)
  | goMap (m : Option (List (Bytes × GIface)))
  /-- a nil `*Event` -/
  | nilEvent

/-- The world around: the numbers and cases of the standard library, `NullValue`, how Go iterates over a map. -/
structure Env where
  json : JEnv
  reflect : REnv
  text : GoTime → Bytes
  order : List (Bytes × Ptr) → List (Bytes × Ptr)
  conv : Conv

/-- Memory, the events of the program, and for each pipeline its counters. -/
structure State where
  heap : Heap
  events : List Event
  counts : Nat → Counters
  logs : Nat → List Invocation

/-- One call; `n` bounds the stack. -/
def step (env : Env) (n : Nat) (ps : List (Pipeline Builtin (Option Err))) (c : State) : Op → Except CliEnd (State × Reply)
  | .new => .ok ({ c with events := c.events ++ [newEvent] }, .done)
  | .api i a =>
    match World.call ⟨c.heap, c.events⟩ i a with
    | .panic => .error .panic
    | .ok (w, r) => .ok ({ c with heap := w.heap, events := w.events }, .value r)
  | .process k i =>
    match ps[k]?, c.events[i]? with
    | some p, some e =>
      match p.process (builtinCall env.conv) () ⟨(c.heap, e), c.counts k, c.logs k⟩ with
      | .panic => .error .panic
      | .ok (w, evt, err) =>
        .ok (⟨w.world.1, c.events.set i w.world.2, fun j => if j = k then w.counts else c.counts j, fun j => if j = k then w.log else c.logs j⟩, .processed evt.isSome err)
    | _, _ => .ok (c, .skipped)
  | .toJson i =>
    match c.events[i]? with
    | none => .ok (c, .skipped)
    | some e =>
      match marshalEvent env.json n c.heap e with
      | .fuel => .error .overflow
      | .error => .ok (c, .refused)
      | .ok bs => .ok (c, .text bs)
  | .fromJson i t =>
    match c.events[i]? with
    | none => .ok (c, .skipped)
    | some _ =>
      match unmarshalEvent env.json t c.heap with
      | none => .ok (c, .refused)
      | some (h, e) => .ok ({ c with heap := h, events := c.events.set i e }, .done)
  | .toMessage i =>
    match c.events[i]? with
    | none => .ok (c, .skipped)
    | some e =>
      match fromEvent n c.heap e with
      | .panic => .error .panic
      | .fuel => .error .overflow
      | .err _ => .ok (c, .refused)
      | .ok m => .ok (c, .message m)
  | .fromMessage l =>
    match toLogEvent env.reflect.nul l c.heap with
    | .panic => .error .panic
    | .ok (h, none) => .ok ({ c with heap := h }, .nilEvent)
    | .ok (h, some e) => .ok ({ c with heap := h, events := c.events ++ [e] }, .done)
  | .toMap i =>
    match c.events[i]? with
    | none => .ok (c, .skipped)
    | some e =>
      match mapFromEvent env.text n c.heap e with
      | none => .error .overflow
      | some .panic => .error .panic
      | some (.ok m) => .ok (c, .goMap m)
  | .fromMap m =>
    match mapToEvent env.reflect env.order m c.heap with
    | .panic => .error .panic
    | .unsupported _ => .ok (c, .refused)
    | .ok (h, e) => .ok ({ c with heap := h, events := c.events ++ [e] }, .done)

/-- The calls one after another, up to a crash: the replies, and how it ends. -/
def run (env : Env) (n : Nat) (ps : List (Pipeline Builtin (Option Err))) (c : State) : List Op → List Reply × Except CliEnd State
  | [] => ([], .ok c)
  | op :: ops =>
    match step env n ps c op with
    | .error e => ([], .error e)
    | .ok (c, r) =>
      let (rs, e) := run env n ps c ops
      (r :: rs, e)

end Client
end Sawmill
