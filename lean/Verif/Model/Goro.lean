import Verif.Model.Mem
import Verif.Model.Json
import Verif.Spec.Reads
/-!
# Goroutines that use the library as they like

A goroutine is a program that keeps pointers: it makes events and values, puts the values anywhere (the same value into several events or into itself), reads what it got through the pointers, runs pipelines and encodes events, and its next call may depend on all
replies so far. Besides it may read events that all goroutines share.

Simplifications. A goroutine names its events and values by number, in the order in which it got them; a call with a number that does not exist is skipped. It does not assign to the fields of a `Value` itself. It does not ask a shared event for its root (`Get("")`). The counters of components
with the same ID are added up over the pipelines. `n` bounds the stack: encoding a deeper (or cyclic) value is a crash.
-/

namespace Sawmill
namespace Goro

/-- What a goroutine holds: its `*Event`s, its `*Value`s, and `*Value`s that it got from shared events. -/
structure Locals where
  events : List Event := []
  vals : List Ptr := []
  seen : List Ptr := []

/-- A call. -/
inductive Cmd where
  /-- `event.New()`: pkg/event/event.go:38-40 -/
  | new
  /-- `event.Bool`, `event.String`, …: pkg/event/value.go:159-181, and a null `Value` -/
  | leaf (s : Scalar)
  /-- `event.Array(vs...)`: value.go:183-185 -/
  | array (vs : List Nat)
  /-- `event.Object(map[string]*Value{…})`: value.go:187-189 -/
  | object (es : List (Bytes × Nat))
  /-- `Put` and `TryPut`: event.go:49-58. The old value is kept. -/
  | put (overwrite : Bool) (e : Nat) (key : Bytes) (v : Nat)
  /-- `Get`: event.go:97-99 -/
  | get (e : Nat) (key : Bytes)
  /-- `Delete`: event.go:123-125 -/
  | delete (e : Nat) (key : Bytes)
  /-- `Process` of pipeline `k`: pkg/pipeline/pipeline.go:63-76 -/
  | process (k e : Nat)
  /-- reading the fields of a `Value` -/
  | look (v : Nat)
  /-- `v.Array[i]` -/
  | item (v i : Nat)
  /-- `v.Object[key]` -/
  | field (v : Nat) (key : Bytes)
  /-- `v == w` -/
  | same (v w : Nat)
  /-- `json.Marshal(e)` -/
  | json (e : Nat)
  /-- the same calls on shared events and on values got from them -/
  | sharedGet (e : Nat) (key : Bytes)
  | sharedLook (v : Nat)
  | sharedItem (v i : Nat)
  | sharedField (v : Nat) (key : Bytes)
  | sharedJson (e : Nat)

/-- What is seen in a `Value` without following pointers: its fields, the length of the slice, the names of the map. -/
structure Look where
  type : VType
  bool : Bool
  integer : BitVec 64
  unsigned : BitVec 64
  float : BitVec 64
  timestamp : BitVec 64
  string : Bytes
  items : Option Nat
  names : Option (List Bytes)
deriving DecidableEq

/-- What a call returns (values are kept by the goroutine). -/
inductive Reply where
  | skipped
  | done
  /-- a pointer, nil or not, and an error -/
  | value (isNil : Bool) (err : Option PutErr)
  | look (l : Option Look)
  | same (b : Bool)
  /-- whether the event is returned, and the error -/
  | processed (event : Bool) (err : Option Err)
  | text (bs : Bytes)
  /-- an error -/
  | refused

/-- A goroutine: it returns, or makes a call and goes on with the reply. -/
inductive Prog (X : Type) where
  | ret (x : X)
  | call (c : Cmd) (k : Reply → Prog X)

/-- What all goroutines use: the standard library, the bound of the stack, the pipelines, the shared events. -/
structure Env where
  json : JEnv
  conv : Conv
  stack : Nat
  pipes : List (Pipeline Builtin (Option Err))
  shared : List Event

def Look.of (h : Heap) (c : Cell) : Look :=
  ⟨c.type, c.bool, c.integer, c.unsigned, c.float, c.timestamp, c.string, c.array.map List.length, c.object.map fun m => (mapOf h (some m)).map Prod.fst⟩

def Locals.keepVal (L : Locals) (p : Ptr) : Locals := { L with vals := L.vals ++ [p] }
def Locals.keepSeen (L : Locals) (p : Ptr) : Locals := { L with seen := L.seen ++ [p] }

/-! ## Alone -/

/-- Memory, counters, and what the goroutine holds. -/
structure State where
  heap : Heap
  counts : Counters
  locals : Locals

/-- A new value. -/
def State.newVal (s : State) (h : Heap) (p : Ptr) : State := { s with heap := h, locals := s.locals.keepVal p }

/-- The pointer behind `v.Array[i]`; an index that is out of range panics. -/
def itemAt (c : Cell) (i : Nat) : Res Ptr :=
  match (c.array.getD [])[i]? with
  | none => .panic
  | some p => .ok p

/-- One call, with the functions of the other models. -/
def step (env : Env) (s : State) : Cmd → Res (State × Reply)
  | .new => .ok ({ s with locals := { s.locals with events := s.locals.events ++ [newEvent] } }, .done)
  | .leaf x => .ok (s.newVal (s.heap ++ [.cell (scalarCell x)]) (some s.heap.length), .done)
  | .array vs =>
    match vs.mapM (s.locals.vals[·]?) with
    | none => .ok (s, .skipped)
    | some ps => .ok (s.newVal (s.heap ++ [.cell (arrCell (if ps = [] then none else some ps))]) (some s.heap.length), .done)
  | .object es =>
    match es.mapM fun e => (s.locals.vals[e.2]?).map (e.1, ·) with
    | none => .ok (s, .skipped)
    | some ps => .ok (s.newVal (s.heap ++ [.map (AMap.ofEntries ps [])] ++ [.cell (objCell (some s.heap.length))]) (some (s.heap.length + 1)), .done)
  | .put ow i key j =>
    match s.locals.events[i]?, s.locals.vals[j]? with
    | some e, some v =>
      match put s.heap e (keyToPath key) v ow with
      | .panic => .panic
      | .ok (h, e', old, err) => .ok (⟨h, s.counts, ⟨s.locals.events.set i e', s.locals.vals ++ [old], s.locals.seen⟩⟩, .value old.isNone err)
    | _, _ => .ok (s, .skipped)
  | .get i key =>
    match s.locals.events[i]? with
    | none => .ok (s, .skipped)
    | some e =>
      match get s.heap e (keyToPath key) with
      | .panic => .panic
      | .ok (h, p) => .ok (s.newVal h p, .value p.isNone none)
  | .delete i key =>
    match s.locals.events[i]? with
    | none => .ok (s, .skipped)
    | some e =>
      match delete s.heap e (keyToPath key) with
      | .panic => .panic
      | .ok (h, p) => .ok (s.newVal h p, .value p.isNone none)
  | .process k i =>
    match env.pipes[k]?, s.locals.events[i]? with
    | some p, some e =>
      match p.process (builtinCall env.conv) () ⟨(s.heap, e), s.counts, []⟩ with
      | .panic => .panic
      | .ok (w, evt, err) => .ok (⟨w.world.1, w.counts, { s.locals with events := s.locals.events.set i w.world.2 }⟩, .processed evt.isSome err)
    | _, _ => .ok (s, .skipped)
  | .look j =>
    match s.locals.vals[j]? with
    | none => .ok (s, .skipped)
    | some none => .ok (s, .look none)
    | some p =>
      match deref s.heap p with
      | none => .panic
      | some c => .ok (s, .look (some (.of s.heap c)))
  | .item j i =>
    match s.locals.vals[j]? with
    | none => .ok (s, .skipped)
    | some p =>
      match deref s.heap p with
      | none => .panic
      | some c => (itemAt c i).map fun q => (s.newVal s.heap q, .value q.isNone none)
  | .field j key =>
    match s.locals.vals[j]? with
    | none => .ok (s, .skipped)
    | some p =>
      match deref s.heap p with
      | none => .panic
      | some c => let q := ((mapOf s.heap c.object).lookup key).join; .ok (s.newVal s.heap q, .value q.isNone none)
  | .same i j =>
    match s.locals.vals[i]?, s.locals.vals[j]? with
    | some p, some q => .ok (s, .same (p = q))
    | _, _ => .ok (s, .skipped)
  | .json i =>
    match s.locals.events[i]? with
    | none => .ok (s, .skipped)
    | some e =>
      match marshalEvent env.json env.stack s.heap e with
      | .fuel => .panic
      | .error => .ok (s, .refused)
      | .ok bs => .ok (s, .text bs)
  | .sharedGet i key =>
    match env.shared[i]? with
    | none => .ok (s, .skipped)
    | some e =>
      if keyToPath key = [] then .ok (s, .skipped)
      else match get s.heap e (keyToPath key) with
        | .panic => .panic
        | .ok (h, p) => .ok ({ s with heap := h, locals := s.locals.keepSeen p }, .value p.isNone none)
  | .sharedLook j =>
    match s.locals.seen[j]? with
    | none => .ok (s, .skipped)
    | some none => .ok (s, .look none)
    | some p =>
      match deref s.heap p with
      | none => .panic
      | some c => .ok (s, .look (some (.of s.heap c)))
  | .sharedItem j i =>
    match s.locals.seen[j]? with
    | none => .ok (s, .skipped)
    | some p =>
      match deref s.heap p with
      | none => .panic
      | some c => (itemAt c i).map fun q => ({ s with locals := s.locals.keepSeen q }, .value q.isNone none)
  | .sharedField j key =>
    match s.locals.seen[j]? with
    | none => .ok (s, .skipped)
    | some p =>
      match deref s.heap p with
      | none => .panic
      | some c => let q := ((mapOf s.heap c.object).lookup key).join; .ok ({ s with locals := s.locals.keepSeen q }, .value q.isNone none)
  | .sharedJson i =>
    match env.shared[i]? with
    | none => .ok (s, .skipped)
    | some e =>
      match marshalEvent env.json env.stack s.heap e with
      | .fuel => .panic
      | .error => .ok (s, .refused)
      | .ok bs => .ok (s, .text bs)

/-- The whole program, alone. -/
def Prog.run {X : Type} (env : Env) : Prog X → State → Res (State × X)
  | .ret x, s => .ok (s, x)
  | .call c k, s =>
    match step env s c with
    | .panic => .panic
    | .ok (s, r) => (k r).run env s

/-! ## Step by step: the same calls, one memory access after another -/

/-- `delete`: event.go:127-138. -/
def deleteM (e : Event) (path : List Bytes) : Mem Ptr :=
  match path with
  | [] => .ret none
  | first :: _ => .readMap e fun es =>
    if es.length = 0 then .ret none
    else (getM e path).bind fun v => if v ≠ none then .eraseMap e first (.ret v) else .ret v

/-- Encoding the elements one after another, until one fails. -/
def joinM {α : Type} (f : α → Mem (JOut Bytes)) : List α → Mem (JOut Bytes)
  | [] => .ret (.ok [])
  | [x] => f x
  | x :: xs => (f x).bind fun a =>
    match a with
    | .ok a => (joinM f xs).bind fun b => .ret (b.bind fun b => .ok (a ++ 44 :: b))
    | .error => .ret .error
    | .fuel => .ret .fuel

/-- `Value.MarshalJSON`: pkg/event/value.go:76-110. -/
def marshalM (env : JEnv) : Nat → Ptr → Mem (JOut Bytes)
  | 0, _ => .ret .fuel
  | n + 1, p => .peek p fun c =>
    match c with
    | none => .ret (.ok (lit "null"))
    | some c =>
      (match c.type with
      | .array =>
        match c.array with
        | none => .ret (.ok (lit "null"))
        | some ps => (joinM (marshalM env n) ps).bind fun t => .ret (t.bind fun t => .ok (91 :: (t ++ [93])))
      | .bool => .ret (.ok (if c.bool then lit "true" else lit "false"))
      | .float => .ret (if finite c.float then .ok (env.ftoa c.float) else .error)
      | .integer => .ret (.ok (intText c.integer.toInt))
      | .object =>
        match c.object with
        | none => .ret (.ok (lit "null"))
        | some m => .readMap (some m) fun es =>
          (joinM (fun e : Bytes × Ptr => (marshalM env n e.2).bind fun t => .ret (t.bind fun t => .ok (encStr e.1 ++ 58 :: t))) es).bind fun t => .ret (t.bind fun t => .ok (123 :: (t ++ [125])))
      | .string => .ret (.ok (encStr c.string))
      | .timestamp => .ret (compact (timeMarshalJSON c.timestamp.toInt))
      | .unsigned => .ret (.ok (itoa c.unsigned.toNat))
      | .null => .ret (.ok (lit "null"))
      | .unknown => .ret (.ok (lit "null")) : Mem (JOut Bytes)).bind fun t => .ret (t.bind compact)

/-- `Event.MarshalJSON`: event.go:140-142. -/
def marshalEventM (env : JEnv) (n : Nat) (e : Event) : Mem (JOut Bytes) :=
  (match e with
  | none => .ret (.ok (lit "null"))
  | some m => .readMap (some m) fun es =>
    (joinM (fun e : Bytes × Ptr => (marshalM env n e.2).bind fun t => .ret (t.bind fun t => .ok (encStr e.1 ++ 58 :: t))) es).bind fun t => .ret (t.bind fun t => .ok (123 :: (t ++ [125]))) : Mem (JOut Bytes)).bind fun t => .ret (t.bind compact)

/-- What `json.Marshal` returns; a stack overflow is a crash. -/
def textM (L : Locals) : JOut Bytes → Mem (Locals × Reply)
  | .fuel => .crash
  | .error => .ret (L, .refused)
  | .ok bs => .ret (L, .text bs)

/-- Reading the fields of a `Value`. -/
def lookM (L : Locals) (a : Nat) : Mem (Locals × Reply) :=
  .readCell (some a) fun c =>
    match c.object with
    | none => .ret (L, .look (some ⟨c.type, c.bool, c.integer, c.unsigned, c.float, c.timestamp, c.string, c.array.map List.length, none⟩))
    | some m => .readMap (some m) fun es => .ret (L, .look (some ⟨c.type, c.bool, c.integer, c.unsigned, c.float, c.timestamp, c.string, c.array.map List.length, some (es.map Prod.fst)⟩))

/-- `v.Array[i]`. -/
def itemM (keep : Ptr → Locals) (p : Ptr) (i : Nat) : Mem (Locals × Reply) :=
  .readCell p fun c =>
    match itemAt c i with
    | .panic => .crash
    | .ok q => .ret (keep q, .value q.isNone none)

/-- `v.Object[key]`. -/
def fieldM (keep : Ptr → Locals) (p : Ptr) (key : Bytes) : Mem (Locals × Reply) :=
  .readCell p fun c => .readMap c.object fun es => let q := (es.lookup key).join; .ret (keep q, .value q.isNone none)

/-- One call. -/
def cmdM (env : Env) (L : Locals) : Cmd → Mem (Locals × Reply)
  | .new => .ret ({ L with events := L.events ++ [newEvent] }, .done)
  | .leaf x => .alloc (.cell (scalarCell x)) fun a => .ret (L.keepVal (some a), .done)
  | .array vs =>
    match vs.mapM (L.vals[·]?) with
    | none => .ret (L, .skipped)
    | some ps => .alloc (.cell (arrCell (if ps = [] then none else some ps))) fun a => .ret (L.keepVal (some a), .done)
  | .object es =>
    match es.mapM fun e => (L.vals[e.2]?).map (e.1, ·) with
    | none => .ret (L, .skipped)
    | some ps => .alloc (.map (AMap.ofEntries ps [])) fun m => .alloc (.cell (objCell (some m))) fun a => .ret (L.keepVal (some a), .done)
  | .put ow i key j =>
    match L.events[i]?, L.vals[j]? with
    | some e, some v => (putM e (keyToPath key) v ow).bind fun r => .ret (⟨L.events.set i r.1, L.vals ++ [r.2.1], L.seen⟩, .value r.2.1.isNone r.2.2)
    | _, _ => .ret (L, .skipped)
  | .get i key =>
    match L.events[i]? with
    | none => .ret (L, .skipped)
    | some e => (getM e (keyToPath key)).bind fun p => .ret (L.keepVal p, .value p.isNone none)
  | .delete i key =>
    match L.events[i]? with
    | none => .ret (L, .skipped)
    | some e => (deleteM e (keyToPath key)).bind fun p => .ret (L.keepVal p, .value p.isNone none)
  | .process k i =>
    match env.pipes[k]?, L.events[i]? with
    | some p, some e => ((p.thr ()).mem env.conv e).bind fun r => .ret ({ L with events := L.events.set i r.1 }, .processed r.2.1.isSome r.2.2)
    | _, _ => .ret (L, .skipped)
  | .look j =>
    match L.vals[j]? with
    | none => .ret (L, .skipped)
    | some none => .ret (L, .look none)
    | some (some a) => lookM L a
  | .item j i =>
    match L.vals[j]? with
    | none => .ret (L, .skipped)
    | some p => itemM L.keepVal p i
  | .field j key =>
    match L.vals[j]? with
    | none => .ret (L, .skipped)
    | some p => fieldM L.keepVal p key
  | .same i j =>
    match L.vals[i]?, L.vals[j]? with
    | some p, some q => .ret (L, .same (p = q))
    | _, _ => .ret (L, .skipped)
  | .json i =>
    match L.events[i]? with
    | none => .ret (L, .skipped)
    | some e => (marshalEventM env.json env.stack e).bind (textM L)
  | .sharedGet i key =>
    match env.shared[i]? with
    | none => .ret (L, .skipped)
    | some e => if keyToPath key = [] then .ret (L, .skipped) else (getM e (keyToPath key)).bind fun p => .ret (L.keepSeen p, .value p.isNone none)
  | .sharedLook j =>
    match L.seen[j]? with
    | none => .ret (L, .skipped)
    | some none => .ret (L, .look none)
    | some (some a) => lookM L a
  | .sharedItem j i =>
    match L.seen[j]? with
    | none => .ret (L, .skipped)
    | some p => itemM L.keepSeen p i
  | .sharedField j key =>
    match L.seen[j]? with
    | none => .ret (L, .skipped)
    | some p => fieldM L.keepSeen p key
  | .sharedJson i =>
    match env.shared[i]? with
    | none => .ret (L, .skipped)
    | some e => (marshalEventM env.json env.stack e).bind (textM L)

/-- The whole program. -/
def Prog.mem {X : Type} (env : Env) : Prog X → Locals → Mem (Locals × X)
  | .ret x, L => .ret (L, x)
  | .call c k, L => (cmdM env L c).bind fun r => (k r.2).mem env r.1

/-- Goroutines that begin to run. -/
def start {X : Type} (env : Env) (h : Heap) (cs : Counters) (gs : List (Locals × Prog X)) : Shared (Locals × X) := ⟨h, cs, gs.map fun g => g.2.mem env g.1⟩

/-- Each program alone, all from the same memory; the counters are passed on. -/
def aloneAll {X : Type} (env : Env) (h : Heap) : List (Locals × Prog X) → Counters → Res (List (Heap × Locals × X) × Counters)
  | [], cs => .ok ([], cs)
  | (L, p) :: gs, cs =>
    match p.run env ⟨h, cs, L⟩ with
    | .panic => .panic
    | .ok (s, x) =>
      match aloneAll env h gs s.counts with
      | .panic => .panic
      | .ok (rs, cs) => .ok ((s.heap, s.locals, x) :: rs, cs)

end Goro
end Sawmill
