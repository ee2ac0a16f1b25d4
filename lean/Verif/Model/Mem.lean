import Verif.Model.Processors
import Verif.Model.PipelineConc
/-!
# Goroutines that share one memory

The event API and the processors once more, as programs whose steps are single memory accesses: reading a `Value`, reading a map (a lookup or `len`), storing into a map, deleting from a map, allocating, appending to the slice of a `Value`. `Props/Mem.lean` proves that run without
interruption they are the functions of `Model/Heap.lean` and `Model/Processors.lean`. Here goroutines take turns after every access.

The `fields` pointer of an event is kept in the goroutine that processes it (two goroutines with the same `*Event` are not modelled). Reading a `Value` is one access for all its fields. Counter increments are atomic (prometheus).
-/

namespace Sawmill

/-- A program that accesses the memory. -/
inductive Mem (α : Type) where
  | ret (x : α)
  | readCell (p : Ptr) (k : Cell → Mem α)
  | readMap (m : Option Nat) (k : AMap Ptr → Mem α)
  | writeMap (m : Option Nat) (key : Bytes) (p : Ptr) (k : Mem α)
  | alloc (o : HObj) (k : Nat → Mem α)
  | append (a : Nat) (items : List Ptr) (k : Mem α)
  | count (id : Bytes) (kind : Kind) (k : Mem α)
  /-- reading behind a pointer that may be nil -/
  | peek (p : Ptr) (k : Option Cell → Mem α)
  /-- `delete(m, key)` -/
  | eraseMap (m : Option Nat) (key : Bytes) (k : Mem α)
  /-- a panic, or a stack overflow -/
  | crash

namespace Mem
variable {α β : Type}

def bind : Mem α → (α → Mem β) → Mem β
  | .ret x, f => f x
  | .readCell p k, f => .readCell p fun c => (k c).bind f
  | .readMap m k, f => .readMap m fun es => (k es).bind f
  | .writeMap m key p k, f => .writeMap m key p (k.bind f)
  | .alloc o k, f => .alloc o fun a => (k a).bind f
  | .append a items k, f => .append a items (k.bind f)
  | .count id kind k, f => .count id kind (k.bind f)
  | .peek p k, f => .peek p fun c => (k c).bind f
  | .eraseMap m key k, f => .eraseMap m key (k.bind f)
  | .crash, _ => .crash

/-- What one step of a program does. -/
inductive Next (α : Type) where
  | finished (x : α)
  | crash
  | next (h : Heap) (inc : Option (Bytes × Kind)) (rest : Mem α)

/-- One step. A nil pointer and a nil map (for a store) crash. -/
def step : Mem α → Heap → Next α
  | .ret x, _ => .finished x
  | .readCell p k, h =>
    match deref h p with
    | none => .crash
    | some c => .next h none (k c)
  | .readMap m k, h => .next h none (k (mapOf h m))
  | .writeMap m key p k, h =>
    match mapWrite h m key p with
    | .panic => .crash
    | .ok h' => .next h' none k
  | .alloc o k, h => .next (h ++ [o]) none (k h.length)
  | .append a items k, h =>
    match appendTo h a items with
    | .panic => .crash
    | .ok h' => .next h' none k
  | .count id kind k, h => .next h (some (id, kind)) k
  | .peek p k, h => .next h none (k (deref h p))
  | .eraseMap m key k, h => .next (mapDelete h m key) none k
  | .crash, _ => .crash

/-- The address that the next step accesses, and whether it writes. -/
def access : Mem α → Option (Nat × Bool)
  | .readCell p _ => p.map (·, false)
  | .readMap m _ => m.map (·, false)
  | .writeMap m _ _ _ => m.map (·, true)
  | .append a _ _ => some (a, true)
  | .peek p _ => p.map (·, false)
  | .eraseMap m _ _ => m.map (·, true)
  | _ => none
end Mem

/-- `get` after the check for an empty event: event.go:110-119. -/
def getLoopM : Option Nat → List Bytes → Mem Ptr
  | _, [] => .ret none
  | m, [last] => .readMap m fun es => .ret (es.lookup last).join
  | m, key :: rest => .readMap m fun es =>
    match es.lookup key with
    | none => .ret none
    | some inner => .readCell inner fun c => .readMap c.object fun es' => if es'.length = 0 then .ret none else getLoopM c.object rest

/-- `get`: event.go:101-120. -/
def getM (e : Event) (path : List Bytes) : Mem Ptr :=
  .readMap e fun es =>
    if es.length = 0 then .ret none
    else match path with
      | [] => .alloc (.cell (objCell e)) fun a => .ret (some a)
      | path => getLoopM e path

/-- The loop of `put`: event.go:77-91. -/
def putLoopM : Option Nat → List Bytes → Ptr → Mem Bool
  | _, [], _ => .ret true
  | m, [last], val => .writeMap m last val (.ret true)
  | m, key :: rest, val => .readMap m fun es =>
    match es.lookup key with
    | some inner => .readCell inner fun c => if c.type ≠ .object then .ret false else putLoopM c.object rest val
    | none => .alloc (.map []) fun nm => .alloc (.cell (objCell (some nm))) fun na => .writeMap m key (some na) (putLoopM (some nm) rest val)

/-- `put` of an event that has a map: event.go:72-92. -/
def putM' (e : Event) (path : List Bytes) (val : Ptr) (overwrite : Bool) : Mem (Event × Ptr × Option PutErr) :=
  (getM e path).bind fun old =>
    if old ≠ none ∧ overwrite = false then .ret (e, old, some (.keyExists path))
    else (putLoopM e path val).bind fun ok => if ok then .ret (e, old, none) else .ret (e, none, some (.notObject path))

/-- `put`: event.go:60-93. -/
def putM (e : Event) (path : List Bytes) (val : Ptr) (overwrite : Bool) : Mem (Event × Ptr × Option PutErr) :=
  if path.length = 0 then .ret (e, none, some .emptyKey)
  else if val = none then .ret (e, none, none)
  else match e with
    | none => .alloc (.map []) fun m => putM' (some m) path val overwrite
    | some m => putM' (some m) path val overwrite

/-- `_, err := evt.Put(key, v); return err`. -/
def putThenM (e : Event) (key : Bytes) (v : Ptr) : Mem (Event × Option Err) :=
  (putM e (keyToPath key) v true).bind fun r => .ret (r.1, r.2.2.map PutErr.toErr)

/-- pkg/processor/lowercase/process.go:28-47, pkg/processor/uppercase/process.go:28-47. -/
def convM (conv : Bytes → Bytes) (msg : Bytes) (field targetField : Bytes) (e : Event) : Mem (Event × Option Err) :=
  (getM e (keyToPath field)).bind fun p =>
    match p with
    | none => .ret (e, some (.keyMissing field))
    | some a => .readCell (some a) fun c =>
      if c.type ≠ .string then .ret (e, some (.other msg))
      else .alloc (.cell (strCell (conv c.string))) fun n => putThenM e (if targetField ≠ [] then targetField else field) (some n)

/-- pkg/processor/set/process.go:25-38. -/
def setM (value : Nat) (copyFrom targetField : Bytes) (e : Event) : Mem (Event × Option Err) :=
  .readCell (some value) fun c =>
    if c.type ≠ .null then putThenM e targetField (some value)
    else if copyFrom ≠ [] then
      (getM e (keyToPath copyFrom)).bind fun p =>
        match p with
        | none => .ret (e, some (.keyMissing copyFrom))
        | some a => putThenM e targetField (some a)
    else putThenM e targetField none

/-- pkg/processor/append/process.go:27-40. -/
def appendM (field value : Bytes) (e : Event) : Mem (Event × Option Err) :=
  (getM e (keyToPath field)).bind fun p =>
    match p with
    | none => .alloc (.cell (arrCell none)) fun v => (putM e (keyToPath field) (some v) true).bind fun r =>
        .alloc (.cell (strCell value)) fun s => .append v [some s] (.ret (r.1, none))
    | some a => .readCell (some a) fun c =>
      if c.type = .string then
        .alloc (.cell (arrCell (some [some a]))) fun v => .alloc (.cell (strCell value)) fun s => .append v [some s] (.ret (e, none))
      else if c.type ≠ .array then .ret (e, some (.other (lit "value to append to is not array")))
      else .alloc (.cell (strCell value)) fun s => .append a [some s] (.ret (e, none))

/-- `Process` of a configured processor. -/
def Builtin.mem (cv : Conv) (e : Event) : Builtin → Mem (Event × Option Err)
  | .lowercase f t => convM cv.lower (lit "value to lowercase is not a string") f t e
  | .uppercase f t => convM cv.upper (lit "value to uppercase is not a string") f t e
  | .set v c t => setM v c t e
  | .append f v _ => appendM f v e
  | .remove _ => .ret (e, none)
  | .communityId => .ret (e, none)

/-- A goroutine's run (`Model/PipelineConc.lean`), down to single accesses. The result is where the event's data is, and what the goroutine returns. -/
def Thr.mem {X : Type} (cv : Conv) : Thr Builtin (Option Err) X → Event → Mem (Event × X)
  | .ret x, e => .ret (e, x)
  | .inc id k next, e => .count id k (next.mem cv e)
  | .call b next, e => (b.mem cv e).bind fun r => (next r.2).mem cv r.1

/-- The memory, the counters and the goroutines. -/
structure Shared (X : Type) where
  heap : Heap
  counts : Counters
  gs : List (Mem X)

def Counters.incOpt (cs : Counters) : Option (Bytes × Kind) → Counters
  | none => cs
  | some (id, k) => cs.inc id k

/-- One step of goroutine `i`, chosen by the scheduler. -/
inductive Shared.Step {X : Type} : Shared X → Shared X → Prop
  | mk {s : Shared X} {i : Nat} {t t' : Mem X} {h : Heap} {inc : Option (Bytes × Kind)} :
    s.gs[i]? = some t → t.step s.heap = .next h inc t' → Step s ⟨h, s.counts.incOpt inc, s.gs.set i t'⟩

/-- Any number of steps, with their number. -/
inductive Shared.Steps {X : Type} : Nat → Shared X → Shared X → Prop
  | refl {s : Shared X} : Steps 0 s s
  | step {n : Nat} {s s' s'' : Shared X} : Steps n s s' → Shared.Step s' s'' → Steps (n + 1) s s''

def Shared.Crashing {X : Type} (s : Shared X) : Prop := ∃ t ∈ s.gs, t.step s.heap = .crash

def Shared.Finished {X : Type} (s : Shared X) : Prop := ∀ t ∈ s.gs, ∃ x, t = .ret x

/-- Goroutines that begin to process one event each: pipeline.go:63-104. -/
def Pipeline.shared (cv : Conv) (p : Pipeline Builtin (Option Err)) (h : Heap) (events : List Event) (cs : Counters) : Shared (Event × Option Unit × Option Err) :=
  ⟨h, cs, events.map fun e => (p.thr ()).mem cv e⟩

end Sawmill
