import Verif.Model.Errors
/-!
# The pipeline engine (pkg/pipeline)

The engine is modelled for arbitrary processors.  A processor is a program that calls the methods of `processor.Event` (pkg/processor/api.go:27-39): the four data methods are
the calls `A` with replies `R` on a world `W` (for the repository's own processors: the heap and the event of `Model/Heap.lean`; a processor's private state is also part of
`W`), and `Cancel` and `Drop` act on the engine's own record of the event.

Simplifications. Counters are natural numbers (prometheus counters incremented by one are 64-bit integers). They are keyed by component ID, where the code has one counter
object per processor: `Props/PipelineNew.lean` proves that IDs are unique.  After a panic no state is kept here (`Model/Crash.lean` keeps it): the panic reaches the caller of `Process`.
-/

namespace Sawmill

/-- A processor's behaviour: pkg/processor/api.go:41-43, as a finite interaction with the event interface (api.go:27-39). -/
inductive Prog (A R : Type) where
  | done (err : Option Err)
  | cancel (k : Prog A R)
  | drop (k : Prog A R)
  | call (a : A) (k : R → Prog A R)

/-- `pipelineEvent`: pkg/pipeline/event.go:29-33. -/
structure PEvent (Ev : Type) where
  data : Ev
  cancelled : Bool := false
  dropped : Bool := false
deriving DecidableEq, Repr

/-- `Cancel`: event.go:51-53 (pointer receiver). -/
def PEvent.cancel {Ev : Type} (e : PEvent Ev) : PEvent Ev := { e with cancelled := true }

/-- `Drop`: event.go:55-57. The receiver is a value: the assignment is to a copy, which is then discarded; the caller's record is what remains. -/
def PEvent.drop {Ev : Type} (e : PEvent Ev) : PEvent Ev :=
  let _copy : PEvent Ev := { e with dropped := true }
  e

/-- `pipelineProcessor`: pkg/pipeline/processor.go:32-46 (without the four counters, kept in the state). -/
inductive Node (A R : Type) where
  | mk (id condition : Bytes) (ignoreFailure ignoreMissing : Bool) (onFailure : List (Node A R)) (proc : Prog A R)

namespace Node
variable {A R : Type}
def id : Node A R → Bytes | .mk i _ _ _ _ _ => i
def condition : Node A R → Bytes | .mk _ c _ _ _ _ => c
def ignoreFailure : Node A R → Bool | .mk _ _ f _ _ _ => f
def ignoreMissing : Node A R → Bool | .mk _ _ _ m _ _ => m
def onFailure : Node A R → List (Node A R) | .mk _ _ _ _ o _ => o
def proc : Node A R → Prog A R | .mk _ _ _ _ _ p => p
end Node

/-- The four counters of one processor: processor.go:41-45. -/
structure Counts where
  received : Nat := 0
  sent : Nat := 0
  errors : Nat := 0
  discarded : Nat := 0
deriving DecidableEq, Repr

/-- Which counter. -/
inductive Kind where | received | sent | errors | discarded
deriving DecidableEq, Repr

def Counts.inc (c : Counts) : Kind → Counts
  | .received => { c with received := c.received + 1 }
  | .sent => { c with sent := c.sent + 1 }
  | .errors => { c with errors := c.errors + 1 }
  | .discarded => { c with discarded := c.discarded + 1 }

/-- All counters, by component ID. -/
abbrev Counters := Bytes → Counts

def Counters.inc (cs : Counters) (id : Bytes) (k : Kind) : Counters := fun j => if j = id then (cs j).inc k else cs j

/-- One finished invocation of a processor, for the ghost log: its component ID, what its own `Process` returned, what was left after its on_failure processors (when the code
got that far), and what the invocation returned. -/
structure Invocation where
  id : Bytes
  own : Option Err
  handled : Option (Option Err)
  out : Option Err

/-- State while one event goes through a pipeline. `log` is a ghost: it is only appended to. -/
structure PState (Ev W : Type) where
  ev : PEvent Ev
  world : W
  counts : Counters
  log : List Invocation

namespace PState
variable {Ev W : Type}
def inc (s : PState Ev W) (id : Bytes) (k : Kind) : PState Ev W := { s with counts := s.counts.inc id k }
def note (s : PState Ev W) (i : Invocation) : PState Ev W := { s with log := s.log ++ [i] }
end PState

section
variable {A R Ev W : Type} (call : Ev → W → A → Res (W × R))

/-- Running one processor on one event: the interface call at processor.go:52. -/
def Prog.run : Prog A R → PEvent Ev → W → Res (PEvent Ev × W × Option Err)
  | .done e, ev, w => .ok (ev, w, e)
  | .cancel k, ev, w => Prog.run k ev.cancel w
  | .drop k, ev, w => Prog.run k ev.drop w
  | .call a k, ev, w =>
    match call ev.data w a with
    | .panic => .panic
    | .ok (w', r) => Prog.run (k r) ev w'

mutual
/-- `pipelineProcessor.Process`: processor.go:48-86. -/
def Node.process : Node A R → PState Ev W → Res (PState Ev W × Option Err)
  | .mk id _cond ignF ignM onF proc, s =>
    let s := s.inc id .received                                            -- 50
    match proc.run call s.ev s.world with                                  -- 52
    | .panic => .panic
    | .ok (ev, w, none) =>
      .ok (({ s with ev := ev, world := w }.inc id .sent).note ⟨id, none, none, none⟩, none)   -- 84-85
    | .ok (ev, w, some err) =>
      let s := { s with ev := ev, world := w }
      if ev.dropped then
        .ok ((s.inc id .discarded).note ⟨id, some err, none, none⟩, none)   -- 53-56
      else if ignM && err.isMissing then
        .ok ((s.inc id .sent).note ⟨id, some err, none, none⟩, none)        -- 59-62
      else match Node.processAll onF s (some err) with                      -- 65-71
        | .panic => .panic
        | .ok (s, err') =>
          if ignF && err'.isSome then
            .ok ((s.inc id .sent).note ⟨id, some err, some err', none⟩, none)     -- 74-77
          else
            .ok ((s.inc id .errors).note ⟨id, some err, some err', err'⟩, err')   -- 80-81
/-- The loop `for _, proc := range procs { if err = proc.Process(event); err != nil { break } }` with `err` on entry and exit:
processor.go:66-70, pipeline.go:83-88, pipeline.go:91-96. -/
def Node.processAll : List (Node A R) → PState Ev W → Option Err → Res (PState Ev W × Option Err)
  | [], s, err => .ok (s, err)
  | p :: ps, s, _ =>
    match Node.process p s with
    | .panic => .panic
    | .ok (s, some err) => .ok (s, some err)
    | .ok (s, none) => Node.processAll ps s none
end

/-- `Pipeline`: pkg/pipeline/pipeline.go:28-32. -/
structure Pipeline (A R : Type) where
  id : Bytes
  processors : List (Node A R)
  onFailure : List (Node A R)

/-- `Pipeline.process`: pipeline.go:81-104. -/
def Pipeline.run (p : Pipeline A R) (s : PState Ev W) : Res (PState Ev W × Option Err) :=
  match Node.processAll call p.processors s none with
  | .panic => .panic
  | .ok (s, none) => .ok (s, none)
  | .ok (s, some err) =>
    if p.onFailure.length > 0 then Node.processAll call p.onFailure s (some err)
    else .ok (s, some err)

/-- State kept between calls of `Process`: the world, the counters and the ghost log. -/
structure PWorld (W : Type) where
  world : W
  counts : Counters
  log : List Invocation

/-- `Pipeline.Process`: pipeline.go:63-75. Returns the event (or nil) and the error (or nil). -/
def Pipeline.process (p : Pipeline A R) (evt : Ev) (w : PWorld W) : Res (PWorld W × Option Ev × Option Err) :=
  match p.run call ⟨{ data := evt }, w.world, w.counts, w.log⟩ with
  | .panic => .panic
  | .ok (s, some err) => .ok (⟨s.world, s.counts, s.log⟩, none, some err)
  | .ok (s, none) =>
    if s.ev.dropped then .ok (⟨s.world, s.counts, s.log⟩, none, none)
    else .ok (⟨s.world, s.counts, s.log⟩, some s.ev.data, none)

/-- A history of `Process` calls on one pipeline, one after another. -/
def Pipeline.processMany (p : Pipeline A R) : List Ev → PWorld W → Res (PWorld W × List (Option Ev × Option Err))
  | [], w => .ok (w, [])
  | e :: es, w =>
    match p.process call e w with
    | .panic => .panic
    | .ok (w, r) =>
      match Pipeline.processMany p es w with
      | .panic => .panic
      | .ok (w, rs) => .ok (w, r :: rs)
end

/-! ## Metrics: pipeline.go:110-135 -/
section
variable {A R : Type}
mutual
/-- `visitProcessor`: pipeline.go:129-135; the list of processors visited, in order. -/
def Node.visit : Node A R → List (Node A R)
  | .mk i c f m o p => Node.mk i c f m o p :: Node.visitAll o
def Node.visitAll : List (Node A R) → List (Node A R)
  | [] => []
  | n :: ns => n.visit ++ Node.visitAll ns
end

/-- `Pipeline.visitProcessors`: pipeline.go:123-127 (only `processors`). -/
def Pipeline.visitProcessors (p : Pipeline A R) : List (Node A R) := Node.visitAll p.processors

/-- `Pipeline.Metrics`: pipeline.go:110-121. A collector is named by its component ID and which of the four counters it is. -/
def Pipeline.metrics (p : Pipeline A R) : List (Bytes × Kind) :=
  p.visitProcessors.flatMap fun n => [(n.id, .discarded), (n.id, .errors), (n.id, .received), (n.id, .sent)]
end

end Sawmill
