import Verif.Model.Goro
/-!
# Workers that hand events on

A program around the library, as one would write it: stages that are connected by channels, with any number of worker goroutines per stage. A worker receives a message (the events and values it needs, and a payload), makes calls on them, and sends what it holds to the next stage. The calls are
those of `Model/Goro.lean`, one memory access after another; any goroutine may be interrupted after every access.

Nothing of this is code of the repository; the calls are. A worker keeps nothing of a message after it has sent it on. A channel hands out its messages in any order (first in, first out is a special case) and has a capacity of at least one; the messages for the first stage are there at the start.
-/

namespace Sawmill
namespace Goro

/-- A program, then another one that gets the result. -/
def Prog.andThen {X Y : Type} : Prog X → (X → Prog Y) → Prog Y
  | .ret x, f => f x
  | .call c k, f => .call c fun r => (k r).andThen f

/-- What a worker of a stage does with the payload of a message, and the payload that it sends on. -/
abbrev Stage (X : Type) := X → Prog X

/-- One worker that goes through all stages with one message. -/
def through {X : Type} : List (Stage X) → X → Prog X
  | [], x => .ret x
  | p :: ps, x => (p x).andThen (through ps)

/-- Where a message is: in the channel before stage `k`; with worker `w` in stage `k`; behind the last stage. -/
inductive Msg (X : Type) where
  | queued (k : Nat) (L : Locals) (x : X)
  | worked (w k : Nat) (m : Mem (Locals × X))
  | out (L : Locals) (x : X)

/-- The setting: the calls' environment, the stages, the stage of each worker, the capacities of the channels. -/
structure Plant (X : Type) where
  env : Env
  stages : List (Stage X)
  workers : List Nat
  cap : Nat → Nat

/-- Memory, counters, messages. -/
structure Pool (X : Type) where
  heap : Heap
  counts : Counters
  msgs : List (Msg X)

/-- Whether the message waits before stage `k`. -/
def Msg.waits {X : Type} (k : Nat) : Msg X → Bool
  | .queued k' _ _ => k' == k
  | _ => false

/-- Whether worker `w` has the message. -/
def Msg.with {X : Type} (w : Nat) : Msg X → Bool
  | .worked w' _ _ => w' == w
  | _ => false

/-- One step of one goroutine. -/
inductive Pool.Step {X : Type} (P : Plant X) : Pool X → Pool X → Prop
  /-- an idle worker receives a message -/
  | take {s : Pool X} {j k w : Nat} {L : Locals} {x : X} {p : Stage X} :
    s.msgs[j]? = some (.queued k L x) → P.workers[w]? = some k → s.msgs.countP (Msg.with w) = 0 → P.stages[k]? = some p →
    Step P s { s with msgs := s.msgs.set j (.worked w k ((p x).mem P.env L)) }
  /-- a worker goes on by one memory access -/
  | work {s : Pool X} {j w k : Nat} {m m' : Mem (Locals × X)} {h : Heap} {inc : Option (Bytes × Kind)} :
    s.msgs[j]? = some (.worked w k m) → m.step s.heap = .next h inc m' →
    Step P s ⟨h, s.counts.incOpt inc, s.msgs.set j (.worked w k m')⟩
  /-- it sends the message on, if there is room -/
  | hand {s : Pool X} {j w k : Nat} {L : Locals} {x : X} :
    s.msgs[j]? = some (.worked w k (.ret (L, x))) → k + 1 < P.stages.length → s.msgs.countP (Msg.waits (k + 1)) < P.cap (k + 1) →
    Step P s { s with msgs := s.msgs.set j (.queued (k + 1) L x) }
  /-- it is done with the last stage -/
  | finish {s : Pool X} {j w k : Nat} {L : Locals} {x : X} :
    s.msgs[j]? = some (.worked w k (.ret (L, x))) → k + 1 = P.stages.length →
    Step P s { s with msgs := s.msgs.set j (.out L x) }

inductive Pool.Steps {X : Type} (P : Plant X) : Nat → Pool X → Pool X → Prop
  | refl {s : Pool X} : Steps P 0 s s
  | step {n : Nat} {s s' s'' : Pool X} : Steps P n s s' → Pool.Step P s' s'' → Steps P (n + 1) s s''

/-- All messages before the first stage. -/
def Pool.start {X : Type} (h : Heap) (cs : Counters) (ms : List (Locals × X)) : Pool X := ⟨h, cs, ms.map fun m => .queued 0 m.1 m.2⟩

/-- Some worker panics. -/
def Pool.Crashing {X : Type} (s : Pool X) : Prop := ∃ w k m, Msg.worked w k m ∈ s.msgs ∧ m.step s.heap = .crash

/-- Two workers are about to access the same memory, and one of them to write. -/
def Pool.Racing {X : Type} (s : Pool X) : Prop :=
  ∃ (i j w k w' k' : Nat) (m m' : Mem (Locals × X)) (a : Nat) (b : Bool), i ≠ j ∧ s.msgs[i]? = some (.worked w k m) ∧ s.msgs[j]? = some (.worked w' k' m') ∧ m.access = some (a, true) ∧ m'.access = some (a, b)

/-- All messages have come out. -/
def Pool.Finished {X : Type} (s : Pool X) : Prop := ∀ m ∈ s.msgs, ∃ L x, m = .out L x

end Goro
end Sawmill
