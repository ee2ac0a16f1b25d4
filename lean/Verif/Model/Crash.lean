import Verif.Model.Goro
/-!
# Panics that a caller recovers from

What is left in memory when a call panics and its caller recovers (`recover` in a deferred function; net/http does so for every request). The programs of single memory accesses (`Model/Mem.lean`) are run until they
return or panic, and the memory and the counters are kept either way.

Simplifications. One goroutine. Objects that nobody can reach any more stay in the model's memory.
-/

namespace Sawmill

/-- The program runs until it returns (`some`) or panics (`none`); the memory and the counters are what it leaves. -/
def Mem.alone {α : Type} : Mem α → Heap → Counters → Heap × Counters × Option α
  | .ret x, h, cs => (h, cs, some x)
  | .readCell p k, h, cs =>
    match deref h p with
    | none => (h, cs, none)
    | some c => (k c).alone h cs
  | .readMap m k, h, cs => (k (mapOf h m)).alone h cs
  | .writeMap m key p k, h, cs =>
    match mapWrite h m key p with
    | .panic => (h, cs, none)
    | .ok h' => k.alone h' cs
  | .alloc o k, h, cs => (k h.length).alone (h ++ [o]) cs
  | .append a items k, h, cs =>
    match appendTo h a items with
    | .panic => (h, cs, none)
    | .ok h' => k.alone h' cs
  | .count id kind k, h, cs => k.alone h (cs.inc id kind)
  | .peek p k, h, cs => (k (deref h p)).alone h cs
  | .eraseMap m key k, h, cs => k.alone (mapDelete h m key) cs
  | .crash, h, cs => (h, cs, none)

/-- `eventutil.Append`, access by access: pkg/eventutil/event.go:29-54. -/
def utilAppendM (e : Event) (key : Bytes) (item : Ptr) : Mem (Event × Option PutErr) :=
  match item with
  | none => .ret (e, none)
  | some i => (getM e (keyToPath key)).bind fun old =>
    Mem.bind (match old with
      | none => .alloc (.cell (arrCell none)) fun n => .ret n
      | some a => .readCell (some a) fun c => if c.type ≠ .array then .alloc (.cell (arrCell (some [some a]))) fun n => .ret n else .ret a) fun t =>
    .readCell (some i) fun c =>
      let items := if c.type = .array then c.array.getD [] else [some i]
      Mem.bind (if items = [] then .ret () else .append t items (.ret ())) fun _ =>
      (putM e (keyToPath key) (some t) true).bind fun r => .ret (r.1, r.2.2)

section
variable {A R Ev W X : Type} (call : Ev → W → A → Res (W × R)) (left : Ev → W → A → W)

/-- A goroutine's run until it returns or panics; `left` is what a panicking call of the event interface leaves. -/
def Thr.attempt : Thr A R X → Ev → W → Counters → W × Counters × Option X
  | .ret x, _, w, cs => (w, cs, some x)
  | .inc id k next, ev, w, cs => next.attempt ev w (cs.inc id k)
  | .call a next, ev, w, cs =>
    match call ev w a with
    | .panic => (left ev w a, cs, none)
    | .ok (w', r) => (next r).attempt ev w' cs

/-- `Pipeline.Process` by a caller that recovers: pkg/pipeline/pipeline.go:63-104. -/
def Pipeline.attempt (p : Pipeline A R) (evt : Ev) (w : W) (cs : Counters) : W × Counters × Option (Option Ev × Option Err) := (p.thr evt).attempt call left evt w cs

/-- A history of `Process` calls, one after another, each by a caller that recovers. -/
def Pipeline.attempts (p : Pipeline A R) : List Ev → W → Counters → W × Counters × List (Option (Option Ev × Option Err))
  | [], w, cs => (w, cs, [])
  | e :: es, w, cs =>
    let (w, cs, r) := p.attempt call left e w cs
    let (w, cs, rs) := Pipeline.attempts p es w cs
    (w, cs, r :: rs)
end

end Sawmill
