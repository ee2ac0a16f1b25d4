import Verif.Model.Pipeline
/-!
# Concurrent use of one pipeline: a small-step model of the engine

The same code as `Model/Pipeline.lean` (pkg/pipeline/processor.go:48-86, pipeline.go:63-104), written as the tree of its atomic steps: a counter increment (prometheus counters are
atomic) or one call of the event interface.  Goroutines share the pipeline and its counters; each works on its own event, and the world `W` a processor can act on is that of its event
alone (processors that share state between events, such as `set` with an array value, are outside this model; see C15).
-/

namespace Sawmill

/-- The rest of a goroutine's run: return, increment a counter and go on, or call the event interface and go on with the reply. -/
inductive Thr (A R X : Type) where
  | ret (x : X)
  | inc (id : Bytes) (k : Kind) (next : Thr A R X)
  | call (a : A) (next : R → Thr A R X)

section
variable {A R Ev X : Type}

/-- The steps of a processor's own `Process` (processor.go:52), then `k`. -/
def Prog.thr : Prog A R → PEvent Ev → (PEvent Ev → Option Err → Thr A R X) → Thr A R X
  | .done e, ev, k => k ev e
  | .cancel p, ev, k => Prog.thr p ev.cancel k
  | .drop p, ev, k => Prog.thr p ev.drop k
  | .call a p, ev, k => .call a (fun r => Prog.thr (p r) ev k)

mutual
/-- The steps of `pipelineProcessor.Process` (processor.go:48-86), then `k`. -/
def Node.thr : Node A R → PEvent Ev → (PEvent Ev → Option Err → Thr A R X) → Thr A R X
  | .mk id _cond ignF ignM onF proc, ev, k =>
    .inc id .received (Prog.thr proc ev fun ev err =>
      match err with
      | none => .inc id .sent (k ev none)
      | some err =>
        if ev.dropped then .inc id .discarded (k ev none)
        else if ignM && err.isMissing then .inc id .sent (k ev none)
        else Node.thrAll onF ev (some err) fun ev err' =>
          if ignF && err'.isSome then .inc id .sent (k ev none)
          else .inc id .errors (k ev err'))
/-- The steps of the loop over processors (processor.go:66-70, pipeline.go:83-88, 91-96), then `k`. -/
def Node.thrAll : List (Node A R) → PEvent Ev → Option Err → (PEvent Ev → Option Err → Thr A R X) → Thr A R X
  | [], ev, err, k => k ev err
  | n :: ns, ev, _, k => Node.thr n ev fun ev err =>
    match err with
    | some err => k ev (some err)
    | none => Node.thrAll ns ev none k
end

/-- What `Process` returns after `process`: pipeline.go:66-74. -/
def finish (ev : PEvent Ev) : Option Err → Thr A R (Option Ev × Option Err)
  | none => .ret (if ev.dropped then none else some ev.data, none)
  | some err => .ret (none, some err)

/-- After the loop over the processors: pipeline.go:90-101. -/
def Pipeline.afterProcessors (p : Pipeline A R) (ev : PEvent Ev) : Option Err → Thr A R (Option Ev × Option Err)
  | none => finish ev none
  | some err => if p.onFailure.length > 0 then Node.thrAll p.onFailure ev (some err) finish else finish ev (some err)

/-- The steps of `Pipeline.Process` (pipeline.go:63-104). -/
def Pipeline.thr (p : Pipeline A R) (evt : Ev) : Thr A R (Option Ev × Option Err) :=
  Node.thrAll p.processors { data := evt } none p.afterProcessors
end

/-- A goroutine: what it still has to do, its event, and the world of that event. -/
structure Goroutine (A R Ev W X : Type) where
  rest : Thr A R X
  ev : Ev
  world : W

/-- All goroutines and the shared counters. -/
structure Conc (A R Ev W X : Type) where
  gs : List (Goroutine A R Ev W X)
  counts : Counters

section
variable {A R Ev W X : Type} (call : Ev → W → A → Res (W × R))

/-- One atomic step of goroutine `i`, chosen by the scheduler. -/
inductive Conc.Step : Conc A R Ev W X → Conc A R Ev W X → Prop
  | inc {c : Conc A R Ev W X} {i : Nat} {id : Bytes} {k : Kind} {next : Thr A R X} {ev : Ev} {w : W} :
    c.gs[i]? = some ⟨.inc id k next, ev, w⟩ → Step c ⟨c.gs.set i ⟨next, ev, w⟩, c.counts.inc id k⟩
  | call {c : Conc A R Ev W X} {i : Nat} {a : A} {next : R → Thr A R X} {ev : Ev} {w w' : W} {r : R} :
    c.gs[i]? = some ⟨.call a next, ev, w⟩ → call ev w a = .ok (w', r) → Step c ⟨c.gs.set i ⟨next r, ev, w'⟩, c.counts⟩

/-- Any number of steps, with their number. -/
inductive Conc.Steps : Nat → Conc A R Ev W X → Conc A R Ev W X → Prop
  | refl {c : Conc A R Ev W X} : Steps 0 c c
  | step {n : Nat} {c d e : Conc A R Ev W X} : Steps n c d → Conc.Step call d e → Steps (n + 1) c e

/-- Some goroutine is about to panic. -/
def Conc.Crashing (c : Conc A R Ev W X) : Prop :=
  ∃ g ∈ c.gs, ∃ a next, g.rest = .call a next ∧ call g.ev g.world a = .panic
end

/-- Every goroutine has returned. -/
def Conc.Finished {A R Ev W X : Type} (c : Conc A R Ev W X) : Prop := ∀ g ∈ c.gs, ∃ x, g.rest = .ret x

/-- Goroutines starting to process one event each. -/
def Pipeline.start {A R Ev W : Type} (p : Pipeline A R) (jobs : List (Ev × W)) (cs : Counters) : Conc A R Ev W (Option Ev × Option Err) :=
  ⟨jobs.map fun j => ⟨p.thr j.1, j.1, j.2⟩, cs⟩

/-- The same jobs processed one after another, each in its own world, in the given order. -/
def Pipeline.sequential {A R Ev W : Type} (call : Ev → W → A → Res (W × R)) (p : Pipeline A R) : List (Ev × W) → Counters → Res (List (W × Option Ev × Option Err) × Counters)
  | [], cs => .ok ([], cs)
  | (e, w) :: js, cs =>
    match p.process call e ⟨w, cs, []⟩ with
    | .panic => .panic
    | .ok (w', r) =>
      match Pipeline.sequential call p js w'.counts with
      | .panic => .panic
      | .ok (rs, cs) => .ok ((w'.world, r) :: rs, cs)

end Sawmill
