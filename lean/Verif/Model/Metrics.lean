import Verif.Model.Pipeline
/-!
# The metrics registry: pkg/metrics/metrics.go

Simplifications. A counter is identified by the component ID and which of the four it is; client_golang computes a hash of the name and the labels (hash collisions are left out, and so is the label `component_type`: of two processors with the same component ID
it is taken to be the same). The collectors that `init` registers (metrics.go:30-37) have other names and are left out. HTTP is not modelled: what a scrape shows is.
-/

namespace Sawmill

/-- A collector: the component ID and the kind. -/
abbrev MetricKey := Bytes × Kind

/-- The registered collectors, in order. The number says to which pipeline object the counter belongs: two pipelines with the same ID have different counters. -/
abbrev MetricsReg := List (MetricKey × Nat)

def MetricsReg.has (r : MetricsReg) (k : MetricKey) : Bool := r.any fun e => e.1 = k

/-- `reg.Register(coll)`: metrics.go:41. An error (the label is not valid UTF-8, or there is already such a collector) is ignored. -/
def MetricsReg.add (valid : Bytes → Bool) (owner : Nat) (r : MetricsReg) (k : MetricKey) : MetricsReg :=
  if valid k.1 && !r.has k then r ++ [(k, owner)] else r

/-- `reg.Unregister(coll)`: metrics.go:47. What is removed is the collector with this name and labels, whichever object it is. -/
def MetricsReg.remove (r : MetricsReg) (k : MetricKey) : MetricsReg := r.filter fun e => e.1 ≠ k

/-- `Register`: metrics.go:39-43, applied to `Metrics()`. -/
def MetricsReg.register {A R : Type} (valid : Bytes → Bool) (r : MetricsReg) (owner : Nat) (p : Pipeline A R) : MetricsReg := p.metrics.foldl (MetricsReg.add valid owner) r

/-- `Unregister`: metrics.go:45-49, applied to `Metrics()`. -/
def MetricsReg.unregister {A R : Type} (r : MetricsReg) (p : Pipeline A R) : MetricsReg := p.metrics.foldl MetricsReg.remove r

def Counts.get (c : Counts) : Kind → Nat
  | .received => c.received
  | .sent => c.sent
  | .errors => c.errors
  | .discarded => c.discarded

/-- What a scrape shows, given the counters of each pipeline object: metrics.go:51-64. -/
def MetricsReg.scrape (r : MetricsReg) (counters : Nat → Counters) : List (MetricKey × Nat) := r.map fun e => (e.1, (counters e.2 e.1.1).get e.1.2)

/-- Calls of `Register` and `Unregister`. -/
inductive MetricsCall (A R : Type) where
  | register (owner : Nat) (p : Pipeline A R)
  | unregister (p : Pipeline A R)

def MetricsReg.call {A R : Type} (valid : Bytes → Bool) (r : MetricsReg) : MetricsCall A R → MetricsReg
  | .register o p => r.register valid o p
  | .unregister p => r.unregister p

def MetricsReg.calls {A R : Type} (valid : Bytes → Bool) (r : MetricsReg) (cs : List (MetricsCall A R)) : MetricsReg := cs.foldl (MetricsReg.call valid) r

end Sawmill
