import Verif.Model.Metrics
/-!
# Whose counter is shown

For each component ID and kind: nobody's, or that of one pipeline object. Which one is decided by the calls from the latest backwards.
-/

namespace Sawmill
namespace Spec

/-- The latest call first. A registration counts only if nothing was there before; an unregistration by anybody counts. -/
def shownBy {A R : Type} (valid : Bytes → Bool) (k : MetricKey) : List (MetricsCall A R) → Option Nat
  | [] => none
  | .register o p :: earlier =>
    match shownBy valid k earlier with
    | some o' => some o'
    | none => if k ∈ p.metrics ∧ valid k.1 = true then some o else none
  | .unregister p :: earlier => if k ∈ p.metrics then none else shownBy valid k earlier

/-- The number a counter shows. -/
inductive Shows (c : Counts) : Kind → Nat → Prop where
  | received : Shows c .received c.received
  | sent : Shows c .sent c.sent
  | errors : Shows c .errors c.errors
  | discarded : Shows c .discarded c.discarded

end Spec
end Sawmill
