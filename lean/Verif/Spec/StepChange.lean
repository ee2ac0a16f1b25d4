import Verif.Spec.Changed
/-!
# What one run of a processor may change in memory (C114)
-/

namespace Sawmill

/-- From memory `h` to memory `h'`, new things may have been added, and of the old ones nothing has changed, or one entry of a map to which one gets from the event, or an array that `Get` finds in the event has got one more element. -/
inductive StepChange (h h' : Heap) (e : Event) : Prop
  | nothing : (∀ a, a < h.length → h'[a]? = h[a]?) → StepChange h h' e
  | entry {d : Nat} {k : Bytes} {pre : List Bytes} : Reaches h e pre (some d) → ChangedAt h h' d k → StepChange h h' e
  | longer {key : Bytes} {a : Nat} {c : Cell} {item : Ptr} : apiGet h e key = .ok (h, some a) → h[a]? = some (.cell c) → c.type = .array →
      h'[a]? = some (.cell { c with array := some (c.array.getD [] ++ [item]) }) → (∀ b, b < h.length → b ≠ a → h'[b]? = h[b]?) → StepChange h h' e

end Sawmill
