import Verif.Spec.History
import Verif.Spec.Path
/-!
# Calls whose order does not matter
-/

namespace Sawmill

/-- Reordering a list by exchanging neighbours that are independent. -/
inductive Reorder {α : Type} (ind : α → α → Prop) : List α → List α → Prop where
  | nil : Reorder ind [] []
  | cons (x : α) {l m : List α} : Reorder ind l m → Reorder ind (x :: l) (x :: m)
  | swap (x y : α) (l : List α) : ind x y → Reorder ind (x :: y :: l) (y :: x :: l)
  | trans {l m n : List α} : Reorder ind l m → Reorder ind m n → Reorder ind l n

/-- Where in an event a call reads and writes: at and below this path. A `Delete` removes a whole top-level entry (C08). -/
def Call.area : Call → List Bytes
  | .put k _ => keyToPath k
  | .tryPut k _ => keyToPath k
  | .get k => keyToPath k
  | .delete k => (keyToPath k).take 1

def Call.isGet : Call → Bool
  | .get _ => true
  | _ => false

/-- Calls on different events, two `Get`s, or calls in different places: neither path begins with the other. -/
def Independent (c d : Nat × Call) : Prop :=
  c.1 ≠ d.1 ∨ (c.2.isGet = true ∧ d.2.isGet = true) ∨ ¬ (c.2.area <+: d.2.area ∨ d.2.area <+: c.2.area)

/-- The events contain this. -/
def World.Contains (w : World) (s : List Fields) : Prop :=
  w.events.length = s.length ∧ ∀ (i : Nat) (e : Event) (f : Fields), w.events[i]? = some e → s[i]? = some f → Holds w.heap e f

end Sawmill
