import Verif.Model.Heap
/-!
# When the event API panics (C12)
-/

namespace Sawmill

/-- From the map `m` one gets to the map `m'` (possibly nil) by the names in the list, each of which is there and holds a value. -/
def Reaches (h : Heap) : Option Nat → List Bytes → Option Nat → Prop
  | m, [], m' => m = m'
  | m, k :: ks, m' => ∃ q c, (mapOf h m).lookup k = some q ∧ deref h q = some c ∧ Reaches h c.object ks m'

/-- The same through values of type `Object` only. -/
def Through (h : Heap) : Option Nat → List Bytes → Option Nat → Prop
  | m, [], m' => m = m'
  | m, k :: ks, m' => ∃ q c, (mapOf h m).lookup k = some q ∧ deref h q = some c ∧ c.type = .object ∧ Through h c.object ks m'

/-- A name of the path, not the last one, is there and holds a nil value. -/
def NilOnTheWay (h : Heap) (e : Event) (path : List Bytes) : Prop :=
  ∃ pre x y rest m q, path = pre ++ x :: y :: rest ∧ Reaches h e pre m ∧ (mapOf h m).lookup x = some q ∧ deref h q = none

/-- A name of the path, not the last one, holds an object with a nil map, and those before hold objects. -/
def NilMapOnTheWay (h : Heap) (e : Event) (path : List Bytes) : Prop := ∃ pre x rest, path = pre ++ x :: rest ∧ pre ≠ [] ∧ Through h e pre none

/-- What is used as a map is one, as Go's types guarantee. -/
def MapsAreMaps (h : Heap) (e : Event) : Prop :=
  (∀ m, e = some m → ∃ es, h[m]? = some (.map es)) ∧ ∀ (a : Nat) (c : Cell) (m : Nat), h[a]? = some (.cell c) → c.object = some m → ∃ es, h[m]? = some (.map es)

end Sawmill
