import Verif.Model.Heap
/-!
# Values without an end
-/

namespace Sawmill

/-- `q` is an element of the array, or the value of an entry of the object, that `p` points to. -/
inductive Child (h : Heap) : Ptr → Ptr → Prop
  | item {p q : Ptr} {c : Cell} {ps : List Ptr} : deref h p = some c → c.type = .array → c.array = some ps → q ∈ ps → Child h p q
  | entry {p q : Ptr} {c : Cell} {k : Bytes} : deref h p = some c → c.type = .object → (k, q) ∈ mapOf h c.object → Child h p q

/-- One can go deeper and deeper from `p` for ever: in a finite memory this means that something down there contains itself. -/
def Endless (h : Heap) (p : Ptr) : Prop := ∃ way : Nat → Ptr, way 0 = p ∧ ∀ i, Child h (way i) (way (i + 1))

/-- Some field of the event is without an end. -/
def EndlessEvent (h : Heap) (e : Event) : Prop := ∃ k p, (k, p) ∈ mapOf h e ∧ Endless h p

/-- `q` is in `p`, at some depth of at least one. -/
inductive Within (h : Heap) : Ptr → Ptr → Prop
  | child {p q : Ptr} : Child h p q → Within h p q
  | deeper {p q r : Ptr} : Child h p q → Within h q r → Within h p r

/-- A pointer is nil or points into the memory. -/
def InMemory (h : Heap) (p : Ptr) : Prop := ∀ a, p = some a → a < h.length

/-- Every pointer in memory is nil or points into the memory, as it is in Go. -/
def NoDangling (h : Heap) : Prop :=
  (∀ (a : Nat) c ps, h[a]? = some (.cell c) → c.array = some ps → ∀ q ∈ ps, InMemory h q) ∧ (∀ (a : Nat) es, h[a]? = some (.map es) → ∀ k q, (k, q) ∈ es → InMemory h q)

end Sawmill
