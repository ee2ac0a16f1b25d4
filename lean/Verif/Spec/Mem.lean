import Verif.Model.Mem
import Verif.Spec.Reuse
/-!
# Separate events in one memory
-/

namespace Sawmill

/-- The address `a` can be reached from the event `e`. -/
inductive Reach (h : Heap) (e : Event) : Nat → Prop
  | root {m : Nat} : e = some m → Reach h e m
  | entry {m : Nat} {es : AMap Ptr} {k : Bytes} {a : Nat} : Reach h e m → h[m]? = some (.map es) → (k, some a) ∈ es → Reach h e a
  | item {b : Nat} {c : Cell} {ps : List Ptr} {a : Nat} : Reach h e b → h[b]? = some (.cell c) → c.array = some ps → some a ∈ ps → Reach h e a
  | object {b : Nat} {c : Cell} {m : Nat} : Reach h e b → h[b]? = some (.cell c) → c.object = some m → Reach h e m

/-- A value without parts that is not an array, such as those that `set` is configured with. No processor changes it. -/
def Heap.Leaf (h : Heap) (a : Nat) : Prop := ∃ c : Cell, h[a]? = some (.cell c) ∧ c.type ≠ .array ∧ c.array = none ∧ c.object = none

/-- The events are in the memory, and only leaves can be reached from two of them. -/
structure Separate (h : Heap) (events : List Event) : Prop where
  inside : ∀ e ∈ events, ∀ a, Reach h e a → a < h.length
  apart : ∀ (i j : Nat) (e e' : Event) (a : Nat), i ≠ j → events[i]? = some e → events[j]? = some e' → Reach h e a → Reach h e' a → h.Leaf a

/-- Two goroutines are about to access the same memory, and one of them to write. -/
def Shared.Racing {X : Type} (s : Shared X) : Prop :=
  ∃ (i j : Nat) (t t' : Mem X) (a : Nat) (w : Bool), i ≠ j ∧ s.gs[i]? = some t ∧ s.gs[j]? = some t' ∧ t.access = some (a, true) ∧ t'.access = some (a, w)

/-- New events with the given contents, made one after another. -/
def buildEvents (h : Heap) : List Fields → Heap × List Event
  | [] => (h, [])
  | F :: Fs =>
    let (h1, e) := buildEvent h F
    let (h2, es) := buildEvents h1 Fs
    (h2, e :: es)

end Sawmill
