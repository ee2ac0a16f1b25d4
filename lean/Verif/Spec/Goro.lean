import Verif.Model.Goro
import Verif.Spec.Mem
import Verif.Lemmas.HeapSim
/-!
# Goroutines that share only what they read
-/

namespace Sawmill
namespace Goro

/-- The addresses that a goroutine reaches from its own events and values. -/
def Locals.Reaches (h : Heap) (L : Locals) (a : Nat) : Prop := ∃ p, (p ∈ L.events ∨ p ∈ L.vals) ∧ Reach h p a

/-- Some address of a shared event. -/
def Env.Reaches (env : Env) (h : Heap) (a : Nat) : Prop := ∃ e ∈ env.shared, Reach h e a

/-- What two goroutines reach from their own events and values is disjoint, and disjoint from the shared events, up to values without parts. -/
structure Apart (env : Env) (h : Heap) (gs : List Locals) : Prop where
  inside : ∀ L ∈ gs, ∀ a, L.Reaches h a → a < h.length
  apart : ∀ (i j : Nat) (L M : Locals) (a : Nat), i ≠ j → gs[i]? = some L → gs[j]? = some M → L.Reaches h a → M.Reaches h a → h.Leaf a
  sharedInside : ∀ a, env.Reaches h a → a < h.length
  sharedApart : ∀ L ∈ gs, ∀ a, L.Reaches h a → env.Reaches h a → h.Leaf a
  seen : ∀ L ∈ gs, ∀ a, some a ∈ L.seen → env.Reaches h a

/-- The goroutine holds as many events and values, and sees the same in them. -/
structure SameSight (h : Heap) (L : Locals) (h' : Heap) (L' : Locals) : Prop where
  events : L.events.length = L'.events.length ∧ ∀ (i : Nat) (e e' : Event), L.events[i]? = some e → L'.events[i]? = some e' → ∀ F, Holds h e F ↔ Holds h' e' F
  vals : L.vals.length = L'.vals.length ∧ ∀ (i : Nat) (p p' : Ptr), L.vals[i]? = some p → L'.vals[i]? = some p' → ∀ v, Reads h p v ↔ Reads h' p' v

/-- Two memories with what a goroutine holds in them, equal up to where things are: `R` relates the addresses one to one, corresponding addresses hold the same up to `R`, and the goroutine holds corresponding pointers. Sharing and cycles correspond. -/
structure SameUpTo (R : Nat → Nat → Prop) (h : Heap) (L : Locals) (h' : Heap) (L' : Locals) : Prop where
  heaps : Sim R h h'
  events : PtrsSim R L.events L'.events
  vals : PtrsSim R L.vals L'.vals

end Goro
end Sawmill
