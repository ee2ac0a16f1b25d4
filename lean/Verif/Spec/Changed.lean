import Verif.Spec.Panics
import Verif.Spec.Cycle
/-!
# What a change of one entry of one object is, and which keys come by it (C112)
-/

namespace Sawmill

/-- Memory `h'` is memory `h`, except that the entry `k` of the map at `d` may be another one (or be gone, or be new), and that new things may have been added behind. -/
def ChangedAt (h h' : Heap) (d : Nat) (k : Bytes) : Prop :=
  (∀ a, a < h.length → a ≠ d → h'[a]? = h[a]?) ∧
  ∃ es es', h[d]? = some (.map es) ∧ h'[d]? = some (.map es') ∧ ∀ k', k' ≠ k → AMap.lookup es' k' = AMap.lookup es k'

/-- Looking for the path in the event, one comes to the map at `d` and asks it for the name `k`. -/
def Asks (h : Heap) (e : Event) (path : List Bytes) (d : Nat) (k : Bytes) : Prop := ∃ pre rest, path = pre ++ k :: rest ∧ Reaches h e pre (some d)

/-- The map at `d` is that of the object `p` points to, or of an object somewhere in it. -/
def MapIn (h : Heap) (p : Ptr) (d : Nat) : Prop := ∃ r c, (r = p ∨ Within h p r) ∧ deref h r = some c ∧ c.type = .object ∧ c.object = some d

/-- `p` is `v` inside one object of one entry for each of the names, all of them at `start` or behind. -/
def Chain (start : Nat) (h : Heap) : Ptr → Ptr → List Bytes → Prop
  | p, v, [] => p = v
  | p, v, k :: ks => ∃ a m q, p = some a ∧ start ≤ a ∧ h[a]? = some (.cell (objCell (some m))) ∧ start ≤ m ∧ h[m]? = some (.map [(k, q)]) ∧ Chain start h q v ks

/-- Looking for the path in the event, one never asks the same map twice for the same name. -/
def Straight (h : Heap) (e : Event) (path : List Bytes) : Prop := ∀ pre k rest d, path = pre ++ k :: rest → Reaches h e pre (some d) → ¬ Asks h e pre d k

end Sawmill
