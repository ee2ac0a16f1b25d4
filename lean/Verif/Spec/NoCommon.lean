import Verif.Spec.Changed
/-!
# Events that share no objects (C113)
-/

namespace Sawmill

/-- Memory as Go has it: pointers are nil or point to something, and what is used as a map is one. -/
def Proper (h : Heap) : Prop :=
  NoDangling h ∧ ∀ (a : Nat) (c : Cell) (m : Nat), h[a]? = some (.cell c) → c.object = some m → ∃ es, h[m]? = some (.map es)

/-- There is no map to which one gets by names from the map `m` (an event's or an object's) and also from the map `m'`. -/
def NoCommon (h : Heap) (m m' : Option Nat) : Prop := ∀ d, (∃ path, Reaches h m path (some d)) → ¬ ∃ path, Reaches h m' path (some d)

/-- The same for the value a pointer points to. -/
def NoCommonValue (h : Heap) (v : Ptr) (m' : Option Nat) : Prop := ∀ c, deref h v = some c → NoCommon h c.object m'

/-- What a program does that works on the event `e` and knows of the event `e2`: it makes new values and maps out of what there is (even out of parts of `e2`), and calls the event API on `e`, but puts nothing into it from which one gets to a map to which one gets from `e2`. -/
inductive Works (e2 : Event) : Heap → Event → Heap → Event → Prop
  | nothing {h : Heap} {e : Event} : Works e2 h e h e
  | value {h h1 : Heap} {e e1 : Event} {c : Cell} : Works e2 h e h1 e1 → (∀ ps, c.array = some ps → ∀ q ∈ ps, InMemory h1 q) → (∀ m, c.object = some m → ∃ es, h1[m]? = some (.map es)) → Works e2 h e (h1 ++ [.cell c]) e1
  | map {h h1 : Heap} {e e1 : Event} {es : AMap Ptr} : Works e2 h e h1 e1 → (∀ k q, (k, q) ∈ es → InMemory h1 q) → Works e2 h e (h1 ++ [.map es]) e1
  | put {h h1 h2 : Heap} {e e1 e' : Event} {key : Bytes} {v old : Ptr} {err : Option PutErr} : Works e2 h e h1 e1 → InMemory h1 v → NoCommonValue h1 v e2 → apiPut h1 e1 key v = .ok (h2, e', old, err) → Works e2 h e h2 e'
  | tryPut {h h1 h2 : Heap} {e e1 e' : Event} {key : Bytes} {v old : Ptr} {err : Option PutErr} : Works e2 h e h1 e1 → InMemory h1 v → NoCommonValue h1 v e2 → apiTryPut h1 e1 key v = .ok (h2, e', old, err) → Works e2 h e h2 e'
  | get {h h1 h2 : Heap} {e e1 : Event} {key : Bytes} {p : Ptr} : Works e2 h e h1 e1 → apiGet h1 e1 key = .ok (h2, p) → Works e2 h e h2 e1
  | delete {h h1 h2 : Heap} {e e1 : Event} {key : Bytes} {p : Ptr} : Works e2 h e h1 e1 → apiDelete h1 e1 key = .ok (h2, p) → Works e2 h e h2 e1

end Sawmill
