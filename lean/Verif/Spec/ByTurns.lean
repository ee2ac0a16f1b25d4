import Verif.Spec.WorksToo
/-!
# Two events worked on by turns (C119)
-/

namespace Sawmill

/-- Two programs (or goroutines that do not call at the same moment) work by turns, one on its event, the other on its own. -/
inductive ByTurns (cv : Conv) : Heap → Event → Event → Heap → Event → Event → Prop
  | nothing {h : Heap} {e1 e2 : Event} : ByTurns cv h e1 e2 h e1 e2
  | first {h h1 h2 : Heap} {e1 e2 a1 a2 a1' : Event} : ByTurns cv h e1 e2 h1 a1 a2 → WorksToo cv a2 h1 a1 h2 a1' → ByTurns cv h e1 e2 h2 a1' a2
  | second {h h1 h2 : Heap} {e1 e2 a1 a2 a2' : Event} : ByTurns cv h e1 e2 h1 a1 a2 → WorksToo cv a1 h1 a2 h2 a2' → ByTurns cv h e1 e2 h2 a1 a2'

/-- The event `e` is not disturbed between `h` and `h'`: with every key `Get` panics if it did, and otherwise returns the same `*Value`, which is as it was except that a list may be longer. -/
def Undisturbed (h h' : Heap) (e : Event) : Prop :=
  ∀ key, keyToPath key ≠ [] → (apiGet h e key = .panic ∧ apiGet h' e key = .panic) ∨ ∃ q, apiGet h e key = .ok (h, q) ∧ apiGet h' e key = .ok (h', q) ∧ ∀ c, deref h q = some c → ∃ c', deref h' q = some c' ∧ Longer c c'

/-- Any number of workers, each with an event. A worker works on its event in any of the ways of `WorksToo`; it throws its event away and begins with a new one; or it takes the event of another worker, who begins with a new one. -/
inductive ManyTurns (cv : Conv) {W : Type} [DecidableEq W] : Heap → (W → Event) → Heap → (W → Event) → Prop
  | nothing {h : Heap} {ev : W → Event} : ManyTurns cv h ev h ev
  | work {h h1 h2 : Heap} {ev ev1 : W → Event} {e' : Event} (i : W) : ManyTurns cv h ev h1 ev1 → (∀ j, j ≠ i → WorksToo cv (ev1 j) h1 (ev1 i) h2 e') → ManyTurns cv h ev h2 (fun k => if k = i then e' else ev1 k)
  | renew {h h1 : Heap} {ev ev1 : W → Event} (i : W) : ManyTurns cv h ev h1 ev1 → ManyTurns cv h ev h1 (fun k => if k = i then newEvent else ev1 k)
  | take {h h1 : Heap} {ev ev1 : W → Event} (i j : W) : ManyTurns cv h ev h1 ev1 → ManyTurns cv h ev h1 (fun k => if k = j then newEvent else if k = i then ev1 j else ev1 k)

end Sawmill
