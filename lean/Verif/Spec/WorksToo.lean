import Verif.Spec.ProcessBeside
import Verif.Spec.Reuse
/-!
# All the work on one of two events (C118)
-/

namespace Sawmill

/-- What a program does that works on the event `e` and knows of the event `e2`: what it does in `Works` (new values and maps, `Put`, `TryPut`, `Get`, `Delete`), and also `eventutil.Append` of anything to a field of `e`, and `Process` of `e` by pipelines of the repository's processors whose configured values have no map in common with `e2`. -/
inductive WorksToo (cv : Conv) (e2 : Event) : Heap → Event → Heap → Event → Prop
  | nothing {h : Heap} {e : Event} : WorksToo cv e2 h e h e
  | calls {h h1 h2 : Heap} {e e1 e' : Event} : WorksToo cv e2 h e h1 e1 → Works e2 h1 e1 h2 e' → WorksToo cv e2 h e h2 e'
  | append {h h1 h2 : Heap} {e e1 e' : Event} {key : Bytes} {item : Ptr} {err : Option PutErr} : WorksToo cv e2 h e h1 e1 → InMemory h1 item → utilAppend h1 e1 key item = .ok (h2, e', err) → WorksToo cv e2 h e h2 e'
  | process {h h1 h2 : Heap} {e e1 e' : Event} {p : Pipeline Builtin (Option Err)} {counts counts' : Counters} {log log' : List Invocation} {r : Option Unit × Option Err} : WorksToo cv e2 h e h1 e1 → p.Calls (Builtin.ValueApart h1 e2) →
      p.process (builtinCall cv) () ⟨(h1, e1), counts, log⟩ = .ok (⟨(h2, e'), counts', log'⟩, r) → WorksToo cv e2 h e h2 e'

end Sawmill
