import Verif.Spec.Commute
/-!
# Calls beside a pipeline
-/

namespace Sawmill

/-- A call in another place than the fields that the pipeline names: a `Get` elsewhere than the fields that are assigned; any other call elsewhere than those and the fields that are looked at. -/
def Call.Beside (c : Call) (q : Spec.Pipe) : Prop :=
  (∀ b ∈ Spec.writesAll (q.processors ++ q.onFailure), Spec.Elsewhere c.area b) ∧ (c.isGet = false → ∀ b ∈ Spec.readsAll (q.processors ++ q.onFailure), Spec.Elsewhere c.area b)

/-- What a client sees who makes calls on an event and has it processed. -/
structure Seen where
  heap : Heap
  event : Event
  answers : List Ret
  returned : Option Unit
  error : Option Err

/-- First the calls, then `Process`. -/
def callsFirst (cv : Conv) (p : Pipeline Builtin (Option Err)) (cs : List Call) (h : Heap) (e : Event) (counts : Counters) (log : List Invocation) : Res Seen :=
  match World.run ⟨h, [e]⟩ (cs.map fun c => (0, c)) with
  | .panic => .panic
  | .ok (w, answers) =>
    match p.process (builtinCall cv) () ⟨(w.heap, (w.events[0]?).getD none), counts, log⟩ with
    | .panic => .panic
    | .ok (w, ret, err) => .ok ⟨w.world.1, w.world.2, answers, ret, err⟩

/-- First `Process`, then the calls (on the event that was given to `Process`). -/
def processFirst (cv : Conv) (p : Pipeline Builtin (Option Err)) (cs : List Call) (h : Heap) (e : Event) (counts : Counters) (log : List Invocation) : Res Seen :=
  match p.process (builtinCall cv) () ⟨(h, e), counts, log⟩ with
  | .panic => .panic
  | .ok (w, ret, err) =>
    match World.run ⟨w.world.1, [w.world.2]⟩ (cs.map fun c => (0, c)) with
    | .panic => .panic
    | .ok (w, answers) => .ok ⟨w.heap, (w.events[0]?).getD none, answers, ret, err⟩

/-- The same contents, the same answers, the same returned, the same error (its text, and whether it says that a key is missing). -/
def Seen.Alike (s t : Seen) : Prop :=
  (∃ F, Holds s.heap s.event F ∧ Holds t.heap t.event F) ∧ (∃ rs, AllShow s.answers rs ∧ AllShow t.answers rs) ∧ s.returned = t.returned ∧
  s.error.map Err.text = t.error.map Err.text ∧ s.error.map Err.isMissing = t.error.map Err.isMissing

/-- Both panic, or both end alike. -/
def BothAlike : Res Seen → Res Seen → Prop
  | .panic, .panic => True
  | .ok s, .ok t => s.Alike t
  | _, _ => False

end Sawmill
