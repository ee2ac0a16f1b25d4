import Verif.Model.Processors
import Verif.Spec.History
/-!
# Sending several events, one after another, through one pipeline
-/

namespace Sawmill

/-- Every data call that the processor, or a processor below it, can make satisfies `P`. -/
def Prog.Calls {A R : Type} (P : A → Prop) : Prog A R → Prop
  | .done _ => True
  | .cancel k => Prog.Calls P k
  | .drop k => Prog.Calls P k
  | .call a k => P a ∧ ∀ r, Prog.Calls P (k r)

mutual
def Node.Calls {A R : Type} (P : A → Prop) : Node A R → Prop
  | .mk _ _ _ _ onF proc => proc.Calls P ∧ Node.CallsAll P onF
def Node.CallsAll {A R : Type} (P : A → Prop) : List (Node A R) → Prop
  | [] => True
  | n :: ns => Node.Calls P n ∧ Node.CallsAll P ns
end

def Pipeline.Calls {A R : Type} (P : A → Prop) (p : Pipeline A R) : Prop := Node.CallsAll P p.processors ∧ Node.CallsAll P p.onFailure

/-- A new event with the given contents: `event.New()` and its fields, built from scratch. -/
def buildEvent (h : Heap) : Fields → Heap × Event
  | none => (h, none)
  | some es =>
    let (h1, ts) := buildE h es
    let (h2, m) := h1.alloc (.map (ptrMap ts))
    (h2, some m)

/-- What the caller of `Process` gets: the event (if one is returned), the error, and where the event's data now is. -/
structure Handled where
  returned : Option Unit
  err : Option Err
  heap : Heap
  event : Event

/-- A new event is made and given to `Process`. -/
def handle (cv : Conv) (p : Pipeline Builtin (Option Err)) (w : PWorld Heap) (F : Fields) : Res (PWorld Heap × Handled) :=
  match p.process (builtinCall cv) () ⟨buildEvent w.world F, w.counts, w.log⟩ with
  | .panic => .panic
  | .ok (w', ret, err) => .ok (⟨w'.world.1, w'.counts, w'.log⟩, ⟨ret, err, w'.world.1, w'.world.2⟩)

/-- Events, one after another, through the same pipeline. -/
def handleMany (cv : Conv) (p : Pipeline Builtin (Option Err)) (w : PWorld Heap) : List Fields → Res (PWorld Heap)
  | [] => .ok w
  | F :: Fs => match handle cv p w F with
    | .panic => .panic
    | .ok (w', _) => handleMany cv p w' Fs

/-- The caller sees the same: an event or none, the same error, and the same contents. -/
def Handled.Same (a b : Handled) : Prop :=
  a.returned = b.returned ∧ a.err = b.err ∧ ∀ G : Fields, Holds a.heap a.event G ↔ Holds b.heap b.event G

/-- Both panic, or both return and the caller sees the same. -/
def SameOutcome : Res (PWorld Heap × Handled) → Res (PWorld Heap × Handled) → Prop
  | .panic, .panic => True
  | .ok x, .ok y => x.2.Same y.2
  | _, _ => False

/-- The value configured for a `set` processor, if any, is in `h` and is a leaf: not an array or an object. -/
def Builtin.LeafConfig (h : Heap) : Builtin → Prop
  | .set v _ _ => ∃ s : Scalar, h[v]? = some (.cell (scalarCell s))
  | _ => True

end Sawmill
