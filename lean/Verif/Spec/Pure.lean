import Verif.Spec.Processors
/-!
# A pipeline as a function on nested maps

What a pipeline of the repository's processors does to the contents of an event: no heap, no pointers, no counters. `shares`: a `copy_from` has met an array or an object, which is from then on shared by two fields; contents alone do not say what happens after that
(C16).
-/

namespace Sawmill
namespace Spec

inductive Run (α : Type) where
  | crash
  | shares
  | done (x : α)

/-- A configured processor. -/
inductive Step where
  | lowercase (field target : Bytes)
  | uppercase (field target : Bytes)
  | set (value : Scalar) (copyFrom target : Bytes)
  | append (field value : Bytes)
  | remove
  | communityId

/-- An outcome that does not depend on sharing. -/
def Run.of {α : Type} : Res α → Run α
  | .panic => .crash
  | .ok x => .done x

/-- What a processor does: the new contents, and the error. -/
def Step.apply (cv : Conv) : Step → Fields → Run (Fields × Option PErr)
  | .lowercase field target, f => .of (convert cv.lower (lit "value to lowercase is not a string") field target f)
  | .uppercase field target, f => .of (convert cv.upper (lit "value to uppercase is not a string") field target f)
  | .append field value, f => .of (Spec.append field value f)
  | .remove, f => .done (f, none)
  | .communityId, f => .done (f, none)
  | .set .null copyFrom target, f =>
    if copyFrom = [] then .of (putP f target .nilp)
    else match getFields f (keyToPath copyFrom) with
      | .panic => .crash
      | .ok .nilp => .done (f, some (.missing copyFrom))
      | .ok (.scalar s) => .of (putP f target (.scalar s))
      | .ok _ => .shares
  | .set s _ target, f => .of (putP f target (.scalar s))

/-- A processor with its options and its on_failure processors. -/
inductive Proc where
  | mk (step : Step) (ignoreFailure ignoreMissing : Bool) (onFailure : List Proc)

def PErr.isMissing : PErr → Bool
  | .missing _ => true
  | .other _ => false

mutual
/-- A missing-key error is dropped if it is to be ignored. Any other error is handed to the on_failure processors, if there are any; what is left of it is dropped if failures are to be ignored. -/
def Proc.apply (cv : Conv) : Proc → Fields → Run (Fields × Option PErr)
  | .mk step ignoreFailure ignoreMissing onFailure, f =>
    match step.apply cv f with
    | .crash => .crash
    | .shares => .shares
    | .done (f, none) => .done (f, none)
    | .done (f, some err) =>
      if ignoreMissing && err.isMissing then .done (f, none)
      else if onFailure.isEmpty then .done (f, if ignoreFailure then none else some err)
      else match applyAll cv onFailure f with
        | .crash => .crash
        | .shares => .shares
        | .done (f, err) => .done (f, if ignoreFailure then none else err)
/-- One after another, up to the first error. -/
def applyAll (cv : Conv) : List Proc → Fields → Run (Fields × Option PErr)
  | [], f => .done (f, none)
  | p :: ps, f =>
    match p.apply cv f with
    | .crash => .crash
    | .shares => .shares
    | .done (f, some err) => .done (f, some err)
    | .done (f, none) => applyAll cv ps f
end

/-- A pipeline: its processors and its global on_failure processors. -/
structure Pipe where
  processors : List Proc
  onFailure : List Proc

/-- What a pipeline does. -/
def Pipe.apply (cv : Conv) (p : Pipe) (f : Fields) : Run (Fields × Option PErr) :=
  match applyAll cv p.processors f with
  | .done (f, some err) => if p.onFailure.isEmpty then .done (f, some err) else applyAll cv p.onFailure f
  | r => r

end Spec

/-! ## Which pipeline of the program is meant -/

/-- The processor `b` is configured like this; the value of a `set` is in the memory `h`. -/
def StepIs (h : Heap) : Builtin → Spec.Step → Prop
  | .lowercase f t, s => s = .lowercase f t
  | .uppercase f t, s => s = .uppercase f t
  | .set v c t, s => ∃ x, s = .set x c t ∧ h[v]? = some (.cell (scalarCell x))
  | .append f v _, s => s = .append f v
  | .remove _, s => s = .remove
  | .communityId, s => s = .communityId

mutual
def ProcIs (h : Heap) : Node Builtin (Option Err) → Spec.Proc → Prop
  | .mk _ _ ignF ignM onF proc, q => ∃ b step qs, proc = b.prog ∧ StepIs h b step ∧ q = .mk step ignF ignM qs ∧ ProcsAre h onF qs
def ProcsAre (h : Heap) : List (Node Builtin (Option Err)) → List Spec.Proc → Prop
  | [], qs => qs = []
  | n :: ns, qs => ∃ q r, qs = q :: r ∧ ProcIs h n q ∧ ProcsAre h ns r
end

/-- The pipeline `p` is configured like `q`. -/
def PipeIs (h : Heap) (p : Pipeline Builtin (Option Err)) (q : Spec.Pipe) : Prop := ProcsAre h p.processors q.processors ∧ ProcsAre h p.onFailure q.onFailure

end Sawmill
