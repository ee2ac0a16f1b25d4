import Verif.Spec.Pure
/-!
# What a pipeline does with a nil event

There is nothing that could be read or written: a processor that wants to crashes.
-/

namespace Sawmill
namespace Spec

/-- How something ends that is given a nil event. -/
inductive OnNil where
  | crash
  | fails
  | ok
deriving DecidableEq

/-- `set` refuses an empty key before it looks at the event, and without a value and a source it does not look at it at all. -/
def Step.onNil : Step → OnNil
  | .lowercase _ _ => .crash
  | .uppercase _ _ => .crash
  | .append _ _ => .crash
  | .remove => .ok
  | .communityId => .ok
  | .set .null copyFrom target => if copyFrom ≠ [] then .crash else if keyToPath target = [] then .fails else .ok
  | .set _ _ target => if keyToPath target = [] then .fails else .crash

def OnNil.ignored (ignore : Bool) : OnNil → OnNil
  | .fails => if ignore then .ok else .fails
  | r => r

mutual
/-- If it fails, the on_failure processors (if any) get the nil event, and the failure is theirs. -/
def Proc.onNil : Proc → OnNil
  | .mk step ignoreFailure _ onFailure =>
    match step.onNil with
    | .crash => .crash
    | .ok => .ok
    | .fails => (if onFailure.isEmpty then .fails else allOnNil onFailure).ignored ignoreFailure
/-- One after another, up to the first failure or crash. -/
def allOnNil : List Proc → OnNil
  | [] => .ok
  | p :: ps =>
    match p.onNil with
    | .ok => allOnNil ps
    | r => r
end

def Pipe.onNil (p : Pipe) : OnNil :=
  match allOnNil p.processors with
  | .fails => if p.onFailure.isEmpty then .fails else allOnNil p.onFailure
  | r => r

end Spec
end Sawmill
