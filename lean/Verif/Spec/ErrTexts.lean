import Verif.Spec.Pure
/-!
# What errors may say

The texts of the errors that a pipeline may return, from its configuration alone.
-/

namespace Sawmill
namespace Spec

/-- A missing field. -/
def missingText (field : Bytes) : Bytes := lit "key <" ++ field ++ lit "> is missing from event"

/-- A `Put` to this key. -/
def putTexts (key : Bytes) : List Bytes :=
  if keyToPath key = [] then [lit "event put failed: key name is empty"]
  else [lit "event put failed for path <" ++ slashed (keyToPath key) ++ lit ">: target key is not an object"]

/-- What a processor may say, with the information whether it is about a missing field. -/
def Step.texts : Step → List (Bool × Bytes)
  | .lowercase field target => (true, missingText field) :: (false, lit "value to lowercase is not a string") :: (putTexts (if target = [] then field else target)).map (false, ·)
  | .uppercase field target => (true, missingText field) :: (false, lit "value to uppercase is not a string") :: (putTexts (if target = [] then field else target)).map (false, ·)
  | .append _ _ => [(false, lit "value to append to is not array")]
  | .set .null copyFrom target => (if copyFrom = [] then [] else [(true, missingText copyFrom)]) ++ (putTexts target).map (false, ·)
  | .set _ _ target => (putTexts target).map (false, ·)
  | .remove => []
  | .communityId => []

mutual
/-- Nothing if failures are ignored; else what the on_failure processors may say, if there are any. -/
def Proc.texts : Proc → List (Bool × Bytes)
  | .mk step ignoreFailure ignoreMissing onFailure =>
    if ignoreFailure then []
    else if onFailure.isEmpty then step.texts.filter fun t => !(ignoreMissing && t.1)
    else textsAll onFailure
def textsAll : List Proc → List (Bool × Bytes)
  | [] => []
  | p :: ps => p.texts ++ textsAll ps
end

/-- What the error of a pipeline may say. -/
def Pipe.texts (q : Pipe) : List Bytes := (textsAll (if q.onFailure.isEmpty then q.processors else q.onFailure)).map (·.2)

end Spec
end Sawmill
