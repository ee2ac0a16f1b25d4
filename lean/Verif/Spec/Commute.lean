import Verif.Spec.Pure
import Verif.Spec.Reorder
/-!
# Processors whose order does not matter
-/

namespace Sawmill
namespace Spec

/-- The fields a processor looks at. -/
def Step.reads : Step → List (List Bytes)
  | .lowercase field _ => [keyToPath field]
  | .uppercase field _ => [keyToPath field]
  | .append field _ => [keyToPath field]
  | .set .null copyFrom _ => if copyFrom = [] then [] else [keyToPath copyFrom]
  | .set _ _ _ => []
  | .remove => []
  | .communityId => []

/-- The fields a processor assigns. -/
def Step.writes : Step → List (List Bytes)
  | .lowercase field target => [keyToPath (if target = [] then field else target)]
  | .uppercase field target => [keyToPath (if target = [] then field else target)]
  | .append field _ => [keyToPath field]
  | .set _ _ target => [keyToPath target]
  | .remove => []
  | .communityId => []

mutual
/-- The fields that a processor or one of its on_failure processors looks at. -/
def Proc.reads : Proc → List (List Bytes)
  | .mk step _ _ onFailure => step.reads ++ readsAll onFailure
def readsAll : List Proc → List (List Bytes)
  | [] => []
  | p :: ps => p.reads ++ readsAll ps
end

mutual
/-- The fields that a processor or one of its on_failure processors assigns. -/
def Proc.writes : Proc → List (List Bytes)
  | .mk step _ _ onFailure => step.writes ++ writesAll onFailure
def writesAll : List Proc → List (List Bytes)
  | [] => []
  | p :: ps => p.writes ++ writesAll ps
end

/-- Neither field contains the other or is the other. -/
def Elsewhere (a b : List Bytes) : Prop := ¬ (a <+: b ∨ b <+: a)

/-- Neither processor assigns a field that the other one looks at or assigns. -/
def Proc.Independent (p q : Proc) : Prop :=
  (∀ a ∈ p.writes, ∀ b ∈ q.reads ++ q.writes, Elsewhere a b) ∧ (∀ a ∈ q.writes, ∀ b ∈ p.reads ++ p.writes, Elsewhere a b)

end Spec
end Sawmill
