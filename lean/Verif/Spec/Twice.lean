import Verif.Spec.Commute
/-!
# Processors that may see an event twice
-/

namespace Sawmill
namespace Spec

/-- What a processor reads it does not change, or else a second change makes no difference. `append` is not among these. -/
def Step.Repeatable (cv : Conv) : Step → Prop
  | .lowercase field target => Elsewhere (keyToPath field) (keyToPath (if target = [] then field else target)) ∨ keyToPath field = keyToPath (if target = [] then field else target) ∧ ∀ s, cv.lower (cv.lower s) = cv.lower s
  | .uppercase field target => Elsewhere (keyToPath field) (keyToPath (if target = [] then field else target)) ∨ keyToPath field = keyToPath (if target = [] then field else target) ∧ ∀ s, cv.upper (cv.upper s) = cv.upper s
  | .set _ copyFrom target => copyFrom = [] ∨ Elsewhere (keyToPath copyFrom) (keyToPath target) ∨ keyToPath copyFrom = keyToPath target
  | .append _ _ => False
  | .remove => True
  | .communityId => True

mutual
/-- Likewise the on_failure processors, and these leave alone what the others use. -/
def Proc.Repeatable (cv : Conv) : Proc → Prop
  | .mk step _ _ onFailure => step.Repeatable cv ∧ RepeatableAll cv onFailure ∧ onFailure.Pairwise Proc.Independent ∧ ∀ p ∈ onFailure, (Proc.mk step false false []).Independent p
def RepeatableAll (cv : Conv) : List Proc → Prop
  | [] => True
  | p :: ps => p.Repeatable cv ∧ RepeatableAll cv ps
end

/-- The processors of a pipeline may see an event twice. -/
def Pipe.Repeatable (cv : Conv) (q : Pipe) : Prop := RepeatableAll cv q.processors ∧ RepeatableAll cv q.onFailure ∧ (q.processors ++ q.onFailure).Pairwise Proc.Independent

end Spec
end Sawmill
