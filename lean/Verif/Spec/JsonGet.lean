import Verif.Spec.Json
/-!
# The JSON of an event and what is at a path: the words of C109
-/

namespace Sawmill.Rfc

/-- `j` is what the name `k` stands for among the entries of an object: if the name occurs several times, the last occurrence counts. -/
def LastAt (es : List (Bytes × Json)) (k : Bytes) (j : Json) : Prop := ∃ pre post, es = pre ++ (k, j) :: post ∧ ∀ e ∈ post, e.1 ≠ k

/-- `j` is what an object has at a path: name after name, through objects. -/
inductive JsonAt : List (Bytes × Json) → List Bytes → Json → Prop where
  | here {es : List (Bytes × Json)} {k : Bytes} {j : Json} : LastAt es k j → JsonAt es [k] j
  | inside {es fs : List (Bytes × Json)} {k k' : Bytes} {ks : List Bytes} {j : Json} : LastAt es k (.obj fs) → JsonAt fs (k' :: ks) j → JsonAt es (k :: k' :: ks) j

/-- Some proper part of the path leads to a `null`. -/
def NullBefore (es : List (Bytes × Json)) (path : List Bytes) : Prop := ∃ p q, path = p ++ q ∧ q ≠ [] ∧ JsonAt es p .null

end Sawmill.Rfc

namespace Sawmill
open Rfc

mutual
/-- The names of fields, at every depth, are valid UTF-8. -/
def Val.ValidNames : Val → Prop
  | .arr vs => Val.ValidNamesL vs
  | .obj es => Val.ValidNamesE es
  | _ => True
def Val.ValidNamesL : List Val → Prop
  | [] => True
  | v :: vs => v.ValidNames ∧ Val.ValidNamesL vs
def Val.ValidNamesE : List (Bytes × Val) → Prop
  | [] => True
  | (k, v) :: es => ValidUtf8 k ∧ v.ValidNames ∧ Val.ValidNamesE es
end

end Sawmill
