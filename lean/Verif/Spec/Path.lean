import Verif.Model.Path
/-!
# What a key means, declaratively

A key is a byte string.  Backslashes are never part of a name.  A dot is a *separator* unless the byte
just before it is a backslash, in which case it is an ordinary character of a name.  The components of
the key are the non-empty stretches between separators.
-/

namespace Sawmill.Spec

/-- Bytes of the key paired with the byte before them (if any). -/
def withPrev (key : Bytes) : List (Option UInt8 × UInt8) := (none :: key.map some).zip key

/-- The tokens of a key: `none` is a separator, `some c` an ordinary character. -/
def tokens (key : Bytes) : List (Option UInt8) :=
  (withPrev key).filterMap fun (prev, c) =>
    if c = bsl then none
    else if c = dot ∧ prev ≠ some bsl then some none
    else some (some c)

/-- Stretches of characters between separators. -/
def stretches : List (Option UInt8) → List Bytes
  | [] => [[]]
  | none :: ts => [] :: stretches ts
  | some c :: ts =>
    match stretches ts with
    | [] => [[c]]
    | h :: t => (c :: h) :: t

/-- The components a key denotes. -/
def components (key : Bytes) : List Bytes := (stretches (tokens key)).filter (· ≠ [])

/-- The key for a list of names: escape every name and join with dots. -/
def joinKey : List Bytes → Bytes
  | [] => []
  | [n] => escapeKey n
  | n :: ns => escapeKey n ++ [dot] ++ joinKey ns

/-- Names that can be addressed by a key: non-empty, without backslash. -/
def GoodName (n : Bytes) : Prop := n ≠ [] ∧ bsl ∉ n

instance (n : Bytes) : Decidable (GoodName n) := by unfold GoodName; infer_instance

end Sawmill.Spec
