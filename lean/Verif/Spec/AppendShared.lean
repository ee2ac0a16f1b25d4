import Verif.Spec.StepChange
/-!
# eventutil.Append when values are shared (C117)
-/

namespace Sawmill

/-- Everything but the list at `a` is as it was: the same, or a map with the same entries. -/
def SameBut (h h' : Heap) (a : Nat) : Prop := ∀ b, b < h.length → b ≠ a → h'[b]? = h[b]? ∨ ∃ es es', h[b]? = some (.map es) ∧ h'[b]? = some (.map es') ∧ ∀ k, AMap.lookup es' k = AMap.lookup es k

/-- The items that `Append` of the value `c`, which is at `i`, appends. -/
def appendItems (i : Nat) (c : Cell) : List Ptr := if c.type = .array then c.array.getD [] else [some i]

/-- The list `c` with the items. -/
def withItems (c : Cell) (items : List Ptr) : Cell := if items = [] then c else { c with array := some (c.array.getD [] ++ items) }

/-- What `Append` puts before the items: nothing, or the value that `Get` found. -/
def before (p : Ptr) : List Ptr := if p = none then [] else [p]

end Sawmill
