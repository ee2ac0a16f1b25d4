import Verif.Model.Cli
/-!
# Memory without nil values

However it is connected: values may be shared, and may contain themselves.
-/

namespace Sawmill

/-- The pointer leads to a value. -/
def IsValue (h : Heap) (p : Ptr) : Prop := ∃ c, deref h p = some c

/-- There is a map at the address. -/
def IsMap (h : Heap) (m : Nat) : Prop := ∃ es, h[m]? = some (.map es)

/-- No nil: all items of arrays and all entries of maps lead to values, and every object has a map. -/
structure NoNils (h : Heap) : Prop where
  items : ∀ (a : Nat) (c : Cell) (ps : List Ptr), h[a]? = some (.cell c) → c.array = some ps → ∀ q ∈ ps, IsValue h q
  entries : ∀ (m : Nat) (es : AMap Ptr), h[m]? = some (.map es) → ∀ e ∈ es, IsValue h e.2
  objects : ∀ (a : Nat) (c : Cell), h[a]? = some (.cell c) → c.type = .object → ∃ m, c.object = some m
  maps : ∀ (a : Nat) (c : Cell) (m : Nat), h[a]? = some (.cell c) → c.object = some m → IsMap h m

/-- An event whose fields, if it has any, are in the memory (`event.New()` has none). -/
def IsEvent (h : Heap) (e : Event) : Prop := ∀ m, e = some m → IsMap h m

/-- Later memory: values are still values, and maps still maps (their contents may be different). -/
structure Later (h h' : Heap) : Prop where
  values : ∀ p, IsValue h p → IsValue h' p
  maps : ∀ m, IsMap h m → IsMap h' m

/-- The call returns, and what it returns satisfies `P`. -/
def Returns {α : Type} (P : α → Prop) : Res α → Prop
  | .ok a => P a
  | .panic => False

/-- The value configured for a `set` processor is in the memory. -/
def Builtin.Ready (h : Heap) : Builtin → Prop
  | .set v _ _ => IsValue h (some v)
  | _ => True

mutual
/-- JSON in which `null` occurs nowhere. -/
def Json.NoNull : Json → Prop
  | .null => False
  | .arr js => Json.NoNullL js
  | .obj es => Json.NoNullE es
  | _ => True
def Json.NoNullL : List Json → Prop
  | [] => True
  | j :: js => j.NoNull ∧ Json.NoNullL js
def Json.NoNullE : List (Bytes × Json) → Prop
  | [] => True
  | (_, j) :: es => j.NoNull ∧ Json.NoNullE es
end

end Sawmill
