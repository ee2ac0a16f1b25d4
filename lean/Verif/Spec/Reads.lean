import Verif.Model.Heap
import Verif.Spec.Tree
/-!
# Reading trees out of a heap, and ownership

`Reads h p v`: following pointers from `p` in `h` one sees the finite tree `v` (sharing allowed).
`ATree` is a tree annotated with the addresses it occupies; `Rep h t` says the heap contains exactly that;
`ATree.fp` are the addresses of its mutable parts (maps and array structs).  An event *owns* its contents when
these addresses are pairwise distinct (no map or array is reachable in two ways).
-/

namespace Sawmill

/-- The struct built by the constructor of a leaf value. -/
def scalarCell : Scalar → Cell
  | .null => nullCell
  | .bool b => boolCell b
  | .int i => intCell i
  | .uint u => uintCell u
  | .float f => floatCell f
  | .str s => strCell s
  | .ts t => tsCell t

mutual
/-- The tree seen from a pointer. -/
def Reads (h : Heap) (p : Ptr) : Val → Prop
  | .nilp => p = none
  | .scalar s => deref h p = some (scalarCell s)
  | .arrNil => deref h p = some (arrCell none)
  | .arr vs => ∃ ps, deref h p = some (arrCell (some ps)) ∧ ReadsL h ps vs
  | .objNil => deref h p = some (objCell none)
  | .obj es => ∃ m ps, deref h p = some (objCell (some m)) ∧ h[m]? = some (.map ps) ∧ ReadsE h ps es
def ReadsL (h : Heap) : List Ptr → List Val → Prop
  | [], [] => True
  | p :: ps, v :: vs => Reads h p v ∧ ReadsL h ps vs
  | _, _ => False
def ReadsE (h : Heap) : List (Bytes × Ptr) → List (Bytes × Val) → Prop
  | [], [] => True
  | (k, p) :: ps, (k', v) :: vs => k = k' ∧ Reads h p v ∧ ReadsE h ps vs
  | _, _ => False
end

/-- The contents seen in an event. -/
def Holds (h : Heap) (e : Event) : Fields → Prop
  | none => e = none
  | some es => ∃ m ps, e = some m ∧ h[m]? = some (.map ps) ∧ ReadsE h ps es

/-- Trees annotated with addresses. -/
inductive ATree where
  | nilp
  | leaf (a : Nat) (s : Scalar)
  | arrNil (a : Nat)
  | arr (a : Nat) (vs : List ATree)
  | objNil (a : Nat)
  | obj (a m : Nat) (es : List (Bytes × ATree))

/-- The pointer to the root of a tree. -/
def ATree.ptr : ATree → Ptr
  | .nilp => none
  | .leaf a _ => some a
  | .arrNil a => some a
  | .arr a _ => some a
  | .objNil a => some a
  | .obj a _ _ => some a

mutual
/-- Forget the addresses. -/
def ATree.erase : ATree → Val
  | .nilp => .nilp
  | .leaf _ s => .scalar s
  | .arrNil _ => .arrNil
  | .arr _ vs => .arr (ATree.eraseL vs)
  | .objNil _ => .objNil
  | .obj _ _ es => .obj (ATree.eraseE es)
def ATree.eraseL : List ATree → List Val
  | [] => []
  | t :: ts => t.erase :: ATree.eraseL ts
def ATree.eraseE : List (Bytes × ATree) → List (Bytes × Val)
  | [] => []
  | (k, t) :: ts => (k, t.erase) :: ATree.eraseE ts
end

mutual
/-- Addresses of the mutable parts. -/
def ATree.fp : ATree → List Nat
  | .nilp => []
  | .leaf _ _ => []
  | .arrNil a => [a]
  | .arr a vs => a :: ATree.fpL vs
  | .objNil _ => []
  | .obj _ m es => m :: ATree.fpE es
def ATree.fpL : List ATree → List Nat
  | [] => []
  | t :: ts => t.fp ++ ATree.fpL ts
def ATree.fpE : List (Bytes × ATree) → List Nat
  | [] => []
  | (_, t) :: ts => t.fp ++ ATree.fpE ts
end

/-- The heap map holding the pointers of a list of named trees. -/
def ptrMap (es : AMap ATree) : AMap Ptr := es.mapVals ATree.ptr

mutual
/-- The heap holds the tree. -/
def Rep (h : Heap) : ATree → Prop
  | .nilp => True
  | .leaf a s => h[a]? = some (.cell (scalarCell s))
  | .arrNil a => h[a]? = some (.cell (arrCell none))
  | .arr a vs => h[a]? = some (.cell (arrCell (some (vs.map ATree.ptr)))) ∧ RepL h vs
  | .objNil a => h[a]? = some (.cell (objCell none))
  | .obj a m es => h[a]? = some (.cell (objCell (some m))) ∧ h[m]? = some (.map (ptrMap es)) ∧
      AMap.Sorted es ∧ RepE h es
def RepL (h : Heap) : List ATree → Prop
  | [] => True
  | t :: ts => Rep h t ∧ RepL h ts
def RepE (h : Heap) : List (Bytes × ATree) → Prop
  | [] => True
  | (_, t) :: ts => Rep h t ∧ RepE h ts
end

/-- A value owned by nobody else: the heap holds it and its mutable parts are pairwise distinct. -/
def OwnsVal (h : Heap) (t : ATree) : Prop := Rep h t ∧ t.fp.Nodup

/-- Contents of an event with addresses: the address of the event's map and the named trees in it. -/
abbrev AFields := Option (Nat × AMap ATree)

/-- Addresses of the mutable parts of an event. -/
def AFields.fp : AFields → List Nat
  | none => []
  | some (m, es) => m :: ATree.fpE es

def AFields.event : AFields → Event
  | none => none
  | some (m, _) => some m

def AFields.erase : AFields → Fields
  | none => none
  | some (_, es) => some (ATree.eraseE es)

/-- The event with these contents is in the heap and owns its contents. -/
def Owns (h : Heap) : AFields → Prop
  | none => True
  | some (m, es) => h[m]? = some (.map (ptrMap es)) ∧ AMap.Sorted es ∧ RepE h es ∧ (m :: ATree.fpE es).Nodup

end Sawmill
