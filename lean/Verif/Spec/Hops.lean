import Verif.Model.Convert
import Verif.Model.Reflect
import Verif.Spec.Convert
import Verif.Spec.Path
import Verif.Spec.Reflect
/-!
# Events that travel
-/

namespace Sawmill
open Wire Spec

/-- One trip of an event: to protobuf bytes and back (whatever order the maps are iterated in; the receiver has a heap of its own), or to a Go map and back. -/
inductive Trip : Heap × Event → Heap × Event → Prop
  | wire {w : Heap × Event} {N : Nat} {m m' m'' : PWrapper} {bs : Bytes} {nul : Ptr} {h2 h3 : Heap} {e3 : Event} :
    (∀ n, N ≤ n → fromEvent n w.1 w.2 = .ok m) → SameMessage m m' → marshal m' = .ok bs → unmarshal bs = .ok m'' → IsNull h2 nul → toLogEvent nul m''.getLog h2 = .ok (h3, some e3) → Trip w (h3, e3)
  | goMap {w : Heap × Event} {N : Nat} {text : GoTime → Bytes} {m : Option (List (Bytes × GIface))} {env : REnv} {order : List (Bytes × Ptr) → List (Bytes × Ptr)} {h2 h3 : Heap} {e3 : Event} :
    (∀ n, N ≤ n → mapFromEvent text n w.1 w.2 = some (.ok m)) → IsNull h2 env.nul → (∀ l, (order l).Perm l) → mapToEvent env order (m.getD []) h2 = .ok (h3, e3) → Trip w (h3, e3)

/-- That many trips, one after the other, of either kind. -/
inductive Trips : Nat → Heap × Event → Heap × Event → Prop
  | zero {w : Heap × Event} : Trips 0 w w
  | succ {n : Nat} {w w' w'' : Heap × Event} : Trips n w w' → Trip w' w'' → Trips (n + 1) w w''

/-- A name with that many backslashes in front of every dot. -/
def stuff (n : Nat) (k : Bytes) : Bytes := k.flatMap fun b => if b = dot then List.replicate n bsl ++ [dot] else [b]

mutual
/-- A value in which the names inside objects have that many more backslashes in front of every dot, and nil slices and nil maps are empty ones. -/
def Val.stuffed (n : Nat) : Val → Val
  | .nilp => .nilp
  | .scalar s => .scalar s
  | .arrNil => .arr []
  | .arr vs => .arr (Val.stuffedL n vs)
  | .objNil => .obj []
  | .obj es => .obj (AMap.ofEntries (Val.stuffedE n es) [])
def Val.stuffedL (n : Nat) : List Val → List Val
  | [] => []
  | v :: vs => Val.stuffed n v :: Val.stuffedL n vs
def Val.stuffedE (n : Nat) : List (Bytes × Val) → List (Bytes × Val)
  | [] => []
  | (k, v) :: es => (stuff n k, Val.stuffed n v) :: Val.stuffedE n es
end

/-- The contents after that many trips: top-level names stay. -/
def carried : Nat → AMap Val → AMap Val
  | 0, es => es
  | n + 1, es => es.map fun e => (e.1, e.2.stuffed (n + 1))

mutual
/-- How many dots there are in the names inside objects. -/
def Val.dots : Val → Nat
  | .arr vs => Val.dotsL vs
  | .obj es => Val.dotsE es
  | _ => 0
def Val.dotsL : List Val → Nat
  | [] => 0
  | v :: vs => v.dots + Val.dotsL vs
def Val.dotsE : List (Bytes × Val) → Nat
  | [] => 0
  | (k, v) :: es => k.count dot + v.dots + Val.dotsE es
end

/-- The same for an event: its top-level names are not inside an object. -/
def dotsInside (es : AMap Val) : Nat := (es.map fun e => e.2.dots).sum

/-- What can travel: at least one field, no nils in place of values, top-level names that are not empty and have no backslash (and objects are maps, listed in the order of their distinct names). -/
structure CanTravel (es : AMap Val) : Prop where
  sorted : AMap.Sorted es
  canon : Val.CanonE es
  solid : Val.SolidE es
  nonempty : es ≠ []
  names : ∀ e ∈ es, GoodName e.1

/-- Every message on the way is short enough for its length to be counted. -/
def FitsFor (n : Nat) (es : AMap Val) : Prop := ∀ j, j < n → sizeWrapper (messageOf (some (carried j es))) < 2 ^ 63 - 8

end Sawmill
