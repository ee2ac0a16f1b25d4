import Verif.Model.Path
import Verif.Base.AMap
/-!
# Events as nested maps

The specification of the event API: a value is a finite tree, an event is a map from names to values, and
each call is a short recursive function on such maps.  No pointers, no sharing.

`nilp` is Go's nil `*Value` (the decoders can store one), `arrNil`/`objNil` hold a nil slice/map.
-/

namespace Sawmill

/-- Leaf values. -/
inductive Scalar where
  | null
  | bool (b : Bool)
  | int (i : BitVec 64)
  | uint (u : BitVec 64)
  | float (bits : BitVec 64)
  | str (s : Bytes)
  | ts (nanos : BitVec 64)
deriving DecidableEq, Repr

/-- Values as trees. -/
inductive Val where
  | nilp
  | scalar (s : Scalar)
  | arrNil
  | arr (vs : List Val)
  | objNil
  | obj (es : List (Bytes × Val))
deriving Repr

/-- Is it Go's nil? -/
def Val.isNil : Val → Bool
  | .nilp => true
  | _ => false

/-- The contents of an event; `none` is an event whose map was never made. -/
abbrev Fields := Option (AMap Val)

namespace Spec

/-- What `Get` sees at a path below a map: `nilp` when there is nothing.  Reading below a nil value panics. -/
def get (m : AMap Val) : List Bytes → Res Val
  | [] => .ok .nilp
  | [k] => .ok ((m.lookup k).getD .nilp)
  | k :: ks =>
    match m.lookup k with
    | some (.obj es) => get es ks
    | some .nilp => .panic
    | _ => .ok .nilp

/-- What is seen below a value at a non-empty path. -/
def below (v : Val) (path : List Bytes) : Res Val :=
  match v with
  | .obj es => get es path
  | .nilp => .panic
  | _ => .ok .nilp

/-- Outcome of storing a value at a path below a map: the new map, or `none` when a name on the way is not an object.
Storing below a nil value or a nil object panics. -/
def store (m : AMap Val) : List Bytes → Val → Res (Option (AMap Val))
  | [], _ => .ok (some m)
  | [k], v => .ok (some (m.insert k v))
  | k :: ks, v =>
    match m.lookup k with
    | none => (store [] ks v).map (·.map fun es => m.insert k (.obj es))
    | some (.obj es) => (store es ks v).map (·.map fun es' => m.insert k (.obj es'))
    | some .nilp => .panic
    | some .objNil => .panic
    | some _ => .ok none

/-- Removing a path below a map (what `Delete` is documented to do). -/
def remove (m : AMap Val) : List Bytes → AMap Val
  | [] => m
  | [k] => m.erase k
  | k :: ks =>
    match m.lookup k with
    | some (.obj es) => m.insert k (.obj (remove es ks))
    | _ => m

/-- `Get` of a whole event: the root read gives the event as an object, unless it is empty. -/
def getFields (f : Fields) (path : List Bytes) : Res Val :=
  let m := f.getD []
  if m = [] then .ok .nilp
  else if path = [] then .ok (.obj m)
  else get m path

/-- Errors of Put and TryPut. -/
inductive Error where
  | emptyKey | keyExists | notObject
deriving DecidableEq, Repr

/-- `Put` (`overwrite`) and `TryPut`: new contents, returned value, error. -/
def putFields (f : Fields) (path : List Bytes) (v : Val) (overwrite : Bool) : Res (Fields × Val × Option Error) :=
  if path = [] then .ok (f, .nilp, some .emptyKey)
  else if v.isNil then .ok (f, .nilp, none)
  else do
    let old ← getFields f path
    if !old.isNil && !overwrite then .ok (f, old, some .keyExists)
    else match ← store (f.getD []) path v with
      | some m => .ok (some m, old, none)
      | none => .ok (f, .nilp, some .notObject)

/-- `Delete` as the code does it: the whole top-level entry goes. -/
def deleteFields (f : Fields) (path : List Bytes) : Res (Fields × Val) :=
  match path with
  | [] => .ok (f, .nilp)
  | k :: _ => do
    let old ← getFields f path
    if old.isNil then .ok (f, old) else .ok (f.map (·.erase k), old)

end Spec

mutual
/-- No nil value or nil object is stored under a name, at any depth below objects
(what the constructors give as long as one passes them no nil). -/
def Val.NoNil : Val → Prop
  | .nilp => False
  | .objNil => False
  | .obj es => Val.NoNilEs es
  | _ => True
def Val.NoNilEs : List (Bytes × Val) → Prop
  | [] => True
  | (_, v) :: es => Val.NoNil v ∧ Val.NoNilEs es
end

end Sawmill
