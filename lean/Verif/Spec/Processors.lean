import Verif.Spec.Reads
import Verif.Model.Processors
/-!
# What the processors do to the contents of an event

Functions on nested maps (`Fields`), no pointers.  They describe what the code does, including where that differs from the documentation; the differences are the subject of
C35, C36 and C37.
-/

namespace Sawmill
namespace Spec

/-- Errors of a processor: a missing-key error for a field, or any other error with its text. -/
inductive PErr where
  | missing (key : Bytes)
  | other (text : Bytes)
deriving DecidableEq, Repr

/-- What the error says. -/
def PErr.text : PErr → Bytes
  | .missing key => lit "key <" ++ key ++ lit "> is missing from event"
  | .other text => text

def str (s : Bytes) : Val := .scalar (.str s)

/-- A path as messages show it. -/
def slashed : List Bytes → Bytes
  | [] => []
  | name :: rest => lit "/" ++ name ++ slashed rest

/-- What the error of a `Put` to this key says. -/
def Error.says (key : Bytes) : Error → Bytes
  | .emptyKey => lit "event put failed: key name is empty"
  | .keyExists => lit "event put failed for path <" ++ slashed (keyToPath key) ++ lit ">: key already exists"
  | .notObject => lit "event put failed for path <" ++ slashed (keyToPath key) ++ lit ">: target key is not an object"

/-- Put, forgetting the returned value. -/
def putP (f : Fields) (key : Bytes) (v : Val) : Res (Fields × Option PErr) :=
  (putFields f (keyToPath key) v true).map fun (f', _, err) => (f', err.map fun er => .other (er.says key))

/-- `lowercase` and `uppercase`; `msg` is what they say about a value that is not a string. -/
def convert (conv : Bytes → Bytes) (msg field target : Bytes) (f : Fields) : Res (Fields × Option PErr) := do
  match ← getFields f (keyToPath field) with
  | .nilp => .ok (f, some (.missing field))
  | .scalar (.str s) => putP f (if target = [] then field else target) (str (conv s))
  | _ => .ok (f, some (.other msg))

/-- `append`. -/
def append (field value : Bytes) (f : Fields) : Res (Fields × Option PErr) := do
  match ← getFields f (keyToPath field) with
  | .nilp => (putP f field (.arr [str value])).map fun (f', _) => (f', none)
  | .arrNil => (putP f field (.arr [str value])).map fun (f', _) => (f', none)
  | .arr vs => (putP f field (.arr (vs ++ [str value]))).map fun (f', _) => (f', none)
  | .scalar (.str _) => .ok (f, none)
  | _ => .ok (f, some (.other (lit "value to append to is not array")))

/-- `set` with a configured value (null counts as no value) or with `copy_from`. -/
def set (value : Val) (copyFrom target : Bytes) (f : Fields) : Res (Fields × Option PErr) :=
  match value with
  | .scalar .null =>
    if copyFrom = [] then putP f target .nilp
    else do
      match ← getFields f (keyToPath copyFrom) with
      | .nilp => .ok (f, some (.missing copyFrom))
      | v => putP f target v
  | v => putP f target v

/-- The elements an item contributes when appended: an array contributes its elements, anything else itself. -/
def elements : Val → List Val
  | .arr vs => vs
  | .arrNil => []
  | v => [v]

/-- What a value becomes when turned into an array: nothing gives no elements, an array its elements, anything else itself. -/
def asList : Val → List Val
  | .nilp => []
  | v => elements v

/-- The value after appending elements to an old value. Appending nothing leaves a nil slice as it is. -/
def appended (old : Val) (new : List Val) : Val :=
  match new, old with
  | [], .nilp => .arrNil
  | [], .arrNil => .arrNil
  | new, old => .arr (asList old ++ new)

/-- `eventutil.Append`. -/
def utilAppend (f : Fields) (key : Bytes) (item : Val) : Res (Fields × Option Error) :=
  if item.isNil then .ok (f, none)
  else do
    let old ← getFields f (keyToPath key)
    (putFields f (keyToPath key) (appended old (elements item)) true).map fun (f', _, err) => (f', err)

end Spec

/-- The model's error is of the specified kind and says what is specified; an error specified as `other` is neither a missing-key error nor wraps one. -/
def procErrMatches : Option Err → Option Spec.PErr → Prop
  | none, none => True
  | some e, some (.missing k) => e = .keyMissing k
  | some e, some (.other t) => e.isMissing = false ∧ e.text = t
  | _, _ => False

end Sawmill
