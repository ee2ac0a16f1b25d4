import Verif.Model.ConfigJson
import Verif.Model.Reflect
/-!
# Plain Go values as JSON: what encoding/json does with a `map[string]interface{}`

The maps that `mapinterface.FromEvent` returns (pkg/serialization/mapinterface/mapinterface.go:55-107) and that `mapinterface.ToEvent` takes (mapinterface.go:41-53) are also what programs give to `json.Marshal` and get from
`json.Unmarshal`. Both functions are standard library code; they are modelled here on `map[string]interface{}` with the types of values that `FromEvent` returns.
-/

namespace Sawmill

/-- `Time.Year` (standard library), in UTC. -/
def GoTime.year (t : GoTime) : Int := (absDate t.abs).1

/-- `Time.MarshalJSON` (standard library, time/time.go), in UTC: an error if the year does not have four digits; and what encoding/json does with the result. -/
def goTimeJson (t : GoTime) : JOut Bytes := if t.year < 0 ∨ t.year ≥ 10000 then .error else compact ([34] ++ t.rfc3339Nano ++ [34])

mutual
/-- `json.Marshal` on an `interface{}` (standard library, encoding/json: `interfaceEncoder`), for the types of values that `FromEvent` returns (mapinterface.go:78-107): a nil interface, bool, int64, uint64, float64, string, time.Time in
UTC, `[]interface{}` that is not nil, `map[string]interface{}` that is not nil. On values of other types, which have more rules in encoding/json, this is not a model of it. The keys of a map are sorted (`mapEncoder`), and the model's maps are listed
in that order. Cycle detection (encoding/json: `ptrLevel`) can not find anything: the values are finite trees. -/
def encG (env : JEnv) : GIface → JOut Bytes
  | .nil => .ok (lit "null")
  | .val v => encGV env v
def encGV (env : JEnv) : GVal → JOut Bytes
  | .mk _ _ (.bool b) => .ok (if b then lit "true" else lit "false")
  | .mk _ _ (.int _ i) => .ok (intText i.toInt)
  | .mk _ _ (.uint _ u) => .ok (itoa u.toNat)
  | .mk _ _ (.float64 f) => if finite f then .ok (env.ftoa f) else .error
  | .mk _ _ (.string s) => .ok (encStr s)
  | .mk _ _ (.time _ t) => goTimeJson t
  | .mk _ _ (.list _ xs) => arrText (encGL env xs)
  | .mk _ _ (.map es) => mapText (encGE env es)
  | .mk _ _ (.uintptr _ _) => .error
  | .mk _ _ (.float32 _) => .error
  | .mk _ _ (.ptr _) => .error
  | .mk _ _ (.struct _) => .error
  | .mk _ _ (.other _) => .error
def encGL (env : JEnv) : List GIface → List (JOut Bytes)
  | [] => []
  | x :: xs => encG env x :: encGL env xs
def encGE (env : JEnv) : List (Bytes × GIface) → List (Bytes × JOut Bytes)
  | [] => []
  | (k, x) :: es => (k, encG env x) :: encGE env es
end

/-- `json.Marshal` on a `map[string]interface{}`; a nil map is `null`. -/
def marshalMap (env : JEnv) : Option (List (Bytes × GIface)) → JOut Bytes
  | none => .ok (lit "null")
  | some m => mapText (encGE env m)

mutual
/-- encoding/json into an `interface{}` (standard library: `valueInterface`, `arrayInterface`, `objectInterface`). -/
def decG (env : JEnv) : Json → Option GIface
  | .null => some .nil
  | .bool b => some (stdVal (.bool b))
  | .num t => (env.atof t).map fun f => stdVal (.float64 f)
  | .str s => some (stdVal (.string s))
  | .arr js => (decGL env js).map fun xs => .val (.mk false {} (.list true xs))
  | .obj es => (decGE env es []).map fun m => stdVal (.map m)
def decGL (env : JEnv) : List Json → Option (List GIface)
  | [] => some []
  | j :: js =>
    match decG env j, decGL env js with
    | some x, some xs => some (x :: xs)
    | _, _ => none
/-- Into the map `m`. -/
def decGE (env : JEnv) : List (Bytes × Json) → AMap GIface → Option (AMap GIface)
  | [], m => some m
  | (k, j) :: es, m =>
    match decG env j with
    | none => none
    | some x => decGE env es (AMap.insert m k x)
end

/-- `json.Unmarshal` into a `map[string]interface{}` variable that is nil; `none` for an error, `some none` if the map is still nil. -/
def unmarshalMap (env : JEnv) (bs : Bytes) : Option (Option (AMap GIface)) :=
  match parseDoc bs with
  | some .null => some none
  | some (.obj es) => (decGE env es []).map some
  | _ => none

end Sawmill
