import Verif.Model.ConfigJson
import Verif.Model.Main
/-!
# The configuration as YAML (cmd/sawmill/sawmill.go:103-116, pkg/pipeline/config.go:25-41)

`loadPipeline` gives the file to gopkg.in/yaml.v3 (v3.0.1, go.mod:12). What is modelled is its decoder (decode.go of that library: `unmarshal`, `prepare`, `null`, `scalar`, `sequence`, `mapping`, `mappingStruct`, `isStringMap`, written from memory), for the types of
config.go, from the tree of nodes that its parser makes.

Simplifications. The parser, with the choice of the value of a plain scalar, is a parameter. There are no aliases (an alias is decoded as the node that it names), no merge keys `<<`, no `!!binary`, and no explicit tags that contradict the node. Every error is the same
`none`; where the library goes on to collect more errors, here decoding stops, since the result is an error in either case. A nil `ProcessorConfig` is not distinguished from an empty one, and a nil slice not from an empty one: nothing in pkg/pipeline does.
-/

namespace Sawmill

/-- What a plain scalar (one without quotes) stands for if it is not a string (yaml.v3: `resolve`). A `time.Time` is left as its text. -/
inductive YPlain where
  | null
  | bool (b : Bool)
  | int (i : BitVec 64)
  | uint (u : BitVec 64)
  | float (f : BitVec 64)
  | time (text : Bytes)
deriving DecidableEq

/-- The nodes of a document (yaml.v3: `Node`): a string, another scalar with its text, a sequence, a mapping. -/
inductive Yaml where
  | str (text : Bytes)
  | plain (text : Bytes) (value : YPlain)
  | seq (items : List Yaml)
  | map (entries : List (Yaml × Yaml))

/-- The keys of a `map[interface{}]interface{}` that decoding makes. -/
inductive YKey where
  | plain (v : YPlain)
  | str (s : Bytes)
deriving DecidableEq

/-- What decoding puts into an `interface{}`. `gmap`: the `map[interface{}]interface{}` that assigning these entries one after the other gives. -/
inductive YVal where
  | plain (v : YPlain)
  | str (s : Bytes)
  | list (vs : List YVal)
  | smap (es : List (Bytes × YVal))
  | gmap (es : List (YKey × YVal))

/-- The options of a processor: a possibly nil map. -/
abbrev YCfg := Option (AMap YVal)

/-- `Config` as decoded: config.go:25-30. -/
structure YConfig where
  config : Config YCfg
  description : Bytes

/-- The `Kind` of a node, as a number, and its `Value`. -/
def Yaml.kindValue : Yaml → Nat × Bytes
  | .str t => (8, t)
  | .plain t _ => (8, t)
  | .seq _ => (2, [])
  | .map _ => (4, [])

/-- The check for repeated keys with which `mapping` begins: two key nodes with the same `Kind` and the same `Value`. -/
def repeatedKey : List (Yaml × Yaml) → Bool
  | [] => false
  | (k, _) :: es => es.any (fun e => k.kindValue = e.1.kindValue) || repeatedKey es

/-- A node into a string that holds `s` (`scalar`, case `reflect.String`: the text of the node, whatever it stands for). A null leaves it as it is. -/
def yString : Yaml → Bytes → Option Bytes
  | .str t, _ => some t
  | .plain _ .null, s => some s
  | .plain t _, _ => some t
  | .seq _, _ => none
  | .map _, _ => none

/-- A key node into the key of a map with strings as keys, or the name of a field. A null is not decoded into a string (`null` returns false) and the entry is left out: `some none`. -/
def yName : Yaml → Option (Option Bytes)
  | .str t => some (some t)
  | .plain _ .null => some none
  | .plain t _ => some (some t)
  | .seq _ => none
  | .map _ => none

/-- A key node into an `interface{}`: a map or a slice is an "invalid map key". -/
def yKey : Yaml → Option YKey
  | .str t => some (.str t)
  | .plain _ v => some (.plain v)
  | .seq _ => none
  | .map _ => none

/-- `isStringMap`: all keys are strings. -/
def isStringMap (es : List (Yaml × Yaml)) : Bool := es.all fun e => match e.1 with
  | .str _ => true
  | _ => false

mutual
/-- A node into an `interface{}`. -/
def yAny : Yaml → Option YVal
  | .str t => some (.str t)
  | .plain _ v => some (.plain v)
  | .seq ys => (yAnyL ys).map .list
  | .map es =>
    if repeatedKey es then none
    else if isStringMap es then (yAnyS es []).map .smap
    else (yAnyG es).map .gmap
/-- The elements of a sequence. -/
def yAnyL : List Yaml → Option (List YVal)
  | [] => some []
  | y :: ys =>
    match yAny y, yAnyL ys with
    | some v, some vs => some (v :: vs)
    | _, _ => none
/-- The entries of a mapping, into a `map[string]interface{}`. -/
def yAnyS : List (Yaml × Yaml) → AMap YVal → Option (AMap YVal)
  | [], m => some m
  | (k, y) :: es, m =>
    match yName k with
    | none => none
    | some none => yAnyS es m
    | some (some n) =>
      match yAny y with
      | none => none
      | some v => yAnyS es (AMap.insert m n v)
/-- The entries of a mapping, into a `map[interface{}]interface{}`. -/
def yAnyG : List (Yaml × Yaml) → Option (List (YKey × YVal))
  | [] => some []
  | (k, y) :: es =>
    match yKey k, yAny y, yAnyG es with
    | some k, some v, some r => some ((k, v) :: r)
    | _, _, _ => none
end

/-- The state of decoding a `ProcessorOptionConfig`: config.go:34-38. -/
structure YOptAcc where
  id : Bytes := []
  cond : Bytes := []
  onFailure : List (ProcCfg YCfg) := []
  config : YCfg := none

mutual
/-- A node into a `*ProcessorOptionConfig` (config.go:32, 34-39). -/
def yOpt : Yaml → Option (Option (OptCfg YCfg))
  | .plain _ .null => some none
  | .map es =>
    if repeatedKey es then none
    else (yOptFields es {}).map fun a => some (.mk a.id a.cond a.onFailure a.config)
  | _ => none
/-- The entries of a mapping, into the struct (`mappingStruct`). All names but three go into the inline map, which is made when the first one comes. -/
def yOptFields : List (Yaml × Yaml) → YOptAcc → Option YOptAcc
  | [], a => some a
  | (k, y) :: es, a =>
    match yName k with
    | none => none
    | some none => yOptFields es a
    | some (some n) =>
      if n = lit "id" then
        match yString y a.id with
        | none => none
        | some s => yOptFields es { a with id := s }
      else if n = lit "if" then
        match yString y a.cond with
        | none => none
        | some s => yOptFields es { a with cond := s }
      else if n = lit "on_failure" then
        match ySlice y with
        | none => none
        | some cs => yOptFields es { a with onFailure := cs }
      else
        match yAny y with
        | none => none
        | some v => yOptFields es { a with config := some (AMap.insert (a.config.getD []) n v) }
/-- A node into a `[]ProcessorConfig`. -/
def ySlice : Yaml → Option (List (ProcCfg YCfg))
  | .plain _ .null => some []
  | .seq ys => yConfs ys
  | _ => none
/-- The elements of a sequence. -/
def yConfs : List Yaml → Option (List (ProcCfg YCfg))
  | [] => some []
  | y :: ys =>
    match yConf y, yConfs ys with
    | some c, some cs => some (c :: cs)
    | _, _ => none
/-- A node into a `ProcessorConfig` (config.go:32). -/
def yConf : Yaml → Option (ProcCfg YCfg)
  | .plain _ .null => some []
  | .map es => if repeatedKey es then none else yEntries es []
  | _ => none
/-- The entries of a mapping, into the map. -/
def yEntries : List (Yaml × Yaml) → ProcCfg YCfg → Option (ProcCfg YCfg)
  | [], m => some m
  | (k, y) :: es, m =>
    match yName k with
    | none => none
    | some none => yEntries es m
    | some (some n) =>
      match yOpt y with
      | none => none
      | some o => yEntries es (AMap.insert m n o)
end

/-- The entries of a mapping, into a `Config`: config.go:25-30. Names that are not fields are passed over with what is under them. -/
def yCfgFields : List (Yaml × Yaml) → YConfig → Option YConfig
  | [], a => some a
  | (k, y) :: es, a =>
    match yName k with
    | none => none
    | some none => yCfgFields es a
    | some (some n) =>
      if n = lit "id" then
        match yString y a.config.id with
        | none => none
        | some s => yCfgFields es { a with config.id := s }
      else if n = lit "description" then
        match yString y a.description with
        | none => none
        | some s => yCfgFields es { a with description := s }
      else if n = lit "processors" then
        match ySlice y with
        | none => none
        | some cs => yCfgFields es { a with config.processors := cs }
      else if n = lit "on_failure" then
        match ySlice y with
        | none => none
        | some cs => yCfgFields es { a with config.onFailure := cs }
      else yCfgFields es a

/-- A document into a `*Config` that is nil: sawmill.go:110-113. -/
def decodeYaml : Yaml → Option (Option YConfig)
  | .plain _ .null => some none
  | .map es => if repeatedKey es then none else (yCfgFields es ⟨⟨[], [], []⟩, []⟩).map some
  | _ => none

/-- `yaml.NewDecoder(f).Decode(&c)`: sawmill.go:110-113. `parse` gives an error, or the first document of the file if there is one; without one the error is `io.EOF`. What comes after the first document is not decoded. -/
def yamlDecode (parse : Bytes → Option (Option Yaml)) (bs : Bytes) : Option (Option (Config YCfg)) :=
  match parse bs with
  | none => none
  | some none => none
  | some (some y) => (decodeYaml y).map fun c => c.map (·.config)

/-! ## JSON as YAML -/

/-- The value of some digits, behind others with the value `n`; nothing if something else is among them. -/
def digitsVal : Bytes → Nat → Option Nat
  | [], n => some n
  | b :: r, n => if 48 ≤ b.toNat ∧ b.toNat ≤ 57 then digitsVal r (10 * n + (b.toNat - 48)) else none

/-- The same for a whole number, which has at least one digit. -/
def numberVal (t : Bytes) : Option Nat := if t.isEmpty then none else digitsVal t 0

/-- A number that is not an integer of 64 bits: a `float64`, or if it is out of range, a string. -/
def resolveFloat (env : JEnv) (t : Bytes) : Yaml :=
  match env.atof t with
  | some f => .plain t (.float f)
  | none => .str t

/-- What a plain scalar stands for that is a JSON number (yaml.v3: `resolve`, with `strconv.ParseInt`, `ParseUint` and `ParseFloat`): an `int` if it is an integer that fits, else a `uint64` if it fits, else a `float64`. -/
def resolveNumber (env : JEnv) (t : Bytes) : Yaml :=
  if t.head? = some 45 then
    match numberVal t.tail with
    | some n => if n ≤ 2 ^ 63 then .plain t (.int (BitVec.ofInt 64 (-(n : Int)))) else resolveFloat env t
    | none => resolveFloat env t
  else
    match numberVal t with
    | some n => if n < 2 ^ 63 then .plain t (.int (BitVec.ofNat 64 n)) else if n < 2 ^ 64 then .plain t (.uint (BitVec.ofNat 64 n)) else resolveFloat env t
    | none => resolveFloat env t

mutual
/-- The document that a JSON document is as YAML. -/
def Json.asYaml (env : JEnv) : Json → Yaml
  | .null => .plain (lit "null") .null
  | .bool b => .plain (if b then lit "true" else lit "false") (.bool b)
  | .num t => resolveNumber env t
  | .str s => .str s
  | .arr js => .seq (Json.asYamlL env js)
  | .obj es => .map (Json.asYamlE env es)
def Json.asYamlL (env : JEnv) : List Json → List Yaml
  | [] => []
  | j :: js => j.asYaml env :: Json.asYamlL env js
def Json.asYamlE (env : JEnv) : List (Bytes × Json) → List (Yaml × Yaml)
  | [] => []
  | (k, j) :: es => (.str k, j.asYaml env) :: Json.asYamlE env es
end

end Sawmill
