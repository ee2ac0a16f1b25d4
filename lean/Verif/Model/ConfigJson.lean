import Verif.Model.Json
import Verif.Model.PipelineNew
import Verif.Spec.Tree
/-!
# The configuration as JSON (pkg/pipeline/config.go:61-105)

`MarshalJSON` and `UnmarshalJSON` of `ProcessorOptionConfig`, with encoding/json of the standard library (Go 1.17).

Simplifications. The options of a processor (`map[string]interface{}`) are a nested-map value `Val`: nil, bool, int64, uint64, float64, string, `time.Time` in UTC, slices and maps; other Go types in them are not modelled. A nil `ProcessorConfig` is not
distinguished from an empty one (encoding would write `null` instead of `{}`), a nil slice not from an empty one. Decoding is into a new value. After an error the Go value may be partly filled in; here there is none.
-/

namespace Sawmill

/-- The options of a processor: a possibly nil map. -/
abbrev JCfg := Option (AMap Val)

/-! ## Encoding -/

/-- The text of a slice whose elements have these texts (standard library, encoding/json: `arrayEncoder`). -/
def arrText (rs : List (JOut Bytes)) : JOut Bytes := (joinText id rs).bind fun t => .ok (91 :: (t ++ [93]))

/-- The text of a map whose values have these texts, in the order of the keys (standard library, encoding/json: `mapEncoder`). -/
def mapText (m : AMap (JOut Bytes)) : JOut Bytes :=
  (joinText (fun e : Bytes × JOut Bytes => e.2.bind fun t => .ok (encStr e.1 ++ 58 :: t)) m).bind fun t => .ok (123 :: (t ++ [125]))

mutual
/-- encoding/json on an `interface{}`. -/
def encI (env : JEnv) : Val → JOut Bytes
  | .nilp => .ok (lit "null")
  | .scalar .null => .ok (lit "null")
  | .scalar (.bool b) => .ok (if b then lit "true" else lit "false")
  | .scalar (.int i) => .ok (intText i.toInt)
  | .scalar (.uint u) => .ok (itoa u.toNat)
  | .scalar (.float f) => if finite f then .ok (env.ftoa f) else .error
  | .scalar (.str s) => .ok (encStr s)
  | .scalar (.ts t) => compact (timeMarshalJSON t.toInt)
  | .arrNil => .ok (lit "null")
  | .arr vs => arrText (encIL env vs)
  | .objNil => .ok (lit "null")
  | .obj es => mapText (encIE env es)
def encIL (env : JEnv) : List Val → List (JOut Bytes)
  | [] => []
  | v :: vs => encI env v :: encIL env vs
def encIE (env : JEnv) : List (Bytes × Val) → AMap (JOut Bytes)
  | [] => []
  | (k, v) :: es => (k, encI env v) :: encIE env es
end

/-- The map that `MarshalJSON` builds (the texts of its values): config.go:91-102. -/
def optMap (id cond : Bytes) (onFailure : Option (JOut Bytes)) (config : AMap (JOut Bytes)) : AMap (JOut Bytes) :=
  let m : AMap (JOut Bytes) := []
  let m := if id ≠ [] then AMap.insert m (lit "id") (.ok (encStr id)) else m
  let m := if cond ≠ [] then AMap.insert m (lit "if") (.ok (encStr cond)) else m
  let m := match onFailure with
    | some t => AMap.insert m (lit "on_failure") t
    | none => m
  AMap.ofEntries config m

mutual
/-- `ProcessorOptionConfig.MarshalJSON`, and what encoding/json does with its result: config.go:90-105. -/
def marshalOpt (env : JEnv) : OptCfg JCfg → JOut Bytes
  | .mk id cond onF config => (mapText (optMap id cond (if onF.isEmpty then none else some (arrText (marshalConfs env onF))) (encIE env (config.getD [])))).bind compact
/-- The elements of a `[]ProcessorConfig`. -/
def marshalConfs (env : JEnv) : List (ProcCfg JCfg) → List (JOut Bytes)
  | [] => []
  | c :: cs => mapText (marshalEntries env c) :: marshalConfs env cs
/-- The entries of a `ProcessorConfig`. -/
def marshalEntries (env : JEnv) : List (Bytes × Option (OptCfg JCfg)) → AMap (JOut Bytes)
  | [] => []
  | (k, o) :: es => (k, marshalPOpt env o) :: marshalEntries env es
/-- A nil pointer is `null`. -/
def marshalPOpt (env : JEnv) : Option (OptCfg JCfg) → JOut Bytes
  | none => .ok (lit "null")
  | some o => marshalOpt env o
end

/-- `Config` as it is in JSON (config.go:25-30): with the description, which `Model/PipelineNew.lean` leaves out. -/
structure JConfig where
  config : Config JCfg
  description : Bytes

/-- The text of a struct: the fields in their order (standard library, encoding/json: `structEncoder`). -/
def structText (fs : List (Bytes × JOut Bytes)) : JOut Bytes := mapText fs

/-- `json.Marshal` of a `Config`. -/
def marshalConfig (env : JEnv) (c : JConfig) : JOut Bytes :=
  structText ((if c.config.id = [] then [] else [(lit "id", .ok (encStr c.config.id))]) ++ (if c.description = [] then [] else [(lit "description", .ok (encStr c.description))]) ++
    (if c.config.processors.isEmpty then [] else [(lit "processors", arrText (marshalConfs env c.config.processors))]) ++
    (if c.config.onFailure.isEmpty then [] else [(lit "on_failure", arrText (marshalConfs env c.config.onFailure))]))

/-! ## Decoding -/

mutual
/-- encoding/json into an `interface{}`. -/
def decI (env : JEnv) : Json → Option Val
  | .null => some .nilp
  | .bool b => some (.scalar (.bool b))
  | .num t => (env.atof t).map fun f => .scalar (.float f)
  | .str s => some (.scalar (.str s))
  | .arr js => (decIL env js).map .arr
  | .obj es => (decIE env es []).map .obj
def decIL (env : JEnv) : List Json → Option (List Val)
  | [] => some []
  | j :: js =>
    match decI env j, decIL env js with
    | some v, some vs => some (v :: vs)
    | _, _ => none
/-- Into the map `m`. -/
def decIE (env : JEnv) : List (Bytes × Json) → AMap Val → Option (AMap Val)
  | [], m => some m
  | (k, j) :: es, m =>
    match decI env j with
    | none => none
    | some v => decIE env es (AMap.insert m k v)
end

/-- How encoding/json compares the name of a struct field to a name in the text, when they are not the same: letters without regard to case, U+017F for s, and U+212A for k (`equalFoldRight`; for names without k and s `asciiEqualFold` and
`simpleLetterEqualFold` give the same). -/
def foldEq : Bytes → Bytes → Bool
  | [], t => t.isEmpty
  | s :: ss, t =>
    match t with
    | [] => false
    | b :: r =>
      if b.toNat < 128 then
        (s = b || (let u := s &&& 0xDF; 65 ≤ u.toNat && u.toNat ≤ 90 && u = b &&& 0xDF)) && foldEq ss r
      else if s = 115 || s = 83 then
        match t with
        | 0xC5 :: 0xBF :: r => foldEq ss r
        | _ => false
      else if s = 107 || s = 75 then
        match t with
        | 0xE2 :: 0x84 :: 0xAA :: r => foldEq ss r
        | _ => false
      else false

/-- The fields of `ProcessorOptionConfig` that encoding/json sees: config.go:34-38. -/
inductive OptField where
  | id | cond | onFailure
deriving DecidableEq

def OptField.name : OptField → Bytes
  | .id => lit "id"
  | .cond => lit "if"
  | .onFailure => lit "on_failure"

/-- The field that a name in the text is for: one with exactly this name, or else the first one that matches without regard to case. -/
def optField (k : Bytes) : Option OptField :=
  match [OptField.id, .cond, .onFailure].find? fun f => f.name = k with
  | some f => some f
  | none => [OptField.id, .cond, .onFailure].find? fun f => foldEq f.name k

/-- The state of decoding the struct. `slots`: the memory of the slice `OnFailure` up to its capacity, `len` its length. -/
structure OptAcc where
  id : Bytes := []
  cond : Bytes := []
  slots : List (ProcCfg JCfg) := []
  len : Nat := 0

/-- Growing the slice if the index is beyond its capacity. -/
def growSlots (i : Nat) (slots : List (ProcCfg JCfg)) (len : Nat) : List (ProcCfg JCfg) :=
  if slots.length ≤ i then
    let cap := slots.length + slots.length / 2
    let cap := if cap < 4 then 4 else cap
    slots.take len ++ List.replicate (cap - len) []
  else slots

mutual
/-- `ProcessorOptionConfig.UnmarshalJSON`: config.go:63-86. The text is decoded twice, into the struct and into a map. -/
def decOpt (env : JEnv) : Json → Option (OptCfg JCfg)
  | .null => some (.mk [] [] [] none)
  | .obj es =>
    match decFields env es {} with
    | none => none
    | some a =>
      match decIE env es [] with
      | none => none
      | some raw =>
        let raw := AMap.erase (AMap.erase (AMap.erase raw (lit "id")) (lit "if")) (lit "on_failure")
        some (.mk a.id a.cond (a.slots.take a.len) (if raw.isEmpty then none else some raw))
  | _ => none
/-- The entries of the text, into the struct. -/
def decFields (env : JEnv) : List (Bytes × Json) → OptAcc → Option OptAcc
  | [], a => some a
  | (k, j) :: es, a =>
    match decField env j (optField k) a with
    | none => none
    | some a => decFields env es a
/-- One entry. A `null` leaves a string as it is and makes a slice nil. -/
def decField (env : JEnv) : Json → Option OptField → OptAcc → Option OptAcc
  | _, none, a => some a
  | .null, some .onFailure, a => some { a with slots := [], len := 0 }
  | .null, some _, a => some a
  | .str s, some .id, a => some { a with id := s }
  | .str s, some .cond, a => some { a with cond := s }
  | .arr [], some .onFailure, a => some { a with slots := [], len := 0 }
  | .arr js, some .onFailure, a => (decSlots env js 0 a.slots a.len).map fun x => { a with slots := x.1, len := x.2 }
  | _, _, _ => none
/-- The elements of an array, into the slice, from index `i`. -/
def decSlots (env : JEnv) : List Json → Nat → List (ProcCfg JCfg) → Nat → Option (List (ProcCfg JCfg) × Nat)
  | [], i, slots, _ => some (slots, i)
  | j :: js, i, slots, len =>
    let slots := growSlots i slots len
    let len := if len ≤ i then i + 1 else len
    match decConf env j (slots.getD i []) with
    | none => none
    | some c => decSlots env js (i + 1) (slots.set i c) len
/-- An element, into the map that is there. -/
def decConf (env : JEnv) : Json → ProcCfg JCfg → Option (ProcCfg JCfg)
  | .null, _ => some []
  | .obj es, m => decEntries env es m
  | _, _ => none
/-- The entries of a `ProcessorConfig`. `null` gives a nil pointer. -/
def decEntries (env : JEnv) : List (Bytes × Json) → ProcCfg JCfg → Option (ProcCfg JCfg)
  | [], m => some m
  | (k, j) :: es, m =>
    match decOpt env j with
    | none => none
    | some o => decEntries env es (AMap.insert m k (match j with
      | .null => none
      | _ => some o))
end

/-- `json.Unmarshal` into a new `ProcessorOptionConfig`. -/
def unmarshalOpt (env : JEnv) (bs : Bytes) : Option (OptCfg JCfg) := (parseDoc bs).bind (decOpt env)

/-- The fields of `Config`: config.go:25-30. -/
inductive CfgField where
  | id | description | processors | onFailure
deriving DecidableEq

def CfgField.name : CfgField → Bytes
  | .id => lit "id"
  | .description => lit "description"
  | .processors => lit "processors"
  | .onFailure => lit "on_failure"

/-- As `optField`. -/
def cfgField (k : Bytes) : Option CfgField :=
  match [CfgField.id, .description, .processors, .onFailure].find? fun f => f.name = k with
  | some f => some f
  | none => [CfgField.id, .description, .processors, .onFailure].find? fun f => foldEq f.name k

/-- The state of decoding a `Config`: as `OptAcc`. -/
structure CfgAcc where
  id : Bytes := []
  description : Bytes := []
  procs : List (ProcCfg JCfg) × Nat := ([], 0)
  fails : List (ProcCfg JCfg) × Nat := ([], 0)

/-- A `[]ProcessorConfig` field. -/
def decSlice (env : JEnv) : Json → List (ProcCfg JCfg) × Nat → Option (List (ProcCfg JCfg) × Nat)
  | .null, _ => some ([], 0)
  | .arr [], _ => some ([], 0)
  | .arr js, s => decSlots env js 0 s.1 s.2
  | _, _ => none

/-- A string field. -/
def decString : Json → Bytes → Option Bytes
  | .null, s => some s
  | .str s, _ => some s
  | _, _ => none

/-- The entries of the text, into the struct. -/
def decCfgFields (env : JEnv) : List (Bytes × Json) → CfgAcc → Option CfgAcc
  | [], a => some a
  | (k, j) :: es, a =>
    match (match cfgField k with
      | none => some a
      | some .id => (decString j a.id).map fun s => { a with id := s }
      | some .description => (decString j a.description).map fun s => { a with description := s }
      | some .processors => (decSlice env j a.procs).map fun s => { a with procs := s }
      | some .onFailure => (decSlice env j a.fails).map fun s => { a with fails := s }) with
    | none => none
    | some a => decCfgFields env es a

/-- `json.Unmarshal` into a new `*Config`, as the examples do (examples/wasm/wasm.go:41-44, examples/c/cshared/main.go:37-41): `null` gives a nil pointer. -/
def unmarshalConfig (env : JEnv) (bs : Bytes) : Option (Option JConfig) :=
  match parseDoc bs with
  | some .null => some none
  | some (.obj es) => (decCfgFields env es {}).map fun a => some ⟨⟨a.id, a.procs.1.take a.procs.2, a.fails.1.take a.fails.2⟩, a.description⟩
  | _ => none

/-- `New` on what was decoded: a nil pointer is dereferenced. pipeline.go:34-36. -/
def Pipeline.newFromPtr {A R : Type} (F : Factory A R JCfg) : Option JConfig → Res (Except NewErr (Pipeline A R))
  | none => .panic
  | some c => Pipeline.new F c.config

end Sawmill
