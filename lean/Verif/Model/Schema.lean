import Verif.Model.YamlMerge
import Verif.Model.Gen
/-!
# Reading processors.yml (internal/proctemplate/schema.go:27-44, 84-100)

The decoder of gopkg.in/yaml.v3, as in `Model/YamlMerge.lean`, for the types of schema.go and with `KnownFields(true)`: a name that is not a field is an error. Two things about null: as the value of a map it stands for the zero value of a struct, and as an element of a
slice of structs it is left out.

Simplifications, besides those of `Model/YamlMerge.lean`: which strings count as booleans (`yes`, `off`, …, where a bool is expected), and what `fmt` prints for a value, are parameters. `CommonFields` is checked and not kept: nothing uses it.
-/

namespace Sawmill
namespace Gen

/-- The parameters: the boolean that a string stands for, and `%v`. -/
structure SchemaEnv where
  boolText : Bytes → Option Bool
  print : YVal → Bytes

/-- A node into a bool that holds `b` (`scalar`, case `reflect.Bool`). -/
def sBool (E : SchemaEnv) : MYaml → Bool → Option Bool
  | .plain _ .null, b => some b
  | .plain _ (.bool b), _ => some b
  | .str t, _ => E.boolText t
  | .merge, _ => E.boolText (lit "<<")
  | _, _ => none

/-- Whether a template's `if` takes a value for true (text/template: `IsTrue`): not null, false, zero and what is empty. A time is a struct. -/
def truthy : YVal → Bool
  | .plain .null => false
  | .plain (.bool b) => b
  | .plain (.int i) => i ≠ 0
  | .plain (.uint u) => u ≠ 0
  | .plain (.float f) => f ≠ 0 ∧ f ≠ 0x8000000000000000#64
  | .plain (.time _) => true
  | .str s => !s.isEmpty
  | .list vs => !vs.isEmpty
  | .smap es => !es.isEmpty
  | .gmap es => !es.isEmpty

/-- The `interface{}` that an option has as its default. -/
def dflt (E : SchemaEnv) : YVal → Option Dflt
  | .plain .null => none
  | .str s => some (.str s)
  | v => some (.other (E.print v) (truthy v))

/-- The entries of a mapping, into a `ConfigurationOption`: schema.go:37-44. -/
def sOptFields (E : SchemaEnv) (n : Nat) : List (Bytes × MYaml) → Opt → Option Opt
  | [], o => some o
  | (k, y) :: xs, o =>
    if k = lit "name" then
      match mString y o.name with
      | none => none
      | some s => sOptFields E n xs { o with name := s }
    else if k = lit "type" then
      match mString y o.type with
      | none => none
      | some s => sOptFields E n xs { o with type := s }
    else if k = lit "required" then
      match sBool E y o.required with
      | none => none
      | some b => sOptFields E n xs { o with required := b }
    else if k = lit "optional" then
      match sBool E y o.optional with
      | none => none
      | some b => sOptFields E n xs { o with optional := b }
    else if k = lit "default" then
      match mAny n y with
      | none => none
      | some v => sOptFields E n xs { o with default := dflt E v }
    else if k = lit "description" then
      match mString y o.description with
      | none => none
      | some s => sOptFields E n xs { o with description := s }
    else none

/-- An element of a `[]ConfigurationOption`; null is left out: `some none`. -/
def sOpt (E : SchemaEnv) : Nat → MYaml → Option (Option Opt)
  | _, .plain _ .null => some none
  | n + 1, .map es =>
    match visitNames es with
    | none => none
    | some xs => (sOptFields E n xs { name := [], type := [] }).map some
  | _, _ => none

/-- A node into a `[]ConfigurationOption` that is empty. -/
def sOpts (E : SchemaEnv) : Nat → MYaml → Option (List Opt)
  | _, .plain _ .null => some []
  | n + 1, .seq ys => (allSome (sOpt E n) ys).map fun os => os.filterMap id
  | _, _ => none

/-- The entries of a mapping, into a `Processor`: schema.go:32-35. -/
def sProcFields (E : SchemaEnv) (n : Nat) : List (Bytes × MYaml) → Proc → Option Proc
  | [], p => some p
  | (k, y) :: xs, p =>
    if k = lit "description" then
      match mString y p.description with
      | none => none
      | some s => sProcFields E n xs { p with description := s }
    else if k = lit "configuration" then
      match sOpts E n y with
      | none => none
      | some os => sProcFields E n xs { p with configuration := os }
    else none

/-- A node into a `Processor`. -/
def sProc (E : SchemaEnv) : Nat → MYaml → Option Proc
  | _, .plain _ .null => some {}
  | n + 1, .map es =>
    match visitNames es with
    | none => none
    | some xs => sProcFields E n xs {}
  | _, _ => none

/-- A node into a `map[string]Processor`: schema.go:29. -/
def sProcMap (E : SchemaEnv) : Nat → MYaml → Option (List (Bytes × Proc))
  | _, .plain _ .null => some []
  | n + 1, .map es =>
    match visitNames es with
    | none => none
    | some xs => allSnd (sProc E n) xs
  | _, _ => none

/-- A node into a `[]map[string]Processor`: schema.go:29. -/
def sProcs (E : SchemaEnv) : Nat → MYaml → Option Schema
  | _, .plain _ .null => some []
  | n + 1, .seq ys => allSome (sProcMap E n) ys
  | _, _ => none

/-- A node into a `map[string]interface{}`, of which only the success matters: schema.go:28. -/
def sCommon : Nat → MYaml → Option Unit
  | _, .plain _ .null => some ()
  | n + 1, .map es =>
    match visitNames es with
    | none => none
    | some xs => (allSnd (mAny n) xs).map fun _ => ()
  | _, _ => none

/-- The entries of a mapping, into a `Processors`: schema.go:27-30. -/
def sTopFields (E : SchemaEnv) (n : Nat) : List (Bytes × MYaml) → Schema → Option Schema
  | [], s => some s
  | (k, y) :: xs, s =>
    if k = lit "common_fields" then
      match sCommon n y with
      | none => none
      | some _ => sTopFields E n xs s
    else if k = lit "processors" then
      match sProcs E n y with
      | none => none
      | some ps => sTopFields E n xs ps
    else none

/-- A document into a `*Processors` that is nil: schema.go:93-97. -/
def decodeSchema (E : SchemaEnv) : MYaml → Option (Option Schema)
  | .plain _ .null => some none
  | .map es =>
    match visitNames es with
    | none => none
    | some xs => (sTopFields E (MYaml.depthE es) xs []).map some
  | _ => none

/-- `ReadProcessorsYAMLFile`: schema.go:84-100. `file` is the content of the file, if it can be read; `parse` gives an error, or the first document if there is one. -/
def readProcessors (E : SchemaEnv) (parse : Bytes → Option (Option MYaml)) (file : Option Bytes) : Option (Option Schema) :=
  match file with
  | none => none
  | some bs =>
    match parse bs with
    | some (some y) => decodeSchema E y
    | _ => none

/-- How a generator ends: `log.Fatal`; the nil pointer of a null document; or the end of `main`. -/
inductive End where
  | fatal
  | crash
  | done

/-- The whole of `main` of the code generator: generate.go:65-122. -/
inductive Generate (S : SchemaEnv) (parse : Bytes → Option (Option MYaml)) (E : GenEnv) (file : Option Bytes) (fs : Files) : Files → End → Prop where
  | unread : readProcessors S parse file = none → Generate S parse E file fs fs .fatal
  | null : readProcessors S parse file = some none → Generate S parse E file fs fs .crash
  | failed {s : Schema} {fs' : Files} : readProcessors S parse file = some (some s) → Main E fs s fs' false → Generate S parse E file fs fs' .fatal
  | done {s : Schema} {fs' : Files} : readProcessors S parse file = some (some s) → Main E fs s fs' true → Generate S parse E file fs fs' .done

/-- The whole of `main` of the documentation generator; the file that it writes, if any: docs/generate/generate.go:61-98. Errors of writing are not modelled. -/
inductive GenerateDocs (S : SchemaEnv) (parse : Bytes → Option (Option MYaml)) (intro : Bytes) (file : Option Bytes) : Option Bytes → End → Prop where
  | unread : readProcessors S parse file = none → GenerateDocs S parse intro file none .fatal
  | null : readProcessors S parse file = some none → GenerateDocs S parse intro file none .crash
  | done {s : Schema} {text : Bytes} : readProcessors S parse file = some (some s) → Docs intro s text → GenerateDocs S parse intro file (some text) .done

end Gen
end Sawmill
