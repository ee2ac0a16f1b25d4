import Verif.Model.Yaml
import Verif.Model.Format
import Verif.Model.Convert
import Verif.Model.Reflect
import Verif.Model.WireUnmarshal
import Verif.Props.ProgSamples
/-!
# The repository's own tests, run on the model

These are tests of the model, not claims: the inputs and the expected outputs are those of the repository (pkg/event/*_test.go, pkg/pipeline/*_test.go with its testdata, pkg/eventutil, pkg/serialization), which the Go code passes. They are evaluated by the kernel. No claim of MANIFEST.json rests on them.
-/

namespace Sawmill.RepoTests

/-- The options of the test pipelines into the structs of the processors: those of the fields of `Opts` that occur. The values of `set` are in the heap beforehand (`configHeap`). -/
def text (c : YCfg) (k : Bytes) : Bytes :=
  match (c.bind fun m => AMap.lookup m k) with
  | some (.str s) => s
  | _ => []

def flag (c : YCfg) (k : Bytes) : Bool :=
  match (c.bind fun m => AMap.lookup m k) with
  | some (.plain (.bool b)) => b
  | _ => false

/-- What the configurations of the `set` processors hold. -/
def configHeap : Heap := [.cell (strCell (lit "UNKNOWN")), .cell (strCell (lit "FAILED")), .cell (strCell (lit "FAILURE")), .cell (arrCell (some [some 2])), .cell (strCell (lit "pipeline_error")), .cell (strCell (lit "1234"))]

def valueAt (c : YCfg) : Nat :=
  match (c.bind fun m => AMap.lookup m (lit "value")) with
  | some (.str s) => if s = lit "UNKNOWN" then 0 else if s = lit "FAILED" then 1 else if s = lit "pipeline_error" then 4 else 5
  | _ => 3

def fill (k : ProcKind) (c : YCfg) : Except Err Opts :=
  match k with
  | .lowercase => .ok (.lowercase (text c (lit "field")) (text c (lit "target_field")) (flag c (lit "ignore_missing")))
  | .append => .ok (.append (text c (lit "field")) (text c (lit "value")) (flag c (lit "allow_duplicates")) (flag c (lit "ignore_missing")))
  | .set => .ok (.set (valueAt c) (text c (lit "copy_from")) (text c (lit "target_field")) (flag c (lit "ignore_failure")) (flag c (lit "ignore_missing")))
  | k => .ok k.zero

/-- The registry that pipeline_test.go:41-43 makes, without `fail`. -/
def reg : Registry Opts (Built Builtin (Option Err)) :=
  match registerKinds [] [.append, .lowercase, .set] with
  | .ok r => r
  | .panic => []

/-- The processors of that registry and `fail` (pipeline_test.go:115-138), whose struct has only `IgnoreFailure`. -/
def factory : Factory Builtin (Option Err) YCfg where
  newProcessor name c :=
    if name = lit "fail" then .ok (.ok ⟨.done (some (.other (lit "fail processor failed"))), some { ignoreFailure := some (flag c (lit "ignore_failure")) }⟩)
    else (registryFactory (fun _ => false) fill none reg).newProcessor name c
  nilConfig := none

/-- Process each event; the encoded events, `none` for an error. -/
def outputs (p : Pipeline Builtin (Option Err)) : List Bytes → PWorld Heap → List (Option Bytes)
  | [], _ => []
  | b :: bs, w =>
    match processText bitsEnv 100 asciiConv (some p) w b with
    | .ok (w, .text out) => some out :: outputs p bs w
    | .ok (w, _) => none :: outputs p bs w
    | .error _ => []

/-- The body of `TestPipelines`. -/
def runTest (y : Yaml) (events : List Bytes) : Option (List (Option Bytes)) :=
  match decodeYaml y with
  | some (some c) =>
    match Pipeline.new factory c.config with
    | .ok (.ok p) => some (outputs p events ⟨configHeap, fun _ => {}, []⟩)
    | _ => none
  | _ => none


/-- pkg/pipeline/testdata/global-on-failure.pipeline.yml, as a tree. -/
def globalOnFailure : Yaml :=
  Yaml.map [(.str (lit "id"), .str (lit "global-on-failure")), (.str (lit "description"), .str (lit "This test verifies the execution path of the pipeline when failures are involved.\n")), (.str (lit "processors"), .seq [.map [(.str (lit "append"), .map [(.str (lit "id"), .str (lit "append-A")), (.str (lit "field"), .str (lit "path")), (.str (lit "value"), .str (lit "A"))])], .map [(.str (lit "fail"), .map [(.str (lit "ignore_failure"), .plain (lit "true") (.bool true)), (.str (lit "on_failure"), .seq [.map [(.str (lit "append"), .map [(.str (lit "id"), .str (lit "append-B")), (.str (lit "field"), .str (lit "path")), (.str (lit "value"), .str (lit "B"))])], .map [(.str (lit "fail"), .plain (lit "null") .null)], .map [(.str (lit "append"), .map [(.str (lit "id"), .str (lit "append-NOT_EXECUTED_1")), (.str (lit "field"), .str (lit "path")), (.str (lit "value"), .str (lit "NOT_EXECUTED_1"))])]])])], .map [(.str (lit "append"), .map [(.str (lit "id"), .str (lit "append-C")), (.str (lit "field"), .str (lit "path")), (.str (lit "value"), .str (lit "C"))])], .map [(.str (lit "fail"), .plain (lit "null") .null)], .map [(.str (lit "append"), .map [(.str (lit "id"), .str (lit "append-NOT_EXECUTED_2")), (.str (lit "field"), .str (lit "path")), (.str (lit "value"), .str (lit "NOT_EXECUTED_2"))])]]), (.str (lit "on_failure"), .seq [.map [(.str (lit "append"), .map [(.str (lit "id"), .str (lit "append-D")), (.str (lit "field"), .str (lit "path")), (.str (lit "value"), .str (lit "D"))])]])]

/-- pkg/pipeline/testdata/global-on-failure.events.json, each event on its own and without spaces:
`{"hello":"world!"}` -/
def globalOnFailureIn : List Bytes := [
  [123, 34, 104, 101, 108, 108, 111, 34, 58, 34, 119, 111, 114, 108, 100, 33, 34, 125]]

/-- pkg/pipeline/testdata/global-on-failure.events-expected.json, the event of each output without spaces:
`{"hello":"world!","path":["A","B","C","D"]}` -/
def globalOnFailureOut : List Bytes := [
  [123, 34, 104, 101, 108, 108, 111, 34, 58, 34, 119, 111, 114, 108, 100, 33, 34, 44, 34, 112, 97, 116, 104, 34, 58, 91, 34, 65, 34, 44, 34, 66, 34, 44, 34, 67, 34, 44, 34, 68, 34, 93, 125]]

/-- `TestPipelines` (pipeline_test.go:331-390) with this pipeline. -/
theorem globalOnFailure_test : runTest globalOnFailure globalOnFailureIn = some (globalOnFailureOut.map some) := by
  decide +kernel

/-- pkg/pipeline/testdata/non-trivial.pipeline.yml, as a tree. -/
def nonTrivial : Yaml :=
  Yaml.map [(.str (lit "id"), .str (lit "logs-non_trivial")), (.str (lit "description"), .str (lit "This is an example pipeline.")), (.str (lit "processors"), .seq [.map [(.str (lit "lowercase"), .map [(.str (lit "field"), .str (lit "tmp.user_email")), (.str (lit "target_field"), .str (lit "user.email")), (.str (lit "ignore_missing"), .plain (lit "true") (.bool true))])], .map [(.str (lit "lowercase"), .map [(.str (lit "field"), .str (lit "tmp.user_id")), (.str (lit "target_field"), .str (lit "user.id")), (.str (lit "on_failure"), .seq [.map [(.str (lit "set"), .map [(.str (lit "target_field"), .str (lit "user.id")), (.str (lit "value"), .str (lit "UNKNOWN"))])]])])], .map [(.str (lit "lowercase"), .map [(.str (lit "field"), .str (lit "tmp.user_roles")), (.str (lit "target_field"), .str (lit "user.roles")), (.str (lit "on_failure"), .seq [.map [(.str (lit "set"), .map [(.str (lit "target_field"), .str (lit "user.id.roles")), (.str (lit "value"), .str (lit "FAILED")), (.str (lit "on_failure"), .seq [.map [(.str (lit "set"), .map [(.str (lit "target_field"), .str (lit "user.roles")), (.str (lit "value"), .seq [.str (lit "FAILURE")])])]])])]])])], .map [(.str (lit "lowercase"), .map [(.str (lit "field"), .str (lit "tmp.user_hash")), (.str (lit "target_field"), .str (lit "user.hash"))])]]), (.str (lit "on_failure"), .seq [.map [(.str (lit "set"), .map [(.str (lit "target_field"), .str (lit "event.kind")), (.str (lit "value"), .str (lit "pipeline_error")), (.str (lit "ignore_failure"), .plain (lit "true") (.bool true))])]])]

/-- pkg/pipeline/testdata/non-trivial.events.json, each event on its own and without spaces:
`{}`
`{"tmp":{"user_email":"hello@example.com"}}`
`{"tmp":{"user_email":1111}}`
`{"tmp":{"user_id":"id-2222"}}`
`{"tmp":{"user_id":2222}}`
`{"tmp":{"user_roles":["ADMIN","MANAGER"]}}`
`{"tmp":{"user_roles":[3333]}}`
`{"tmp":{"id":"my-id"}}`
`{"tmp":{"user_hash":"AABB1133FFEECC"}}` -/
def nonTrivialIn : List Bytes := [
  [123, 125],
  [123, 34, 116, 109, 112, 34, 58, 123, 34, 117, 115, 101, 114, 95, 101, 109, 97, 105, 108, 34, 58, 34, 104, 101, 108, 108, 111, 64, 101, 120, 97, 109, 112, 108, 101, 46, 99, 111, 109, 34, 125, 125],
  [123, 34, 116, 109, 112, 34, 58, 123, 34, 117, 115, 101, 114, 95, 101, 109, 97, 105, 108, 34, 58, 49, 49, 49, 49, 125, 125],
  [123, 34, 116, 109, 112, 34, 58, 123, 34, 117, 115, 101, 114, 95, 105, 100, 34, 58, 34, 105, 100, 45, 50, 50, 50, 50, 34, 125, 125],
  [123, 34, 116, 109, 112, 34, 58, 123, 34, 117, 115, 101, 114, 95, 105, 100, 34, 58, 50, 50, 50, 50, 125, 125],
  [123, 34, 116, 109, 112, 34, 58, 123, 34, 117, 115, 101, 114, 95, 114, 111, 108, 101, 115, 34, 58, 91, 34, 65, 68, 77, 73, 78, 34, 44, 34, 77, 65, 78, 65, 71, 69, 82, 34, 93, 125, 125],
  [123, 34, 116, 109, 112, 34, 58, 123, 34, 117, 115, 101, 114, 95, 114, 111, 108, 101, 115, 34, 58, 91, 51, 51, 51, 51, 93, 125, 125],
  [123, 34, 116, 109, 112, 34, 58, 123, 34, 105, 100, 34, 58, 34, 109, 121, 45, 105, 100, 34, 125, 125],
  [123, 34, 116, 109, 112, 34, 58, 123, 34, 117, 115, 101, 114, 95, 104, 97, 115, 104, 34, 58, 34, 65, 65, 66, 66, 49, 49, 51, 51, 70, 70, 69, 69, 67, 67, 34, 125, 125]]

/-- pkg/pipeline/testdata/non-trivial.events-expected.json, the event of each output without spaces:
`{"event":{"kind":"pipeline_error"},"user":{"id":"UNKNOWN","roles":["FAILURE"]}}`
`{"event":{"kind":"pipeline_error"},"tmp":{"user_email":"hello@example.com"},"user":{"email":"hello@example.com","id":"UNKNOWN","roles":["FAILURE"]}}`
`{"event":{"kind":"pipeline_error"},"tmp":{"user_email":1111}}`
`{"event":{"kind":"pipeline_error"},"tmp":{"user_id":"id-2222"},"user":{"id":"id-2222","roles":["FAILURE"]}}`
`{"event":{"kind":"pipeline_error"},"tmp":{"user_id":2222},"user":{"id":"UNKNOWN","roles":["FAILURE"]}}`
`{"event":{"kind":"pipeline_error"},"tmp":{"user_roles":["ADMIN","MANAGER"]},"user":{"id":"UNKNOWN","roles":["FAILURE"]}}`
`{"event":{"kind":"pipeline_error"},"tmp":{"user_roles":[3333]},"user":{"id":"UNKNOWN","roles":["FAILURE"]}}`
`{"event":{"kind":"pipeline_error"},"tmp":{"id":"my-id"},"user":{"id":"UNKNOWN","roles":["FAILURE"]}}`
`{"tmp":{"user_hash":"AABB1133FFEECC"},"user":{"hash":"aabb1133ffeecc","id":"UNKNOWN","roles":["FAILURE"]}}` -/
def nonTrivialOut : List Bytes := [
  [123, 34, 101, 118, 101, 110, 116, 34, 58, 123, 34, 107, 105, 110, 100, 34, 58, 34, 112, 105, 112, 101, 108, 105, 110, 101, 95, 101, 114, 114, 111, 114, 34, 125, 44, 34, 117, 115, 101, 114, 34, 58, 123, 34, 105, 100, 34, 58, 34, 85, 78, 75, 78, 79, 87, 78, 34, 44, 34, 114, 111, 108, 101, 115, 34, 58, 91, 34, 70, 65, 73, 76, 85, 82, 69, 34, 93, 125, 125],
  [123, 34, 101, 118, 101, 110, 116, 34, 58, 123, 34, 107, 105, 110, 100, 34, 58, 34, 112, 105, 112, 101, 108, 105, 110, 101, 95, 101, 114, 114, 111, 114, 34, 125, 44, 34, 116, 109, 112, 34, 58, 123, 34, 117, 115, 101, 114, 95, 101, 109, 97, 105, 108, 34, 58, 34, 104, 101, 108, 108, 111, 64, 101, 120, 97, 109, 112, 108, 101, 46, 99, 111, 109, 34, 125, 44, 34, 117, 115, 101, 114, 34, 58, 123, 34, 101, 109, 97, 105, 108, 34, 58, 34, 104, 101, 108, 108, 111, 64, 101, 120, 97, 109, 112, 108, 101, 46, 99, 111, 109, 34, 44, 34, 105, 100, 34, 58, 34, 85, 78, 75, 78, 79, 87, 78, 34, 44, 34, 114, 111, 108, 101, 115, 34, 58, 91, 34, 70, 65, 73, 76, 85, 82, 69, 34, 93, 125, 125],
  [123, 34, 101, 118, 101, 110, 116, 34, 58, 123, 34, 107, 105, 110, 100, 34, 58, 34, 112, 105, 112, 101, 108, 105, 110, 101, 95, 101, 114, 114, 111, 114, 34, 125, 44, 34, 116, 109, 112, 34, 58, 123, 34, 117, 115, 101, 114, 95, 101, 109, 97, 105, 108, 34, 58, 49, 49, 49, 49, 125, 125],
  [123, 34, 101, 118, 101, 110, 116, 34, 58, 123, 34, 107, 105, 110, 100, 34, 58, 34, 112, 105, 112, 101, 108, 105, 110, 101, 95, 101, 114, 114, 111, 114, 34, 125, 44, 34, 116, 109, 112, 34, 58, 123, 34, 117, 115, 101, 114, 95, 105, 100, 34, 58, 34, 105, 100, 45, 50, 50, 50, 50, 34, 125, 44, 34, 117, 115, 101, 114, 34, 58, 123, 34, 105, 100, 34, 58, 34, 105, 100, 45, 50, 50, 50, 50, 34, 44, 34, 114, 111, 108, 101, 115, 34, 58, 91, 34, 70, 65, 73, 76, 85, 82, 69, 34, 93, 125, 125],
  [123, 34, 101, 118, 101, 110, 116, 34, 58, 123, 34, 107, 105, 110, 100, 34, 58, 34, 112, 105, 112, 101, 108, 105, 110, 101, 95, 101, 114, 114, 111, 114, 34, 125, 44, 34, 116, 109, 112, 34, 58, 123, 34, 117, 115, 101, 114, 95, 105, 100, 34, 58, 50, 50, 50, 50, 125, 44, 34, 117, 115, 101, 114, 34, 58, 123, 34, 105, 100, 34, 58, 34, 85, 78, 75, 78, 79, 87, 78, 34, 44, 34, 114, 111, 108, 101, 115, 34, 58, 91, 34, 70, 65, 73, 76, 85, 82, 69, 34, 93, 125, 125],
  [123, 34, 101, 118, 101, 110, 116, 34, 58, 123, 34, 107, 105, 110, 100, 34, 58, 34, 112, 105, 112, 101, 108, 105, 110, 101, 95, 101, 114, 114, 111, 114, 34, 125, 44, 34, 116, 109, 112, 34, 58, 123, 34, 117, 115, 101, 114, 95, 114, 111, 108, 101, 115, 34, 58, 91, 34, 65, 68, 77, 73, 78, 34, 44, 34, 77, 65, 78, 65, 71, 69, 82, 34, 93, 125, 44, 34, 117, 115, 101, 114, 34, 58, 123, 34, 105, 100, 34, 58, 34, 85, 78, 75, 78, 79, 87, 78, 34, 44, 34, 114, 111, 108, 101, 115, 34, 58, 91, 34, 70, 65, 73, 76, 85, 82, 69, 34, 93, 125, 125],
  [123, 34, 101, 118, 101, 110, 116, 34, 58, 123, 34, 107, 105, 110, 100, 34, 58, 34, 112, 105, 112, 101, 108, 105, 110, 101, 95, 101, 114, 114, 111, 114, 34, 125, 44, 34, 116, 109, 112, 34, 58, 123, 34, 117, 115, 101, 114, 95, 114, 111, 108, 101, 115, 34, 58, 91, 51, 51, 51, 51, 93, 125, 44, 34, 117, 115, 101, 114, 34, 58, 123, 34, 105, 100, 34, 58, 34, 85, 78, 75, 78, 79, 87, 78, 34, 44, 34, 114, 111, 108, 101, 115, 34, 58, 91, 34, 70, 65, 73, 76, 85, 82, 69, 34, 93, 125, 125],
  [123, 34, 101, 118, 101, 110, 116, 34, 58, 123, 34, 107, 105, 110, 100, 34, 58, 34, 112, 105, 112, 101, 108, 105, 110, 101, 95, 101, 114, 114, 111, 114, 34, 125, 44, 34, 116, 109, 112, 34, 58, 123, 34, 105, 100, 34, 58, 34, 109, 121, 45, 105, 100, 34, 125, 44, 34, 117, 115, 101, 114, 34, 58, 123, 34, 105, 100, 34, 58, 34, 85, 78, 75, 78, 79, 87, 78, 34, 44, 34, 114, 111, 108, 101, 115, 34, 58, 91, 34, 70, 65, 73, 76, 85, 82, 69, 34, 93, 125, 125],
  [123, 34, 116, 109, 112, 34, 58, 123, 34, 117, 115, 101, 114, 95, 104, 97, 115, 104, 34, 58, 34, 65, 65, 66, 66, 49, 49, 51, 51, 70, 70, 69, 69, 67, 67, 34, 125, 44, 34, 117, 115, 101, 114, 34, 58, 123, 34, 104, 97, 115, 104, 34, 58, 34, 97, 97, 98, 98, 49, 49, 51, 51, 102, 102, 101, 101, 99, 99, 34, 44, 34, 105, 100, 34, 58, 34, 85, 78, 75, 78, 79, 87, 78, 34, 44, 34, 114, 111, 108, 101, 115, 34, 58, 91, 34, 70, 65, 73, 76, 85, 82, 69, 34, 93, 125, 125]]

/-- `TestPipelines` (pipeline_test.go:331-390) with this pipeline. -/
theorem nonTrivial_test : runTest nonTrivial nonTrivialIn = some (nonTrivialOut.map some) := by
  decide +kernel


/-! ## pkg/pipeline/pipeline_test.go -/

/-- `samplePipeline`: pipeline_test.go:83-112. -/
def sample (C : Type) (opts : List (Bytes × Bytes) → C) : Config C where
  id := lit "logs-sample"
  processors := [[(lit "set", some (.mk [] [] [] (opts [(lit "target_field", lit "event.id"), (lit "value", lit "1234")])))]]
  onFailure := [[(lit "set", some (.mk [] [] [] (opts [(lit "target_field", lit "event.kind"), (lit "value", lit "pipeline_error")])))]]

def sampleDescription : Bytes := lit "Parse sample data.\n\nIncoming data must follow RFC123 or else!"

def strings {V : Type} (f : Bytes → V) (es : List (Bytes × Bytes)) : Option (AMap V) := some (es.map fun e => (e.1, f e.2))

/-- `sampleConfigYAML` (pipeline_test.go:47-62) as a tree. -/
def sampleYaml : Yaml := .map [(.str (lit "id"), .str (lit "logs-sample")), (.str (lit "description"), .str sampleDescription),
  (.str (lit "processors"), .seq [.map [(.str (lit "set"), .map [(.str (lit "target_field"), .str (lit "event.id")), (.str (lit "value"), .str (lit "1234"))])]]),
  (.str (lit "on_failure"), .seq [.map [(.str (lit "set"), .map [(.str (lit "target_field"), .str (lit "event.kind")), (.str (lit "value"), .str (lit "pipeline_error"))])]])]

/-- `sampleConfigJSON`: pipeline_test.go:64-81. -/
def sampleJson : Bytes := [10, 123, 10, 32, 32, 34, 105, 100, 34, 58, 32, 34, 108, 111, 103, 115, 45, 115, 97, 109, 112, 108, 101, 34, 44, 10, 32, 32, 34, 100, 101, 115, 99, 114, 105, 112, 116, 105, 111, 110, 34, 58, 32, 34, 80, 97, 114, 115, 101, 32, 115, 97, 109, 112, 108, 101, 32, 100, 97, 116, 97, 46, 92, 110, 92, 110, 73, 110, 99, 111, 109, 105, 110, 103, 32, 100, 97, 116, 97, 32, 109, 117, 115, 116, 32, 102, 111, 108, 108, 111, 119, 32, 82, 70, 67, 49, 50, 51, 32, 111, 114, 32, 101, 108, 115, 101, 33, 34, 44, 10, 32, 32, 34, 112, 114, 111, 99, 101, 115, 115, 111, 114, 115, 34, 58, 32, 91, 10, 32, 32, 32, 32, 123, 10, 32, 32, 32, 32, 32, 32, 34, 115, 101, 116, 34, 58, 32, 123, 10, 32, 32, 32, 32, 32, 32, 32, 32, 34, 116, 97, 114, 103, 101, 116, 95, 102, 105, 101, 108, 100, 34, 58, 32, 34, 101, 118, 101, 110, 116, 46, 105, 100, 34, 44, 10, 32, 32, 32, 32, 32, 32, 32, 32, 34, 118, 97, 108, 117, 101, 34, 58, 32, 34, 49, 50, 51, 52, 34, 10, 32, 32, 32, 32, 32, 32, 125, 10, 32, 32, 32, 32, 125, 10, 32, 32, 93, 44, 10, 32, 32, 34, 111, 110, 95, 102, 97, 105, 108, 117, 114, 101, 34, 58, 32, 91, 10, 32, 32, 32, 32, 123, 10, 32, 32, 32, 32, 32, 32, 34, 115, 101, 116, 34, 58, 32, 123, 10, 32, 32, 32, 32, 32, 32, 32, 32, 34, 116, 97, 114, 103, 101, 116, 95, 102, 105, 101, 108, 100, 34, 58, 32, 34, 101, 118, 101, 110, 116, 46, 107, 105, 110, 100, 34, 44, 10, 32, 32, 32, 32, 32, 32, 32, 32, 34, 118, 97, 108, 117, 101, 34, 58, 32, 34, 112, 105, 112, 101, 108, 105, 110, 101, 95, 101, 114, 114, 111, 114, 34, 10, 32, 32, 32, 32, 32, 32, 125, 10, 32, 32, 32, 32, 125, 10, 32, 32, 93, 10, 125, 10]

/-- The same without the white space between tokens. -/
def sampleCompact : Bytes := [123, 34, 105, 100, 34, 58, 34, 108, 111, 103, 115, 45, 115, 97, 109, 112, 108, 101, 34, 44, 34, 100, 101, 115, 99, 114, 105, 112, 116, 105, 111, 110, 34, 58, 34, 80, 97, 114, 115, 101, 32, 115, 97, 109, 112, 108, 101, 32, 100, 97, 116, 97, 46, 92, 110, 92, 110, 73, 110, 99, 111, 109, 105, 110, 103, 32, 100, 97, 116, 97, 32, 109, 117, 115, 116, 32, 102, 111, 108, 108, 111, 119, 32, 82, 70, 67, 49, 50, 51, 32, 111, 114, 32, 101, 108, 115, 101, 33, 34, 44, 34, 112, 114, 111, 99, 101, 115, 115, 111, 114, 115, 34, 58, 91, 123, 34, 115, 101, 116, 34, 58, 123, 34, 116, 97, 114, 103, 101, 116, 95, 102, 105, 101, 108, 100, 34, 58, 34, 101, 118, 101, 110, 116, 46, 105, 100, 34, 44, 34, 118, 97, 108, 117, 101, 34, 58, 34, 49, 50, 51, 52, 34, 125, 125, 93, 44, 34, 111, 110, 95, 102, 97, 105, 108, 117, 114, 101, 34, 58, 91, 123, 34, 115, 101, 116, 34, 58, 123, 34, 116, 97, 114, 103, 101, 116, 95, 102, 105, 101, 108, 100, 34, 58, 34, 101, 118, 101, 110, 116, 46, 107, 105, 110, 100, 34, 44, 34, 118, 97, 108, 117, 101, 34, 58, 34, 112, 105, 112, 101, 108, 105, 110, 101, 95, 101, 114, 114, 111, 114, 34, 125, 125, 93, 125]

/-- `TestPipelineConfigYAMLUnmarshal`: pipeline_test.go:140-147. -/
theorem yaml_unmarshal_test : decodeYaml sampleYaml = some (some ⟨sample YCfg (strings .str), sampleDescription⟩) := by
  rfl


set_option maxRecDepth 100000 in
/-- `TestPipelineConfigJSONUnmarshal`: pipeline_test.go:149-156. -/
theorem json_unmarshal_test : unmarshalConfig bitsEnv sampleJson = some (some ⟨sample JCfg (strings Spec.str), sampleDescription⟩) := by
  rfl

/-- `TestPipelineConfigJSONMarshal` (pipeline_test.go:158-168), without the indentation. -/
theorem json_marshal_test : marshalConfig bitsEnv ⟨sample JCfg (strings Spec.str), sampleDescription⟩ = .ok sampleCompact := by
  decide +kernel

/-- `newTestEvent` (pipeline_test.go:325-330) and what an event is in the tests below: the key `key` after processing with the configuration, or `none` for an error. -/
def afterProcess (c : Config YCfg) (key : Bytes) : Option (Option Bytes) :=
  let h := configHeap ++ [.cell (strCell (lit "1234")), .cell (strCell (lit "VCX-9833"))]
  match Pipeline.new factory c with
  | .ok (.ok p) =>
    match apiPut h newEvent (lit "vehicle.vin") (some 6) with
    | .ok (h, e, _, none) =>
      match apiPut h e (lit "vehicle.tag") (some 7) with
      | .ok (h, e, _, none) =>
        match p.process (builtinCall asciiConv) () ⟨(h, e), fun _ => {}, []⟩ with
        | .ok (w, some _, none) =>
          match apiGet w.world.1 w.world.2 key with
          | .ok (h, v) => some ((deref h v).map (·.string))
          | .panic => none
        | .ok (_, none, some (.keyMissing k)) => if k = lit "non_existent" then some none else none
        | _ => none
      | _ => none
    | _ => none
  | _ => none

def lowercaseMissing (handlers : List (ProcCfg YCfg)) : List (ProcCfg YCfg) := [[(lit "lowercase", some (.mk [] [] handlers (strings .str [(lit "field", lit "non_existent")])))]]

def setKind : List (ProcCfg YCfg) := [[(lit "set", some (.mk [] [] [] (strings .str [(lit "target_field", lit "event.kind"), (lit "value", lit "pipeline_error")])))]]

/-- `TestPipeline` (pipeline_test.go:186-323), its five parts: the field that is read, or `some none` for the error about `non_existent`. -/
theorem pipeline_test :
    afterProcess (sample YCfg (strings .str)) (lit "event.id") = some (some (lit "1234")) ∧
    afterProcess ⟨lit "lowercase-non-existent", lowercaseMissing [], []⟩ (lit "event.kind") = some none ∧
    afterProcess ⟨lit "lowercase-non-existent", lowercaseMissing setKind, []⟩ (lit "event.kind") = some (some (lit "pipeline_error")) ∧
    afterProcess ⟨lit "lowercase-non-existent", lowercaseMissing [], setKind⟩ (lit "event.kind") = some (some (lit "pipeline_error")) := by
  decide +kernel

/-- The names and whether there are options of the first entry: `TestConfigUnmarshal`, config_test.go:28-47. -/
theorem config_unmarshal_test : (decodeYaml (.map [(.str (lit "processors"), .seq [.map [(.str (lit "fail"), .plain [] .null)], .map [(.str (lit "set"), .plain [] .null)]]), (.str (lit "on_failure"), .seq [.map [(.str (lit "set"), .plain [] .null)]])])) =
    some (some ⟨⟨[], [[(lit "fail", none)], [(lit "set", none)]], [[(lit "set", none)]]⟩, []⟩) := by
  rfl

/-! ## pkg/event -/

/-- `TestKeyToPath`: event_test.go:228-282. -/
theorem keyToPath_test :
    keyToPath (lit "foo") = [lit "foo"] ∧ keyToPath (lit ".foo") = [lit "foo"] ∧ keyToPath (lit "\\.foo") = [lit ".foo"] ∧ keyToPath (lit "foo.") = [lit "foo"] ∧
    keyToPath (lit "foo\\.") = [lit "foo."] ∧ keyToPath (lit ".") = [] ∧ keyToPath (lit "\\.") = [lit "."] ∧ keyToPath (lit "foo.bar") = [lit "foo", lit "bar"] ∧
    keyToPath (lit "foo\\.bar") = [lit "foo.bar"] := by
  decide +kernel

/-- `TestPathString`: event_test.go:284-290. -/
theorem pathString_test : pathString [] = lit "/" ∧ pathString [lit "event"] = lit "/event" ∧ pathString [lit "event", lit "ingested"] = lit "/event/ingested" ∧ pathString [lit "ecs.version"] = lit "/ecs.version" := by
  decide +kernel

/-- `TestValueTypeString`: value_test.go:30-36. -/
theorem typeName_test (t : VType) : t.name = lit "unknown_type" ↔ t = .unknown := by
  cases t <;> decide +kernel

def testTimeUnix : BitVec 64 := 1642121157123456789

/-- The values of `TestValueString`, and those that they contain. -/
def values : Heap := [.cell nullCell, .cell (intCell 1), .cell (uintCell 1), .cell (floatCell 1), .cell (strCell (lit "foo")), .cell (boolCell true), .cell (tsCell testTimeUnix), .cell (arrCell (some [some 0])),
  .cell (objCell (some 9)), .map [(lit "foo", some 10)], .cell (strCell (lit "bar"))]

/-- `TestValueString`: value_test.go:38-109 (floats are printed as their bits by `bitsEnv`). -/
theorem valueString_test : (List.range 9).map (fun a => formatPtr bitsEnv.ftoa values 9 (some a)) =
    [lit "null_type:<nil>", lit "integer_type:1", lit "unsigned_integer_type:1", lit "float_type:1", lit "string_type:foo", lit "bool_type:true", lit "timestamp_type:1642121157123456789",
      lit "array_type:[null_type:<nil>]", lit "object_type:map[foo:string_type:bar]"].map some := by
  decide +kernel

/-- `TestValueJSONMarshal`: value_test.go:111-126. `{"hello":"world"}` -/
theorem valueJson_test : marshalPtr bitsEnv [.cell (objCell (some 1)), .map [(lit "hello", some 2)], .cell (strCell (lit "world"))] 9 (some 0) = .ok (lit "{\"hello\":\"world\"}") := by
  decide +kernel

/-- `TestTimeMarshalJSON`: time_test.go:30-41. -/
theorem timeJson_test : timeMarshalJSON testTimeUnix.toInt = lit "\"2022-01-14T00:45:57.123456789Z\"" := by
  decide +kernel

/-- Puts, one after the other, that all succeed. -/
def puts : List (Bytes × Ptr) → Heap → Event → Option (Heap × Event)
  | [], h, e => some (h, e)
  | (k, p) :: es, h, e =>
    match apiPut h e k p with
    | .ok (h, e, _, none) => puts es h e
    | _ => none

/-- `ExampleEvent` (event_test.go:30-57), without the indentation. -/
theorem exampleEvent_test : (puts [(lit "event.category", some 2), (lit "event.type", some 4), (lit "event.created", some 5), (lit "foo\\.bar", some 6)]
    [.cell (strCell (lit "network")), .cell (strCell (lit "authentication")), .cell (arrCell (some [some 0, some 1])), .cell (strCell (lit "denied")), .cell (arrCell (some [some 3])), .cell (tsCell testTimeUnix), .cell (intCell 1)]
    newEvent).map (fun r => marshalEvent bitsEnv 20 r.1 r.2) =
    some (.ok (lit "{\"event\":{\"category\":[\"network\",\"authentication\"],\"created\":\"2022-01-14T00:45:57.123456789Z\",\"type\":[\"denied\"]},\"foo.bar\":1}")) := by
  decide +kernel

/-- The heap of the tests below: the value `val` at 0, `original` at 1, an event with `a` = `original` at 2, one with `a` = `val` at 3, one with `a.b` = `val` at 4. -/
def eventHeap : Heap := [.cell (strCell (lit "val")), .cell (strCell (lit "original")), .map [(lit "a", some 1)], .map [(lit "a", some 0)], .map [(lit "a", some 5)], .cell (objCell (some 6)), .map [(lit "b", some 0)]]

/-- Which error: 1 for `ErrEmptyKey`, 2 for `ErrKeyExists`, 3 for `ErrTargetKeyNotObject`. -/
def errCode : Option PutErr → Nat
  | none => 0
  | some .emptyKey => 1
  | some (.keyExists _) => 2
  | some (.notObject _) => 3

def putResult (r : Res (Heap × Event × Ptr × Option PutErr)) (key : Bytes) : Option (Ptr × Nat × Ptr) :=
  match r with
  | .ok (h, e, old, err) =>
    match apiGet h e key with
    | .ok (_, p) => some (old, errCode err, p)
    | .panic => none
  | .panic => none

/-- `TestEventPut`: event_test.go:59-123: the old value, the error, and what the event has afterwards. -/
theorem eventPut_test :
    putResult (apiPut eventHeap newEvent (lit "a") (some 0)) (lit "a") = some (none, 0, some 0) ∧
    putResult (apiPut eventHeap newEvent (lit "a.b") (some 0)) (lit "a.b") = some (none, 0, some 0) ∧
    putResult (apiPut eventHeap newEvent (lit "") (some 0)) (lit "a") = some (none, 1, none) ∧
    putResult (apiPut eventHeap (some 2) (lit "a") (some 0)) (lit "a") = some (some 1, 0, some 0) ∧
    putResult (apiTryPut eventHeap (some 2) (lit "a") (some 0)) (lit "a") = some (some 1, 2, some 1) ∧
    putResult (apiPut eventHeap (some 2) (lit "a.b") (some 0)) (lit "a") = some (none, 3, some 1) := by
  decide +kernel

def got (r : Res (Heap × Ptr)) : Option Ptr :=
  match r with
  | .ok (_, p) => some p
  | .panic => none

/-- `TestEventGet` and `TestEventDelete`: event_test.go:125-204. -/
theorem eventGet_test :
    got (apiGet eventHeap (some 3) (lit "a")) = some (some 0) ∧
    (match apiGet eventHeap (some 3) (lit ".") with | .ok (h, p) => formatPtr bitsEnv.ftoa h 9 p | .panic => none) = some (lit "object_type:map[a:string_type:val]") ∧
    got (apiGet eventHeap (some 4) (lit "a.b")) = some (some 0) ∧ got (apiGet eventHeap newEvent (lit "a")) = some none ∧ got (apiGet [.map []] (some 0) (lit "a")) = some none ∧
    got (apiDelete eventHeap newEvent (lit "")) = some none ∧ got (apiDelete [.map []] (some 0) (lit "")) = some none ∧ got (apiDelete eventHeap (some 3) (lit "a")) = some (some 0) ∧
    got (apiDelete eventHeap (some 4) (lit "a.b")) = some (some 0) ∧ got (apiDelete [.map []] (some 0) (lit "a")) = some none := by
  decide +kernel

/-! ## pkg/serialization -/

/-- The event's root, printed. -/
def printed (h : Heap) (e : Event) : Option Bytes :=
  match apiGet h e (lit ".") with
  | .ok (h, p) => formatPtr bitsEnv.ftoa h 9 p
  | .panic => none

/-- The values of `testEvent` (mapinterface_test.go:88-113) and of the one of protobuf_test.go:44-52; address 0 is `event.NullValue`, floats are bits, and the hash is shortened. -/
def testValues : Heap := [.cell nullCell, .cell (strCell (lit "world")), .cell (strCell (lit "value")), .cell (tsCell testTimeUnix), .cell (intCell 3), .cell (floatCell 51), .cell (intCell 14), .cell (boolCell true),
  .cell (strCell (lit "1.1.1.1")), .cell (strCell (lit "8.8.8.8")), .cell (arrCell (some [some 8, some 9])), .cell (intCell 53), .cell (strCell (lit "foo")), .cell (strCell (lit "/root")), .cell (strCell (lit "a6a0")),
  .cell (strCell (lit "failure in pipeline")), .cell (strCell (lit "7.16.2"))]

/-- mapinterface_test.go:88-113. -/
def mapPuts : List (Bytes × Ptr) := [(lit "hello", some 1), (lit "dotted\\.key", some 2), (lit "event.created", some 3), (lit "event.ingested", some 3), (lit "event.start", some 3), (lit "event.count", some 4),
  (lit "event.risk_score", some 5), (lit "event.sequence", some 6), (lit "final", some 7), (lit "source", some 0), (lit "related.ip", some 10), (lit "destination.port", some 11), (lit "destination.18", some 12),
  (lit "file.path", some 13), (lit "file.hash.sha256", some 14), (lit "user.name", some 0), (lit "error.message", some 15), (lit "agent.build\\.original", some 16)]

def now : GoTime := timeGoTime testTimeUnix.toInt

/-- mapinterface_test.go:46-86. -/
def testMap : List (Bytes × GIface) := [
  (lit "hello", stdVal (.string (lit "world"))),
  (lit "dotted\\.key", stdVal (.string (lit "value"))),
  (lit "event", stdVal (.map [(lit "created", .val (stdTime (fun _ => []) now)), (lit "ingested", .val (stdTime (fun _ => []) now)), (lit "start", .val (.mk false {} (.time 0 now))), (lit "count", stdVal (.int .int 3)),
    (lit "risk_score", stdVal (.float64 51)), (lit "sequence", .val (.mk false {} (.int .int32 14)))])),
  (lit "related", stdVal (.map [(lit "ip", .val (.mk false {} (.list false [stdVal (.string (lit "1.1.1.1")), stdVal (.string (lit "8.8.8.8"))])))])),
  (lit "final", stdVal (.bool true)),
  (lit "source", .nil),
  (lit "destination", .val (.mk false {} (.map [(lit "port", stdVal (.int .int 53)), (lit "18", stdVal (.string (lit "foo")))]))),
  (lit "file", .val (.mk false {} (.ptr (.to (.val (.mk false {} (.struct [.mk (lit "Path") true [] false (.val (.mk true {} (.string (lit "/root")))),
    .mk (lit "Hash") true [] false (.val (.mk false {} (.struct [.mk (lit "SHA256") true [] false (.val (.mk true {} (.string (lit "a6a0"))))])))]))))))),
  (lit "user", stdVal (.map [(lit "name", .nil)])),
  (lit "error", stdVal (.map [(lit "message", .val (.mk false { error := some (.ok (lit "failure in pipeline")) } (.ptr .nil)))])),
  (lit "agent", .val (.mk false {} (.struct [.mk (lit "BuildOriginal") true (lit "build.original") false (.val (.mk true {} (.string (lit "7.16.2"))))])))]

def mapEnv : REnv := ⟨some 0, asciiConv.lower, fun _ => 0⟩

def expectedText : Option Bytes := (puts mapPuts testValues newEvent).bind fun r => printed r.1 r.2

/-- `TestToEvent`: mapinterface_test.go:115-119. -/
theorem toEvent_test : expectedText.isSome ∧ (match mapToEvent mapEnv id testMap [.cell nullCell] with | .ok (h, e) => printed h e | _ => none) = expectedText := by
  decide +kernel

/-- `TestReflectValue`: pkg/eventutil/reflect_test.go:26-30. -/
theorem reflect_test : (match ifaceToValue mapEnv (.val (.mk false {} (.list true [stdVal (.string (lit "foo"))]))) [.cell nullCell] with | .ok (h, p) => formatPtr bitsEnv.ftoa h 9 p | _ => none) = some (lit "array_type:[string_type:foo]") := by
  decide +kernel

/-- The event to protobuf bytes and back. -/
def throughWire (h : Heap) (e : Event) : Option Bytes :=
  match fromEvent 9 h e with
  | .ok m =>
    match Wire.marshal m with
    | .ok bs =>
      match Wire.unmarshal bs with
      | .ok m =>
        match toLogEvent (some 0) m.getLog h with
        | .ok (h, some e) => printed h e
        | _ => none
      | _ => none
    | _ => none
  | _ => none

/-- `TestFromToEvent`: pkg/serialization/protobuf/protobuf_test.go:54-71. -/
theorem fromToEvent_test : ((puts [(lit "hello", some 1), (lit "dotted\\.key", some 2), (lit "event.created", some 3), (lit "event.ingested", some 3), (lit "event.count", some 4)] testValues newEvent).map fun r => (printed r.1 r.2, throughWire r.1 r.2)) =
    some (some (lit "object_type:map[dotted.key:string_type:value event:object_type:map[count:integer_type:3 created:timestamp_type:1642121157123456789 ingested:timestamp_type:1642121157123456789] hello:string_type:world]"),
      some (lit "object_type:map[dotted.key:string_type:value event:object_type:map[count:integer_type:3 created:timestamp_type:1642121157123456789 ingested:timestamp_type:1642121157123456789] hello:string_type:world]")) := by
  decide +kernel

end Sawmill.RepoTests
