import Verif.Model.Builtins
import Verif.Model.Cli
import Verif.Model.ConfigJson
/-!
# The examples: examples/c/cshared/main.go and examples/wasm/wasm.go

Simplifications. The texts of errors are in `Model/ProgramTexts.lean`: here a reply says which error it is. What `Load` prints is not modelled. Memory is never freed. `js.Value.String` of the two arguments, and the conversion of the result by syscall/js, are not modelled: the arguments are texts, the
result is the Go value. A crash (a panic reaches the caller and ends the program) leaves no state.
-/

namespace Sawmill

/-! ## A nil event -/

/-- `Process` of a processor on a nil `*event.Event`. `Get` dereferences it (event.go:102), `Put` does so after its checks of path and value (event.go:61-68). -/
def Builtin.nilStep : Builtin → Heap → Res (Option Err)
  | .lowercase _ _, _ => .panic
  | .uppercase _ _, _ => .panic
  | .append _ _ _, _ => .panic
  | .remove _, _ => .ok none
  | .communityId, _ => .ok none
  | .set value copyFrom target, h =>
    match deref h (some value) with
    | none => .panic
    | some c =>
      if c.type ≠ .null then (if keyToPath target = [] then .ok (some PutErr.emptyKey.toErr) else .panic)
      else if copyFrom ≠ [] then .panic
      else if keyToPath target = [] then .ok (some PutErr.emptyKey.toErr)
      else .ok none

/-- `Process(nil)`: pipeline.go:63-75. -/
def Pipeline.processNil (p : Pipeline Builtin (Option Err)) (w : PWorld Heap) : Res (PWorld Heap × Option Unit × Option Err) :=
  p.process (fun _ h b => (b.nilStep h).map fun e => (h, e)) () w

/-! ## Decoding an event, processing it, encoding it -/

/-- How a call ends without crashing. -/
inductive Reply where
  /-- the JSON of the event -/
  | text (bs : Bytes)
  /-- the input is not an event -/
  | badInput
  /-- `Process` returned an error -/
  | failed (err : Err)
  /-- `json.Marshal` returned an error -/
  | unencodable

/-- main.go:55-71: `json.Unmarshal` into a new `*event.Event` (nil for `null`), `Process`, `json.Marshal`. -/
def processText (env : JEnv) (n : Nat) (cv : Conv) (pipe : Option (Pipeline Builtin (Option Err))) (w : PWorld Heap) (input : Bytes) : Except CliEnd (PWorld Heap × Reply) :=
  match unmarshalEvent env input w.world with
  | none => .ok (w, .badInput)
  | some (h, evt) =>
    match pipe with
    | none => .error .panic
    | some p =>
      match evt with
      | none =>
        match p.processNil ⟨h, w.counts, w.log⟩ with
        | .panic => .error .panic
        | .ok (w, _, some err) => .ok (w, .failed err)
        | .ok (w, _, none) => .ok (w, .text (lit "null"))
      | some m =>
        match p.process (builtinCall cv) () ⟨(h, some m), w.counts, w.log⟩ with
        | .panic => .error .panic
        | .ok (w, _, some err) => .ok (⟨w.world.1, w.counts, w.log⟩, .failed err)
        | .ok (w, none, none) => .ok (⟨w.world.1, w.counts, w.log⟩, .text (lit "null"))
        | .ok (w, some _, none) =>
          match marshalEvent env n w.world.1 w.world.2 with
          | .fuel => .error .overflow
          | .error => .ok (⟨w.world.1, w.counts, w.log⟩, .unencodable)
          | .ok bs => .ok (⟨w.world.1, w.counts, w.log⟩, .text bs)

/-! ## The C library -/

/-- `C.GoString`: the bytes before the first zero byte. -/
def goString (s : Bytes) : Bytes := s.takeWhile (· ≠ 0)

/-- The state of the library: the variable `pipe` (main.go:32), and memory. -/
structure CLib where
  pipe : Option (Pipeline Builtin (Option Err)) := none
  world : PWorld Heap

/-- `Load`: main.go:35-50. `pipe` is assigned also if `New` fails. -/
def CLib.load (env : JEnv) (F : Factory Builtin (Option Err) JCfg) (s : CLib) (text : Bytes) : Except CliEnd (CLib × Nat) :=
  match unmarshalConfig env (goString text) with
  | none => .ok (s, 1)
  | some c =>
    match Pipeline.newFromPtr F c with
    | .panic => .error .panic
    | .ok (.error _) => .ok ({ s with pipe := none }, 1)
    | .ok (.ok p) => .ok ({ s with pipe := some p }, 0)

/-- `Process`: main.go:53-73. -/
def CLib.process (env : JEnv) (n : Nat) (cv : Conv) (s : CLib) (input : Bytes) : Except CliEnd (CLib × Reply) :=
  match processText env n cv s.pipe s.world (goString input) with
  | .error e => .error e
  | .ok (w, r) => .ok ({ s with world := w }, r)

/-- A call, and its reply. -/
inductive CCall where
  | load (text : Bytes)
  | process (input : Bytes)

inductive CReply where
  | code (n : Nat)
  | reply (r : Reply)

def CLib.call (env : JEnv) (n : Nat) (cv : Conv) (F : Factory Builtin (Option Err) JCfg) (s : CLib) : CCall → Except CliEnd (CLib × CReply)
  | .load t => match s.load env F t with
    | .error e => .error e
    | .ok (s, c) => .ok (s, .code c)
  | .process t => match s.process env n cv t with
    | .error e => .error e
    | .ok (s, r) => .ok (s, .reply r)

/-- A sequence of calls: the replies, and the crash if there is one. -/
def CLib.calls (env : JEnv) (n : Nat) (cv : Conv) (F : Factory Builtin (Option Err) JCfg) : CLib → List CCall → List CReply × Option CliEnd
  | _, [] => ([], none)
  | s, c :: cs =>
    match s.call env n cv F c with
    | .error e => ([], some e)
    | .ok (s, r) =>
      let (rs, e) := CLib.calls env n cv F s cs
      (r :: rs, e)

/-! ## The WebAssembly demo -/

/-- What `process` returns: wasm.go:35-64. -/
inductive WasmReply where
  | usage
  | badConfig
  | refused (err : NewErr)
  | badEvent
  | failed (err : Err)
  /-- a `map[string]interface{}` -/
  | object (m : Option (AMap Val))

/-- `toObject`: wasm.go:68-80. It panics if the event cannot be encoded. `map[string]interface{}` of `null` is nil. -/
def toObject (env : JEnv) (text : JOut Bytes) : Except CliEnd (Option (AMap Val)) :=
  match text with
  | .fuel => .error .overflow
  | .error => .error .panic
  | .ok bs =>
    match parseDoc bs with
    | some .null => .ok none
    | some (.obj es) =>
      match decIE env es [] with
      | some m => .ok (some m)
      | none => .error .panic
    | _ => .error .panic

/-- `process`: wasm.go:35-64. -/
def wasmProcess (env : JEnv) (n : Nat) (cv : Conv) (F : Factory Builtin (Option Err) JCfg) (w : PWorld Heap) (args : List Bytes) : Except CliEnd (PWorld Heap × WasmReply) :=
  match args with
  | [pipelineJSON, eventJSON] =>
    match unmarshalConfig env pipelineJSON with
    | none => .ok (w, .badConfig)
    | some c =>
      match Pipeline.newFromPtr F c with
      | .panic => .error .panic
      | .ok (.error e) => .ok (w, .refused e)
      | .ok (.ok p) =>
        match unmarshalEvent env eventJSON w.world with
        | none => .ok (w, .badEvent)
        | some (h, none) =>
          match p.processNil ⟨h, w.counts, w.log⟩ with
          | .panic => .error .panic
          | .ok (w, _, some err) => .ok (w, .failed err)
          | .ok (w, _, none) => (toObject env (.ok (lit "null"))).map fun m => (w, .object m)
        | some (h, some m) =>
          match p.process (builtinCall cv) () ⟨(h, some m), w.counts, w.log⟩ with
          | .panic => .error .panic
          | .ok (w, _, some err) => .ok (⟨w.world.1, w.counts, w.log⟩, .failed err)
          | .ok (w, none, none) => (toObject env (.ok (lit "null"))).map fun m => (⟨w.world.1, w.counts, w.log⟩, .object m)
          | .ok (w, some _, none) => (toObject env (marshalEvent env n w.world.1 w.world.2)).map fun m => (⟨w.world.1, w.counts, w.log⟩, .object m)
  | _ => .ok (w, .usage)

end Sawmill
