import Verif.Model.Pipeline
import Verif.Base.AMap
import Verif.Base.Decimal
/-!
# Building a pipeline from its configuration (pkg/pipeline/config.go, pipeline.go, processor.go)

`C` is the type of a processor's own options (`map[string]interface{}`); constructing a processor from its name and options is a parameter (`Factory`, the registry of `Model/Registry.lean`).
The configuration is what the YAML or JSON decoder produced.
-/

namespace Sawmill

/-- `ProcessorOptionConfig` (config.go:34-39) and `ProcessorConfig` (config.go:32: a map from names to possibly nil option pointers). -/
inductive OptCfg (C : Type) where
  | mk (id cond : Bytes) (onFailure : List (List (Bytes × Option (OptCfg C)))) (config : C)

/-- `ProcessorConfig`: config.go:32. -/
abbrev ProcCfg (C : Type) := List (Bytes × Option (OptCfg C))

/-- `Config`: config.go:25-30. -/
structure Config (C : Type) where
  id : Bytes
  processors : List (ProcCfg C)
  onFailure : List (ProcCfg C)

/-- What `ignores` (processor.go:176-199) sees of a processor's `Config` method by reflection: its numbers of arguments and results, whether the result is a struct, and the
boolean fields `IgnoreMissing` and `IgnoreFailure` if present. -/
structure ConfigMethod where
  numIn : Nat := 0
  numOut : Nat := 1
  isStruct : Bool := true
  ignoreMissing : Option Bool := none
  ignoreFailure : Option Bool := none

/-- A constructed processor. -/
structure Built (A R : Type) where
  proc : Prog A R
  config : Option ConfigMethod

/-- Errors of `New`. -/
inductive NewErr where
  | emptyId                       -- pipeline.go:36
  | noProcessor                   -- config.go:45
  | manyProcessors                -- config.go:48
  | construct (id : Bytes) (err : Err)   -- processor.go:123
  | noConfigMethod                -- processor.go:182
  | configResults                 -- processor.go:186

/-- `registry.NewProcessor` (registry.go:42-44) and the nil `map[string]interface{}` it gets for an option-less processor. -/
structure Factory (A R C : Type) where
  newProcessor : Bytes → C → Res (Except Err (Built A R))
  nilConfig : C

section
variable {A R C : Type} (F : Factory A R C)

/-- `ignores`: processor.go:176-199. Returns (ignoreMissing, ignoreFailure). Calling a method that needs arguments with none panics, as does `FieldByName` on a non-struct. -/
def ignores (b : Built A R) : Res (Except NewErr (Option Bool × Option Bool)) :=
  match b.config with
  | none => .ok (.error .noConfigMethod)
  | some m =>
    if m.numOut ≠ 1 then .ok (.error .configResults)
    else if m.numIn ≠ 0 then .panic
    else if m.isStruct = false then .panic
    else .ok (.ok (m.ignoreMissing, m.ignoreFailure))

/-- `id := baseID + "[" + strconv.Itoa(processorIndex) + "]." + processorType`: processor.go:113. -/
def componentId (base : Bytes) (i : Nat) (name : Bytes) : Bytes := base ++ lit "[" ++ itoa i ++ lit "]." ++ name

/-- `newPipelineProcessor`: processor.go:111-174; `handlers` builds the nested on_failure processors under the given base ID (processor.go:131). -/
def newProcessor (base : Bytes) (i : Nat) (name cond : Bytes) (config : C)
    (handlers : Bytes → Res (Except NewErr (List (Node A R)))) : Res (Except NewErr (Node A R)) :=
  let id := componentId base i name
  match F.newProcessor name config with
  | .panic => .panic
  | .ok (.error e) => .ok (.error (.construct id e))
  | .ok (.ok b) =>
    match ignores b with
    | .panic => .panic
    | .ok (.error e) => .ok (.error e)
    | .ok (.ok (ignM, ignF)) =>
      match handlers (id ++ lit ".on_failure") with
      | .panic => .panic
      | .ok (.error e) => .ok (.error e)
      | .ok (.ok hs) => .ok (.ok (.mk id cond (ignF.getD false) (ignM.getD false) hs b.proc))

mutual
/-- The loop of `newPipelineProcessors`: processor.go:88-109. -/
def newProcessors (base : Bytes) : List (ProcCfg C) → Nat → Res (Except NewErr (List (Node A R)))
  | [], _ => .ok (.ok [])
  | c :: cs, i =>
    match newFrom base i c with
    | .panic => .panic
    | .ok (.error e) => .ok (.error e)
    | .ok (.ok n) =>
      match newProcessors base cs (i + 1) with
      | .panic => .panic
      | .ok (.error e) => .ok (.error e)
      | .ok (.ok ns) => .ok (.ok (n :: ns))
/-- One entry of the loop: `getProcessor` (config.go:43-59) followed by `newPipelineProcessor`. -/
def newFrom (base : Bytes) (i : Nat) : ProcCfg C → Res (Except NewErr (Node A R))
  | [] => .ok (.error .noProcessor)
  | [e] => newEntry base i e
  | _ :: _ :: _ => .ok (.error .manyProcessors)
def newEntry (base : Bytes) (i : Nat) : Bytes × Option (OptCfg C) → Res (Except NewErr (Node A R))
  | (name, o) => newOptions base i name o
/-- config.go:51-53: a nil option pointer stands for zero options. -/
def newOptions (base : Bytes) (i : Nat) (name : Bytes) : Option (OptCfg C) → Res (Except NewErr (Node A R))
  | none => newProcessor F base i name [] F.nilConfig (fun _ => .ok (.ok []))
  | some o => newOption base i name o
def newOption (base : Bytes) (i : Nat) (name : Bytes) : OptCfg C → Res (Except NewErr (Node A R))
  | .mk _ cond onF config => newProcessor F base i name cond config (fun b => newProcessors b onF 0)
end

/-- `New`: pipeline.go:34-54. -/
def Pipeline.new (c : Config C) : Res (Except NewErr (Pipeline A R)) :=
  if c.id = [] then .ok (.error .emptyId)
  else match newProcessors F (c.id ++ lit ".processors") c.processors 0 with
    | .panic => .panic
    | .ok (.error e) => .ok (.error e)
    | .ok (.ok ps) =>
      match newProcessors F (c.id ++ lit ".on_failure") c.onFailure 0 with
      | .panic => .panic
      | .ok (.error e) => .ok (.error e)
      | .ok (.ok hs) => .ok (.ok ⟨c.id, ps, hs⟩)
end

end Sawmill
