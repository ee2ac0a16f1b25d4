import Verif.Model.Registry
import Verif.Model.Processors
/-!
# The registered processors: their options, constructors and `Config` methods

pkg/processor/{append,community_id,lowercase,remove,set,uppercase}: the generated files.

Simplifications. Filling in the options (go-ucfg: defaults, conversion, `validate` tags) is a parameter. The options of `community_id` that its `Process` never reads are left out. The value of `set` is in memory, and the option is its address.
-/

namespace Sawmill

/-- The `Config` structs. lowercase.go:36-46, uppercase.go:36-46, set.go:37-53, append.go:36-49, remove.go:35-42, community_id.go:35-75. -/
inductive Opts where
  | lowercase (field targetField : Bytes) (ignoreMissing : Bool)
  | uppercase (field targetField : Bytes) (ignoreMissing : Bool)
  | set (value : Nat) (copyFrom targetField : Bytes) (ignoreFailure ignoreMissing : Bool)
  | append (field value : Bytes) (allowDuplicates ignoreMissing : Bool)
  | remove (fields : List Bytes) (ignoreMissing : Bool)
  | communityId (ignoreFailure : Bool)

/-- Which of the structs. -/
inductive ProcKind where
  | lowercase | uppercase | set | append | remove | communityId
deriving DecidableEq, Repr

def Opts.kind : Opts → ProcKind
  | .lowercase _ _ _ => .lowercase
  | .uppercase _ _ _ => .uppercase
  | .set _ _ _ _ _ => .set
  | .append _ _ _ _ => .append
  | .remove _ _ => .remove
  | .communityId _ => .communityId

/-- `processorName`: lowercase.go:31, and the same line of the others. -/
def ProcKind.name : ProcKind → Bytes
  | .lowercase => lit "lowercase"
  | .uppercase => lit "uppercase"
  | .set => lit "set"
  | .append => lit "append"
  | .remove => lit "remove"
  | .communityId => lit "community_id"

/-- The zero value of the struct. -/
def ProcKind.zero : ProcKind → Opts
  | .lowercase => .lowercase [] [] false
  | .uppercase => .uppercase [] [] false
  | .set => .set 0 [] [] false false
  | .append => .append [] [] false false
  | .remove => .remove [] false
  | .communityId => .communityId false

/-- `New`, which keeps the options (lowercase.go:58-61), and what reflection finds of the `Config` method (lowercase.go:63-66): of the two fields that the pipeline looks for, those that the struct has. -/
def Opts.built : Opts → Built Builtin (Option Err)
  | .lowercase f t m => ⟨(Builtin.lowercase f t).prog, some { ignoreMissing := some m }⟩
  | .uppercase f t m => ⟨(Builtin.uppercase f t).prog, some { ignoreMissing := some m }⟩
  | .set v c t i m => ⟨(Builtin.set v c t).prog, some { ignoreMissing := some m, ignoreFailure := some i }⟩
  | .append f v d m => ⟨(Builtin.append f v d).prog, some { ignoreMissing := some m }⟩
  | .remove fs m => ⟨(Builtin.remove fs).prog, some { ignoreMissing := some m }⟩
  | .communityId i => ⟨Builtin.communityId.prog, some { ignoreFailure := some i }⟩

/-- The type of `New`: `func(Config) (*P, error)`. -/
def ctorType : RType := .mk .func [.mk .struct [] [] false false] [.mk .ptr [] [] true false, .mk .iface [] [] false true] false false

/-- The function `New` as a value; a call by reflection with another type of argument panics. -/
def ProcKind.new (k : ProcKind) : GoFunc Opts (Built Builtin (Option Err)) where
  type := ctorType
  call o := if o.kind = k then .ok (o.built, none) else .panic
  zero := k.zero

/-- The `init` functions (lowercase.go:26-28), in the order of the imports. -/
def registerKinds : Registry Opts (Built Builtin (Option Err)) → List ProcKind → Res (Registry Opts (Built Builtin (Option Err)))
  | r, [] => .ok r
  | r, k :: ks =>
    match r.mustRegister k.name (some k.new) with
    | .panic => .panic
    | .ok r => registerKinds r ks

/-- The processors that cmd/sawmill registers: sawmill.go:40-45. -/
def cliKinds : List ProcKind := [.append, .communityId, .lowercase, .remove, .set, .uppercase]

/-- The processors that the examples register: examples/c/cshared/main.go:28-29, examples/wasm/wasm.go:30-31. -/
def exampleKinds : List ProcKind := [.lowercase]

/-- What `New` of the pipeline uses to make processors: registry.go:42-44. `fill` is what go-ucfg makes of the options for a struct. -/
def registryFactory {C : Type} (pr : Nat → Bool) (fill : ProcKind → C → Except Err Opts) (nilConfig : C) (r : Registry Opts (Built Builtin (Option Err))) : Factory Builtin (Option Err) C where
  newProcessor := r.newProcessor pr (fun c config => .ok (fill c.func.zero.kind config))
  nilConfig := nilConfig

end Sawmill
