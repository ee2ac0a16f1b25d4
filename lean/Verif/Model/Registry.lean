import Verif.Model.PipelineNew
import Verif.Model.Quote
/-!
# The processor registry (pkg/processor/registry/registry.go)

Reflection is modelled by type descriptors holding exactly what the code asks about a type. `C` is `map[string]interface{}`, `V` a filled-in configuration struct, `P` a processor.
Filling in the struct (`ucfg.NewFrom` and `Unpack`, registry.go:81-88) is a parameter.
-/

namespace Sawmill

/-- `reflect.Kind`; the kinds that neither the code nor `reflect.Value.IsNil` tells apart are one, with their names. -/
inductive RKind where
  | func | struct | ptr | iface | chan | map | slice | unsafePointer | other (name : Bytes)
deriving DecidableEq, Repr

/-- `reflect.Value.IsNil` accepts these kinds and panics on the others. -/
def RKind.nillable : RKind → Bool
  | .func | .ptr | .iface | .chan | .map | .slice | .unsafePointer => true
  | .struct | .other _ => false

/-- `reflect.Kind.String`. -/
def RKind.name : RKind → Bytes
  | .func => lit "func"
  | .struct => lit "struct"
  | .ptr => lit "ptr"
  | .iface => lit "interface"
  | .chan => lit "chan"
  | .map => lit "map"
  | .slice => lit "slice"
  | .unsafePointer => lit "unsafe.Pointer"
  | .other n => n

/-- A Go type: its kind, for functions the argument and result types, and whether it implements `processor.Processor` and `error`. -/
inductive RType where
  | mk (kind : RKind) (ins outs : List RType) (isProcessor isError : Bool)

namespace RType
def kind : RType → RKind | .mk k _ _ _ _ => k
def ins : RType → List RType | .mk _ i _ _ _ => i
def outs : RType → List RType | .mk _ _ o _ _ => o
def isProcessor : RType → Bool | .mk _ _ _ p _ => p
def isError : RType → Bool | .mk _ _ _ _ e => e
end RType

/-- The value passed to `Register`: its type, its behaviour when called with a configuration (for a nil function: panic), the call with the zero configuration included. A call yields the
first result and the second one (`none` if it is nil). -/
structure GoFunc (V P : Type) where
  type : RType
  call : V → Res (P × Option Err)
  zero : V

/-- `processorConstructor`: registry.go:46-51. -/
structure Ctor (V P : Type) where
  func : GoFunc V P
  errKind : RKind

/-- Reasons for which `Register` refuses (registry.go:63) and `validateConfig` does (registry.go:101-128). -/
inductive RegErr where
  | alreadyRegistered (name : Bytes) | notFunc (kind : RKind) | notOneArg | argNotStruct | notTwoResults | notPtr | notProcessor | notError
deriving DecidableEq, Repr

/-- The texts of these errors: registry.go:63, 102, 107, 111, 115, 119, 122, 127. -/
def RegErr.text (pr : Nat → Bool) : RegErr → Bytes
  | .alreadyRegistered name => goQuote pr name ++ lit " processor is already registered"
  | .notFunc k => lit "value must be a function, but got " ++ k.name
  | .notOneArg => lit "function must accept one arg"
  | .argNotStruct => lit "function must be config struct"
  | .notTwoResults => lit "function must return 2 values"
  | .notPtr => lit "function should return a pointer to a processor struct"
  | .notProcessor => lit "processor must implement processor.Processor"
  | .notError => lit "function should return an error"

/-- `validateConfig`: registry.go:97-149. A nil interface has no type (`v.Type()` panics); at the end the constructor is called with the zero configuration and its result is discarded. -/
def validateConfig {V P : Type} (i : Option (GoFunc V P)) : Res (Except RegErr (Ctor V P)) :=
  match i with
  | none => .panic                                                     -- 98-99
  | some v =>
    let t := v.type
    if t.kind ≠ .func then .ok (.error (.notFunc t.kind))                        -- 101-103
    else match t.ins with
      | [configType] =>                                                 -- 106-108
        if configType.kind ≠ .struct then .ok (.error .argNotStruct)     -- 110-112
        else match t.outs with
          | [processorType, errorType] =>                               -- 114-116
            if processorType.kind ≠ .ptr then .ok (.error .notPtr)       -- 118-120
            else if processorType.isProcessor = false then .ok (.error .notProcessor)   -- 121-123
            else if errorType.isError = false then .ok (.error .notError)               -- 126-128
            else match v.call v.zero with                               -- 145
              | .panic => .panic
              | .ok _ => .ok (.ok ⟨v, errorType.kind⟩)
          | _ => .ok (.error .notTwoResults)
      | _ => .ok (.error .notOneArg)

/-- The `newProc` closure: registry.go:134-143. -/
def Ctor.newProc {V P : Type} (c : Ctor V P) (config : V) : Res (Except Err P) :=
  match c.func.call config with
  | .panic => .panic
  | .ok (p, e) =>
    if c.errKind.nillable = false then .panic          -- 139: IsNil on a non-nillable kind
    else match e with
      | some err => .ok (.error err)                    -- 140
      | none => .ok (.ok p)                             -- 142

/-- `Registry`: registry.go:53-55. -/
abbrev Registry (V P : Type) := AMap (Ctor V P)

/-- `Register`: registry.go:61-71. -/
def Registry.register {V P : Type} (r : Registry V P) (name : Bytes) (f : Option (GoFunc V P)) : Res (Registry V P × Option RegErr) :=
  match AMap.lookup r name with
  | some _ => .ok (r, some (.alreadyRegistered name))
  | none =>
    match validateConfig f with
    | .panic => .panic
    | .ok (.error e) => .ok (r, some e)
    | .ok (.ok pc) => .ok (AMap.insert r name pc, none)

/-- `NewProcessor`: registry.go:73-91. `unpack` stands for lines 79-88 (a fresh configuration filled in from the options). -/
def Registry.newProcessor {V P C : Type} (pr : Nat → Bool) (unpack : Ctor V P → C → Res (Except Err V)) (r : Registry V P) (name : Bytes) (config : C) : Res (Except Err P) :=
  match AMap.lookup r name with
  | none => .ok (.error (.other (lit "processor type " ++ goQuote pr name ++ lit " not found")))   -- 76
  | some pc =>
    match unpack pc config with
    | .panic => .panic
    | .ok (.error e) => .ok (.error e)
    | .ok (.ok v) => pc.newProc v

/-- `MustRegister`: registry.go:36-40. -/
def Registry.mustRegister {V P : Type} (r : Registry V P) (name : Bytes) (f : Option (GoFunc V P)) : Res (Registry V P) :=
  match r.register name f with
  | .panic => .panic
  | .ok (_, some _) => .panic
  | .ok (r, none) => .ok r

/-- A history of `Register` calls (from `NewRegistry()`, registry.go:57-59: `[]`), with the error of each. -/
def Registry.registerAll {V P : Type} : Registry V P → List (Bytes × Option (GoFunc V P)) → Res (Registry V P × List (Option RegErr))
  | r, [] => .ok (r, [])
  | r, (n, f) :: cs =>
    match r.register n f with
    | .panic => .panic
    | .ok (r, e) =>
      match Registry.registerAll r cs with
      | .panic => .panic
      | .ok (r, es) => .ok (r, e :: es)

end Sawmill
