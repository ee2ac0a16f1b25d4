import Verif.Model.Reflect
import Verif.Model.Processors
/-!
# Configured values (pkg/config/config.go)

A `config.EventValue` is a variable inside the options of a processor: a struct, to which nothing points until the processor is made.
-/

namespace Sawmill

/-- `EventValue.Unpack`: pkg/config/config.go:27-34, on a variable that holds `v`: the new contents of the variable, and the error if there is one. -/
def unpackValue (env : REnv) (x : GIface) (v : Cell) (h : Heap) : Res (Heap × Cell × Option RErr) :=
  match ifaceToValue env x h with
  | .panic => .panic
  | .unsupported e => .ok (h, v, some e)
  | .ok (h, p) =>
    match deref h p with
    | none => .panic
    | some c => .ok (h, c, none)

/-- `set.New`: pkg/processor/set/set.go:67-70. The options are copied into the processor, whose `Value` now has an address. -/
def newSet (v : Cell) (h : Heap) : Heap × Nat := h.alloc (.cell v)

end Sawmill
