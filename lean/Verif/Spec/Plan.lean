import Verif.Model.Builtins
import Verif.Spec.Pure
/-!
# What a configuration asks for

From a configuration to the function that the pipeline computes (`Spec.Pipe`), without the registry and without components.
-/

namespace Sawmill
namespace Spec

/-- The value that a cell holds, as a leaf. -/
def leafValue (c : Cell) : Scalar :=
  match c.type with
  | .bool => .bool c.bool
  | .integer => .int c.integer
  | .unsigned => .uint c.unsigned
  | .float => .float c.float
  | .string => .str c.string
  | .timestamp => .ts c.timestamp
  | _ => .null

/-- The value of a leaf in memory; nothing if there is something else. -/
def leafAt (h : Heap) (a : Nat) : Option Scalar :=
  match h[a]? with
  | some (.cell c) => if c = scalarCell (leafValue c) then some (leafValue c) else none
  | _ => none

section
variable {C : Type} (options : Bytes → C → Option (Step × Bool × Bool)) (nilConfig : C)

mutual
/-- The processors, in order. Each is one entry with a name. `options`: what the name and the options ask for (the step, whether failures and whether missing fields are ignored), or nothing. -/
def planAll : List (List (Bytes × Option (OptCfg C))) → Option (List Proc)
  | [] => some []
  | c :: cs =>
    match planOne c, planAll cs with
    | some p, some ps => some (p :: ps)
    | _, _ => none
def planOne : List (Bytes × Option (OptCfg C)) → Option Proc
  | [e] => planEntry e
  | _ => none
def planEntry : Bytes × Option (OptCfg C) → Option Proc
  | (name, o) => planOpts name o
/-- No options are the same as empty options. -/
def planOpts (name : Bytes) : Option (OptCfg C) → Option Proc
  | none => (options name nilConfig).map fun x => .mk x.1 x.2.1 x.2.2 []
  | some o => planOpt name o
/-- The identifier and the condition have no influence. -/
def planOpt (name : Bytes) : OptCfg C → Option Proc
  | .mk _ _ onFailure config =>
    match options name config, planAll onFailure with
    | some x, some ps => some (.mk x.1 x.2.1 x.2.2 ps)
    | _, _ => none
end

/-- A pipeline needs an identifier. -/
def plan (c : Config C) : Option Pipe :=
  if c.id = [] then none
  else match planAll options nilConfig c.processors, planAll options nilConfig c.onFailure with
    | some ps, some fs => some ⟨ps, fs⟩
    | _, _ => none
end

/-- The options of one of these processors: only `set` and `community_id` can ignore failures, and all but `community_id` can ignore missing fields. -/
def stepOf (h : Heap) : Opts → Option (Step × Bool × Bool)
  | .lowercase f t m => some (.lowercase f t, false, m)
  | .uppercase f t m => some (.uppercase f t, false, m)
  | .set v c t i m => (leafAt h v).map fun s => (.set s c t, i, m)
  | .append f v _ m => some (.append f v, false, m)
  | .remove _ m => some (.remove, false, m)
  | .communityId i => some (.communityId, i, false)

/-- The names of the processors in a configuration. -/
def kindName : ProcKind → Bytes
  | .lowercase => lit "lowercase"
  | .uppercase => lit "uppercase"
  | .set => lit "set"
  | .append => lit "append"
  | .remove => lit "remove"
  | .communityId => lit "community_id"

/-- The processors that are known, by name; `fill` gives the options. -/
def optionsOf {C : Type} (h : Heap) (kinds : List ProcKind) (fill : ProcKind → C → Except Err Opts) (name : Bytes) (config : C) : Option (Step × Bool × Bool) :=
  match kinds.find? fun k => kindName k = name with
  | none => none
  | some k =>
    match fill k config with
    | .error _ => none
    | .ok o => stepOf h o

end Spec
end Sawmill
