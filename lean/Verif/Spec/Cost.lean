import Verif.Model.Processors
import Verif.Spec.Pure
/-!
# What things take in memory

Memory is only ever added to in the model (there is no garbage collection): its size after a call minus its size before is what the call has allocated.
-/

namespace Sawmill

/-- A value counts one, and one for each item of its slice; a map counts one, and one for each entry. -/
def HObj.size : HObj → Nat
  | .cell c => 1 + (c.array.getD []).length
  | .map es => 1 + es.length

def Heap.size (h : Heap) : Nat := (h.map HObj.size).sum

/-- The number of names in a key. -/
def nameCount (key : Bytes) : Nat := (keyToPath key).length

/-- What a run of a processor may take: it depends only on how the processor is configured. -/
def Builtin.allowance : Builtin → Nat
  | .lowercase field target => 2 + 3 * nameCount (if target ≠ [] then target else field)
  | .uppercase field target => 2 + 3 * nameCount (if target ≠ [] then target else field)
  | .set _ _ target => 1 + 3 * nameCount target
  | .append field _ _ => 5 + 3 * nameCount field
  | .remove _ => 0
  | .communityId => 0

mutual
/-- The processors of a node: its own and those of its on_failure processors. -/
def Node.Uses : Node Builtin (Option Err) → List Builtin → Prop
  | .mk _ _ _ _ onF proc, bs => ∃ b rest, proc = b.prog ∧ bs = b :: rest ∧ Node.UsesAll onF rest
def Node.UsesAll : List (Node Builtin (Option Err)) → List Builtin → Prop
  | [], bs => bs = []
  | n :: ns, bs => ∃ l r, bs = l ++ r ∧ n.Uses l ∧ Node.UsesAll ns r
end

/-- All the processors of a pipeline, with those of all on_failure lists. -/
def Pipeline.Uses (p : Pipeline Builtin (Option Err)) (bs : List Builtin) : Prop := ∃ l r, bs = l ++ r ∧ Node.UsesAll p.processors l ∧ Node.UsesAll p.onFailure r

/-! ## Copies of copies -/

/-- The names a, aa, aaa and so on. -/
def growName (i : Nat) : Bytes := List.replicate (i + 1) 97

/-- Pairs of `set` processors: aa.l and aa.r from a, then aaa.l and aaa.r from aa, and so on. Their value, at the address `v`, is null. -/
def growing (ids : Nat → Bytes) (v : Nat) : Nat → List (Node Builtin (Option Err))
  | 0 => []
  | n + 1 => growing ids v n ++
    [.mk (ids (2 * n)) [] false false [] (Builtin.set v (growName n) (growName (n + 1) ++ lit ".l")).prog,
     .mk (ids (2 * n + 1)) [] false false [] (Builtin.set v (growName n) (growName (n + 1) ++ lit ".r")).prog]

end Sawmill
