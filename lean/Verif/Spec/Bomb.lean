import Verif.Model.WireMsg
import Verif.Spec.Wire
/-!
# Short messages with many values
-/

namespace Sawmill.Wire

mutual
/-- How many `Value` messages there are in a message. -/
def PValue.values : PValue → Nat
  | .nil => 0
  | .mk kind _ => 1 + kind.values
def PKind.values : PKind → Nat
  | .array a => a.values
  | .object o => o.values
  | _ => 0
def PArray.values : PArray → Nat
  | .nil => 0
  | .mk items _ => PValue.valuesL items
def PObject.values : PObject → Nat
  | .nil => 0
  | .mk fields _ => PValue.valuesE fields
def PValue.valuesL : List PValue → Nat
  | [] => 0
  | v :: vs => v.values + PValue.valuesL vs
def PValue.valuesE : List (Bytes × PValue) → Nat
  | [] => 0
  | (_, v) :: es => v.values + PValue.valuesE es
end

/-- In all of it. -/
def PWrapper.values (m : PWrapper) : Nat :=
  match m.message with
  | some (.mk o _) => o.values
  | _ => 0

/-- The contents of a map entry with key `k`, cut off in the middle of its value: of the value, which is an object that consists of `rest`, only the key and the length of the object are inside the entry. -/
def cutEntry (k rest : Bytes) : Bytes := lenField 1 k ++ tag 2 2 ++ varint (lenField 6 rest).length ++ tag 6 2 ++ varint rest.length

/-- An object of `n` entries, each of them cut off, so that everything behind it is read twice: as the rest of its value, and as the next entries. -/
def bombObject : Nat → Bytes
  | 0 => []
  | n + 1 => tag 1 2 ++ varint (cutEntry (varint n) (bombObject n)).length ++ cutEntry (varint n) (bombObject n) ++ bombObject n

/-- It as a message. -/
def bomb (n : Nat) : Bytes := lenField 1 (lenField 1 (bombObject n))

end Sawmill.Wire
