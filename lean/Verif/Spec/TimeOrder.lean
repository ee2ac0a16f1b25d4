import Verif.Base.Bytes
/-!
# Timestamps in order, and their texts in order: the words of C110
-/

namespace Sawmill

/-- The order of byte strings, as `sort`, `strings.Compare` and databases have it: at the first difference the smaller byte comes first, and the beginning of a string comes before it. -/
inductive TextBefore : Bytes → Bytes → Prop where
  | shorter (b : UInt8) (t : Bytes) : TextBefore [] (b :: t)
  | smaller (a b : UInt8) (s t : Bytes) (h : a.toNat < b.toNat) : TextBefore (a :: s) (b :: t)
  | same (a : UInt8) (s t : Bytes) (h : TextBefore s t) : TextBefore (a :: s) (a :: t)

/-- `n` is what remains of the timestamp `m` (in nanoseconds) when it is cut off (rounded down) to whole seconds (`k` = 9), to tenths (`k` = 8), …, to hundreds or tens of nanoseconds (`k` = 2 or 1), or not at all. -/
def CutOff (m n : Int) : Prop := ∃ k : Nat, k ≤ 9 ∧ n = m / 10 ^ k * 10 ^ k

end Sawmill
