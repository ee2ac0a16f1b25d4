import Verif.Model.Slices
/-!
# What is seen of slices
-/

namespace Sawmill
namespace Slices

/-- An object as it is seen: a slice is the list of its elements. -/
def Memory.seenObj (m : Memory) : Obj → HObj
  | .cell c s => .cell { c with array := s.map m.items }
  | .map es => .map es

/-- The memory as it is seen. -/
def Memory.seen (m : Memory) : Heap := m.objs.map m.seenObj

/-- The world as it is seen. -/
def World.seen {X : Type} (s : World X) : Shared X := ⟨s.mem.seen, s.counts, s.gs⟩

/-- The value at address `a` has the slice `s`. -/
def Memory.Has (m : Memory) (a : Nat) (s : Slice) : Prop := ∃ c, m.objs[a]? = some (.cell c (some s))

/-- Slices do not reach beyond their backing arrays. -/
def Memory.Ok (m : Memory) : Prop := ∀ a s, m.Has a s → s.back < m.backs.length ∧ s.len ≤ (m.slots s.back).length

/-- A slice without room. -/
def Memory.Full (m : Memory) (s : Slice) : Prop := s.len = (m.slots s.back).length

/-- Where two values have slices of the same backing array, neither has room. -/
def Memory.Apart (m : Memory) : Prop := ∀ a b s t, a ≠ b → m.Has a s → m.Has b t → s.back = t.back → m.Full s

/-- Appending to lists. -/
def appendAll (h : Heap) : List (Nat × List Ptr) → Res Heap
  | [] => .ok h
  | (a, ps) :: l =>
    match appendTo h a ps with
    | .panic => .panic
    | .ok h => appendAll h l

end Slices
end Sawmill
