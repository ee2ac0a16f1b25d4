import Verif.Model.Mem
/-!
# Slices with their backing arrays

In the other models a slice is a list. Here it is what it is in Go: a pointer to a backing array, a length and a capacity. Values can have slices with the same backing array, and `append` writes into the backing array if there is room. The programs are those of `Model/Mem.lean`.

All slices begin at the first slot of their backing array (no code in the repository slices a `[]*Value`).
-/

namespace Sawmill
namespace Slices

/-- A slice: the number of its backing array, and its length. Its capacity is the length of the backing array. -/
structure Slice where
  back : Nat
  len : Nat
deriving DecidableEq

/-- An object: a `Value` (pkg/event/value.go:62-72) with its `Array` apart (the field `array` of the cell is not used; `none` is nil), or a map. -/
inductive Obj where
  | cell (c : Cell) (s : Option Slice)
  | map (es : AMap Ptr)

/-- Objects and backing arrays. A backing array lists all slots up to the capacity, also those that no slice reaches. -/
structure Memory where
  objs : List Obj
  backs : List (List Ptr)

/-- The slots of a backing array. -/
def Memory.slots (m : Memory) (b : Nat) : List Ptr := (m.backs[b]?).getD []

/-- The elements of a slice. -/
def Memory.items (m : Memory) (s : Slice) : List Ptr := (m.slots s.back).take s.len

/-- Reading a `Value` with the elements of its slice. -/
def Memory.deref (m : Memory) : Ptr → Option Cell
  | none => none
  | some a => match m.objs[a]? with
    | some (.cell c s) => some { c with array := s.map m.items }
    | _ => none

/-- Reading a map. -/
def Memory.mapOf (m : Memory) : Option Nat → AMap Ptr
  | none => []
  | some a => match m.objs[a]? with
    | some (.map es) => es
    | _ => []

/-- Storing into a map. -/
def Memory.mapWrite (m : Memory) (a : Option Nat) (k : Bytes) (p : Ptr) : Res Memory :=
  match a with
  | none => .panic
  | some a => match m.objs[a]? with
    | some (.map es) => .ok { m with objs := m.objs.set a (.map (es.insert k p)) }
    | _ => .panic

/-- Deleting from a map. -/
def Memory.mapDelete (m : Memory) (a : Option Nat) (k : Bytes) : Memory :=
  match a with
  | none => m
  | some a => match m.objs[a]? with
    | some (.map es) => { m with objs := m.objs.set a (.map (es.erase k)) }
    | _ => m

/-- A new object. The elements of a new slice are in a new backing array, with `extra` behind them (what is there and how much is up to the runtime). -/
def Memory.alloc (m : Memory) (extra : List Ptr) : HObj → Memory
  | .map es => { m with objs := m.objs ++ [.map es] }
  | .cell c =>
    match c.array with
    | none => { m with objs := m.objs ++ [.cell c none] }
    | some ps => ⟨m.objs ++ [.cell c (some ⟨m.backs.length, ps.length⟩)], m.backs ++ [ps ++ extra]⟩

/-- `v.Array = append(v.Array, ps...)` (append/process.go:38, eventutil/event.go:44-47): if there is room the elements are written behind the slice, otherwise everything is copied into a new backing array. (No code appends nothing.) -/
def Memory.append (m : Memory) (extra : List Ptr) (a : Nat) (ps : List Ptr) : Res Memory :=
  match m.objs[a]? with
  | some (.cell c none) => .ok ⟨m.objs.set a (.cell c (some ⟨m.backs.length, ps.length⟩)), m.backs ++ [ps ++ extra]⟩
  | some (.cell c (some s)) =>
    if s.len + ps.length ≤ (m.slots s.back).length then
      .ok ⟨m.objs.set a (.cell c (some ⟨s.back, s.len + ps.length⟩)), m.backs.set s.back ((m.slots s.back).take s.len ++ ps ++ (m.slots s.back).drop (s.len + ps.length))⟩
    else .ok ⟨m.objs.set a (.cell c (some ⟨m.backs.length, s.len + ps.length⟩)), m.backs ++ [m.items s ++ ps ++ extra]⟩
  | _ => .panic

/-- What one step of a program does. -/
inductive Next (α : Type) where
  | finished (x : α)
  | crash
  | next (m : Memory) (inc : Option (Bytes × Kind)) (rest : Mem α)

/-- One step, as `Mem.step`. -/
def step {α : Type} (extra : List Ptr) : Mem α → Memory → Next α
  | .ret x, _ => .finished x
  | .readCell p k, m =>
    match m.deref p with
    | none => .crash
    | some c => .next m none (k c)
  | .readMap a k, m => .next m none (k (m.mapOf a))
  | .writeMap a key p k, m =>
    match m.mapWrite a key p with
    | .panic => .crash
    | .ok m' => .next m' none k
  | .alloc o k, m => .next (m.alloc extra o) none (k m.objs.length)
  | .append a ps k, m =>
    match m.append extra a ps with
    | .panic => .crash
    | .ok m' => .next m' none k
  | .count id kind k, m => .next m (some (id, kind)) k
  | .peek p k, m => .next m none (k (m.deref p))
  | .eraseMap a key k, m => .next (m.mapDelete a key) none k
  | .crash, _ => .crash

/-- The memory, the counters and the goroutines, as `Shared`. -/
structure World (X : Type) where
  mem : Memory
  counts : Counters
  gs : List (Mem X)

/-- One step of one goroutine; the scheduler chooses the goroutine and the runtime the capacity. -/
inductive World.Step {X : Type} : World X → World X → Prop
  | mk {s : World X} {i : Nat} {t t' : Mem X} {m : Memory} {inc : Option (Bytes × Kind)} {extra : List Ptr} :
    s.gs[i]? = some t → Slices.step extra t s.mem = .next m inc t' → Step s ⟨m, s.counts.incOpt inc, s.gs.set i t'⟩

/-- Any number of steps. -/
inductive World.Steps {X : Type} : Nat → World X → World X → Prop
  | refl {s : World X} : Steps 0 s s
  | step {n : Nat} {s s' s'' : World X} : Steps n s s' → World.Step s' s'' → Steps (n + 1) s s''

def World.Crashing {X : Type} (s : World X) : Prop := ∃ t ∈ s.gs, ∃ extra, Slices.step extra t s.mem = .crash

/-- Several calls of `append`, each through the value that has the slice. -/
def Memory.appends (m : Memory) (extra : List Ptr) : List (Nat × List Ptr) → Res Memory
  | [] => .ok m
  | (a, ps) :: l =>
    match m.append extra a ps with
    | .panic => .panic
    | .ok m => m.appends extra l

/-- A program that runs alone. -/
def solo {α : Type} (extra : List Ptr) : Mem α → Memory → Res (Memory × α)
  | .ret x, m => .ok (m, x)
  | .readCell p k, m =>
    match m.deref p with
    | none => .panic
    | some c => solo extra (k c) m
  | .readMap a k, m => solo extra (k (m.mapOf a)) m
  | .writeMap a key p k, m =>
    match m.mapWrite a key p with
    | .panic => .panic
    | .ok m' => solo extra k m'
  | .alloc o k, m => solo extra (k m.objs.length) (m.alloc extra o)
  | .append a ps k, m =>
    match m.append extra a ps with
    | .panic => .panic
    | .ok m' => solo extra k m'
  | .count _ _ k, m => solo extra k m
  | .peek p k, m => solo extra (k (m.deref p)) m
  | .eraseMap a key k, m => solo extra k (m.mapDelete a key)
  | .crash, _ => .panic

/-- The loop of `eventutil.Append`, one element at a time: pkg/eventutil/event.go:43-46. -/
def appendEachM {α : Type} (t : Nat) : List Ptr → Mem α → Mem α
  | [], k => k
  | p :: ps, k => .append t [p] (appendEachM t ps k)

/-- `eventutil.Append` from the point where the target is an array: pkg/eventutil/event.go:41-53. -/
def appendItemsM (e : Event) (key : Bytes) (i t : Nat) : Mem (Event × Option PutErr) :=
  .readCell (some i) fun c => appendEachM t (if c.type = .array then c.array.getD [] else [some i]) ((putM e (keyToPath key) (some t) true).bind fun r => .ret (r.1, r.2.2))

/-- `eventutil.Append`: pkg/eventutil/event.go:29-54. -/
def utilAppendM (e : Event) (key : Bytes) (item : Ptr) : Mem (Event × Option PutErr) :=
  match item with
  | none => .ret (e, none)
  | some i => (getM e (keyToPath key)).bind fun old =>
    match old with
    | none => .alloc (.cell (arrCell none)) fun t => appendItemsM e key i t
    | some a => .readCell (some a) fun c => if c.type ≠ .array then .alloc (.cell (arrCell (some [some a]))) fun t => appendItemsM e key i t else appendItemsM e key i a

end Slices
end Sawmill
