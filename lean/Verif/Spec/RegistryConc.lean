import Verif.Model.RegistryConc
/-!
# Goroutines that use the registry
-/

namespace Sawmill

/-- Two goroutines are both about to access the map, and one of them is about to write it: a data race (whatever the names: Go's maps allow no access beside a write). -/
def RegSys.Race {V P C X : Type} (s : RegSys V P C X) : Prop :=
  ∃ (i j : Nat) (t u : RegThread V P C X), i ≠ j ∧ s.threads[i]? = some t ∧ s.threads[j]? = some u ∧ t.next = some .write ∧ u.next ≠ none

/-- What the program does if no other goroutine runs: the calls one after the other (Model/Registry). -/
def RegProg.alone {V P C X : Type} (pr : Nat → Bool) (unpack : Ctor V P → C → Res (Except Err V)) : Registry V P → RegProg V P C X → Registry V P × X
  | r, .done x => (r, x)
  | r, .register n f k =>
    match r.register n f with
    | .panic => (k .panic).alone pr unpack r
    | .ok (r', e) => (k (.ok e)).alone pr unpack r'
  | r, .newProc n c k => (k (r.newProcessor pr unpack n c)).alone pr unpack r

/-- The program calls `NewProcessor` only. -/
inductive RegProg.Reads {V P C X : Type} : RegProg V P C X → Prop where
  | done (x : X) : (RegProg.done x).Reads
  | newProc (n : Bytes) (c : C) (k : Res (Except Err P) → RegProg V P C X) (h : ∀ y, (k y).Reads) : (RegProg.newProc n c k).Reads

/-- All goroutines before their first call. -/
def RegSys.start {V P C X : Type} (r : Registry V P) (ps : List (RegProg V P C X)) : RegSys V P C X := ⟨r, ps.map .here⟩

/-- The results of goroutines that have come to their end. -/
def RegSys.results {V P C X : Type} (s : RegSys V P C X) : List (Option X) := s.threads.map fun
  | .here (.done x) => some x
  | _ => none

end Sawmill
