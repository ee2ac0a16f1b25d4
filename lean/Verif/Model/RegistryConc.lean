import Verif.Model.Registry
/-!
# The registry used by several goroutines (pkg/processor/registry/registry.go)

The registry is one Go map without a lock. A goroutine is a program of calls whose next call may depend on the results so far. Reading the map (registry.go:62, 74) and writing it (registry.go:69) are single steps; between them other goroutines may run.
Simplifications: sequential consistency (which Go promises only without data races: `RegSys.Race` says when there is one); what go-ucfg and constructors do touches nothing that is shared; a panic is a result that the goroutine gets (Go would end the program).
-/

namespace Sawmill

/-- What a goroutine does with the registry: `V`, `P` and `C` as in Model/Registry, `X` its final result. -/
inductive RegProg (V P C X : Type) where
  | done (x : X)
  /-- `Register`: registry.go:61. -/
  | register (name : Bytes) (f : Option (GoFunc V P)) (k : Res (Option RegErr) → RegProg V P C X)
  /-- `NewProcessor`: registry.go:73. -/
  | newProc (name : Bytes) (config : C) (k : Res (Except Err P) → RegProg V P C X)

/-- A goroutine: before its next call, or inside `Register` with `r.procs[name] = *pc` (registry.go:69) next. -/
inductive RegThread (V P C X : Type) where
  | here (p : RegProg V P C X)
  | writing (name : Bytes) (c : Ctor V P) (p : RegProg V P C X)

/-- How a step accesses the map. -/
inductive RegAccess where
  | read | write
deriving DecidableEq

/-- The access that is next: registry.go:62, 74 read, 69 writes. -/
def RegThread.next {V P C X : Type} : RegThread V P C X → Option RegAccess
  | .here (.done _) => none
  | .here (.register _ _ _) => some .read
  | .here (.newProc _ _ _) => some .read
  | .writing _ _ _ => some .write

/-- A step: one access to the map and what follows until the next one. registry.go:61-71, 73-91. -/
def RegThread.step {V P C X : Type} (pr : Nat → Bool) (unpack : Ctor V P → C → Res (Except Err V)) (r : Registry V P) : RegThread V P C X → Registry V P × RegThread V P C X
  | .here (.done x) => (r, .here (.done x))
  | .here (.register name f k) =>
    match AMap.lookup r name with                                     -- 62
    | some _ => (r, .here (k (.ok (some (.alreadyRegistered name)))))  -- 63
    | none =>
      match validateConfig f with                                     -- 65
      | .panic => (r, .here (k .panic))
      | .ok (.error e) => (r, .here (k (.ok (some e))))                -- 66-68
      | .ok (.ok pc) => (r, .writing name pc (k (.ok none)))
  | .writing name pc p => (AMap.insert r name pc, .here p)             -- 69-70
  | .here (.newProc name config k) => (r, .here (k (r.newProcessor pr unpack name config)))   -- 74-91

/-- The registry and the goroutines. -/
structure RegSys (V P C X : Type) where
  reg : Registry V P
  threads : List (RegThread V P C X)

/-- Goroutine `i` makes a step. -/
def RegSys.step {V P C X : Type} (pr : Nat → Bool) (unpack : Ctor V P → C → Res (Except Err V)) (s : RegSys V P C X) (i : Nat) : RegSys V P C X :=
  match s.threads[i]? with
  | none => s
  | some t => ⟨(t.step pr unpack s.reg).1, s.threads.set i (t.step pr unpack s.reg).2⟩

/-- A schedule: which goroutine makes each step. -/
def RegSys.run {V P C X : Type} (pr : Nat → Bool) (unpack : Ctor V P → C → Res (Except Err V)) (s : RegSys V P C X) (sched : List Nat) : RegSys V P C X :=
  sched.foldl (RegSys.step pr unpack) s

/-! ## `New` as such a program -/

/-- Sequencing. -/
def RegProg.bind {V P C X Y : Type} : RegProg V P C X → (X → RegProg V P C Y) → RegProg V P C Y
  | .done x, g => g x
  | .register n f k, g => .register n f fun y => (k y).bind g
  | .newProc n c k, g => .newProc n c fun y => (k y).bind g

/-- Results of a part of `New`: errors and panics end it. -/
def RegProg.andThen {V P C X Y E : Type} (p : RegProg V P C (Res (Except E X))) (g : X → RegProg V P C (Res (Except E Y))) : RegProg V P C (Res (Except E Y)) :=
  p.bind fun
    | .panic => .done .panic
    | .ok (.error e) => .done (.ok (.error e))
    | .ok (.ok x) => g x

section
variable {V A R C : Type} (nilConfig : C)

/-- `newPipelineProcessor`: processor.go:111-174. -/
def newProcessorProg (base : Bytes) (i : Nat) (name cond : Bytes) (config : C)
    (handlers : Bytes → RegProg V (Built A R) C (Res (Except NewErr (List (Node A R))))) : RegProg V (Built A R) C (Res (Except NewErr (Node A R))) :=
  let id := componentId base i name
  .newProc name config fun
    | .panic => .done .panic
    | .ok (.error e) => .done (.ok (.error (.construct id e)))          -- 122-124
    | .ok (.ok b) =>
      (RegProg.done (ignores b)).andThen fun (ignM, ignF) =>            -- 126-129
        (handlers (id ++ lit ".on_failure")).andThen fun hs =>          -- 131-134
          .done (.ok (.ok (.mk id cond (ignF.getD false) (ignM.getD false) hs b.proc)))

mutual
/-- `newPipelineProcessors`: processor.go:88-109. -/
def newProcessorsProg (base : Bytes) : List (ProcCfg C) → Nat → RegProg V (Built A R) C (Res (Except NewErr (List (Node A R))))
  | [], _ => .done (.ok (.ok []))
  | c :: cs, i => (newFromProg base i c).andThen fun n => (newProcessorsProg base cs (i + 1)).andThen fun ns => .done (.ok (.ok (n :: ns)))
/-- `getProcessor`: config.go:43-59. -/
def newFromProg (base : Bytes) (i : Nat) : ProcCfg C → RegProg V (Built A R) C (Res (Except NewErr (Node A R)))
  | [] => .done (.ok (.error .noProcessor))
  | [e] => newEntryProg base i e
  | _ :: _ :: _ => .done (.ok (.error .manyProcessors))
def newEntryProg (base : Bytes) (i : Nat) : Bytes × Option (OptCfg C) → RegProg V (Built A R) C (Res (Except NewErr (Node A R)))
  | (name, o) => newOptionsProg base i name o
/-- config.go:51-53. -/
def newOptionsProg (base : Bytes) (i : Nat) (name : Bytes) : Option (OptCfg C) → RegProg V (Built A R) C (Res (Except NewErr (Node A R)))
  | none => newProcessorProg base i name [] nilConfig (fun _ => .done (.ok (.ok [])))
  | some o => newOptionProg base i name o
def newOptionProg (base : Bytes) (i : Nat) (name : Bytes) : OptCfg C → RegProg V (Built A R) C (Res (Except NewErr (Node A R)))
  | .mk _ cond onF config => newProcessorProg base i name cond config (fun b => newProcessorsProg b onF 0)
end

/-- `New`: pipeline.go:34-54. -/
def newProg (c : Config C) : RegProg V (Built A R) C (Res (Except NewErr (Pipeline A R))) :=
  if c.id = [] then .done (.ok (.error .emptyId))
  else (newProcessorsProg nilConfig (c.id ++ lit ".processors") c.processors 0).andThen fun ps =>
    (newProcessorsProg nilConfig (c.id ++ lit ".on_failure") c.onFailure 0).andThen fun hs => .done (.ok (.ok ⟨c.id, ps, hs⟩))

end

end Sawmill
