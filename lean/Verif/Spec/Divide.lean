import Verif.Spec.PipelineNew
/-!
# Pipelines that do the same
-/

namespace Sawmill

mutual
/-- The same processor with the same options, and likewise its on_failure processors; the ID and the condition may differ. No options are the same as empty options. -/
inductive SameProc {C : Type} (nilConfig : C) : ProcCfg C → ProcCfg C → Prop
  | options (name id cond id' cond' : Bytes) (onF onF' : List (ProcCfg C)) (config : C) (h : SameProcs nilConfig onF onF') : SameProc nilConfig [(name, some (.mk id cond onF config))] [(name, some (.mk id' cond' onF' config))]
  | none (name : Bytes) : SameProc nilConfig [(name, none)] [(name, none)]
  | left (name id cond : Bytes) : SameProc nilConfig [(name, none)] [(name, some (.mk id cond [] nilConfig))]
  | right (name id cond : Bytes) : SameProc nilConfig [(name, some (.mk id cond [] nilConfig))] [(name, none)]
inductive SameProcs {C : Type} (nilConfig : C) : List (ProcCfg C) → List (ProcCfg C) → Prop
  | nil : SameProcs nilConfig [] []
  | cons (c c' : ProcCfg C) (cs cs' : List (ProcCfg C)) (h1 : SameProc nilConfig c c') (h2 : SameProcs nilConfig cs cs') : SameProcs nilConfig (c :: cs) (c' :: cs')
end

section
variable {Ev W : Type}

/-- The same is returned, and everything but the counters is as after the other. -/
def SameResult : Res (PWorld W × Option Ev × Option Err) → Res (PWorld W × Option Ev × Option Err) → Prop
  | .panic, .panic => True
  | .ok (w, ret, err), .ok (w', ret', err') => w.world = w'.world ∧ ret = ret' ∧ err = err'
  | _, _ => False

/-- An event is given to one pipeline and, if that returns it, to another one. -/
def inTurn (first second : Ev → PWorld W → Res (PWorld W × Option Ev × Option Err)) (evt : Ev) (w : PWorld W) : Res (PWorld W × Option Ev × Option Err) :=
  match first evt w with
  | .ok (w, some evt, none) => second evt w
  | r => r

/-- An event is given to one pipeline and, if that returns it without an error, to the second; and otherwise instead to the third. -/
def inTurnOr (first second other : Ev → PWorld W → Res (PWorld W × Option Ev × Option Err)) (evt : Ev) (w : PWorld W) : Res (PWorld W × Option Ev × Option Err) :=
  match first evt w with
  | .ok (w, some evt, none) => second evt w
  | _ => other evt w
end

end Sawmill
