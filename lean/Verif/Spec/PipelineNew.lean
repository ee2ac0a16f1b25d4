import Verif.Model.PipelineNew
/-!
# What a pipeline built from a configuration is
-/

namespace Sawmill
variable {A R C : Type}

/-- The entry names exactly one processor, with these options (a nil pointer means no options). -/
inductive Names (F : Factory A R C) : ProcCfg C → Bytes → Bytes → List (ProcCfg C) → C → Prop
  | withOptions (name id cond : Bytes) (onF : List (ProcCfg C)) (config : C) : Names F [(name, some (.mk id cond onF config))] name cond onF config
  | nilOptions (name : Bytes) : Names F [(name, none)] name [] [] F.nilConfig

/-- The registry builds processor `name` from `config`: with behaviour `proc` and these ignore options; it has a usable `Config` method. -/
def Builds (F : Factory A R C) (name : Bytes) (config : C) (proc : Prog A R) (ignM ignF : Bool) : Prop :=
  ∃ m : ConfigMethod, F.newProcessor name config = .ok (.ok ⟨proc, some m⟩) ∧ m.numIn = 0 ∧ m.numOut = 1 ∧ m.isStruct = true ∧
    ignM = m.ignoreMissing.getD false ∧ ignF = m.ignoreFailure.getD false

mutual
/-- The processor is what the entry, found at this index under this base, describes. -/
inductive Mirrors (F : Factory A R C) : Bytes → Nat → ProcCfg C → Node A R → Prop
  | mk {base : Bytes} {i : Nat} {c : ProcCfg C} {name cond : Bytes} {onF : List (ProcCfg C)} {config : C} {proc : Prog A R} {ignM ignF : Bool} {hs : List (Node A R)} :
    Names F c name cond onF config → Builds F name config proc ignM ignF →
    MirrorsAll F (base ++ lit "[" ++ itoa i ++ lit "]." ++ name ++ lit ".on_failure") 0 onF hs →
    Mirrors F base i c (.mk (base ++ lit "[" ++ itoa i ++ lit "]." ++ name) cond ignF ignM hs proc)
/-- The processors are, one for one and in order, what the entries describe. -/
inductive MirrorsAll (F : Factory A R C) : Bytes → Nat → List (ProcCfg C) → List (Node A R) → Prop
  | nil {base : Bytes} {i : Nat} : MirrorsAll F base i [] []
  | cons {base : Bytes} {i : Nat} {c : ProcCfg C} {cs : List (ProcCfg C)} {n : Node A R} {ns : List (Node A R)} :
    Mirrors F base i c n → MirrorsAll F base (i + 1) cs ns → MirrorsAll F base i (c :: cs) (n :: ns)
end

mutual
/-- Every entry, at every nesting level, names exactly one processor that the registry can build. -/
inductive Valid (F : Factory A R C) : ProcCfg C → Prop
  | mk {c : ProcCfg C} {name cond : Bytes} {onF : List (ProcCfg C)} {config : C} {proc : Prog A R} {ignM ignF : Bool} :
    Names F c name cond onF config → Builds F name config proc ignM ignF → ValidAll F onF → Valid F c
inductive ValidAll (F : Factory A R C) : List (ProcCfg C) → Prop
  | nil : ValidAll F []
  | cons {c : ProcCfg C} {cs : List (ProcCfg C)} : Valid F c → ValidAll F cs → ValidAll F (c :: cs)
end

end Sawmill
