import Verif.Spec.PipelineNew
/-!
# What is wrong with a configuration
-/

namespace Sawmill
variable {A R C : Type}

mutual
/-- The entries of a list of processors and, after each, those of its on_failure processors: in the order in which a reader of the file meets them. Each with its place, such as `p.processors[0].set.on_failure[1]`. -/
def entriesAll (base : Bytes) (i : Nat) : List (ProcCfg C) → List (Bytes × ProcCfg C)
  | [] => []
  | c :: cs => entriesOf (base ++ lit "[" ++ itoa i ++ lit "]") c ++ entriesAll base (i + 1) cs
/-- The on_failure processors of an entry count only if it names exactly one processor. -/
def entriesOf (place : Bytes) : ProcCfg C → List (Bytes × ProcCfg C)
  | [] => [(place, [])]
  | [e] => (place, [e]) :: entriesIn place e
  | a :: b :: t => [(place, a :: b :: t)]
def entriesIn (place : Bytes) : Bytes × Option (OptCfg C) → List (Bytes × ProcCfg C)
  | (name, o) => entriesOpt (place ++ lit "." ++ name ++ lit ".on_failure") o
def entriesOpt (base : Bytes) : Option (OptCfg C) → List (Bytes × ProcCfg C)
  | none => []
  | some o => entriesMk base o
def entriesMk (base : Bytes) : OptCfg C → List (Bytes × ProcCfg C)
  | .mk _ _ onF _ => entriesAll base 0 onF
end

/-- All entries of a configuration, in reading order. -/
def Config.entries (c : Config C) : List (Bytes × ProcCfg C) := entriesAll (c.id ++ lit ".processors") 0 c.processors ++ entriesAll (c.id ++ lit ".on_failure") 0 c.onFailure

/-- Nothing is wrong with this entry itself: it names one processor, and that can be built. -/
def EntryFine (F : Factory A R C) (x : Bytes × ProcCfg C) : Prop := ∃ name cond onF config proc ignM ignF, Names F x.2 name cond onF config ∧ Builds F name config proc ignM ignF

/-- What is wrong with this entry itself. -/
inductive EntryFault (F : Factory A R C) : Bytes × ProcCfg C → NewErr → Prop
  | empty {place : Bytes} : EntryFault F (place, []) .noProcessor
  | many {place : Bytes} {c : ProcCfg C} (h : 2 ≤ c.length) : EntryFault F (place, c) .manyProcessors
  /-- The registry does not know the processor, its options can not be filled in, or its constructor fails. -/
  | construct {place : Bytes} {c : ProcCfg C} {name cond : Bytes} {onF : List (ProcCfg C)} {config : C} {e : Err} (hn : Names F c name cond onF config) (h : F.newProcessor name config = .ok (.error e)) :
    EntryFault F (place, c) (.construct (place ++ lit "." ++ name) e)
  | noConfig {place : Bytes} {c : ProcCfg C} {name cond : Bytes} {onF : List (ProcCfg C)} {config : C} {proc : Prog A R} (hn : Names F c name cond onF config) (h : F.newProcessor name config = .ok (.ok ⟨proc, none⟩)) :
    EntryFault F (place, c) .noConfigMethod
  | results {place : Bytes} {c : ProcCfg C} {name cond : Bytes} {onF : List (ProcCfg C)} {config : C} {proc : Prog A R} {m : ConfigMethod} (hn : Names F c name cond onF config)
    (h : F.newProcessor name config = .ok (.ok ⟨proc, some m⟩)) (hm : m.numOut ≠ 1) : EntryFault F (place, c) .configResults

/-- Building this entry panics: the constructor does, or its `Config` method needs arguments or does not return a struct. -/
inductive EntryCrash (F : Factory A R C) : Bytes × ProcCfg C → Prop
  | construct {place : Bytes} {c : ProcCfg C} {name cond : Bytes} {onF : List (ProcCfg C)} {config : C} (hn : Names F c name cond onF config) (h : F.newProcessor name config = .panic) : EntryCrash F (place, c)
  | config {place : Bytes} {c : ProcCfg C} {name cond : Bytes} {onF : List (ProcCfg C)} {config : C} {proc : Prog A R} {m : ConfigMethod} (hn : Names F c name cond onF config)
    (h : F.newProcessor name config = .ok (.ok ⟨proc, some m⟩)) (h1 : m.numOut = 1) (hm : m.numIn ≠ 0 ∨ m.isStruct = false) : EntryCrash F (place, c)

end Sawmill
