import Verif.Model.Main
/-!
# What the arguments of the command line program say
-/

namespace Sawmill

/-- `-` or `--`. -/
def IsDash (d : Bytes) : Prop := d = lit "-" ∨ d = lit "--"

/-- The arguments set flags, each as `-name=value`, `--name=value`, `-name value` or `--name value` (the value may be anything), up to an argument that does not start with `-` (or is just `-`), or up to `--`; the rest is ignored. -/
inductive Spelled : List Bytes → List (FlagName × Bytes) → List Bytes → Prop
  | nothing : Spelled [] [] []
  | rest {s : Bytes} {ss : List Bytes} : ¬ (∃ c t, s = 45 :: c :: t) → Spelled (s :: ss) [] (s :: ss)
  | dashes {ss : List Bytes} : Spelled (lit "--" :: ss) [] ss
  | joined {d v : Bytes} {k : FlagName} {ss pos : List Bytes} {asg : List (FlagName × Bytes)} : IsDash d → Spelled ss asg pos → Spelled ((d ++ k.text ++ 61 :: v) :: ss) ((k, v) :: asg) pos
  | apart {d v : Bytes} {k : FlagName} {ss pos : List Bytes} {asg : List (FlagName × Bytes)} : IsDash d → Spelled ss asg pos → Spelled ((d ++ k.text) :: v :: ss) ((k, v) :: asg) pos

/-- Arguments that do nothing but set flags. -/
inductive Settings : List Bytes → Prop
  | nothing : Settings []
  | joined {d v : Bytes} {k : FlagName} {ss : List Bytes} : IsDash d → Settings ss → Settings ((d ++ k.text ++ 61 :: v) :: ss)
  | apart {d v : Bytes} {k : FlagName} {ss : List Bytes} : IsDash d → Settings ss → Settings ((d ++ k.text) :: v :: ss)

/-- `-h`, `--h`, `-help`, `--help`, or one of these with `=` and anything. -/
def AsksHelp (s : Bytes) : Prop := ∃ d name, IsDash d ∧ (name = lit "h" ∨ name = lit "help") ∧ (s = d ++ name ∨ ∃ v, s = d ++ name ++ 61 :: v)

/-- The value of a flag: the last one given, or the default. -/
def flagValue (asg : List (FlagName × Bytes)) (k : FlagName) : Bytes := ((asg.filter fun a => a.1 = k).getLast?.map Prod.snd).getD (CliFlags.get {} k)

section
variable {C : Type} (E : MainEnv C) (F : Factory Builtin (Option Err) C)

/-- The profiles that are asked for can be created, given the names. -/
def Creatable (f : CliFlags) : Prop := (f.cpuProfile = [] ∨ E.canCreate f.cpuProfile = true) ∧ (f.memProfile = [] ∨ E.canCreate f.memProfile = true)

/-- The profiles that are asked for can be written. -/
def Writable (f : CliFlags) : Prop := (f.cpuProfile = [] ∨ E.canWrite f.cpuProfile = true) ∧ (f.memProfile = [] ∨ E.canWrite f.memProfile = true)

/-- The files when the profiles have been created. -/
def created (f : CliFlags) (fs : Files) : Files := fun name => if name ≠ [] ∧ (name = f.cpuProfile ∨ name = f.memProfile) then some (.profile false) else fs name

/-- The files when the profiles have been written. -/
def written (f : CliFlags) (fs : Files) : Files := fun name => if name ≠ [] ∧ (name = f.cpuProfile ∨ name = f.memProfile) then some (.profile true) else fs name

/-- The pipeline file, read after the profiles have been created, describes a pipeline. -/
def Loads (f : CliFlags) (fs : Files) (p : Pipeline Builtin (Option Err)) : Prop :=
  ∃ file c, created f fs f.pipeline = some file ∧ E.decode file.read = some (some c) ∧ Pipeline.new F c = .ok (.ok p)

/-- The pipeline file, read after the profiles have been created, is missing, is not understood, or describes no pipeline. -/
def Refused (f : CliFlags) (fs : Files) : Prop :=
  created f fs f.pipeline = none ∨ ∃ file, created f fs f.pipeline = some file ∧ (E.decode file.read = none ∨ ∃ c e, E.decode file.read = some (some c) ∧ Pipeline.new F c = .ok (.error e))

end

end Sawmill
