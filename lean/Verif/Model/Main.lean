import Verif.Model.Programs
/-!
# The command line program as a whole: cmd/sawmill/sawmill.go:47-116, 158-172

Simplifications. YAML decoding is a parameter (`decode`: an error, or a possibly nil `*pipeline.Config`). Files are known by their names (no links, two names are two files), a profile is "not written" or "written" (one file used for both profiles counts as written when one of them is),
reading standard input does not change files. No other package defines flags. What is printed to standard error, the metrics listener (its errors are dropped, metrics.go:63) and the registered metrics (C63) are left out. `log.Fatal` exits with status 1 and does not run deferred
calls; a panic runs them and exits with status 2; an exhausted stack exits with status 2 at once.
-/

namespace Sawmill

/-! ## Flags: sawmill.go:47-60, 64 and Go's package flag, `FlagSet.parseOne` -/

/-- The flags: sawmill.go:54-60. -/
inductive FlagName where
  | pipeline | metricsAddr | cpuProfile | memProfile
deriving DecidableEq

def FlagName.text : FlagName → Bytes
  | .pipeline => lit "p"
  | .metricsAddr => lit "metrics-addr"
  | .cpuProfile => lit "cpuprofile"
  | .memProfile => lit "memprofile"

/-- The variables: sawmill.go:47-52, with the defaults of 54-60. -/
structure CliFlags where
  pipeline : Bytes := []
  metricsAddr : Bytes := lit "localhost:9003"
  cpuProfile : Bytes := []
  memProfile : Bytes := []

def CliFlags.get (f : CliFlags) : FlagName → Bytes
  | .pipeline => f.pipeline
  | .metricsAddr => f.metricsAddr
  | .cpuProfile => f.cpuProfile
  | .memProfile => f.memProfile

def CliFlags.assign (f : CliFlags) (k : FlagName) (v : Bytes) : CliFlags :=
  match k with
  | .pipeline => { f with pipeline := v }
  | .metricsAddr => { f with metricsAddr := v }
  | .cpuProfile => { f with cpuProfile := v }
  | .memProfile => { f with memProfile := v }

/-- `f.formal[name]`. -/
def flagNamed (name : Bytes) : Option FlagName := [FlagName.pipeline, .metricsAddr, .cpuProfile, .memProfile].find? fun k => k.text = name

inductive FlagErr where
  | help | badSyntax | undefined | needsArgument
deriving DecidableEq

/-- What one argument says. -/
inductive FlagStep where
  /-- it is not a flag: parsing stops before it -/
  | stop
  /-- it is `--`: parsing stops after it -/
  | dashes
  | bad (e : FlagErr)
  | set (k : FlagName) (v : Bytes)
  /-- the next argument is the value -/
  | take (k : FlagName)

/-- The name and the value after the first `=` (which is not looked for in the first place). -/
def cutEq : Bytes → Bytes × Option Bytes
  | [] => ([], none)
  | c :: t =>
    if 61 ∈ t then (c :: t.takeWhile (· ≠ 61), some ((t.dropWhile (· ≠ 61)).drop 1))
    else (c :: t, none)

/-- `parseOne` after the dashes. -/
def nameStep (name : Bytes) : FlagStep :=
  if name.head? = some 45 ∨ name.head? = some 61 then .bad .badSyntax
  else
    match flagNamed (cutEq name).1 with
    | none => if (cutEq name).1 = lit "help" ∨ (cutEq name).1 = lit "h" then .bad .help else .bad .undefined
    | some k =>
      match (cutEq name).2 with
      | some v => .set k v
      | none => .take k

/-- `parseOne`, up to the use of the next argument. -/
def flagStep : Bytes → FlagStep
  | 45 :: c :: t =>
    if c = 45 then (if t = [] then .dashes else nameStep t)
    else nameStep (c :: t)
  | _ => .stop

/-- `FlagSet.Parse`: the flags and the remaining arguments. -/
def CliFlags.parse : CliFlags → List Bytes → Except FlagErr (CliFlags × List Bytes)
  | f, [] => .ok (f, [])
  | f, [s] =>
    match flagStep s with
    | .stop => .ok (f, [s])
    | .dashes => .ok (f, [])
    | .bad e => .error e
    | .set k v => .ok (f.assign k v, [])
    | .take _ => .error .needsArgument
  | f, s :: v :: rest =>
    match flagStep s with
    | .stop => .ok (f, s :: v :: rest)
    | .dashes => .ok (f, v :: rest)
    | .bad e => .error e
    | .set k x => CliFlags.parse (f.assign k x) (v :: rest)
    | .take k => CliFlags.parse (f.assign k v) rest

/-! ## main -/

/-- A file: a text, or a profile that has been written or not (a file that was just created). -/
inductive FileC where
  | text (bs : Bytes)
  | profile (written : Bool)
deriving DecidableEq

/-- What reading a file yields. A profile that has not been written is empty. -/
def FileC.read : FileC → Bytes
  | .text bs => bs
  | .profile _ => []

abbrev Files := Bytes → Option FileC

def Files.set (fs : Files) (name : Bytes) (c : FileC) : Files := fun n => if n = name then some c else fs n

/-- The world around the program. -/
structure MainEnv (C : Type) where
  /-- `os.Create` succeeds -/
  canCreate : Bytes → Bool
  /-- writing, flushing and closing the profile succeed -/
  canWrite : Bytes → Bool
  /-- the YAML decoder -/
  decode : Bytes → Option (Option (Config C))

/-- What the program leaves behind: the exit status, the files, and the state of `processInput` if it was called. -/
structure MainOut where
  status : Nat
  files : Files
  cli : Option Cli

section
variable {C : Type} (E : MainEnv C)

/-- `bufferedFileWriter` (sawmill.go:158-162), called if a name is given: sawmill.go:66-71, 73-80. -/
def openProfile (fs : Files) (name : Bytes) : Option Files :=
  if name = [] then some fs
  else if E.canCreate name then some (fs.set name (.profile false))
  else none

/-- The deferred calls of one profile: sawmill.go:69-70, 75-80, 163-171. Nothing: `log.Fatal`. -/
def finishProfile (fs : Files) (name : Bytes) : Option Files :=
  if name = [] then some fs
  else if E.canWrite name then some (fs.set name (.profile true))
  else none

/-- All deferred calls, last first: the memory profile, then the CPU profile. -/
def runDeferred (f : CliFlags) (fs : Files) (status : Nat) (cli : Option Cli) : MainOut :=
  match finishProfile E fs f.memProfile with
  | none => ⟨1, fs, cli⟩
  | some fs =>
    match finishProfile E fs f.cpuProfile with
    | none => ⟨1, fs, cli⟩
    | some fs => ⟨status, fs, cli⟩

/-- `loadPipeline`: sawmill.go:103-116. Nothing is the error. -/
def loadPipeline (fs : Files) (path : Bytes) : Option (Option (Config C)) :=
  match fs path with
  | none => none
  | some c => E.decode c.read

/-- `New` with what was decoded: pipeline.go:34-36 dereferences it. -/
def newOrPanic {A R : Type} (F : Factory A R C) : Option (Config C) → Res (Except NewErr (Pipeline A R))
  | none => .panic
  | some c => Pipeline.new F c

/-- `main` once the profiles have been created: sawmill.go:83-101. -/
def mainLoad (F : Factory Builtin (Option Err) C) (env : JEnv) (n : Nat) (cv : Conv) (wr : Writer) (i : Input) (w : PWorld Heap) (f : CliFlags) (fs : Files) : MainOut :=
  match loadPipeline E fs f.pipeline with
  | none => ⟨1, fs, none⟩
  | some c =>
    match newOrPanic F c with
    | .panic => runDeferred E f fs 2 none
    | .ok (.error _) => ⟨1, fs, none⟩
    | .ok (.ok p) =>
      match processInput env n cv p wr i w with
      | (s, .done) => runDeferred E f fs 0 (some s)
      | (s, .readFailed _) => ⟨1, fs, some s⟩
      | (s, .panic) => runDeferred E f fs 2 (some s)
      | (s, .overflow) => ⟨2, fs, some s⟩

/-- `main`: sawmill.go:62-101. -/
def mainRun (F : Factory Builtin (Option Err) C) (env : JEnv) (n : Nat) (cv : Conv) (wr : Writer) (i : Input) (w : PWorld Heap) (args : List Bytes) (fs : Files) : MainOut :=
  match CliFlags.parse {} args with
  | .error .help => ⟨0, fs, none⟩
  | .error _ => ⟨2, fs, none⟩
  | .ok (f, _) =>
    match openProfile E fs f.cpuProfile with
    | none => ⟨1, fs, none⟩
    | some fs =>
      match openProfile E fs f.memProfile with
      | none => ⟨1, fs, none⟩
      | some fs => mainLoad E F env n cv wr i w f fs
end

end Sawmill
