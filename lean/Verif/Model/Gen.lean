import Verif.Model.Cli
/-!
# The code generator and the documentation generator

internal/proctemplate/{schema,funcs}.go, pkg/processor/generate/generate.go with its assets, docs/generate/generate.go with its assets.

Simplifications. The YAML decoder is not modelled: the generators start from the decoded processors.yml. `strings.ToLower`, `strings.ToUpper`, `strings.Title`, `strconv.Quote`, `wordwrap.WrapString`, `format.Source` and the parser of go/parser are parameters
(`GenEnv`). The templates are translated by hand into functions that append the same text (with the trimming of `{{-` and `-}}`); text/template itself is not modelled. Directories, and errors of the file system, are not modelled: a file is its content under its path
relative to the directory of processors.yml, and names are taken to be plain (no `/`, not `.` or `..`), so that `filepath.Join` only puts a slash between them. `cleanSlice`, `cleanMapInterface`, `cleanMapString` and `cleanValue` (schema.go:46-82) are called from nowhere.
-/

namespace Sawmill
namespace Gen

/-- The default of an option (`interface{}`): a string, or something else, of which only what `fmt` prints for it matters, and whether a template's `if` takes it for true (it does not for `false`, zero and empty values). schema.go:42. -/
inductive Dflt where
  | str (s : Bytes)
  | other (text : Bytes) (truthy : Bool)
deriving DecidableEq, Repr

/-- `ConfigurationOption`. schema.go:37-44. -/
structure Opt where
  name : Bytes
  type : Bytes
  required : Bool := false
  optional : Bool := false
  default : Option Dflt := none
  description : Bytes := []
deriving DecidableEq, Repr

/-- `Processor`. schema.go:32-35. -/
structure Proc where
  description : Bytes := []
  configuration : List Opt := []
deriving DecidableEq, Repr

/-- `Processors.Processors`, a list of maps. Each map is listed in some order; the loops below visit it in any. schema.go:27-30. -/
abbrev Schema := List (List (Bytes × Proc))

/-- Functions of the standard library and of go-wordwrap. `quoteBody` is the result of `strconv.Quote` without the quotes; `parse` gives the names of the functions and methods that a file declares, or nothing if it is not valid Go. -/
structure GenEnv where
  lower : Bytes → Bytes
  upper : Bytes → Bytes
  title : Bytes → Bytes
  quoteBody : Bytes → Bytes
  wrap : Bytes → Nat → Bytes
  format : Bytes → Option Bytes
  parse : Bytes → Option (List Bytes)

/-! ## internal/proctemplate/funcs.go -/

/-- `strings.Split(s, "\n")` (standard library). -/
def splitLines : Bytes → List Bytes
  | [] => [[]]
  | b :: r =>
    if b = 10 then [] :: splitLines r
    else match splitLines r with
      | l :: ls => (b :: l) :: ls
      | [] => [[b]]

/-- `strings.Join`, `bytes.Join` (standard library). -/
def join (sep : Bytes) : List Bytes → Bytes
  | [] => []
  | [l] => l
  | l :: ls => l ++ sep ++ join sep ls

/-- `trimTrailingWhitespace`; nothing: an error, because the scanner met a line that is too long. funcs.go:64-74. -/
def trimTrailingWhitespace (text : Bytes) : Option Bytes :=
  match scanAll { chunks := if text = [] then [] else [text] } with
  | (_, some _) => none
  | (lines, none) => some (join [10] (lines.map fun l => trimRight l.length l))

/-- `strings.Replace(s, "\t", "    ", n)` (standard library). -/
def replaceTabs : Nat → Bytes → Bytes
  | _, [] => []
  | n, b :: r => if b = 9 then (match n with | 0 => b :: r | n + 1 => lit "    " ++ replaceTabs n r) else b :: replaceTabs n r

/-- Removing the first line if it is empty. funcs.go:49-54. -/
def dropFirst : List Bytes → List Bytes
  | [] => []
  | l :: ls => if trimSpace l = [] then ls else l :: ls

/-- Removing the last line if it is empty. funcs.go:55-60. -/
def dropLast (lines : List Bytes) : List Bytes :=
  match lines.getLast? with
  | none => lines
  | some l => if trimSpace l = [] then lines.dropLast else lines

/-- `descriptionToComment`. funcs.go:45-62. The conversion of the width to `uint` is harmless for the two indents in use. -/
def descriptionToComment (E : GenEnv) (indent desc : Bytes) : Option Bytes :=
  let textLength := 80 - (replaceTabs 4 indent ++ lit " // ").length
  trimTrailingWhitespace (join (10 :: indent ++ lit "// ") (dropLast (dropFirst (splitLines (E.wrap desc textLength)))))

/-- `isSeparator`. funcs.go:96-108. -/
def isSeparator (b : UInt8) : Bool := b = 46 || b = 95 || b = 64

/-- `strings.FieldsFunc(name, isSeparator)` (standard library): the stretches without separators. The separators are ASCII, so it can be done byte by byte. -/
def fields : Bytes → List Bytes
  | [] => []
  | b :: r =>
    if isSeparator b then fields r
    else match r with
      | [] => [[b]]
      | c :: _ =>
        if isSeparator c then [b] :: fields r
        else match fields r with
          | w :: ws => (b :: w) :: ws
          | [] => [[b]]

/-- The abbreviations. funcs.go:89. -/
def abbreviated : List Bytes := [lit "id", lit "ppid", lit "pid", lit "pgid", lit "mac", lit "ip", lit "iana", lit "uid", lit "ecs", lit "as", lit "icmp"]

/-- `abbreviations`. funcs.go:86-94. -/
def abbreviations (E : GenEnv) (w : Bytes) : Bytes := if abbreviated.contains (E.lower w) then E.upper w else w

/-- `goTypeName`. funcs.go:76-84. -/
def goTypeName (E : GenEnv) (name : Bytes) : Bytes := (fields name).flatMap fun w => E.title (abbreviations E w)

/-- `selectDefaults`, giving the defaults too. funcs.go:110-118. -/
def selectDefaults : List Opt → List (Opt × Dflt)
  | [] => []
  | o :: os =>
    match o.default with
    | some d => (o, d) :: selectDefaults os
    | none => selectDefaults os

/-- `quoteStrings`. funcs.go:120-127. -/
def quoteStrings (E : GenEnv) : Dflt → Bytes
  | .str s => 34 :: E.quoteBody s ++ [34]
  | .other t _ => t

/-- What follows the last `c`, and what is before it (`strings.LastIndex`, standard library). -/
def cutLast (c : UInt8) : Bytes → Option (Bytes × Bytes)
  | [] => none
  | b :: r =>
    match cutLast c r with
    | some (x, y) => some (b :: x, y)
    | none => if b = c then some ([], r) else none

/-- The import that an option's type needs. funcs.go:133-137. -/
def importOf (o : Opt) : Option Bytes := (cutLast 46 o.type).map (·.1)

/-- `configTypeImports`: the keys of the map, in any order. funcs.go:129-146. -/
def ConfigTypeImports (opts : List Opt) (list : List Bytes) : Prop := list.Nodup ∧ ∀ i, i ∈ list ↔ i ∈ opts.filterMap importOf

/-- `trimImportPrefix`. funcs.go:148-154. -/
def trimImportPrefix (t : Bytes) : Bytes :=
  match cutLast 47 t with
  | some (_, y) => y
  | none => t

/-- `boolToX`. funcs.go:156-161. -/
def boolToX (b : Bool) : Bytes := if b then lit "x" else []

/-! ## pkg/processor/generate -/

/-- assets/license-header.txt, line by line. -/
def licenseHeader : Bytes := List.flatMap (fun l => l ++ [10])
  [lit "// Licensed to Elasticsearch B.V. under one or more contributor",
   lit "// license agreements. See the NOTICE file distributed with",
   lit "// this work for additional information regarding copyright",
   lit "// ownership. Elasticsearch B.V. licenses this file to you under",
   lit "// the Apache License, Version 2.0 (the \"License\"); you may",
   lit "// not use this file except in compliance with the License.",
   lit "// You may obtain a copy of the License at",
   lit "//",
   lit "//     http://www.apache.org/licenses/LICENSE-2.0",
   lit "//",
   lit "// Unless required by applicable law or agreed to in writing,",
   lit "// software distributed under the License is distributed on an",
   lit "// \"AS IS\" BASIS, WITHOUT WARRANTIES OR CONDITIONS OF ANY",
   lit "// KIND, either express or implied.  See the License for the",
   lit "// specific language governing permissions and limitations",
   lit "// under the License."]

/-- `sort.Slice` by name: some permutation in the order of the names (the algorithm is not stable). generate.go:81-83, docs/generate/generate.go:72-74. -/
def SortedByName (opts sorted : List Opt) : Prop := sorted.Perm opts ∧ sorted.Pairwise fun a b => bLt b.name a.name = false

/-- One field of the struct; nothing: an error of the template function. processor.go.gotmpl:24-26. -/
def renderField (E : GenEnv) (o : Opt) : Option Bytes :=
  (descriptionToComment E [9] o.description).map fun c =>
    lit "\n    // " ++ c ++ lit "\n    " ++ goTypeName E o.name ++ lit " " ++ trimImportPrefix o.type ++ lit " `config:\"" ++ o.name ++ lit "\"" ++ (if o.required then lit " validate:\"required\"" else []) ++ lit "`\n"

/-- The fields of the struct. processor.go.gotmpl:23-27. -/
def renderFields (E : GenEnv) : List Opt → Option Bytes
  | [] => some []
  | o :: os =>
    match renderField E o with
    | none => none
    | some f => (renderFields E os).map fun r => f ++ r

/-- `goFileTemplate.Execute`. assets/processor.go.gotmpl. -/
def render (E : GenEnv) (name desc : Bytes) (opts : List Opt) (imports : List Bytes) (includeProcessFunc : Bool) : Option Bytes :=
  let T := goTypeName E name
  match renderFields E opts, descriptionToComment E [] desc with
  | some fs, some d => some (
    licenseHeader ++ lit "\n\n// Code generated by processor/generate.go - DO NOT EDIT.\npackage " ++ E.lower name ++ lit "\n\nimport (\n" ++
    imports.flatMap (fun i => lit "\n    \"" ++ i ++ lit "\"") ++
    lit "\n    \"github.com/andrewkroh/go-sawmill/pkg/processor\"\n    \"github.com/andrewkroh/go-sawmill/pkg/processor/registry\"\n)\n\nfunc init() {\n    registry.MustRegister(processorName, New)\n}\n\nconst (\n    processorName = \"" ++ name ++
    lit "\"\n)\n\n// Config contains the configuration options for the " ++ name ++ lit " processor.\ntype Config struct {" ++ fs ++
    lit "}\n\n// InitDefaults initializes the configuration options to their default values.\nfunc (c *Config) InitDefaults() {" ++
    (selectDefaults opts).flatMap (fun x => lit "\n    c." ++ goTypeName E x.1.name ++ lit " = " ++ quoteStrings E x.2) ++
    lit "\n}\n\n// " ++ d ++ lit "\ntype " ++ T ++ lit " struct {\n    config Config\n}\n\n// New returns a new " ++ T ++ lit " processor.\nfunc New(config Config) (*" ++ T ++ lit ", error) {\n    return &" ++ T ++
    lit "{config: config}, nil\n}\n\n// Config returns the " ++ T ++ lit " processor config.\nfunc (p *" ++ T ++ lit ") Config() Config {\n    return p.config\n}\n\nfunc (p *" ++ T ++
    lit ") String() string {\n    return processor.ConfigString(processorName, p.config)\n}\n\n" ++
    (if includeProcessFunc then lit "\nfunc (p *" ++ T ++ lit ") Process(event processor.Event) error {\n    // TODO: Implement this in process.go.\n    return nil\n}\n" else []) ++ lit "\n")
  | _, _ => none

/-- The files below the directory of processors.yml. -/
abbrev Files := Bytes → Option Bytes

/-- `outputGoFile`. generate.go:92. -/
def pathOf (name : Bytes) : Bytes := name ++ lit "/" ++ name ++ lit ".go"

/-- `hasProcessFunc`; nothing: the file does not exist or is not valid Go. generate.go:124-146. -/
def hasProcessFunc (E : GenEnv) (fs : Files) (path : Bytes) : Option Bool :=
  match fs path with
  | none => none
  | some src => (E.parse src).map fun fns => fns.contains (lit "Process")

/-- `IncludeProcessFunc`. generate.go:85-99. -/
def includeProcessFunc (E : GenEnv) (fs : Files) (name : Bytes) : Bool :=
  match hasProcessFunc E fs (pathOf name) with
  | some false => false
  | _ => true

/-- What is written for a processor, from the sorted options and a list of imports; nothing: `log.Fatal`. generate.go:85-111. -/
def output (E : GenEnv) (fs : Files) (name desc : Bytes) (opts : List Opt) (imports : List Bytes) : Option Bytes :=
  (render E name desc opts imports (includeProcessFunc E fs name)).bind E.format

/-- `ioutil.WriteFile`. generate.go:117. -/
def Files.write (fs : Files) (path content : Bytes) : Files := fun p => if p = path then some content else fs p

/-- One round of the inner loop; nothing: `log.Fatal`. generate.go:79-120. -/
inductive Visit (E : GenEnv) (fs : Files) : Bytes × Proc → Option Files → Prop
  | mk {name : Bytes} {p : Proc} {opts : List Opt} {imports : List Bytes} : SortedByName p.configuration opts → ConfigTypeImports opts imports →
      Visit E fs (name, p) ((output E fs name p.description opts imports).map fun out => fs.write (pathOf name) out)

/-- Both loops, over the processors in the order in which they are visited: the files at the end, and whether the program came to its end. generate.go:78-121. -/
inductive VisitAll (E : GenEnv) : Files → List (Bytes × Proc) → Files → Bool → Prop
  | done {fs : Files} : VisitAll E fs [] fs true
  | fatal {fs : Files} {x : Bytes × Proc} {xs : List (Bytes × Proc)} : Visit E fs x none → VisitAll E fs (x :: xs) fs false
  | step {fs fs' fs'' : Files} {x : Bytes × Proc} {xs : List (Bytes × Proc)} {ok : Bool} : Visit E fs x (some fs') → VisitAll E fs' xs fs'' ok → VisitAll E fs (x :: xs) fs'' ok

/-- The orders in which a list of maps may be visited. -/
inductive Order : Schema → List (Bytes × Proc) → Prop
  | nil : Order [] []
  | cons {m m' : List (Bytes × Proc)} {s : Schema} {xs : List (Bytes × Proc)} : m'.Perm m → Order s xs → Order (m :: s) (m' ++ xs)

/-- `main`, after the file has been read. generate.go:78-121. -/
def Main (E : GenEnv) (fs : Files) (s : Schema) (fs' : Files) (ok : Bool) : Prop := ∃ xs, Order s xs ∧ VisitAll E fs xs fs' ok

/-! ## docs/generate -/

/-- `goTypeToYAMLType`. docs/generate/generate.go:100-109. -/
def goTypeToYAMLType (t : Bytes) : Bytes :=
  if t = lit "github.com/andrewkroh/go-sawmill/pkg/config.EventValue" then lit "any"
  else if t = lit "map[string]interface{}" then lit "map"
  else t

/-- `{{if $o.Default}}{{$o.Default}}{{end}}`. processor.md.gotmpl:8. -/
def shownDefault : Option Dflt → Bytes
  | none => []
  | some (.str s) => s
  | some (.other t truthy) => if truthy then t else []

/-- `strings.ReplaceAll(s, "\n", " ")` (standard library). -/
def newlinesToBlanks (s : Bytes) : Bytes := s.map fun b => if b = 10 then 32 else b

/-- A row of the table of options. processor.md.gotmpl:8-9. -/
def docsRow (o : Opt) : Bytes :=
  lit "| " ++ o.name ++ lit " | " ++ boolToX o.required ++ lit " | " ++ boolToX o.optional ++ lit " | " ++ o.type ++ lit " | " ++ shownDefault o.default ++ lit " | " ++ newlinesToBlanks o.description ++ lit " |\n"

/-- The section on a processor. assets/processor.md.gotmpl. -/
def docsSection (name desc : Bytes) (opts : List Opt) : Bytes :=
  lit "### " ++ name ++ lit "\n\n" ++ desc ++ lit "\n\n| Option | Required | Optional | Type | Default | Description |\n|--------|----------|----------|------|---------|-------------|\n" ++ opts.flatMap docsRow ++ lit "\n"

/-- The template README.md.gotmpl from line 45; `intro` is what comes before (assets/README.md.gotmpl:1-44). -/
def docsText (intro : Bytes) (procs : List (Bytes × Proc)) : Bytes :=
  intro ++ lit "## Processors\n" ++ procs.flatMap (fun p => lit "\n- [" ++ p.1 ++ lit "](#" ++ p.1 ++ lit ")") ++ lit "\n\n" ++
    procs.flatMap (fun p => lit "\n" ++ docsSection p.1 p.2.description p.2.configuration) ++ lit "\n\n"

/-- The options as they are shown: sorted, with the type replaced. docs/generate/generate.go:72-77. -/
def ShownOpts (opts shown : List Opt) : Prop := ∃ sorted, SortedByName opts sorted ∧ shown = sorted.map fun o => { o with type := goTypeToYAMLType o.type }

/-- One round of the outer loop: of each map, whichever processor comes first. docs/generate/generate.go:70-84. -/
inductive Picked : Schema → List (Bytes × Proc) → Prop
  | nil : Picked [] []
  | empty {s : Schema} {ps : List (Bytes × Proc)} : Picked s ps → Picked ([] :: s) ps
  | pick {m : List (Bytes × Proc)} {name : Bytes} {p : Proc} {shown : List Opt} {s : Schema} {ps : List (Bytes × Proc)} : (name, p) ∈ m → ShownOpts p.configuration shown → Picked s ps →
      Picked (m :: s) ((name, { p with configuration := shown }) :: ps)

/-- `main` of the documentation generator: the file it writes. docs/generate/generate.go:69-97. The template cannot fail (its error would be dropped: line 91 tests the error of the reading). -/
def Docs (intro : Bytes) (s : Schema) (text : Bytes) : Prop :=
  ∃ ps sorted, Picked s ps ∧ sorted.Perm ps ∧ (sorted.Pairwise fun a b => bLt b.1 a.1 = false) ∧ text = docsText intro sorted

end Gen
end Sawmill
