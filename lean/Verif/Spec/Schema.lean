import Verif.Model.Schema
import Verif.Spec.YamlMerge
/-!
# What schema a processors.yml stands for

Stated for documents without merge keys; `Expands` says which one a document with merge keys stands for.
-/

namespace Sawmill
namespace Gen

/-- A mapping that is read as a struct: the keys are scalars, no two alike, and the names are among these. -/
def StructKeys (names : List Bytes) (es : List (Yaml × Yaml)) : Prop := NamedKeys es ∧ ∀ e ∈ es, ∀ n, e.1.name = some n → n ∈ names

/-- A boolean: `true`, `false`, or a string that counts as one; false if it is null or not there. -/
inductive YBoolIs (E : SchemaEnv) : Option Yaml → Bool → Prop where
  | absent : YBoolIs E none false
  | null (t : Bytes) : YBoolIs E (some (.plain t .null)) false
  | bool (t : Bytes) (b : Bool) : YBoolIs E (some (.plain t (.bool b))) b
  | str (t : Bytes) (b : Bool) (h : E.boolText t = some b) : YBoolIs E (some (.str t)) b

/-- The values that count as false in a template. -/
inductive Falsy : YVal → Prop where
  | false : Falsy (.plain (.bool false))
  | int : Falsy (.plain (.int 0))
  | uint : Falsy (.plain (.uint 0))
  | zero : Falsy (.plain (.float 0))
  | negZero : Falsy (.plain (.float 0x8000000000000000#64))
  | list : Falsy (.list [])
  | smap : Falsy (.smap [])
  | gmap : Falsy (.gmap [])

/-- A default: none, if it is null or not there. -/
inductive YDefaultIs (E : SchemaEnv) : Option Yaml → Option Dflt → Prop where
  | absent : YDefaultIs E none none
  | null (t : Bytes) : YDefaultIs E (some (.plain t .null)) none
  | str (s : Bytes) : YDefaultIs E (some (.str s)) (some (.str s))
  | other (y : Yaml) (v : YVal) (b : Bool) (hv : IsAny y v) (hn : v ≠ .plain .null) (hs : ∀ s, v ≠ .str s) (hb : b = true ↔ ¬ Falsy v) : YDefaultIs E (some y) (some (.other (E.print v) b))

/-- An option. -/
def IsOption (E : SchemaEnv) (y : Yaml) (o : Opt) : Prop :=
  ∃ es n t r p d c, y = .map es ∧ StructKeys [lit "name", lit "type", lit "required", lit "optional", lit "default", lit "description"] es ∧
    UnderName es (lit "name") n ∧ YStrIs n o.name ∧ UnderName es (lit "type") t ∧ YStrIs t o.type ∧ UnderName es (lit "required") r ∧ YBoolIs E r o.required ∧
    UnderName es (lit "optional") p ∧ YBoolIs E p o.optional ∧ UnderName es (lit "default") d ∧ YDefaultIs E d o.default ∧ UnderName es (lit "description") c ∧ YStrIs c o.description

/-- A list of options, without the nulls. -/
inductive AreOptions (E : SchemaEnv) : List Yaml → List Opt → Prop where
  | nil : AreOptions E [] []
  | null (t : Bytes) (ys : List Yaml) (os : List Opt) (h : AreOptions E ys os) : AreOptions E (.plain t .null :: ys) os
  | option (y : Yaml) (o : Opt) (ys : List Yaml) (os : List Opt) (h1 : IsOption E y o) (h2 : AreOptions E ys os) : AreOptions E (y :: ys) (o :: os)

inductive OptionsIs (E : SchemaEnv) : Option Yaml → List Opt → Prop where
  | absent : OptionsIs E none []
  | null (t : Bytes) : OptionsIs E (some (.plain t .null)) []
  | seq (ys : List Yaml) (os : List Opt) (h : AreOptions E ys os) : OptionsIs E (some (.seq ys)) os

/-- A processor. -/
inductive IsProc (E : SchemaEnv) : Yaml → Proc → Prop where
  | null (t : Bytes) : IsProc E (.plain t .null) {}
  | map (es : List (Yaml × Yaml)) (d c : Option Yaml) (p : Proc) (hk : StructKeys [lit "description", lit "configuration"] es) (hd : UnderName es (lit "description") d) (h1 : YStrIs d p.description)
      (hc : UnderName es (lit "configuration") c) (h2 : OptionsIs E c p.configuration) : IsProc E (.map es) p

/-- Processors by name; each name that the mapping has, once, in any order. -/
inductive IsProcMap (E : SchemaEnv) : Yaml → List (Bytes × Proc) → Prop where
  | null (t : Bytes) : IsProcMap E (.plain t .null) []
  | map (es : List (Yaml × Yaml)) (ps : List (Bytes × Proc)) (hk : NamedKeys es) (hn : (ps.map (·.1)).Nodup) (h1 : ∀ n p, (n, p) ∈ ps → ∃ y, UnderName es n (some y) ∧ IsProc E y p)
      (h2 : ∀ n y, UnderName es n (some y) → ∃ p, (n, p) ∈ ps) : IsProcMap E (.map es) ps

inductive AreProcMaps (E : SchemaEnv) : List Yaml → Schema → Prop where
  | nil : AreProcMaps E [] []
  | cons (y : Yaml) (m : List (Bytes × Proc)) (ys : List Yaml) (s : Schema) (h1 : IsProcMap E y m) (h2 : AreProcMaps E ys s) : AreProcMaps E (y :: ys) (m :: s)

inductive ProcsIs (E : SchemaEnv) : Option Yaml → Schema → Prop where
  | absent : ProcsIs E none []
  | null (t : Bytes) : ProcsIs E (some (.plain t .null)) []
  | seq (ys : List Yaml) (s : Schema) (h : AreProcMaps E ys s) : ProcsIs E (some (.seq ys)) s

/-- The common fields can be anything, by name. -/
inductive CommonOk : Option Yaml → Prop where
  | absent : CommonOk none
  | null (t : Bytes) : CommonOk (some (.plain t .null))
  | map (es : List (Yaml × Yaml)) (hk : NamedKeys es) (h : ∀ n y, UnderName es n (some y) → ∃ v, IsAny y v) : CommonOk (some (.map es))

/-- The schema that a document stands for. -/
def IsSchema (E : SchemaEnv) (y : Yaml) (s : Schema) : Prop :=
  ∃ es c p, y = .map es ∧ StructKeys [lit "common_fields", lit "processors"] es ∧ UnderName es (lit "common_fields") c ∧ CommonOk c ∧ UnderName es (lit "processors") p ∧ ProcsIs E p s

/-- A null document. -/
def IsNull (y : Yaml) : Prop := ∃ t, y = .plain t .null

/-- The same maps, with their entries in any order. -/
inductive SameMaps : Schema → Schema → Prop where
  | nil : SameMaps [] []
  | cons (m m' : List (Bytes × Proc)) (s s' : Schema) (hp : m.Perm m') (h : SameMaps s s') : SameMaps (m :: s) (m' :: s')

end Gen
end Sawmill
