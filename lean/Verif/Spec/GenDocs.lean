import Verif.Spec.Gen
/-!
# The lines of the documentation
-/

namespace Sawmill
namespace Gen

/-- The cells of an option. -/
def docCells (o : Opt) : List Bytes :=
  [o.name, if o.required then lit "x" else [], if o.optional then lit "x" else [], o.type,
   match o.default with
   | none => []
   | some (.str s) => s
   | some (.other t truthy) => if truthy then t else [],
   o.description.map fun b => if b = 10 then 32 else b]

/-- A row of a table. -/
def tableRow (cells : List Bytes) : Bytes := lit "| " ++ join (lit " | ") cells ++ lit " |"

/-- The lines of a section. -/
def sectionLines (p : Bytes × Proc) : List Bytes :=
  [[], lit "### " ++ p.1, [], p.2.description, [], tableRow [lit "Option", lit "Required", lit "Optional", lit "Type", lit "Default", lit "Description"], lit "|--------|----------|----------|------|---------|-------------|"] ++
    p.2.configuration.map (fun o => tableRow (docCells o)) ++ [[]]

/-- The lines of the part of the documentation on the processors: a list of links, and a section for each. -/
def docLines (ps : List (Bytes × Proc)) : List Bytes :=
  [lit "## Processors", []] ++ ps.map (fun p => lit "- [" ++ p.1 ++ lit "](#" ++ p.1 ++ lit ")") ++ [[]] ++ ps.flatMap sectionLines ++ [[], []]

/-- What a type is called in YAML. -/
def yamlType (t : Bytes) : Bytes :=
  if t = lit "github.com/andrewkroh/go-sawmill/pkg/config.EventValue" then lit "any" else if t = lit "map[string]interface{}" then lit "map" else t

/-- What is shown of a processor: its options in the order of their names, with types as they are called in YAML. -/
def Shows (c q : Bytes × Proc) : Prop :=
  q.1 = c.1 ∧ q.2.description = c.2.description ∧ ∃ opts : List Opt, opts.Perm c.2.configuration ∧ (opts.Pairwise fun a b => bLt b.name a.name = false) ∧
    q.2.configuration = opts.map fun o => { o with type := yamlType o.type }

end Gen
end Sawmill
