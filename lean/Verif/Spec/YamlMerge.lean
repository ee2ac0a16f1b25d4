import Verif.Model.YamlMerge
import Verif.Spec.Yaml
/-!
# What merge keys mean

A mapping with a merge key `<<` stands for the mapping without it that has in addition the entries of the mapping under `<<`, except where it has an entry of that name itself. Under `<<` there can be a list of mappings; then the first one that has the name counts.
-/

namespace Sawmill

/-- The mapping's own entry of that name. -/
def ownEntry (n : Bytes) (es : List (MYaml × MYaml)) : Option MYaml := es.findSome? fun e => match e.1 with
  | .str t => if t = n then some e.2 else none
  | _ => none

mutual
/-- The entry of that name that comes from under the merge key. -/
def mergedEntry (n : Bytes) : List (MYaml × MYaml) → Option MYaml
  | [] => none
  | (.merge, y) :: _ => nodeEntry n y
  | _ :: es => mergedEntry n es
/-- The entry of that name of a mapping, or of the first mapping in a list that has one. -/
def nodeEntry (n : Bytes) : MYaml → Option MYaml
  | .map es => (ownEntry n es).or (mergedEntry n es)
  | .seq ys => firstEntry n ys
  | _ => none
def firstEntry (n : Bytes) : List MYaml → Option MYaml
  | [] => none
  | y :: ys => (nodeEntry n y).or (firstEntry n ys)
end

/-- The keys are strings (not the string `<<`) and merge keys, and no key occurs twice. -/
def CleanKeys (es : List (MYaml × MYaml)) : Prop := (∀ e ∈ es, e.1 = .merge ∨ ∃ t, e.1 = .str t ∧ t ≠ lit "<<") ∧ es.Pairwise fun a b => a.1 ≠ b.1

mutual
/-- Mappings that can be merged, and that can have a merge key: the keys are strings, and under the merge key there is a mapping or a list of mappings of this kind. -/
inductive CanMerge : List (MYaml × MYaml) → Prop where
  | mk (es : List (MYaml × MYaml)) (hk : CleanKeys es) (hm : ∀ y, (.merge, y) ∈ es → Source y) : CanMerge es
/-- What can be under a merge key. -/
inductive Source : MYaml → Prop where
  | map (es : List (MYaml × MYaml)) (h : CanMerge es) : Source (.map es)
  | seq (ys : List MYaml) (hs : ∀ y ∈ ys, ∃ es, y = .map es) (h : ∀ es, .map es ∈ ys → CanMerge es) : Source (.seq ys)
end

mutual
/-- The document without merge keys that a document stands for. -/
inductive Expands : MYaml → Yaml → Prop where
  | str (t : Bytes) : Expands (.str t) (.str t)
  | plain (t : Bytes) (v : YPlain) : Expands (.plain t v) (.plain t v)
  | text : Expands .merge (.str (lit "<<"))
  | seq (ys : List MYaml) (zs : List Yaml) (h : ExpandsL ys zs) : Expands (.seq ys) (.seq zs)
  | map (es : List (MYaml × MYaml)) (fs : List (Yaml × Yaml)) (h : ExpandsE es fs) : Expands (.map es) (.map fs)
  | merged (es : List (MYaml × MYaml)) (names : List Bytes) (under : Bytes → Yaml) (hm : ∃ e ∈ es, e.1 = .merge) (hc : CanMerge es) (hn : names.Nodup)
      (h : ∀ n, n ∈ names ↔ ∃ y, nodeEntry n (.map es) = some y) (hv : ∀ n y, nodeEntry n (.map es) = some y → Expands y (under n)) : Expands (.map es) (.map (names.map fun n => (.str n, under n)))
inductive ExpandsL : List MYaml → List Yaml → Prop where
  | nil : ExpandsL [] []
  | cons (y : MYaml) (z : Yaml) (ys : List MYaml) (zs : List Yaml) (h1 : Expands y z) (h2 : ExpandsL ys zs) : ExpandsL (y :: ys) (z :: zs)
/-- Mappings without a merge key, whose keys are scalars. -/
inductive ExpandsE : List (MYaml × MYaml) → List (Yaml × Yaml) → Prop where
  | nil : ExpandsE [] []
  | str (t : Bytes) (y : MYaml) (z : Yaml) (es : List (MYaml × MYaml)) (fs : List (Yaml × Yaml)) (h1 : Expands y z) (h2 : ExpandsE es fs) : ExpandsE ((.str t, y) :: es) ((.str t, z) :: fs)
  | plain (t : Bytes) (v : YPlain) (y : MYaml) (z : Yaml) (es : List (MYaml × MYaml)) (fs : List (Yaml × Yaml)) (h1 : Expands y z) (h2 : ExpandsE es fs) : ExpandsE ((.plain t v, y) :: es) ((.plain t v, z) :: fs)
end

mutual
/-- Documents in which keys are scalars, and mappings with a merge key can have one. -/
def MYaml.Fine : MYaml → Prop
  | .seq ys => MYaml.FineL ys
  | .map es => ((∃ e ∈ es, e.1 = .merge) → CanMerge es) ∧ MYaml.FineE es
  | _ => True
def MYaml.FineL : List MYaml → Prop
  | [] => True
  | y :: ys => y.Fine ∧ MYaml.FineL ys
def MYaml.FineE : List (MYaml × MYaml) → Prop
  | [] => True
  | (k, y) :: es => (∀ xs, k ≠ .seq xs) ∧ (∀ xs, k ≠ .map xs) ∧ y.Fine ∧ MYaml.FineE es
end

end Sawmill
