import Verif.Model.Yaml
import Verif.Spec.ConfigJson
/-!
# What configuration a YAML document stands for
-/

namespace Sawmill

/-- The name that a key stands for: its text, if it is a scalar other than null. -/
def Yaml.name : Yaml → Option Bytes
  | .str t => some t
  | .plain t v => if v = .null then none else some t
  | .seq _ => none
  | .map _ => none

def Yaml.Scalar : Yaml → Prop
  | .str _ => True
  | .plain _ _ => True
  | .seq _ => False
  | .map _ => False

/-- How a key looks: the text of a scalar; all sequences look alike, and all mappings. -/
inductive Yaml.LooksLike : Yaml → Yaml → Prop where
  | str (t : Bytes) : LooksLike (.str t) (.str t)
  | strPlain (t : Bytes) (v : YPlain) : LooksLike (.str t) (.plain t v)
  | plainStr (t : Bytes) (v : YPlain) : LooksLike (.plain t v) (.str t)
  | plain (t : Bytes) (v w : YPlain) : LooksLike (.plain t v) (.plain t w)
  | seq (xs ys : List Yaml) : LooksLike (.seq xs) (.seq ys)
  | map (xs ys : List (Yaml × Yaml)) : LooksLike (.map xs) (.map ys)

/-- No two keys look alike. -/
def Unrepeated (es : List (Yaml × Yaml)) : Prop := List.Pairwise (fun a b => ¬ a.1.LooksLike b.1) es

/-- The keys of a mapping that is read as a struct, or as a map with names as keys: scalars, no two alike. -/
def NamedKeys (es : List (Yaml × Yaml)) : Prop := Unrepeated es ∧ ∀ e ∈ es, e.1.Scalar

/-- What is under a name, or none. -/
def UnderName (es : List (Yaml × Yaml)) (n : Bytes) : Option Yaml → Prop
  | none => ∀ e ∈ es, e.1.name ≠ some n
  | some y => ∃ k, (k, y) ∈ es ∧ k.name = some n

/-- A field of text: the text of a scalar, also of a number or the like; empty if it is null or not there. -/
inductive YStrIs : Option Yaml → Bytes → Prop where
  | absent : YStrIs none []
  | null (t : Bytes) : YStrIs (some (.plain t .null)) []
  | str (t : Bytes) : YStrIs (some (.str t)) t
  | plain (t : Bytes) (v : YPlain) (h : v ≠ .null) : YStrIs (some (.plain t v)) t

mutual
/-- The value that a node stands for, where nothing is said about its type. -/
inductive IsAny : Yaml → YVal → Prop where
  | str (t : Bytes) : IsAny (.str t) (.str t)
  | plain (t : Bytes) (v : YPlain) : IsAny (.plain t v) (.plain v)
  | seq (ys : List Yaml) (vs : List YVal) (h : IsAnyL ys vs) : IsAny (.seq ys) (.list vs)
  | smap (es : List (Yaml × Yaml)) (ns : List (Bytes × YVal)) (hu : Unrepeated es) (h : IsAnyS es ns) : IsAny (.map es) (.smap (AMap.ofEntries ns []))
  | gmap (es : List (Yaml × Yaml)) (gs : List (YKey × YVal)) (hu : Unrepeated es) (hk : ∃ e ∈ es, ∀ t, e.1 ≠ .str t) (h : IsAnyG es gs) : IsAny (.map es) (.gmap gs)
inductive IsAnyL : List Yaml → List YVal → Prop where
  | nil : IsAnyL [] []
  | cons (y : Yaml) (v : YVal) (ys : List Yaml) (vs : List YVal) (h1 : IsAny y v) (h2 : IsAnyL ys vs) : IsAnyL (y :: ys) (v :: vs)
/-- All keys are strings. -/
inductive IsAnyS : List (Yaml × Yaml) → List (Bytes × YVal) → Prop where
  | nil : IsAnyS [] []
  | cons (t : Bytes) (y : Yaml) (v : YVal) (es : List (Yaml × Yaml)) (ns : List (Bytes × YVal)) (h1 : IsAny y v) (h2 : IsAnyS es ns) : IsAnyS ((.str t, y) :: es) ((t, v) :: ns)
/-- All keys are scalars. -/
inductive IsAnyG : List (Yaml × Yaml) → List (YKey × YVal) → Prop where
  | nil : IsAnyG [] []
  | str (t : Bytes) (y : Yaml) (v : YVal) (es : List (Yaml × Yaml)) (gs : List (YKey × YVal)) (h1 : IsAny y v) (h2 : IsAnyG es gs) : IsAnyG ((.str t, y) :: es) ((.str t, v) :: gs)
  | plain (t : Bytes) (p : YPlain) (y : Yaml) (v : YVal) (es : List (Yaml × Yaml)) (gs : List (YKey × YVal)) (h1 : IsAny y v) (h2 : IsAnyG es gs) : IsAnyG ((.plain t p, y) :: es) ((.plain p, v) :: gs)
end

/-- The processor's own options: the entries under all names but the three that every processor has. -/
inductive IsOwn : List (Yaml × Yaml) → List (Bytes × YVal) → Prop where
  | nil : IsOwn [] []
  | skip (k y : Yaml) (es : List (Yaml × Yaml)) (ns : List (Bytes × YVal)) (hk : ∀ n, k.name = some n → n ∈ optNames) (h : IsOwn es ns) : IsOwn ((k, y) :: es) ns
  | own (k y : Yaml) (n : Bytes) (v : YVal) (es : List (Yaml × Yaml)) (ns : List (Bytes × YVal)) (hk : k.name = some n) (hn : n ∉ optNames) (hv : IsAny y v) (h : IsOwn es ns) : IsOwn ((k, y) :: es) ((n, v) :: ns)

/-- As a map; none if there are no such entries. -/
def ownMap (ns : List (Bytes × YVal)) : YCfg := if ns.isEmpty then none else some (AMap.ofEntries ns [])

mutual
/-- The options of a processor that a node stands for; null stands for none. -/
inductive IsYOpt : Yaml → Option (OptCfg YCfg) → Prop where
  | null (t : Bytes) : IsYOpt (.plain t .null) none
  | map (es : List (Yaml × Yaml)) (i c f : Option Yaml) (id cond : Bytes) (onF : List (ProcCfg YCfg)) (ns : List (Bytes × YVal)) (hk : NamedKeys es)
      (hi : UnderName es (lit "id") i) (hc : UnderName es (lit "if") c) (hf : UnderName es (lit "on_failure") f) (h1 : YStrIs i id) (h2 : YStrIs c cond) (h3 : IsYSlice f onF) (ho : IsOwn es ns) :
      IsYOpt (.map es) (some (.mk id cond onF (ownMap ns)))
/-- A list of processors. -/
inductive IsYSlice : Option Yaml → List (ProcCfg YCfg) → Prop where
  | absent : IsYSlice none []
  | null (t : Bytes) : IsYSlice (some (.plain t .null)) []
  | seq (ys : List Yaml) (cs : List (ProcCfg YCfg)) (h : IsYConfs ys cs) : IsYSlice (some (.seq ys)) cs
inductive IsYConfs : List Yaml → List (ProcCfg YCfg) → Prop where
  | nil : IsYConfs [] []
  | cons (y : Yaml) (c : ProcCfg YCfg) (ys : List Yaml) (cs : List (ProcCfg YCfg)) (h1 : IsYConf y c) (h2 : IsYConfs ys cs) : IsYConfs (y :: ys) (c :: cs)
/-- A processor: a map from names to options; null stands for the empty map. -/
inductive IsYConf : Yaml → ProcCfg YCfg → Prop where
  | null (t : Bytes) : IsYConf (.plain t .null) []
  | map (es : List (Yaml × Yaml)) (os : List (Bytes × Option (OptCfg YCfg))) (hk : NamedKeys es) (h : IsYEntries es os) : IsYConf (.map es) (AMap.ofEntries os [])
/-- The entries with a name. -/
inductive IsYEntries : List (Yaml × Yaml) → List (Bytes × Option (OptCfg YCfg)) → Prop where
  | nil : IsYEntries [] []
  | skip (k y : Yaml) (es : List (Yaml × Yaml)) (os : List (Bytes × Option (OptCfg YCfg))) (hk : k.name = none) (h : IsYEntries es os) : IsYEntries ((k, y) :: es) os
  | entry (k y : Yaml) (n : Bytes) (o : Option (OptCfg YCfg)) (es : List (Yaml × Yaml)) (os : List (Bytes × Option (OptCfg YCfg))) (hk : k.name = some n) (ho : IsYOpt y o) (h : IsYEntries es os) : IsYEntries ((k, y) :: es) ((n, o) :: os)
end

/-- The configuration that a document stands for. What is under other names does not matter. -/
def IsYConfig (y : Yaml) (c : YConfig) : Prop :=
  ∃ es i d p f, y = .map es ∧ NamedKeys es ∧ UnderName es (lit "id") i ∧ UnderName es (lit "description") d ∧ UnderName es (lit "processors") p ∧ UnderName es (lit "on_failure") f ∧
    YStrIs i c.config.id ∧ YStrIs d c.description ∧ IsYSlice p c.config.processors ∧ IsYSlice f c.config.onFailure

/-! ## The order of entries -/

mutual
/-- The same document up to the order of the entries of mappings (those with keys that are not strings excepted, where nothing is said about types), and up to how strings are written as keys. -/
inductive Reordered : Yaml → Yaml → Prop where
  | str (t : Bytes) : Reordered (.str t) (.str t)
  | plain (t : Bytes) (v : YPlain) : Reordered (.plain t v) (.plain t v)
  | seq (xs ys : List Yaml) (h : ReorderedL xs ys) : Reordered (.seq xs) (.seq ys)
  | map (xs ys zs : List (Yaml × Yaml)) (h : ReorderedE xs ys) (hs : ∀ e ∈ xs, ∃ t, e.1 = .str t) (hp : ys.Perm zs) : Reordered (.map xs) (.map zs)
  | gmap (xs ys : List (Yaml × Yaml)) (h : ReorderedE xs ys) : Reordered (.map xs) (.map ys)
inductive ReorderedL : List Yaml → List Yaml → Prop where
  | nil : ReorderedL [] []
  | cons (x y : Yaml) (xs ys : List Yaml) (h1 : Reordered x y) (h2 : ReorderedL xs ys) : ReorderedL (x :: xs) (y :: ys)
inductive ReorderedE : List (Yaml × Yaml) → List (Yaml × Yaml) → Prop where
  | nil : ReorderedE [] []
  | cons (k x y : Yaml) (xs ys : List (Yaml × Yaml)) (h1 : Reordered x y) (h2 : ReorderedE xs ys) : ReorderedE ((k, x) :: xs) ((k, y) :: ys)
end

/-! ## Numbers -/

/-- The text is this integer in decimal: perhaps a minus sign, perhaps some zeros, and the digits. -/
def Decimal (t : Bytes) (i : Int) : Prop := ∃ (z n : Nat), (t = List.replicate z 48 ++ itoa n ∧ i = n) ∨ (t = 45 :: (List.replicate z 48 ++ itoa n) ∧ i = -n)

mutual
/-- A value from JSON and one from YAML are the same, except that an integer may be an integer of 64 bits in YAML where JSON has a floating point number, both of the same text. -/
inductive SameOption (env : JEnv) : Val → YVal → Prop where
  | nil : SameOption env .nilp (.plain .null)
  | bool (b : Bool) : SameOption env (.scalar (.bool b)) (.plain (.bool b))
  | str (s : Bytes) : SameOption env (.scalar (.str s)) (.str s)
  | float (f : BitVec 64) : SameOption env (.scalar (.float f)) (.plain (.float f))
  | int (t : Bytes) (f i : BitVec 64) (hf : env.atof t = some f) (hi : Decimal t i.toInt) : SameOption env (.scalar (.float f)) (.plain (.int i))
  | uint (t : Bytes) (f u : BitVec 64) (hf : env.atof t = some f) (hu : Decimal t u.toNat) : SameOption env (.scalar (.float f)) (.plain (.uint u))
  | list (vs : List Val) (ws : List YVal) (h : SameOptionL env vs ws) : SameOption env (.arr vs) (.list ws)
  | map (vs : AMap Val) (ws : AMap YVal) (h : SameOptionE env vs ws) : SameOption env (.obj vs) (.smap ws)
inductive SameOptionL (env : JEnv) : List Val → List YVal → Prop where
  | nil : SameOptionL env [] []
  | cons (v : Val) (w : YVal) (vs : List Val) (ws : List YVal) (h1 : SameOption env v w) (h2 : SameOptionL env vs ws) : SameOptionL env (v :: vs) (w :: ws)
inductive SameOptionE (env : JEnv) : List (Bytes × Val) → List (Bytes × YVal) → Prop where
  | nil : SameOptionE env [] []
  | cons (k : Bytes) (v : Val) (w : YVal) (vs : List (Bytes × Val)) (ws : List (Bytes × YVal)) (h1 : SameOption env v w) (h2 : SameOptionE env vs ws) : SameOptionE env ((k, v) :: vs) ((k, w) :: ws)
end

/-- The own options of a processor, from JSON and from YAML. -/
inductive SameOptions (env : JEnv) : JCfg → YCfg → Prop where
  | none : SameOptions env none none
  | some (vs : AMap Val) (ws : AMap YVal) (h : SameOptionE env vs ws) : SameOptions env (some vs) (some ws)

/-! ## Configurations that differ only in the processors' own options -/

mutual
/-- The same options of a processor, up to its own ones. -/
inductive OptRel {C D : Type} (R : C → D → Prop) : OptCfg C → OptCfg D → Prop where
  | mk (id cond : Bytes) (xs : List (ProcCfg C)) (ys : List (ProcCfg D)) (c : C) (d : D) (h : ConfsRel R xs ys) (hc : R c d) : OptRel R (.mk id cond xs c) (.mk id cond ys d)
inductive ConfsRel {C D : Type} (R : C → D → Prop) : List (List (Bytes × Option (OptCfg C))) → List (List (Bytes × Option (OptCfg D))) → Prop where
  | nil : ConfsRel R [] []
  | cons (x : List (Bytes × Option (OptCfg C))) (y : List (Bytes × Option (OptCfg D))) (xs : List (List (Bytes × Option (OptCfg C)))) (ys : List (List (Bytes × Option (OptCfg D)))) (h1 : EntriesRel R x y) (h2 : ConfsRel R xs ys) : ConfsRel R (x :: xs) (y :: ys)
inductive EntriesRel {C D : Type} (R : C → D → Prop) : List (Bytes × Option (OptCfg C)) → List (Bytes × Option (OptCfg D)) → Prop where
  | nil : EntriesRel R [] []
  | none (n : Bytes) (xs : List (Bytes × Option (OptCfg C))) (ys : List (Bytes × Option (OptCfg D))) (h : EntriesRel R xs ys) : EntriesRel R ((n, none) :: xs) ((n, none) :: ys)
  | some (n : Bytes) (x : OptCfg C) (y : OptCfg D) (xs : List (Bytes × Option (OptCfg C))) (ys : List (Bytes × Option (OptCfg D))) (h1 : OptRel R x y) (h2 : EntriesRel R xs ys) : EntriesRel R ((n, some x) :: xs) ((n, some y) :: ys)
end

/-- The same for configurations. -/
def ConfigRel {C D : Type} (R : C → D → Prop) (x : Config C) (y : Config D) : Prop := x.id = y.id ∧ ConfsRel R x.processors y.processors ∧ ConfsRel R x.onFailure y.onFailure

/-! ## JSON configurations that are read alike -/

/-- No name occurs twice. -/
def NamesOnce (es : List (Bytes × Json)) : Prop := (es.map (·.1)).Nodup

mutual
/-- In no object of the document does a name occur twice. -/
def Json.Tidy : Json → Prop
  | .arr js => Json.TidyL js
  | .obj es => NamesOnce es ∧ Json.TidyE es
  | _ => True
def Json.TidyL : List Json → Prop
  | [] => True
  | j :: js => j.Tidy ∧ Json.TidyL js
def Json.TidyE : List (Bytes × Json) → Prop
  | [] => True
  | (_, j) :: es => j.Tidy ∧ Json.TidyE es
end

/-- Names that stand for one of these fields are spelled like it. -/
def ExactNames (names : List Bytes) (es : List (Bytes × Json)) : Prop := ∀ e ∈ es, ∀ n ∈ names, Folds n e.1 → e.1 = n

mutual
/-- In the option objects, names that stand for a field are spelled like it. -/
def ExactOpt : Json → Prop
  | .obj es => ExactNames optNames es ∧ ExactFields [lit "on_failure"] es
  | _ => True
def ExactFields (names : List Bytes) : List (Bytes × Json) → Prop
  | [] => True
  | (k, j) :: es => (k ∈ names → ExactSlice j) ∧ ExactFields names es
def ExactSlice : Json → Prop
  | .arr js => ExactConfs js
  | _ => True
def ExactConfs : List Json → Prop
  | [] => True
  | j :: js => ExactConf j ∧ ExactConfs js
def ExactConf : Json → Prop
  | .obj es => ExactEntries es
  | _ => True
def ExactEntries : List (Bytes × Json) → Prop
  | [] => True
  | (_, j) :: es => ExactOpt j ∧ ExactEntries es
end

/-- The same for a configuration. -/
def ExactConfig : Json → Prop
  | .obj es => ExactNames [lit "id", lit "description", lit "processors", lit "on_failure"] es ∧ ExactFields [lit "processors", lit "on_failure"] es
  | _ => True

/-! ## Writing a configuration as YAML -/

/-- The node for a key; `txt` is how plain scalars are written. -/
def YKey.node (txt : YPlain → Bytes) : YKey → Yaml
  | .plain v => .plain (txt v) v
  | .str s => .str s

mutual
/-- The node for a value. -/
def YVal.node (txt : YPlain → Bytes) : YVal → Yaml
  | .plain v => .plain (txt v) v
  | .str s => .str s
  | .list vs => .seq (YVal.nodes txt vs)
  | .smap es => .map (YVal.nodesS txt es)
  | .gmap es => .map (YVal.nodesG txt es)
def YVal.nodes (txt : YPlain → Bytes) : List YVal → List Yaml
  | [] => []
  | v :: vs => v.node txt :: YVal.nodes txt vs
def YVal.nodesS (txt : YPlain → Bytes) : List (Bytes × YVal) → List (Yaml × Yaml)
  | [] => []
  | (k, v) :: es => (.str k, v.node txt) :: YVal.nodesS txt es
def YVal.nodesG (txt : YPlain → Bytes) : List (YKey × YVal) → List (Yaml × Yaml)
  | [] => []
  | (k, v) :: es => (k.node txt, v.node txt) :: YVal.nodesG txt es
end

mutual
/-- Values that are well formed: maps are in order, and a general map has a key that is not a string, and no two keys that are written alike. -/
def YVal.Wf (txt : YPlain → Bytes) : YVal → Prop
  | .plain _ => True
  | .str _ => True
  | .list vs => YVal.WfL txt vs
  | .smap es => AMap.Sorted es ∧ YVal.WfS txt es
  | .gmap es => (es.map fun e => e.1.node txt).Pairwise (fun a b => ¬ a.LooksLike b) ∧ (∃ e ∈ es, ∃ v, e.1 = .plain v) ∧ YVal.WfG txt es
def YVal.WfL (txt : YPlain → Bytes) : List YVal → Prop
  | [] => True
  | v :: vs => v.Wf txt ∧ YVal.WfL txt vs
def YVal.WfS (txt : YPlain → Bytes) : List (Bytes × YVal) → Prop
  | [] => True
  | (_, v) :: es => v.Wf txt ∧ YVal.WfS txt es
def YVal.WfG (txt : YPlain → Bytes) : List (YKey × YVal) → Prop
  | [] => True
  | (_, v) :: es => v.Wf txt ∧ YVal.WfG txt es
end

mutual
/-- The node for the options of a processor. -/
def optNode (txt : YPlain → Bytes) : OptCfg YCfg → Yaml
  | .mk id cond onF config => .map ([(.str (lit "id"), .str id), (.str (lit "if"), .str cond), (.str (lit "on_failure"), .seq (confNodes txt onF))] ++ YVal.nodesS txt (config.getD []))
def confNodes (txt : YPlain → Bytes) : List (List (Bytes × Option (OptCfg YCfg))) → List Yaml
  | [] => []
  | c :: cs => .map (entryNodes txt c) :: confNodes txt cs
def entryNodes (txt : YPlain → Bytes) : List (Bytes × Option (OptCfg YCfg)) → List (Yaml × Yaml)
  | [] => []
  | (k, o) :: es => (.str k, poptNode txt o) :: entryNodes txt es
def poptNode (txt : YPlain → Bytes) : Option (OptCfg YCfg) → Yaml
  | none => .plain (txt .null) .null
  | some o => optNode txt o
end

/-- The document for a configuration. -/
def YConfig.document (txt : YPlain → Bytes) (c : YConfig) : Yaml :=
  .map [(.str (lit "id"), .str c.config.id), (.str (lit "description"), .str c.description), (.str (lit "processors"), .seq (confNodes txt c.config.processors)), (.str (lit "on_failure"), .seq (confNodes txt c.config.onFailure))]

mutual
/-- Options that can be written: no own option has the name of one that every processor has; if there are none then the map is nil. -/
def OptCfg.Wf (txt : YPlain → Bytes) : OptCfg YCfg → Prop
  | .mk _ _ onF config => ConfsWf txt onF ∧ (∀ m, config = some m → m ≠ [] ∧ AMap.Sorted m ∧ YVal.WfS txt m ∧ ∀ e ∈ m, e.1 ∉ optNames)
def ConfsWf (txt : YPlain → Bytes) : List (List (Bytes × Option (OptCfg YCfg))) → Prop
  | [] => True
  | c :: cs => AMap.Sorted c ∧ EntriesWf txt c ∧ ConfsWf txt cs
def EntriesWf (txt : YPlain → Bytes) : List (Bytes × Option (OptCfg YCfg)) → Prop
  | [] => True
  | (_, o) :: es => POptWf txt o ∧ EntriesWf txt es
def POptWf (txt : YPlain → Bytes) : Option (OptCfg YCfg) → Prop
  | none => True
  | some o => o.Wf txt
end

/-- The same for configurations. -/
def YConfig.Wf (txt : YPlain → Bytes) (c : YConfig) : Prop := ConfsWf txt c.config.processors ∧ ConfsWf txt c.config.onFailure

end Sawmill
