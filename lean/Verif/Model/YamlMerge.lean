import Verif.Model.Yaml
/-!
# Merge keys and aliases in YAML (cmd/sawmill/sawmill.go:103-116, pkg/pipeline/config.go:25-41)

The same decoder as in `Model/Yaml.lean` (gopkg.in/yaml.v3 v3.0.1, written from memory), for documents in which mappings may have a merge key `<<`: `mapping`, `mappingStruct`, `merge`, `isMerge`, `isStringMap`.

Simplifications, besides those of `Model/Yaml.lean`. An alias `*a` is the node that the anchor `&a` marks (`alias` decodes that node; an anchor that contains itself is an error of the parser's, here). In the library, `mapping` decodes an entry and goes on to the next; here
`visit` gives the entries that are decoded into one map or struct, in that order, and a loop decodes them. Where a mapping with a merge key also has a mapping or a sequence as a key, the library panics ("hash of unhashable type") instead of giving the error that is modelled. The first
argument of the decoding functions bounds the depth of the recursion; it is always enough.
-/

namespace Sawmill

/-- The nodes of a document. `merge`: the scalar `<<`, without quotes. -/
inductive MYaml where
  | str (text : Bytes)
  | plain (text : Bytes) (value : YPlain)
  | merge
  | seq (items : List MYaml)
  | map (entries : List (MYaml × MYaml))

mutual
/-- How deep nodes are nested. -/
def MYaml.depth : MYaml → Nat
  | .seq ys => MYaml.depthL ys + 1
  | .map es => MYaml.depthE es + 1
  | _ => 0
def MYaml.depthL : List MYaml → Nat
  | [] => 0
  | y :: ys => max y.depth (MYaml.depthL ys)
def MYaml.depthE : List (MYaml × MYaml) → Nat
  | [] => 0
  | (_, y) :: es => max y.depth (MYaml.depthE es)
end

/-- `isMerge` -/
def MYaml.isMerge : MYaml → Bool
  | .merge => true
  | _ => false

/-- The `Kind` of a node, as a number, and its `Value`. -/
def MYaml.kindValue : MYaml → Nat × Bytes
  | .str t => (8, t)
  | .plain t _ => (8, t)
  | .merge => (8, lit "<<")
  | .seq _ => (2, [])
  | .map _ => (4, [])

/-- The check for repeated keys with which `mapping` begins. -/
def repeatedKeyM : List (MYaml × MYaml) → Bool
  | [] => false
  | (k, _) :: es => es.any (fun e => k.kindValue = e.1.kindValue) || repeatedKeyM es

/-- A node into a string that holds `s`. -/
def mString : MYaml → Bytes → Option Bytes
  | .str t, _ => some t
  | .plain _ .null, s => some s
  | .plain t _, _ => some t
  | .merge, _ => some (lit "<<")
  | .seq _, _ => none
  | .map _, _ => none

/-- A key node into the key of a map with strings as keys, or the name of a field; null is left out. -/
def mName : MYaml → Option (Option Bytes)
  | .str t => some (some t)
  | .plain _ .null => some none
  | .plain t _ => some (some t)
  | .merge => some (some (lit "<<"))
  | .seq _ => none
  | .map _ => none

/-- A key node into an `interface{}`. -/
def mKey : MYaml → Option (Option YKey)
  | .str t => some (some (.str t))
  | .plain _ v => some (some (.plain v))
  | .merge => some (some (.str (lit "<<")))
  | .seq _ => none
  | .map _ => none

/-- `isStringMap`: all keys are strings or merge keys. -/
def isStringMapM (es : List (MYaml × MYaml)) : Bool := es.all fun e => match e.1 with
  | .str _ => true
  | .merge => true
  | _ => false

/-- The keys of a mapping with which `merge` fills `mergedFields`. -/
def parentKeys (es : List (MYaml × MYaml)) : List YKey := es.filterMap fun e => (mKey e.1).join

section
/-! `key` decodes the keys; `emb` is the key as an `interface{}`. -/
variable {κ : Type} (key : MYaml → Option (Option κ)) (emb : κ → YKey)

/-- The loop over the entries in `mapping` and `mappingStruct`: those that are decoded, and `mergedFields` afterwards. Merge keys are left for later; if there is a `mergedFields`, then the entries in it are passed over, and the others put into it. -/
def visitOwn : List (MYaml × MYaml) → Option (List YKey) → Option (List (κ × MYaml) × Option (List YKey))
  | [], s => some ([], s)
  | (k, y) :: es, s =>
    if k.isMerge then visitOwn es s
    else
      match key k with
      | none => none
      | some none => visitOwn es s
      | some (some n) =>
        match s with
        | none => (visitOwn es none).map fun r => ((n, y) :: r.1, r.2)
        | some seen =>
          if emb n ∈ seen then visitOwn es (some seen)
          else (visitOwn es (some (emb n :: seen))).map fun r => ((n, y) :: r.1, r.2)

mutual
/-- The end of `mapping` and `mappingStruct`: if there is a merge key then `merge` is called. -/
def visitMerge : List (MYaml × MYaml) → List YKey → Option (List (κ × MYaml) × List YKey)
  | [], s => some ([], s)
  | (k, y) :: es, s => if k.isMerge then visitNode y s else visitMerge es s
/-- The second half of `merge`: a mapping, or a sequence of mappings. -/
def visitNode : MYaml → List YKey → Option (List (κ × MYaml) × List YKey)
  | .map es, s =>
    if repeatedKeyM es then none
    else
      match visitOwn key emb es (some s) with
      | none => none
      | some (xs, s') => (visitMerge es (s'.getD s)).map fun r => (xs ++ r.1, r.2)
  | .seq ys, s => visitAll ys s
  | _, _ => none
def visitAll : List MYaml → List YKey → Option (List (κ × MYaml) × List YKey)
  | [], s => some ([], s)
  | y :: ys, s =>
    match (match y with
      | .map _ => visitNode y s
      | _ => none) with
    | none => none
    | some (xs, s') => (visitAll ys s').map fun r => (xs ++ r.1, r.2)
end

/-- All entries of a mapping that is not being merged into another. -/
def visit (es : List (MYaml × MYaml)) : Option (List (κ × MYaml)) :=
  if repeatedKeyM es then none
  else
    match visitOwn key emb es none with
    | none => none
    | some (xs, _) => (visitMerge key emb es (parentKeys es)).map fun r => xs ++ r.1
end

/-- Entries with names. -/
def visitNames (es : List (MYaml × MYaml)) : Option (List (Bytes × MYaml)) := visit mName .str es

/-- Entries with any keys. -/
def visitKeys (es : List (MYaml × MYaml)) : Option (List (YKey × MYaml)) := visit mKey id es

/-- A loop that fails if one of its rounds does. -/
def allSome {α β : Type} (f : α → Option β) : List α → Option (List β)
  | [] => some []
  | x :: xs =>
    match f x, allSome f xs with
    | some y, some ys => some (y :: ys)
    | _, _ => none

/-- The same with the keys of a map. -/
def allSnd {κ α β : Type} (f : α → Option β) : List (κ × α) → Option (List (κ × β)) := allSome fun e => (f e.2).map fun v => (e.1, v)

/-- A node into an `interface{}`. -/
def mAny : Nat → MYaml → Option YVal
  | _, .str t => some (.str t)
  | _, .plain _ v => some (.plain v)
  | _, .merge => some (.str (lit "<<"))
  | 0, .seq _ => none
  | 0, .map _ => none
  | n + 1, .seq ys => (allSome (mAny n) ys).map .list
  | n + 1, .map es =>
    if isStringMapM es then
      match visitNames es with
      | none => none
      | some xs => (allSnd (mAny n) xs).map fun m => .smap (AMap.ofEntries m [])
    else
      match visitKeys es with
      | none => none
      | some xs => (allSnd (mAny n) xs).map .gmap

/-- The entries of a mapping, into a `ProcessorOptionConfig`: config.go:34-39; `slice` decodes a `[]ProcessorConfig`, `any` an `interface{}`. -/
def mOptFields (slice : MYaml → Option (List (ProcCfg YCfg))) (any : MYaml → Option YVal) : List (Bytes × MYaml) → YOptAcc → Option YOptAcc
  | [], a => some a
  | (n, y) :: es, a =>
    if n = lit "id" then
      match mString y a.id with
      | none => none
      | some s => mOptFields slice any es { a with id := s }
    else if n = lit "if" then
      match mString y a.cond with
      | none => none
      | some s => mOptFields slice any es { a with cond := s }
    else if n = lit "on_failure" then
      match slice y with
      | none => none
      | some cs => mOptFields slice any es { a with onFailure := cs }
    else
      match any y with
      | none => none
      | some v => mOptFields slice any es { a with config := some (AMap.insert (a.config.getD []) n v) }

mutual
/-- A node into a `*ProcessorOptionConfig`: config.go:32, 34-39. -/
def mOpt : Nat → MYaml → Option (Option (OptCfg YCfg))
  | _, .plain _ .null => some none
  | n + 1, .map es =>
    match visitNames es with
    | none => none
    | some xs => (mOptFields (mSlice n) (mAny n) xs {}).map fun a => some (.mk a.id a.cond a.onFailure a.config)
  | _, _ => none
/-- A node into a `[]ProcessorConfig`. -/
def mSlice : Nat → MYaml → Option (List (ProcCfg YCfg))
  | _, .plain _ .null => some []
  | n + 1, .seq ys => allSome (mConf n) ys
  | _, _ => none
/-- A node into a `ProcessorConfig`: config.go:32. -/
def mConf : Nat → MYaml → Option (ProcCfg YCfg)
  | _, .plain _ .null => some []
  | n + 1, .map es =>
    match visitNames es with
    | none => none
    | some xs => (allSnd (mOpt n) xs).map fun m => AMap.ofEntries m []
  | _, _ => none
end

/-- The entries of a mapping, into a `Config`: config.go:25-30. -/
def mCfgFields (slice : MYaml → Option (List (ProcCfg YCfg))) : List (Bytes × MYaml) → YConfig → Option YConfig
  | [], a => some a
  | (n, y) :: es, a =>
    if n = lit "id" then
      match mString y a.config.id with
      | none => none
      | some s => mCfgFields slice es { a with config.id := s }
    else if n = lit "description" then
      match mString y a.description with
      | none => none
      | some s => mCfgFields slice es { a with description := s }
    else if n = lit "processors" then
      match slice y with
      | none => none
      | some cs => mCfgFields slice es { a with config.processors := cs }
    else if n = lit "on_failure" then
      match slice y with
      | none => none
      | some cs => mCfgFields slice es { a with config.onFailure := cs }
    else mCfgFields slice es a

/-- A document into a `*Config` that is nil: sawmill.go:110-113. -/
def decodeMerged : MYaml → Option (Option YConfig)
  | .plain _ .null => some none
  | .map es =>
    match visitNames es with
    | none => none
    | some xs => (mCfgFields (mSlice (MYaml.depthE es)) xs ⟨⟨[], [], []⟩, []⟩).map some
  | _ => none

/-- `yaml.NewDecoder(f).Decode(&c)` for documents with merge keys: sawmill.go:110-113. -/
def mergedDecode (parse : Bytes → Option (Option MYaml)) (bs : Bytes) : Option (Option (Config YCfg)) :=
  match parse bs with
  | none => none
  | some none => none
  | some (some y) => (decodeMerged y).map fun c => c.map (·.config)

end Sawmill
