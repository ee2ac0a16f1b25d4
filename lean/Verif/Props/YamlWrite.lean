import Verif.Props.YamlJson
import Verif.Props.Main
/-!
# C93: every configuration can be written as YAML; what the program makes of a file; a sample
-/

namespace Sawmill

theorem nodesS_mem {txt : YPlain → Bytes} {es : List (Bytes × YVal)} {k y : Yaml} (h : (k, y) ∈ YVal.nodesS txt es) : ∃ e ∈ es, k = .str e.1 ∧ y = e.2.node txt := by
  induction es with
  | nil => simp [YVal.nodesS] at h
  | cons e es ih =>
    obtain ⟨n, v⟩ := e
    simp only [YVal.nodesS] at h
    rcases List.mem_cons.1 h with h | h
    · cases h; exact ⟨(n, v), by simp, rfl, rfl⟩
    · obtain ⟨e, he, h⟩ := ih h
      exact ⟨e, by simp [he], h⟩

theorem looks_str {s t : Bytes} : (Yaml.str s).LooksLike (.str t) ↔ s = t := by
  rw [looks_iff]; simp [Yaml.kindValue]

theorem nodesS_unrepeated {txt : YPlain → Bytes} {es : List (Bytes × YVal)} (h : (es.map (·.1)).Nodup) : Unrepeated (YVal.nodesS txt es) := by
  induction es with
  | nil => simp [YVal.nodesS, Unrepeated]
  | cons e es ih =>
    obtain ⟨n, v⟩ := e
    rw [List.map_cons, List.nodup_cons] at h
    refine List.pairwise_cons.2 ⟨?_, ih h.2⟩
    rintro ⟨k, y⟩ hm hl
    obtain ⟨e, he, rfl, _⟩ := nodesS_mem hm
    exact h.1 (by show n ∈ _; rw [looks_str.1 hl]; exact List.mem_map_of_mem he)

theorem nodesG_keys {txt : YPlain → Bytes} (es : List (YKey × YVal)) : (YVal.nodesG txt es).map (·.1) = es.map fun e => e.1.node txt := by
  induction es with
  | nil => simp [YVal.nodesG]
  | cons e es ih =>
    obtain ⟨k, v⟩ := e
    simp [YVal.nodesG, ih]

theorem ofEntries_self {α : Type} {m : AMap α} (h : AMap.Sorted m) : AMap.ofEntries m [] = m := AMap.ofEntries_perm h (.refl _)

mutual
theorem node_is {txt : YPlain → Bytes} : ∀ (v : YVal), v.Wf txt → IsAny (v.node txt) v
  | .plain v, _ => by simp only [YVal.node]; exact .plain _ v
  | .str s, _ => by simp only [YVal.node]; exact .str s
  | .list vs, h => by
    simp only [YVal.Wf] at h
    simp only [YVal.node]
    exact .seq _ vs (nodes_are vs h)
  | .smap es, h => by
    simp only [YVal.Wf] at h
    have := IsAny.smap (YVal.nodesS txt es) es (nodesS_unrepeated (AMap.sorted_nodup h.1)) (nodesS_are es h.2)
    rw [ofEntries_self h.1] at this
    simp only [YVal.node]
    exact this
  | .gmap es, h => by
    simp only [YVal.Wf] at h
    obtain ⟨h1, ⟨e, he, v, hv⟩, h3⟩ := h
    simp only [YVal.node]
    refine .gmap _ es ?_ ?_ (nodesG_are es h3)
    · rw [← nodesG_keys, List.pairwise_map] at h1
      exact h1
    · have : (e.1.node txt) ∈ (YVal.nodesG txt es).map (·.1) := by rw [nodesG_keys]; exact List.mem_map_of_mem (f := fun e : YKey × YVal => e.1.node txt) he
      obtain ⟨e', he', hk⟩ := List.mem_map.1 this
      refine ⟨e', he', fun t ht => ?_⟩
      rw [hv, ht] at hk
      simp [YKey.node] at hk
theorem nodes_are {txt : YPlain → Bytes} : ∀ (vs : List YVal), YVal.WfL txt vs → IsAnyL (YVal.nodes txt vs) vs
  | [], _ => by simp only [YVal.nodes]; exact .nil
  | v :: vs, h => by
    simp only [YVal.WfL] at h
    simp only [YVal.nodes]
    exact .cons _ v _ vs (node_is v h.1) (nodes_are vs h.2)
theorem nodesS_are {txt : YPlain → Bytes} : ∀ (es : List (Bytes × YVal)), YVal.WfS txt es → IsAnyS (YVal.nodesS txt es) es
  | [], _ => by simp only [YVal.nodesS]; exact .nil
  | (k, v) :: es, h => by
    simp only [YVal.WfS] at h
    simp only [YVal.nodesS]
    exact .cons k _ v _ es (node_is v h.1) (nodesS_are es h.2)
theorem nodesG_are {txt : YPlain → Bytes} : ∀ (es : List (YKey × YVal)), YVal.WfG txt es → IsAnyG (YVal.nodesG txt es) es
  | [], _ => by simp only [YVal.nodesG]; exact .nil
  | (k, v) :: es, h => by
    have ih1 := node_is (txt := txt) v
    have ih2 := nodesG_are (txt := txt) es
    simp only [YVal.WfG] at h
    simp only [YVal.nodesG]
    cases k with
    | plain p => exact .plain _ p _ v _ es (ih1 h.1) (ih2 h.2)
    | str s => exact .str s _ v _ es (ih1 h.1) (ih2 h.2)
end

theorem own_nodes {txt : YPlain → Bytes} {m : List (Bytes × YVal)} (hw : YVal.WfS txt m) (hn : ∀ e ∈ m, e.1 ∉ optNames) : IsOwn (YVal.nodesS txt m) m := by
  induction m with
  | nil => simp only [YVal.nodesS]; exact .nil
  | cons e m ih =>
    obtain ⟨k, v⟩ := e
    simp only [YVal.WfS] at hw
    simp only [YVal.nodesS]
    exact .own _ _ k v _ m rfl (hn (k, v) (by simp)) (node_is v hw.1) (ih hw.2 fun e he => hn e (by simp [he]))

theorem nodesS_under {txt : YPlain → Bytes} {m : List (Bytes × YVal)} (hn : ∀ e ∈ m, e.1 ∉ optNames) {k y : Yaml} (h : (k, y) ∈ YVal.nodesS txt m) {n : Bytes} (ho : n ∈ optNames) : k.name ≠ some n := by
  obtain ⟨e, he, rfl, _⟩ := nodesS_mem h
  intro hk
  cases hk
  exact hn e he ho

theorem entryNodes_mem {txt : YPlain → Bytes} {es : List (Bytes × Option (OptCfg YCfg))} {k y : Yaml} (h : (k, y) ∈ entryNodes txt es) : ∃ e ∈ es, k = .str e.1 := by
  induction es with
  | nil => simp [entryNodes] at h
  | cons e es ih =>
    obtain ⟨n, v⟩ := e
    simp only [entryNodes] at h
    rcases List.mem_cons.1 h with h | h
    · cases h; exact ⟨(n, v), by simp, rfl⟩
    · obtain ⟨e, he, h⟩ := ih h
      exact ⟨e, by simp [he], h⟩

theorem entryNodes_named {txt : YPlain → Bytes} {es : List (Bytes × Option (OptCfg YCfg))} (h : (es.map (·.1)).Nodup) : NamedKeys (entryNodes txt es) := by
  refine ⟨?_, fun e he => by obtain ⟨k, y⟩ := e; obtain ⟨e, _, rfl⟩ := entryNodes_mem he; trivial⟩
  induction es with
  | nil => simp [entryNodes, Unrepeated]
  | cons e es ih =>
    obtain ⟨n, v⟩ := e
    rw [List.map_cons, List.nodup_cons] at h
    simp only [entryNodes]
    refine List.pairwise_cons.2 ⟨?_, ih h.2⟩
    rintro ⟨k, y⟩ hm hl
    obtain ⟨e, he, rfl⟩ := entryNodes_mem hm
    exact h.1 (by show n ∈ _; rw [looks_str.1 hl]; exact List.mem_map_of_mem he)

/-- The own options of a written node. -/
theorem own_written {txt : YPlain → Bytes} {config : YCfg} (hw : ∀ m, config = some m → m ≠ [] ∧ AMap.Sorted m ∧ YVal.WfS txt m ∧ ∀ e ∈ m, e.1 ∉ optNames) :
    ((config.getD []).map (·.1)).Nodup ∧ (∀ e ∈ config.getD [], e.1 ∉ optNames) ∧ YVal.WfS txt (config.getD []) ∧ ownMap (config.getD []) = config := by
  cases config with
  | none => simp [ownMap, YVal.WfS]
  | some m =>
    obtain ⟨h1, h2, h3, h4⟩ := hw m rfl
    refine ⟨AMap.sorted_nodup h2, h4, h3, ?_⟩
    simp only [Option.getD_some, ownMap]
    rw [if_neg (by simpa using h1), ofEntries_self h2]

mutual
theorem optNode_is {txt : YPlain → Bytes} : ∀ (o : OptCfg YCfg), o.Wf txt → IsYOpt (optNode txt o) (some o)
  | .mk id cond onF config, h => by
    simp only [OptCfg.Wf] at h
    have ih := confNodes_are onF h.1
    obtain ⟨hn, ho, hw, he⟩ := own_written h.2
    have n1 : lit "id" ≠ lit "if" := by decide +kernel
    have n2 : lit "id" ≠ lit "on_failure" := by decide +kernel
    have n3 : lit "if" ≠ lit "on_failure" := by decide +kernel
    have o1 : lit "id" ∈ optNames := by simp [optNames]
    have o2 : lit "if" ∈ optNames := by simp [optNames]
    have o3 : lit "on_failure" ∈ optNames := by simp [optNames]
    have away : ∀ e ∈ YVal.nodesS txt (config.getD []), ∀ n ∈ optNames, ¬ (Yaml.str n).LooksLike e.1 := by
      rintro ⟨k, y⟩ hm n hno hl
      obtain ⟨e, hme, rfl, _⟩ := nodesS_mem hm
      exact ho e hme (looks_str.1 hl ▸ hno)
    have key : IsYOpt (optNode txt (.mk id cond onF config)) (some (.mk id cond onF (ownMap (config.getD [])))) := by
      simp only [optNode, List.cons_append, List.nil_append]
      refine .map _ (some (.str id)) (some (.str cond)) (some (.seq (confNodes txt onF))) id cond onF (config.getD []) ⟨?_, ?_⟩ ⟨.str (lit "id"), by simp, rfl⟩ ⟨.str (lit "if"), by simp, rfl⟩ ⟨.str (lit "on_failure"), by simp, rfl⟩
        (.str id) (.str cond) (.seq _ onF ih) ?_
      · refine List.pairwise_cons.2 ⟨?_, List.pairwise_cons.2 ⟨?_, List.pairwise_cons.2 ⟨?_, nodesS_unrepeated hn⟩⟩⟩
        · intro e hm
          rcases List.mem_cons.1 hm with h | hm
          · subst h; exact fun hl => n1 (looks_str.1 hl)
          · rcases List.mem_cons.1 hm with h | hm
            · subst h; exact fun hl => n2 (looks_str.1 hl)
            · exact away e hm _ o1
        · intro e hm
          rcases List.mem_cons.1 hm with h | hm
          · subst h; exact fun hl => n3 (looks_str.1 hl)
          · exact away e hm _ o2
        · intro e hm
          exact away e hm _ o3
      · rintro ⟨k, y⟩ hm
        simp only [List.mem_cons] at hm
        rcases hm with h | h | h | h
        · cases h; trivial
        · cases h; trivial
        · cases h; trivial
        · obtain ⟨e, _, rfl, _⟩ := nodesS_mem h; trivial
      · exact .skip _ _ _ _ (by intro n hn; cases hn; exact o1) (.skip _ _ _ _ (by intro n hn; cases hn; exact o2) (.skip _ _ _ _ (by intro n hn; cases hn; exact o3) (own_nodes hw ho)))
    rw [he] at key
    exact key
theorem confNodes_are {txt : YPlain → Bytes} : ∀ (cs : List (ProcCfg YCfg)), ConfsWf txt cs → IsYConfs (confNodes txt cs) cs
  | [], _ => by simp only [confNodes]; exact .nil
  | c :: cs, h => by
    simp only [ConfsWf] at h
    have ih1 := entryNodes_are c h.2.1
    have ih2 := confNodes_are cs h.2.2
    have := IsYConf.map (entryNodes txt c) c (entryNodes_named (AMap.sorted_nodup h.1)) ih1
    rw [ofEntries_self h.1] at this
    simp only [confNodes]
    exact .cons _ c _ cs this ih2
theorem entryNodes_are {txt : YPlain → Bytes} : ∀ (es : List (Bytes × Option (OptCfg YCfg))), EntriesWf txt es → IsYEntries (entryNodes txt es) es
  | [], _ => by simp only [entryNodes]; exact .nil
  | (k, o) :: es, h => by
    simp only [EntriesWf] at h
    simp only [entryNodes]
    exact .entry _ _ k o _ es rfl (poptNode_is o h.1) (entryNodes_are es h.2)
theorem poptNode_is {txt : YPlain → Bytes} : ∀ (o : Option (OptCfg YCfg)), POptWf txt o → IsYOpt (poptNode txt o) o
  | none, _ => by simp only [poptNode]; exact .null _
  | some o, h => by
    simp only [POptWf] at h
    simp only [poptNode]
    exact optNode_is o h
end

/-- C93: every configuration can be written as YAML (if no own option of a processor is named `id`, `if` or `on_failure`), and is read as it was. -/
theorem yaml_round_trip (txt : YPlain → Bytes) {c : YConfig} (h : c.Wf txt) : decodeYaml (c.document txt) = some (some c) := by
  have n1 : lit "id" ≠ lit "description" := by decide +kernel
  have n2 : lit "id" ≠ lit "processors" := by decide +kernel
  have n3 : lit "id" ≠ lit "on_failure" := by decide +kernel
  have n4 : lit "description" ≠ lit "processors" := by decide +kernel
  have n5 : lit "description" ≠ lit "on_failure" := by decide +kernel
  have n6 : lit "processors" ≠ lit "on_failure" := by decide +kernel
  refine (decodeYaml_iff _ _).2 (.inr ⟨c, rfl, _, some (.str c.config.id), some (.str c.description), some (.seq (confNodes txt c.config.processors)), some (.seq (confNodes txt c.config.onFailure)), rfl, ⟨?_, ?_⟩,
    ⟨.str (lit "id"), by simp, rfl⟩, ⟨.str (lit "description"), by simp, rfl⟩, ⟨.str (lit "processors"), by simp, rfl⟩, ⟨.str (lit "on_failure"), by simp, rfl⟩, .str _, .str _, .seq _ _ (confNodes_are _ h.1), .seq _ _ (confNodes_are _ h.2)⟩)
  · unfold Unrepeated
    simp only [List.pairwise_cons, List.mem_cons, List.not_mem_nil, or_false, forall_eq_or_imp, forall_eq, looks_str]
    exact ⟨⟨n1, n2, n3⟩, ⟨n4, n5⟩, n6, by simp⟩
  · simp [Yaml.Scalar]

/-! ## What is special about it -/

/-- C93: a repeated key is refused; in JSON the last one counts. -/
theorem yaml_repeated {es : List (Yaml × Yaml)} (h : ¬ Unrepeated es) : decodeYaml (.map es) = none ∧ yConf (.map es) = none ∧ yOpt (.map es) = none ∧ yAny (.map es) = none := by
  have hr : repeatedKey es = true := by
    cases hr : repeatedKey es with
    | true => rfl
    | false => exact absurd ((repeatedKey_iff es).1 hr) h
  simp only [decodeYaml, yConf, yOpt, yAny, hr, if_true, and_self]

/-- C93: what is under a name that is not a field of a configuration is not looked at. -/
theorem yaml_unknown {es : List (Yaml × Yaml)} {t : Bytes} (y : Yaml) (hu : ∀ e ∈ es, ¬ (Yaml.str t).LooksLike e.1) (hn : t ∉ [lit "id", lit "description", lit "processors", lit "on_failure"]) :
    decodeYaml (.map ((.str t, y) :: es)) = decodeYaml (.map es) := by
  simp only [List.mem_cons, List.not_mem_nil, or_false, not_or] at hn
  have hr : repeatedKey ((.str t, y) :: es) = repeatedKey es := by
    have : (es.any fun e => decide ((Yaml.str t).kindValue = e.1.kindValue)) = false := by
      rw [List.any_eq_false]
      intro e he
      simpa using fun h => hu e he ((looks_iff _ _).2 h)
    simp only [repeatedKey, this, Bool.false_or]
  simp only [decodeYaml, hr, yCfgFields, yName, if_neg hn.1, if_neg hn.2.1, if_neg hn.2.2.1, if_neg hn.2.2.2]

/-- C93: whatever scalar is under `id` is taken as text: `id: 5` is the ID "5". In JSON it is an error. -/
theorem yaml_id_text (t : Bytes) (v : YPlain) (hv : v ≠ .null) : decodeYaml (.map [(.str (lit "id"), .plain t v)]) = some (some ⟨⟨t, [], []⟩, []⟩) := by
  refine (decodeYaml_iff _ _).2 (.inr ⟨_, rfl, _, some (.plain t v), none, none, none, rfl, ⟨?_, ?_⟩, ⟨.str (lit "id"), by simp, rfl⟩, ?_, ?_, ?_, .plain t v hv, .absent, .absent, .absent⟩)
  · simp [Unrepeated]
  · simp [Yaml.Scalar]
  · have : lit "id" ≠ lit "description" := by decide +kernel
    simp [UnderName, Yaml.name, this]
  · have : lit "id" ≠ lit "processors" := by decide +kernel
    simp [UnderName, Yaml.name, this]
  · have : lit "id" ≠ lit "on_failure" := by decide +kernel
    simp [UnderName, Yaml.name, this]

theorem json_id_number : unmarshalConfig bitsEnv (lit "{\"id\":5}") = none := by decide +kernel

/-! ## The program -/

/-- C93: what the program loads from its pipeline file: the file exists, the parser finds a document, and the document is null or a configuration. -/
theorem load_yaml {E : MainEnv YCfg} {parse : Bytes → Option (Option Yaml)} (hE : E.decode = yamlDecode parse) (fs : Files) (path : Bytes) (c : Option (Config YCfg)) :
    loadPipeline E fs path = some c ↔ ∃ file y, fs path = some file ∧ parse file.read = some (some y) ∧ (((∃ t, y = .plain t .null) ∧ c = none) ∨ ∃ c', c = some c'.config ∧ IsYConfig y c') := by
  unfold loadPipeline
  cases hf : fs path with
  | none => simp
  | some file =>
    simp only [hE, yamlDecode]
    cases hp : parse file.read with
    | none => simp [hp]
    | some o =>
      cases o with
      | none => simp [hp]
      | some y =>
        simp only [Option.some.injEq, exists_and_left, exists_eq_left', hp, Option.map_eq_some_iff]
        constructor
        · rintro ⟨a, ha, rfl⟩
          rcases (decodeYaml_iff y a).1 ha with ⟨h, rfl⟩ | ⟨c', rfl, h⟩
          · exact .inl ⟨h, rfl⟩
          · exact .inr ⟨c', rfl, h⟩
        · rintro (⟨h, rfl⟩ | ⟨c', rfl, h⟩)
          · exact ⟨none, (decodeYaml_iff y none).2 (.inl ⟨h, rfl⟩), rfl⟩
          · exact ⟨some c', (decodeYaml_iff y _).2 (.inr ⟨c', rfl, h⟩), rfl⟩

/-! ## A sample -/

/-- ```
on_failure: [{set: {value: null, target_field: 1}}]
id: 7
processors:
  - lowercase: {on_failure: ~, id: a, fields: [x, true], more: {k: -1, j: 0.5}, 3: {4: z}}
  - fail:
  - ~
x: {a: 1, a: 2}
``` -/
def sampleYaml : Yaml := .map [
  (.str (lit "on_failure"), .seq [.map [(.str (lit "set"), .map [(.str (lit "value"), .plain (lit "null") .null), (.str (lit "target_field"), .plain (lit "1") (.int 1))])]]),
  (.str (lit "id"), .plain (lit "7") (.int 7)),
  (.str (lit "processors"), .seq [
    .map [(.str (lit "lowercase"), .map [(.str (lit "on_failure"), .plain (lit "~") .null), (.str (lit "id"), .str (lit "a")), (.str (lit "fields"), .seq [.str (lit "x"), .plain (lit "true") (.bool true)]),
      (.str (lit "more"), .map [(.str (lit "k"), .plain (lit "-1") (.int (-1))), (.str (lit "j"), .plain (lit "0.5") (.float 0x3FE0000000000000#64))]),
      (.plain (lit "3") (.int 3), .map [(.plain (lit "4") (.int 4), .str (lit "z"))])])],
    .map [(.str (lit "fail"), .plain [] .null)],
    .plain (lit "~") .null]),
  (.str (lit "x"), .map [(.str (lit "a"), .plain (lit "1") (.int 1)), (.str (lit "a"), .plain (lit "2") (.int 2))])]

def sampleYConfig : YConfig := ⟨⟨lit "7",
  [[(lit "lowercase", some (.mk (lit "a") [] [] (some [(lit "3", .gmap [(.plain (.int 4), .str (lit "z"))]), (lit "fields", .list [.str (lit "x"), .plain (.bool true)]),
      (lit "more", .smap [(lit "j", .plain (.float 0x3FE0000000000000#64)), (lit "k", .plain (.int (-1)))])])))], [(lit "fail", none)], []],
  [[(lit "set", some (.mk [] [] [] (some [(lit "target_field", .plain (.int 1)), (lit "value", .plain .null)])))]]⟩, []⟩

/-- The sample is read so. -/
theorem yaml_sample : decodeYaml sampleYaml = some (some sampleYConfig) := by rfl

/-- One key twice. -/
theorem yaml_repeated_sample : decodeYaml (.map [(.str (lit "id"), .str (lit "a")), (.plain (lit "id") (.int 1), .str (lit "b"))]) = none := by
  refine (yaml_repeated ?_).1
  intro h
  exact (List.pairwise_cons.1 h).1 (.plain (lit "id") (.int 1), .str (lit "b")) (by simp) (.strPlain _ _)

/-- Another order. -/
theorem yaml_order_sample : Reordered (.map [(.str (lit "id"), .str (lit "a")), (.str (lit "description"), .plain (lit "1") (.int 1))]) (.map [(.str (lit "description"), .plain (lit "1") (.int 1)), (.str (lit "id"), .str (lit "a"))]) :=
  .map _ _ _ (.cons _ _ _ _ _ (.str _) (.cons _ _ _ _ _ (.plain _ _) .nil)) (by simp) (.swap _ _ _)

/-- A configuration that can be written. -/
theorem yaml_round_sample : decodeYaml (sampleYConfig.document fun _ => lit "t") = some (some sampleYConfig) := by
  refine yaml_round_trip _ ⟨?_, ?_⟩
  · simp only [sampleYConfig, ConfsWf, EntriesWf, POptWf, OptCfg.Wf, and_true, true_and]
    refine ⟨by decide, ?_, by decide, by decide⟩
    intro m hm
    cases hm
    refine ⟨by simp, by decide, ?_, by decide +kernel⟩
    simp only [YVal.WfS, YVal.Wf, YVal.WfL, YVal.WfG, and_true, List.map_cons, List.map_nil, List.pairwise_cons, List.not_mem_nil, false_implies, implies_true, List.Pairwise.nil, true_and]
    exact ⟨⟨(.plain (.int 4), .str (lit "z")), by simp, .int 4, rfl⟩, by decide⟩
  · simp only [sampleYConfig, ConfsWf, EntriesWf, POptWf, OptCfg.Wf, and_true, true_and]
    refine ⟨by decide, ?_⟩
    intro m hm
    cases hm
    exact ⟨by simp, by decide, by simp [YVal.WfS, YVal.Wf], by decide +kernel⟩

/-- A JSON configuration: `{"id":"p","processors":[{"set":{"id":"s","n":12}}]}`. -/
def portableJson : Json := .obj [(lit "id", .str (lit "p")), (lit "processors", .arr [.obj [(lit "set", .obj [(lit "id", .str (lit "s")), (lit "n", .num (lit "12"))])]])]

theorem portable_tidy : portableJson.Tidy ∧ ExactConfig portableJson := by
  constructor
  · simp only [portableJson, Json.Tidy, Json.TidyE, Json.TidyL, NamesOnce, and_true, List.map_cons, List.map_nil]
    decide +kernel
  · have f : ∀ n k : Bytes, FieldName n → foldEq n k = false → Folds n k → k = n := fun n k hn h hf => absurd hf (not_folds hn h)
    have fi : FieldName (lit "id") := by unfold FieldName SmallLetter; decide +kernel
    have fd : FieldName (lit "description") := by unfold FieldName SmallLetter; decide +kernel
    have fp : FieldName (lit "processors") := by unfold FieldName SmallLetter; decide +kernel
    have ff : FieldName (lit "on_failure") := by unfold FieldName SmallLetter; decide +kernel
    have fc : FieldName (lit "if") := by unfold FieldName SmallLetter; decide +kernel
    simp only [portableJson, ExactConfig, ExactFields, ExactSlice, ExactConfs, ExactConf, ExactEntries, ExactOpt, ExactNames, optNames, List.mem_cons, List.not_mem_nil, or_false, forall_eq_or_imp, forall_eq, and_true, true_and]
    refine ⟨⟨⟨fun _ => by simp, f _ _ fd (by decide +kernel), f _ _ fp (by decide +kernel), f _ _ ff (by decide +kernel)⟩, f _ _ fi (by decide +kernel), f _ _ fd (by decide +kernel), fun _ => by simp, f _ _ ff (by decide +kernel)⟩, ?_, ?_⟩
    · intro _; trivial
    · intro _
      refine ⟨⟨⟨fun _ => by simp, f _ _ fc (by decide +kernel), f _ _ ff (by decide +kernel)⟩, f _ _ fi (by decide +kernel), f _ _ fc (by decide +kernel), f _ _ ff (by decide +kernel)⟩, ?_⟩
      constructor
      · intro _; trivial
      · intro _; trivial

/-- It is read alike; the number 12 is an integer in YAML. -/
theorem portable_sample : unmarshalConfig bitsEnv [123, 34, 105, 100, 34, 58, 34, 112, 34, 44, 34, 112, 114, 111, 99, 101, 115, 115, 111, 114, 115, 34, 58, 91, 123, 34, 115, 101, 116, 34, 58, 123, 34, 105, 100, 34, 58, 34, 115, 34, 44, 34, 110, 34, 58, 49, 50, 125, 125, 93, 125] = some (some ⟨⟨lit "p", [[(lit "set", some (.mk (lit "s") [] [] (some [(lit "n", .scalar (.float ((bitsEnv.atof (lit "12")).getD 0)))])))]], []⟩, []⟩) ∧
    decodeYaml (portableJson.asYaml bitsEnv) = some (some ⟨⟨lit "p", [[(lit "set", some (.mk (lit "s") [] [] (some [(lit "n", .plain (.int 12))])))]], []⟩, []⟩) := by
  constructor <;> rfl

end Sawmill
