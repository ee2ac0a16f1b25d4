import Verif.Lemmas.ConfigRound
import Verif.Props.Json
/-!
# C52: configurations as JSON
-/

namespace Sawmill
open Rfc

/-! ## Encoding -/

/-- C52: the JSON of the options of a processor is one object with the ID, the condition and the failure handlers (unless empty) and the processor's own options, which replace the others if they have the same name. It is an error exactly if there is an infinity or a
NaN, or if the nesting is deeper than 10000. -/
theorem marshalOpt_spec {env : JEnv} (hl : env.Lawful) (o : OptCfg JCfg) :
    ((optVal o).FiniteFloats ∧ (optVal o).nest ≤ 10000 → ∃ bs j, marshalOpt env o = .ok bs ∧ Text j bs ∧ Says env (optVal o) j) ∧
    (¬ ((optVal o).FiniteFloats ∧ (optVal o).nest ≤ 10000) → marshalOpt env o = .error) := by
  rcases marshalOpt_enc hl o with ⟨h, bs, e, j, ht, hs⟩ | ⟨h, e⟩
  · exact ⟨fun _ => ⟨bs, j, e, ht, hs⟩, fun hn => absurd h hn⟩
  · exact ⟨fun hn => absurd hn h, fun _ => e⟩

/-- C52: the JSON of a configuration. -/
theorem marshalConfig_spec {env : JEnv} (hl : env.Lawful) (c : JConfig) :
    ((cfgVal c).FiniteFloats ∧ (cfgVal c).nest ≤ 10000 → ∃ bs, marshalConfig env c = .ok bs) ∧ (¬ (cfgVal c).FiniteFloats → marshalConfig env c = .error) ∧
    (∀ bs, marshalConfig env c = .ok bs → ∃ j, Text j bs ∧ Says env (cfgVal c) j) := by
  rcases marshalConfig_enc hl c with ⟨h, bs, j, e, ht, hs⟩ | ⟨e, h⟩
  · exact ⟨fun _ => ⟨bs, e⟩, fun hn => absurd h hn, fun bs' e' => by rw [e] at e'; cases e'; exact ⟨j, ht, hs⟩⟩
  · exact ⟨fun hn => absurd hn h, fun _ => e, fun bs' e' => by rw [e] at e'; cases e'⟩

/-! ## Decoding -/

/-- C52: what is decoded into the options of a processor. If in no option object two names stand for the same field then a document is accepted exactly if it stands for options, and these are the result. -/
theorem unmarshalOpt_iff {env : JEnv} {bs : Bytes} {j : Json} (hd : Document j bs) (hn : depth j ≤ 10000) (hreg : RegOpt j) (o : OptCfg JCfg) : unmarshalOpt env bs = some o ↔ IsOpt env j o := by
  unfold unmarshalOpt
  rw [parseDoc_iff.2 ⟨hd, hn⟩]
  exact ⟨isOpt_of j hreg, decOpt_of⟩

/-- C52: nothing but JSON documents that are not nested too deeply is accepted. -/
theorem unmarshalOpt_rejects {env : JEnv} {bs : Bytes} (h : ¬ ∃ j, Document j bs ∧ depth j ≤ 10000) : unmarshalOpt env bs = none ∧ unmarshalConfig env bs = none := by
  unfold unmarshalOpt unmarshalConfig
  rw [parseDoc_none_iff.2 h]
  exact ⟨rfl, rfl⟩

/-- C52: what is decoded into a configuration. `null` gives no configuration (a nil pointer), without an error. -/
theorem unmarshalConfig_iff {env : JEnv} {bs : Bytes} {j : Json} (hd : Document j bs) (hn : depth j ≤ 10000) (hreg : RegConfig j) (c : Option JConfig) :
    unmarshalConfig env bs = some c ↔ (j = .null ∧ c = none) ∨ ∃ c', c = some c' ∧ IsConfig env j c' := by
  unfold unmarshalConfig
  rw [parseDoc_iff.2 ⟨hd, hn⟩]
  have other : ∀ j', (∀ es, j' ≠ .obj es) → ¬ ∃ c', c = some c' ∧ IsConfig env j' c' := by
    rintro j' hj ⟨c', _, es, i, d, p, f, rfl, _⟩
    exact hj es rfl
  cases j with
  | null =>
    constructor
    · intro h; exact .inl ⟨rfl, by simpa using h.symm⟩
    · rintro (⟨_, rfl⟩ | h)
      · rfl
      · exact absurd h (other _ (by simp))
  | obj es =>
    simp only [reduceCtorEq, false_and, false_or]
    obtain ⟨i, hi⟩ := hreg.1 (lit "id") (by simp)
    obtain ⟨d, hd⟩ := hreg.1 (lit "description") (by simp)
    obtain ⟨p, hp⟩ := hreg.1 (lit "processors") (by simp)
    obtain ⟨f, hf⟩ := hreg.1 (lit "on_failure") (by simp)
    have key := isSliceE_of (env := env) es [lit "processors", lit "on_failure"] hreg.2
    constructor
    · intro h
      rw [decCfgFields_eq env es i d p f {} hi hd hp hf] at h
      cases h1 : optStr i ({} : CfgAcc).id with
      | none => simp [h1] at h
      | some id =>
        cases h2 : optStr d ({} : CfgAcc).description with
        | none => simp [h1, h2] at h
        | some desc =>
          cases h3 : optSlice env p ({} : CfgAcc).procs with
          | none => simp [h1, h2, h3] at h
          | some ps =>
            cases h4 : optSlice env f ({} : CfgAcc).fails with
            | none => simp [h1, h2, h3, h4] at h
            | some fs =>
              simp only [h1, h2, h3, h4, Option.bind_some, Option.map_some, Option.some.injEq] at h
              refine ⟨_, h.symm, es, i, d, p, f, rfl, hi, hd, hp, hf, optStr_iff.1 h1, optStr_iff.1 h2, ?_, ?_⟩
              · cases p with
                | none => cases h3; exact .absent
                | some j =>
                  obtain ⟨k, hm, hk⟩ := fieldIs_some hp
                  exact key k j hm ⟨_, by simp, hk⟩ h3
              · cases f with
                | none => cases h4; exact .absent
                | some j =>
                  obtain ⟨k, hm, hk⟩ := fieldIs_some hf
                  exact key k j hm ⟨_, by simp, hk⟩ h4
    · rintro ⟨c', rfl, es', i, d, p, f, he, hi, hd, hp, hf, h1, h2, h3, h4⟩
      cases he
      rw [decCfgFields_eq env es i d p f {} hi hd hp hf]
      obtain ⟨ps, q1, q2⟩ := optSlice_of h3
      obtain ⟨fs, q3, q4⟩ := optSlice_of h4
      have e1 : optStr i ({} : CfgAcc).id = some c'.config.id := optStr_iff.2 h1
      have e2 : optStr d ({} : CfgAcc).description = some c'.description := optStr_iff.2 h2
      have e3 : optSlice env p ({} : CfgAcc).procs = some ps := q1
      have e4 : optSlice env f ({} : CfgAcc).fails = some fs := q3
      simp only [e1, e2, e3, e4, Option.bind_some, Option.map_some, q2, q4]
  | bool b => exact ⟨fun h => by simp at h, by rintro (⟨h, _⟩ | h); exacts [by simp at h, absurd h (other _ (by simp))]⟩
  | num b => exact ⟨fun h => by simp at h, by rintro (⟨h, _⟩ | h); exacts [by simp at h, absurd h (other _ (by simp))]⟩
  | str b => exact ⟨fun h => by simp at h, by rintro (⟨h, _⟩ | h); exacts [by simp at h, absurd h (other _ (by simp))]⟩
  | arr b => exact ⟨fun h => by simp at h, by rintro (⟨h, _⟩ | h); exacts [by simp at h, absurd h (other _ (by simp))]⟩

/-! ## There and back -/

/-- C52: options that JSON can represent come back as they were. -/
theorem opt_round_trip {env : JEnv} (hl : env.Lawful) {o : OptCfg JCfg} (hp : o.Plain) (hf : (optVal o).FiniteFloats) (hn : (optVal o).nest ≤ 10000) :
    ∃ bs, marshalOpt env o = .ok bs ∧ unmarshalOpt env bs = some o := by
  obtain ⟨bs, j, e, ht, hs⟩ := (marshalOpt_spec hl o).1 ⟨hf, hn⟩
  refine ⟨bs, e, ?_⟩
  unfold unmarshalOpt
  rw [parseDoc_iff.2 ⟨document_text ht, by rw [says_depth _ _ hs]; exact hn⟩]
  exact decOpt_of (plain_says hl o j hp hf hs)

theorem cfg_entries (c : JConfig) : ∃ es, cfgVal c = .obj es ∧ (es.map (·.1)).Nodup ∧ (∀ e ∈ es, e.1 ∈ [lit "id", lit "description", lit "processors", lit "on_failure"]) ∧
    AMap.lookup es (lit "id") = (if c.config.id = [] then none else some (.scalar (.str c.config.id))) ∧
    AMap.lookup es (lit "description") = (if c.description = [] then none else some (.scalar (.str c.description))) ∧
    AMap.lookup es (lit "processors") = (if c.config.processors.isEmpty then none else some (.arr (confsVal c.config.processors))) ∧
    AMap.lookup es (lit "on_failure") = (if c.config.onFailure.isEmpty then none else some (.arr (confsVal c.config.onFailure))) := by
  refine ⟨_, rfl, ?_⟩
  have n1 : lit "id" ≠ lit "description" := by decide +kernel
  have n2 : lit "id" ≠ lit "processors" := by decide +kernel
  have n3 : lit "id" ≠ lit "on_failure" := by decide +kernel
  have n4 : lit "description" ≠ lit "processors" := by decide +kernel
  have n5 : lit "description" ≠ lit "on_failure" := by decide +kernel
  have n6 : lit "processors" ≠ lit "on_failure" := by decide +kernel
  unfold textField procsField
  by_cases h1 : c.config.id = [] <;> by_cases h2 : c.description = [] <;> by_cases h3 : c.config.processors = [] <;> by_cases h4 : c.config.onFailure = [] <;>
    simp [h1, h2, h3, h4, AMap.lookup_cons, n1, n2, n3, n4, n5, n6, n1.symm, n2.symm, n3.symm, n4.symm, n5.symm, n6.symm]

theorem sliceIs_of {env : JEnv} (hl : env.Lawful) {name : Bytes} {cs : List (ProcCfg JCfg)} {es : List (Bytes × Val)} {js : List (Bytes × Json)} (hs : SaysE env es js) (hv : ∀ e ∈ es, ValidUtf8 e.1)
    (hp : PlainConfs cs) (hf : Val.FiniteFloatsE es) (hlk : AMap.lookup es name = if cs.isEmpty then none else some (.arr (confsVal cs))) : IsSlice env (AMap.lookup js name) cs := by
  by_cases h : cs.isEmpty = true
  · rw [if_pos h] at hlk
    rw [(saysE_lookup _ es js hs hv).1 hlk, List.isEmpty_iff.1 h]
    exact .absent
  · rw [if_neg h] at hlk
    obtain ⟨j, h1, h2⟩ := (saysE_lookup _ es js hs hv).2 _ hlk
    rw [h1]
    obtain ⟨js', rfl, h2⟩ := h2
    exact .arr js' cs (plain_saysL hl cs js' hp (finite_sub hf hlk) h2)

/-- C52: a configuration that JSON can represent comes back as it was. -/
theorem config_round_trip {env : JEnv} (hl : env.Lawful) {c : JConfig} (hp : c.Plain) (hf : (cfgVal c).FiniteFloats) (hn : (cfgVal c).nest ≤ 10000) :
    ∃ bs, marshalConfig env c = .ok bs ∧ unmarshalConfig env bs = some (some c) := by
  obtain ⟨bs, e⟩ := (marshalConfig_spec hl c).1 ⟨hf, hn⟩
  obtain ⟨j, ht, hs⟩ := (marshalConfig_spec hl c).2.2 bs e
  refine ⟨bs, e, ?_⟩
  have hd : depth j ≤ 10000 := by rw [says_depth _ _ hs]; exact hn
  obtain ⟨u1, u2, p1, p2⟩ := hp
  obtain ⟨es, hes, hnd, hmem, l1, l2, l3, l4⟩ := cfg_entries c
  rw [hes] at hs hf
  obtain ⟨js, rfl, hs⟩ := hs
  have hval : ∀ e ∈ es, ValidUtf8 e.1 := by
    intro e he
    have := hmem e he
    simp only [List.mem_cons, List.not_mem_nil, or_false] at this
    rcases this with h | h | h | h
    · rw [h]; exact ⟨['i', 'd'], by decide +kernel⟩
    · rw [h]; exact ⟨['d', 'e', 's', 'c', 'r', 'i', 'p', 't', 'i', 'o', 'n'], by decide +kernel⟩
    · rw [h]; exact ⟨['p', 'r', 'o', 'c', 'e', 's', 's', 'o', 'r', 's'], by decide +kernel⟩
    · rw [h]; exact ⟨['o', 'n', '_', 'f', 'a', 'i', 'l', 'u', 'r', 'e'], by decide +kernel⟩
  have hkeys := saysE_keys es js hs hval
  have hname : ∀ n ∈ [lit "id", lit "description", lit "processors", lit "on_failure"], FieldName n := by
    intro n hn
    simp only [List.mem_cons, List.not_mem_nil, or_false] at hn
    rcases hn with rfl | rfl | rfl | rfl
    exacts [cfgField_name .id, cfgField_name .description, cfgField_name .processors, cfgField_name .onFailure]
  have hfi : ∀ n ∈ [lit "id", lit "description", lit "processors", lit "on_failure"], FieldIs js n (AMap.lookup js n) := by
    intro n hn
    refine fieldIs_lookup (by rw [hkeys]; exact hnd) fun e he hfo => ?_
    have hk : e.1 ∈ es.map (·.1) := by rw [← hkeys]; exact List.mem_map_of_mem he
    obtain ⟨x, hx, hxe⟩ := List.mem_map.1 hk
    have := hmem x hx
    rw [hxe] at this
    exact folds_unique (hname _ this) (hname _ hn) (folds_self _) hfo
  have hcfg : IsConfig env (.obj js) c := ⟨js, _, _, _, _, rfl, hfi _ (by simp), hfi _ (by simp), hfi _ (by simp), hfi _ (by simp), strIs_of hs hval u1 l1, strIs_of hs hval u2 l2,
    sliceIs_of hl hs hval p1 hf l3, sliceIs_of hl hs hval p2 hf l4⟩
  unfold unmarshalConfig
  rw [parseDoc_iff.2 ⟨document_text ht, hd⟩]
  obtain ⟨es', i, d, p, f, he, hi, hdd, hpp, hff, h1, h2, h3, h4⟩ := hcfg
  cases he
  simp only
  rw [decCfgFields_eq env js i d p f {} hi hdd hpp hff]
  obtain ⟨ps, q1, q2⟩ := optSlice_of h3
  obtain ⟨fs, q3, q4⟩ := optSlice_of h4
  have e1 : optStr i ({} : CfgAcc).id = some c.config.id := optStr_iff.2 h1
  have e2 : optStr d ({} : CfgAcc).description = some c.description := optStr_iff.2 h2
  have e3 : optSlice env p ({} : CfgAcc).procs = some ps := q1
  have e4 : optSlice env f ({} : CfgAcc).fails = some fs := q3
  simp only [e1, e2, e3, e4, Option.bind_some, Option.map_some, q2, q4]

/-- C52: so a pipeline that is built from the JSON of a configuration is the pipeline that is built from the configuration. -/
theorem config_round_trip_new {A R : Type} (F : Factory A R JCfg) {env : JEnv} (hl : env.Lawful) {c : JConfig} (hp : c.Plain) (hf : (cfgVal c).FiniteFloats) (hn : (cfgVal c).nest ≤ 10000) :
    ∃ bs c', marshalConfig env c = .ok bs ∧ unmarshalConfig env bs = some c' ∧ Pipeline.newFromPtr F c' = Pipeline.new F c.config := by
  obtain ⟨bs, h1, h2⟩ := config_round_trip hl hp hf hn
  exact ⟨bs, _, h1, h2, rfl⟩

/-- C52: the configuration `null` is accepted, and building a pipeline from it crashes. -/
theorem null_config_panics {A R : Type} (F : Factory A R JCfg) (env : JEnv) {bs : Bytes} (hd : Document .null bs) : ∃ c, unmarshalConfig env bs = some c ∧ Pipeline.newFromPtr F c = .panic := by
  refine ⟨none, ?_, rfl⟩
  exact (unmarshalConfig_iff hd (by simp [depth]) trivial none).2 (.inl ⟨rfl, rfl⟩)

/-! ## What does not come back -/

/-- An option named `id` replaces the ID of the processor: ID `a` and the option `id: "b"` are written as `{"id":"b"}`. -/
theorem opt_id_replaced : marshalOpt bitsEnv (.mk [97] [] [] (some [([105, 100], .scalar (.str [98]))])) = .ok [123, 34, 105, 100, 34, 58, 34, 98, 34, 125] ∧
    unmarshalOpt bitsEnv [123, 34, 105, 100, 34, 58, 34, 98, 34, 125] = some (.mk [98] [] [] none) := by
  constructor
  · decide +kernel
  · rfl

/-- Names are matched to fields without regard to case, but what is left for the processor is by exact name: `ID` is both: `{"ID":"a","x":true}`, written again as `{"ID":"a","id":"a","x":true}`. -/
theorem opt_case : unmarshalOpt bitsEnv [123, 34, 73, 68, 34, 58, 34, 97, 34, 44, 34, 120, 34, 58, 116, 114, 117, 101, 125] = some (.mk [97] [] [] (some [([73, 68], .scalar (.str [97])), ([120], .scalar (.bool true))])) ∧
    marshalOpt bitsEnv (.mk [97] [] [] (some [([73, 68], .scalar (.str [97])), ([120], .scalar (.bool true))])) = .ok [123, 34, 73, 68, 34, 58, 34, 97, 34, 44, 34, 105, 100, 34, 58, 34, 97, 34, 44, 34, 120, 34, 58, 116, 114, 117, 101, 125] := by
  constructor
  · rfl
  · decide +kernel

/-- So an empty ID does not come back: an option named `ID` becomes the ID: `{"ID":"a"}`. -/
theorem opt_case_lossy : marshalOpt bitsEnv (.mk [] [] [] (some [([73, 68], .scalar (.str [97]))])) = .ok [123, 34, 73, 68, 34, 58, 34, 97, 34, 125] ∧
    unmarshalOpt bitsEnv [123, 34, 73, 68, 34, 58, 34, 97, 34, 125] = some (.mk [97] [] [] (some [([73, 68], .scalar (.str [97]))])) := by
  constructor
  · decide +kernel
  · rfl

/-- And an option whose name is like `on_failure` makes the text unreadable: `{"On_Failure":true}`. -/
theorem opt_case_error : marshalOpt bitsEnv (.mk [] [] [] (some [([79, 110, 95, 70, 97, 105, 108, 117, 114, 101], .scalar (.bool true))])) = .ok [123, 34, 79, 110, 95, 70, 97, 105, 108, 117, 114, 101, 34, 58, 116, 114, 117, 101, 125] ∧ unmarshalOpt bitsEnv [123, 34, 79, 110, 95, 70, 97, 105, 108, 117, 114, 101, 34, 58, 116, 114, 117, 101, 125] = none := by
  constructor
  · decide +kernel
  · rfl

/-- An empty map of options comes back as none: `{}`. -/
theorem opt_empty : marshalOpt bitsEnv (.mk [] [] [] (some [])) = .ok [123, 125] ∧ unmarshalOpt bitsEnv [123, 125] = some (.mk [] [] [] none) := by
  constructor
  · decide +kernel
  · rfl

/-- If two names stand for the list of failure handlers then the second list does not replace the first one: their elements are merged, into a processor with two names, which `New` then rejects: `{"on_failure":[{"a":null}],"On_Failure":[{"b":null}]}`. -/
theorem opt_merge : unmarshalOpt bitsEnv [123, 34, 111, 110, 95, 102, 97, 105, 108, 117, 114, 101, 34, 58, 91, 123, 34, 97, 34, 58, 110, 117, 108, 108, 125, 93, 44, 34, 79, 110, 95, 70, 97, 105, 108, 117, 114, 101, 34, 58, 91, 123, 34, 98, 34, 58, 110, 117, 108, 108, 125, 93, 125] =
    some (.mk [] [] [[([97], none), ([98], none)]] (some [([79, 110, 95, 70, 97, 105, 108, 117, 114, 101], .arr [.obj [([98], .nilp)]])])) := by rfl

/-! ## A case that meets the hypotheses -/

def sampleOpt : OptCfg JCfg := .mk (lit "p1") (lit "x > 1") [[(lit "set", some (.mk [] [] [] (some [(lit "target_field", .scalar (.str (lit "error")))])))], [(lit "drop", none)]]
  (some [(lit "copy", .scalar (.bool true)), (lit "fields", .arr [.scalar (.str (lit "a")), .nilp, .obj []])])

def sampleJConfig : JConfig := ⟨⟨lit "main", [[(lit "append", some sampleOpt)]], [[(lit "drop", none)]]⟩, lit "a \"test\""⟩

theorem not_folds {n k : Bytes} (hn : FieldName n) (h : foldEq n k = false) : ¬ Folds n k := by
  rw [← foldEq_iff n k hn, h]; simp

theorem valid_ascii {s : Bytes} (h : ∀ b ∈ s, b.toNat < 128) : ValidUtf8 s := by
  refine ⟨s.map fun b => Char.ofNat b.toNat, ?_⟩
  induction s with
  | nil => rfl
  | cons b s ih =>
    have hb := h b (by simp)
    have key : ∀ i : Fin 128, utf8 (Char.ofNat i.val) = [UInt8.ofNat i.val] := by decide +kernel
    have := key ⟨b.toNat, hb⟩
    simp only [UInt8.ofNat_toNat] at this
    simp only [List.map_cons, List.flatMap_cons, this, ← ih fun x hx => h x (by simp [hx])]
    rfl

theorem sampleOpt_plain : sampleOpt.Plain := by
  have key : ∀ k : Bytes, (foldEq (lit "id") k || foldEq (lit "if") k || foldEq (lit "on_failure") k) = false → ∀ n ∈ optNames, ¬ Folds n k := by
    intro k hk n hn
    simp only [Bool.or_eq_false_iff] at hk
    have hfn := fieldNames n hn
    simp only [optNames, List.mem_cons, List.not_mem_nil, or_false] at hn
    rcases hn with rfl | rfl | rfl
    exacts [not_folds hfn hk.1.1, not_folds hfn hk.1.2, not_folds hfn hk.2]
  have v : ∀ s : Bytes, (s.all fun b => decide (b.toNat < 128)) = true → ValidUtf8 s := fun s h => valid_ascii (by simpa using h)
  refine ⟨v _ (by decide +kernel), v _ (by decide +kernel), ⟨⟨by decide +kernel, ⟨v _ (by decide +kernel), ⟨v _ (by decide +kernel), v _ (by decide +kernel), trivial, ?_⟩⟩, trivial⟩,
    ⟨by decide +kernel, ⟨v _ (by decide +kernel), trivial⟩, trivial⟩, trivial⟩, ?_⟩
  · refine ⟨by simp, by decide +kernel, ⟨trivial, trivial⟩, ⟨trivial, trivial⟩, ⟨v _ (by decide +kernel), v _ (by decide +kernel), trivial⟩, ?_⟩
    simp only [List.mem_singleton, forall_eq]
    exact key _ (by decide +kernel)
  · refine ⟨by simp, by decide +kernel, ⟨trivial, ⟨trivial, trivial, ⟨AMap.sorted_nil, trivial⟩, trivial⟩, trivial⟩, ⟨trivial, ⟨trivial, trivial, trivial, trivial⟩, trivial⟩,
      ⟨v _ (by decide +kernel), trivial, v _ (by decide +kernel), ⟨v _ (by decide +kernel), trivial, trivial, trivial⟩, trivial⟩, ?_⟩
    simp only [List.mem_cons, List.not_mem_nil, or_false, forall_eq_or_imp, forall_eq]
    exact ⟨key _ (by decide +kernel), key _ (by decide +kernel)⟩

theorem sampleJConfig_plain : sampleJConfig.Plain := by
  have v : ∀ s : Bytes, (s.all fun b => decide (b.toNat < 128)) = true → ValidUtf8 s := fun s h => valid_ascii (by simpa using h)
  exact ⟨v _ (by decide +kernel), v _ (by decide +kernel), ⟨⟨by decide +kernel, ⟨v _ (by decide +kernel), sampleOpt_plain⟩, trivial⟩, trivial⟩, ⟨⟨by decide +kernel, ⟨v _ (by decide +kernel), trivial⟩, trivial⟩, trivial⟩⟩

mutual
/-- Deciding whether all floats are finite. -/
def finiteB : Val → Bool
  | .scalar (.float f) => finite f
  | .arr vs => finiteBL vs
  | .obj es => finiteBE es
  | _ => true
def finiteBL : List Val → Bool
  | [] => true
  | v :: vs => finiteB v && finiteBL vs
def finiteBE : List (Bytes × Val) → Bool
  | [] => true
  | (_, v) :: es => finiteB v && finiteBE es
end

mutual
theorem finiteB_sound : ∀ (v : Val), finiteB v = true → v.FiniteFloats
  | .nilp, _ => trivial
  | .scalar .null, _ => trivial
  | .scalar (.bool _), _ => trivial
  | .scalar (.int _), _ => trivial
  | .scalar (.uint _), _ => trivial
  | .scalar (.float _), h => h
  | .scalar (.str _), _ => trivial
  | .scalar (.ts _), _ => trivial
  | .arrNil, _ => trivial
  | .objNil, _ => trivial
  | .arr vs, h => finiteBL_sound vs h
  | .obj es, h => finiteBE_sound es h
theorem finiteBL_sound : ∀ (vs : List Val), finiteBL vs = true → Val.FiniteFloatsL vs
  | [], _ => trivial
  | v :: vs, h => by
    simp only [finiteBL, Bool.and_eq_true] at h
    exact ⟨finiteB_sound v h.1, finiteBL_sound vs h.2⟩
theorem finiteBE_sound : ∀ (es : List (Bytes × Val)), finiteBE es = true → Val.FiniteFloatsE es
  | [], _ => trivial
  | (_, v) :: es, h => by
    simp only [finiteBE, Bool.and_eq_true] at h
    exact ⟨finiteB_sound v h.1, finiteBE_sound es h.2⟩
end

/-- The hypotheses are met. -/
example : ∃ bs, marshalConfig bitsEnv sampleJConfig = .ok bs ∧ unmarshalConfig bitsEnv bs = some (some sampleJConfig) := by
  refine config_round_trip bitsEnv_lawful sampleJConfig_plain ?_ (by decide +kernel)
  exact finiteB_sound _ (by decide +kernel)

end Sawmill
