import Verif.Model.ConfigJson
import Verif.Spec.Json
import Verif.Spec.History
/-!
# What a configuration says in JSON, and what configuration a JSON document stands for
-/

namespace Sawmill
open Rfc

/-! ## Encoding -/

/-- A field of text that is left out if it is empty. -/
def textField (name s : Bytes) : AMap Val := if s = [] then [] else [(name, .scalar (.str s))]

mutual
/-- The options of a processor as one object: the ID, the condition and the failure handlers if they are not empty, and the processor's own options, which win if they have one of these names. -/
def optVal : OptCfg JCfg → Val
  | .mk id cond onF config => .obj (AMap.ofEntries (config.getD []) (textField (lit "id") id ++ textField (lit "if") cond ++ (if onF.isEmpty then [] else [(lit "on_failure", .arr (confsVal onF))])))
def confsVal : List (ProcCfg JCfg) → List Val
  | [] => []
  | c :: cs => .obj (entriesVal c) :: confsVal cs
def entriesVal : List (Bytes × Option (OptCfg JCfg)) → List (Bytes × Val)
  | [] => []
  | (k, o) :: es => (k, popt o) :: entriesVal es
/-- Options that are not there are null. -/
def popt : Option (OptCfg JCfg) → Val
  | none => .nilp
  | some o => optVal o
end

/-- A list of processors that is left out if it is empty. -/
def procsField (name : Bytes) (cs : List (ProcCfg JCfg)) : AMap Val := if cs.isEmpty then [] else [(name, .arr (confsVal cs))]

/-- A configuration as one object. -/
def cfgVal (c : JConfig) : Val :=
  .obj (textField (lit "id") c.config.id ++ textField (lit "description") c.description ++ procsField (lit "processors") c.config.processors ++ procsField (lit "on_failure") c.config.onFailure)

/-! ## Decoding -/

/-- Small ASCII letters. -/
def SmallLetter (b : UInt8) : Prop := 97 ≤ b.toNat ∧ b.toNat ≤ 122

/-- The name in the text (second) stands for the field name (first): they are the same up to the case of letters; U+017F (the long s) also stands for s, and U+212A (the Kelvin sign) for k. -/
inductive Folds : Bytes → Bytes → Prop where
  | nil : Folds [] []
  | same (b : UInt8) (n k : Bytes) (h : Folds n k) : Folds (b :: n) (b :: k)
  | upper (b c : UInt8) (n k : Bytes) (hb : SmallLetter b) (hc : c.toNat + 32 = b.toNat) (h : Folds n k) : Folds (b :: n) (c :: k)
  | longS (n k : Bytes) (h : Folds n k) : Folds (115 :: n) (0xC5 :: 0xBF :: k)
  | kelvin (n k : Bytes) (h : Folds n k) : Folds (107 :: n) (0xE2 :: 0x84 :: 0xAA :: k)

/-- The document at the only entry of an object whose name stands for `name`, or none if there is no such entry. -/
def FieldIs (es : List (Bytes × Json)) (name : Bytes) : Option Json → Prop
  | none => ∀ e ∈ es, ¬ Folds name e.1
  | some j => ∃ pre k post, es = pre ++ (k, j) :: post ∧ Folds name k ∧ (∀ e ∈ pre, ¬ Folds name e.1) ∧ (∀ e ∈ post, ¬ Folds name e.1)

/-- A field of text: a string, or empty if it is null or not there. -/
inductive StrIs : Option Json → Bytes → Prop where
  | absent : StrIs none []
  | null : StrIs (some .null) []
  | str (s : Bytes) : StrIs (some (.str s)) s

/-- The names of an option object that are not for the processor itself. -/
def optNames : List Bytes := [lit "id", lit "if", lit "on_failure"]

/-- The processor's own options: all other entries, by exact name. -/
def ownOptions (env : JEnv) (es : List (Bytes × Json)) : JCfg :=
  let rest := es.filter fun e => e.1 ∉ optNames
  if rest.isEmpty then none else some (AMap.ofEntries (jsonValE env rest) [])

mutual
/-- The options of a processor that a document stands for. -/
inductive IsOpt (env : JEnv) : Json → OptCfg JCfg → Prop where
  | null : IsOpt env .null (.mk [] [] [] none)
  | obj (es : List (Bytes × Json)) (i c f : Option Json) (id cond : Bytes) (onF : List (ProcCfg JCfg)) (hi : FieldIs es (lit "id") i) (hc : FieldIs es (lit "if") c) (hf : FieldIs es (lit "on_failure") f)
      (h1 : StrIs i id) (h2 : StrIs c cond) (h3 : IsSlice env f onF) (hr : InRangeE env es) : IsOpt env (.obj es) (.mk id cond onF (ownOptions env es))
/-- A list of processors. -/
inductive IsSlice (env : JEnv) : Option Json → List (ProcCfg JCfg) → Prop where
  | absent : IsSlice env none []
  | null : IsSlice env (some .null) []
  | arr (js : List Json) (cs : List (ProcCfg JCfg)) (h : IsConfs env js cs) : IsSlice env (some (.arr js)) cs
inductive IsConfs (env : JEnv) : List Json → List (ProcCfg JCfg) → Prop where
  | nil : IsConfs env [] []
  | cons (j : Json) (c : ProcCfg JCfg) (js : List Json) (cs : List (ProcCfg JCfg)) (h1 : IsConf env j c) (h2 : IsConfs env js cs) : IsConfs env (j :: js) (c :: cs)
/-- A processor: a map from names to options. If a name occurs more than once then the last one counts. -/
inductive IsConf (env : JEnv) : Json → ProcCfg JCfg → Prop where
  | null : IsConf env .null []
  | obj (es : List (Bytes × Json)) (os : List (Bytes × Option (OptCfg JCfg))) (h : IsEntries env es os) : IsConf env (.obj es) (AMap.ofEntries os [])
inductive IsEntries (env : JEnv) : List (Bytes × Json) → List (Bytes × Option (OptCfg JCfg)) → Prop where
  | nil : IsEntries env [] []
  | cons (k : Bytes) (j : Json) (o : Option (OptCfg JCfg)) (es : List (Bytes × Json)) (os : List (Bytes × Option (OptCfg JCfg))) (h1 : IsPOpt env j o) (h2 : IsEntries env es os) :
      IsEntries env ((k, j) :: es) ((k, o) :: os)
/-- Options that may be missing. -/
inductive IsPOpt (env : JEnv) : Json → Option (OptCfg JCfg) → Prop where
  | null : IsPOpt env .null none
  | obj (es : List (Bytes × Json)) (o : OptCfg JCfg) (h : IsOpt env (.obj es) o) : IsPOpt env (.obj es) (some o)
end

/-- The configuration that a document stands for. Unknown names are ignored. -/
def IsConfig (env : JEnv) (j : Json) (c : JConfig) : Prop :=
  ∃ es i d p f, j = .obj es ∧ FieldIs es (lit "id") i ∧ FieldIs es (lit "description") d ∧ FieldIs es (lit "processors") p ∧ FieldIs es (lit "on_failure") f ∧
    StrIs i c.config.id ∧ StrIs d c.description ∧ IsSlice env p c.config.processors ∧ IsSlice env f c.config.onFailure

/-- No two entries stand for the same one of these fields. -/
def FieldsOnce (names : List Bytes) (es : List (Bytes × Json)) : Prop := ∀ n ∈ names, ∃ j, FieldIs es n j

mutual
/-- In no option object do two entries stand for the same field. -/
def RegOpt : Json → Prop
  | .obj es => FieldsOnce optNames es ∧ RegFields [lit "on_failure"] es
  | _ => True
/-- The entries for lists of processors. -/
def RegFields (names : List Bytes) : List (Bytes × Json) → Prop
  | [] => True
  | (k, j) :: es => ((∃ n ∈ names, Folds n k) → RegSlice j) ∧ RegFields names es
def RegSlice : Json → Prop
  | .arr js => RegConfs js
  | _ => True
def RegConfs : List Json → Prop
  | [] => True
  | j :: js => RegConf j ∧ RegConfs js
def RegConf : Json → Prop
  | .obj es => RegEntries es
  | _ => True
def RegEntries : List (Bytes × Json) → Prop
  | [] => True
  | (_, j) :: es => RegOpt j ∧ RegEntries es
end

/-- The same for a configuration. -/
def RegConfig : Json → Prop
  | .obj es => FieldsOnce [lit "id", lit "description", lit "processors", lit "on_failure"] es ∧ RegFields [lit "processors", lit "on_failure"] es
  | _ => True

/-! ## There and back -/

/-- Own options that JSON can represent: not an empty map, only values that JSON has, valid text, and no name that stands for `id`, `if` or `on_failure`. -/
def PlainOptions : JCfg → Prop
  | none => True
  | some m => m ≠ [] ∧ AMap.Sorted m ∧ Val.CanonE m ∧ Val.JsonOnlyE m ∧ Val.ValidTextE m ∧ ∀ e ∈ m, ∀ n ∈ optNames, ¬ Folds n e.1

mutual
def OptCfg.Plain : OptCfg JCfg → Prop
  | .mk id cond onF config => ValidUtf8 id ∧ ValidUtf8 cond ∧ PlainConfs onF ∧ PlainOptions config
def PlainConfs : List (ProcCfg JCfg) → Prop
  | [] => True
  | c :: cs => (AMap.Sorted c ∧ PlainEntries c) ∧ PlainConfs cs
def PlainEntries : List (Bytes × Option (OptCfg JCfg)) → Prop
  | [] => True
  | (k, o) :: es => (ValidUtf8 k ∧ PlainPOpt o) ∧ PlainEntries es
def PlainPOpt : Option (OptCfg JCfg) → Prop
  | none => True
  | some o => o.Plain
end

/-- The same for a configuration. -/
def JConfig.Plain (c : JConfig) : Prop := ValidUtf8 c.config.id ∧ ValidUtf8 c.description ∧ PlainConfs c.config.processors ∧ PlainConfs c.config.onFailure

end Sawmill
