import Verif.Model.ConfigString
import Verif.Spec.Json
import Verif.Spec.Gen
/-!
# What the text of a processor says
-/

namespace Sawmill
open Rfc

/-- The text of a string, up to the repair of invalid UTF-8. -/
def ShowsStr (s : Bytes) (j : Json) : Prop := ∃ s', j = .str s' ∧ Repaired s s'

/-- What the array and the object of a value hold (either may be nil). -/
structure Parts (h : Heap) (c : Cell) (arr : Option (List Val)) (obj : Option (List (Bytes × Val))) : Prop where
  arr : (c.array = none ∧ arr = none) ∨ ∃ ps vs, c.array = some ps ∧ arr = some vs ∧ ReadsL h ps vs
  obj : (c.object = none ∧ obj = none) ∨ ∃ m ps es, c.object = some m ∧ h[m]? = some (.map ps) ∧ obj = some es ∧ ReadsE h ps es

/-- They are finite trees without NaN and infinities, and not nested too deeply for encoding/json. -/
def PartsFine (arr : Option (List Val)) (obj : Option (List (Bytes × Val))) : Prop :=
  (∀ vs, arr = some vs → Val.FiniteFloatsL vs ∧ Val.nestL vs ≤ 10000) ∧ (∀ es, obj = some es → Val.FiniteFloatsE es ∧ Val.nestE es ≤ 10000)

def arrayVal : Option (List Val) → Val
  | none => .arrNil
  | some vs => .arr vs
def objectVal : Option (List (Bytes × Val)) → Val
  | none => .objNil
  | some es => .obj es

/-- A document that shows every field of a value, whatever its type. -/
def ShowsValue (env : JEnv) (c : Cell) (arr : Option (List Val)) (obj : Option (List (Bytes × Val))) (j : Json) : Prop :=
  ∃ ti tu ts tt ss ja jo, j = .obj [(lit "Integer", .num ti), (lit "UnsignedInteger", .num tu), (lit "Float", .num (env.ftoa c.float)), (lit "Timestamp", .str ts), (lit "String", ss), (lit "Array", ja), (lit "Object", jo), (lit "Bool", .bool c.bool), (lit "Type", .num tt)] ∧
    IntLit ti c.integer.toInt ∧ IntLit tu c.unsigned.toNat ∧ Cal.parseRFC3339 ts = some c.timestamp.toInt ∧ ShowsStr c.string ss ∧ Says env (arrayVal arr) ja ∧
    Says env (objectVal obj) jo ∧ IntLit tt (typeNum c.type)

/-- A document that shows an option. -/
def ShowsField (env : JEnv) (h : Heap) : StructField → Json → Prop
  | .str s, j => ShowsStr s j
  | .bool b, j => j = .bool b
  | .int16 i, j => ∃ t, j = .num t ∧ IntLit t i.toInt
  | .strs none, j => j = .null
  | .strs (some l), j => ∃ js, j = .arr js ∧ Gen.Rel2 ShowsStr l js
  | .value c, j => ∃ arr obj, Parts h c arr obj ∧ ShowsValue env c arr obj j

/-- What a processor is called. -/
def PConfig.Called : PConfig → Bytes → Prop
  | .append .., s => s = lit "append"
  | .communityId .., s => s = lit "community_id"
  | .lowercase .., s => s = lit "lowercase"
  | .remove .., s => s = lit "remove"
  | .set .., s => s = lit "set"
  | .uppercase .., s => s = lit "uppercase"

/-- The options of each processor. -/
def PConfig.options : PConfig → List (Bytes × StructField)
  | .append allowDuplicates field ignoreMissing value =>
    [(lit "AllowDuplicates", .bool allowDuplicates), (lit "Field", .str field), (lit "IgnoreMissing", .bool ignoreMissing), (lit "Value", .str value)]
  | .communityId destinationIP destinationPort ianaNumber icmpCode icmpType ignoreFailure seed sourceIP sourcePort targetField transport =>
    [(lit "DestinationIP", .str destinationIP), (lit "DestinationPort", .str destinationPort), (lit "IANANumber", .str ianaNumber), (lit "ICMPCode", .str icmpCode), (lit "ICMPType", .str icmpType),
      (lit "IgnoreFailure", .bool ignoreFailure), (lit "Seed", .int16 seed), (lit "SourceIP", .str sourceIP), (lit "SourcePort", .str sourcePort), (lit "TargetField", .str targetField), (lit "Transport", .str transport)]
  | .lowercase field ignoreMissing targetField => [(lit "Field", .str field), (lit "IgnoreMissing", .bool ignoreMissing), (lit "TargetField", .str targetField)]
  | .remove fields ignoreMissing => [(lit "Fields", .strs fields), (lit "IgnoreMissing", .bool ignoreMissing)]
  | .set copyFrom ignoreFailure ignoreMissing targetField value =>
    [(lit "CopyFrom", .str copyFrom), (lit "IgnoreFailure", .bool ignoreFailure), (lit "IgnoreMissing", .bool ignoreMissing), (lit "TargetField", .str targetField), (lit "Value", .value value)]
  | .uppercase field ignoreMissing targetField => [(lit "Field", .str field), (lit "IgnoreMissing", .bool ignoreMissing), (lit "TargetField", .str targetField)]

/-- The members are the options under their names, in the order of the declarations. -/
def ShowsConfig (env : JEnv) (h : Heap) (p : PConfig) (js : List (Bytes × Json)) : Prop := Gen.Rel2 (fun f j => j.1 = f.1 ∧ ShowsField env h f.2 j.2) p.options js

/-- The configured value, if the processor has one, is a finite tree. -/
def PConfig.Finite (h : Heap) : PConfig → Prop
  | .set _ _ _ _ c => ∃ arr obj, Parts h c arr obj
  | _ => True

/-- encoding/json has no reason to refuse it. -/
def PConfig.Encodable (h : Heap) : PConfig → Prop
  | .set _ _ _ _ c => finite c.float = true ∧ ∀ arr obj, Parts h c arr obj → PartsFine arr obj
  | _ => True

/-- All texts among the options are valid UTF-8. -/
def PConfig.Utf8 : PConfig → Prop
  | .append _ f _ v => ValidUtf8 f ∧ ValidUtf8 v
  | .communityId a b c d e _ _ f g h i => ∀ s ∈ [a, b, c, d, e, f, g, h, i], ValidUtf8 s
  | .lowercase f _ t => ValidUtf8 f ∧ ValidUtf8 t
  | .remove fs _ => ∀ l, fs = some l → ∀ s ∈ l, ValidUtf8 s
  | .set c _ _ t v => ValidUtf8 c ∧ ValidUtf8 t ∧ ValidUtf8 v.string
  | .uppercase f _ t => ValidUtf8 f ∧ ValidUtf8 t

/-- The options without what is inside a configured array or object. -/
def PConfig.leaves : PConfig → PConfig
  | .set c f m t v => .set c f m t { v with array := none, object := none }
  | p => p

end Sawmill
