import Verif.Spec.Json
/-!
# When two values are the same JSON: the words of C107
-/

namespace Sawmill
open Rfc

/-- The same string, except for which bytes its invalid bytes are: where one has a character the other has the same one, and where one has a byte that is not part of valid UTF-8 the other has some such byte. -/
inductive Twin : Bytes → Bytes → Prop where
  | nil : Twin [] []
  | char (c : Char) (t s : Bytes) (h : Twin t s) : Twin (utf8 c ++ t) (utf8 c ++ s)
  | invalid (b b' : UInt8) (t s : Bytes) (hb : ∀ c r, b :: t ≠ utf8 c ++ r) (hb' : ∀ c r, b' :: s ≠ utf8 c ++ r) (h : Twin t s) : Twin (b :: t) (b' :: s)

/-- Nil pointers, nulls, nil slices and nil maps. -/
inductive Val.Nullish : Val → Prop where
  | nilp : Val.Nullish .nilp
  | null : Val.Nullish (.scalar .null)
  | arrNil : Val.Nullish .arrNil
  | objNil : Val.Nullish .objNil

/-- The value is the integer `i`, signed or unsigned, or a float that is written without point and exponent as `i`. -/
inductive Val.Numeral (env : JEnv) : Val → Int → Prop where
  | int (i : BitVec 64) : Val.Numeral env (.scalar (.int i)) i.toInt
  | uint (u : BitVec 64) : Val.Numeral env (.scalar (.uint u)) u.toNat
  | float (f : BitVec 64) (i : Int) (h : IntLit (env.ftoa f) i) : Val.Numeral env (.scalar (.float f)) i

/-- `s` is the text of the timestamp (C56 says which text that is). -/
def StampText (t : BitVec 64) (s : Bytes) : Prop := timeMarshalJSON t.toInt = [34] ++ s ++ [34]

mutual
/-- The two values cannot be told apart by their JSON. -/
inductive SameJson (env : JEnv) : Val → Val → Prop where
  | null {v w : Val} : v.Nullish → w.Nullish → SameJson env v w
  | bool (b : Bool) : SameJson env (.scalar (.bool b)) (.scalar (.bool b))
  | number {v w : Val} {i : Int} : v.Numeral env i → w.Numeral env i → SameJson env v w
  | float (f : BitVec 64) : SameJson env (.scalar (.float f)) (.scalar (.float f))
  | str {s s' : Bytes} : Twin s s' → SameJson env (.scalar (.str s)) (.scalar (.str s'))
  | ts (t : BitVec 64) : SameJson env (.scalar (.ts t)) (.scalar (.ts t))
  | tsStr {t : BitVec 64} {s : Bytes} : StampText t s → SameJson env (.scalar (.ts t)) (.scalar (.str s))
  | strTs {t : BitVec 64} {s : Bytes} : StampText t s → SameJson env (.scalar (.str s)) (.scalar (.ts t))
  | arr {vs ws : List Val} : SameJsonL env vs ws → SameJson env (.arr vs) (.arr ws)
  | obj {es fs : List (Bytes × Val)} : SameJsonE env es fs → SameJson env (.obj es) (.obj fs)
/-- Items: as many, one by one. -/
inductive SameJsonL (env : JEnv) : List Val → List Val → Prop where
  | nil : SameJsonL env [] []
  | cons {v w : Val} {vs ws : List Val} : SameJson env v w → SameJsonL env vs ws → SameJsonL env (v :: vs) (w :: ws)
/-- Fields, in the order of their names: as many, one by one. -/
inductive SameJsonE (env : JEnv) : List (Bytes × Val) → List (Bytes × Val) → Prop where
  | nil : SameJsonE env [] []
  | cons {k k' : Bytes} {v w : Val} {es fs : List (Bytes × Val)} : Twin k k' → SameJson env v w → SameJsonE env es fs → SameJsonE env ((k, v) :: es) ((k', w) :: fs)
end

end Sawmill
