import Verif.Spec.GoJson
import Verif.Model.Reflect
/-!
# When two events are the same Go map: the words of C111
-/

namespace Sawmill

/-- A float64 that is not a number: all bits of the exponent are set, and not all bits of the fraction are zero. -/
def IsNaN (f : BitVec 64) : Prop := f.toNat / 2 ^ 52 % 2 ^ 11 = 2047 ∧ f.toNat % 2 ^ 52 ≠ 0

/-- A zero, positive or negative: all bits but the sign are zero. -/
def IsZero (f : BitVec 64) : Prop := f.toNat % 2 ^ 63 = 0

/-- Go's `==` on float64. -/
def FloatEqual (f g : BitVec 64) : Prop := ¬ IsNaN f ∧ ¬ IsNaN g ∧ (f = g ∨ IsZero f ∧ IsZero g)

mutual
/-- `reflect.DeepEqual` of two values of the types that `FromEvent` makes (its documentation in the Go library): the types are the same, and numbers, strings and bools are equal, times are the same instant in the
same zone (the fields of the struct), slices (none of them nil, no two sharing memory) have the same length and deeply equal elements, and maps (likewise) have as many entries, and every key of one is in the
other with a deeply equal value. Methods play no part. -/
def DeepEqual : GIface → GIface → Prop
  | .nil, .nil => True
  | .val v, .val w => DeepEqualV v w
  | _, _ => False
def DeepEqualV : GVal → GVal → Prop
  | .mk _ _ (.bool b), .mk _ _ (.bool c) => b = c
  | .mk _ _ (.int k i), .mk _ _ (.int l j) => k = l ∧ i = j
  | .mk _ _ (.uint k i), .mk _ _ (.uint l j) => k = l ∧ i = j
  | .mk _ _ (.float64 f), .mk _ _ (.float64 g) => FloatEqual f g
  | .mk _ _ (.string s), .mk _ _ (.string t) => s = t
  | .mk _ _ (.time z t), .mk _ _ (.time y u) => z = y ∧ t = u
  | .mk _ _ (.list _ xs), .mk _ _ (.list _ ys) => DeepEqualL xs ys
  | .mk _ _ (.map es), .mk _ _ (.map fs) => es.length = fs.length ∧ DeepEqualE es fs
  | _, _ => False
def DeepEqualL : List GIface → List GIface → Prop
  | [], [] => True
  | x :: xs, y :: ys => DeepEqual x y ∧ DeepEqualL xs ys
  | _, _ => False
def DeepEqualE : List (Bytes × GIface) → List (Bytes × GIface) → Prop
  | [], _ => True
  | (k, x) :: es, fs => (∃ y, (k, y) ∈ fs ∧ DeepEqual x y) ∧ DeepEqualE es fs
end

/-- `reflect.DeepEqual` of two maps, either of which may be nil (`none`). -/
def DeepEqualMaps : Option (List (Bytes × GIface)) → Option (List (Bytes × GIface)) → Prop
  | none, none => True
  | some es, some fs => es.length = fs.length ∧ DeepEqualE es fs
  | _, _ => False

mutual
/-- What of a value shows in a Go map: nil pointers are like nulls, nil slices and nil maps like empty ones, and a negative zero is like a positive one. -/
def Val.shown : Val → Val
  | .nilp => .scalar .null
  | .scalar (.float f) => .scalar (.float (if f.toNat % 2 ^ 63 = 0 then 0 else f))
  | .scalar s => .scalar s
  | .arrNil => .arr []
  | .objNil => .obj []
  | .arr vs => .arr (Val.shownL vs)
  | .obj es => .obj (Val.shownE es)
def Val.shownL : List Val → List Val
  | [] => []
  | v :: vs => v.shown :: Val.shownL vs
def Val.shownE : List (Bytes × Val) → List (Bytes × Val)
  | [] => []
  | (k, v) :: es => (k, v.shown) :: Val.shownE es
end

mutual
/-- No float in the value, at any depth, is NaN. -/
def Val.NoNaN : Val → Prop
  | .scalar (.float f) => ¬ IsNaN f
  | .arr vs => Val.NoNaNL vs
  | .obj es => Val.NoNaNE es
  | _ => True
def Val.NoNaNL : List Val → Prop
  | [] => True
  | v :: vs => v.NoNaN ∧ Val.NoNaNL vs
def Val.NoNaNE : List (Bytes × Val) → Prop
  | [] => True
  | (_, v) :: es => v.NoNaN ∧ Val.NoNaNE es
end

end Sawmill
