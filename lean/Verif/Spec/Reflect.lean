import Verif.Model.Reflect
import Verif.Spec.Convert
/-!
# What event value a Go value stands for, and which Go values cannot be converted
-/

namespace Sawmill

/-! ## The parts of a Go value that are converted -/

/-- A place in the data: a value of interface type (an element of a slice or map), or a variable (the target of a pointer, a struct field, or the value behind an interface). -/
inductive GPlace where
  | iface (x : GIface)
  | slot (s : GSlot)

/-- Types that are named in the documentation as they are: the value behind the interface is used directly. -/
def GData.basic : GData → Bool
  | .bool _ | .int _ _ | .uint _ _ | .uintptr _ _ | .float32 _ | .float64 _ | .string _ | .time _ _ | .map _ => true
  | _ => false

/-- The field is part of the data: exported, not excluded by its tag, and not an omitted zero. -/
def GField.kept : GField → Bool
  | .mk _ exported tag zero _ => exported && tag ≠ [45] && !((parseTag tag).2.contains (lit "omitempty") && zero)

def GField.slot : GField → GSlot
  | .mk _ _ _ _ s => s

/-- The direct parts of a place. A value with an `Error` method has no parts: it stands for its error text. -/
inductive Part : GPlace → GPlace → Prop where
  | value (exact : Bool) (m : Methods) (d : GData) (h : (exact && d.basic) = false) : Part (.iface (.val (.mk exact m d))) (.slot (.val (.mk exact m d)))
  | entry (m : Methods) (es : List (Bytes × GIface)) (k : Bytes) (x : GIface) (h : (k, x) ∈ es) : Part (.iface (.val (.mk true m (.map es)))) (.iface x)
  | target (exact : Bool) (str : Option (Res Bytes)) (s : GSlot) : Part (.slot (.val (.mk exact ⟨none, str⟩ (.ptr (.to s))))) (.slot s)
  | item (exact std : Bool) (str : Option (Res Bytes)) (xs : List GIface) (x : GIface) (h : x ∈ xs) : Part (.slot (.val (.mk exact ⟨none, str⟩ (.list std xs)))) (.iface x)
  | mapEntry (exact : Bool) (str : Option (Res Bytes)) (es : List (Bytes × GIface)) (k : Bytes) (x : GIface) (h : (k, x) ∈ es) :
    Part (.slot (.val (.mk exact ⟨none, str⟩ (.map es)))) (.iface x)
  | field (exact : Bool) (str : Option (Res Bytes)) (fs : List GField) (f : GField) (h : f ∈ fs) (hk : f.kept = true) : Part (.slot (.val (.mk exact ⟨none, str⟩ (.struct fs)))) (.slot f.slot)

/-- A place inside another one, at any depth. -/
inductive Inside : GPlace → GPlace → Prop where
  | here (n : GPlace) : Inside n n
  | part {a b c : GPlace} (h : Part a b) (hs : Inside b c) : Inside a c

/-- Places whose type is not supported: a variable holding a channel, function, complex number or unsafe pointer or a uintptr (unless the type has an `Error` method), or a variable of an interface type
without `Error`. -/
inductive Unsupported : GPlace → Prop where
  | other (exact : Bool) (str : Option (Res Bytes)) (type : Bytes) : Unsupported (.slot (.val (.mk exact ⟨none, str⟩ (.other type))))
  | uintptr (exact : Bool) (str : Option (Res Bytes)) (type : Bytes) (u : BitVec 64) : Unsupported (.slot (.val (.mk exact ⟨none, str⟩ (.uintptr type u))))
  | iface (type : Bytes) (x : GIface) : Unsupported (.slot (.iface type false x))

/-- Places where the conversion panics: a nil error (in a variable of an interface type with `Error`), an `Error` method that panics, or a field with the option `string` whose `String` method panics. -/
inductive Panicky : GPlace → Prop where
  | nilError (type : Bytes) : Panicky (.slot (.iface type true .nil))
  | error (exact : Bool) (str : Option (Res Bytes)) (d : GData) : Panicky (.slot (.val (.mk exact ⟨some .panic, str⟩ d)))
  | ifaceError (type : Bytes) (exact : Bool) (str : Option (Res Bytes)) (d : GData) : Panicky (.slot (.iface type true (.val (.mk exact ⟨some .panic, str⟩ d))))
  /-- no Go value: one of an interface type with `Error` has an `Error` method -/
  | ifaceNoError (type : Bytes) (exact : Bool) (str : Option (Res Bytes)) (d : GData) : Panicky (.slot (.iface type true (.val (.mk exact ⟨none, str⟩ d))))
  | string (exact : Bool) (str : Option (Res Bytes)) (fs : List GField) (f : GField) (tag : Bytes) (h : f ∈ fs) (hk : f.kept = true) (ht : ∃ name ex zero s, f = .mk name ex tag zero s)
    (ho : lit "string" ∈ (parseTag tag).2) (hs : f.slot.stringer = some .panic) : Panicky (.slot (.val (.mk exact ⟨none, str⟩ (.struct fs))))

/-- What an error about a place says: `Culprit n ks type`: following the data in order, the first place of an unsupported type has the type `type`, and `ks` are the names on the way to it in values of type `map[string]interface{}`.
Everything that comes before it (in a list, a map or a struct) can be converted. -/
inductive Culprit : GPlace → List Bytes → Bytes → Prop where
  | other (exact : Bool) (str : Option (Res Bytes)) (type : Bytes) : Culprit (.slot (.val (.mk exact ⟨none, str⟩ (.other type)))) [] type
  | uintptr (exact : Bool) (str : Option (Res Bytes)) (type : Bytes) (u : BitVec 64) : Culprit (.slot (.val (.mk exact ⟨none, str⟩ (.uintptr type u)))) [] type
  | iface (type : Bytes) (x : GIface) : Culprit (.slot (.iface type false x)) [] type
  | value {ks type} (exact : Bool) (m : Methods) (d : GData) (h : (exact && d.basic) = false) (hc : Culprit (.slot (.val (.mk exact m d))) ks type) : Culprit (.iface (.val (.mk exact m d))) ks type
  | entry {ks type} (m : Methods) (pre : List (Bytes × GIface)) (k : Bytes) (x : GIface) (post : List (Bytes × GIface)) (hp : ∀ e ∈ pre, ∀ n, Inside (.iface e.2) n → ¬ Unsupported n ∧ ¬ Panicky n)
    (hc : Culprit (.iface x) ks type) : Culprit (.iface (.val (.mk true m (.map (pre ++ (k, x) :: post))))) (k :: ks) type
  | target {ks type} (exact : Bool) (str : Option (Res Bytes)) (s : GSlot) (hc : Culprit (.slot s) ks type) : Culprit (.slot (.val (.mk exact ⟨none, str⟩ (.ptr (.to s))))) ks type
  | item {ks type} (exact std : Bool) (str : Option (Res Bytes)) (pre : List GIface) (x : GIface) (post : List GIface) (hp : ∀ y ∈ pre, ∀ n, Inside (.iface y) n → ¬ Unsupported n ∧ ¬ Panicky n)
    (hc : Culprit (.iface x) ks type) : Culprit (.slot (.val (.mk exact ⟨none, str⟩ (.list std (pre ++ x :: post))))) ks type
  | mapEntry {ks type} (exact : Bool) (str : Option (Res Bytes)) (pre : List (Bytes × GIface)) (k : Bytes) (x : GIface) (post : List (Bytes × GIface))
    (hp : ∀ e ∈ pre, ∀ n, Inside (.iface e.2) n → ¬ Unsupported n ∧ ¬ Panicky n) (hc : Culprit (.iface x) ks type) : Culprit (.slot (.val (.mk exact ⟨none, str⟩ (.map (pre ++ (k, x) :: post))))) ks type
  | field {ks type} (exact : Bool) (str : Option (Res Bytes)) (pre : List GField) (f : GField) (post : List GField)
    (hp : ∀ n, Inside (.slot (.val (.mk exact ⟨none, str⟩ (.struct pre)))) n → ¬ Unsupported n ∧ ¬ Panicky n) (hk : f.kept = true) (hc : Culprit (.slot f.slot) ks type) :
    Culprit (.slot (.val (.mk exact ⟨none, str⟩ (.struct (pre ++ f :: post))))) ks type

/-! ## The value -/

/-- The value of a text-returning method, as an event value. -/
def textVal : Res Bytes → Val
  | .ok s => .scalar (.str s)
  | .panic => .nilp

mutual
/-- The event value that a Go value stands for (`nilp` at places that cannot be converted). -/
def valI (env : REnv) : GIface → Val
  | .nil => .scalar .null
  | .val v => valV env true v
/-- `via`: the value is behind an interface, not in a variable. -/
def valV (env : REnv) (via : Bool) : GVal → Val
  | .mk exact m d => if (via && exact && d.basic) = false ∧ m.error.isSome = true then textVal (m.error.getD .panic) else valD env (via && exact) d
/-- `direct`: the type is one of those named in the documentation. Then names in a map are escaped. -/
def valD (env : REnv) (direct : Bool) : GData → Val
  | .bool b => .scalar (.bool b)
  | .int _ i => .scalar (.int i)
  | .uint _ u => .scalar (.uint u)
  | .uintptr _ u => if direct then .scalar (.uint u) else .nilp
  | .float32 f => .scalar (.float (env.widen f))
  | .float64 f => .scalar (.float f)
  | .string s => .scalar (.str s)
  | .time _ t => .scalar (.ts (BitVec.ofInt 64 t.unixNano))
  | .ptr .nil => .scalar .null
  | .ptr (.to s) => valS env s
  | .list _ xs => .arr (valL env xs)
  | .map es => .obj (AMap.ofEntries (valE env direct es) [])
  | .struct fs => .obj (AMap.ofEntries (valF env fs) [])
  | .other _ => .nilp
def valS (env : REnv) : GSlot → Val
  | .val v => valV env false v
  | .iface _ false _ => .nilp
  | .iface _ true .nil => .nilp
  | .iface _ true (.val v) => textVal (v.methods.error.getD .panic)
def valL (env : REnv) : List GIface → List Val
  | [] => []
  | x :: xs => valI env x :: valL env xs
def valE (env : REnv) (escape : Bool) : List (Bytes × GIface) → List (Bytes × Val)
  | [] => []
  | (k, x) :: es => (if escape then escapeKey k else k, valI env x) :: valE env escape es
/-- Fields that are not part of the data are left out; the name is that of the tag, or else the lowercased field name; with the option `string` the value is the result of the `String` method, and a value
without that method is left out. -/
def valF (env : REnv) : List GField → List (Bytes × Val)
  | [] => []
  | .mk fname exported tag zero s :: fs =>
    let name := if (parseTag tag).1 = [] then env.lower fname else (parseTag tag).1
    if (GField.mk fname exported tag zero s).kept = false then valF env fs
    else if lit "string" ∈ (parseTag tag).2 then
      match s.stringer with
      | none => valF env fs
      | some r => (name, textVal r) :: valF env fs
    else (name, valS env s) :: valF env fs
end

/-! ## Back to Go values -/

mutual
/-- The Go value for an event value: `nil`, `bool`, `float64`, `int64`, `uint64`, `string`, `time.Time`, `[]interface{}` or `map[string]interface{}`. -/
def goOf (text : GoTime → Bytes) : Val → GIface
  | .nilp => .nil
  | .scalar .null => .nil
  | .scalar (.bool b) => stdVal (.bool b)
  | .scalar (.int i) => stdVal (.int .int64 i)
  | .scalar (.uint u) => stdVal (.uint .uint64 u)
  | .scalar (.float f) => stdVal (.float64 f)
  | .scalar (.str s) => stdVal (.string s)
  | .scalar (.ts t) => .val (stdTime text (timeGoTime t.toInt))
  | .arrNil => .val (.mk false {} (.list true []))
  | .arr vs => .val (.mk false {} (.list true (goOfL text vs)))
  | .objNil => stdVal (.map [])
  | .obj es => stdVal (.map (goOfE text es))
def goOfL (text : GoTime → Bytes) : List Val → List GIface
  | [] => []
  | v :: vs => goOf text v :: goOfL text vs
def goOfE (text : GoTime → Bytes) : List (Bytes × Val) → List (Bytes × GIface)
  | [] => []
  | (k, v) :: es => (k, goOf text v) :: goOfE text es
end

/-! ## Top level fields -/

/-- The contents of the event after putting these fields in this order: a name loses its backslashes, and is lost if nothing is left of it. -/
def putContents (es : List (Bytes × Val)) : Fields :=
  let top := (es.map fun e => (topName e.1, e.2)).filter (·.1 ≠ [])
  if top = [] then none else some (AMap.ofEntries top [])

mutual
/-- The values that `FromEvent` can return, with maps listed in key order and names inside objects without dots. -/
def Std (text : GoTime → Bytes) : GIface → Prop
  | .nil => True
  | .val v => StdV text v
def StdV (text : GoTime → Bytes) : GVal → Prop
  | .mk e m (.time loc t) => e = true ∧ m = { string := some (.ok (text t)) } ∧ loc = 0 ∧ t.nsec < 1000000000 ∧ -2 ^ 63 ≤ t.ext ∧ t.ext < 2 ^ 63 ∧
      -2 ^ 63 ≤ (t.ext - unixToInternal) * 1000000000 + t.nsec ∧ (t.ext - unixToInternal) * 1000000000 + t.nsec < 2 ^ 63
  | .mk e m (.bool _) => e = true ∧ m = {}
  | .mk e m (.int k _) => e = true ∧ m = {} ∧ k = .int64
  | .mk e m (.uint k _) => e = true ∧ m = {} ∧ k = .uint64
  | .mk e m (.float64 _) => e = true ∧ m = {}
  | .mk e m (.string _) => e = true ∧ m = {}
  | .mk e m (.list std xs) => e = false ∧ m = {} ∧ std = true ∧ StdL text xs
  | .mk e m (.map es) => e = true ∧ m = {} ∧ AMap.Sorted es ∧ StdE text es ∧ ∀ x ∈ es, dot ∉ x.1
  | _ => False
def StdL (text : GoTime → Bytes) : List GIface → Prop
  | [] => True
  | x :: xs => Std text x ∧ StdL text xs
def StdE (text : GoTime → Bytes) : List (Bytes × GIface) → Prop
  | [] => True
  | (_, x) :: es => Std text x ∧ StdE text es
end

end Sawmill
