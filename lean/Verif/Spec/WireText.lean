import Verif.Model.WireMsg
/-!
# Which bytes are a message, and which message they are

The grammar of the protobuf wire format, by concatenation of byte strings: no index, no length check and no loop.  A message is read from left to right, field by field; each relation
`XFrom m text m'` says that `text` takes the message read so far, `m`, to `m'`.

Fields may come in any order and any number of times; varints need not be minimal; a field that the message does not have is kept, in order, as unknown.
Two liberties are not in the protobuf documentation, but are this package's behaviour: in a map entry the wire types of the key and of the value do not matter, and their contents may reach beyond the end
of the entry (though not beyond the end of the object), in which case the reading of the object goes on at the end of the entry.
-/

namespace Sawmill.Wire.Text

/-! ## Varints and keys -/

/-- Groups of seven bits, least significant first. -/
def groups : Bytes → Nat
  | [] => 0
  | b :: bs => b.toNat % 128 + 128 * groups bs

/-- A varint: at most ten bytes, of which exactly the last has its top bit clear. -/
def Varint (t : Bytes) : Prop := ∃ init last, t = init ++ [last] ∧ (∀ b ∈ init, 128 ≤ b.toNat) ∧ last.toNat < 128 ∧ t.length ≤ 10

/-- A varint for the number `n`; what does not fit into 64 bits is lost. -/
def Number (n : Nat) (t : Bytes) : Prop := Varint t ∧ n = groups t % 2 ^ 64

/-- The key of a field: its number (of 32 bits) and its wire type. -/
def Key (num wt : Nat) (t : Bytes) : Prop := ∃ n, Number n t ∧ num = n / 8 % 2 ^ 32 ∧ wt = n % 8

/-- The numbers a field may have: the positive numbers of 32 bits with sign. -/
def Legal (num : Nat) : Prop := 0 < num ∧ num < 2 ^ 31

/-- Bytes with their length in front. -/
def Counted (c : Bytes) (t : Bytes) : Prop := ∃ v, Number c.length v ∧ t = v ++ c

/-! ## A field of which only the extent matters -/

mutual
/-- One field. -/
inductive Extent : Nat → Bytes → Prop where
  | varint {num : Nat} {t v : Bytes} : Key num 0 t → Varint v → Extent num (t ++ v)
  | fixed64 {num : Nat} {t c : Bytes} : Key num 1 t → c.length = 8 → Extent num (t ++ c)
  | bytes {num : Nat} {t c b : Bytes} : Key num 2 t → Counted c b → Extent num (t ++ b)
  | group {num : Nat} {t b : Bytes} : Key num 3 t → Members b → Extent num (t ++ b)
  | fixed32 {num : Nat} {t c : Bytes} : Key num 5 t → c.length = 4 → Extent num (t ++ c)
/-- The fields of a group and its end; the number at the end does not matter. -/
inductive Members : Bytes → Prop where
  | close {num : Nat} {t : Bytes} : Key num 4 t → Members t
  | field {num : Nat} {f b : Bytes} : Extent num f → Members b → Members (f ++ b)
end

/-! ## Values, arrays and objects -/

/-- The map with the entry for `k` replaced or added. -/
def put (fs : List (Bytes × PValue)) (k : Bytes) (v : PValue) : List (Bytes × PValue) := (k, v) :: fs.filter fun e => e.1 ≠ k

/-- Eight bytes, the least significant first. -/
def fixed64 : Bytes → Nat
  | [] => 0
  | b :: bs => b.toNat + 256 * fixed64 bs

mutual
/-- `message Value`: a oneof, of which the last one counts; `k` is the kind and `u` are the unknown fields so far. -/
inductive ValueFrom : PKind → Bytes → Bytes → PKind → Bytes → Prop where
  | done {k : PKind} {u : Bytes} : ValueFrom k u [] k u
  | null {k k' : PKind} {u u' t v rest : Bytes} : Key 1 0 t → Varint v →
      ValueFrom (.null (.ofNat 32 (groups v))) u rest k' u' → ValueFrom k u (t ++ v ++ rest) k' u'
  | array {k k' : PKind} {u u' t b c rest ua : Bytes} {items : List PValue} : Key 2 2 t → Counted c b → ArrayFrom [] [] c items ua →
      ValueFrom (.array (.mk items ua)) u rest k' u' → ValueFrom k u (t ++ b ++ rest) k' u'
  | boolean {k k' : PKind} {u u' t v rest : Bytes} {n : Nat} : Key 3 0 t → Number n v →
      ValueFrom (.boolean (n != 0)) u rest k' u' → ValueFrom k u (t ++ v ++ rest) k' u'
  | float {k k' : PKind} {u u' t c rest : Bytes} : Key 4 1 t → c.length = 8 →
      ValueFrom (.float (.ofNat 64 (fixed64 c))) u rest k' u' → ValueFrom k u (t ++ c ++ rest) k' u'
  | integer {k k' : PKind} {u u' t v rest : Bytes} {n : Nat} : Key 5 0 t → Number n v →
      ValueFrom (.integer (.ofNat 64 n)) u rest k' u' → ValueFrom k u (t ++ v ++ rest) k' u'
  | object {k k' : PKind} {u u' t b c rest uo : Bytes} {fs : List (Bytes × PValue)} : Key 6 2 t → Counted c b → ObjectFrom [] [] c fs uo →
      ValueFrom (.object (.mk fs uo)) u rest k' u' → ValueFrom k u (t ++ b ++ rest) k' u'
  | string {k k' : PKind} {u u' t b c rest : Bytes} : Key 7 2 t → Counted c b →
      ValueFrom (.string (some c)) u rest k' u' → ValueFrom k u (t ++ b ++ rest) k' u'
  | timestamp {k k' : PKind} {u u' t v rest : Bytes} {n : Nat} : Key 8 0 t → Number n v →
      ValueFrom (.timestamp (.ofNat 64 n)) u rest k' u' → ValueFrom k u (t ++ v ++ rest) k' u'
  | unsigned {k k' : PKind} {u u' t v rest : Bytes} {n : Nat} : Key 9 0 t → Number n v →
      ValueFrom (.unsigned (.ofNat 64 n)) u rest k' u' → ValueFrom k u (t ++ v ++ rest) k' u'
  | unknown {k k' : PKind} {u u' f rest : Bytes} {num : Nat} : Extent num f → Legal num → 9 < num →
      ValueFrom k (u ++ f) rest k' u' → ValueFrom k u (f ++ rest) k' u'
/-- `message ValueArray { repeated Value items = 1; }` -/
inductive ArrayFrom : List PValue → Bytes → Bytes → List PValue → Bytes → Prop where
  | done {vs : List PValue} {u : Bytes} : ArrayFrom vs u [] vs u
  | item {vs vs' : List PValue} {u u' t b c rest uv : Bytes} {k : PKind} : Key 1 2 t → Counted c b → ValueFrom .unset [] c k uv →
      ArrayFrom (vs ++ [.mk k uv]) u rest vs' u' → ArrayFrom vs u (t ++ b ++ rest) vs' u'
  | unknown {vs vs' : List PValue} {u u' f rest : Bytes} {num : Nat} : Extent num f → Legal num → 1 < num →
      ArrayFrom vs (u ++ f) rest vs' u' → ArrayFrom vs u (f ++ rest) vs' u'
/-- `message ValueObject { map<string, Value> fields = 1; }`: a later entry replaces an earlier one with the same key. -/
inductive ObjectFrom : List (Bytes × PValue) → Bytes → Bytes → List (Bytes × PValue) → Bytes → Prop where
  | done {fs : List (Bytes × PValue)} {u : Bytes} : ObjectFrom fs u [] fs u
  | entry {fs fs' : List (Bytes × PValue)} {u u' t n e rest k : Bytes} {v : PValue} : Key 1 2 t → Number e.length n → EntryFrom e.length [] .nil (e ++ rest) k v →
      ObjectFrom (put fs k v) u rest fs' u' → ObjectFrom fs u (t ++ n ++ e ++ rest) fs' u'
  | unknown {fs fs' : List (Bytes × PValue)} {u u' f rest : Bytes} {num : Nat} : Extent num f → Legal num → 1 < num →
      ObjectFrom fs (u ++ f) rest fs' u' → ObjectFrom fs u (f ++ rest) fs' u'
/-- An entry of a map, of which `left` bytes remain; the text reaches to the end of the object. A missing key is empty, a missing value is nil, and unknown fields are lost. -/
inductive EntryFrom : Nat → Bytes → PValue → Bytes → Bytes → PValue → Prop where
  | done {k s : Bytes} {v : PValue} : EntryFrom 0 k v s k v
  | key {left wt : Nat} {k k' t b c rest : Bytes} {v v' : PValue} : 0 < left → Key 1 wt t → Counted c b →
      EntryFrom (left - (t ++ b).length) c v rest k' v' → EntryFrom left k v (t ++ b ++ rest) k' v'
  | value {left wt : Nat} {k k' t b c rest uv : Bytes} {v v' : PValue} {kind : PKind} : 0 < left → Key 2 wt t → Counted c b → ValueFrom .unset [] c kind uv →
      EntryFrom (left - (t ++ b).length) k (.mk kind uv) rest k' v' → EntryFrom left k v (t ++ b ++ rest) k' v'
  | unknown {left num : Nat} {k k' f rest : Bytes} {v v' : PValue} : 0 < left → Extent num f → num ≠ 1 → num ≠ 2 → f.length ≤ left →
      EntryFrom (left - f.length) k v rest k' v' → EntryFrom left k v (f ++ rest) k' v'
end

/-- `message Log { ValueObject object = 1; }`: an object that comes again is merged into the first. -/
inductive LogFrom : PObject → Bytes → Bytes → PObject → Bytes → Prop where
  | done {o : PObject} {u : Bytes} : LogFrom o u [] o u
  | first {o' : PObject} {u u' t b c rest uo : Bytes} {fs : List (Bytes × PValue)} : Key 1 2 t → Counted c b → ObjectFrom [] [] c fs uo →
      LogFrom (.mk fs uo) u rest o' u' → LogFrom .nil u (t ++ b ++ rest) o' u'
  | again {o' : PObject} {u u' t b c rest ua uo : Bytes} {fs fs' : List (Bytes × PValue)} : Key 1 2 t → Counted c b → ObjectFrom fs ua c fs' uo →
      LogFrom (.mk fs' uo) u rest o' u' → LogFrom (.mk fs ua) u (t ++ b ++ rest) o' u'
  | unknown {o o' : PObject} {u u' f rest : Bytes} {num : Nat} : Extent num f → Legal num → 1 < num →
      LogFrom o (u ++ f) rest o' u' → LogFrom o u (f ++ rest) o' u'

/-- `message MessageWrapper { oneof message { Log log = 1; } }`: a log that comes again replaces the first. -/
inductive WrapperFrom : PWrapper → Bytes → PWrapper → Prop where
  | done {m : PWrapper} : WrapperFrom m [] m
  | log {m m' : PWrapper} {t b c rest ul : Bytes} {o : PObject} : Key 1 2 t → Counted c b → LogFrom .nil [] c o ul →
      WrapperFrom ⟨some (.mk o ul), m.unrec⟩ rest m' → WrapperFrom m (t ++ b ++ rest) m'
  | unknown {m m' : PWrapper} {f rest : Bytes} {num : Nat} : Extent num f → Legal num → 1 < num →
      WrapperFrom ⟨m.message, m.unrec ++ f⟩ rest m' → WrapperFrom m (f ++ rest) m'

/-- The bytes are the message. -/
def Message (d : Bytes) (m : PWrapper) : Prop := WrapperFrom ⟨none, []⟩ d m

end Sawmill.Wire.Text
