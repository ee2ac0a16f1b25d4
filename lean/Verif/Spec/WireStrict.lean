import Verif.Spec.WireText
/-!
# Messages whose map entries keep to their ends

The grammar of Spec/WireText without the two liberties named there: an entry of a map is read from its own bytes alone, and its key and its value have wire type 2.
-/

namespace Sawmill.Wire.Text

mutual
/-- `message Value`: a oneof, of which the last one counts; `k` is the kind and `u` are the unknown fields so far. -/
inductive StrictValue : PKind → Bytes → Bytes → PKind → Bytes → Prop where
  | done {k : PKind} {u : Bytes} : StrictValue k u [] k u
  | null {k k' : PKind} {u u' t v rest : Bytes} : Key 1 0 t → Varint v →
      StrictValue (.null (.ofNat 32 (groups v))) u rest k' u' → StrictValue k u (t ++ v ++ rest) k' u'
  | array {k k' : PKind} {u u' t b c rest ua : Bytes} {items : List PValue} : Key 2 2 t → Counted c b → StrictArray [] [] c items ua →
      StrictValue (.array (.mk items ua)) u rest k' u' → StrictValue k u (t ++ b ++ rest) k' u'
  | boolean {k k' : PKind} {u u' t v rest : Bytes} {n : Nat} : Key 3 0 t → Number n v →
      StrictValue (.boolean (n != 0)) u rest k' u' → StrictValue k u (t ++ v ++ rest) k' u'
  | float {k k' : PKind} {u u' t c rest : Bytes} : Key 4 1 t → c.length = 8 →
      StrictValue (.float (.ofNat 64 (fixed64 c))) u rest k' u' → StrictValue k u (t ++ c ++ rest) k' u'
  | integer {k k' : PKind} {u u' t v rest : Bytes} {n : Nat} : Key 5 0 t → Number n v →
      StrictValue (.integer (.ofNat 64 n)) u rest k' u' → StrictValue k u (t ++ v ++ rest) k' u'
  | object {k k' : PKind} {u u' t b c rest uo : Bytes} {fs : List (Bytes × PValue)} : Key 6 2 t → Counted c b → StrictObject [] [] c fs uo →
      StrictValue (.object (.mk fs uo)) u rest k' u' → StrictValue k u (t ++ b ++ rest) k' u'
  | string {k k' : PKind} {u u' t b c rest : Bytes} : Key 7 2 t → Counted c b →
      StrictValue (.string (some c)) u rest k' u' → StrictValue k u (t ++ b ++ rest) k' u'
  | timestamp {k k' : PKind} {u u' t v rest : Bytes} {n : Nat} : Key 8 0 t → Number n v →
      StrictValue (.timestamp (.ofNat 64 n)) u rest k' u' → StrictValue k u (t ++ v ++ rest) k' u'
  | unsigned {k k' : PKind} {u u' t v rest : Bytes} {n : Nat} : Key 9 0 t → Number n v →
      StrictValue (.unsigned (.ofNat 64 n)) u rest k' u' → StrictValue k u (t ++ v ++ rest) k' u'
  | unknown {k k' : PKind} {u u' f rest : Bytes} {num : Nat} : Extent num f → Legal num → 9 < num →
      StrictValue k (u ++ f) rest k' u' → StrictValue k u (f ++ rest) k' u'
/-- `message ValueArray { repeated Value items = 1; }` -/
inductive StrictArray : List PValue → Bytes → Bytes → List PValue → Bytes → Prop where
  | done {vs : List PValue} {u : Bytes} : StrictArray vs u [] vs u
  | item {vs vs' : List PValue} {u u' t b c rest uv : Bytes} {k : PKind} : Key 1 2 t → Counted c b → StrictValue .unset [] c k uv →
      StrictArray (vs ++ [.mk k uv]) u rest vs' u' → StrictArray vs u (t ++ b ++ rest) vs' u'
  | unknown {vs vs' : List PValue} {u u' f rest : Bytes} {num : Nat} : Extent num f → Legal num → 1 < num →
      StrictArray vs (u ++ f) rest vs' u' → StrictArray vs u (f ++ rest) vs' u'
/-- `message ValueObject { map<string, Value> fields = 1; }`: a later entry replaces an earlier one with the same key. -/
inductive StrictObject : List (Bytes × PValue) → Bytes → Bytes → List (Bytes × PValue) → Bytes → Prop where
  | done {fs : List (Bytes × PValue)} {u : Bytes} : StrictObject fs u [] fs u
  | entry {fs fs' : List (Bytes × PValue)} {u u' t b e rest k : Bytes} {v : PValue} : Key 1 2 t → Counted e b → StrictEntry [] .nil e k v →
      StrictObject (put fs k v) u rest fs' u' → StrictObject fs u (t ++ b ++ rest) fs' u'
  | unknown {fs fs' : List (Bytes × PValue)} {u u' f rest : Bytes} {num : Nat} : Extent num f → Legal num → 1 < num →
      StrictObject fs (u ++ f) rest fs' u' → StrictObject fs u (f ++ rest) fs' u'
/-- An entry of a map: nothing but what is inside the entry. A missing key is empty, a missing value is nil, and unknown fields are lost. -/
inductive StrictEntry : Bytes → PValue → Bytes → Bytes → PValue → Prop where
  | done {k : Bytes} {v : PValue} : StrictEntry k v [] k v
  | key {k k' t b c rest : Bytes} {v v' : PValue} : Key 1 2 t → Counted c b → StrictEntry c v rest k' v' → StrictEntry k v (t ++ b ++ rest) k' v'
  | value {k k' t b c rest uv : Bytes} {v v' : PValue} {kind : PKind} : Key 2 2 t → Counted c b → StrictValue .unset [] c kind uv →
      StrictEntry k (.mk kind uv) rest k' v' → StrictEntry k v (t ++ b ++ rest) k' v'
  | unknown {num : Nat} {k k' f rest : Bytes} {v v' : PValue} : Extent num f → num ≠ 1 → num ≠ 2 → StrictEntry k v rest k' v' → StrictEntry k v (f ++ rest) k' v'
end

/-- `message Log { ValueObject object = 1; }`: an object that comes again is merged into the first. -/
inductive StrictLog : PObject → Bytes → Bytes → PObject → Bytes → Prop where
  | done {o : PObject} {u : Bytes} : StrictLog o u [] o u
  | first {o' : PObject} {u u' t b c rest uo : Bytes} {fs : List (Bytes × PValue)} : Key 1 2 t → Counted c b → StrictObject [] [] c fs uo →
      StrictLog (.mk fs uo) u rest o' u' → StrictLog .nil u (t ++ b ++ rest) o' u'
  | again {o' : PObject} {u u' t b c rest ua uo : Bytes} {fs fs' : List (Bytes × PValue)} : Key 1 2 t → Counted c b → StrictObject fs ua c fs' uo →
      StrictLog (.mk fs' uo) u rest o' u' → StrictLog (.mk fs ua) u (t ++ b ++ rest) o' u'
  | unknown {o o' : PObject} {u u' f rest : Bytes} {num : Nat} : Extent num f → Legal num → 1 < num →
      StrictLog o (u ++ f) rest o' u' → StrictLog o u (f ++ rest) o' u'

/-- `message MessageWrapper { oneof message { Log log = 1; } }`: a log that comes again replaces the first. -/
inductive StrictWrapper : PWrapper → Bytes → PWrapper → Prop where
  | done {m : PWrapper} : StrictWrapper m [] m
  | log {m m' : PWrapper} {t b c rest ul : Bytes} {o : PObject} : Key 1 2 t → Counted c b → StrictLog .nil [] c o ul →
      StrictWrapper ⟨some (.mk o ul), m.unrec⟩ rest m' → StrictWrapper m (t ++ b ++ rest) m'
  | unknown {m m' : PWrapper} {f rest : Bytes} {num : Nat} : Extent num f → Legal num → 1 < num →
      StrictWrapper ⟨m.message, m.unrec ++ f⟩ rest m' → StrictWrapper m (f ++ rest) m'

/-- The bytes are the message, and all map entries keep to their ends. -/
def StrictMessage (d : Bytes) (m : PWrapper) : Prop := StrictWrapper ⟨none, []⟩ d m

end Sawmill.Wire.Text
