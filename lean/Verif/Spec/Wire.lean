import Verif.Model.WireMsg
/-!
# The protobuf wire format, as the protobuf documentation describes it

Written forwards, and independently of the code that writes backwards into a buffer of precomputed size.
-/

namespace Sawmill.Wire

/-- Base-128 varint: seven bits per byte, least significant group first, the top bit set on all bytes but the last. -/
def varint (n : Nat) : Bytes := if n < 128 then [UInt8.ofNat n] else UInt8.ofNat (n % 128 + 128) :: varint (n / 128)
termination_by n

/-- The key of a field: its number and its wire type. -/
def tag (num wireType : Nat) : Bytes := varint (num * 8 + wireType)

/-- A length-delimited field. -/
def lenField (num : Nat) (contents : Bytes) : Bytes := tag num 2 ++ varint contents.length ++ contents

/-- A varint field. -/
def varintField (num n : Nat) : Bytes := tag num 0 ++ varint n

mutual
/-- `message Value { oneof kind { ValueNull null = 1; ValueArray array = 2; bool boolean = 3; double float = 4; int64 integer = 5; ValueObject object = 6; bytes string = 7;
int64 timestamp = 8; uint64 unsigned_integer = 9; } }` followed by the unknown fields. -/
def encValue : PValue → Bytes
  | .nil => []
  | .mk kind unrec => encKind kind ++ unrec
def encKind : PKind → Bytes
  | .unset => []
  | .null v => varintField 1 (v.signExtend 64).toNat
  | .array .nil => []
  | .array (.mk items unrec) => lenField 2 (encItems items ++ unrec)
  | .boolean b => varintField 3 (if b then 1 else 0)
  | .float bits => tag 4 1 ++ le64 bits
  | .integer i => varintField 5 i.toNat
  | .object .nil => []
  | .object (.mk fields unrec) => lenField 6 (encFields fields ++ unrec)
  | .string none => []
  | .string (some s) => lenField 7 s
  | .timestamp t => varintField 8 t.toNat
  | .unsigned u => varintField 9 u.toNat
/-- `message ValueArray { repeated Value items = 1; }` -/
def encItems : List PValue → Bytes
  | [] => []
  | v :: vs => lenField 1 (encValue v) ++ encItems vs
/-- `message ValueObject { map<string, Value> fields = 1; }`: each entry is a message with the key as field 1 and the value as field 2. The entry that `range` yields first comes last. -/
def encFields : List (Bytes × PValue) → Bytes
  | [] => []
  | (k, v) :: es => encFields es ++ lenField 1 (lenField 1 k ++ (if v.isNil then [] else lenField 2 (encValue v)))
end

/-- `message Log { ValueObject object = 1; }` -/
def encLog : PLog → Bytes
  | .nil => []
  | .mk .nil unrec => unrec
  | .mk (.mk fields u) unrec => lenField 1 (encFields fields ++ u) ++ unrec

/-- `message MessageWrapper { oneof message { Log log = 1; } }` -/
def encWrapper : PWrapper → Bytes
  | ⟨none, unrec⟩ => unrec
  | ⟨some .nil, unrec⟩ => unrec
  | ⟨some l, unrec⟩ => lenField 1 (encLog l) ++ unrec

/-! ## Messages without nil array items -/

mutual
/-- No array in the message has a nil pointer among its items (nil map values are harmless). -/
def NoNilValue : PValue → Prop
  | .nil => False
  | .mk kind _ => NoNilKind kind
def NoNilKind : PKind → Prop
  | .array (.mk items _) => NoNilItems items
  | .object (.mk fields _) => NoNilFields fields
  | _ => True
def NoNilItems : List PValue → Prop
  | [] => True
  | v :: vs => NoNilValue v ∧ NoNilItems vs
def NoNilFields : List (Bytes × PValue) → Prop
  | [] => True
  | (_, v) :: es => (v = .nil ∨ NoNilValue v) ∧ NoNilFields es
end

def NoNil (m : PWrapper) : Prop :=
  match m.message with
  | some (.mk (.mk fields _) _) => NoNilFields fields
  | _ => True

/-! ## Well-formed messages -/

mutual
/-- One well-formed field with number `num`, of any wire type, as any protobuf encoder writes it. -/
inductive Field : Nat → Bytes → Prop where
  | varint (num n : Nat) : n < 2 ^ 64 → Field num (varintField num n)
  | fixed64 (num : Nat) (bs : Bytes) : bs.length = 8 → Field num (tag num 1 ++ bs)
  | bytes (num : Nat) (bs : Bytes) : Field num (lenField num bs)
  | group (num : Nat) (bs : Bytes) : Group bs → Field num (tag num 3 ++ bs ++ tag num 4)
  | fixed32 (num : Nat) (bs : Bytes) : bs.length = 4 → Field num (tag num 5 ++ bs)
/-- The contents of a group: fields with legal numbers. -/
inductive Group : Bytes → Prop where
  | nil : Group []
  | cons (num : Nat) (f bs : Bytes) : 0 < num → num < 2 ^ 29 → Field num f → Group bs → Group (f ++ bs)
end

/-- A sequence of well-formed fields whose numbers are legal and do not occur among the message's own fields `1 .. own`. -/
inductive UnknownFields (own : Nat) : Bytes → Prop where
  | nil : UnknownFields own []
  | cons (num : Nat) (f bs : Bytes) : own < num → num < 2 ^ 29 → Field num f → UnknownFields own bs → UnknownFields own (f ++ bs)

mutual
/-- A message that the protobuf encoding can represent: no nil pointers where an element is required (array items, the message in a set oneof) and distinct map keys.
`U own` says which bytes may stand in `XXX_unrecognized` of a message with the fields `1 .. own`. -/
def WfValue (U : Nat → Bytes → Prop) : PValue → Prop
  | .nil => False
  | .mk kind unrec => WfKind U kind ∧ U 9 unrec
def WfKind (U : Nat → Bytes → Prop) : PKind → Prop
  | .array .nil => False
  | .array (.mk items unrec) => WfItems U items ∧ U 1 unrec
  | .object .nil => False
  | .object (.mk fields unrec) => WfFields U fields ∧ U 1 unrec
  | .string none => False
  | _ => True
def WfItems (U : Nat → Bytes → Prop) : List PValue → Prop
  | [] => True
  | v :: vs => WfValue U v ∧ WfItems U vs
/-- A nil pointer as map value is allowed. -/
def WfFields (U : Nat → Bytes → Prop) : List (Bytes × PValue) → Prop
  | [] => True
  | (k, v) :: es => (v = .nil ∨ WfValue U v) ∧ k ∉ es.map Prod.fst ∧ WfFields U es
end

def WfObject (U : Nat → Bytes → Prop) : PObject → Prop
  | .nil => True
  | .mk fields unrec => WfFields U fields ∧ U 1 unrec

def WfLog (U : Nat → Bytes → Prop) : PLog → Prop
  | .nil => False
  | .mk object unrec => WfObject U object ∧ U 1 unrec

def WfWrapper (U : Nat → Bytes → Prop) (m : PWrapper) : Prop := (∀ l, m.message = some l → WfLog U l) ∧ U 1 m.unrec

/-! ## The same message with its maps iterated in another order -/

mutual
def SameValue : PValue → PValue → Prop
  | .nil, w => w = .nil
  | .mk kind unrec, w => ∃ kind', w = .mk kind' unrec ∧ SameKind kind kind'
def SameKind : PKind → PKind → Prop
  | .array (.mk items unrec), w => ∃ items', w = .array (.mk items' unrec) ∧ SameItems items items'
  | .object (.mk fields unrec), w => ∃ fields' order, w = .object (.mk order unrec) ∧ SameEntries fields fields' ∧ fields'.Perm order
  | k, w => w = k
def SameItems : List PValue → List PValue → Prop
  | [], w => w = []
  | v :: vs, w => ∃ v' vs', w = v' :: vs' ∧ SameValue v v' ∧ SameItems vs vs'
/-- Entry by entry, before the entries are permuted. -/
def SameEntries : List (Bytes × PValue) → List (Bytes × PValue) → Prop
  | [], w => w = []
  | (k, v) :: es, w => ∃ v' es', w = (k, v') :: es' ∧ SameValue v v' ∧ SameEntries es es'
end

def SameLog : PLog → PLog → Prop
  | .mk (.mk fields u) unrec, w => ∃ fields' order, w = .mk (.mk order u) unrec ∧ SameEntries fields fields' ∧ fields'.Perm order
  | l, w => w = l

/-- `m'` is `m` with the entries of its maps listed in another order, at any depth. -/
def SameMessage (m m' : PWrapper) : Prop :=
  m'.unrec = m.unrec ∧ match m.message with
    | none => m'.message = none
    | some l => ∃ l', m'.message = some l' ∧ SameLog l l'

end Sawmill.Wire
