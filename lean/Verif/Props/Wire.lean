import Verif.Spec.Wire
import Verif.Lemmas.WireConcat
/-!
# C40 - C43, C45, C55: the protobuf wire codec (pkg/serialization/protobuf/event.pb.go)

`2 ^ 63 - 8` bytes is beyond the length of any Go slice that fits in memory.
-/

namespace Sawmill.Wire

theorem small_of_size {m : PWrapper} (h : sizeWrapper m < 2 ^ 63 - 8) : Small (encWrapper m) := by
  rw [sizeWrapper_eq] at h
  simp only [Small, dlen]
  omega

theorem small_of_length {d : Bytes} (h : d.length < 2 ^ 63 - 8) : Small d := by simp only [Small, dlen]; omega

/-! ## C41: Size is exact -/

/-- `Marshal` of a message without nil array items returns normally, with exactly `Size()` bytes, which are the encoding of the message in the protobuf format. In particular the backwards
writer never leaves its buffer, and overwrites every byte of it. -/
theorem marshal_exact {m : PWrapper} (h : NoNil m) : ∃ bs, marshal m = .ok bs ∧ bs.length = sizeWrapper m ∧ bs = encWrapper m :=
  ⟨_, marshal_eq h, (sizeWrapper_eq m).symm, rfl⟩

/-- `Marshal` panics exactly when there is a nil pointer among the items of some array. -/
theorem marshal_panics_iff (m : PWrapper) : marshal m = .panic ↔ ¬ NoNil m := by
  constructor
  · intro h hn
    rw [marshal_eq hn] at h
    cases h
  · exact marshal_panic

/-- `Size()` does not depend on the order in which maps are iterated (the order may differ between the call of `Size` and the writing). -/
theorem size_order_independent {m m' : PWrapper} (h : SameMessage m m') : sizeWrapper m' = sizeWrapper m := by
  rw [sizeWrapper_eq, sizeWrapper_eq, (same_inv (U := fun _ _ => True) h).1]

/-- A message with every kind of value, nested containers and unknown fields (`80 5`: field 10 is 5; `18 2 7 8`: field 2 is the bytes 7 8; `29 1 2 3 4`: field 3 is a fixed32). -/
def exampleMessage : PWrapper :=
  ⟨some (.mk (.mk [
      ([97], .mk (.null 0) []),
      ([98], .mk (.array (.mk [.mk (.boolean true) [], .mk (.float 0x3ff0000000000000) [], .mk (.array (.mk [] [])) []] [])) []),
      ([99], .mk (.object (.mk [([120], .mk (.integer (-3)) []), ([], .mk (.unsigned 300) [])] [])) []),
      ([100], .mk (.string (some [1, 2, 255])) []),
      ([101], .mk (.timestamp 12345678901) [80, 5]),
      ([102], .nil)] []) [18, 2, 7, 8]), [29, 1, 2, 3, 4]⟩

theorem exampleMessage_noNil : NoNil exampleMessage := by
  simp [NoNil, exampleMessage, NoNilFields, NoNilValue, NoNilKind, NoNilItems]

/-- Counterexample to the unrestricted claim: `Size` treats a nil item as empty, but `Marshal` panics on it. -/
theorem nil_item_panics : sizeWrapper ⟨some (.mk (.mk [([], .mk (.array (.mk [.nil] [])) [])] []) []), []⟩ = 14 ∧
    marshal ⟨some (.mk (.mk [([], .mk (.array (.mk [.nil] [])) [])] []) []), []⟩ = .panic := by
  constructor
  · decide +kernel
  · rw [marshal_panics_iff]
    simp [NoNil, NoNilFields, NoNilValue, NoNilKind, NoNilItems]

/-! ## C40: round trip -/

theorem wf_pieces {m : PWrapper} (h : WfWrapper UnknownFields m) (hs : Small (encWrapper m)) : WfWrapper Pieces m :=
  wfWrapper_mono (fun _ _ hu h => unknown_pieces h hu) hs h

/-- Every well-formed message is marshalled, and unmarshalling the bytes gives it back. -/
theorem wire_round_trip {m : PWrapper} (h : WfWrapper UnknownFields m) (hs : sizeWrapper m < 2 ^ 63 - 8) : ∃ bs, marshal m = .ok bs ∧ unmarshal bs = .ok m :=
  ⟨_, marshal_eq (noNil_of_wf h), unmarshal_enc (wf_pieces h (small_of_size hs)) (small_of_size hs)⟩

/-- Whatever orders the maps of `m` are iterated in (`m'` lists them in another order, at any depth): the bytes have the size that was computed for `m`, and unmarshalling them gives the same
message. -/
theorem wire_round_trip_any_order {m m' : PWrapper} (h : WfWrapper UnknownFields m) (hs : sizeWrapper m < 2 ^ 63 - 8) (ho : SameMessage m m') :
    ∃ bs, marshal m' = .ok bs ∧ bs.length = sizeWrapper m ∧ ∃ m'', unmarshal bs = .ok m'' ∧ SameMessage m m'' := by
  have hs' := hs
  rw [← size_order_independent ho] at hs'
  obtain ⟨bs, h1, h2⟩ := wire_round_trip ((same_inv ho).2 h) hs'
  refine ⟨bs, h1, ?_, m', h2, ho⟩
  have := marshal_eq (noNil_of_wf ((same_inv ho).2 h))
  rw [this] at h1
  cases h1
  rw [← sizeWrapper_eq, size_order_independent ho]

/-- Different messages have different encodings. -/
theorem marshal_injective {m m' : PWrapper} (h : WfWrapper UnknownFields m) (hs : sizeWrapper m < 2 ^ 63 - 8) (h' : WfWrapper UnknownFields m') (hs' : sizeWrapper m' < 2 ^ 63 - 8)
    (he : marshal m = marshal m') : m = m' := by
  obtain ⟨bs, h1, h2⟩ := wire_round_trip h hs
  obtain ⟨bs', h1', h2'⟩ := wire_round_trip h' hs'
  rw [h1, h1'] at he
  cases he
  rw [h2] at h2'
  cases h2'
  rfl

theorem exampleMessage_wf : WfWrapper UnknownFields exampleMessage := by
  have hA : UnknownFields 9 [80, 5] := by
    have := UnknownFields.cons (own := 9) 10 _ [] (by omega) (by omega) (Field.varint 10 5 (by omega)) .nil
    simpa [varintField, tag, varint] using this
  have hB : UnknownFields 1 [18, 2, 7, 8] := by
    have := UnknownFields.cons (own := 1) 2 _ [] (by omega) (by omega) (Field.bytes 2 [7, 8]) .nil
    simpa [lenField, tag, varint] using this
  have hC : UnknownFields 1 [29, 1, 2, 3, 4] := by
    have := UnknownFields.cons (own := 1) 3 _ [] (by omega) (by omega) (Field.fixed32 3 [1, 2, 3, 4] rfl) .nil
    simpa [tag, varint] using this
  refine ⟨?_, hC⟩
  rintro _ ⟨⟩
  refine ⟨⟨?_, .nil⟩, hB⟩
  simp only [WfFields, WfValue, WfKind, WfItems]
  simp only [true_and, and_true]
  refine ⟨.inr .nil, by decide +kernel, .inr ⟨⟨⟨.nil, .nil, ⟨.nil, .nil⟩⟩, .nil⟩, .nil⟩, by decide +kernel, .inr ⟨⟨⟨.inr .nil, by decide +kernel, .inr .nil, by decide +kernel⟩, .nil⟩, .nil⟩,
    by decide +kernel, .inr .nil, by decide +kernel, .inr hA, by decide +kernel, .inl trivial, by simp⟩

theorem exampleMessage_size : sizeWrapper exampleMessage = 118 := by decide +kernel

example : ∃ bs, marshal exampleMessage = .ok bs ∧ unmarshal bs = .ok exampleMessage :=
  wire_round_trip exampleMessage_wf (by rw [exampleMessage_size]; omega)

/-- Counterexample to the unrestricted claim: an array value whose `*ValueArray` is nil decodes as a value of no kind. -/
theorem nil_array_lost : ∃ bs, marshal ⟨some (.mk (.mk [([], .mk (.array .nil) [])] []) []), []⟩ = .ok bs ∧
    unmarshal bs = .ok ⟨some (.mk (.mk [([], .mk .unset [])] []) []), []⟩ := by
  refine ⟨_, marshal_eq (by simp [NoNil, NoNilFields, NoNilValue, NoNilKind]), ?_⟩
  have := unmarshal_enc (m := ⟨some (.mk (.mk [([], .mk .unset [])] []) []), []⟩)
    ⟨by rintro _ ⟨⟩; exact ⟨⟨by simp [WfFields, WfValue, WfKind, Pieces.nil], .nil⟩, .nil⟩, .nil⟩ (small_of_size (by
      rw [show sizeWrapper ⟨some (.mk (.mk [([], .mk .unset [])] []) []), []⟩ = 10 by decide +kernel]; omega))
  rw [← this]
  simp [encWrapper, encLog, encFields, encValue, encKind, PValue.isNil]

/-! ## C42: Unmarshal is total -/

/-- `Unmarshal` of any bytes (into a new message, or after an earlier successful `Unmarshal`) returns a message or an error: it does not read outside the slice, and terminates. -/
theorem unmarshal_total (d : Bytes) (hd : d.length < 2 ^ 63 - 8) : (∃ m, unmarshal d = .ok m) ∨ ∃ e, unmarshal d = .err e := by
  have := unmarshal_post (small_of_length hd)
  cases h : unmarshal d with
  | ok m => exact .inl ⟨m, rfl⟩
  | err e => exact .inr ⟨e, rfl⟩
  | panic => rw [h] at this; exact this.elim
  | fuel => rw [h] at this; exact this.elim

theorem unmarshal_again_total (d1 d2 : Bytes) (hd1 : d1.length < 2 ^ 63 - 8) (hd2 : d2.length < 2 ^ 63 - 8) {m : PWrapper} (h : unmarshal d1 = .ok m) :
    (∃ m', unmarshalInto d2 m = .ok m') ∨ ∃ e, unmarshalInto d2 m = .err e := by
  have hm := unmarshal_post (small_of_length hd1)
  rw [h] at hm
  have := unmarshalInto_post (small_of_length hd2) hm
  cases h : unmarshalInto d2 m with
  | ok m => exact .inl ⟨m, rfl⟩
  | err e => exact .inr ⟨e, rfl⟩
  | panic => rw [h] at this; exact this.elim
  | fuel => rw [h] at this; exact this.elim

/-- Both outcomes occur: a length beyond the end, a length that overflows. -/
example : (∃ e, unmarshal [10, 5, 1] = .err e) ∧ (∃ e, unmarshal [10, 255, 255, 255, 255, 255, 255, 255, 255, 255, 1] = .err e) ∧ (∃ e, unmarshal [11, 12] = .err e) ∧
    ∃ m, unmarshal [10, 0] = .ok m :=
  ⟨⟨.unexpectedEOF, rfl⟩, ⟨.invalidLength, rfl⟩, ⟨.wrongWireType, rfl⟩, ⟨_, rfl⟩⟩

/-! ## C55: what was decoded can be encoded again -/

/-- Every message that `Unmarshal` produced is written back by `Marshal`, and decodes to itself: nothing that was understood is lost by a hop through this code. -/
theorem reencode {d : Bytes} (hd : d.length < 2 ^ 63 - 8) {m : PWrapper} (h : unmarshal d = .ok m) (hs : sizeWrapper m < 2 ^ 63 - 8) :
    ∃ bs, marshal m = .ok bs ∧ unmarshal bs = .ok m := by
  have hm := unmarshal_post (small_of_length hd)
  rw [h] at hm
  exact ⟨_, marshal_eq (noNil_of_wf hm), unmarshal_enc hm (small_of_size hs)⟩

/-- A case in which the bytes change, because the input has two `Log` fields and the last one counts. -/
example : unmarshal [10, 0, 10, 0] = .ok ⟨some (.mk .nil []), []⟩ ∧ marshal ⟨some (.mk .nil []), []⟩ = .ok [10, 0] := ⟨rfl, by
  rw [marshal_eq (by simp [NoNil])]; simp [encWrapper, encLog, lenField, tag, varint]⟩

/-! ## C43: unknown fields -/

/-- Well-formed fields with unknown numbers, appended to any accepted message, are accepted, kept verbatim, and written back at the end of the message. -/
theorem unknown_fields_kept {d f : Bytes} {m : PWrapper} (hd : (d ++ f).length < 2 ^ 63 - 8) (h : unmarshal d = .ok m) (hf : UnknownFields 1 f) :
    unmarshal (d ++ f) = .ok { m with unrec := m.unrec ++ f } ∧ ∃ bs, marshal m = .ok bs ∧ marshal { m with unrec := m.unrec ++ f } = .ok (bs ++ f) := by
  have hs := small_of_length hd
  have hm := unmarshal_post (hs.mono (by simp) : Small d)
  rw [h] at hm
  have hp := unknown_pieces hf (hs.mono (by simp))
  refine ⟨unmarshalInto_pieces hs h hp, _, marshal_eq (noNil_of_wf hm), ?_⟩
  rw [marshal_eq (noNil_of_wf (show WfWrapper Pieces { m with unrec := m.unrec ++ f } from ⟨hm.1, hm.2.append hp⟩))]
  obtain ⟨msg, u⟩ := m
  match msg with
  | none => rfl
  | some .nil => rfl
  | some (.mk _ _) => simp [encWrapper]

/-- Unknown fields of all wire types: a varint, a string, a fixed64, a fixed32, and a group with a field inside. -/
def exampleUnknown : Bytes := varintField 2 300 ++ (lenField 100 [1, 2] ++ ((tag 3 1 ++ [1, 2, 3, 4, 5, 6, 7, 8]) ++ ((tag 4 5 ++ [1, 2, 3, 4]) ++ ((tag 5 3 ++ varintField 1 1 ++ tag 5 4) ++ []))))

theorem exampleUnknown_ok : UnknownFields 1 exampleUnknown := by
  refine .cons 2 _ _ (by omega) (by omega) (.varint 2 300 (by omega)) ?_
  refine .cons 100 _ _ (by omega) (by omega) (.bytes 100 _) ?_
  refine .cons 3 _ _ (by omega) (by omega) (.fixed64 3 _ rfl) ?_
  refine .cons 4 _ _ (by omega) (by omega) (.fixed32 4 _ rfl) ?_
  refine .cons 5 _ _ (by omega) (by omega) (.group 5 _ ?_) .nil
  have := Group.cons 1 _ [] (by omega) (by omega) (Field.varint 1 1 (by omega)) .nil
  simpa using this

/-- They may also stand in the messages inside (`exampleMessage` has some): see `wire_round_trip`. -/
example : ∃ m, unmarshal ([10, 0] ++ exampleUnknown) = .ok m ∧ m.unrec = exampleUnknown :=
  ⟨_, (unknown_fields_kept (by simp [exampleUnknown, varintField, lenField, tag, varint]) (m := ⟨some (.mk .nil []), []⟩) rfl exampleUnknown_ok).1, rfl⟩

/-! ## C45: varints -/

/-- A 64 bit number `v` written at the end of the first `i` bytes of a buffer occupies exactly `sovEvent(v)` bytes there, between 1 and 10, leaves all other bytes as they were, and is read
back with the index `i` behind it, whatever follows. -/
theorem varint_codec (v : BitVec 64) (mem : Bytes) (i : Nat) (h1 : sov v.toNat ≤ i) (h2 : i ≤ mem.length) :
    ∃ mem', encodeVarint 0 mem.length v.toNat mem i = .ok (mem', i - sov v.toNat) ∧ mem'.length = mem.length ∧
      mem'.take (i - sov v.toNat) = mem.take (i - sov v.toNat) ∧ mem'.drop i = mem.drop i ∧
      readVarint 64 mem' ((i - sov v.toNat : Nat) : Int) = .ok (v, i) ∧ 1 ≤ sov v.toNat ∧ sov v.toNat ≤ 10 := by
  rw [sov_eq] at *
  obtain ⟨j, rfl⟩ : ∃ j, i = j + (varint v.toNat).length := ⟨i - (varint v.toNat).length, by omega⟩
  have he := encodeVarint_eq (mem := mem) (off := 0) (len := mem.length) (j := j) (v := v.toNat) h2 (by omega)
  refine ⟨writeAt mem j (varint v.toNat), by rw [he]; simp, ?_, ?_, ?_, ?_, varint_pos _, ?_⟩
  · exact writeAt_length (by omega)
  · simp [writeAt, List.take_append_of_le_length, List.length_take, Nat.min_eq_left (show j ≤ mem.length by omega)]
  · simp only [writeAt, Nat.zero_add]
    rw [List.drop_append_of_le_length (by simp; omega), List.drop_eq_nil_of_le (by simp; omega)]
    simp
  · simp only [writeAt, Nat.zero_add]
    have hl : (mem.take j).length = j := by simp; omega
    have := readVarint_enc 64 v.isLt (mem.take j) (mem.drop (j + (varint v.toNat).length))
    rw [hl] at this
    rw [show j + (varint v.toNat).length - (varint v.toNat).length = j by omega, this]
    simp
  · rw [← sov_eq]
    have h64 := v.isLt
    simp only [sov, len64]
    split
    · omega
    · have : (v.toNat ||| 1) < 2 ^ 64 := Nat.or_lt_two_pow h64 (by omega)
      have := (Nat.log2_lt (n := v.toNat ||| 1) (k := 64) (by assumption)).2 this
      omega

example : ∃ mem', encodeVarint 0 4 300 [9, 9, 9, 9] 3 = .ok (mem', 1) ∧ mem' = [9, 172, 2, 9] ∧ readVarint 64 mem' 1 = .ok (300, 3) :=
  ⟨_, by simp [encodeVarint, encodeVarintLoop]; rfl, rfl, rfl⟩

end Sawmill.Wire
