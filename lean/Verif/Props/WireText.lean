import Verif.Lemmas.WireTextRead
import Verif.Props.Wire
/-!
# C69: `Unmarshal` reads exactly the messages of the protobuf wire format
-/

namespace Sawmill.Wire

open Text

/-- `Unmarshal` of `d` into the message `m` gives `m'` exactly if `d` takes `m` to `m'` in the grammar of `Spec/WireText`. -/
theorem unmarshalInto_reads (m m' : PWrapper) (d : Bytes) (hd : d.length < 2 ^ 63 - 8) : unmarshalInto d m = .ok m' ↔ WrapperFrom m d m' := by
  refine ⟨wrapper_sound (small_of_length hd), fun h => ?_⟩
  have := fields_loop (wrapper_read h (pre := []) (by simpa using small_of_length hd))
  simp only [List.nil_append] at this
  exact this

/-- `Unmarshal` returns the message that the bytes are, and an error if they are none. -/
theorem unmarshal_reads (d : Bytes) (hd : d.length < 2 ^ 63 - 8) :
    (∀ m, unmarshal d = .ok m ↔ Message d m) ∧ ((∃ e, unmarshal d = .err e) ↔ ¬ ∃ m, Message d m) := by
  have h1 : ∀ m, unmarshal d = .ok m ↔ Message d m := fun m => unmarshalInto_reads _ m d hd
  refine ⟨h1, ?_, ?_⟩
  · rintro ⟨e, he⟩ ⟨m, hm⟩
    rw [(h1 m).2 hm] at he
    simp at he
  · intro h
    rcases unmarshal_total d hd with ⟨m, hm⟩ | he
    · exact absurd ⟨m, (h1 m).1 hm⟩ h
    · exact he

/-- The bytes of a message are not the bytes of another. -/
theorem message_unique {d : Bytes} (hd : d.length < 2 ^ 63 - 8) {m m' : PWrapper} (h : Message d m) (h' : Message d m') : m = m' := by
  have h1 := (unmarshalInto_reads _ m d hd).2 h
  rw [(unmarshalInto_reads _ m' d hd).2 h'] at h1
  exact (UOut.ok.inj h1).symm

/-- Decoding two messages one behind the other is decoding the second into the result of the first. -/
theorem unmarshal_append {a b : Bytes} (hd : (a ++ b).length < 2 ^ 63 - 8) {m : PWrapper} (h : unmarshal a = .ok m) (m' : PWrapper) :
    unmarshal (a ++ b) = .ok m' ↔ unmarshalInto b m = .ok m' := by
  have ha : a.length < 2 ^ 63 - 8 := by simp only [List.length_append] at hd; omega
  have hb : b.length < 2 ^ 63 - 8 := by simp only [List.length_append] at hd; omega
  have h0 := (unmarshalInto_reads _ m a ha).1 h
  rw [unmarshalInto_reads _ _ _ hb]
  show unmarshalInto (a ++ b) ⟨none, []⟩ = .ok m' ↔ _
  rw [unmarshalInto_reads _ _ _ hd]
  exact ⟨fun h2 => h0.split (small_of_length hd) h2, fun h2 => h0.append h2⟩

/-- What `Marshal` writes for a well-formed message is that message. -/
theorem marshal_writes_message {m : PWrapper} (h : WfWrapper UnknownFields m) (hs : sizeWrapper m < 2 ^ 63 - 8) : ∃ bs, marshal m = .ok bs ∧ Message bs m := by
  obtain ⟨bs, h1, h2⟩ := wire_round_trip h hs
  obtain ⟨bs', h3, h4, _⟩ := marshal_exact (noNil_of_wf h)
  rw [h1] at h3
  have : bs = bs' := by simpa using h3
  subst this
  exact ⟨bs, h1, ((unmarshal_reads bs (by omega)).1 m).1 h2⟩

example : ∃ bs, marshal exampleMessage = .ok bs ∧ Message bs exampleMessage := marshal_writes_message exampleMessage_wf (by rw [exampleMessage_size]; omega)

/-! ## Cases -/

/-- Two logs, of which the first is replaced. The second has its object twice, with the unknown field 2 in between, and the objects are merged. The first object has an entry without a value; in the
second the value comes before the key, has two kinds, of which the last counts, and the key's length is written with one byte too many. -/
def liberalMessage : Bytes :=
  [10, 0,                                   -- an empty log
   10, 23,                                  -- another
     10, 5, 10, 3, 10, 1, 97,               --   object, one entry: the key `a`
     16, 5,                                 --   unknown field 2
     10, 12, 10, 10,                        --   object, one entry:
       18, 4, 24, 1, 24, 0,                 --     the value: true, and then false
       10, 129, 0, 98]                      --     the key `b`

theorem liberal_read : unmarshal liberalMessage = .ok ⟨some (.mk (.mk [([98], .mk (.boolean false) []), ([97], .nil)] []) [16, 5]), []⟩ := rfl

example : Message liberalMessage ⟨some (.mk (.mk [([98], .mk (.boolean false) []), ([97], .nil)] []) [16, 5]), []⟩ :=
  ((unmarshal_reads _ (by simp [liberalMessage])).1 _).1 liberal_read

/-- What `message_unique` and `unmarshal_append` speak of: the same bytes in two parts. -/
example : unmarshal (liberalMessage.take 2) = .ok ⟨some (.mk .nil []), []⟩ ∧
    unmarshalInto (liberalMessage.drop 2) ⟨some (.mk .nil []), []⟩ = .ok ⟨some (.mk (.mk [([98], .mk (.boolean false) []), ([97], .nil)] []) [16, 5]), []⟩ := by
  have h1 : unmarshal (liberalMessage.take 2) = .ok ⟨some (.mk .nil []), []⟩ := rfl
  exact ⟨h1, (unmarshal_append (by simp [liberalMessage]) h1 _).1 liberal_read⟩

/-- A liberty that the protobuf documentation does not give: an entry of three bytes whose key has two, so that the second byte of the key is the first byte of the next entry, which is read a second time. -/
theorem entry_overrun : unmarshal [10, 9, 10, 7, 10, 3, 10, 2, 97, 10, 0] = .ok ⟨some (.mk (.mk [([], .nil), ([97, 10], .nil)] []) []), []⟩ := rfl

/-- Bytes that are no message: a field with number 0, a varint of eleven bytes, the end of a group that was not begun, a wire type that is not the field's. -/
example : (¬ ∃ m, Message [0, 0] m) ∧ (¬ ∃ m, Message [16, 128, 128, 128, 128, 128, 128, 128, 128, 128, 128, 0] m) ∧ (¬ ∃ m, Message [20] m) ∧ ¬ ∃ m, Message [8, 0] m :=
  ⟨(unmarshal_reads _ (by simp)).2.1 ⟨.illegalTag, rfl⟩, (unmarshal_reads _ (by simp)).2.1 ⟨.intOverflow, rfl⟩, (unmarshal_reads _ (by simp)).2.1 ⟨.endGroupForNonGroup, rfl⟩,
    (unmarshal_reads _ (by simp)).2.1 ⟨.wrongWireType, rfl⟩⟩

end Sawmill.Wire
