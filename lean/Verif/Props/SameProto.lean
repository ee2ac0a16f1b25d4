import Verif.Lemmas.SameProto
import Verif.Props.Convert
/-!
# C108: when two events are the same protobuf message
-/

namespace Sawmill
open Wire ATree

/-- What the message of an event is, whenever there is one. -/
theorem fromEvent_is {h : Heap} {e : Event} {f : Fields} (hh : Holds h e f) {n : Nat} {m : PWrapper} (hm : fromEvent n h e = .ok m) : m = messageOf f := by
  obtain ⟨N, hN⟩ := fromEvent_spec hh
  have h1 := fromEvent_mono (Nat.le_max_left n N) hm
  rw [hN _ (Nat.le_max_right n N)] at h1
  exact (UOut.ok.inj h1).symm

theorem messageOf_filled (f : Fields) : messageOf f = messageOf (some (filledFields f)) := by
  unfold messageOf filledFields
  cases f.getD [] with
  | nil => rfl
  | cons e es =>
    obtain ⟨k, v⟩ := e
    simp only [Val.filledE, Option.getD_some, protoOfE, proto_filled, proto_filledE]

/-- The contents that the message shows. -/
def readMessage (m : PWrapper) : AMap Val :=
  match m.message with
  | some (.mk (.mk fields _) _) => AMap.ofEntries (readFields fields) []
  | _ => []

theorem readMessage_of {f : Fields} (hs : AMap.Sorted (f.getD [])) (hc : Val.CanonE (f.getD [])) : readMessage (messageOf f) = filledFields f := by
  unfold messageOf filledFields
  generalize f.getD [] = es at hs hc
  cases es with
  | nil => rfl
  | cons e es =>
    show AMap.ofEntries (readFields (protoOfE (e :: es))) [] = _
    rw [read_protoE _ hc, ofEntries_sorted (filledE_sorted hs)]

theorem readMessage_same {U : Nat → Bytes → Prop} {m a : PWrapper} (h : SameMessage m a) (hw : WfWrapper U m) : readMessage a = readMessage m := by
  obtain ⟨msg, u⟩ := m
  obtain ⟨msg', u'⟩ := a
  obtain ⟨_, h⟩ := h
  cases msg with
  | none => simp only at h; subst h; rfl
  | some l =>
    obtain ⟨l', h1, h2⟩ := h
    simp only at h1
    subst h1
    have hl := hw.1 l rfl
    cases l with
    | nil => exact hl.elim
    | mk o ul =>
      cases o with
      | nil => simp only [SameLog] at h2; subst h2; rfl
      | mk fields uo =>
        simp only [SameLog] at h2
        obtain ⟨fields', order, rfl, h3, h4⟩ := h2
        have hf : WfFields U fields := hl.1.1
        exact readFields_perm (same_readE fields fields' h3 hf) ((wfFields_iff U fields).1 hf).2 h4

/-- A message of contents that `Marshal` does not refuse in some order is well-formed. -/
theorem mayWrite_wf {f : Fields} (hs : AMap.Sorted (f.getD [])) (hc : Val.CanonE (f.getD [])) {bs : Bytes} (h : MayWrite (messageOf f) bs) : WfWrapper UnknownFields (messageOf f) := by
  obtain ⟨a, h1, h2⟩ := h
  have hn : NoNil a := Classical.byContradiction fun hn => by rw [(marshal_panics_iff a).2 hn] at h2; cases h2
  unfold messageOf at h1 ⊢
  generalize f.getD [] = es at hs hc h1
  cases es with
  | nil => exact ⟨fun l hl => by cases hl; exact ⟨trivial, .nil⟩, .nil⟩
  | cons e es =>
    refine ⟨fun l hl => ?_, .nil⟩
    cases hl
    refine ⟨⟨proto_noNil_wfE _ hs hc ?_, .nil⟩, .nil⟩
    obtain ⟨_, l', h3, h4⟩ := h1
    simp only [SameLog] at h4
    obtain ⟨fields', order, rfl, h5, h6⟩ := h4
    refine same_noNilE _ _ h5 ?_
    unfold NoNil at hn
    rw [h3] at hn
    have hn : NoNilFields order := hn
    rw [noNilFields_iff] at hn ⊢
    exact fun e he => hn e (h6.mem_iff.1 he)

/-- C108: of two events, wherever they are kept, that both can be written: one and the same byte string may be written for both exactly if their contents differ at most in nil slices and nil maps for empty ones (no contents at all counts as empty), and then the messages are the same, so
that all byte strings that may be written for one may be written for the other. -/
theorem proto_same {h h' : Heap} {e e' : Event} {f g : Fields} (hh : Holds h e f) (hs : AMap.Sorted (f.getD [])) (hc : Val.CanonE (f.getD [])) (hh' : Holds h' e' g) (hs' : AMap.Sorted (g.getD []))
    (hc' : Val.CanonE (g.getD [])) {n n' : Nat} {m m' : PWrapper} (hm : fromEvent n h e = .ok m) (hm' : fromEvent n' h' e' = .ok m') (hz : sizeWrapper m < 2 ^ 63 - 8) (hz' : sizeWrapper m' < 2 ^ 63 - 8)
    {b b' : Bytes} (hb : MayWrite m b) (hb' : MayWrite m' b') :
    ((∃ bs, MayWrite m bs ∧ MayWrite m' bs) ↔ filledFields f = filledFields g) ∧ (filledFields f = filledFields g ↔ m = m') := by
  obtain rfl := fromEvent_is hh hm
  obtain rfl := fromEvent_is hh' hm'
  have w := mayWrite_wf hs hc hb
  have w' := mayWrite_wf hs' hc' hb'
  have k1 : filledFields f = filledFields g → messageOf f = messageOf g := fun h => by rw [messageOf_filled f, messageOf_filled g, h]
  have k2 : (∃ bs, MayWrite (messageOf f) bs ∧ MayWrite (messageOf g) bs) → filledFields f = filledFields g := by
    rintro ⟨bs, ⟨a, a1, a2⟩, ⟨c, c1, c2⟩⟩
    have ha : a = c := marshal_injective ((same_inv a1).2 w) (by rw [size_order_independent a1]; exact hz) ((same_inv c1).2 w') (by rw [size_order_independent c1]; exact hz') (by rw [a2, c2])
    subst ha
    rw [← readMessage_of hs hc, ← readMessage_of hs' hc', ← readMessage_same a1 w, readMessage_same c1 w']
  have k3 : messageOf f = messageOf g → ∃ bs, MayWrite (messageOf f) bs ∧ MayWrite (messageOf g) bs := fun h => ⟨b, hb, h ▸ hb⟩
  exact ⟨⟨k2, fun h => k3 (k1 h)⟩, ⟨k1, fun h => k2 (k3 h)⟩⟩

theorem messageOf_same_self (f : Fields) (hn : (f.getD []).length ≤ 1 ∧ Val.NarrowE (f.getD [])) {a : PWrapper} (h : SameMessage (messageOf f) a) : a = messageOf f := by
  unfold messageOf at h ⊢
  generalize f.getD [] = es at hn h
  obtain ⟨msg, u⟩ := a
  cases es with
  | nil =>
    obtain ⟨h1, l', h2, h3⟩ := h
    simp only [SameLog] at h1 h2 h3
    subst h1 h2 h3
    rfl
  | cons e es =>
    obtain ⟨h1, l', h2, h3⟩ := h
    simp only [SameLog] at h1 h2 h3
    obtain ⟨fields', order, rfl, h5, h6⟩ := h3
    rw [narrow_sameE _ _ hn.2 h5] at h6
    rw [perm_short h6 (by rw [protoOfE_length]; exact hn.1)] at h2
    subst h1 h2
    rfl

theorem messageOf_wide {f : Fields} (hs : AMap.Sorted (f.getD [])) (hc : Val.CanonE (f.getD [])) (hn : ¬ ((f.getD []).length ≤ 1 ∧ Val.NarrowE (f.getD []))) : ∃ a, SameMessage (messageOf f) a ∧ a ≠ messageOf f := by
  unfold messageOf
  generalize f.getD [] = es at hs hc hn
  cases es with
  | nil => exact absurd ⟨by simp, trivial⟩ hn
  | cons e es =>
    have key : ∃ fields' order, SameEntries (protoOfE (e :: es)) fields' ∧ fields'.Perm order ∧ order ≠ protoOfE (e :: es) := by
      by_cases hl : (e :: es).length ≤ 1
      · obtain ⟨w, h1, h2⟩ := wide_sameE _ hc fun h => hn ⟨hl, h⟩
        exact ⟨w, w, h1, List.Perm.refl _, h2⟩
      · obtain ⟨o, h1, h2⟩ := wide_order hs (by omega)
        exact ⟨_, o, same_reflE _, h1, h2⟩
    obtain ⟨fields', order, h1, h2, h3⟩ := key
    refine ⟨⟨some (.mk (.mk order []) []), []⟩, ⟨rfl, _, rfl, ?_⟩, ?_⟩
    · simp only [SameLog]; exact ⟨fields', order, rfl, h1, h2⟩
    · intro h
      cases h
      exact h3 rfl

/-- C108: of an event that can be written only one byte string may be written exactly if no map in it, at any depth, has more than one field. -/
theorem proto_one_text {h : Heap} {e : Event} {f : Fields} (hh : Holds h e f) (hs : AMap.Sorted (f.getD [])) (hc : Val.CanonE (f.getD [])) {n : Nat} {m : PWrapper} (hm : fromEvent n h e = .ok m)
    (hz : sizeWrapper m < 2 ^ 63 - 8) {b : Bytes} (hb : MayWrite m b) :
    (∀ bs bs', MayWrite m bs → MayWrite m bs' → bs = bs') ↔ (f.getD []).length ≤ 1 ∧ Val.NarrowE (f.getD []) := by
  obtain rfl := fromEvent_is hh hm
  have w := mayWrite_wf hs hc hb
  constructor
  · intro hu
    refine Classical.byContradiction fun hn => ?_
    obtain ⟨a, h1, h2⟩ := messageOf_wide hs hc hn
    obtain ⟨bs, e1, _⟩ := wire_round_trip w hz
    have wa := (same_inv h1).2 w
    have za : sizeWrapper a < 2 ^ 63 - 8 := by rw [size_order_independent h1]; exact hz
    obtain ⟨bs', e2, _⟩ := wire_round_trip wa za
    have hself : SameMessage (messageOf f) (messageOf f) := by
      refine ⟨rfl, ?_⟩
      unfold messageOf
      cases f.getD [] with
      | nil => exact ⟨_, rfl, by simp only [SameLog]⟩
      | cons e es => exact ⟨_, rfl, by simp only [SameLog]; exact ⟨_, _, rfl, same_reflE _, List.Perm.refl _⟩⟩
    have := hu bs bs' ⟨_, hself, e1⟩ ⟨_, h1, e2⟩
    subst this
    exact h2 (marshal_injective wa za w hz (by rw [e1, e2]))
  · rintro hn bs bs' ⟨a, a1, a2⟩ ⟨c, c1, c2⟩
    rw [messageOf_same_self f hn a1] at a2
    rw [messageOf_same_self f hn c1, a2] at c2
    exact Res.ok.inj c2

/-- C108: every event that has a message and no nil in its slices can be written, in every order. -/
theorem proto_writes {h : Heap} {e : Event} {f : Fields} (hh : Holds h e f) (hs : AMap.Sorted (f.getD [])) (hc : Val.CanonE (f.getD [])) (hso : Val.SolidE (f.getD [])) {n : Nat} {m : PWrapper}
    (hm : fromEvent n h e = .ok m) (hz : sizeWrapper m < 2 ^ 63 - 8) : ∀ a, SameMessage m a → ∃ bs, marshal a = .ok bs ∧ MayWrite m bs := by
  obtain rfl := fromEvent_is hh hm
  intro a ha
  have w : WfWrapper UnknownFields (messageOf f) := by
    unfold messageOf
    generalize f.getD [] = es at hs hc hso
    cases es with
    | nil => exact ⟨fun l hl => by cases hl; exact ⟨trivial, .nil⟩, .nil⟩
    | cons e es => exact ⟨fun l hl => by cases hl; exact ⟨⟨(proto_wfE _ hso hs hc).1, .nil⟩, .nil⟩, .nil⟩
  obtain ⟨bs, h1, _⟩ := wire_round_trip_any_order w hz ha
  exact ⟨bs, h1, a, ha, h1⟩

/-- The message of an event with two fields: `a` is an array without items, `b` is true. -/
def twoFields : PWrapper := ⟨some (.mk (.mk [(lit "a", .mk (.array (.mk [] [])) []), (lit "b", .mk (.boolean true) [])] []) []), []⟩

/-- The same with `b` first. -/
def twoFieldsSwapped : PWrapper := ⟨some (.mk (.mk [(lit "b", .mk (.boolean true) []), (lit "a", .mk (.array (.mk [] [])) [])] []) []), []⟩

theorem twoFields_swap : SameMessage twoFields twoFieldsSwapped :=
  ⟨rfl, _, rfl, by simp only [SameLog]; exact ⟨_, _, rfl, same_reflE _, List.Perm.swap _ _ _⟩⟩

theorem twoFields_self : SameMessage twoFields twoFields :=
  ⟨rfl, _, rfl, by simp only [SameLog]; exact ⟨_, _, rfl, same_reflE _, List.Perm.refl _⟩⟩

theorem twoFields_nil : fromEvent 3 [.cell (arrCell none), .cell (boolCell true), .map [(lit "a", some 0), (lit "b", some 1)]] (some 2) = .ok twoFields := rfl

theorem twoFields_empty : fromEvent 3 [.cell (arrCell (some [])), .cell (boolCell true), .map [(lit "a", some 0), (lit "b", some 1)]] (some 2) = .ok twoFields := rfl

theorem twoFields_holds : Holds [.cell (arrCell none), .cell (boolCell true), .map [(lit "a", some 0), (lit "b", some 1)]] (some 2) (some [(lit "a", .arrNil), (lit "b", .scalar (.bool true))]) :=
  ⟨2, _, rfl, rfl, rfl, rfl, rfl, rfl, trivial⟩

theorem twoFields_holds' : Holds [.cell (arrCell (some [])), .cell (boolCell true), .map [(lit "a", some 0), (lit "b", some 1)]] (some 2) (some [(lit "a", .arr []), (lit "b", .scalar (.bool true))]) :=
  ⟨2, _, rfl, rfl, rfl, ⟨_, rfl, trivial⟩, rfl, rfl, trivial⟩

theorem twoFields_size : sizeWrapper twoFields = 22 := by decide +kernel

/-- C108: a nil slice and an empty one, in events with two fields: the same message, and two byte strings that may be written for either. -/
theorem proto_same_sample : MayWrite twoFields [10, 20, 10, 18, 10, 7, 10, 1, 98, 18, 2, 24, 1, 10, 7, 10, 1, 97, 18, 2, 18, 0] ∧
    MayWrite twoFields [10, 20, 10, 18, 10, 7, 10, 1, 97, 18, 2, 18, 0, 10, 7, 10, 1, 98, 18, 2, 24, 1] ∧ sizeWrapper twoFields < 2 ^ 63 - 8 ∧
    ∃ (h h' : Heap) (e e' : Event) (f g : AMap Val), Holds h e (some f) ∧ Holds h' e' (some g) ∧ f ≠ g ∧ AMap.Sorted f ∧ Val.CanonE f ∧ AMap.Sorted g ∧ Val.CanonE g ∧
      filledFields (some f) = filledFields (some g) ∧ fromEvent 3 h e = .ok twoFields ∧ fromEvent 3 h' e' = .ok twoFields := by
  have m1 : marshal twoFields = .ok [10, 20, 10, 18, 10, 7, 10, 1, 98, 18, 2, 24, 1, 10, 7, 10, 1, 97, 18, 2, 18, 0] := by decide +kernel
  have m2 : marshal twoFieldsSwapped = .ok [10, 20, 10, 18, 10, 7, 10, 1, 97, 18, 2, 18, 0, 10, 7, 10, 1, 98, 18, 2, 24, 1] := by decide +kernel
  exact ⟨⟨_, twoFields_self, m1⟩, ⟨_, twoFields_swap, m2⟩, by rw [twoFields_size]; decide, _, _, _, _, _, _, twoFields_holds, twoFields_holds', by simp, by decide, by simp [Val.CanonE, Val.Canon], by decide,
    by simp [Val.CanonE, Val.Canon, Val.CanonL], by simp [filledFields, Val.filledE, Val.filled, Val.filledL], twoFields_nil, twoFields_empty⟩

end Sawmill
