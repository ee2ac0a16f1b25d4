import Verif.Lemmas.Truncate
import Verif.Props.Convert
import Verif.Props.Json
import Verif.Lemmas.JsonFun
/-!
# C105: encodings that are cut off, and encodings that are joined
-/

namespace Sawmill.Wire

open Text

/-! ## Protobuf: bytes that are cut off -/

/-- The beginning of bytes that are accepted is either accepted, and then decoding the remaining bytes into the result gives what the whole gives, or the error is `unexpected EOF`. -/
theorem unmarshal_cut {d : Bytes} (hd : d.length < 2 ^ 63 - 8) {m : PWrapper} (h : unmarshal d = .ok m) (k : Nat) :
    unmarshal (d.take k) = .err .unexpectedEOF ∨ ∃ m', unmarshal (d.take k) = .ok m' ∧ unmarshalInto (d.drop k) m' = .ok m := by
  rcases fieldLoop_cut (small_of_length hd) k _ ((d.take k).length + 1) (by simp only [dlen]; omega) (show fieldLoop d (handleWrapper d) _ _ 0 _ = .ok m from h) with ⟨x, e⟩ | e | e
  · refine .inr ⟨x, e, ?_⟩
    have hx : unmarshal (d.take k) = .ok x := e
    refine (unmarshal_append (by rw [List.take_append_drop]; exact hd) hx m).1 ?_
    rw [List.take_append_drop]
    exact h
  · exact .inl e
  · have := unmarshal_post (small_of_length (by simp only [List.length_take]; omega) : Small (d.take k))
    rw [show unmarshal (d.take k) = .fuel from e] at this
    exact this.elim

theorem framed_cut {c : Bytes} (hs : (lenField 1 c).length < 2 ^ 63 - 8) {k : Nat} (h0 : 0 < k) (hk : k < (lenField 1 c).length) : unmarshal ((lenField 1 c).take k) = .err .unexpectedEOF := by
  have e : lenField 1 c = [10] ++ (varint c.length ++ c) ++ [] := by
    have ht : tag 1 2 = [10] := by simp [tag, varint]
    rw [lenField, ht]; simp
  have hsm := small_of_length hs
  have hv : readVarint 64 (lenField 1 c) 0 = .ok (10, 1) := by
    rw [e]
    exact readVarint_right (u := [10]) _ rfl
  have hl := readLength_enc (pre := [10]) (c := c) (post := []) (by rw [← e]; exact hsm)
  rw [← e] at hl
  have hlen : 0 < dlen ((lenField 1 c).take k) ∧ dlen ((lenField 1 c).take k) = k := by simp only [dlen, List.length_take]; omega
  show fieldLoop _ _ _ (((lenField 1 c).take k).length + 1) 0 _ = _
  rw [fieldLoop, if_pos hlen.1, (readVarint_take hv (by omega)).1, ubind_ok]
  dsimp only
  rw [if_neg (by decide), if_neg (by decide)]
  have hh : handleWrapper ((lenField 1 c).take k) (fieldNumber 10).toNat ((10 : BitVec 64).toNat % 8) 1 ⟨none, []⟩ = some (.err .unexpectedEOF) := by
    show some (lengthCase _ 2 1 _) = _
    unfold lengthCase
    rw [if_neg (by decide)]
    rcases readLength_cut k hl with ⟨_, hb⟩ | e2
    · have : (lenField 1 c).length = 1 + (varint c.length).length + c.length := by rw [e]; simp; omega
      simp only [List.length_cons, List.length_nil] at hb
      omega
    · have e2 : readLength ((lenField 1 c).take k) 1 = .err .unexpectedEOF := e2
      rw [e2]
      rfl
  rw [hh]
  rfl

/-- Whatever `Marshal` writes for a message without unknown fields: if the end is missing, and there is something left, the error is `unexpected EOF`. -/
theorem marshal_cut {m : PWrapper} (hu : m.unrec = []) {bs : Bytes} (hm : marshal m = .ok bs) (hs : bs.length < 2 ^ 63 - 8) {k : Nat} (h0 : 0 < k) (hk : k < bs.length) :
    unmarshal (bs.take k) = .err .unexpectedEOF := by
  have hn : NoNil m := Classical.byContradiction fun hn => by
    rw [(marshal_panics_iff m).2 hn] at hm
    cases hm
  rw [marshal_eq hn] at hm
  obtain rfl : encWrapper m = bs := by simpa using hm
  obtain ⟨msg, u⟩ := m
  simp only at hu
  subst hu
  match msg with
  | none => simp [encWrapper] at hk
  | some .nil => simp [encWrapper] at hk
  | some (.mk o w) =>
    simp only [encWrapper, List.append_nil] at hk hs ⊢
    exact framed_cut hs h0 hk

end Sawmill.Wire

namespace Sawmill.Wire

open Text

/-- The message of an event: any strict part of the bytes from the beginning is refused, except the empty part, which is a message without a log, whose event is nil. `m'` is the message with its
maps iterated in any order. -/
theorem event_message_cut {n : Nat} {h : Heap} {e : Event} {m m' : PWrapper} (hm : fromEvent n h e = .ok m) (ho : SameMessage m m') {bs : Bytes} (hb : marshal m' = .ok bs)
    (hs : bs.length < 2 ^ 63 - 8) {k : Nat} (h0 : 0 < k) (hk : k < bs.length) : unmarshal (bs.take k) = .err .unexpectedEOF := by
  refine marshal_cut ?_ hb hs h0 hk
  rw [ho.1]
  unfold fromEvent at hm
  split at hm
  · cases hm
  · obtain ⟨o, _, hm⟩ := ubind_eq_ok.1 hm
    cases hm
    rfl

theorem empty_message : unmarshal [] = .ok ⟨none, []⟩ ∧ ∀ nul h, toLogEvent nul (⟨none, []⟩ : PWrapper).getLog h = .ok (h, none) := ⟨rfl, fun _ _ => rfl⟩

/-! ## Protobuf: messages that are joined -/

theorem wrapper_onto {m m' : PWrapper} {d : Bytes} (h : WrapperFrom m d m') (b : Option PLog) (v : Bytes) :
    WrapperFrom ⟨m.message <|> b, v ++ m.unrec⟩ d ⟨m'.message <|> b, v ++ m'.unrec⟩ := by
  induction h with
  | done => exact .done
  | log h1 h2 h3 _ ih => exact .log h1 h2 h3 ih
  | unknown h1 h2 h3 _ ih =>
    refine .unknown h1 h2 h3 ?_
    simp only [List.append_assoc] at ih ⊢
    exact ih

/-- Two accepted byte strings one behind the other are accepted: the log is that of the second, if it has one, and the unknown fields of both are kept. -/
theorem unmarshal_joined {a b : Bytes} (hd : (a ++ b).length < 2 ^ 63 - 8) {m m' : PWrapper} (ha : unmarshal a = .ok m) (hb : unmarshal b = .ok m') :
    unmarshal (a ++ b) = .ok ⟨m'.message <|> m.message, m.unrec ++ m'.unrec⟩ := by
  have hb' : b.length < 2 ^ 63 - 8 := by simp only [List.length_append] at hd; omega
  refine (unmarshal_append hd ha _).2 ?_
  rw [unmarshalInto_reads _ _ _ hb']
  have := wrapper_onto (((unmarshal_reads b hb').1 m').1 hb) m.message m.unrec
  simpa using this

/-- Any number of them: the log is the last one that is there. -/
theorem unmarshal_stream : ∀ (ds : List (Bytes × PWrapper)), (∀ d ∈ ds, unmarshal d.1 = .ok d.2) → (ds.flatMap (·.1)).length < 2 ^ 63 - 8 →
    unmarshal (ds.flatMap (·.1)) = .ok ⟨(ds.filterMap (·.2.message)).getLast?, ds.flatMap (·.2.unrec)⟩
  | [], _, _ => rfl
  | (d, m) :: ds, h, hs => by
    simp only [List.flatMap_cons] at hs ⊢
    have ih := unmarshal_stream ds (fun x hx => h x (by simp [hx])) (by simp only [List.length_append] at hs; omega)
    rw [unmarshal_joined hs (h (d, m) (by simp)) ih]
    congr 2
    cases hm : m.message with
    | none => simp [hm]
    | some l =>
      rw [List.filterMap_cons_some (by exact hm), List.getLast?_cons]
      cases (List.filterMap (fun x => x.2.message) ds).getLast? <;> rfl

end Sawmill.Wire

namespace Sawmill.Wire

/-- A log with one field: every strict part of the 9 bytes. -/
example : ∃ bs, marshal ⟨some (.mk (.mk [([97], .nil)] []) []), []⟩ = .ok bs ∧ bs.length = 9 ∧ ∀ k, 0 < k → k < 9 → unmarshal (bs.take k) = .err .unexpectedEOF := by
  have hn : NoNil ⟨some (.mk (.mk [([97], .nil)] []) []), []⟩ := by simp [NoNil, NoNilFields]
  obtain ⟨bs, h1, h2, _⟩ := marshal_exact hn
  have : sizeWrapper ⟨some (.mk (.mk [([97], .nil)] []) []), []⟩ = 9 := by decide +kernel
  rw [this] at h2
  exact ⟨bs, h1, h2, fun k h0 hk => marshal_cut rfl h1 (by omega) h0 (by omega)⟩

/-- `liberalMessage` has two logs: cut between them, the first is left. -/
example : unmarshal (liberalMessage.take 2) = .ok ⟨some (.mk .nil []), []⟩ ∧ unmarshal (liberalMessage.take 3) = .err .unexpectedEOF := ⟨rfl, rfl⟩

/-- Two messages joined: the second log, and the unknown fields of both. -/
example : unmarshal ([10, 0, 16, 5] ++ [10, 4, 10, 2, 10, 0, 16, 6]) = .ok ⟨some (.mk (.mk [([], .nil)] []) []), [16, 5] ++ [16, 6]⟩ :=
  unmarshal_joined (by simp) (m := ⟨some (.mk .nil []), [16, 5]⟩) (m' := ⟨some (.mk (.mk [([], .nil)] []) []), [16, 6]⟩) rfl rfl

/-- An error that cutting does not give: bytes that are refused may be accepted when the end is missing, so the hypothesis of `unmarshal_cut` is needed. -/
example : unmarshal [10, 0, 8] = .err .wrongWireType ∧ unmarshal ([10, 0, 8].take 2) = .ok ⟨some (.mk .nil []), []⟩ := ⟨rfl, rfl⟩

end Sawmill.Wire

namespace Sawmill

open Rfc

/-! ## JSON -/

theorem parse_object {es : List (Bytes × Json)} {d : Nat} {t : Bytes} (h : Text (.obj es) t) (hd : depth (.obj es) ≤ d) (rest : Bytes) : parseValue d (t ++ rest) = some (.obj es, rest) := by
  cases d with
  | zero => simp [depth] at hd
  | succ d =>
    match es with
    | [] =>
      obtain ⟨u, rfl, hu⟩ := h
      unfold parseValue
      simp only [List.cons_append, List.append_assoc, List.nil_append]
      rw [show ∀ l : Bytes, (123 :: l).dropWhile isWs = 123 :: l from fun l => rfl]
      simp only [show ¬ ((123 : UInt8) = 34) by decide, show ¬ ((123 : UInt8) = 91) by decide, ↓reduceIte]
      rw [dropWs_cons hu ws_125]
      rfl
    | (k, j) :: es =>
      obtain ⟨w0, q, w1, w2, u, w3, r, rfl, hw0, hw1, hw2, hw3, hq, hj, hes⟩ := h
      simp only [depth, depthE] at hd
      have hrd := parse_complete j d u hj (by omega)
      have hit := entries_complete es d r hes (by omega) j u k q hrd hq (r.length + rest.length + w3.length + w2.length + w1.length + w0.length + q.length + u.length + 4) w0 w1 w2 w3 rest hw0 hw1 hw2 hw3 (by omega)
      unfold parseValue
      simp only [List.cons_append, List.append_assoc, List.nil_append] at hit ⊢
      rw [show ∀ l : Bytes, (123 :: l).dropWhile isWs = 123 :: l from fun l => rfl]
      simp only [show ¬ ((123 : UInt8) = 34) by decide, show ¬ ((123 : UInt8) = 91) by decide, ↓reduceIte]
      rw [dropWs_cons hw0 ws_34]
      have hl : (w0 ++ 34 :: (q ++ 34 :: (w1 ++ 58 :: (w2 ++ (u ++ (w3 ++ (r ++ 125 :: rest))))))).length = r.length + rest.length + w3.length + w2.length + w1.length + w0.length + q.length + u.length + 4 := by
        simp only [List.length_append, List.length_cons]; omega
      rw [hl, hit]
      rfl

/-- A text that begins with `{` is an object. -/
theorem object_of_brace {j : Json} {r : Bytes} (h : Text j (123 :: r)) : ∃ es, j = .obj es := by
  match j, h with
  | .obj es, _ => exact ⟨es, rfl⟩
  | .null, h => rw [Text, lit_null] at h; simp at h
  | .bool b, h =>
    simp only [Text] at h
    cases b <;> simp [lit_true, lit_false] at h
  | .num n, h =>
    simp only [Text] at h
    obtain ⟨rfl, h⟩ := h
    rcases number_iff.1 h with ⟨r, h, _⟩ | ⟨r, h, _⟩ | ⟨b, r, h, _, hd, _⟩
    · simp at h
    · simp at h
    · simp only [List.cons.injEq] at h
      rw [← h.1] at hd
      exact absurd hd (by decide)
  | .str s, h => obtain ⟨u, h, _⟩ := h; simp at h
  | .arr [], h => obtain ⟨u, h, _⟩ := h; simp at h
  | .arr (_ :: _), h => obtain ⟨_, _, _, _, h, _⟩ := h; simp at h

/-- What `json.Marshal` returns is `null` or an object, with no space around it. -/
theorem marshalEvent_form {env : JEnv} {n : Nat} {h : Heap} {e : Event} {bs : Bytes} (hm : marshalEvent env n h e = .ok bs) :
    bs = lit "null" ∨ ∃ es, Text (.obj es) bs ∧ depth (.obj es) ≤ 10000 := by
  unfold marshalEvent at hm
  obtain ⟨t, ht, hc⟩ := bind_eq_ok hm
  unfold compact at hc
  split at hc
  · rename_i hp
    simp only [JOut.ok.injEq] at hc
    subst hc
    cases e with
    | none => simp only [JOut.ok.injEq] at ht; exact .inl ht.symm
    | some m =>
      simp only at ht
      obtain ⟨b, _, hb⟩ := bind_eq_ok ht
      simp only [JOut.ok.injEq] at hb
      obtain ⟨j, hj⟩ := Option.isSome_iff_exists.1 hp
      obtain ⟨⟨w, u, w', he, hw, hw', hu⟩, hd⟩ := parseDoc_iff.1 hj
      right
      -- no space in front
      have hw0 : w = [] := by
        cases w with
        | nil => rfl
        | cons x w =>
          have : x = 123 := by
            rw [← hb] at he
            simp only [List.cons_append, List.cons.injEq] at he
            exact he.1.symm
          subst this
          rcases hw 123 (by simp) with h | h | h | h <;> exact absurd h (by decide)
      -- and none behind
      have hw0' : w' = [] := by
        rcases List.eq_nil_or_concat w' with h | ⟨w'', x, h⟩
        · exact h
        · rw [List.concat_eq_append] at h
          subst h
          have hl : x = 125 := by
            have h1 : (w ++ u ++ (w'' ++ [x])).getLast? = some x := by rw [← List.append_assoc]; simp
            have h2 : t.getLast? = some 125 := by
              rw [← hb]
              show ((123 :: b) ++ [125]).getLast? = some 125
              exact List.getLast?_concat
            rw [he, h1] at h2
            exact Option.some.inj h2
          subst hl
          rcases hw' 125 (by simp) with h | h | h | h <;> exact absurd h (by decide)
      subst hw0 hw0'
      simp only [List.nil_append, List.append_nil] at he
      subst he
      obtain ⟨es, rfl⟩ := object_of_brace (hb ▸ hu)
      exact ⟨es, hu, hd⟩
  · cases hc

theorem parseDoc_behind {t q : Bytes} {j : Json} (h : ∀ rest, parseValue maxNestingDepth (t ++ rest) = some (j, rest)) : (Ws q → parseDoc (t ++ q) = some j) ∧ (¬ Ws q → parseDoc (t ++ q) = none) := by
  unfold parseDoc
  rw [h q]
  dsimp only
  constructor
  · intro hq
    have := dropWs (l := []) hq (by intro b r h; simp at h)
    rw [List.append_nil] at this
    rw [if_pos this]
  · intro hq
    rw [if_neg]
    intro hd
    obtain ⟨w, h1, h2⟩ := dropWs_split q
    rw [hd, List.append_nil] at h1
    exact hq (h1 ▸ h2)

theorem marshalEvent_parse {env : JEnv} {n : Nat} {h : Heap} {e : Event} {bs : Bytes} (hm : marshalEvent env n h e = .ok bs) :
    ∃ j, ∀ rest, parseValue maxNestingDepth (bs ++ rest) = some (j, rest) := by
  rcases marshalEvent_form hm with rfl | ⟨es, ht, hd⟩
  · exact ⟨.null, fun rest => rfl⟩
  · exact ⟨_, parse_object ht hd⟩

/-- If bytes are missing at the end of the JSON of an event, it is not decoded, not even as another event. -/
theorem json_cut {env : JEnv} {n : Nat} {h : Heap} {e : Event} {bs : Bytes} (hm : marshalEvent env n h e = .ok bs) {p q : Bytes} (he : bs = p ++ q) (hq : q ≠ []) (env' : JEnv) (h2 : Heap) :
    unmarshalEvent env' p h2 = none := by
  have key : parseDoc p = none := by
    cases hp : parseDoc p with
    | none => rfl
    | some j =>
      exfalso
      rcases marshalEvent_form hm with hn | ⟨es, ht, hd⟩
      · rw [he, lit_null] at hn
        match p, hn with
        | [], _ => cases hp
        | [_], hn => simp only [List.cons_append, List.cons.injEq] at hn; rw [hn.1] at hp; cases hp
        | [_, _], hn => simp only [List.cons_append, List.cons.injEq] at hn; rw [hn.1, hn.2.1] at hp; cases hp
        | [_, _, _], hn => simp only [List.cons_append, List.cons.injEq] at hn; rw [hn.1, hn.2.1, hn.2.2.1] at hp; cases hp
        | _ :: _ :: _ :: _ :: p, hn => simp at hn; exact hq hn.2.2.2.2.2
      · obtain ⟨⟨w, u, w', hpe, hw, hw', hu⟩, hdj⟩ := parseDoc_iff.1 hp
        have hbr : ∃ r, bs = 123 :: r := by
          match es, ht with
          | [], ht => obtain ⟨_, h, _⟩ := ht; exact ⟨_, h⟩
          | (_, _) :: _, ht => obtain ⟨_, _, _, _, _, _, _, h, _⟩ := ht; exact ⟨_, h⟩
        obtain ⟨r, hr⟩ := hbr
        obtain ⟨b, ur, hur, hb, _, _⟩ := text_head hu
        have hw0 : w = [] := by
          cases w with
          | nil => rfl
          | cons x w =>
            rw [he, hpe] at hr
            simp only [List.cons_append, List.cons.injEq] at hr
            rcases hw x (by simp) with h | h | h | h <;> rw [hr.1] at h <;> exact absurd h (by decide)
        subst hw0
        have hb0 : b = 123 := by
          rw [he, hpe, hur] at hr
          simp only [List.nil_append, List.cons_append, List.cons.injEq] at hr
          exact hr.1
        subst hb0
        obtain ⟨es', rfl⟩ := object_of_brace (hur ▸ hu)
        have h1 := parse_object hu hdj (w' ++ q)
        have h2 := parse_object ht hd []
        rw [List.append_nil, he, hpe, List.nil_append, List.append_assoc, h1] at h2
        simp only [Option.some.injEq, Prod.mk.injEq, List.append_eq_nil_iff] at h2
        exact hq h2.2.2
  simp [unmarshalEvent, key]

/-- Behind the JSON of an event only space is allowed, and it makes no difference. -/
theorem json_joined {env : JEnv} {n : Nat} {h : Heap} {e : Event} {bs : Bytes} (hm : marshalEvent env n h e = .ok bs) (q : Bytes) (env' : JEnv) (h2 : Heap) :
    (Ws q → unmarshalEvent env' (bs ++ q) h2 = unmarshalEvent env' bs h2) ∧ (¬ Ws q → unmarshalEvent env' (bs ++ q) h2 = none) := by
  obtain ⟨j, hj⟩ := marshalEvent_parse hm
  have hb := (parseDoc_behind (q := []) hj).1 (by intro b h; simp at h)
  rw [List.append_nil] at hb
  constructor
  · intro hq
    simp only [unmarshalEvent, (parseDoc_behind hj).1 hq, hb]
  · intro hq
    simp only [unmarshalEvent, (parseDoc_behind hj).2 hq]

/-- The JSON of two events, one behind the other, with or without space in between, is no JSON of an event. -/
theorem json_two {env : JEnv} {n n' : Nat} {h h' : Heap} {e e' : Event} {bs bs' : Bytes} (hm : marshalEvent env n h e = .ok bs) (hm' : marshalEvent env n' h' e' = .ok bs') (w : Bytes) (env' : JEnv)
    (h2 : Heap) : unmarshalEvent env' (bs ++ (w ++ bs')) h2 = none := by
  refine (json_joined hm _ env' h2).2 fun hw => ?_
  have hb : ∀ b ∈ bs', b = 32 ∨ b = 9 ∨ b = 10 ∨ b = 13 := fun b hb => hw b (by simp [hb])
  rcases marshalEvent_form hm' with rfl | ⟨es, ht, _⟩
  · have := hb 110 (by rw [lit_null]; simp)
    revert this; decide
  · obtain ⟨b, r, rfl, hb', _⟩ := text_head ht
    have := isWs_iff.2 (hb b (by simp))
    rw [this] at hb'
    cases hb'

/-- `{"a":true}`, and the same without the last byte, with a line feed, and twice. -/
theorem json_cut_sample : ∃ bs, marshalEvent bitsEnv 2 [.cell (boolCell true), .map [([97], some 0)]] (some 1) = .ok bs ∧ (unmarshalEvent bitsEnv bs []).isSome = true ∧
    unmarshalEvent bitsEnv bs.dropLast [] = none ∧ (unmarshalEvent bitsEnv (bs ++ [10]) []).isSome = true ∧ unmarshalEvent bitsEnv (bs ++ ([10] ++ bs)) [] = none := by
  have hm : marshalEvent bitsEnv 2 [.cell (boolCell true), .map [([97], some 0)]] (some 1) = .ok [123, 34, 97, 34, 58, 116, 114, 117, 101, 125] := by decide +kernel
  have hi : (unmarshalEvent bitsEnv [123, 34, 97, 34, 58, 116, 114, 117, 101, 125] []).isSome = true := by decide +kernel
  refine ⟨_, hm, hi, ?_, ?_, json_two hm hm [10] bitsEnv []⟩
  · exact json_cut hm (q := [125]) rfl (by simp) bitsEnv []
  · rw [(json_joined hm [10] bitsEnv []).1 (by simp [Ws])]; exact hi

end Sawmill
