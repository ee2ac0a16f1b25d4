import Verif.Lemmas.JsonDec
import Verif.Lemmas.JsonTidy
import Verif.Props.Event
/-!
# C49, C50: events as JSON
-/

namespace Sawmill
open Rfc ATree

/-! ## Decoding (C50) -/

theorem unmarshalEvent_object_spec {env : JEnv} (h : Heap) {bs : Bytes} {es : List (Bytes × Json)} (hd : Document (.obj es) bs) (hn : depthE es < 10000) :
    (¬ InRangeE env es → unmarshalEvent env bs h = none) ∧
    (InRangeE env es → ∃ (h' : Heap) (f : AFields), unmarshalEvent env bs h = some (h', f.event) ∧ Owns h' f ∧ f.erase = some (AMap.ofEntries (jsonValE env es) []) ∧
      (∀ a ∈ f.fp, h.length ≤ a) ∧ Frame [] h h') := by
  have hp : parseDoc bs = some (.obj es) := parseDoc_iff.2 ⟨hd, by simp only [depth]; omega⟩
  have o : OwnsMap (h ++ [.map []]) h.length [] := ⟨by simp [ptrMap, AMap.mapVals], AMap.sorted_nil, by simp [RepE], by simp [fpE]⟩
  have ih := decodeEntries_spec (env := env) es (h ++ [.map []]) o (h0 := h) (frame_alloc _ _) (Nat.le_refl _) (by simp [fpE])
  simp only [unmarshalEvent, hp]
  refine ⟨fun hr => by rw [ih.1 hr]; rfl, fun hr => ?_⟩
  obtain ⟨h1, ts, e, o1, k2, k4, k5⟩ := ih.2 hr
  rw [e]
  refine ⟨h1, some (h.length, ts), rfl, ⟨o1.at_, o1.sorted, o1.rep, o1.nodup⟩, ?_, ?_, k5⟩
  · simp only [AFields.erase, Option.some.injEq]
    rw [k2]; rfl
  · intro a ha
    simp only [AFields.fp, List.mem_cons] at ha
    rcases ha with rfl | ha
    · exact Nat.le_refl _
    · exact k4 a ha

/-- C50, what is accepted: exactly the texts of the grammar (space around them allowed) that are `null` or an object, are nested at most 10000 deep, and contain no number that is too large for a float64. -/
theorem unmarshalEvent_accepts_iff (env : JEnv) (bs : Bytes) (h : Heap) :
    (∃ r, unmarshalEvent env bs h = some r) ↔ Document .null bs ∨ ∃ es, Document (.obj es) bs ∧ depthE es < 10000 ∧ InRangeE env es := by
  constructor
  · rintro ⟨r, hr⟩
    cases hp : parseDoc bs with
    | none => simp [unmarshalEvent, hp] at hr
    | some j =>
      obtain ⟨h1, h2⟩ := parseDoc_iff.1 hp
      match j with
      | .null => exact .inl h1
      | .obj es =>
        simp only [depth] at h2
        refine .inr ⟨es, h1, by omega, ?_⟩
        refine Classical.byContradiction fun hn => ?_
        rw [(unmarshalEvent_object_spec h h1 (by omega)).1 hn] at hr
        simp at hr
      | .bool _ => simp [unmarshalEvent, hp] at hr
      | .num _ => simp [unmarshalEvent, hp] at hr
      | .str _ => simp [unmarshalEvent, hp] at hr
      | .arr _ => simp [unmarshalEvent, hp] at hr
  · rintro (h1 | ⟨es, h1, h2, h3⟩)
    · exact ⟨(h, none), by simp [unmarshalEvent, parseDoc_iff.2 ⟨h1, by simp [depth]⟩]⟩
    · obtain ⟨h', f, he, _⟩ := (unmarshalEvent_object_spec h h1 h2).2 h3
      exact ⟨_, he⟩

/-- C50, what `null` is decoded to: an event without contents, like a new one. -/
theorem unmarshalEvent_null (env : JEnv) {bs : Bytes} (hd : Document .null bs) (h : Heap) : unmarshalEvent env bs h = some (h, none) := by
  simp [unmarshalEvent, parseDoc_iff.2 ⟨hd, by simp [depth]⟩]

/-- C50, what an object is decoded to: the fields of the text (of several with the same name the last one), in new memory that nothing else refers to; nothing that existed before is changed. -/
theorem unmarshalEvent_object (env : JEnv) {bs : Bytes} {es : List (Bytes × Json)} (hd : Document (.obj es) bs) (hn : depthE es < 10000) (hr : InRangeE env es) (h : Heap) :
    ∃ (h' : Heap) (f : AFields), unmarshalEvent env bs h = some (h', f.event) ∧ Owns h' f ∧ f.erase = some (AMap.ofEntries (jsonValE env es) []) ∧ (∀ a ∈ f.fp, h.length ≤ a) ∧ Frame [] h h' :=
  (unmarshalEvent_object_spec h hd hn).2 hr

/-- C50: an event that was decoded from JSON contains, at every depth, only nil, booleans, floats, strings, arrays and objects; its strings and names are valid UTF-8, and its floats are finite. -/
theorem unmarshalEvent_kinds {env : JEnv} (hl : env.Lawful) {bs : Bytes} {h h' : Heap} {e : Event} (hu : unmarshalEvent env bs h = some (h', e)) :
    ∃ fs : Fields, Holds h' e fs ∧ ∀ es, fs = some es → Val.JsonOnlyE es ∧ Val.ValidTextE es ∧ Val.FiniteFloatsE es ∧ AMap.Sorted es ∧ Val.CanonE es ∧ Val.nestE es < 10000 := by
  rcases (unmarshalEvent_accepts_iff env bs h).1 ⟨_, hu⟩ with hd | ⟨es, hd, hn, hr⟩
  · rw [unmarshalEvent_null env hd h] at hu
    simp only [Option.some.injEq, Prod.mk.injEq] at hu
    exact ⟨none, hu.2.symm, by simp⟩
  · obtain ⟨h1, f, he, ho, hc, _⟩ := unmarshalEvent_object env hd hn hr h
    rw [hu] at he
    simp only [Option.some.injEq, Prod.mk.injEq] at he
    obtain ⟨rfl, rfl⟩ := he
    refine ⟨_, hc ▸ ho.holds, ?_⟩
    intro es' hes
    simp only [Option.some.injEq] at hes
    subst hes
    have h1 := jsonVal_jsonOnly (env := env) (.obj es)
    have h2 := jsonVal_canon (env := env) (.obj es)
    have h3 := jsonVal_nest (env := env) (.obj es)
    have h4 := jsonVal_finite hl (.obj es)
    obtain ⟨_, t, _, _, _, _, ht⟩ := hd
    have h5 := jsonVal_valid (env := env) (.obj es) t ht
    simp only [jsonVal, Val.nest, depth] at h3
    exact ⟨h1, h5, h4, h2.1, h2.2, by omega⟩

/-! ## Encoding -/

/-- C49, encoding: the JSON of an event is a text that says what the event contains; it is an error exactly if the event contains an infinity or NaN, or is nested more than 10000 deep. -/
theorem marshalEvent_spec {env : JEnv} (hl : env.Lawful) {h : Heap} {e : Event} {es : AMap Val} (hh : Holds h e (some es)) :
    ∃ N, (Val.FiniteFloatsE es ∧ Val.nestE es < 10000 → ∃ bs js, (∀ n, N ≤ n → marshalEvent env n h e = .ok bs) ∧ Text (.obj js) bs ∧ SaysE env es js) ∧
      (¬ (Val.FiniteFloatsE es ∧ Val.nestE es < 10000) → ∀ n, N ≤ n → marshalEvent env n h e = .error) := by
  obtain ⟨m, ps, rfl, hm, hr⟩ := hh
  have key : ∀ n, Val.depthE es ≤ n → EncVal env (.obj es) (marshalEvent env n h (some m)) := by
    intro n hn
    simp only [marshalEvent, mapOf_at hm]
    exact encObj (marshalFields_spec hl es hr n hn)
  refine ⟨Val.depthE es, ?_, ?_⟩
  · rintro ⟨h1, h2⟩
    have hok : (Val.obj es).FiniteFloats ∧ (Val.obj es).nest ≤ 10000 := ⟨h1, by simp only [Val.nest]; omega⟩
    rcases key _ (Nat.le_refl _) with ⟨_, t, he, j, ht, hs⟩ | ⟨hno, _⟩
    · obtain ⟨js, rfl, hse⟩ := hs
      refine ⟨t, js, ?_, ht, hse⟩
      intro n hn
      -- more fuel gives the same text
      have := marshalEvent_mono env h (some m) hn (by rw [he]; simp)
      rw [this, he]
    · exact absurd hok hno
  · intro hno n hn
    rcases key n hn with ⟨hok, _⟩ | ⟨_, he⟩
    · exact absurd ⟨hok.1, by have := hok.2; simp only [Val.nest] at this; omega⟩ hno
    · exact he

/-- C49, an event without contents (a new one) is `null`, and decoding that gives an event without contents. -/
theorem json_round_trip_empty (env : JEnv) (n : Nat) (h h2 : Heap) : marshalEvent env n h none = .ok (lit "null") ∧ unmarshalEvent env (lit "null") h2 = some (h2, none) := by
  refine ⟨?_, unmarshalEvent_null env (document_text text_null) h2⟩
  simp only [marshalEvent, bind_ok]
  exact compact_ok text_null (by simp [depth])

/-! ## There and back (C49) -/

/-- C49: decoding the JSON of an event gives an event with the same fields, except for what JSON does not express: integers come back as floats, timestamps as strings, nulls (and nil slices and nil maps) as nil pointers, and bytes that are not valid UTF-8 as U+FFFD. -/
theorem json_round_trip {env : JEnv} (hl : env.Lawful) {h : Heap} {e : Event} {es : AMap Val} (hh : Holds h e (some es)) (hf : Val.FiniteFloatsE es) (hn : Val.nestE es < 10000) :
    ∃ bs es', (∃ N, ∀ n, N ≤ n → marshalEvent env n h e = .ok bs) ∧ BackE env es es' ∧
      ∀ h2, ∃ (h3 : Heap) (f : AFields), unmarshalEvent env bs h2 = some (h3, f.event) ∧ Owns h3 f ∧ f.erase = some (AMap.ofEntries es' []) ∧ (∀ a ∈ f.fp, h2.length ≤ a) ∧ Frame [] h2 h3 := by
  obtain ⟨N, h1, _⟩ := marshalEvent_spec hl hh
  obtain ⟨bs, js, hm, ht, hs⟩ := h1 ⟨hf, hn⟩
  obtain ⟨hr, hb⟩ := says_backE hl es js hf hs
  refine ⟨bs, jsonValE env js, ⟨N, hm⟩, hb, fun h2 => ?_⟩
  refine unmarshalEvent_object env (document_text ht) ?_ hr h2
  rw [says_depthE es js hs]; exact hn

/-- C49, when nothing is lost: decoding the JSON of an event gives back an equal event exactly if the event contains (at every depth) only nil, booleans, floats, strings, arrays and objects, and its strings and names are valid UTF-8. -/
theorem json_round_trip_exact {env : JEnv} (hl : env.Lawful) {h : Heap} {e : Event} {es : AMap Val} (hh : Holds h e (some es)) (hs : AMap.Sorted es) (hc : Val.CanonE es)
    (hf : Val.FiniteFloatsE es) (hn : Val.nestE es < 10000) :
    ∃ bs, (∃ N, ∀ n, N ≤ n → marshalEvent env n h e = .ok bs) ∧
      ∀ h2, ∃ (h3 : Heap) (f : AFields), unmarshalEvent env bs h2 = some (h3, f.event) ∧ Owns h3 f ∧ (f.erase = some es ↔ Val.JsonOnlyE es ∧ Val.ValidTextE es) := by
  obtain ⟨bs, es', hm, hb, hu⟩ := json_round_trip hl hh hf hn
  refine ⟨bs, hm, fun h2 => ?_⟩
  obtain ⟨h3, f, h4, h5, h6, _⟩ := hu h2
  refine ⟨h3, f, h4, h5, ?_⟩
  rw [h6, Option.some.injEq]
  exact backE_self_iff hs hc hb

/-- C49: what was once decoded from JSON (whatever text) survives encoding and decoding unchanged. -/
theorem json_round_trip_settles {env : JEnv} (hl : env.Lawful) {bs : Bytes} {h h1 : Heap} {e1 : Event} (hu : unmarshalEvent env bs h = some (h1, e1)) :
    ∃ (fs : Fields) (bs' : Bytes), Holds h1 e1 fs ∧ (∃ N, ∀ n, N ≤ n → marshalEvent env n h1 e1 = .ok bs') ∧
      ∀ h2, ∃ (h3 : Heap) (e3 : Event), unmarshalEvent env bs' h2 = some (h3, e3) ∧ Holds h3 e3 fs := by
  obtain ⟨fs, hh, hk⟩ := unmarshalEvent_kinds hl hu
  cases fs with
  | none =>
    obtain rfl : e1 = none := hh
    refine ⟨none, lit "null", rfl, ⟨0, fun n _ => (json_round_trip_empty env n h1 h1).1⟩, fun h2 => ⟨h2, none, (json_round_trip_empty env 0 h1 h2).2, rfl⟩⟩
  | some es =>
    obtain ⟨k1, k2, k3, k4, k5, k6⟩ := hk es rfl
    obtain ⟨bs', hm, hx⟩ := json_round_trip_exact hl hh k4 k5 k3 k6
    refine ⟨some es, bs', hh, hm, fun h2 => ?_⟩
    obtain ⟨h3, f, h4, h5, h6⟩ := hx h2
    exact ⟨h3, f.event, h4, by rw [← h6.2 ⟨k1, k2⟩]; exact h5.holds⟩

/-! ## The assumptions can be met, and examples -/

/-- A way to print and read floats that is lossless (not the one of Go): the bits as a decimal number. -/
def bitsEnv : JEnv where
  ftoa f := itoa f.toNat
  atof t := (Cal.number (if t.head? = some 45 then t.tail else t)).map fun n => if finite (BitVec.ofNat 64 n) then BitVec.ofNat 64 n else 0

theorem bitsEnv_lawful : bitsEnv.Lawful where
  number f _ := by
    have := number_sign_int (.inl rfl) (itoa_intPart f.toNat)
    simpa [bitsEnv] using this
  exact f hf := by
    have hh : (itoa f.toNat).head? ≠ some 45 := by
      intro h
      cases hi : itoa f.toNat with
      | nil => rw [hi] at h; simp at h
      | cons b r =>
        have := itoa_digits f.toNat b (by rw [hi]; simp)
        rw [hi] at h
        simp only [List.head?_cons, Option.some.injEq] at h
        subst h
        revert this; decide
    simp only [bitsEnv, if_neg hh, number_itoa, Option.map_some, BitVec.ofNat_toNat, BitVec.setWidth_eq, hf, if_true]
  finite t f h := by
    simp only [bitsEnv, Option.map_eq_some_iff] at h
    obtain ⟨n, _, rfl⟩ := h
    split
    · assumption
    · decide +kernel
  int t i hi _ _ := by
    obtain ⟨_, d, h1, h2⟩ := hi
    have hd : (if t.head? = some 45 then t.tail else t) = d := by
      by_cases hneg : i < 0
      · rw [if_pos hneg] at h1
        subst h1
        simp
      · rw [if_neg hneg, List.nil_append] at h1
        subst h1
        rw [if_neg]
        intro hc
        cases t with
        | nil => simp at hc
        | cons b r =>
          simp only [List.head?_cons, Option.some.injEq] at hc
          subst hc
          have : ∀ r : Bytes, (r.foldl (fun acc b => acc.bind fun n => if isDigit b then some (10 * n + (b.toNat - 48)) else none) (none : Option Nat)) = none := by
            intro r
            induction r with
            | nil => rfl
            | cons b r ih => simpa using ih
          rw [Cal.number, List.foldl_cons] at h2
          simp [not_digit_minus, this] at h2
    simp [bitsEnv, hd, h2]

/-- Encoding and decoding the sample event: it contains an integer and a null, so it does not come back equal. -/
example : ∃ bs, (∃ N, ∀ n, N ≤ n → marshalEvent bitsEnv n sampleHeap.1 (AFields.event sampleHeap.2.1) = .ok bs) ∧
    ∀ h2, ∃ (h3 : Heap) (f : AFields), unmarshalEvent bitsEnv bs h2 = some (h3, f.event) ∧ Owns h3 f ∧ f.erase ≠ some sampleFields := by
  have hh := Owns.holds sample_owns.1
  rw [sample_owns.2.2.2.2] at hh
  obtain ⟨bs, hm, hx⟩ := json_round_trip_exact bitsEnv_lawful hh (by decide) (by simp [sampleFields, Val.CanonE, Val.Canon, Val.CanonL, AMap.Sorted])
    (by simp [sampleFields, Val.FiniteFloatsE, Val.FiniteFloats, Val.FiniteFloatsL]) (by simp [sampleFields, Val.nestE, Val.nest, Val.nestL])
  refine ⟨bs, hm, fun h2 => ?_⟩
  obtain ⟨h3, f, h4, h5, h6⟩ := hx h2
  refine ⟨h3, f, h4, h5, fun hc => ?_⟩
  have := (h6.1 hc).1
  simp [sampleFields, Val.JsonOnlyE, Val.JsonOnly, Val.JsonOnlyL] at this

/-- An event that does come back equal. -/
example : ∃ (h : Heap) (e : Event) (es : AMap Val), Holds h e (some es) ∧ AMap.Sorted es ∧ Val.CanonE es ∧ Val.FiniteFloatsE es ∧ Val.nestE es < 10000 ∧ Val.JsonOnlyE es ∧ Val.ValidTextE es ∧ es.length = 2 := by
  refine ⟨[.cell (strCell []), .cell (boolCell true), .cell (arrCell (some [some 1, none])), .map [([97], some 2), ([98], some 0)]], some 3,
    [([97], .arr [.scalar (.bool true), .nilp]), ([98], .scalar (.str []))], ?_, by decide, ?_, ?_, ?_, ?_, ?_, rfl⟩
  · refine ⟨3, _, rfl, rfl, rfl, ⟨_, rfl, rfl, rfl, trivial⟩, rfl, rfl, trivial⟩
  · simp [Val.CanonE, Val.Canon, Val.CanonL]
  · simp [Val.FiniteFloatsE, Val.FiniteFloats, Val.FiniteFloatsL]
  · simp [Val.nestE, Val.nest, Val.nestL]
  · simp [Val.JsonOnlyE, Val.JsonOnly, Val.JsonOnlyL]
  · exact ⟨⟨['a'], by decide +kernel⟩, ⟨trivial, trivial, trivial⟩, ⟨['b'], by decide +kernel⟩, ⟨[], rfl⟩, trivial⟩

/-- C50: of two fields with the same name the last one counts: `{"a":1,"a":[null,"é"]}`. -/
theorem json_duplicate_name : unmarshalEvent bitsEnv [123, 34, 97, 34, 58, 49, 44, 34, 97, 34, 58, 91, 110, 117, 108, 108, 44, 34, 92, 117, 48, 48, 101, 57, 34, 93, 125] [] =
    some ([.map [([97], some 3)], .cell (floatCell 1), .cell (strCell [195, 169]), .cell (arrCell (some [none, some 2]))], some 0) := by
  decide +kernel

/-- C49, C50: neither arrays nor scalars are accepted as events, and neither are numbers that are too large (here: not understood). -/
theorem json_rejected : unmarshalEvent bitsEnv [91, 93] [] = none ∧ unmarshalEvent bitsEnv [49] [] = none ∧ unmarshalEvent bitsEnv [123, 34, 97, 34, 58, 49, 101, 57, 57, 57, 125] [] = none ∧
    unmarshalEvent bitsEnv [123, 34, 97, 34, 58, 48, 49, 125] [] = none := by
  decide +kernel

/-- C49: two names that differ only in invalid bytes become one: a field is lost. -/
theorem json_names_collide : ∃ bs, (∀ n, 2 ≤ n → marshalEvent bitsEnv n [.cell (boolCell true), .cell (boolCell false), .map [([254], some 0), ([255], some 1)]] (some 2) = .ok bs) ∧
    unmarshalEvent bitsEnv bs [] = some ([.map [([239, 191, 189], some 2)], .cell (boolCell true), .cell (boolCell false)], some 0) := by
  have hm : marshalEvent bitsEnv 2 [.cell (boolCell true), .cell (boolCell false), .map [([254], some 0), ([255], some 1)]] (some 2) = .ok [123, 34, 92, 117, 102, 102, 102, 100, 34, 58, 116, 114, 117, 101, 44, 34, 92, 117, 102, 102, 102, 100, 34, 58, 102, 97, 108, 115, 101, 125] := by decide +kernel
  refine ⟨_, fun n hn => (marshalEvent_mono bitsEnv _ _ hn (by rw [hm]; simp)).trans hm, ?_⟩
  decide +kernel

theorem cyclic_marshal {env : JEnv} {h : Heap} {m a : Nat} (hh : h[m]? = some (.map [(lit "a", some a)])) (hc : h[a]? = some (.cell (objCell (some m)))) (n : Nat) :
    marshalPtr env h n (some a) = .fuel := by
  induction n with
  | zero => rfl
  | succ n ih =>
    have hd : deref h (some a) = some (objCell (some m)) := by simp [deref, hc]
    have hm : mapOf h (some m) = [(lit "a", some a)] := by simp [mapOf, hh]
    simp only [marshalPtr, hd, objCell, hm, joinText, ih]
    rfl

/-- C49: an event that contains itself, as after `Put("a", …)`, `Put("a", Get("."))`: whatever the bound on the recursion, encoding exceeds it (in Go it exhausts the stack). -/
theorem json_cycle : ∃ h0 p0 h1 e1 h2 r h3 e3 old,
    Heap.alloc [] (.cell (strCell (lit "x"))) = (h0, p0) ∧ apiPut h0 newEvent (lit "a") (some p0) = .ok (h1, e1, none, none) ∧ apiGet h1 e1 (lit ".") = .ok (h2, r) ∧
    apiPut h2 e1 (lit "a") r = .ok (h3, e3, old, none) ∧ ∀ env n, marshalEvent env n h3 e3 = .fuel := by
  refine ⟨[.cell (strCell (lit "x"))], 0, [.cell (strCell (lit "x")), .map [(lit "a", some 0)]], some 1,
    [.cell (strCell (lit "x")), .map [(lit "a", some 0)], .cell (objCell (some 1))], some 2,
    [.cell (strCell (lit "x")), .map [(lit "a", some 2)], .cell (objCell (some 1))], some 1, some 0, rfl, rfl, rfl, rfl, fun env n => ?_⟩
  have hf := cyclic_marshal (env := env) (h := [.cell (strCell (lit "x")), .map [(lit "a", some 2)], .cell (objCell (some 1))]) (m := 1) (a := 2) rfl rfl n
  simp only [marshalEvent, mapOf, List.getElem?_cons_succ, List.getElem?_cons_zero, joinText, hf]
  rfl

/-- C49: a nil slice and a null come back as nil pointers, a timestamp as a string, an integer as a float. -/
theorem json_lossy {env : JEnv} (v w : Val) (h : Back env v w) : (v = .arrNil → w = .nilp) ∧ (v = .scalar .null → w = .nilp) ∧ (∀ t, v = .scalar (.ts t) → ∃ s, w = .scalar (.str s)) ∧
    (∀ i, v = .scalar (.int i) → ∃ f, w = .scalar (.float f)) := by
  refine ⟨?_, ?_, ?_, ?_⟩
  · rintro rfl; exact h
  · rintro rfl; exact h
  · rintro t rfl; obtain ⟨s, rfl, _⟩ := h; exact ⟨s, rfl⟩
  · rintro i rfl; obtain ⟨_, f, _, _, rfl⟩ := h; exact ⟨f, rfl⟩

/-! ## The bytes of the text (C57) -/

/-- C57: if encoding an event succeeds (whatever the event, even if values are shared or it was not built with this API) then the text is valid UTF-8 without control characters, so it has no line break in it, and without `<`, `>`, `&`, U+2028 and U+2029. -/
theorem marshalEvent_tidy {env : JEnv} (hl : env.Lawful) {n : Nat} {h : Heap} {e : Event} {bs : Bytes} (hm : marshalEvent env n h e = .ok bs) : Tidy bs := by
  have : TidyOut (marshalEvent env n h e) := by
    unfold marshalEvent
    refine TidyOut.bind ?_ fun bs hb => tidyOut_compact hb
    split
    · exact tidyOut_ok (tidy_lit (by decide))
    · exact tidy_fields (tidy_marshalPtr hl h n) _
  exact this bs hm

/-- C57, in bytes: nothing below the space, so no line feed. -/
theorem marshalEvent_one_line {env : JEnv} (hl : env.Lawful) {n : Nat} {h : Heap} {e : Event} {bs : Bytes} (hm : marshalEvent env n h e = .ok bs) :
    ∀ b ∈ bs, 32 ≤ b.toNat ∧ b ≠ 10 ∧ b ≠ 60 ∧ b ≠ 62 ∧ b ≠ 38 := by
  intro b hb
  obtain ⟨h1, h2⟩ := (marshalEvent_tidy hl hm).bytes b hb
  refine ⟨h1, ?_, h2⟩
  rintro rfl; revert h1; decide

/-- C57: a string with a line feed, `<`, U+2028 and an invalid byte. -/
theorem tidy_sample : marshalEvent bitsEnv 2 [.cell (strCell [10, 60, 0xE2, 0x80, 0xA8, 255, 0xC3, 0xA9]), .map [([97], some 0)]] (some 1) =
    .ok [123, 34, 97, 34, 58, 34, 92, 110, 92, 117, 48, 48, 51, 99, 92, 117, 50, 48, 50, 56, 92, 117, 102, 102, 102, 100, 0xC3, 0xA9, 34, 125] := by
  decide +kernel

end Sawmill
