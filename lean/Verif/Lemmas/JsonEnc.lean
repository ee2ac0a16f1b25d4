import Verif.Lemmas.JsonDoc
import Verif.Lemmas.Convert
import Verif.Props.Time
/-!
# Encoding events as JSON
-/

namespace Sawmill
open Rfc

/-! ## Numbers and timestamps -/

theorem itoa_intPart (n : Nat) : IntPart (itoa n) := by
  have hd : Digits (itoa n) := ⟨itoa_ne_nil n, fun b hb => isDigit_iff.1 (itoa_digits n b hb)⟩
  by_cases h0 : n = 0
  · subst h0; rw [itoa_lt (by omega)]; exact .inl rfl
  · refine .inr ⟨hd, ?_⟩
    clear hd
    induction n using itoa.induct with
    | case1 n h =>
      rw [itoa_lt h]
      simp only [List.head?_cons, ne_eq, Option.some.injEq]
      intro he
      have := congrArg UInt8.toNat he
      rw [digit_toNat h] at this
      simp at this
      omega
    | case2 n h ih =>
      rw [itoa_ge h]
      have hne := itoa_ne_nil (n / 10)
      cases hi : itoa (n / 10) with
      | nil => exact absurd hi hne
      | cons b r =>
        rw [hi] at ih
        exact ih (by omega)

theorem number_sign_int {s t : Bytes} (hs : s = [] ∨ s = [45]) (ht : IntPart t) : Number (s ++ t) :=
  ⟨s, t, [], [], by simp, hs, ht, .inl rfl, .inl rfl⟩

theorem intLit_int (i : Int) : IntLit (intText i) i := by
  unfold intText
  constructor
  · refine number_sign_int ?_ (itoa_intPart _)
    split
    · exact .inr rfl
    · exact .inl rfl
  · obtain ⟨d, h1, h2⟩ := timestamp_string i
    refine ⟨itoa i.natAbs, rfl, ?_⟩
    unfold timeString appendInt at h1
    simp only [Nat.zero_sub, List.replicate_zero, List.append_nil] at h1
    rw [List.append_cancel_left h1]
    exact h2

theorem intLit_nat (n : Nat) : IntLit (itoa n) n := by
  have := intLit_int (n : Int)
  unfold intText at this
  rw [if_neg (by omega)] at this
  exact this

/-- Printable ASCII, neither quote nor backslash. -/
def plainByte (b : UInt8) : Prop := 32 ≤ b.toNat ∧ b.toNat < 128 ∧ b ≠ 34 ∧ b ≠ 92

theorem plain_digit {b : UInt8} (h : isDigit b = true) : plainByte b := by
  refine ⟨?_, ?_, ?_, ?_⟩
  · have := isDigit_iff.1 h; omega
  · have := isDigit_iff.1 h; omega
  · rintro rfl; revert h; decide
  · rintro rfl; revert h; decide

theorem chars_plain {s : Bytes} (h : ∀ b ∈ s, plainByte b) : Chars s s := by
  induction s with
  | nil => exact .nil
  | cons b s ih =>
    obtain ⟨h1, h2, h3, h4⟩ := h b (by simp)
    exact .ascii b s s h1 h2 h3 h4 (ih fun x hx => h x (by simp [hx]))

theorem appendInt_plain (x : Int) (w : Nat) : ∀ b ∈ appendInt x w, plainByte b := by
  intro b hb
  unfold appendInt at hb
  simp only [List.mem_append, List.mem_replicate] at hb
  rcases hb with (hb | ⟨_, rfl⟩) | hb
  · split at hb
    · simp only [List.mem_singleton] at hb
      subst hb
      exact ⟨by decide, by decide, by decide, by decide⟩
    · simp at hb
  · exact plain_digit (by decide)
  · exact plain_digit (itoa_digits _ b hb)

theorem formatNano_plain (n : Nat) : ∀ b ∈ formatNano n, plainByte b := by
  intro b hb
  unfold formatNano at hb
  simp only at hb
  split at hb
  · simp at hb
  · simp only [List.mem_cons, List.mem_reverse] at hb
    rcases hb with rfl | hb
    · exact ⟨by decide, by decide, by decide, by decide⟩
    · have := (List.dropWhile_sublist _).subset hb
      rw [List.mem_reverse] at this
      exact appendInt_plain _ _ b this

theorem rfc3339_plain (t : GoTime) : ∀ b ∈ t.rfc3339Nano, plainByte b := by
  intro b hb
  unfold GoTime.rfc3339Nano at hb
  simp only [List.mem_append, List.mem_singleton] at hb
  have lits : ∀ c : UInt8, c = 45 ∨ c = 84 ∨ c = 58 ∨ c = 90 → plainByte c := by
    rintro c (rfl | rfl | rfl | rfl) <;> exact ⟨by decide, by decide, by decide, by decide⟩
  rcases hb with (((((((((((hb | rfl) | hb) | rfl) | hb) | rfl) | hb) | rfl) | hb) | rfl) | hb) | hb) | rfl
  any_goals exact appendInt_plain _ _ b hb
  any_goals exact formatNano_plain _ b hb
  all_goals exact lits _ (by simp)

theorem timestamp_json (t : BitVec 64) : ∃ s, Text (.str s) (timeMarshalJSON t.toInt) ∧ Cal.parseRFC3339 s = some t.toInt := by
  obtain ⟨s, h1, h2⟩ := timestamp_text_denotes (n := t.toInt) ⟨by have := BitVec.le_toInt t; omega, by have := BitVec.toInt_lt (x := t); omega⟩
  refine ⟨s, ⟨s, h1, ?_⟩, h2⟩
  have : s = (timeGoTime t.toInt).rfc3339Nano := by
    unfold timeMarshalJSON at h1
    simp only [List.cons_append, List.nil_append, List.cons.injEq, true_and] at h1
    exact (List.append_cancel_right h1).symm
  rw [this]
  exact chars_plain (rfc3339_plain _)

/-! ## Depths -/

mutual
theorem says_depth {env : JEnv} : ∀ (v : Val) (j : Json), Says env v j → depth j = v.nest
  | .nilp, j, h => by rw [show j = _ from h]; rfl
  | .scalar .null, j, h => by rw [show j = _ from h]; rfl
  | .scalar (.bool b), j, h => by rw [show j = _ from h]; rfl
  | .scalar (.int i), j, h => by obtain ⟨_, rfl, _⟩ := h; rfl
  | .scalar (.uint i), j, h => by obtain ⟨_, rfl, _⟩ := h; rfl
  | .scalar (.float i), j, h => by rw [show j = _ from h]; rfl
  | .scalar (.str i), j, h => by obtain ⟨_, rfl, _⟩ := h; rfl
  | .scalar (.ts i), j, h => by obtain ⟨_, rfl, _⟩ := h; rfl
  | .arrNil, j, h => by rw [show j = _ from h]; rfl
  | .arr vs, j, h => by obtain ⟨js, rfl, h⟩ := h; simp only [depth, Val.nest, says_depthL vs js h]
  | .objNil, j, h => by rw [show j = _ from h]; rfl
  | .obj es, j, h => by obtain ⟨js, rfl, h⟩ := h; simp only [depth, Val.nest, says_depthE es js h]
theorem says_depthL {env : JEnv} : ∀ (vs : List Val) (js : List Json), SaysL env vs js → depthL js = Val.nestL vs
  | [], js, h => by rw [show js = _ from h]; rfl
  | v :: vs, js, h => by obtain ⟨j, r, rfl, h1, h2⟩ := h; simp only [depthL, Val.nestL, says_depth v j h1, says_depthL vs r h2]
theorem says_depthE {env : JEnv} : ∀ (es : List (Bytes × Val)) (js : List (Bytes × Json)), SaysE env es js → depthE js = Val.nestE es
  | [], js, h => by rw [show js = _ from h]; rfl
  | (k, v) :: vs, js, h => by obtain ⟨k', j, r, rfl, _, h1, h2⟩ := h; simp only [depthE, Val.nestE, says_depth v j h1, says_depthE vs r h2]
end

/-! ## Encoding -/

theorem document_text {j : Json} {t : Bytes} (h : Text j t) : Document j t := ⟨[], t, [], by simp, ws_nil, ws_nil, h⟩

theorem compact_ok {j : Json} {t : Bytes} (h : Text j t) (hd : depth j ≤ 10000) : compact t = .ok t := by
  simp [compact, parseDoc_iff.2 ⟨document_text h, hd⟩]

theorem compact_error {j : Json} {t : Bytes} (h : Text j t) (hd : ¬ depth j ≤ 10000) : compact t = .error := by
  have : parseDoc t = none := parseDoc_none_iff.2 (by
    rintro ⟨j', h1, h2⟩
    rw [document_unique h1 (document_text h)] at h2
    exact hd h2)
  simp [compact, this]

/-- What stands between the brackets of an array. -/
def Body (js : List Json) (t : Bytes) : Prop :=
  match js with
  | [] => t = []
  | j :: js => ∃ u r, t = u ++ r ∧ Text j u ∧ TextItems js r

theorem Body.text {js : List Json} {t : Bytes} (h : Body js t) : Text (.arr js) (91 :: (t ++ [93])) := by
  cases js with
  | nil => rw [show t = _ from h]; exact ⟨[], rfl, ws_nil⟩
  | cons j js => obtain ⟨u, r, rfl, h1, h2⟩ := h; exact ⟨[], u, [], r, by simp, ws_nil, ws_nil, h1, h2⟩

/-- What stands between the braces of an object. -/
def BodyE (es : List (Bytes × Json)) (t : Bytes) : Prop :=
  match es with
  | [] => t = []
  | (k, j) :: es => ∃ q u r, t = 34 :: (q ++ 34 :: 58 :: (u ++ r)) ∧ Chars q k ∧ Text j u ∧ TextEntries es r

theorem BodyE.text {es : List (Bytes × Json)} {t : Bytes} (h : BodyE es t) : Text (.obj es) (123 :: (t ++ [125])) := by
  match es with
  | [] => rw [show t = _ from h]; exact ⟨[], rfl, ws_nil⟩
  | (k, j) :: es => obtain ⟨q, u, r, rfl, hq, h1, h2⟩ := h; exact ⟨[], q, [], [], u, [], r, by simp, ws_nil, ws_nil, ws_nil, ws_nil, hq, h1, h2⟩

/-- The outcome of encoding a value: if there is no infinity and no NaN in it and it is not nested too deeply then its text, otherwise an error. -/
def EncOut (ok : Prop) (good : Bytes → Prop) (r : JOut Bytes) : Prop :=
  (ok ∧ ∃ t, r = .ok t ∧ good t) ∨ (¬ ok ∧ r = .error)

def EncVal (env : JEnv) (v : Val) (r : JOut Bytes) : Prop := EncOut (v.FiniteFloats ∧ v.nest ≤ 10000) (fun t => ∃ j, Text j t ∧ Says env v j) r

theorem encLeaf {env : JEnv} {v : Val} {j : Json} {t : Bytes} (h1 : v.FiniteFloats) (h2 : v.nest = 0) (ht : Text j t) (hs : Says env v j) : EncVal env v ((JOut.ok t).bind compact) := by
  have hd : depth j ≤ 10000 := by rw [says_depth v j hs, h2]; omega
  refine .inl ⟨⟨h1, by omega⟩, t, ?_, j, ht, hs⟩
  simp only [JOut.bind]
  exact compact_ok ht hd

theorem text_null : Text .null (lit "null") := rfl

theorem repaired_text (s : Bytes) : ∃ s', Text (.str s') (encStr s) ∧ Repaired s s' := by
  obtain ⟨u, s', h1, h2, h3⟩ := encStr_spec s
  exact ⟨s', ⟨u, h1, h3⟩, h2⟩

theorem joinText_cons {α : Type} (f : α → JOut Bytes) (x y : α) (r : List α) :
    joinText f (x :: y :: r) = (f x).bind fun a => (joinText f (y :: r)).bind fun b => .ok (a ++ 44 :: b) := rfl

theorem bind_error {α β : Type} (f : α → JOut β) : (JOut.error : JOut α).bind f = .error := rfl
theorem bind_ok {α β : Type} (x : α) (f : α → JOut β) : (JOut.ok x).bind f = f x := rfl

theorem encEntry {env : JEnv} {k : Bytes} {v : Val} {r : JOut Bytes} (h : EncVal env v r) :
    EncOut (v.FiniteFloats ∧ v.nest ≤ 10000) (fun t => ∃ k' q j u, t = 34 :: (q ++ 34 :: 58 :: u) ∧ Chars q k' ∧ Repaired k k' ∧ Text j u ∧ Says env v j) (r.bind fun t => .ok (encStr k ++ 58 :: t)) := by
  rcases h with ⟨h, t, rfl, j, h1, h2⟩ | ⟨h, rfl⟩
  · obtain ⟨u, s', e, h3, h4⟩ := encStr_spec k
    exact .inl ⟨h, _, rfl, s', u, j, t, by rw [e]; simp, h4, h3, h1, h2⟩
  · exact .inr ⟨h, rfl⟩

/-- From the texts of the parts to the text of the whole. -/
theorem encArr {env : JEnv} {vs : List Val} {r : JOut Bytes} (h : EncOut (Val.FiniteFloatsL vs ∧ Val.nestL vs ≤ 10000) (fun t => ∃ js, Body js t ∧ SaysL env vs js) r) :
    EncVal env (.arr vs) ((r.bind fun t => .ok (91 :: (t ++ [93]))).bind compact) := by
  rcases h with ⟨h, t, rfl, js, h1, h2⟩ | ⟨h, rfl⟩
  · have hs : Says env (.arr vs) (.arr js) := ⟨js, rfl, h2⟩
    simp only [bind_ok]
    by_cases hd : Val.nestL vs + 1 ≤ 10000
    · exact .inl ⟨⟨h.1, hd⟩, _, compact_ok h1.text (by rw [says_depth _ _ hs]; exact hd), _, h1.text, hs⟩
    · exact .inr ⟨fun hc => hd hc.2, compact_error h1.text (by rw [says_depth _ _ hs]; exact hd)⟩
  · exact .inr ⟨fun hc => h ⟨hc.1, by have := hc.2; simp only [Val.nest] at this; omega⟩, rfl⟩

theorem encObj {env : JEnv} {es : List (Bytes × Val)} {r : JOut Bytes} (h : EncOut (Val.FiniteFloatsE es ∧ Val.nestE es ≤ 10000) (fun t => ∃ js, BodyE js t ∧ SaysE env es js) r) :
    EncVal env (.obj es) ((r.bind fun t => .ok (123 :: (t ++ [125]))).bind compact) := by
  rcases h with ⟨h, t, rfl, js, h1, h2⟩ | ⟨h, rfl⟩
  · have hs : Says env (.obj es) (.obj js) := ⟨js, rfl, h2⟩
    simp only [bind_ok]
    by_cases hd : Val.nestE es + 1 ≤ 10000
    · exact .inl ⟨⟨h.1, hd⟩, _, compact_ok h1.text (by rw [says_depth _ _ hs]; exact hd), _, h1.text, hs⟩
    · exact .inr ⟨fun hc => hd hc.2, compact_error h1.text (by rw [says_depth _ _ hs]; exact hd)⟩
  · exact .inr ⟨fun hc => h ⟨hc.1, by have := hc.2; simp only [Val.nest] at this; omega⟩, rfl⟩

theorem mapOf_at {h : Heap} {m : Nat} {ps : AMap Ptr} (hm : h[m]? = some (.map ps)) : mapOf h (some m) = ps := by
  simp [mapOf, hm]

mutual
theorem marshalPtr_spec {env : JEnv} (hl : env.Lawful) {h : Heap} : ∀ (v : Val) {p : Ptr}, Reads h p v → ∀ (n : Nat), v.depth ≤ n → EncVal env v (marshalPtr env h n p)
  | v, p, hr, 0, hn => by
    cases v <;> simp [Val.depth] at hn
  | .nilp, p, hr, n + 1, hn => by
    rw [show p = _ from hr]
    exact .inl ⟨⟨trivial, by simp [Val.nest]⟩, _, rfl, _, text_null, rfl⟩
  | .scalar .null, p, hr, n + 1, hn => by
    simp only [marshalPtr, show deref h p = _ from hr, scalarCell, nullCell]
    exact encLeaf trivial rfl text_null rfl
  | .scalar (.bool b), p, hr, n + 1, hn => by
    simp only [marshalPtr, show deref h p = _ from hr, scalarCell, boolCell]
    exact encLeaf (j := .bool b) trivial rfl (by simp [Text]) rfl
  | .scalar (.int i), p, hr, n + 1, hn => by
    simp only [marshalPtr, show deref h p = _ from hr, scalarCell, intCell]
    have := intLit_int i.toInt
    exact encLeaf (j := .num _) trivial rfl ⟨rfl, this.1⟩ ⟨_, rfl, this⟩
  | .scalar (.uint u), p, hr, n + 1, hn => by
    simp only [marshalPtr, show deref h p = _ from hr, scalarCell, uintCell]
    have := intLit_nat u.toNat
    exact encLeaf (j := .num _) trivial rfl ⟨rfl, this.1⟩ ⟨_, rfl, this⟩
  | .scalar (.float f), p, hr, n + 1, hn => by
    simp only [marshalPtr, show deref h p = _ from hr, scalarCell, floatCell]
    by_cases hf : finite f = true
    · rw [if_pos hf]
      exact encLeaf (j := .num _) hf rfl ⟨rfl, hl.number f hf⟩ rfl
    · rw [if_neg hf]
      exact .inr ⟨fun hc => hf hc.1, rfl⟩
  | .scalar (.str s), p, hr, n + 1, hn => by
    simp only [marshalPtr, show deref h p = _ from hr, scalarCell, strCell]
    obtain ⟨s', h1, h2⟩ := repaired_text s
    exact encLeaf (j := .str s') trivial rfl h1 ⟨s', rfl, h2⟩
  | .scalar (.ts t), p, hr, n + 1, hn => by
    simp only [marshalPtr, show deref h p = _ from hr, scalarCell, tsCell]
    obtain ⟨s, h1, h2⟩ := timestamp_json t
    rw [compact_ok h1 (by simp [depth])]
    exact encLeaf (j := .str s) trivial rfl h1 ⟨s, rfl, h2⟩
  | .arrNil, p, hr, n + 1, hn => by
    simp only [marshalPtr, show deref h p = _ from hr, arrCell]
    exact encLeaf trivial rfl text_null rfl
  | .arr vs, p, hr, n + 1, hn => by
    obtain ⟨ps, h1, h2⟩ := hr
    simp only [marshalPtr, h1, arrCell]
    refine encArr (marshalItems_spec hl vs h2 n ?_)
    simp only [Val.depth] at hn; omega
  | .objNil, p, hr, n + 1, hn => by
    simp only [marshalPtr, show deref h p = _ from hr, objCell]
    exact encLeaf trivial rfl text_null rfl
  | .obj es, p, hr, n + 1, hn => by
    obtain ⟨m, ps, h1, hm, h2⟩ := hr
    simp only [marshalPtr, h1, objCell, mapOf_at hm]
    refine encObj (marshalFields_spec hl es h2 n ?_)
    simp only [Val.depth] at hn; omega
theorem marshalItems_spec {env : JEnv} (hl : env.Lawful) {h : Heap} : ∀ (vs : List Val) {ps : List Ptr}, ReadsL h ps vs → ∀ (n : Nat), Val.depthL vs ≤ n →
    EncOut (Val.FiniteFloatsL vs ∧ Val.nestL vs ≤ 10000) (fun t => ∃ js, Body js t ∧ SaysL env vs js) (joinText (marshalPtr env h n) ps)
  | [], ps, hr, n, hn => by
    cases ps with
    | nil => exact .inl ⟨⟨trivial, by simp [Val.nestL]⟩, [], rfl, [], rfl, rfl⟩
    | cons => simp [ReadsL] at hr
  | v :: vs, ps, hr, n, hn => by
    cases ps with
    | nil => simp [ReadsL] at hr
    | cons p ps =>
      obtain ⟨h1, h2⟩ := hr
      simp only [Val.depthL] at hn
      have e1 := marshalPtr_spec hl v h1 n (by omega)
      have e2 := marshalItems_spec hl vs h2 n (by omega)
      cases vs with
      | nil =>
        cases ps with
        | cons => simp [ReadsL] at h2
        | nil =>
          simp only [joinText]
          rcases e1 with ⟨h, t, e, j, ht, hs⟩ | ⟨h, e⟩
          · exact .inl ⟨⟨⟨h.1, trivial⟩, by simp only [Val.nestL]; omega⟩, t, e, [j], ⟨t, [], by simp, ht, rfl⟩, ⟨j, [], rfl, hs, rfl⟩⟩
          · exact .inr ⟨fun hc => h ⟨hc.1.1, by have := hc.2; simp only [Val.nestL] at this; omega⟩, e⟩
      | cons v2 vs =>
        cases ps with
        | nil => simp [ReadsL] at h2
        | cons p2 ps =>
          rw [joinText_cons]
          rcases e1 with ⟨h, t, e, j, ht, hs⟩ | ⟨h, e⟩
          · rw [e, bind_ok]
            rcases e2 with ⟨h', t', e', js, hb, hss⟩ | ⟨h', e'⟩
            · rw [e', bind_ok]
              refine .inl ⟨⟨⟨h.1, h'.1⟩, ?_⟩, _, rfl, j :: js, ?_, ⟨j, js, rfl, hs, hss⟩⟩
              · rw [Val.nestL]; omega
              · obtain ⟨j2, r2, rfl, _, _⟩ := hss
                obtain ⟨u, r, rfl, hu, hr2⟩ := hb
                exact ⟨t, 44 :: (u ++ r), rfl, ht, [], u, [], r, by simp, ws_nil, ws_nil, hu, hr2⟩
            · rw [e', bind_error]
              exact .inr ⟨fun hc => h' ⟨hc.1.2, by have := hc.2; rw [Val.nestL] at this; omega⟩, rfl⟩
          · rw [e, bind_error]
            exact .inr ⟨fun hc => h ⟨hc.1.1, by have := hc.2; rw [Val.nestL] at this; omega⟩, rfl⟩
theorem marshalFields_spec {env : JEnv} (hl : env.Lawful) {h : Heap} : ∀ (es : List (Bytes × Val)) {ps : List (Bytes × Ptr)}, ReadsE h ps es → ∀ (n : Nat), Val.depthE es ≤ n →
    EncOut (Val.FiniteFloatsE es ∧ Val.nestE es ≤ 10000) (fun t => ∃ js, BodyE js t ∧ SaysE env es js)
      (joinText (fun e : Bytes × Ptr => (marshalPtr env h n e.2).bind fun t => .ok (encStr e.1 ++ 58 :: t)) ps)
  | [], ps, hr, n, hn => by
    cases ps with
    | nil => exact .inl ⟨⟨trivial, by simp [Val.nestE]⟩, [], rfl, [], rfl, rfl⟩
    | cons => simp [ReadsE] at hr
  | (k, v) :: es, ps, hr, n, hn => by
    match ps with
    | [] => simp [ReadsE] at hr
    | (k0, p) :: ps =>
      obtain ⟨hk, h1, h2⟩ := hr
      simp only [Val.depthE] at hn
      have e1 := encEntry (k := k0) (marshalPtr_spec hl v h1 n (by omega))
      have e2 := marshalFields_spec hl es h2 n (by omega)
      cases es with
      | nil =>
        cases ps with
        | cons => simp [ReadsE] at h2
        | nil =>
          simp only [joinText]
          rcases e1 with ⟨h, t, e, k', q, j, u, rfl, hq, hk', ht, hs⟩ | ⟨h, e⟩
          · exact .inl ⟨⟨⟨h.1, trivial⟩, by simp only [Val.nestE]; omega⟩, _, e, [(k', j)], ⟨q, u, [], by simp, hq, ht, rfl⟩, ⟨k', j, [], rfl, hk ▸ hk', hs, rfl⟩⟩
          · exact .inr ⟨fun hc => h ⟨hc.1.1, by have := hc.2; simp only [Val.nestE] at this; omega⟩, e⟩
      | cons kv2 es =>
        cases ps with
        | nil => simp [ReadsE] at h2
        | cons p2 ps =>
          rw [joinText_cons]
          rcases e1 with ⟨h, t, e, k', q, j, u, rfl, hq, hk', ht, hs⟩ | ⟨h, e⟩
          · simp only at e ⊢
            rw [e, bind_ok]
            rcases e2 with ⟨h', t', e', js, hb, hss⟩ | ⟨h', e'⟩
            · rw [e', bind_ok]
              refine .inl ⟨⟨⟨h.1, h'.1⟩, ?_⟩, _, rfl, (k', j) :: js, ?_, ⟨k', j, js, rfl, hk ▸ hk', hs, hss⟩⟩
              · rw [Val.nestE]; omega
              · obtain ⟨k2, v2⟩ := kv2
                obtain ⟨k2', j2, r2, rfl, _, _, _⟩ := hss
                obtain ⟨q2, u2, r, rfl, hq2, hu, hr2⟩ := hb
                exact ⟨q, u, 44 :: (34 :: (q2 ++ 34 :: 58 :: (u2 ++ r))), by simp, hq, ht, [], q2, [], [], u2, [], r, by simp, ws_nil, ws_nil, ws_nil, ws_nil, hq2, hu, hr2⟩
            · rw [e', bind_error]
              exact .inr ⟨fun hc => h' ⟨hc.1.2, by have := hc.2; rw [Val.nestE] at this; omega⟩, rfl⟩
          · simp only at e ⊢
            rw [e, bind_error]
            exact .inr ⟨fun hc => h ⟨hc.1.1, by have := hc.2; rw [Val.nestE] at this; omega⟩, rfl⟩
end

/-! ## More fuel does not change an outcome -/

/-- The second outcome is the first one, unless that ran out of fuel. -/
def Refines {α : Type} (x y : JOut α) : Prop := x ≠ .fuel → y = x

theorem Refines.refl {α : Type} (x : JOut α) : Refines x x := fun _ => rfl

theorem Refines.bind {α β : Type} {x y : JOut α} {f g : α → JOut β} (h1 : Refines x y) (h2 : ∀ a, Refines (f a) (g a)) : Refines (x.bind f) (y.bind g) := by
  intro hne
  cases x with
  | fuel => exact absurd rfl hne
  | error => rw [h1 (by simp)]; rfl
  | ok a => rw [h1 (by simp)]; exact h2 a hne

theorem joinText_mono {α : Type} {f g : α → JOut Bytes} (h : ∀ x, Refines (f x) (g x)) : ∀ (xs : List α), Refines (joinText f xs) (joinText g xs)
  | [] => Refines.refl _
  | [x] => h x
  | x :: y :: r => by
    rw [joinText_cons, joinText_cons]
    exact (h x).bind fun a => (joinText_mono h (y :: r)).bind fun b => Refines.refl _

theorem marshalPtr_step (env : JEnv) (h : Heap) : ∀ (n : Nat) (p : Ptr), Refines (marshalPtr env h n p) (marshalPtr env h (n + 1) p) := by
  intro n
  induction n with
  | zero => intro p hne; exact absurd rfl hne
  | succ n ih =>
    intro p
    rw [marshalPtr, marshalPtr]
    cases deref h p with
    | none => exact Refines.refl _
    | some c =>
      simp only
      refine Refines.bind ?_ fun _ => Refines.refl _
      cases c.type with
      | array =>
        cases c.array with
        | none => exact Refines.refl _
        | some ps => exact Refines.bind (joinText_mono ih ps) fun _ => Refines.refl _
      | object =>
        cases c.object with
        | none => exact Refines.refl _
        | some m => exact Refines.bind (joinText_mono (fun (e : Bytes × Ptr) => Refines.bind (ih e.2) fun _ => Refines.refl _) _) fun _ => Refines.refl _
      | _ => exact Refines.refl _

theorem marshalPtr_mono (env : JEnv) (h : Heap) (p : Ptr) {n n' : Nat} (hn : n ≤ n') : Refines (marshalPtr env h n p) (marshalPtr env h n' p) := by
  induction hn with
  | refl => exact Refines.refl _
  | step _ ih =>
    intro hne
    have := ih hne
    rw [marshalPtr_step env h _ p (by rw [this]; exact hne), this]

theorem marshalEvent_mono (env : JEnv) (h : Heap) (e : Event) {n n' : Nat} (hn : n ≤ n') : Refines (marshalEvent env n h e) (marshalEvent env n' h e) := by
  unfold marshalEvent
  refine Refines.bind ?_ fun _ => Refines.refl _
  cases e with
  | none => exact Refines.refl _
  | some m => exact Refines.bind (joinText_mono (fun (e : Bytes × Ptr) => Refines.bind (marshalPtr_mono env h e.2 hn) fun _ => Refines.refl _) _) fun _ => Refines.refl _

end Sawmill
